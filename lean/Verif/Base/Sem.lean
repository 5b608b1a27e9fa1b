import Mathlib.Logic.Function.Basic

/-!
# Semantics of the C++ fragment

Words, arrays, loops and the outcome monad `M` used by every model definition.
Nothing in this file models a particular line of the repository.
-/

namespace EvalRound

/-- `uint64_t`. -/
abbrev W := BitVec 64

/-- Abnormal outcomes of a C++ evaluation other than divergence. -/
inductive Fault
  /-- undefined behaviour: out-of-bounds access, division by zero, over-wide shift,
  signed overflow, read of an indeterminate object -/
  | ub
  /-- a failed `assert` -/
  | assertFail
  deriving DecidableEq, Repr

/-- Outcome of a C++ evaluation: `some (ok a)` is a value, `some (error f)` a fault,
`none` divergence (the least element, see `whileM`). -/
abbrev M := ExceptT Fault Option

/-- undefined behaviour -/
def ub {α} : M α := throw Fault.ub

/-- a computation that never returns -/
def diverge {α} : M α := ExceptT.mk none

/-- C++ `assert(b)` (the repository is built without `NDEBUG`). -/
def assertM (b : Bool) : M Unit := if b then pure () else throw Fault.assertFail

/-- The evaluation `x` returns a value satisfying `P` (total correctness). -/
def Ok {α} (x : M α) (P : α → Prop) : Prop := ∃ a, x = pure a ∧ P a

/-- Array read with a computed index. -/
def rd {n : Nat} {α} (a : Fin n → α) (j : Nat) : M α :=
  if h : j < n then pure (a ⟨j, h⟩) else ub

/-- Array write with a computed index. -/
def wr {n : Nat} {α} (a : Fin n → α) (j : Nat) (v : α) : M (Fin n → α) :=
  if h : j < n then pure (Function.update a ⟨j, h⟩ v) else ub

/-- `for(i=0;i<n;i++) s = f i s` where `n` is the length of the arrays indexed by `i`
(so that `i` is a typed index), and the body has only normal outcomes. -/
def forFin {σ : Type _} : (n : Nat) → (Fin n → σ → σ) → σ → σ
  | 0, _, s => s
  | n+1, f, s => f (Fin.last n) (forFin n (fun i => f i.castSucc) s)

/-- `for(i=n-1;i>=0;i--) s = f i s`, typed index. -/
def forFinDown {σ : Type _} : (n : Nat) → (Fin n → σ → σ) → σ → σ
  | 0, _, s => s
  | n+1, f, s => forFinDown n (fun i => f i.castSucc) (f (Fin.last n) s)

/-- `c` iterations of a loop body starting with index `lo`. -/
def forFrom {σ : Type _} (body : Nat → σ → M σ) : (lo c : Nat) → σ → M σ
  | _, 0, s => pure s
  | lo, c+1, s => do
    let s ← body lo s
    forFrom body (lo+1) c s

/-- `for(i=lo;i<hi;i++) s = body i s`. -/
def forUp {σ : Type _} (lo hi : Nat) (body : Nat → σ → M σ) (s : σ) : M σ :=
  forFrom body lo (hi - lo) s

/-- `while(c(s)) s = b(s)`; non-termination is the outcome `none`. -/
def whileM {σ : Type} (c : σ → Bool) (b : σ → M σ) (s : σ) : M σ :=
  if c s then do
    let s' ← b s
    whileM c b s'
  else pure s
partial_fixpoint

/-- A local array whose entries are indeterminate (`none`) until written. -/
abbrev Mem (n : Nat) (α : Type _) := Fin n → Option α

/-- Read of a local array: out of bounds or indeterminate is undefined. -/
def rdM {n : Nat} {α} (a : Mem n α) (j : Nat) : M α :=
  if h : j < n then (match a ⟨j, h⟩ with | some v => pure v | none => ub) else ub

/-- Write of a local array. -/
def wrM {n : Nat} {α} (a : Mem n α) (j : Nat) (v : α) : M (Mem n α) := wr a j (some v)

/-- `for(i=0;i<n;i++) a[i] = f(i)` where `f` does not read `a`: the loop that fills an array. -/
def tabM {α : Type _} : (n : Nat) → (Nat → M α) → M (Fin n → α)
  | 0, _ => pure (fun i => i.elim0)
  | n+1, f => do
    let a ← tabM n f
    let x ← f n
    pure (fun i => if h : i.val < n then a ⟨i.val, h⟩ else x)

/-! ## Rules -/

variable {α β : Type _}

theorem Ok.pure {a : α} {P : α → Prop} (h : P a) : Ok (Pure.pure a : M α) P := ⟨a, rfl, h⟩

theorem Ok.bind {x : M α} {f : α → M β} {P : α → Prop} {R : β → Prop}
    (hx : Ok x P) (hf : ∀ a, P a → Ok (f a) R) : Ok (x >>= f) R := by
  obtain ⟨a, rfl, ha⟩ := hx
  rw [pure_bind]
  exact hf a ha

theorem Ok.mono {x : M α} {P R : α → Prop} (hx : Ok x P) (h : ∀ a, P a → R a) : Ok x R := by
  obtain ⟨a, e, ha⟩ := hx
  exact ⟨a, e, h a ha⟩

theorem pure_inj {a b : α} (h : (Pure.pure a : M α) = Pure.pure b) : a = b := by
  have : (some (Except.ok a) : Option (Except Fault α)) = some (Except.ok b) := h
  simpa using this

theorem Ok.of_eq {x : M α} {P : α → Prop} {a : α} (hx : Ok x P) (e : x = Pure.pure a) : P a := by
  obtain ⟨b, e', hb⟩ := hx
  rw [e'] at e
  exact pure_inj e ▸ hb

theorem ub_ne_pure (a : α) : (ub : M α) ≠ Pure.pure a := by
  intro h
  have : (some (Except.error Fault.ub) : Option (Except Fault α)) = some (Except.ok a) := h
  simp at this

theorem diverge_ne_pure (a : α) : (diverge : M α) ≠ Pure.pure a := by
  intro h
  have : (none : Option (Except Fault α)) = some (Except.ok a) := h
  simp at this

/-- A sequence returns only if both parts return. -/
theorem bind_eq_pure {x : M α} {f : α → M β} {b : β} (h : x >>= f = Pure.pure b) :
    ∃ a, x = Pure.pure a ∧ f a = Pure.pure b := by
  match x with
  | none => exact absurd h (diverge_ne_pure b)
  | some (.ok a) => exact ⟨a, rfl, h⟩
  | some (.error e) =>
    have : (some (Except.error e) : Option (Except Fault β)) = some (Except.ok b) := h
    simp at this

@[simp] theorem ub_bind (f : α → M β) : (ub : M α) >>= f = ub := rfl
@[simp] theorem diverge_bind (f : α → M β) : (diverge : M α) >>= f = diverge := rfl

theorem rd_of_lt {n} (a : Fin n → α) {j : Nat} (h : j < n) : rd a j = Pure.pure (a ⟨j, h⟩) := by
  simp [rd, h]

theorem wr_of_lt {n} (a : Fin n → α) {j : Nat} (h : j < n) (v : α) :
    wr a j v = Pure.pure (Function.update a ⟨j, h⟩ v) := by
  simp [wr, h]

theorem rd_of_ge {n} (a : Fin n → α) {j : Nat} (h : n ≤ j) : rd a j = ub := by
  simp [rd, Nat.not_lt.mpr h]

theorem forFin_inv {σ : Type _} {n : Nat} {f : Fin n → σ → σ} {s : σ} (P : Nat → σ → Prop)
    (h0 : P 0 s) (hs : ∀ (i : Fin n) s, P i s → P (i+1) (f i s)) : P n (forFin n f s) := by
  induction n with
  | zero => exact h0
  | succ n ih =>
    exact hs (Fin.last n) _ (ih (f := fun i => f i.castSucc) (fun i s h => hs i.castSucc s h))

theorem forFinDown_inv {σ : Type _} {n : Nat} {f : Fin n → σ → σ} {s : σ} (P : Nat → σ → Prop)
    (h0 : P n s) (hs : ∀ (i : Fin n) s, P (i+1) s → P i (f i s)) : P 0 (forFinDown n f s) := by
  induction n generalizing s with
  | zero => exact h0
  | succ n ih =>
    exact ih (f := fun i => f i.castSucc) (hs (Fin.last n) s h0) (fun i s h => hs i.castSucc s h)

theorem forFrom_inv {σ : Type _} {body : Nat → σ → M σ} {lo c : Nat} {s : σ}
    (P : Nat → σ → Prop) (h0 : P lo s)
    (hs : ∀ i s, lo ≤ i → i < lo + c → P i s → Ok (body i s) (P (i+1))) :
    Ok (forFrom body lo c s) (P (lo + c)) := by
  induction c generalizing lo s with
  | zero => exact Ok.pure h0
  | succ c ih =>
    refine Ok.bind (hs lo s (Nat.le_refl _) (by omega) h0) fun a ha => ?_
    have := ih (lo := lo+1) ha (fun i s h1 h2 h3 => hs i s (by omega) (by omega) h3)
    rwa [show lo + 1 + c = lo + (c+1) by omega] at this

theorem forUp_inv {σ : Type _} {body : Nat → σ → M σ} {lo hi : Nat} {s : σ} (hlh : lo ≤ hi)
    (P : Nat → σ → Prop) (h0 : P lo s)
    (hs : ∀ i s, lo ≤ i → i < hi → P i s → Ok (body i s) (P (i+1))) :
    Ok (forUp lo hi body s) (P hi) := by
  have := forFrom_inv (c := hi - lo) P h0 (fun i s h1 h2 h3 => hs i s h1 (by omega) h3)
  rwa [show lo + (hi - lo) = hi by omega] at this

/-- Partial correctness of `for`: whatever is returned satisfies the invariant. -/
theorem forUp_partial {σ : Type _} {body : Nat → σ → M σ} {lo hi : Nat} {s r : σ} (P : σ → Prop)
    (h0 : P s) (hs : ∀ i s s', lo ≤ i → i < hi → P s → body i s = Pure.pure s' → P s')
    (hr : forUp lo hi body s = Pure.pure r) : P r := by
  have key : ∀ c lo' s, lo ≤ lo' → lo' + c ≤ hi → P s → forFrom body lo' c s = Pure.pure r → P r := by
    intro c
    induction c with
    | zero => intro lo' s _ _ hP h; exact pure_inj h ▸ hP
    | succ c ih =>
      intro lo' s h1 h2 hP h
      obtain ⟨a, ha, hf⟩ := bind_eq_pure h
      exact ih (lo'+1) a (by omega) (by omega) (hs lo' s a h1 (by omega) hP ha) hf
  by_cases hlh : lo ≤ hi
  · exact key (hi - lo) lo s (Nat.le_refl _) (by omega) h0 hr
  · unfold forUp at hr
    rw [Nat.sub_eq_zero_of_le (by omega)] at hr
    exact pure_inj hr ▸ h0

/-- A loop whose iteration `k` fails, fails. -/
theorem forUp_fault {σ : Type _} {body : Nat → σ → M σ} {lo hi k : Nat} {s : σ} {f : Fault}
    (h1 : lo ≤ k) (h2 : k < hi) (P : Nat → σ → Prop) (h0 : P lo s)
    (hs : ∀ i s, lo ≤ i → i < k → P i s → Ok (body i s) (P (i+1)))
    (hk : ∀ s, P k s → body k s = throw f) : forUp lo hi body s = throw f := by
  have key : ∀ c lo' s, lo ≤ lo' → lo' ≤ k → k < lo' + c → P lo' s → forFrom body lo' c s = throw f := by
    intro c
    induction c with
    | zero => intro lo' s _ h1 h2; omega
    | succ c ih =>
      intro lo' s h1 h2 h3 hP
      show (body lo' s >>= fun s => forFrom body (lo'+1) c s) = throw f
      by_cases e : lo' = k
      · subst e; rw [hk s hP]; rfl
      · obtain ⟨a, ha, hPa⟩ := hs lo' s h1 (by omega) hP
        rw [ha, pure_bind]
        exact ih (lo'+1) a (by omega) (by omega) (by omega) hPa
  exact key (hi - lo) lo s (Nat.le_refl _) h1 (by omega) h0

theorem forUp_inv_le {σ : Type _} {body : Nat → σ → M σ} {lo hi : Nat} {s : σ} (hlh : hi ≤ lo)
    (P : σ → Prop) (h0 : P s) : Ok (forUp lo hi body s) P := by
  unfold forUp
  rw [Nat.sub_eq_zero_of_le hlh]
  exact Ok.pure h0

theorem whileM_true {σ : Type} {c : σ → Bool} {b : σ → M σ} {s : σ} (h : c s = true) :
    whileM c b s = b s >>= whileM c b := by
  rw [whileM]; simp [h]

theorem whileM_false {σ : Type} {c : σ → Bool} {b : σ → M σ} {s : σ} (h : c s = false) :
    whileM c b s = Pure.pure s := by
  rw [whileM]; simp [h]

/-- Total correctness of `while`: an invariant and a decreasing measure. -/
theorem whileM_inv {σ : Type} {c : σ → Bool} {b : σ → M σ} (P : σ → Prop) (μ : σ → Nat)
    (hs : ∀ s, P s → c s = true → Ok (b s) (fun s' => P s' ∧ μ s' < μ s)) {s : σ} (h0 : P s) :
    Ok (whileM c b s) (fun s' => P s' ∧ c s' = false) := by
  induction hn : μ s using Nat.strongRecOn generalizing s with
  | _ n ih =>
    subst hn
    cases hc : c s with
    | false => rw [whileM_false hc]; exact Ok.pure ⟨h0, hc⟩
    | true =>
      rw [whileM_true hc]
      exact Ok.bind (hs s h0 hc) fun a ⟨ha, hm⟩ => ih _ hm ha rfl

/-- Partial correctness of `while`: whatever is returned satisfies the invariant. -/
theorem whileM_partial {σ : Type} {c : σ → Bool} {b : σ → M σ} (P : σ → Prop)
    (hs : ∀ s s', P s → c s = true → b s = Pure.pure s' → P s') {s r : σ} (h0 : P s)
    (hr : whileM c b s = Pure.pure r) : P r ∧ c r = false := by
  have key : ∀ s, P s → ∀ r, whileM c b s = Pure.pure r → P r ∧ c r = false := by
    apply whileM.fixpoint_induct c b
      (motive := fun f => ∀ s, P s → ∀ r, f s = Pure.pure r → P r ∧ c r = false)
    · apply Lean.Order.admissible_pi_apply (P := fun s (x : M σ) =>
        P s → ∀ r, x = Pure.pure r → P r ∧ c r = false)
      intro s
      apply Lean.Order.admissible_pi
      intro _
      apply Lean.Order.admissible_pi
      intro r
      exact Lean.Order.Option.admissible_eq_some (α := Except Fault σ) (P r ∧ c r = false) _
    · intro f ih s hP r hr
      cases hc : c s with
      | false =>
        simp only [hc, Bool.false_eq_true, if_false] at hr
        exact pure_inj hr ▸ ⟨hP, hc⟩
      | true =>
        simp only [hc, if_true] at hr
        obtain ⟨a, ha, hf⟩ := bind_eq_pure hr
        exact ih a (hs s a hP hc ha) r hf
  exact key s h0 r hr

/-- A `while` whose condition stays true never returns. -/
theorem whileM_diverge {σ : Type} {c : σ → Bool} {b : σ → M σ} (P : σ → Prop)
    (hs : ∀ s, P s → c s = true ∧ Ok (b s) P) {s : σ} (h0 : P s) : whileM c b s = diverge := by
  have key : ∀ s, P s → ∀ r : Except Fault σ, whileM c b s = some r → False := by
    apply whileM.fixpoint_induct c b
      (motive := fun f => ∀ s, P s → ∀ r : Except Fault σ, f s = some r → False)
    · apply Lean.Order.admissible_pi_apply (P := fun s (x : M σ) =>
        P s → ∀ r : Except Fault σ, x = some r → False)
      intro s
      apply Lean.Order.admissible_pi
      intro _
      apply Lean.Order.admissible_pi
      intro r
      exact Lean.Order.Option.admissible_eq_some (α := Except Fault σ) False _
    · intro f ih s hP r hr
      obtain ⟨hc, a, ha, hPa⟩ := hs s hP
      simp only [hc, if_true] at hr
      rw [ha, pure_bind] at hr
      exact ih a hPa r hr
  have := key s h0
  match h : whileM c b s with
  | none => rfl
  | some r => exact (this r h).elim

theorem tabM_spec {n : Nat} {f : Nat → M α} {P : Nat → α → Prop}
    (h : ∀ i, i < n → Ok (f i) (P i)) : Ok (tabM n f) fun a => ∀ i : Fin n, P i (a i) := by
  induction n with
  | zero => exact Ok.pure fun i => i.elim0
  | succ n ih =>
    refine Ok.bind (ih fun i hi => h i (by omega)) fun a ha => ?_
    refine Ok.bind (h n (by omega)) fun x hx => Ok.pure fun i => ?_
    by_cases hi : i.val < n
    · simp only [hi, dif_pos]; exact ha ⟨i, hi⟩
    · have : i.val = n := by have := i.isLt; omega
      simp only [hi, dif_neg, not_false_iff]; rw [this]; exact hx

theorem tabM_eq {n : Nat} {f : Nat → M α} {g : Fin n → α}
    (h : ∀ i : Fin n, f i = Pure.pure (g i)) : tabM n f = Pure.pure g := by
  obtain ⟨a, e, ha⟩ := tabM_spec (n := n) (f := f) (P := fun i v => ∀ h : i < n, v = g ⟨i, h⟩)
    (fun i hi => ⟨g ⟨i, hi⟩, h ⟨i, hi⟩, fun _ => rfl⟩)
  rw [e]
  exact congrArg Pure.pure (funext fun i => ha i i.isLt)

theorem forFin_map {n : Nat} {β : Type _} (f : Fin n → β → β) (a : Fin n → β) :
    forFin n (fun i (a : Fin n → β) => Function.update a i (f i (a i))) a = fun i => f i (a i) := by
  have h := forFin_inv (n := n) (s := a)
    (f := fun i (a : Fin n → β) => Function.update a i (f i (a i)))
    (P := fun k b => ∀ i : Fin n, b i = if i.val < k then f i (a i) else a i)
    (fun i => by simp) ?_
  · funext i; rw [h i]; simp
  · intro i b hb j
    by_cases e : j = i
    · subst e; simp [hb j]
    · have : j.val ≠ i.val := fun h => e (Fin.ext h)
      rw [Function.update_of_ne e, hb j]
      by_cases h2 : j.val < i.val
      · rw [if_pos h2, if_pos (by omega)]
      · rw [if_neg h2, if_neg (by omega)]

end EvalRound

import Verif.Base.Sem
import Mathlib.Algebra.BigOperators.Fin
import Mathlib.Algebra.BigOperators.Pi
import Mathlib.Algebra.Order.BigOperators.Group.Finset

/-!
# Parallel loops

An iteration of a parallel loop is a program whose only visible actions are single reads and writes
of memory cells shared with the other iterations; everything else happens in local variables. The
iterations of a `#pragma omp parallel for` run in any interleaving of these actions (the
interleavings of a team of threads that share out the iterations are among them). Nothing in this
file models a particular line of the repository.
-/

namespace EvalRound

/-- A program over cells `A`, cell `a` holding values of type `V a`. -/
inductive Prog (A : Type) (V : A → Type) (α : Type) : Type
  | ret (x : α)
  | rd (a : A) (k : V a → Prog A V α)
  | wr (a : A) (v : V a) (k : Prog A V α)
  /-- a fault, or for `none` a computation that never returns -/
  | stop (e : Option Fault)

namespace Prog
variable {A : Type} {V : A → Type} {α β : Type}

protected def bind : Prog A V α → (α → Prog A V β) → Prog A V β
  | ret x, f => f x
  | rd a k, f => rd a (fun v => (k v).bind f)
  | wr a v k, f => wr a v (k.bind f)
  | stop e, _ => stop e

instance : Monad (Prog A V) where
  pure := ret
  bind := Prog.bind

/-- read a cell -/
def get (a : A) : Prog A V (V a) := rd a ret

/-- write a cell -/
def put (a : A) (v : V a) : Prog A V Unit := wr a v (ret ())

/-- a local computation -/
def lift (x : M α) : Prog A V α :=
  match (x : Option (Except Fault α)) with
  | some (Except.ok a) => ret a
  | some (Except.error f) => stop (some f)
  | none => stop none

/-- `for(i=0;i<n;i++)`, typed index -/
def forFin {σ : Type} : (n : Nat) → (Fin n → σ → Prog A V σ) → σ → Prog A V σ
  | 0, _, s => ret s
  | n+1, f, s => (forFin n (fun i => f i.castSucc) s).bind (f (Fin.last n))

/-- `c` rounds starting with index `lo` -/
def forFrom {σ : Type} (body : Nat → σ → Prog A V σ) : (lo c : Nat) → σ → Prog A V σ
  | _, 0, s => ret s
  | lo, c+1, s => (body lo s).bind fun s => forFrom body (lo+1) c s

/-- fill a local array from left to right -/
def tab {σ : Type} : (n : Nat) → (Fin n → Prog A V σ) → Prog A V (Fin n → σ)
  | 0, _ => ret (fun i => i.elim0)
  | n+1, f => (tab n (fun i => f i.castSucc)).bind fun a => (f (Fin.last n)).bind fun x =>
      ret (fun i => if h : i.val < n then a ⟨i.val, h⟩ else x)

/-- the program alone, on memory `m` -/
def exec [DecidableEq A] : Prog A V α → ((a : A) → V a) → M (α × ((a : A) → V a))
  | ret x, m => Pure.pure (x, m)
  | rd a k, m => exec (k (m a)) m
  | wr a v k, m => exec k (Function.update m a v)
  | stop (some f), _ => throw f
  | stop none, _ => diverge

/-- the number of accesses of the program alone -/
def len [DecidableEq A] : Prog A V α → ((a : A) → V a) → Nat
  | ret _, _ => 0
  | rd a k, m => len (k (m a)) m + 1
  | wr a v k, m => len k (Function.update m a v) + 1
  | stop _, _ => 0

/-- every read is in `R` and every write in `T`, whatever values are read -/
def Disc (R T : A → Prop) : Prog A V α → Prop
  | ret _ => True
  | rd a k => R a ∧ ∀ v, Disc R T (k v)
  | wr a _ k => T a ∧ Disc R T k
  | stop _ => True

end Prog

/-- Memory and what is left of each of the `n` iterations. -/
structure Pool (n : Nat) (A : Type) (V : A → Type) where
  mem : (a : A) → V a
  left : Fin n → Prog A V Unit

/-- One access by one of the iterations. -/
inductive Pool.Step {n : Nat} {A : Type} {V : A → Type} [DecidableEq A] : Pool n A V → Pool n A V → Prop
  | rd (c : Pool n A V) (i : Fin n) (a : A) (k : V a → Prog A V Unit) (h : c.left i = Prog.rd a k) :
      Pool.Step c ⟨c.mem, Function.update c.left i (k (c.mem a))⟩
  | wr (c : Pool n A V) (i : Fin n) (a : A) (v : V a) (k : Prog A V Unit) (h : c.left i = Prog.wr a v k) :
      Pool.Step c ⟨Function.update c.mem a v, Function.update c.left i k⟩

/-- `t` accesses in some order -/
inductive Pool.Steps {n : Nat} {A : Type} {V : A → Type} [DecidableEq A] : Nat → Pool n A V → Pool n A V → Prop
  | zero (c : Pool n A V) : Pool.Steps 0 c c
  | succ {t : Nat} {c d e : Pool n A V} (h : Pool.Steps t c d) (h' : Pool.Step d e) : Pool.Steps (t+1) c e

/-- all iterations have ended -/
def Pool.Done {n : Nat} {A : Type} {V : A → Type} (c : Pool n A V) : Prop := ∀ i, c.left i = Prog.ret ()

/-- Every interleaving of the iterations `p` on memory `m` ends, without a fault, in memory `m'`: there is
a bound on the number of accesses, and as long as not every iteration has ended some iteration can go on. -/
def AllSchedules {n : Nat} {A : Type} {V : A → Type} [DecidableEq A] (p : Fin n → Prog A V Unit)
    (m m' : (a : A) → V a) : Prop :=
  (∃ B, ∀ t c, Pool.Steps t ⟨m, p⟩ c → t ≤ B) ∧
  ∀ t c, Pool.Steps t ⟨m, p⟩ c → (c.Done ∧ c.mem = m') ∨ (¬ c.Done ∧ ∃ d, Pool.Step c d)

/-- The loop in source order. -/
def seqRun {A : Type} {V : A → Type} [DecidableEq A] : (n : Nat) → (Fin n → Prog A V Unit) → ((a : A) → V a) →
    M ((a : A) → V a)
  | 0, _, m => pure m
  | n+1, p, m => do
    let m ← seqRun n (fun i => p i.castSucc) m
    let r ← (p (Fin.last n)).exec m
    pure r.2

/-! ## rules -/

namespace Prog
variable {A : Type} {V : A → Type} {α β : Type}

theorem bind_def (p : Prog A V α) (f : α → Prog A V β) : p >>= f = p.bind f := rfl

theorem exec_bind [DecidableEq A] (p : Prog A V α) (f : α → Prog A V β) (m : (a : A) → V a) :
    (p.bind f).exec m = p.exec m >>= fun r => (f r.1).exec r.2 := by
  induction p generalizing m with
  | ret x => rfl
  | rd a k ih => exact ih (m a) m
  | wr a v k ih => exact ih _
  | stop e => cases e <;> rfl

theorem exec_lift [DecidableEq A] {x : M α} {a : α} (h : x = Pure.pure a) (m : (a : A) → V a) :
    (lift x : Prog A V α).exec m = Pure.pure (a, m) := by subst h; rfl

theorem Disc.bind {R T : A → Prop} {p : Prog A V α} {f : α → Prog A V β} (hp : Disc R T p) (hf : ∀ x, Disc R T (f x)) :
    Disc R T (p.bind f) := by
  induction p with
  | ret x => exact hf x
  | rd a k ih => exact ⟨hp.1, fun v => ih v (hp.2 v)⟩
  | wr a v k ih => exact ⟨hp.1, ih hp.2⟩
  | stop e => trivial

theorem Disc.lift {R T : A → Prop} (x : M α) : Disc R T (Prog.lift x : Prog A V α) := by
  unfold Prog.lift
  split <;> trivial

theorem Disc.get {R T : A → Prop} {a : A} (h : R a) : Disc R T (Prog.get a : Prog A V (V a)) := ⟨h, fun _ => trivial⟩

theorem Disc.put {R T : A → Prop} {a : A} (v : V a) (h : T a) : Disc R T (Prog.put a v) := ⟨h, trivial⟩

theorem Disc.forFin {R T : A → Prop} {σ : Type} {n : Nat} {f : Fin n → σ → Prog A V σ} (h : ∀ i s, Disc R T (f i s)) (s : σ) :
    Disc R T (Prog.forFin n f s) := by
  induction n with
  | zero => trivial
  | succ n ih => exact Disc.bind (ih fun i => h i.castSucc) fun s => h _ s

theorem Disc.forFrom {R T : A → Prop} {σ : Type} {f : Nat → σ → Prog A V σ} (h : ∀ i s, Disc R T (f i s)) (lo c : Nat) (s : σ) :
    Disc R T (Prog.forFrom f lo c s) := by
  induction c generalizing lo s with
  | zero => trivial
  | succ c ih => exact Disc.bind (h _ _) fun _ => ih _ _

theorem Disc.tab {R T : A → Prop} {σ : Type} {n : Nat} {f : Fin n → Prog A V σ} (h : ∀ i, Disc R T (f i)) :
    Disc R T (Prog.tab n f) := by
  induction n with
  | zero => trivial
  | succ n ih => exact Disc.bind (ih fun i => h i.castSucc) fun _ => Disc.bind (h _) fun _ => trivial

/-- a table of computations that do not write -/
theorem exec_tab [DecidableEq A] {σ : Type} {n : Nat} {f : Fin n → Prog A V σ} {v : Fin n → σ} {m : (a : A) → V a}
    (h : ∀ i, (f i).exec m = Pure.pure (v i, m)) : (Prog.tab n f).exec m = Pure.pure (v, m) := by
  induction n with
  | zero => exact congrArg Pure.pure (Prod.ext (funext fun i => i.elim0) rfl)
  | succ n ih =>
    simp only [Prog.tab, exec_bind]
    rw [ih (v := fun i => v i.castSucc) (fun i => h _), pure_bind, h, pure_bind]
    refine congrArg Pure.pure (Prod.ext (funext fun i => ?_) rfl)
    by_cases hi : i.val < n
    · simp only [hi, dif_pos]; rfl
    · simp only [hi, dif_neg, not_false_iff]
      exact congrArg v (Fin.ext (show n = i.val by have := i.isLt; omega))

/-- simulation of a pure loop -/
theorem exec_forFin [DecidableEq A] {σ τ : Type} {n : Nat} (R : σ → ((a : A) → V a) → τ → Prop) {f : Fin n → σ → Prog A V σ}
    {g : Fin n → τ → τ}
    (hs : ∀ i s m t, R s m t → Ok ((f i s).exec m) fun r => R r.1 r.2 (g i t))
    {s : σ} {m : (a : A) → V a} {t : τ} (h0 : R s m t) :
    Ok ((Prog.forFin n f s).exec m) fun r => R r.1 r.2 (EvalRound.forFin n g t) := by
  induction n with
  | zero => exact Ok.pure h0
  | succ n ih =>
    show Ok (((Prog.forFin n (fun i => f i.castSucc) s).bind (f (Fin.last n))).exec m) _
    rw [exec_bind]
    exact Ok.bind (ih fun i s m t h => hs _ s m t h) fun r hr => hs _ _ _ _ hr

/-- a loop with an invariant -/
theorem exec_forFin_inv [DecidableEq A] {σ : Type} {n : Nat} {f : Fin n → σ → Prog A V σ} (R : Nat → σ → ((a : A) → V a) → Prop)
    (hs : ∀ i : Fin n, ∀ s m, R i s m → Ok ((f i s).exec m) fun r => R (i+1) r.1 r.2)
    {s : σ} {m : (a : A) → V a} (h0 : R 0 s m) :
    Ok ((Prog.forFin n f s).exec m) fun r => R n r.1 r.2 := by
  induction n with
  | zero => exact Ok.pure h0
  | succ n ih =>
    show Ok (((Prog.forFin n (fun i => f i.castSucc) s).bind (f (Fin.last n))).exec m) _
    rw [exec_bind]
    exact Ok.bind (ih fun i s m h => hs i.castSucc s m h) fun r hr => hs (Fin.last n) _ _ hr

/-- simulation of a checked loop -/
theorem exec_forFrom [DecidableEq A] {σ τ : Type} (R : σ → ((a : A) → V a) → τ → Prop) {f : Nat → σ → Prog A V σ} {g : Nat → τ → M τ}
    (hs : ∀ i s m t t', R s m t → g i t = pure t' → Ok ((f i s).exec m) fun r => R r.1 r.2 t')
    {lo c : Nat} {s : σ} {m : (a : A) → V a} {t t' : τ} (h0 : R s m t) (ht : EvalRound.forFrom g lo c t = pure t') :
    Ok ((Prog.forFrom f lo c s).exec m) fun r => R r.1 r.2 t' := by
  induction c generalizing lo s m t with
  | zero => exact Ok.pure (pure_inj ht ▸ h0)
  | succ c ih =>
    obtain ⟨t1, h1, h2⟩ := bind_eq_pure ht
    show Ok (((f lo s).bind fun s => Prog.forFrom f (lo+1) c s).exec m) _
    rw [exec_bind]
    exact Ok.bind (hs lo s m t t1 h0 h1) fun r hr => ih hr h2

end Prog

/-! ## the schedule does not matter -/

section
variable {A : Type} {V : A → Type} [DecidableEq A] {α : Type}

/-- a program that keeps to its cells does the same on memories that agree on them -/
theorem exec_agree {R T : A → Prop} {p : Prog A V α} (hp : p.Disc R T) : ∀ {m m' : (a : A) → V a},
    (∀ a, R a → m a = m' a) → ∀ {r}, p.exec m = pure r → Ok (p.exec m') fun r' => r'.1 = r.1 ∧
      (∀ a, R a → r'.2 a = r.2 a) ∧ (∀ a, ¬ T a → r'.2 a = m' a) ∧ p.len m' = p.len m := by
  induction p with
  | ret x =>
    intro m m' h r hr
    have e : (x, m) = r := pure_inj hr
    subst e
    exact Ok.pure ⟨rfl, fun a ha => (h a ha).symm, fun _ _ => rfl, rfl⟩
  | rd a k ih =>
    intro m m' h r hr
    have e := h a hp.1
    have := ih (m a) (hp.2 _) h hr
    simp only [Prog.exec, Prog.len]
    rw [← e]
    exact Ok.mono this fun r' ⟨h1, h2, h3, h4⟩ => ⟨h1, h2, h3, by rw [h4]⟩
  | wr a v k ih =>
    intro m m' h r hr
    have h' : ∀ b, R b → Function.update m a v b = Function.update m' a v b := by
      intro b hb
      by_cases hab : b = a
      · subst hab; simp
      · rw [Function.update_of_ne hab, Function.update_of_ne hab, h b hb]
    refine Ok.mono (ih hp.2 h' hr) fun r' ⟨h1, h2, h3, h4⟩ => ⟨h1, h2, fun b hb => ?_, ?_⟩
    · rw [h3 b hb, Function.update_of_ne]
      rintro rfl
      exact hb hp.1
    · simp only [Prog.len]; rw [h4]
  | stop e =>
    intro m m' h r hr
    cases e <;> exact nomatch hr

theorem Pool.step_iff {n : Nat} {c d : Pool n A V} (h : Pool.Step c d) : ∃ i, (∀ j, j ≠ i → d.left j = c.left j) ∧
    ((∃ a k, c.left i = Prog.rd a k ∧ d.mem = c.mem ∧ d.left i = k (c.mem a)) ∨
     (∃ a v k, c.left i = Prog.wr a v k ∧ d.mem = Function.update c.mem a v ∧ d.left i = k)) := by
  cases h with
  | rd i a k h => exact ⟨i, fun j hj => Function.update_of_ne hj _ _, Or.inl ⟨a, k, h, rfl, Function.update_self _ _ _⟩⟩
  | wr i a v k h => exact ⟨i, fun j hj => Function.update_of_ne hj _ _, Or.inr ⟨a, v, k, h, rfl, Function.update_self _ _ _⟩⟩

/-- Iterations with disjoint sets `Own i` of written cells that otherwise only read cells nobody writes:
every schedule leads to the memory `m'` in which each iteration's cells are as if it had run alone. -/
theorem all_schedules {n : Nat} {p : Fin n → Prog A V Unit} {m m' : (a : A) → V a} {Own : Fin n → A → Prop}
    (Sh : A → Prop) (hdis : ∀ i j a, Own i a → Own j a → i = j) (hsh : ∀ i a, Sh a → ¬ Own i a)
    (hd : ∀ i, (p i).Disc (fun a => Own i a ∨ Sh a) (Own i))
    (hsolo : ∀ i, Ok ((p i).exec m) fun r => ∀ a, Own i a → r.2 a = m' a)
    (hout : ∀ a, (∀ i, ¬ Own i a) → m' a = m a) : AllSchedules p m m' := by
  -- the invariant
  let Inv : Nat → Pool n A V → Prop := fun t c =>
    (∀ i, (c.left i).Disc (fun a => Own i a ∨ Sh a) (Own i)) ∧
    (∀ i, Ok ((c.left i).exec c.mem) fun r => ∀ a, Own i a → r.2 a = m' a) ∧
    (∀ a, (∀ i, ¬ Own i a) → m' a = c.mem a) ∧
    t + ∑ i, (c.left i).len c.mem = ∑ i, (p i).len m
  have hinv : ∀ t c, Pool.Steps t ⟨m, p⟩ c → Inv t c := by
    intro t c h
    generalize hc : (⟨m, p⟩ : Pool n A V) = c0 at h
    induction h with
    | zero c =>
      subst hc
      exact ⟨hd, hsolo, hout, by simp⟩
    | succ h h' ih =>
      rename_i t c d e
      obtain ⟨i1, i2, i3, i4⟩ := ih hc
      obtain ⟨i, hj, hcase⟩ := Pool.step_iff h'
      rcases hcase with ⟨a, k, hl, hm, hk⟩ | ⟨a, v, k, hl, hm, hk⟩
      · have hdi := i1 i
        rw [hl] at hdi
        refine ⟨fun j => ?_, fun j => ?_, by rw [hm]; exact i3, ?_⟩
        · by_cases h : j = i
          · subst h; rw [hk]; exact hdi.2 _
          · rw [hj j h]; exact i1 j
        · by_cases h : j = i
          · subst h
            rw [hk, hm]
            have := i2 j
            rw [hl] at this
            exact this
          · rw [hj j h, hm]; exact i2 j
        · rw [← i4, hm, ← Finset.add_sum_erase Finset.univ _ (Finset.mem_univ i),
            ← Finset.add_sum_erase Finset.univ (fun j => (d.left j).len d.mem) (Finset.mem_univ i), hk, hl]
          have : ∑ j ∈ Finset.univ.erase i, (e.left j).len d.mem = ∑ j ∈ Finset.univ.erase i, (d.left j).len d.mem :=
            Finset.sum_congr rfl fun j hj' => by rw [hj j (Finset.ne_of_mem_erase hj')]
          rw [this]
          simp only [Prog.len]
          omega
      · have hdi := i1 i
        rw [hl] at hdi
        have hagree : ∀ j, j ≠ i → ∀ b, Own j b ∨ Sh b → d.mem b = e.mem b := by
          intro j hji b hb
          rw [hm, Function.update_of_ne]
          rintro rfl
          rcases hb with hb | hb
          · exact hji (hdis j i _ hb hdi.1)
          · exact hsh i _ hb hdi.1
        have hoth : ∀ j, j ≠ i → Ok ((d.left j).exec e.mem) (fun r => ∀ a, Own j a → r.2 a = m' a) ∧
            (d.left j).len e.mem = (d.left j).len d.mem := by
          intro j hji
          obtain ⟨r, hr, hr'⟩ := i2 j
          obtain ⟨r', h1, _, h2, _, h4⟩ := exec_agree (i1 j) (hagree j hji) hr
          exact ⟨⟨r', h1, fun a ha => (h2 a (Or.inl ha)).trans (hr' a ha)⟩, h4⟩
        refine ⟨fun j => ?_, fun j => ?_, fun b hb => ?_, ?_⟩
        · by_cases h : j = i
          · subst h; rw [hk]; exact hdi.2
          · rw [hj j h]; exact i1 j
        · by_cases h : j = i
          · subst h
            rw [hk, hm]
            have := i2 j
            rw [hl] at this
            exact this
          · rw [hj j h]; exact (hoth j h).1
        · rw [hm, Function.update_of_ne]
          · exact i3 b hb
          · rintro rfl
            exact hb i hdi.1
        · rw [← i4, ← Finset.add_sum_erase Finset.univ _ (Finset.mem_univ i),
            ← Finset.add_sum_erase Finset.univ (fun j => (d.left j).len d.mem) (Finset.mem_univ i), hk, hl]
          have : ∑ j ∈ Finset.univ.erase i, (e.left j).len e.mem = ∑ j ∈ Finset.univ.erase i, (d.left j).len d.mem :=
            Finset.sum_congr rfl fun j hj' => by
              rw [hj j (Finset.ne_of_mem_erase hj')]; exact (hoth j (Finset.ne_of_mem_erase hj')).2
          rw [this, hm]
          simp only [Prog.len]
          omega
  refine ⟨⟨∑ i, (p i).len m, fun t c h => ?_⟩, fun t c h => ?_⟩
  · have := (hinv t c h).2.2.2
    omega
  · obtain ⟨i1, i2, i3, i4⟩ := hinv t c h
    by_cases hdone : c.Done
    · refine Or.inl ⟨hdone, funext fun a => ?_⟩
      by_cases ha : ∃ i, Own i a
      · obtain ⟨i, hi⟩ := ha
        have := i2 i
        rw [hdone i] at this
        obtain ⟨r, hr, hr'⟩ := this
        have e : ((), c.mem) = r := pure_inj hr
        rw [← hr' a hi, ← e]
      · exact (i3 a (fun i hi => ha ⟨i, hi⟩)).symm
    · refine Or.inr ⟨hdone, ?_⟩
      unfold Pool.Done at hdone
      push Not at hdone
      obtain ⟨i, hi⟩ := hdone
      cases hl : c.left i with
      | ret x => exact absurd hl hi
      | rd a k => exact ⟨_, Pool.Step.rd c i a k hl⟩
      | wr a v k => exact ⟨_, Pool.Step.wr c i a v k hl⟩
      | stop e =>
        have := i2 i
        rw [hl] at this
        obtain ⟨r, hr, _⟩ := this
        cases e <;> exact nomatch hr

/-- an iteration that runs to its end without interruption -/
theorem steps_exec {n : Nat} {i : Fin n} {p : Prog A V Unit} : ∀ {t : Nat} {c0 c : Pool n A V} {r},
    Pool.Steps t c0 c → c.left i = p → p.exec c.mem = pure r →
    ∃ t', Pool.Steps t' c0 ⟨r.2, Function.update c.left i (Prog.ret ())⟩ := by
  induction p with
  | ret x =>
    intro t c0 c r h hl hr
    refine ⟨t, ?_⟩
    have e : (x, c.mem) = r := pure_inj hr
    rw [← e]
    have : Function.update c.left i (Prog.ret ()) = c.left := by rw [← hl]; exact Function.update_eq_self _ _
    rw [this]
    exact h
  | rd a k ih =>
    intro t c0 c r h hl hr
    obtain ⟨t', h'⟩ := ih (c.mem a) (Pool.Steps.succ h (Pool.Step.rd c i a k hl)) (Function.update_self _ _ _) hr
    simp only [Function.update_idem] at h'
    exact ⟨t', h'⟩
  | wr a v k ih =>
    intro t c0 c r h hl hr
    obtain ⟨t', h'⟩ := ih (Pool.Steps.succ h (Pool.Step.wr c i a v k hl)) (Function.update_self _ _ _) hr
    simp only [Function.update_idem] at h'
    exact ⟨t', h'⟩
  | stop e =>
    intro t c0 c r h hl hr
    cases e <;> exact nomatch hr

/-- the loop in source order, when every iteration keeps to its own cells -/
theorem seqRun_solo {n : Nat} : ∀ {p : Fin n → Prog A V Unit} {m m' : (a : A) → V a} {Own : Fin n → A → Prop}
    (Sh : A → Prop) (_ : ∀ i j a, Own i a → Own j a → i = j) (_ : ∀ i a, Sh a → ¬ Own i a)
    (_ : ∀ i, (p i).Disc (fun a => Own i a ∨ Sh a) (Own i)) (_ : seqRun n p m = pure m'),
    (∀ i, Ok ((p i).exec m) fun r => ∀ a, Own i a → r.2 a = m' a) ∧ ∀ a, (∀ i, ¬ Own i a) → m' a = m a := by
  induction n with
  | zero =>
    intro p m m' Own Sh _ _ _ hr
    exact ⟨fun i => i.elim0, fun a _ => by rw [← pure_inj hr]⟩
  | succ n ih =>
    intro p m m' Own Sh hdis hsh hd hr
    obtain ⟨m1, h1, h2⟩ := bind_eq_pure hr
    obtain ⟨r, h3, h4⟩ := bind_eq_pure h2
    have e : r.2 = m' := pure_inj h4
    obtain ⟨g1, g2⟩ := ih (Own := fun i => Own i.castSucc) Sh
      (fun i j a hi hj => Fin.castSucc_injective _ (hdis _ _ a hi hj)) (fun i a => hsh _ a) (fun i => hd _) h1
    have hself : Ok ((p (Fin.last n)).exec m1) fun r' => r'.1 = r.1 ∧ (∀ a, _ → r'.2 a = r.2 a) ∧
        (∀ a, ¬ Own (Fin.last n) a → r'.2 a = m1 a) ∧ _ :=
      exec_agree (hd (Fin.last n)) (fun _ _ => rfl) h3
    have hr3 : ∀ a, ¬ Own (Fin.last n) a → m' a = m1 a := by
      obtain ⟨r', e1, _, _, h5, _⟩ := hself
      have : r' = r := pure_inj (e1.symm.trans h3)
      subst this
      rw [← e]; exact h5
    have hback : ∀ a, Own (Fin.last n) a ∨ Sh a → m1 a = m a := by
      intro a ha
      refine g2 a fun i hi => ?_
      rcases ha with ha | ha
      · exact absurd (hdis _ _ a hi ha) (Fin.castSucc_lt_last i).ne
      · exact hsh _ a ha hi
    refine ⟨fun i => ?_, fun a ha => ?_⟩
    · by_cases hi : i = Fin.last n
      · subst hi
        obtain ⟨r', e1, _, h5, _, _⟩ := exec_agree (hd (Fin.last n)) hback h3
        exact ⟨r', e1, fun a ha => by rw [h5 a (Or.inl ha), e]⟩
      · obtain ⟨j, rfl⟩ : ∃ j : Fin n, i = j.castSucc := ⟨i.castPred hi, (Fin.castSucc_castPred i hi).symm⟩
        refine Ok.mono (g1 j) fun r' hr' a ha => ?_
        rw [hr' a ha, hr3]
        intro hl
        exact hi (hdis _ _ a ha hl)
    · rw [hr3 a (ha _), g2 a fun i => ha _]

end

end EvalRound

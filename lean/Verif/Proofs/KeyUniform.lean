import Verif.Proofs.Keygen
import Verif.Proofs.Draws
import Mathlib.Data.Fin.Tuple.Basic
import Mathlib.Algebra.BigOperators.Fin
import Mathlib.Algebra.BigOperators.Field
import Mathlib.Algebra.Order.BigOperators.Group.Finset
import Mathlib.Data.Finset.Powerset
import Mathlib.Tactic.FieldSimp
import Mathlib.Data.Real.Basic

/-!
# Counting the draws of `keygen`

Helper lemmas for C86.
-/

namespace EvalRound
open Finset

/-- the stream that starts with the draws `t` and goes on with `σ` -/
def drawStream {L b : Nat} (t : Fin L → Fin b) (σ : Rng) : Rng := fun n => if h : n < L then (t ⟨n, h⟩).val else σ (n - L)

section
variable {L b : Nat}

theorem drawStream_zero (t : Fin 0 → Fin b) (σ : Rng) : drawStream t σ = σ := by
  funext n; unfold drawStream; rw [dif_neg (by omega)]; rfl

theorem drawStream_head (r : Fin b) (t : Fin L → Fin b) (σ : Rng) : drawStream (Fin.cons r t : Fin (L+1) → Fin b) σ 0 = r.val := by
  unfold drawStream; rw [dif_pos (by omega)]; rfl

theorem drawStream_next (r : Fin b) (t : Fin L → Fin b) (σ : Rng) : (drawStream (Fin.cons r t : Fin (L+1) → Fin b) σ).next = drawStream t σ := by
  funext n
  unfold Rng.next drawStream
  by_cases h : n < L
  · rw [dif_pos (by omega), dif_pos h]; rfl
  · rw [dif_neg (by omega), dif_neg h]; congr 1; omega

theorem next_drop (ω : Rng) (d : Nat) : ω.next.drop d = ω.drop (d+1) := by
  funext n; unfold Rng.next Rng.drop; simp only []; congr 1; omega

/-- the stream that goes on with 0, 1, 2, … does not repeat itself -/
theorem drawStream_aperiodic (t : Fin L → Fin b) {d e : Nat} (h : (drawStream t id).drop d = (drawStream t id).drop e) : d = e := by
  have h1 := congrFun h L
  unfold Rng.drop drawStream at h1
  simp only [id] at h1
  rw [dif_neg (by omega), dif_neg (by omega)] at h1
  omega

end

/-! ## counting -/

section
variable {b : Nat}

open Classical in
/-- the number of vectors of draws with a property -/
noncomputable def cnt (b L : Nat) (P : (Fin L → Fin b) → Prop) : ℕ := (univ.filter P).card

theorem cnt_congr {L : Nat} {P Q : (Fin L → Fin b) → Prop} (h : ∀ t, P t ↔ Q t) : cnt b L P = cnt b L Q := by
  have : P = Q := funext fun t => propext (h t)
  rw [this]

theorem cnt_mono {L : Nat} {P Q : (Fin L → Fin b) → Prop} (h : ∀ t, P t → Q t) : cnt b L P ≤ cnt b L Q := by
  classical
  unfold cnt
  exact card_le_card fun t ht => mem_filter.2 ⟨mem_univ _, h t (mem_filter.1 ht).2⟩

theorem cnt_true (L : Nat) : cnt b L (fun _ => True) = b^L := by
  unfold cnt
  rw [filter_true, card_univ, Fintype.card_fun, Fintype.card_fin, Fintype.card_fin]

theorem cnt_false (L : Nat) : cnt b L (fun _ => False) = 0 := by
  unfold cnt
  rw [filter_false, card_empty]

theorem cnt_cons (L : Nat) (P : (Fin (L+1) → Fin b) → Prop) : cnt b (L+1) P = ∑ r : Fin b, cnt b L fun t => P (Fin.cons r t : Fin (L+1) → Fin b) := by
  classical
  unfold cnt
  simp only [card_eq_sum_ones, sum_filter]
  rw [← (Fin.consEquiv fun _ : Fin (L+1) => Fin b).sum_comp, Fintype.sum_prod_type]
  rfl

/-- a sum over all draws of a function of the residue -/
theorem sum_residue {N : Nat} [NeZero N] {Q : Nat} (hb : b = N * Q) (F : Fin N → ℕ) :
    ∑ r : Fin b, F (Fin.ofNat N r.val) = Q * ∑ j, F j := by
  obtain rfl : b = Q * N := by rw [hb, Nat.mul_comm]
  rw [← (finProdFinEquiv (m := Q) (n := N)).sum_comp, Fintype.sum_prod_type]
  have : ∀ (x : Fin Q) (y : Fin N), F (Fin.ofNat N (finProdFinEquiv (x, y)).val) = F y := fun x y => by
    congr 1
    apply Fin.ext
    show (y.val + N * x.val) % N = y.val
    rw [Nat.add_mul_mod_self_left, Nat.mod_eq_of_lt y.isLt]
  simp only [this]
  rw [sum_const, card_univ, Fintype.card_fin, smul_eq_mul]

theorem sum_of_residue {N : Nat} [NeZero N] {Q : Nat} (hb : b = N * Q) (F : Fin N → ℕ) (G : Fin b → ℕ)
    (h : ∀ r, G r = F (Fin.ofNat N r.val)) : ∑ r, G r = Q * ∑ j, F j :=
  (sum_congr rfl fun r _ => h r).trans (sum_residue hb F)

end

/-! ## the rounds of `keygen`, one draw at a time -/

section
variable {N : Nat} [NeZero N]

/-- `c` rounds of `keygen` -/
def rounds : Nat → (Fin N → Int) × Rng → M ((Fin N → Int) × Rng)
  | 0, st => pure st
  | c+1, st => do
    let st ← keygenStep st
    rounds c st

theorem forFrom_rounds (lo c : Nat) (st : (Fin N → Int) × Rng) : forFrom (fun _ st => keygenStep st) lo c st = rounds c st := by
  induction c generalizing lo st with
  | zero => rfl
  | succ c ih => unfold forFrom rounds; simp only [ih]

theorem keygen_rounds (h : Nat) (ω : Rng) : keygen N h ω = rounds h (fun _ => 0, ω) := by
  unfold keygen forUp
  rw [forFrom_rounds]; rfl

/-- the second half of a round: the sign of position `j`, and the `c` rounds after it -/
def roundsB (c : Nat) (u : Fin N → Int) (j : Fin N) (ω : Rng) : M ((Fin N → Int) × Rng) :=
  rounds c (Function.update u j (if ω 0 % 2 = 0 then 1 else -1), ω.next)

theorem rounds_step (c : Nat) (u : Fin N → Int) (ω : Rng) :
    rounds (c+1) (u, ω) = if u (Fin.ofNat N (ω 0)) ≠ 0 then rounds (c+1) (u, ω.next) else roundsB c u (Fin.ofNat N (ω 0)) ω.next := by
  split_ifs with h
  · unfold rounds keygenStep
    simp only []
    rw [whileM_true (by simpa using h), pure_bind]
  · unfold rounds roundsB
    simp only [keygenStep]
    rw [whileM_false (by simpa using h), pure_bind, pure_bind]

theorem rounds_drop (c : Nat) (u : Fin N → Int) (ω : Rng) {r : (Fin N → Int) × Rng} (h : rounds c (u, ω) = pure r) :
    ∃ d, c ≤ d ∧ r.2 = ω.drop d := by
  induction c generalizing u ω with
  | zero =>
    refine ⟨0, le_rfl, ?_⟩
    cases pure_inj h
    rw [Rng.drop_zero]
  | succ c ih =>
    unfold rounds at h
    by_cases hf : ∃ n, u (Fin.ofNat N (ω n)) = 0
    · obtain ⟨m, v, _, _, e⟩ := keygenStep_of_free u ω hf
      rw [e, pure_bind] at h
      obtain ⟨d, hd, hr⟩ := ih _ _ h
      refine ⟨m + 2 + d, by omega, ?_⟩
      rw [hr]
      funext n
      show ω (m + 2 + (d + n)) = ω (m + 2 + d + n)
      congr 1; omega
    · rw [keygenStep_of_not_free u ω hf] at h
      exact absurd h (diverge_ne_pure _)

variable {b : Nat}

/-- `c` rounds that start with `u` return `s` and use only draws from `t` -/
def Uses (c : Nat) (u s : Fin N → Int) {L : Nat} (t : Fin L → Fin b) : Prop :=
  ∃ d, d ≤ L ∧ ∀ σ, rounds c (u, drawStream t σ) = pure (s, (drawStream t σ).drop d)

def UsesB (c : Nat) (u : Fin N → Int) (j : Fin N) (s : Fin N → Int) {L : Nat} (t : Fin L → Fin b) : Prop :=
  ∃ d, d ≤ L ∧ ∀ σ, roundsB c u j (drawStream t σ) = pure (s, (drawStream t σ).drop d)

theorem uses_zero (u s : Fin N → Int) {L : Nat} (t : Fin L → Fin b) : Uses 0 u s t ↔ u = s := by
  constructor
  · rintro ⟨d, _, h⟩
    exact congrArg Prod.fst (pure_inj (h id))
  · rintro rfl
    exact ⟨0, Nat.zero_le _, fun σ => by rw [Rng.drop_zero]; rfl⟩

theorem uses_nil (c : Nat) (u s : Fin N → Int) (t : Fin 0 → Fin b) : ¬ Uses (c+1) u s t := by
  rintro ⟨d, hd, h⟩
  obtain ⟨e, he, h2⟩ := rounds_drop _ _ _ (h id)
  have := drawStream_aperiodic t h2
  omega

theorem usesB_nil (c : Nat) (u s : Fin N → Int) (j : Fin N) (t : Fin 0 → Fin b) : ¬ UsesB c u j s t := by
  rintro ⟨d, hd, h⟩
  obtain ⟨e, he, h2⟩ := rounds_drop _ _ _ (h id)
  simp only [next_drop] at h2
  have := drawStream_aperiodic t h2
  omega

theorem uses_cons_hit (c : Nat) (u s : Fin N → Int) {L : Nat} (r : Fin b) (t : Fin L → Fin b) (hu : u (Fin.ofNat N r.val) ≠ 0) :
    Uses (c+1) u s (Fin.cons r t : Fin (L+1) → Fin b) ↔ Uses (c+1) u s t := by
  have e : ∀ σ, rounds (c+1) (u, drawStream (Fin.cons r t : Fin (L+1) → Fin b) σ) = rounds (c+1) (u, drawStream t σ) := fun σ => by
    rw [rounds_step, drawStream_head, if_pos hu, drawStream_next]
  constructor
  · rintro ⟨d, hd, h⟩
    obtain ⟨e', he, h2⟩ := rounds_drop _ _ _ (h id)
    obtain ⟨d, rfl⟩ : ∃ d', d = d' + 1 := ⟨d - 1, by have := drawStream_aperiodic _ h2; omega⟩
    refine ⟨d, by omega, fun σ => ?_⟩
    rw [← e, h, ← next_drop, drawStream_next]
  · rintro ⟨d, hd, h⟩
    refine ⟨d+1, by omega, fun σ => ?_⟩
    rw [e, h, ← next_drop, drawStream_next]

theorem uses_cons_free (c : Nat) (u s : Fin N → Int) {L : Nat} (r : Fin b) (t : Fin L → Fin b) (hu : u (Fin.ofNat N r.val) = 0) :
    Uses (c+1) u s (Fin.cons r t : Fin (L+1) → Fin b) ↔ UsesB c u (Fin.ofNat N r.val) s t := by
  have e : ∀ σ, rounds (c+1) (u, drawStream (Fin.cons r t : Fin (L+1) → Fin b) σ) = roundsB c u (Fin.ofNat N r.val) (drawStream t σ) := fun σ => by
    rw [rounds_step, drawStream_head, if_neg (not_not.2 hu), drawStream_next]
  constructor
  · rintro ⟨d, hd, h⟩
    obtain ⟨e', he, h2⟩ := rounds_drop _ _ _ (h id)
    obtain ⟨d, rfl⟩ : ∃ d', d = d' + 1 := ⟨d - 1, by have := drawStream_aperiodic _ h2; omega⟩
    refine ⟨d, by omega, fun σ => ?_⟩
    rw [← e, h, ← next_drop, drawStream_next]
  · rintro ⟨d, hd, h⟩
    refine ⟨d+1, by omega, fun σ => ?_⟩
    rw [e, h, ← next_drop, drawStream_next]

theorem usesB_cons (c : Nat) (u s : Fin N → Int) (j : Fin N) {L : Nat} (r : Fin b) (t : Fin L → Fin b) :
    UsesB c u j s (Fin.cons r t : Fin (L+1) → Fin b) ↔ Uses c (Function.update u j (if r.val % 2 = 0 then 1 else -1)) s t := by
  have e : ∀ σ, roundsB c u j (drawStream (Fin.cons r t : Fin (L+1) → Fin b) σ) =
      rounds c (Function.update u j (if r.val % 2 = 0 then 1 else -1), drawStream t σ) := fun σ => by
    unfold roundsB; rw [drawStream_head, drawStream_next]
  constructor
  · rintro ⟨d, hd, h⟩
    obtain ⟨e', he, h2⟩ := rounds_drop _ _ _ (h id)
    simp only [next_drop] at h2
    obtain ⟨d, rfl⟩ : ∃ d', d = d' + 1 := ⟨d - 1, by have := drawStream_aperiodic _ h2; omega⟩
    refine ⟨d, by omega, fun σ => ?_⟩
    rw [← e, h, ← next_drop, drawStream_next]
  · rintro ⟨d, hd, h⟩
    refine ⟨d+1, by omega, fun σ => ?_⟩
    rw [e, h, ← next_drop, drawStream_next]

/-! ## every key comes from the same number of draws -/

/-- what is set stays -/
theorem rounds_keep (c : Nat) (u : Fin N → Int) (ω : Rng) {r : (Fin N → Int) × Rng} (h : rounds c (u, ω) = pure r)
    {k : Fin N} (hk : u k ≠ 0) : r.1 k = u k := by
  induction c generalizing u ω with
  | zero => cases pure_inj h; rfl
  | succ c ih =>
    unfold rounds at h
    by_cases hf : ∃ n, u (Fin.ofNat N (ω n)) = 0
    · obtain ⟨m, v, _, h0, e⟩ := keygenStep_of_free u ω hf
      rw [e, pure_bind] at h
      have hne : k ≠ Fin.ofNat N (ω m) := fun e => hk (e ▸ h0)
      have := ih _ _ h (by rwa [Function.update_of_ne hne])
      rw [this, Function.update_of_ne hne]
    · rw [keygenStep_of_not_free u ω hf] at h
      exact absurd h (diverge_ne_pure _)

theorem Uses.keep {c : Nat} {u s : Fin N → Int} {L : Nat} {t : Fin L → Fin b} (h : Uses c u s t) {k : Fin N} (hk : u k ≠ 0) :
    s k = u k := by
  obtain ⟨d, _, h⟩ := h
  exact rounds_keep c u _ (h id) hk

omit [NeZero N] in
theorem eq_of_below {u s : Fin N → Int} (hb : ∀ k, u k ≠ 0 → s k = u k) (hw : weight u = weight s) : u = s := by
  have hsub : (univ.filter fun k => u k ≠ 0) ⊆ univ.filter fun k => s k ≠ 0 := fun k hk => by
    have := (mem_filter.1 hk).2
    exact mem_filter.2 ⟨mem_univ _, by rw [hb k this]; exact this⟩
  have he := eq_of_subset_of_card_le hsub (le_of_eq hw.symm)
  funext k
  by_cases hk : u k = 0
  · rw [hk]
    by_contra hs
    have : k ∈ univ.filter fun k => s k ≠ 0 := mem_filter.2 ⟨mem_univ _, fun e => hs e.symm⟩
    rw [← he] at this
    exact (mem_filter.1 this).2 hk
  · exact (hb k hk).symm

omit [NeZero N] in
/-- the sum over the positions: set, to be set, and zero in the end -/
theorem sum_positions {u s : Fin N → Int} (hb : ∀ k, u k ≠ 0 → s k = u k) {c : Nat} (hw : weight u + c = weight s) (A B : ℕ) :
    ∑ j, (if u j ≠ 0 then A else if s j ≠ 0 then B else 0) = weight u * A + c * B := by
  have h1 : ∀ j, (if u j ≠ 0 then A else if s j ≠ 0 then B else 0) + (if u j ≠ 0 then B else 0) =
      (if u j ≠ 0 then A else 0) + if s j ≠ 0 then B else 0 := fun j => by
    by_cases hu : u j = 0
    · simp [hu]
    · have : s j ≠ 0 := by rw [hb j hu]; exact hu
      simp [hu, this]
  have h2 := sum_congr (rfl : (univ : Finset (Fin N)) = univ) fun j _ => h1 j
  rw [sum_add_distrib, sum_add_distrib] at h2
  have h3 : ∀ (v : Fin N → Int) (C : ℕ), ∑ j, (if v j ≠ 0 then C else 0) = weight v * C := fun v C => by
    rw [← sum_filter, sum_const, smul_eq_mul]; rfl
  rw [h3, h3, h3, ← hw] at h2
  linarith [add_mul (weight u) c B]

/-- the number of draws that lead from `u` to `s` depends on the weights only -/
theorem cnt_uses {Q Q2 : Nat} (hQ : b = N * Q) (hQ2 : b = 2 * Q2) (h L : Nat) :
    (∀ c, ∃ n, ∀ u s : Fin N → Int, Ternary s → (∀ k, u k ≠ 0 → s k = u k) → weight u + c = h → weight s = h →
      cnt b L (Uses c u s) = n) ∧
    (∀ c, ∃ n, ∀ (u s : Fin N → Int) (j : Fin N), Ternary s → (∀ k, u k ≠ 0 → s k = u k) → u j = 0 → s j ≠ 0 →
      weight u + (c+1) = h → weight s = h → cnt b L (UsesB c u j s) = n) := by
  induction L with
  | zero =>
    refine ⟨fun c => ?_, fun c => ⟨0, fun u s j _ _ _ _ _ _ => ?_⟩⟩
    · cases c with
      | zero =>
        refine ⟨b^0, fun u s _ hb hw hs => ?_⟩
        have := eq_of_below hb (by omega)
        rw [cnt_congr (Q := fun _ => True) fun t => by simp [uses_zero, this], cnt_true]
      | succ c =>
        refine ⟨0, fun u s _ hb hw hs => ?_⟩
        rw [cnt_congr (Q := fun _ => False) fun t => by simp [uses_nil], cnt_false]
    · rw [cnt_congr (Q := fun _ => False) fun t => by simp [usesB_nil], cnt_false]
  | succ L ih =>
    obtain ⟨ihA, ihB⟩ := ih
    refine ⟨fun c => ?_, fun c => ?_⟩
    · cases c with
      | zero =>
        refine ⟨b^(L+1), fun u s _ hb hw hs => ?_⟩
        have := eq_of_below hb (by omega)
        rw [cnt_congr (Q := fun _ => True) fun t => by simp [uses_zero, this], cnt_true]
      | succ c =>
        obtain ⟨A, hA⟩ := ihA (c+1)
        obtain ⟨B, hB⟩ := ihB c
        refine ⟨Q * ((h - (c+1)) * A + (c+1) * B), fun u s hs hb hw hw2 => ?_⟩
        have e : ∀ r : Fin b, cnt b L (fun t => Uses (c+1) u s (Fin.cons r t : Fin (L+1) → Fin b)) =
            (fun j : Fin N => if u j ≠ 0 then A else if s j ≠ 0 then B else 0) (Fin.ofNat N r.val) := fun r => by
          simp only []
          by_cases hu : u (Fin.ofNat N r.val) = 0
          · rw [if_neg (not_not.2 hu), cnt_congr fun t => uses_cons_free c u s r t hu]
            split_ifs with hj
            · exact hB u s _ hs hb hu hj hw hw2
            · rw [not_not] at hj
              rw [cnt_congr (Q := fun _ => False), cnt_false]
              intro t
              refine ⟨?_, False.elim⟩
              rintro ⟨d, _, hd⟩
              have := rounds_keep c _ _ (hd id) (k := Fin.ofNat N r.val) (by rw [Function.update_self]; split <;> decide)
              simp only [Function.update_self, hj] at this
              split at this <;> exact absurd this (by decide)
          · rw [if_pos hu, cnt_congr fun t => uses_cons_hit c u s r t hu]
            exact hA u s hs hb hw hw2
        rw [cnt_cons, sum_of_residue hQ (fun j : Fin N => if u j ≠ 0 then A else if s j ≠ 0 then B else 0) _ e, sum_positions hb (hw.trans hw2.symm)]
        congr 3
        omega
    · obtain ⟨A, hA⟩ := ihA c
      refine ⟨Q2 * A, fun u s j hs hb hu hj hw hw2 => ?_⟩
      have e : ∀ r : Fin b, cnt b L (fun t => UsesB c u j s (Fin.cons r t : Fin (L+1) → Fin b)) =
          (fun a : Fin 2 => if s j = (if a.val = 0 then 1 else -1) then A else 0) (Fin.ofNat 2 r.val) := fun r => by
        rw [cnt_congr fun t => usesB_cons c u s j r t]
        have e0 : (Fin.ofNat 2 r.val).val = r.val % 2 := rfl
        simp only [e0]
        generalize hv : (if r.val % 2 = 0 then (1:Int) else -1) = v
        have hv0 : v ≠ 0 := by rw [← hv]; split <;> decide
        split_ifs with hsv
        · refine hA _ _ hs (fun k hk => ?_) ?_ hw2
          · by_cases ek : k = j
            · rw [ek, Function.update_self, hsv]
            · rw [Function.update_of_ne ek] at hk ⊢
              exact hb k hk
          · rw [weight_update hu hv0]; omega
        · rw [cnt_congr (Q := fun _ => False), cnt_false]
          intro t
          refine ⟨fun hd => hsv ?_, False.elim⟩
          have := hd.keep (k := j) (by rw [Function.update_self]; exact hv0)
          rwa [Function.update_self] at this
      rw [cnt_cons, sum_of_residue hQ2 (fun a : Fin 2 => if s j = (if a.val = 0 then 1 else -1) then A else 0) _ e, Fin.sum_univ_two]
      congr 1
      rcases hs j with h1 | h1 | h1
      · simp [h1]
      · exact absurd h1 hj
      · simp [h1]

/-! ## the number of draws that are not enough -/

/-- `c` rounds that start with `u` return within the draws `t` -/
def Returned (c : Nat) (u : Fin N → Int) {L : Nat} (t : Fin L → Fin b) : Prop := ∃ s, Uses c u s t

def ReturnedB (c : Nat) (u : Fin N → Int) (j : Fin N) {L : Nat} (t : Fin L → Fin b) : Prop := ∃ s, UsesB c u j s t

variable (b) in
/-- the fraction of the draws that are not enough -/
noncomputable def late (L c : Nat) (u : Fin N → Int) : ℝ := cnt b L (fun t => ¬ Returned c u t) / (b:ℝ)^L

variable (b) in
noncomputable def lateB (L c : Nat) (u : Fin N → Int) (j : Fin N) : ℝ := cnt b L (fun t => ¬ ReturnedB c u j t) / (b:ℝ)^L

theorem late_zero (L : Nat) (u : Fin N → Int) : late b L 0 u = 0 := by
  unfold late
  rw [cnt_congr (Q := fun _ => False), cnt_false]
  · simp
  · intro t
    simp only [iff_false, not_not]
    exact ⟨u, (uses_zero u u t).2 rfl⟩

theorem late_nil (c : Nat) (u : Fin N → Int) : late b 0 (c+1) u = 1 := by
  unfold late
  rw [cnt_congr (Q := fun _ => True), cnt_true]
  · simp
  · intro t
    simp only [iff_true]
    rintro ⟨s, h⟩
    exact uses_nil _ _ _ _ h

theorem lateB_nil (c : Nat) (u : Fin N → Int) (j : Fin N) : lateB b 0 c u j = 1 := by
  unfold lateB
  rw [cnt_congr (Q := fun _ => True), cnt_true]
  · simp
  · intro t
    simp only [iff_true]
    rintro ⟨s, h⟩
    exact usesB_nil _ _ _ _ _ h

theorem late_le_one (L c : Nat) (u : Fin N → Int) : late b L c u ≤ 1 := by
  unfold late
  refine div_le_one_of_le₀ ?_ (by positivity)
  have := cnt_mono (b := b) (L := L) (P := fun t => ¬ Returned c u t) (Q := fun _ => True) fun _ _ => trivial
  rw [cnt_true] at this
  exact_mod_cast this

theorem lateB_le_one (L c : Nat) (u : Fin N → Int) (j : Fin N) : lateB b L c u j ≤ 1 := by
  unfold lateB
  refine div_le_one_of_le₀ ?_ (by positivity)
  have := cnt_mono (b := b) (L := L) (P := fun t => ¬ ReturnedB c u j t) (Q := fun _ => True) fun _ _ => trivial
  rw [cnt_true] at this
  exact_mod_cast this

theorem late_succ {Q : Nat} (hQ : b = N * Q) (hb : 0 < b) (L c : Nat) (u : Fin N → Int) :
    late b (L+1) (c+1) u = (∑ j, if u j ≠ 0 then late b L (c+1) u else lateB b L c u j) / N := by
  have e : ∀ r : Fin b, cnt b L (fun t => ¬ Returned (c+1) u (Fin.cons r t : Fin (L+1) → Fin b)) =
      (fun j : Fin N => if u j ≠ 0 then cnt b L (fun t => ¬ Returned (c+1) u t) else cnt b L (fun t => ¬ ReturnedB c u j t)) (Fin.ofNat N r.val) := fun r => by
    simp only []
    by_cases hu : u (Fin.ofNat N r.val) = 0
    · rw [if_neg (not_not.2 hu)]
      exact cnt_congr fun t => not_congr (exists_congr fun s => uses_cons_free c u s r t hu)
    · rw [if_pos hu]
      exact cnt_congr fun t => not_congr (exists_congr fun s => uses_cons_hit c u s r t hu)
  have hN : (0:ℝ) < N := by exact_mod_cast Nat.pos_of_ne_zero (NeZero.ne N)
  have hbr : (0:ℝ) < b := by exact_mod_cast hb
  have hbQ : (b:ℝ) = N * Q := by exact_mod_cast hQ
  have hQ0 : (0:ℝ) < Q := by
    rcases Nat.eq_zero_or_pos Q with h | h
    · rw [h] at hQ; omega
    · exact_mod_cast h
  have e2 : ∀ j, (if u j ≠ 0 then late b L (c+1) u else lateB b L c u j) =
      ((if u j ≠ 0 then cnt b L (fun t => ¬ Returned (c+1) u t) else cnt b L (fun t => ¬ ReturnedB c u j t) : ℕ) : ℝ) / (b:ℝ)^L := fun j => by
    unfold late lateB; split_ifs <;> rfl
  rw [sum_congr rfl fun j _ => e2 j, ← sum_div]
  unfold late
  rw [cnt_cons, sum_of_residue hQ (fun j : Fin N => if u j ≠ 0 then cnt b L (fun t => ¬ Returned (c+1) u t) else cnt b L (fun t => ¬ ReturnedB c u j t)) _ e, Nat.cast_mul, Nat.cast_sum, pow_succ]
  rw [div_div, div_eq_div_iff (by positivity) (by positivity), hbQ]
  ring

theorem lateB_succ {Q2 : Nat} (hQ2 : b = 2 * Q2) (hb : 0 < b) (L c : Nat) (u : Fin N → Int) (j : Fin N) :
    lateB b (L+1) c u j = (late b L c (Function.update u j 1) + late b L c (Function.update u j (-1))) / 2 := by
  have e : ∀ r : Fin b, cnt b L (fun t => ¬ ReturnedB c u j (Fin.cons r t : Fin (L+1) → Fin b)) =
      (fun a : Fin 2 => cnt b L (fun t => ¬ Returned c (Function.update u j (if a.val = 0 then 1 else -1)) t)) (Fin.ofNat 2 r.val) := fun r =>
    cnt_congr fun t => not_congr (exists_congr fun s => usesB_cons c u s j r t)
  have hbr : (0:ℝ) < b := by exact_mod_cast hb
  have hbQ : (b:ℝ) = 2 * Q2 := by exact_mod_cast hQ2
  unfold lateB late
  rw [cnt_cons, sum_of_residue hQ2 (fun a : Fin 2 => cnt b L (fun t => ¬ Returned c (Function.update u j (if a.val = 0 then 1 else -1)) t)) _ e, Fin.sum_univ_two, pow_succ]
  simp only [Fin.val_zero, Fin.val_one, if_true, one_ne_zero, if_false]
  push_cast
  rw [← add_div, div_div, div_eq_div_iff (by positivity) (by positivity), hbQ]
  ring

theorem late_anti {Q Q2 : Nat} (hQ : b = N * Q) (hQ2 : b = 2 * Q2) (hb : 0 < b) (L : Nat) :
    (∀ c (u : Fin N → Int), late b (L+1) c u ≤ late b L c u) ∧
    (∀ c (u : Fin N → Int) j, lateB b (L+1) c u j ≤ lateB b L c u j) := by
  induction L with
  | zero =>
    refine ⟨fun c u => ?_, fun c u j => by rw [lateB_nil]; exact lateB_le_one _ _ _ _⟩
    cases c with
    | zero => rw [late_zero, late_zero]
    | succ c => rw [late_nil]; exact late_le_one _ _ _
  | succ L ih =>
    refine ⟨fun c u => ?_, fun c u j => ?_⟩
    · cases c with
      | zero => rw [late_zero, late_zero]
      | succ c =>
        refine (late_succ hQ hb (L+1) c u).le.trans (le_trans ?_ (late_succ hQ hb L c u).ge)
        refine div_le_div_of_nonneg_right (sum_le_sum fun j _ => ?_) (Nat.cast_nonneg _)
        split_ifs
        · exact ih.1 _ _
        · exact ih.2 _ _ _
    · rw [lateB_succ hQ2 hb (L+1), lateB_succ hQ2 hb L]
      have h1 := ih.1 c (Function.update u j 1)
      have h2 := ih.1 c (Function.update u j (-1))
      linarith

/-- the mean number of draws of the last `c` rounds, when `w` positions are set -/
noncomputable def meanDraws (N : Nat) : Nat → Nat → ℝ
  | 0, _ => 0
  | c+1, w => N / ((N:ℝ) - w) + 1 + meanDraws N c (w+1)

theorem meanDraws_succ (N c w : Nat) : meanDraws N (c+1) w = N / ((N:ℝ) - w) + 1 + meanDraws N c (w+1) := rfl

theorem sum_late {Q Q2 : Nat} (hQ : b = N * Q) (hQ2 : b = 2 * Q2) (hb : 0 < b) (L : Nat) :
    (∀ c (u : Fin N → Int), weight u + c ≤ N → ∑ l ∈ range L, late b l c u ≤ meanDraws N c (weight u)) ∧
    (∀ c (u : Fin N → Int) j, u j = 0 → weight u + (c+1) ≤ N → ∑ l ∈ range L, lateB b l c u j ≤ 1 + meanDraws N c (weight u + 1)) := by
  have hN : (0:ℝ) < N := by exact_mod_cast Nat.pos_of_ne_zero (NeZero.ne N)
  have hm : ∀ c w, w + c ≤ N → 0 ≤ meanDraws N c w := by
    intro c
    induction c with
    | zero => intro w _; exact le_rfl
    | succ c ih =>
      intro w hw
      unfold meanDraws
      have := ih (w+1) (by omega)
      have h1 : (w:ℝ) < N := by exact_mod_cast (by omega : w < N)
      have : (0:ℝ) ≤ N / ((N:ℝ) - w) := div_nonneg hN.le (by linarith)
      linarith
  induction L with
  | zero =>
    refine ⟨fun c u hw => ?_, fun c u j _ hw => ?_⟩
    · rw [sum_range_zero]; exact hm _ _ hw
    · rw [sum_range_zero]; have := hm c (weight u + 1) (by omega); linarith
  | succ L ih =>
    refine ⟨fun c u hw => ?_, fun c u j hu hw => ?_⟩
    · cases c with
      | zero =>
        rw [sum_congr rfl fun l _ => late_zero l u, sum_const_zero]; exact le_rfl
      | succ c =>
        rw [sum_range_succ', late_nil, sum_congr rfl fun l _ => late_succ hQ hb l c u, ← sum_div, sum_comm]
        have hwN : (weight u : ℝ) < N := by exact_mod_cast (by omega : weight u < N)
        have h1 : ∀ j, (∑ l ∈ range L, if u j ≠ 0 then late b l (c+1) u else lateB b l c u j) ≤
            (if u j ≠ 0 then meanDraws N (c+1) (weight u) - (1 + meanDraws N c (weight u + 1)) else 0) + (1 + meanDraws N c (weight u + 1)) := fun j => by
          split_ifs with h
          · have := ih.1 (c+1) u hw; linarith
          · rw [not_not] at h
            have := ih.2 c u j h hw; linarith
        have h2 := sum_le_sum fun j (_ : j ∈ univ) => h1 j
        rw [sum_add_distrib, ← sum_filter, sum_const, sum_const, card_univ, Fintype.card_fin] at h2
        have e : (univ.filter fun j => u j ≠ 0).card = weight u := rfl
        rw [e, nsmul_eq_mul, nsmul_eq_mul] at h2
        have h3 := div_le_div_of_nonneg_right h2 hN.le
        refine (add_le_add_left h3 1).trans (le_of_eq ?_)
        rw [meanDraws_succ]
        generalize meanDraws N c (weight u + 1) = E
        have hne : (N:ℝ) - weight u ≠ 0 := by linarith
        field_simp
        ring
    · rw [sum_range_succ', lateB_nil, sum_congr rfl fun l _ => lateB_succ hQ2 hb l c u j, ← sum_div, sum_add_distrib]
      have w1 := weight_update hu (v := 1) (by decide)
      have w2 := weight_update hu (v := -1) (by decide)
      have h1 := ih.1 c (Function.update u j 1) (by omega)
      have h2 := ih.1 c (Function.update u j (-1)) (by omega)
      rw [w1] at h1
      rw [w2] at h2
      linarith

theorem late_le {Q Q2 : Nat} (hQ : b = N * Q) (hQ2 : b = 2 * Q2) (hb : 0 < b) (L c : Nat) (u : Fin N → Int) (hw : weight u + c ≤ N) :
    L * late b L c u ≤ meanDraws N c (weight u) := by
  refine le_trans ?_ ((sum_late hQ hQ2 hb L).1 c u hw)
  have anti : ∀ k l, late b (l + k) c u ≤ late b l c u := by
    intro k
    induction k with
    | zero => intro l; exact le_rfl
    | succ k ih => intro l; exact ((late_anti hQ hQ2 hb (l + k)).1 c u).trans (ih l)
  have := card_nsmul_le_sum (range L) (fun l => late b l c u) (late b L c u) fun l hl => by
    have := anti (L - l) l
    rwa [Nat.add_sub_cancel' (mem_range.1 hl).le] at this
  rwa [card_range, nsmul_eq_mul] at this

theorem meanDraws_eq (N h w : Nat) : meanDraws N h w = ∑ i ∈ range h, ((N:ℝ) / (N - (w + i : ℕ)) + 1) := by
  induction h generalizing w with
  | zero => rfl
  | succ h ih =>
    rw [sum_range_succ']
    unfold meanDraws
    rw [ih]
    simp only [Nat.add_zero]
    rw [add_comm]
    congr 1
    refine sum_congr rfl fun i _ => ?_
    rw [show w + 1 + i = w + (i + 1) by omega]

/-! ## the number of keys -/

/-- the ternary polynomials of weight `h` -/
noncomputable def keys (N h : Nat) : Finset (Fin N → Int) := (Fintype.piFinset fun _ : Fin N => ({-1, 0, 1} : Finset Int)).filter fun s => weight s = h

omit [NeZero N] in
theorem mem_keys {h : Nat} {s : Fin N → Int} : s ∈ keys N h ↔ Ternary s ∧ weight s = h := by
  unfold keys Ternary
  simp [Fintype.mem_piFinset]

theorem card_keys (N h : Nat) : (keys N h).card = N.choose h * 2^h := by
  classical
  have hmap : ∀ s ∈ keys N h, (univ.filter fun k => s k ≠ 0) ∈ powersetCard h (univ : Finset (Fin N)) := fun s hs =>
    mem_powersetCard.2 ⟨subset_univ _, (mem_keys.1 hs).2⟩
  rw [card_eq_sum_card_fiberwise hmap]
  have h1 : ∀ T ∈ powersetCard h (univ : Finset (Fin N)), ((keys N h).filter fun s => (univ.filter fun k => s k ≠ 0) = T).card = 2^h := by
    intro T hT
    have hc := (mem_powersetCard.1 hT).2
    have e : ((keys N h).filter fun s => (univ.filter fun k => s k ≠ 0) = T) =
        Fintype.piFinset fun k : Fin N => if k ∈ T then ({-1, 1} : Finset Int) else {0} := by
      ext s
      rw [mem_filter, mem_keys, Fintype.mem_piFinset]
      constructor
      · rintro ⟨⟨h1, _⟩, rfl⟩ k
        rcases h1 k with h | h | h <;> simp [h]
      · intro hs
        have hsup : (univ.filter fun k => s k ≠ 0) = T := by
          ext k
          rw [mem_filter]
          have := hs k
          by_cases hk : k ∈ T
          · rw [if_pos hk] at this
            simp only [mem_insert, mem_singleton] at this
            simp only [mem_univ, true_and, hk, iff_true]
            omega
          · rw [if_neg hk] at this
            simp only [mem_singleton] at this
            simp [hk, this]
        refine ⟨⟨fun k => ?_, ?_⟩, hsup⟩
        · have := hs k
          split_ifs at this
          · simp only [mem_insert, mem_singleton] at this; omega
          · simp only [mem_singleton] at this; omega
        · unfold weight; rw [hsup, hc]
    rw [e, Fintype.card_piFinset]
    have : ∀ k, (if k ∈ T then ({-1, 1} : Finset Int) else {0}).card = if k ∈ T then 2 else 1 := fun k => by
      split_ifs <;> rfl
    rw [prod_congr rfl fun k _ => this k, prod_ite, prod_const, prod_const_one, mul_one, filter_mem_eq_inter, univ_inter, hc]
  rw [sum_congr rfl h1, sum_const, card_powersetCard, card_univ, Fintype.card_fin, smul_eq_mul]

/-- the draws that are enough, by the key that they lead to -/
theorem sum_cnt_keys (L h : Nat) :
    ∑ s ∈ keys N h, cnt b L (Uses h (fun _ => 0) s) + cnt b L (fun t => ¬ Returned h (fun _ : Fin N => (0:Int)) t) = b^L := by
  classical
  have hd : cnt b L (fun t => Returned h (fun _ : Fin N => (0:Int)) t) = ∑ s ∈ keys N h, cnt b L (Uses h (fun _ => 0) s) := by
    unfold cnt
    rw [← card_biUnion]
    · congr 1
      ext t
      simp only [mem_filter, mem_univ, true_and, mem_biUnion]
      constructor
      · rintro ⟨s, hs⟩
        refine ⟨s, ?_, hs⟩
        obtain ⟨d, _, hd⟩ := hs
        have := hd id
        rw [← forFrom_rounds 0] at this
        obtain ⟨h1, h2⟩ := keygen_returns _ _ _ _ (fun _ => Or.inr (Or.inl rfl)) this
        refine mem_keys.2 ⟨h1, h2.trans ?_⟩
        simp [weight]
      · rintro ⟨s, _, hs⟩
        exact ⟨s, hs⟩
    · intro s _ s' _ hne
      rw [Function.onFun, disjoint_left]
      intro t h1 h2
      obtain ⟨d, _, h1⟩ := (mem_filter.1 h1).2
      obtain ⟨d', _, h2⟩ := (mem_filter.1 h2).2
      exact hne (congrArg Prod.fst (pure_inj ((h1 id).symm.trans (h2 id))))
  rw [← hd]
  unfold cnt
  have := card_filter_add_card_filter_not (s := (univ : Finset (Fin L → Fin b))) (fun t => Returned h (fun _ : Fin N => (0:Int)) t)
  rw [card_univ, Fintype.card_fun, Fintype.card_fin, Fintype.card_fin] at this
  convert this

end

end EvalRound

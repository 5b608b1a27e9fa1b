import Verif.Proofs.Shift

/-! `operator double`, `max_valid_digit`, aliased `+=` -/

set_option linter.unusedSectionVars false

namespace EvalRound
open Finset
namespace Z_Q
variable {L : Nat}

theorem val_ofNat (v : Nat) : (ofNat L v).val = v % 2^(64 * nlimb L) := by
  unfold val
  apply lv_of_digits
  intro i hi
  rw [dig_of_lt _ hi]; simp [ofNat]

theorem val_ofNat_of_lt {v : Nat} (h : v < 2^L) : (ofNat L v).val = v := by
  rw [val_ofNat]
  exact Nat.mod_eq_of_lt (lt_of_lt_of_le h (Nat.pow_le_pow_right (by norm_num) (le_nlimb L)))

variable [NeZero L]

theorem data_bot (x : Z_Q L) : (x.data (bot L)).toNat = x.val % 2^64 := by
  rw [← dig_fin, dig_eq_div_val]
  simp [bot]

theorem toDoubleInt_spec {x : Z_Q L} (h : x.Canonical) :
    x.toDoubleInt = x.sval.sign * (x.sval.natAbs % 2^64 : Nat) := by
  unfold toDoubleInt
  simp only [copy_eq]
  rw [is_bigger_canonical h, sval_canonical h]
  have hp : 0 < 2^(L-1) := by positivity
  have e := two_mul_half L
  unfold Canonical at h
  by_cases hb : 2^(L-1) ≤ x.val
  · simp only [hb, decide_true, if_true, data_bot]
    rw [val_negate_canonical h (by omega)]
    have h1 : (x.val : Int) - 2^L < 0 := by
      have : (x.val : Int) < ((2^L : Nat) : Int) := by exact_mod_cast h
      push_cast at this; omega
    have h2 : ((x.val : Int) - 2^L).natAbs = 2^L - x.val := by
      have h3 : ((x.val : Int) - 2^L) = -((2^L - x.val : Nat) : Int) := by
        rw [Nat.cast_sub h.le]; push_cast; ring
      rw [h3, Int.natAbs_neg, Int.natAbs_natCast]
    rw [Int.sign_eq_neg_one_of_neg h1, h2]; ring
  · simp only [hb, decide_false, if_false, data_bot, Bool.false_eq_true, Int.natAbs_natCast]
    by_cases h0 : x.val = 0
    · simp [h0]
    · rw [Int.sign_eq_one_of_pos (by omega)]; ring

/-- the search loop of `max_valid_digit` -/
theorem mvd_loop {n : Nat} (d : Fin n → W) (w : W) :
    let r := (forFinDown n (fun i (s : Option Int) =>
      match s with
      | some r => some r
      | none => if d i != w then some (i.val : Int) else none) none).getD (-1)
    (r = -1 ∧ ∀ i : Fin n, d i = w) ∨
    ∃ k : Fin n, r = k.val ∧ d k ≠ w ∧ ∀ i : Fin n, k < i → d i = w := by
  have h := forFinDown_inv (n := n) (s := (none : Option Int))
    (f := fun i (s : Option Int) =>
      match s with
      | some r => some r
      | none => if d i != w then some (i.val : Int) else none)
    (P := fun m s => (s = none ∧ ∀ i : Fin n, m ≤ i.val → d i = w) ∨
      ∃ k : Fin n, s = some (k.val : Int) ∧ d k ≠ w ∧ ∀ i : Fin n, k < i → d i = w)
    (Or.inl ⟨rfl, fun i hi => absurd i.isLt (by omega)⟩) (by
      rintro i s (⟨rfl, h⟩ | ⟨k, rfl, h⟩)
      · by_cases e : d i = w
        · left
          refine ⟨by simp [e], fun j hj => ?_⟩
          by_cases e2 : j = i
          · rw [e2]; exact e
          · exact h j (by have : j.val ≠ i.val := fun h => e2 (Fin.ext h)
                          omega)
        · right
          exact ⟨i, by simp [e], e, fun j hj => h j hj⟩
      · exact Or.inr ⟨k, rfl, h⟩)
  rcases h with ⟨h1, h2⟩ | ⟨k, h1, h2⟩
  · left; exact ⟨by rw [h1]; rfl, fun i => h2 i (Nat.zero_le _)⟩
  · right; exact ⟨k, by rw [h1]; rfl, h2⟩

theorem lv_eq_of_zero_above {n : Nat} (d : Fin n → W) {k : Nat} (h : ∀ i, k ≤ i → dig d i = 0) :
    lv d n = lv d (min k n) := by
  have : ∀ m, lv d (min k n + m) = lv d (min k n) := by
    intro m
    induction m with
    | zero => rfl
    | succ m ih =>
      rw [← Nat.add_assoc, lv_succ, ih]
      by_cases e : k ≤ n
      · rw [h _ (by omega)]; simp
      · rw [dig_of_ge _ (by omega)]; simp
  have h2 := this (n - min k n)
  rwa [show min k n + (n - min k n) = n by omega] at h2

/-! ## aliased addition -/

theorem addSelf_eq (x : Z_Q L) : addSelf x = remove_clutter ⟨fun i => x.data i + x.data i⟩ := by
  unfold addSelf
  have h := forFin_inv (n := nlimb L) (s := (x.data, false))
    (f := fun i (s : (Fin (nlimb L) → W) × Bool) =>
      let di := s.1 i + s.1 i
      let c_next : Bool := di < di
      let di := if s.2 then di + 1 else di
      let c := (s.2 && di == 0) || c_next
      (Function.update s.1 i di, c))
    (P := fun k s => s.2 = false ∧ ∀ i : Fin (nlimb L),
      s.1 i = if i.val < k then x.data i + x.data i else x.data i)
    ⟨rfl, fun i => by simp⟩ (by
      rintro i ⟨d, c⟩ ⟨h1, h2⟩
      dsimp only at h1 h2 ⊢
      subst h1
      refine ⟨by simp, fun j => ?_⟩
      by_cases e : j = i
      · subst e
        simp [h2]
      · have : j.val ≠ i.val := fun h => e (Fin.ext h)
        rw [Function.update_of_ne e, h2]
        by_cases e2 : j.val < i.val
        · rw [if_pos e2, if_pos (by omega)]
        · rw [if_neg e2, if_neg (by omega)])
  have h2 : _ = fun i => x.data i + x.data i :=
    funext fun i => (h.2 i).trans (if_pos i.isLt)
  exact congrArg (fun d => remove_clutter (⟨d⟩ : Z_Q L)) h2

theorem double_limbs (x : Z_Q L) (k : Nat) :
    2 * lv x.data k = lv (fun i => x.data i + x.data i) k
      + ∑ i ∈ range k, dig x.data i / 2^63 * 2^(64*(i+1)) := by
  induction k with
  | zero => simp
  | succ k ih =>
    rw [lv_succ, lv_succ, sum_range_succ, Nat.mul_add, ih]
    have h1 : 2 * dig x.data k = dig (fun i => x.data i + x.data i) k + dig x.data k / 2^63 * 2^64 := by
      by_cases hk : k < nlimb L
      · rw [dig_of_lt _ hk, dig_of_lt _ hk, BitVec.toNat_add]
        have := W_lt (x.data ⟨k, hk⟩)
        omega
      · rw [dig_of_ge _ (by omega), dig_of_ge _ (by omega)]; norm_num
    rw [pow64_succ]
    have : (2 * dig x.data k) * 2^(64*k)
      = (dig (fun i => x.data i + x.data i) k + dig x.data k / 2^63 * 2^64) * 2^(64*k) := by rw [h1]
    nlinarith [this]

theorem carries_lt (x : Z_Q L) (m : Nat) :
    ∑ i ∈ range m, dig x.data i / 2^63 * 2^(64*(i+1)) < 2^(64*m+1) := by
  induction m with
  | zero => simp
  | succ m ih =>
    rw [sum_range_succ]
    have h := dig_lt x.data m
    have h1 : dig x.data m / 2^63 ≤ 1 := by omega
    have h2 : dig x.data m / 2^63 * 2^(64*(m+1)) ≤ 1 * 2^(64*(m+1)) := Nat.mul_le_mul_right _ h1
    have h3 : 2^(64*m+1) ≤ 2^(64*(m+1)) := Nat.pow_le_pow_right (by norm_num) (by omega)
    have h4 : 2^(64*(m+1)+1) = 2 * 2^(64*(m+1)) := by rw [pow_succ, Nat.mul_comm]
    omega

theorem addSelf_iff (x : Z_Q L) :
    (addSelf x).cls = 2 * x.cls ↔ ∀ i, i + 1 < nlimb L → dig x.data i < 2^63 := by
  obtain ⟨b1, b2, b3⟩ := lim_bounds L
  rw [addSelf_eq, cls_remove_clutter]
  have h := double_limbs x (nlimb L)
  obtain ⟨m, hm⟩ : ∃ m, nlimb L = m + 1 := ⟨nlimb L - 1, by omega⟩
  have hm' : 64 * nlimb L = 64 * (m+1) := by rw [hm]
  set S := ∑ i ∈ range m, dig x.data i / 2^63 * 2^(64*(i+1)) with hS
  have hsum : ∑ i ∈ range (nlimb L), dig x.data i / 2^63 * 2^(64*(i+1))
      = S + dig x.data m / 2^63 * 2^(64 * nlimb L) := by
    have : range (nlimb L) = range (m+1) := by rw [hm]
    rw [this, sum_range_succ, ← hm']
  rw [hsum] at h
  have hc := congrArg (Nat.cast (R := ZMod (2^L))) h
  have h5 := limbs_cast_zero L
  push_cast at hc h5
  rw [h5] at hc
  have hcls : (⟨fun i => x.data i + x.data i⟩ : Z_Q L).cls = 2 * x.cls - (S : ZMod (2^L)) := by
    unfold cls val
    linear_combination -hc
  rw [hcls]
  have hSlt : S < 2^L := lt_of_lt_of_le (carries_lt x m) (Nat.pow_le_pow_right (by norm_num) (by omega))
  have h1 : 2 * x.cls - (S : ZMod (2^L)) = 2 * x.cls ↔ S = 0 := by
    rw [sub_eq_self, ZMod.natCast_eq_zero_iff]
    constructor
    · intro hd; exact Nat.eq_zero_of_dvd_of_lt hd hSlt
    · intro h; rw [h]; exact dvd_zero _
  rw [h1, hS, sum_eq_zero_iff]
  constructor
  · intro h i hi
    have := h i (mem_range.2 (by omega))
    rcases Nat.mul_eq_zero.1 this with h2 | h2
    · have := Nat.div_eq_zero_iff.1 h2
      omega
    · exact absurd h2 (by positivity)
  · intro h i hi
    have := h i (by have := mem_range.1 hi; omega)
    rw [Nat.div_eq_of_lt this, Nat.zero_mul]

end Z_Q
end EvalRound

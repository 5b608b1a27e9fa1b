import Verif.Spec.ZQ
import Verif.Proofs.Word

/-! Helper lemmas on limb arrays and on the basic `Z_Q` operations -/

set_option linter.unusedSectionVars false

namespace EvalRound
open Finset

variable {n : Nat}

theorem dig_lt (a : Fin n → W) (i : Nat) : dig a i < 2^64 := by
  unfold dig; split
  · exact W_lt _
  · norm_num

theorem dig_fin (a : Fin n → W) (i : Fin n) : dig a i.val = (a i).toNat := by
  simp [dig]

theorem dig_of_lt (a : Fin n → W) {i : Nat} (h : i < n) : dig a i = (a ⟨i, h⟩).toNat := by
  simp [dig, h]

theorem dig_of_ge (a : Fin n → W) {i : Nat} (h : n ≤ i) : dig a i = 0 := by
  simp [dig, Nat.not_lt.mpr h]

theorem dig_update (a : Fin n → W) (j : Fin n) (v : W) (i : Nat) :
    dig (Function.update a j v) i = if i = j.val then v.toNat else dig a i := by
  unfold dig
  by_cases h : i < n
  · simp only [h, dif_pos]
    by_cases e : i = j.val
    · simp [e]
    · have : (⟨i, h⟩ : Fin n) ≠ j := fun h' => e (congrArg Fin.val h')
      simp [this, e]
  · have : i ≠ j.val := by have := j.isLt; omega
    simp [h, this]

theorem dig_ext {a b : Fin n → W} (h : ∀ i, i < n → dig a i = dig b i) : a = b := by
  funext i
  apply BitVec.eq_of_toNat_eq
  rw [← dig_fin, ← dig_fin]; exact h _ i.isLt

@[simp] theorem lv_zero (a : Fin n → W) : lv a 0 = 0 := by simp [lv]

theorem lv_succ (a : Fin n → W) (k : Nat) : lv a (k+1) = lv a k + dig a k * 2^(64*k) := by
  simp [lv, sum_range_succ]

theorem lv_congr {m : Nat} {a : Fin n → W} {b : Fin m → W} {k : Nat}
    (h : ∀ i, i < k → dig a i = dig b i) : lv a k = lv b k := by
  unfold lv
  apply sum_congr rfl
  intro i hi
  rw [h i (mem_range.1 hi)]

theorem lv_lt (a : Fin n → W) (k : Nat) : lv a k < 2^(64*k) := by
  induction k with
  | zero => simp
  | succ k ih =>
    rw [lv_succ]
    have h := dig_lt a k
    have e : 2^(64*(k+1)) = 2^(64*k) * 2^64 := by rw [← pow_add]; congr 1
    have h2 : (dig a k + 1) * 2^(64*k) ≤ 2^64 * 2^(64*k) := Nat.mul_le_mul_right _ h
    rw [e]
    nlinarith

theorem lv_update_ge (a : Fin n → W) (j : Fin n) (v : W) {k : Nat} (h : k ≤ j.val) :
    lv (Function.update a j v) k = lv a k :=
  lv_congr fun i hi => by rw [dig_update, if_neg (by omega)]

theorem lv_update_self (a : Fin n → W) (j : Fin n) (v : W) :
    lv (Function.update a j v) (j.val+1) = lv a j.val + v.toNat * 2^(64*j.val) := by
  rw [lv_succ, lv_update_ge _ _ _ le_rfl, dig_update, if_pos rfl]

/-- lower limbs are the number modulo a power of the base -/
theorem lv_mod (a : Fin n → W) {k m : Nat} (h : k ≤ m) : lv a m % 2^(64*k) = lv a k := by
  induction m with
  | zero => obtain rfl : k = 0 := by omega
            simp
  | succ m ih =>
    by_cases e : k = m+1
    · subst e; exact Nat.mod_eq_of_lt (lv_lt _ _)
    · rw [lv_succ, Nat.add_mod, ih (by omega)]
      have : 2^(64*k) ∣ dig a m * 2^(64*m) :=
        Dvd.dvd.mul_left (pow_dvd_pow 2 (by omega)) _
      rw [Nat.mod_eq_zero_of_dvd this, Nat.add_zero]
      exact Nat.mod_eq_of_lt (lv_lt _ _)

theorem lv_inj {a b : Fin n → W} (h : lv a n = lv b n) : a = b := by
  apply dig_ext
  intro i hi
  have h1 : lv a (i+1) = lv b (i+1) := by rw [← lv_mod a hi, ← lv_mod b hi, h]
  have h2 : lv a i = lv b i := by rw [← lv_mod a hi.le, ← lv_mod b hi.le, h]
  rw [lv_succ, lv_succ, h2] at h1
  have : 0 < 2^(64*i) := by positivity
  exact Nat.eq_of_mul_eq_mul_right this (by omega)

theorem lv_of_le (a : Fin n → W) {k : Nat} (h : n ≤ k) : lv a k = lv a n := by
  induction k with
  | zero => obtain rfl : n = 0 := by omega
            rfl
  | succ k ih =>
    by_cases e : n = k+1
    · subst e; rfl
    · rw [lv_succ, dig_of_ge a (by omega), ih (by omega)]; simp

/-- digit of a number -/
theorem dig_eq_div (a : Fin n → W) (i : Nat) : dig a i = lv a n / 2^(64*i) % 2^64 := by
  by_cases h : i < n
  · have h1 := lv_mod a (show i+1 ≤ n by omega)
    have e : 2^(64*(i+1)) = 2^(64*i) * 2^64 := by rw [← pow_add]; congr 1
    rw [e, Nat.mod_mul] at h1
    rw [lv_mod a h.le, lv_succ] at h1
    have : 0 < 2^(64*i) := by positivity
    have h2 : 2^(64*i) * dig a i = 2^(64*i) * (lv a n / 2^(64*i) % 2^64) := by
      rw [Nat.mul_comm (2^(64*i)) (dig a i)]; omega
    exact Nat.eq_of_mul_eq_mul_left this h2
  · rw [dig_of_ge a (by omega), Nat.div_eq_of_lt, Nat.zero_mod]
    exact lt_of_lt_of_le (lv_lt a n) (Nat.pow_le_pow_right (by norm_num) (Nat.mul_le_mul_left 64 (Nat.not_lt.1 h)))

namespace Z_Q
variable {L : Nat}

theorem val_lt (x : Z_Q L) : x.val < 2^(64 * nlimb L) := lv_lt _ _

theorem val_inj {x y : Z_Q L} (h : x.val = y.val) : x = y := by
  cases x; cases y
  congr 1
  exact lv_inj h

theorem le_nlimb (L : Nat) : L ≤ 64 * nlimb L := by unfold nlimb; omega

theorem pow_dvd_limbs (L : Nat) : 2^L ∣ 2^(64 * nlimb L) := pow_dvd_pow 2 (le_nlimb L)

variable [NeZero L]

theorem top_val : (top L).val + 1 = nlimb L := by
  have := nlimb_pos L
  simp [top]; omega

theorem lim_bounds (L : Nat) [h : NeZero L] : 64 * (nlimb L - 1) < L ∧ L ≤ 64 * nlimb L ∧ 0 < nlimb L := by
  have := h.out
  unfold nlimb; omega

/-- removing the top bits of the top limb -/
theorem val_remove_clutter (x : Z_Q L) : (remove_clutter x).val = x.val % 2^L := by
  obtain ⟨h1, h2, h3⟩ := lim_bounds L
  unfold remove_clutter val
  simp only [Function.update_idem, Function.update_self]
  generalize hr : 64 * nlimb L - L = r
  have hr' : r < 64 := by omega
  have ht : nlimb L = (top L).val + 1 := (top_val).symm
  have hL : L = 64 * (top L).val + (64 - r) := by omega
  have e : 2^L = 2^(64 * (top L).val) * 2^(64-r) := by rw [← pow_add, ← hL]
  rw [← lv_of_le (k := (top L).val + 1) _ ht.le, ← lv_of_le (k := (top L).val + 1) _ ht.le]
  rw [lv_update_self, e, Nat.mod_mul, lv_mod _ (Nat.le_succ _), lv_succ, dig_fin]
  have hp : 0 < 2^(64 * (top L).val) := by positivity
  rw [Nat.add_mul_div_right _ _ hp, Nat.div_eq_of_lt (lv_lt _ _), Nat.zero_add, Nat.mul_comm]
  congr 1; congr 1
  simp only [BitVec.toNat_ushiftRight, BitVec.toNat_shiftLeft, Nat.shiftLeft_eq,
    Nat.shiftRight_eq_div_pow]
  have e64 : 2^64 = 2^(64-r) * 2^r := by rw [← pow_add]; congr 1; omega
  rw [e64, Nat.mul_mod_mul_right, Nat.mul_div_cancel _ (by positivity)]

theorem canonical_of_mod {x : Z_Q L} {v : Nat} (h : x.val = v % 2^L) : x.Canonical := by
  unfold Canonical; rw [h]; exact Nat.mod_lt _ (by positivity)

theorem addStep_spec (d a : W) (c : Bool) :
    (addStep d a c).1.toNat + 2^64 * (addStep d a c).2.toNat = d.toNat + a.toNat + c.toNat := by
  have h1 := W_lt d
  have h2 := W_lt a
  have hz : ∀ w : W, (w == 0) = decide (w.toNat = 0) := by
    intro w
    rw [Bool.eq_iff_iff]
    simp only [beq_iff_eq, decide_eq_true_eq]
    exact ⟨fun h => by rw [h]; rfl, fun h => BitVec.eq_of_toNat_eq (by simpa using h)⟩
  have h1' : (1 : W).toNat = 1 := rfl
  cases c <;>
    simp only [addStep, hz, BitVec.lt_def, BitVec.toNat_add, if_true, Bool.false_and,
      Bool.false_or, Bool.true_and, Bool.toNat_false, Bool.toNat_true, Bool.false_eq_true,
      if_false, h1']
  · by_cases h : (d.toNat + a.toNat) % 2^64 < a.toNat
    · simp only [h, decide_true, Bool.toNat_true]; omega
    · simp only [h, decide_false, Bool.toNat_false]; omega
  · by_cases h : (d.toNat + a.toNat) % 2^64 < a.toNat <;>
    by_cases h' : ((d.toNat + a.toNat) % 2^64 + 1) % 2^64 = 0 <;>
    simp only [h, h', decide_true, decide_false, Bool.toNat_true, Bool.toNat_false, Bool.or_true,
      Bool.or_false] <;> omega

/-- the carry loop adds the two numbers; the carry out of the top limb is dropped -/
theorem addLoop_spec (x A : Z_Q L) :
    ∃ c : Bool, lv (forFin (nlimb L) (fun i (s : (Fin (nlimb L) → W) × Bool) =>
      let r := addStep (s.1 i) (A.data i) s.2
      (Function.update s.1 i r.1, r.2)) (x.data, false)).1 (nlimb L) + c.toNat * 2^(64 * nlimb L)
      = x.val + A.val := by
  have h := forFin_inv (n := nlimb L) (s := (x.data, false))
    (f := (fun i (s : (Fin (nlimb L) → W) × Bool) =>
      let r := addStep (s.1 i) (A.data i) s.2
      (Function.update s.1 i r.1, r.2)))
    (P := fun k s => (∀ i, k ≤ i → dig s.1 i = dig x.data i) ∧
      lv s.1 k + s.2.toNat * 2^(64*k) = lv x.data k + lv A.data k)
    (by simp) (by
      rintro i ⟨d, c⟩ ⟨h1, h2⟩
      dsimp only at h1 h2 ⊢
      refine ⟨fun j hj => ?_, ?_⟩
      · rw [dig_update, if_neg (by omega)]; exact h1 j (by omega)
      · rw [lv_update_self, lv_succ, lv_succ, ← h1 i.val le_rfl, dig_fin, dig_fin]
        have h3 := addStep_spec (d i) (A.data i) c
        have e : 2^(64*(i.val+1)) = 2^64 * 2^(64*i.val) := by rw [← pow_add]; congr 1; omega
        rw [e]
        generalize (addStep (d i) (A.data i) c).1.toNat = u at *
        generalize (addStep (d i) (A.data i) c).2.toNat = v at *
        have : (u + 2^64 * v) * 2^(64*i.val)
            = ((d i).toNat + (A.data i).toNat + c.toNat) * 2^(64*i.val) := by rw [h3]
        nlinarith [this])
  exact ⟨_, h.2⟩

theorem val_add (x A : Z_Q L) : (add x A).val = (x.val + A.val) % 2^L := by
  unfold add
  simp only []
  rw [val_remove_clutter]
  obtain ⟨c, hc⟩ := addLoop_spec x A
  rw [← hc, Nat.add_mod _ (_ * _),
    Nat.mod_eq_zero_of_dvd (Dvd.dvd.mul_left (pow_dvd_limbs L) c.toNat)]
  simp [val]

/-- xor of every limb with all ones complements the number -/
theorem flip_spec (x : Z_Q L) :
    lv (forFin (nlimb L) (fun i d => Function.update d i (d i ^^^ (-1 : W))) x.data) (nlimb L)
      + x.val + 1 = 2^(64 * nlimb L) := by
  have h := forFin_inv (n := nlimb L) (s := x.data)
    (f := (fun i d => Function.update d i (d i ^^^ (-1 : W))))
    (P := fun k d => (∀ i, k ≤ i → dig d i = dig x.data i) ∧
      lv d k + lv x.data k + 1 = 2^(64*k)) (by simp) (by
      rintro i d ⟨h1, h2⟩
      refine ⟨fun j hj => ?_, ?_⟩
      · rw [dig_update, if_neg (by omega)]; exact h1 j (by omega)
      · rw [lv_update_self, lv_succ, ← h1 i.val le_rfl, dig_fin]
        have e : 2^(64*(i.val+1)) = 2^64 * 2^(64*i.val) := by rw [← pow_add]; congr 1; omega
        have hx : (d i ^^^ (-1 : W)).toNat + (d i).toNat = 2^64 - 1 := by
          have e1 : (-1 : W) = BitVec.allOnes 64 := by decide
          rw [e1, BitVec.xor_allOnes, BitVec.toNat_not]
          have := W_lt (d i)
          omega
        rw [e]
        have : ((d i ^^^ (-1 : W)).toNat + (d i).toNat) * 2^(64*i.val)
          = (2^64 - 1) * 2^(64*i.val) := by rw [hx]
        rw [Nat.sub_mul, Nat.one_mul] at this
        have h5 : 2^(64*i.val) ≤ 2^64 * 2^(64*i.val) := Nat.le_mul_of_pos_left _ (by norm_num)
        rw [Nat.add_mul] at this
        omega)
  exact h.2

/-- the increment chain of `negate` adds one; the carry out of the top limb is dropped -/
theorem incr_spec (d0 : Fin (nlimb L) → W) :
    ∃ c : Bool, lv (forFin (nlimb L) (fun i (s : (Fin (nlimb L) → W) × Bool) =>
      if 1 ≤ i.val ∧ s.2 = true then
        (Function.update s.1 i (s.1 i + 1), (Function.update s.1 i (s.1 i + 1)) i == 0)
      else s) (Function.update d0 (bot L) (d0 (bot L) + 1),
        (Function.update d0 (bot L) (d0 (bot L) + 1)) (bot L) == 0)).1 (nlimb L)
      + c.toNat * 2^(64 * nlimb L) = lv d0 (nlimb L) + 1 := by
  have hz : ∀ w : W, (w + 1).toNat + (w + 1 == 0).toNat * 2^64 = w.toNat + 1 := by
    intro w
    have hw := W_lt w
    by_cases h : w + 1 = 0
    · simp only [h, beq_self_eq_true, Bool.toNat_true]
      have h' := congrArg BitVec.toNat h
      have h1' : (1 : W).toNat = 1 := rfl
      have h2' : (0 : W).toNat = 0 := rfl
      simp only [BitVec.toNat_add, h1', h2'] at h' ⊢
      clear h1' h2' h
      omega
    · have : (w + 1 == 0) = false := by simpa using h
      rw [this]
      have h1' : (1 : W).toNat = 1 := rfl
      have h2' : (0 : W).toNat = 0 := rfl
      have h' : (w.toNat + 1) % 2^64 ≠ 0 := fun h' => h (BitVec.eq_of_toNat_eq (by
        rw [BitVec.toNat_add, h1', h2', h']))
      simp only [BitVec.toNat_add, h1', Bool.toNat_false]
      omega
  have h := forFin_inv (n := nlimb L) (s := (Function.update d0 (bot L) (d0 (bot L) + 1),
        (Function.update d0 (bot L) (d0 (bot L) + 1)) (bot L) == 0))
    (f := (fun i (s : (Fin (nlimb L) → W) × Bool) =>
      if 1 ≤ i.val ∧ s.2 = true then
        (Function.update s.1 i (s.1 i + 1), (Function.update s.1 i (s.1 i + 1)) i == 0)
      else s))
    (P := fun k s => (∀ i, max k 1 ≤ i → dig s.1 i = dig d0 i) ∧
      lv s.1 (max k 1) + s.2.toNat * 2^(64*(max k 1)) = lv d0 (max k 1) + 1)
    (by
      refine ⟨fun i hi => ?_, ?_⟩
      · rw [dig_update, if_neg]; simp [bot]; omega
      · have e : max 0 1 = (bot L).val + 1 := by simp [bot]
        rw [e, lv_update_self, lv_succ, dig_fin]
        have e0 : (bot L).val = 0 := rfl
        have := hz (d0 (bot L))
        simp only [Function.update_self, e0] at *
        simp only [lv_zero, Nat.zero_add, Nat.mul_zero, pow_zero, Nat.mul_one] at *
        omega) (by
      rintro i ⟨d, c⟩ ⟨h1, h2⟩
      dsimp only at h1 h2 ⊢
      by_cases hi : 1 ≤ i.val
      · have m1 : max i.val 1 = i.val := by omega
        have m2 : max (i.val+1) 1 = i.val + 1 := by omega
        rw [m1] at h1 h2
        rw [m2]
        cases c
        · simp only [Bool.false_eq_true, and_false, if_false]
          refine ⟨fun j hj => h1 j (by omega), ?_⟩
          rw [lv_succ, lv_succ, ← h1 i.val le_rfl]
          simp only [Bool.toNat_false, Nat.zero_mul, Nat.add_zero] at *
          omega
        · simp only [hi, and_self, if_true, Function.update_self]
          refine ⟨fun j hj => ?_, ?_⟩
          · rw [dig_update, if_neg (by omega)]; exact h1 j (by omega)
          · rw [lv_update_self, lv_succ, ← h1 i.val le_rfl, dig_fin]
            have h3 := hz (d i)
            have e : 2^(64*(i.val+1)) = 2^64 * 2^(64*i.val) := by rw [← pow_add]; congr 1; omega
            rw [e]
            have : ((d i + 1).toNat + (d i + 1 == 0).toNat * 2^64) * 2^(64*i.val)
              = ((d i).toNat + 1) * 2^(64*i.val) := by rw [h3]
            simp only [Bool.toNat_true] at h2
            nlinarith [this]
      · have : i.val = 0 := by omega
        simp only [hi, false_and, if_false]
        have m1 : max i.val 1 = 1 := by omega
        have m2 : max (i.val+1) 1 = 1 := by omega
        rw [m1] at h1 h2
        rw [m2]
        exact ⟨h1, h2⟩)
  have e : max (nlimb L) 1 = nlimb L := by have := nlimb_pos L; omega
  rw [e] at h
  exact ⟨_, h.2⟩

theorem val_negate (x : Z_Q L) : (negate x).val = (2^L - x.val % 2^L) % 2^L := by
  unfold negate
  simp only []
  rw [val_remove_clutter]
  obtain ⟨c, hc⟩ := incr_spec (remove_clutter (⟨forFin (nlimb L)
    (fun i d => Function.update d i (d i ^^^ (-1 : W))) x.data⟩ : Z_Q L)).data
  have h1 := flip_spec x
  have h2 := val_remove_clutter (⟨forFin (nlimb L)
    (fun i d => Function.update d i (d i ^^^ (-1 : W))) x.data⟩ : Z_Q L)
  unfold val at h2 ⊢
  rw [h2] at hc
  dsimp only at hc ⊢
  have hd := pow_dvd_limbs L
  have key : ((2^L : Nat) : ZMod (2^L)) = 0 := ZMod.natCast_self _
  have key2 : ((2^(64 * nlimb L) : Nat) : ZMod (2^L)) = 0 := (ZMod.natCast_eq_zero_iff _ _).2 hd
  apply (ZMod.natCast_eq_natCast_iff' _ _ _).1
  have hc' := congrArg (Nat.cast (R := ZMod (2^L))) hc
  have h1' := congrArg (Nat.cast (R := ZMod (2^L))) h1
  have hlt : lv x.data (nlimb L) % 2^L ≤ 2^L := (Nat.mod_lt _ (by positivity)).le
  have e3 : ((2^L - lv x.data (nlimb L) % 2^L : Nat) : ZMod (2^L))
      = -(lv x.data (nlimb L) : ZMod (2^L)) := by
    rw [Nat.cast_sub hlt, key, ZMod.natCast_mod, zero_sub]
  rw [e3]
  simp only [Nat.cast_add, Nat.cast_mul, ZMod.natCast_mod, key2, mul_zero, add_zero,
    Nat.cast_one] at hc' h1'
  rw [hc']
  unfold val at h1'
  linear_combination h1'

end Z_Q
end EvalRound

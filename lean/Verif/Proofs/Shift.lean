import Verif.Proofs.ZQ

/-! `shift_right`, `shift_left`, `operator double`, `max_valid_digit` -/

set_option linter.unusedSectionVars false

namespace EvalRound
open Finset

variable {n : Nat}

/-- an array whose digits are the base-2^64 digits of `V` holds `V` modulo its size -/
theorem lv_of_digits {a : Fin n → W} {V k : Nat} (h : ∀ i, i < k → dig a i = V / 2^(64*i) % 2^64) :
    lv a k = V % 2^(64*k) := by
  induction k with
  | zero => simp [Nat.mod_one]
  | succ k ih =>
    rw [lv_succ, ih (fun i hi => h i (by omega)), h k (by omega)]
    have e : 2^(64*(k+1)) = 2^(64*k) * 2^64 := by rw [← pow_add]; congr 1
    rw [e, Nat.mod_mul]
    ring

theorem dig_eq_div_val {L : Nat} (x : Z_Q L) (i : Nat) : dig x.data i = x.val / 2^(64*i) % 2^64 :=
  dig_eq_div _ _

namespace Z_Q
variable {LF LT : Nat} [NeZero LF] [NeZero LT]

theorem nlimb_add (L q : Nat) : nlimb (L + 64*q) = nlimb L + q := by unfold nlimb; omega

theorem nlimb_mono {a b : Nat} (h : a ≤ b) : nlimb a ≤ nlimb b := by unfold nlimb; omega

theorem shrCopy_spec (A : Z_Q LF) (q : Nat) (B : Z_Q LT) (h : nlimb LT + q ≤ nlimb LF) :
    Ok (shrCopy A q B) fun C => ∀ j, j < nlimb LT → dig C.data j = dig A.data (j + q) := by
  unfold shrCopy
  refine Ok.bind (P := fun d : Fin (nlimb LT) → W =>
    ∀ j, j < nlimb LT → dig d j = dig A.data (j + q)) ?_ (fun d hd => Ok.pure hd)
  refine forUp_inv (P := fun k (d : Fin (nlimb LT) → W) =>
    ∀ j, j < k → dig d j = dig A.data (j + q)) (Nat.zero_le _) (fun j hj => by omega) ?_
  intro i s _ hi hs
  rw [rd_of_lt _ (show i + q < nlimb LF by omega), pure_bind, wr_of_lt _ hi]
  refine Ok.pure fun j hj => ?_
  rw [dig_update]
  by_cases e : j = i
  · subst e; rw [if_pos rfl, dig_of_lt]
  · rw [if_neg e]; exact hs j (by omega)

/-- one limb of a right shift -/
theorem shr_limb (v r : Nat) (hr : 0 < r) (hr' : r < 64) :
    ((v % 2^64) / 2^r + (v / 2^64 % 2^64) * 2^(64-r) % 2^64) % 2^64 = v / 2^r % 2^64 := by
  have e64 : (2:Nat)^64 = 2^r * 2^(64-r) := by rw [← pow_add]; congr 1; omega
  have h1 : v % 2^64 / 2^r = v / 2^r % 2^(64-r) := by
    rw [e64, Nat.mod_mul_right_div_self]
  have h2 : (v / 2^64 % 2^64) * 2^(64-r) % 2^64 = (v / 2^64 % 2^r) * 2^(64-r) := by
    conv_lhs => rw [show (2:Nat)^64 = 2^r * 2^(64-r) from e64]
    rw [Nat.mul_mod_mul_right, Nat.mod_mul_right_mod, ← e64]
  have h3 : v / 2^r % 2^64 = v / 2^r % 2^(64-r) + 2^(64-r) * (v / 2^r / 2^(64-r) % 2^r) := by
    rw [show (2:Nat)^64 = 2^(64-r) * 2^r by rw [e64, Nat.mul_comm], Nat.mod_mul]
  have h4 : v / 2^r / 2^(64-r) = v / 2^64 := by rw [Nat.div_div_eq_div_mul, ← e64]
  have hlt : v / 2^r % 2^64 < 2^64 := Nat.mod_lt _ (by positivity)
  rw [h1, h2, Nat.mul_comm (v / 2^64 % 2^r), ← h4, ← h3]
  exact Nat.mod_eq_of_lt hlt

theorem shrBits_spec (r : Nat) (B : Z_Q LT) (X : W) (hr : 0 < r) (hr' : r < 64) (V : Nat)
    (hV : ∀ j, j < nlimb LT → dig B.data j = V / 2^(64*j) % 2^64)
    (hX : X.toNat = V / 2^(64*nlimb LT) % 2^64) :
    ∀ j, j < nlimb LT → dig (shrBits r B (X <<< (64-r))).data j = V / 2^(64*j + r) % 2^64 := by
  unfold shrBits
  have h := forFinDown_inv (n := nlimb LT) (s := (B.data, X <<< (64-r)))
    (f := fun i (s : (Fin (nlimb LT) → W) × W) =>
      (Function.update s.1 i (s.1 i >>> r + s.2), s.1 i <<< (64 - r)))
    (P := fun k s => (∀ j, j < k → dig s.1 j = dig B.data j) ∧
      (∀ j, k ≤ j → j < nlimb LT → dig s.1 j = V / 2^(64*j + r) % 2^64) ∧
      s.2.toNat = (V / 2^(64*k) % 2^64) * 2^(64-r) % 2^64)
    ⟨fun _ _ => rfl, fun j h1 h2 => by omega, by
      rw [BitVec.toNat_shiftLeft, Nat.shiftLeft_eq, hX]⟩ (by
      rintro i ⟨d, t⟩ ⟨h1, h2, h3⟩
      dsimp only at h1 h2 h3 ⊢
      have hdi : (d i).toNat = V / 2^(64*i.val) % 2^64 := by
        rw [← dig_fin, h1 i.val (by omega), hV _ i.isLt]
      refine ⟨fun j hj => ?_, fun j hj hn => ?_, ?_⟩
      · rw [dig_update, if_neg (by omega)]; exact h1 j (by omega)
      · rw [dig_update]
        by_cases e : j = i.val
        · subst e
          rw [if_pos rfl, BitVec.toNat_add, BitVec.toNat_ushiftRight, Nat.shiftRight_eq_div_pow,
            hdi, h3]
          have e1 : V / 2^(64*(i.val+1)) = V / 2^(64*i.val) / 2^64 := by
            rw [Nat.div_div_eq_div_mul, ← pow_add]; congr 1
          have e2 : V / 2^(64*i.val + r) = V / 2^(64*i.val) / 2^r := by
            rw [Nat.div_div_eq_div_mul, ← pow_add]
          rw [e1, e2]
          exact shr_limb _ r hr hr'
        · rw [if_neg e]; exact h2 j (by omega) hn
      · rw [BitVec.toNat_shiftLeft, Nat.shiftLeft_eq, hdi])
  exact fun j hj => h.2.1 j (Nat.zero_le _) hj

/-- the truncated shift, before rounding -/
theorem shr_trunc {A : Z_Q LF} (hA : A.Canonical) (B0 : Z_Q LT) (h : LT < LF) :
    Ok (shrTrunc A B0) fun B => B.val = A.val / 2^(LF - LT) := by
  unfold shrTrunc
  generalize hq : (LF - LT) / 64 = q
  generalize hr : (LF - LT) % 64 = r
  have hk : LF - LT = 64 * q + r := by omega
  have hLF : LF = LT + r + 64 * q := by omega
  have hlen : nlimb LF = nlimb (LT + r) + q := by rw [hLF, nlimb_add]
  have hmono : nlimb LT ≤ nlimb (LT + r) := nlimb_mono (by omega)
  have hmono2 : nlimb (LT + r) ≤ nlimb LT + 1 := by unfold nlimb; omega
  have hlt : A.val / 2^(LF - LT) < 2^LT := by
    rw [Nat.div_lt_iff_lt_mul (by positivity), ← pow_add]
    have : LT + (LF - LT) = LF := by omega
    rw [this]; exact hA
  have hlt' : A.val / 2^(LF - LT) < 2^(64 * nlimb LT) :=
    lt_of_lt_of_le hlt (Nat.pow_le_pow_right (by norm_num) (le_nlimb LT))
  have hdiv : ∀ j, A.val / 2^(64*(j+q)) = A.val / 2^(64*q) / 2^(64*j) := by
    intro j; rw [Nat.div_div_eq_div_mul, ← pow_add]; congr 2; ring
  refine Ok.bind (shrCopy_spec A q B0 (by omega)) fun B hB => ?_
  by_cases hr0 : 0 < r
  · rw [if_pos hr0]
    have hB' : ∀ j, j < nlimb LT → dig B.data j = A.val / 2^(64*q) / 2^(64*j) % 2^64 := by
      intro j hj; rw [hB j hj, dig_eq_div_val, hdiv]
    refine Ok.bind (P := fun X : W => X.toNat = A.val / 2^(64*q) / 2^(64*nlimb LT) % 2^64) ?_ ?_
    · by_cases hx : (LT + r + 63) / 64 ≠ (LT + 63) / 64
      · rw [if_pos hx]
        have hx' : nlimb (LT + r) ≠ nlimb LT := hx
        rw [rd_of_lt _ (show nlimb LT + q < nlimb LF by omega)]
        refine Ok.pure ?_
        rw [← hdiv, ← dig_eq_div_val, dig_of_lt]
      · rw [if_neg hx]
        have hx' : nlimb (LT + r) = nlimb LT := not_not.1 hx
        refine Ok.pure ?_
        rw [← hdiv, ← dig_eq_div_val, dig_of_ge _ (by omega)]; rfl
    · intro X hX
      refine Ok.pure ?_
      have := shrBits_spec r B X hr0 (by omega) (A.val / 2^(64*q)) hB' hX
      have h2 : ∀ j, j < nlimb LT → dig (shrBits r B (X <<< (64-r))).data j
          = A.val / 2^(LF - LT) / 2^(64*j) % 2^64 := by
        intro j hj
        rw [this j hj, Nat.div_div_eq_div_mul, Nat.div_div_eq_div_mul, ← pow_add, ← pow_add, hk]
        congr 3; ring
      show lv _ _ = _
      rw [lv_of_digits h2, Nat.mod_eq_of_lt hlt']
  · rw [if_neg hr0]
    refine Ok.pure ?_
    have hr1 : r = 0 := by omega
    have h2 : ∀ j, j < nlimb LT → dig B.data j = A.val / 2^(LF - LT) / 2^(64*j) % 2^64 := by
      intro j hj
      rw [hB j hj, dig_eq_div_val, hdiv, hk, hr1, Nat.add_zero]
    show lv _ _ = _
    rw [lv_of_digits h2, Nat.mod_eq_of_lt hlt']

theorem shift_right_spec {A : Z_Q LF} (hA : A.Canonical) (B0 : Z_Q LT) (h : LT ≤ LF) :
    Ok (shift_right A B0) fun B => B.val = (A.val + 2^(LF-LT) / 2) / 2^(LF-LT) % 2^LT := by
  unfold shift_right
  by_cases e : LF = LT
  · subst e
    simp only [if_true]
    refine Ok.bind (P := fun d : Fin (nlimb LF) → W =>
      ∀ j, j < nlimb LF → dig d j = dig A.data j) ?_ (fun d hd => Ok.pure ?_)
    · refine forUp_inv (P := fun k (d : Fin (nlimb LF) → W) =>
        ∀ j, j < k → dig d j = dig A.data j) (Nat.zero_le _) (fun j hj => by omega) ?_
      intro i s _ hi hs
      rw [rd_of_lt _ hi, pure_bind, wr_of_lt _ hi]
      refine Ok.pure fun j hj => ?_
      rw [dig_update]
      by_cases e : j = i
      · subst e; rw [if_pos rfl, dig_of_lt]
      · rw [if_neg e]; exact hs j (by omega)
    · have : lv d (nlimb LF) = A.val := lv_congr hd
      show lv d _ = _
      rw [this]; simp [Nat.mod_eq_of_lt hA]
  · have hlt : LT < LF := by omega
    simp only [e, if_false, Nat.not_lt.2 h]
    obtain ⟨B, hB1, hB2⟩ := shr_trunc hA B0 hlt
    rw [hB1, pure_bind]
    generalize hk : LF - LT = k at *
    have hk0 : 0 < k := by omega
    have hidx : (k-1)/64 < nlimb LF := by unfold nlimb; omega
    rw [rd_of_lt _ hidx, pure_bind]
    have hbit : ((1 : W) &&& (A.data ⟨(k-1)/64, hidx⟩ >>> ((k-1) % 64))).toNat
        = A.val / 2^(k-1) % 2 := by
      rw [BitVec.toNat_and, BitVec.toNat_ushiftRight, Nat.shiftRight_eq_div_pow, ← dig_of_lt,
        dig_eq_div_val]
      have h1 : (1 : W).toNat = 1 := rfl
      rw [h1, Nat.one_and_eq_mod_two]
      have e1 : A.val / 2^(k-1) = A.val / 2^(64*((k-1)/64)) / 2^((k-1)%64) := by
        rw [Nat.div_div_eq_div_mul, ← pow_add]; congr 2; omega
      rw [e1]
      generalize A.val / 2^(64*((k-1)/64)) = v
      have hs : (k-1) % 64 < 64 := Nat.mod_lt _ (by norm_num)
      generalize (k-1) % 64 = t at *
      have e64 : (2:Nat)^64 = 2^t * 2^(64-t) := by rw [← pow_add]; congr 1; omega
      rw [e64, Nat.mod_mul_right_div_self]
      have : (2:Nat)^(64-t) = 2 * 2^(63-t) := by rw [← pow_succ']; congr 1; omega
      rw [this, Nat.mod_mul_right_mod]
    have hhalf : 2^k / 2 = 2^(k-1) := by
      have : (2:Nat)^k = 2 * 2^(k-1) := by rw [← pow_succ']; congr 1; omega
      rw [this]; simp
    have hround : (A.val + 2^k/2) / 2^k = A.val / 2^k + A.val / 2^(k-1) % 2 := by
      rw [hhalf]
      have e2 : (2:Nat)^k = 2^(k-1) * 2 := by rw [← pow_succ]; congr 1; omega
      rw [e2, ← Nat.div_div_eq_div_mul, ← Nat.div_div_eq_div_mul, Nat.add_div_right _ (by positivity)]
      omega
    have hlt2 : A.val / 2^k < 2^LT := by
      rw [Nat.div_lt_iff_lt_mul (by positivity), ← pow_add]
      have : LT + k = LF := by omega
      rw [this]; exact hA
    rw [hround]
    by_cases hc : ((1 : W) &&& (A.data ⟨(k-1)/64, hidx⟩ >>> ((k-1) % 64))) = 0
    · simp only [hc, ne_eq, not_true_eq_false, if_false]
      refine Ok.pure ?_
      rw [hc] at hbit
      have h0 : (0 : W).toNat = 0 := rfl
      rw [h0] at hbit
      rw [← hbit, hB2, Nat.add_zero, Nat.mod_eq_of_lt hlt2]
    · simp only [ne_eq, hc, not_false_iff, if_true]
      refine Ok.pure ?_
      rw [val_add, val_setLow, hB2]
      have h1 : (1 : W).toNat = 1 := rfl
      have : A.val / 2^(k-1) % 2 ≠ 0 := by
        intro h0
        exact hc (BitVec.eq_of_toNat_eq (by rw [hbit, h0]; rfl))
      rw [h1]
      congr 2; omega

/-! ## shift_left -/

theorem shift_left_spec {A : Z_Q LF} (hA : A.Canonical) (B0 : Z_Q LT) (h : LF ≤ LT) :
    Ok (shift_left A B0) fun B => B.val = A.val * 2^(LT-LF) := by
  unfold shift_left
  rw [if_neg (Nat.not_lt.2 h)]
  generalize hq : (LT - LF) / 64 = q
  generalize hr : (LT - LF) % 64 = r
  have hk : LT - LF = 64 * q + r := by omega
  have hLT : LT = LF + r + 64 * q := by omega
  have hlen : nlimb LT = nlimb (LF + r) + q := by rw [hLT, nlimb_add]
  have hmono : nlimb LF ≤ nlimb (LF + r) := nlimb_mono (by omega)
  have hmono2 : nlimb (LF + r) ≤ nlimb LF + 1 := by unfold nlimb; omega
  simp only []
  refine Ok.bind (P := fun d : Fin (nlimb LT) → W =>
    ∀ j, j < nlimb LF → dig d (j + q) = dig A.data j) ?_ ?_
  · refine forUp_inv (P := fun k (d : Fin (nlimb LT) → W) =>
      ∀ j, j < k → dig d (j + q) = dig A.data j) (Nat.zero_le _) (fun j hj => by omega) ?_
    intro i s _ hi hs
    rw [rd_of_lt _ hi, pure_bind, wr_of_lt _ (show i + q < nlimb LT by omega)]
    refine Ok.pure fun j hj => ?_
    rw [dig_update]
    by_cases e : j = i
    · subst e; rw [if_pos rfl, dig_of_lt]
    · rw [if_neg (by dsimp only; omega)]; exact hs j (by omega)
  intro d hd
  refine Ok.bind (P := fun d' : Fin (nlimb LT) → W =>
    (∀ j, j < nlimb LF → dig d' (j + q) = dig A.data j) ∧ ∀ j, j < q → dig d' j = 0) ?_ ?_
  · refine forUp_inv (P := fun k (d' : Fin (nlimb LT) → W) =>
      (∀ j, j < nlimb LF → dig d' (j + q) = dig A.data j) ∧ ∀ j, j < k → dig d' j = 0)
      (Nat.zero_le _) ⟨hd, fun j hj => by omega⟩ ?_
    intro i s _ hi hs
    rw [wr_of_lt _ (show i < nlimb LT by omega)]
    refine Ok.pure ⟨fun j hj => ?_, fun j hj => ?_⟩
    · rw [dig_update, if_neg (by dsimp only; omega)]; exact hs.1 j hj
    · rw [dig_update]
      by_cases e : j = i
      · rw [if_pos e]; rfl
      · rw [if_neg e]; exact hs.2 j (by omega)
  clear hd d
  rintro d ⟨hd, hd0⟩
  have hlow : lv d q = 0 := by
    unfold lv; apply sum_eq_zero; intro i hi
    rw [hd0 i (mem_range.1 hi), Nat.zero_mul]
  have hval : ∀ k, k ≤ nlimb LF → lv d (k + q) = 2^(64*q) * lv A.data k := by
    intro k
    induction k with
    | zero => intro _; simp [hlow]
    | succ k ih =>
      intro hk
      have e : k + 1 + q = (k + q) + 1 := by omega
      rw [e, lv_succ, ih (by omega), hd k (by omega), lv_succ]
      ring
  by_cases hr0 : r = 0
  · rw [if_pos hr0]
    refine Ok.pure ?_
    have h1 : nlimb LT = nlimb LF + q := by rw [hlen, hr0, Nat.add_zero]
    have h2 := hval _ le_rfl
    rw [lv_of_le _ h1.le] at h2
    show lv d _ = _
    rw [h2, hk, hr0, Nat.add_zero, Nat.mul_comm]; rfl
  · rw [if_neg hr0]
    have hr1 : r < 64 := by omega
    have e64 : (2:Nat)^64 = 2^r * 2^(64-r) := by rw [← pow_add]; congr 1; omega
    refine Ok.bind (P := fun s : (Fin (nlimb LT) → W) × W =>
      lv s.1 (nlimb LF + q) + s.2.toNat * 2^(64*(nlimb LF + q)) = 2^(64*q + r) * A.val) ?_ ?_
    · refine Ok.mono (forUp_inv (P := fun k (s : (Fin (nlimb LT) → W) × W) =>
        (∀ j, k ≤ j → dig s.1 (j + q) = dig d (j + q)) ∧ s.2.toNat < 2^r ∧
        lv s.1 (k + q) + s.2.toNat * 2^(64*(k + q)) = 2^(64*q + r) * lv A.data k)
        (Nat.zero_le _) ⟨fun _ _ => rfl, by simp, by simp [hlow]⟩ ?_) (fun s hs => hs.2.2)
      rintro i ⟨s, t⟩ _ hi ⟨h1, h2, h3⟩
      dsimp only at h1 h2 h3 ⊢
      have hi' : i + q < nlimb LT := by omega
      rw [rd_of_lt _ hi', pure_bind, wr_of_lt _ hi', pure_bind]
      set v := s ⟨i + q, hi'⟩ with hv
      have hvA : v.toNat = dig A.data i := by
        rw [hv, ← dig_of_lt, h1 i le_rfl, hd i hi]
      have hvlt := W_lt v
      have hnew : (v <<< r + t).toNat + (v >>> (64 - r)).toNat * 2^64 = v.toNat * 2^r + t.toNat := by
        rw [BitVec.toNat_add, BitVec.toNat_shiftLeft, BitVec.toNat_ushiftRight, Nat.shiftLeft_eq,
          Nat.shiftRight_eq_div_pow]
        have m1 : v.toNat * 2^r % 2^64 = (v.toNat % 2^(64-r)) * 2^r := by
          conv_lhs => rw [show (2:Nat)^64 = 2^(64-r) * 2^r by rw [e64, Nat.mul_comm]]
          rw [Nat.mul_mod_mul_right]
        have m2 := Nat.mod_add_div v.toNat (2^(64-r))
        have m3 : v.toNat % 2^(64-r) < 2^(64-r) := Nat.mod_lt _ (by positivity)
        have m4 : (v.toNat % 2^(64-r)) * 2^r + t.toNat < 2^64 := by
          have : (v.toNat % 2^(64-r) + 1) * 2^r ≤ 2^(64-r) * 2^r := Nat.mul_le_mul_right _ m3
          rw [Nat.mul_comm (2^(64-r)), ← e64] at this
          nlinarith
        rw [m1, Nat.mod_eq_of_lt m4]
        conv_rhs => rw [← m2]
        rw [e64]; ring
      refine Ok.pure ⟨fun j hj => ?_, ?_, ?_⟩
      · dsimp only
        rw [dig_update, if_neg (by dsimp only; omega)]; exact h1 j (by omega)
      · dsimp only
        rw [BitVec.toNat_ushiftRight, Nat.shiftRight_eq_div_pow,
          Nat.div_lt_iff_lt_mul (by positivity), ← e64]; exact hvlt
      · dsimp only
        have e1 : i + 1 + q = (⟨i + q, hi'⟩ : Fin (nlimb LT)).val + 1 := by dsimp only; omega
        rw [e1, lv_update_self, lv_succ, ← hvA, pow64_succ]
        dsimp only
        have e2 : 2^(64*q + r) * (v.toNat * 2^(64*i)) = v.toNat * 2^r * 2^(64*(i+q)) := by
          have : 64*(i+q) = 64*q + 64*i := by ring
          rw [this, pow_add, pow_add]; ring
        rw [Nat.mul_add (2^(64*q + r)), ← h3, e2]
        have h5 : ((v <<< r + t).toNat + (v >>> (64 - r)).toNat * 2^64) * 2^(64*(i+q))
          = (v.toNat * 2^r + t.toNat) * 2^(64*(i+q)) := by rw [hnew]
        nlinarith [h5]
    · rintro ⟨s, t⟩ hs
      dsimp only at hs ⊢
      have hgoal : A.val * 2^(LT - LF) = 2^(64*q + r) * A.val := by rw [hk, Nat.mul_comm]
      by_cases hx : (LF + r + 63) / 64 ≠ (LF + 63) / 64
      · rw [if_pos hx]
        have hx' : nlimb (LF + r) ≠ nlimb LF := hx
        have hi : nlimb LF + q < nlimb LT := by omega
        rw [wr_of_lt _ hi, pure_bind]
        refine Ok.pure ?_
        rw [hgoal, ← hs]
        show lv _ _ = _
        have h1 : nlimb LT ≤ (⟨nlimb LF + q, hi⟩ : Fin (nlimb LT)).val + 1 := by dsimp only; omega
        rw [← lv_of_le _ h1, lv_update_self]
      · rw [if_neg hx]
        have hx' : nlimb (LF + r) = nlimb LF := not_not.1 hx
        refine Ok.pure ?_
        rw [hgoal]
        have h1 : nlimb LT = nlimb LF + q := by omega
        rw [lv_of_le _ h1.le] at hs
        have hlt : 2^(64*q + r) * A.val < 2^(64 * (nlimb LF + q)) := by
          have h3 : LF + r ≤ 64 * nlimb LF := by rw [← hx']; exact le_nlimb _
          calc 2^(64*q + r) * A.val < 2^(64*q + r) * 2^LF :=
                Nat.mul_lt_mul_of_pos_left hA (by positivity)
            _ = 2^(64*q + r + LF) := by rw [← pow_add]
            _ ≤ _ := Nat.pow_le_pow_right (by norm_num) (by omega)
        have ht : t.toNat = 0 := by
          by_contra hne
          have : 1 * 2^(64 * (nlimb LF + q)) ≤ t.toNat * 2^(64 * (nlimb LF + q)) :=
            Nat.mul_le_mul_right _ (by omega)
          omega
        rw [ht, Nat.zero_mul, Nat.add_zero] at hs
        exact hs

end Z_Q
end EvalRound

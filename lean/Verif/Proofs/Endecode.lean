import Mathlib.Analysis.Complex.Norm
import Verif.Model.Endecode
import Verif.Proofs.DFT
import Verif.Proofs.Sign
import Verif.Spec.Ring

/-! # Encoding and decoding -/

namespace EvalRound
open Finset Z_Q

theorem cround_neg (x : ℝ) : cround (-x) = - cround x := by
  unfold cround
  by_cases h : 0 ≤ x
  · by_cases h0 : x = 0
    · subst h0
      have : ⌊(1:ℝ)/2⌋ = 0 := by rw [Int.floor_eq_zero_iff]; norm_num
      simp only [neg_zero, zero_add, le_refl, if_true, this]
    · have : ¬ (0 ≤ -x) := by
        have : 0 < x := lt_of_le_of_ne h (Ne.symm h0)
        linarith
      rw [if_neg this, if_pos h, neg_neg]
  · rw [if_pos (by linarith), if_neg h, neg_neg]

theorem cround_err (x : ℝ) : |(cround x : ℝ) - x| ≤ 1/2 := by
  unfold cround
  split
  · have h1 := Int.floor_le (x + 1/2)
    have h2 := Int.lt_floor_add_one (x + 1/2)
    rw [abs_le]; constructor <;> linarith
  · have h1 := Int.floor_le (-x + 1/2)
    have h2 := Int.lt_floor_add_one (-x + 1/2)
    push_cast
    rw [abs_le]; constructor <;> linarith

theorem cround_nonneg {x : ℝ} (h : 0 ≤ x) : 0 ≤ cround x := by
  unfold cround
  rw [if_pos h]
  exact Int.floor_nonneg.2 (by linarith)

theorem cround_abs (x d : ℝ) (hd : 0 ≤ d) : cround (|x| * d) = |cround (x * d)| := by
  by_cases h : 0 ≤ x
  · rw [abs_of_nonneg h, abs_of_nonneg (cround_nonneg (by positivity))]
  · have hx : x < 0 := by linarith
    have : |x| * d = -(x * d) := by rw [abs_of_neg hx]; ring
    have h2 : 0 ≤ cround (-(x*d)) := cround_nonneg (by nlinarith)
    rw [this, cround_neg] at *
    rw [abs_of_nonpos (by omega)]

theorem cround_sign (x d : ℝ) : cround (x * d) = if x < 0 then - cround (|x| * d) else cround (|x| * d) := by
  by_cases h : x < 0
  · rw [if_pos h, abs_of_neg h, ← cround_neg]; congr 1; ring
  · rw [if_neg h, abs_of_nonneg (by linarith)]

section
variable {L : Nat} [NeZero L]

theorem encodeCoeff_spec {Delta : W} {x : ℝ} (h1 : |cround (x * Delta.toNat)| < 2^64) :
    Ok (encodeCoeff L Delta x) fun p => p.cls = (cround (x * Delta.toNat) : ZMod (2^L)) ∧
      (|cround (x * Delta.toNat)| < 2^(L-1) → p.Canonical ∧ p.sval = cround (x * Delta.toNat)) := by
  unfold encodeCoeff toU64
  have hd : (0:ℝ) ≤ Delta.toNat := Nat.cast_nonneg _
  have hab := cround_abs x Delta.toNat hd
  have hsg := cround_sign x Delta.toNat
  rw [← hab] at h1 ⊢
  have h0 : 0 ≤ cround (|x| * (Delta.toNat : ℝ)) := cround_nonneg (by positivity)
  rw [if_pos ⟨h0, h1⟩, pure_bind]
  obtain ⟨v, hv⟩ : ∃ v : Nat, cround (|x| * (Delta.toNat : ℝ)) = v := ⟨_, (Int.toNat_of_nonneg h0).symm⟩
  rw [hv] at h1 hsg ⊢
  have hvlt : v < 2^64 := by exact_mod_cast h1
  have hval : (ofW (BitVec.ofInt 64 (v : Int)) : Z_Q L).val = v := by
    rw [val_setLow, BitVec.ofInt_natCast, BitVec.toNat_ofNat, Nat.mod_eq_of_lt hvlt]
  have hcls : (ofW (BitVec.ofInt 64 (v : Int)) : Z_Q L).cls = (v : ZMod (2^L)) := by
    rw [cls, hval]
  have hfin : (if x < 0 then negate (ofW (BitVec.ofInt 64 (v : Int)) : Z_Q L) else ofW (BitVec.ofInt 64 (v : Int))).cls
      = ((cround (x * Delta.toNat) : Int) : ZMod (2^L)) := by
    rw [hsg]
    split
    · rw [cls_negate, hcls]; push_cast; rfl
    · rw [hcls]; push_cast; rfl
  refine Ok.pure ⟨hfin, fun h2 => ?_⟩
  have h2' : v < 2^(L-1) := by exact_mod_cast h2
  have h2i : (v : Int) < 2^(L-1) := h2
  constructor
  · split
    · exact canonical_negate _
    · unfold Canonical
      rw [hval]
      have := two_mul_half L
      omega
  · refine sval_eq_of_cls hfin ?_ ?_
    · rw [hsg]; split <;> omega
    · rw [hsg]; split <;> omega

theorem decodeLoop (a : Z_Q L) (δ : ℝ) :
    forFin (nlimb L) (fun j (s : ℝ × ℝ) =>
      (if a.data j ≠ 0 then s.1 + ((a.data j).toNat : ℝ) * s.2 / δ else s.1, s.2 * 2^64)) (0, 1) =
    ((a.val : ℝ) / δ, (2:ℝ)^(64 * nlimb L)) := by
  have h := forFin_inv (n := nlimb L) (s := ((0 : ℝ), (1 : ℝ)))
    (f := fun j (s : ℝ × ℝ) =>
      (if a.data j ≠ 0 then s.1 + ((a.data j).toNat : ℝ) * s.2 / δ else s.1, s.2 * 2^64))
    (P := fun k s => s.1 = (lv a.data k : ℝ) / δ ∧ s.2 = (2:ℝ)^(64*k)) ⟨by simp, by simp⟩ ?_
  · exact Prod.ext h.1 h.2
  · rintro i ⟨x, y⟩ ⟨h1, h2⟩
    simp only at h1 h2 ⊢
    constructor
    · rw [lv_succ, dig_fin, h1, h2]
      split
      · push_cast; ring
      · rename_i h0
        rw [not_not] at h0
        rw [h0]
        simp
    · rw [h2, mul_add, pow_add]

theorem abs_val {x : Z_Q L} (hx : x.Canonical) :
    (if x.is_bigger_than_halfQ then negate (copy x) else copy x).val = x.sval.natAbs ∧
    (if x.is_bigger_than_halfQ then negate (copy x) else copy x).Canonical ∧
    (x.is_bigger_than_halfQ = true ↔ x.sval < 0) := by
  rw [is_bigger_canonical hx, sval_canonical hx]
  have hp : 0 < 2^(L-1) := by positivity
  have e := two_mul_half L
  have hx' : x.val < 2^L := hx
  have hxi : (x.val : Int) < 2^L := by exact_mod_cast hx
  simp only [copy_eq, decide_eq_true_eq]
  by_cases hb : 2^(L-1) ≤ x.val
  · simp only [hb, if_true, true_iff]
    refine ⟨?_, canonical_negate _, by omega⟩
    rw [val_negate_canonical hx (by omega)]
    have h3 : ((x.val : Int) - 2^L) = -((2^L - x.val : Nat) : Int) := by
      rw [Nat.cast_sub hx'.le]; push_cast; ring
    rw [h3, Int.natAbs_neg, Int.natAbs_natCast]
  · simp only [hb, if_false, false_iff]
    exact ⟨by simp, hx, by omega⟩

theorem sval_real {x : Z_Q L} (hx : x.Canonical) (y : ℝ) :
    (if x.is_bigger_than_halfQ = true then -((x.sval.natAbs : ℝ) * y) else (x.sval.natAbs : ℝ) * y) = (x.sval : ℝ) * y := by
  have h := (abs_val hx).2.2
  have hn : (x.sval.natAbs : ℝ) = |(x.sval : ℝ)| := by rw [Nat.cast_natAbs, Int.cast_abs]
  split
  · rename_i hb
    have : (x.sval : ℝ) < 0 := by exact_mod_cast h.1 hb
    rw [hn, abs_of_neg this]; ring
  · rename_i hb
    have : 0 ≤ x.sval := by
      by_contra hlt
      exact hb (h.2 (by omega))
    rw [hn, abs_of_nonneg (by exact_mod_cast this)]

theorem decodeCoeff_spec {x : Z_Q L} (hx : x.Canonical) (Delta : W) :
    decodeCoeff Delta x = (x.sval : ℝ) / Delta.toNat := by
  unfold decodeCoeff
  simp only [decodeLoop]
  rw [(abs_val hx).1, div_eq_mul_inv, div_eq_mul_inv]
  exact sval_real hx _

/-- what `max_valid_digit` gives on the absolute value -/
theorem mvd_abs {a : Z_Q L} (ha : a.Canonical) (hle : a.val ≤ 2^(L-1)) :
    (a.max_valid_digit = -1 ∧ a.val = 0) ∨
    ∃ k : Fin (nlimb L), a.max_valid_digit = k.val ∧ a.val = lv a.data (k.val+1) := by
  have hz : ∀ k : Nat, (∀ i : Fin (nlimb L), k ≤ i.val → a.data i = 0) → a.val = lv a.data k := by
    intro k hk
    have h := lv_eq_of_zero_above a.data (k := k) (by
      intro i hi
      by_cases e : i < nlimb L
      · rw [dig_of_lt _ e, hk ⟨i, e⟩ hi]; rfl
      · exact dig_of_ge _ (by omega))
    by_cases hkn : k ≤ nlimb L
    · rw [Nat.min_eq_left hkn] at h; exact h
    · exact (lv_of_le _ (by omega)).symm
  by_cases hb : a.is_bigger_than_halfQ = true
  · -- the one value `2^(L-1)`
    have hv : a.val = 2^(L-1) := by
      rw [is_bigger_canonical ha, decide_eq_true_iff] at hb
      omega
    right
    have hl := mvd_loop a.data 0xFFFFFFFF
    have htop := top_val (L := L)
    have hdt : a.data (top L) ≠ 0xFFFFFFFF := by
      intro h0
      have h1 : dig a.data (top L).val = 2^32 - 1 := by rw [dig_fin, h0]; rfl
      rw [dig_eq_div] at h1
      have h2 : lv a.data (nlimb L) = 2^(L-1) := hv
      obtain ⟨b1, b2, b3⟩ := lim_bounds L
      rw [h2, Nat.pow_div (by omega) (by norm_num), Nat.mod_eq_of_lt (Nat.pow_lt_pow_right (by norm_num) (by omega))] at h1
      generalize L - 1 - 64 * (top L).val = e at h1
      rcases e with _ | e
      · norm_num at h1
      · have : 2^(e+1) % 2 = 0 := by rw [pow_succ]; omega
        omega
    unfold max_valid_digit
    rw [hb]
    simp only [if_true]
    rcases hl with ⟨h1, h2⟩ | ⟨k, h1, h2, h3⟩
    · exact absurd (h2 (top L)) hdt
    · refine ⟨k, h1, ?_⟩
      have : k = top L := by
        by_contra hne
        have hlt : k < top L := by
          rw [Fin.lt_def]
          have := k.isLt
          have h5 : k.val ≠ (top L).val := fun h => hne (Fin.ext h)
          omega
        exact hdt (h3 _ hlt)
      rw [this, htop]
      rfl
  · have hb : a.is_bigger_than_halfQ = false := by simpa using hb
    have hl := mvd_loop a.data 0
    unfold max_valid_digit
    rw [hb]
    simp only [Bool.false_eq_true, if_false]
    rcases hl with ⟨h1, h2⟩ | ⟨k, h1, h2, h3⟩
    · left
      refine ⟨h1, ?_⟩
      rw [hz 0 (fun i _ => h2 i), lv_zero]
    · right
      exact ⟨k, h1, hz (k.val+1) (fun i hi => h3 i (by rw [Fin.lt_def]; omega))⟩

theorem decodeLogCoeff_spec {x : Z_Q L} (hx : x.Canonical) (hL : L ≤ 2^29) {LOGDELTA : Int}
    (h1 : -2^30 ≤ LOGDELTA) (h2 : LOGDELTA ≤ 2^30) :
    decodeLogCoeff LOGDELTA x = pure ((x.sval : ℝ) / (2:ℝ)^LOGDELTA) := by
  unfold decodeLogCoeff
  have ha := abs_val hx
  have hs := sval_real hx
  have hbd := sval_bounds x
  generalize (if x.is_bigger_than_halfQ then negate (copy x) else copy x) = a at ha
  simp only []
  have hle : a.val ≤ 2^(L-1) := by
    rw [ha.1]
    have : ((2^(L-1) : Nat) : Int) = 2^(L-1) := by push_cast; rfl
    omega
  have hn : nlimb L ≤ 2^23 + 1 := by unfold nlimb; omega
  rcases mvd_abs ha.2.1 hle with ⟨e, hv⟩ | ⟨k, e, hv⟩
  · rw [e, intM_ok (by decide) (by decide), pure_bind, intM_ok (by norm_num [INT_MAX] <;> omega) (by norm_num [INT_MAX] <;> omega),
      pure_bind]
    have : forUp 0 ((-1 : Int) + 1).toNat (fun j (m : ℝ) => do
      let w ← rd a.data j
      pure (m / 2^64 + (w.toNat : ℝ))) 0 = pure 0 := rfl
    rw [this, pure_bind]
    have h0 : x.sval = 0 := by rw [hv] at ha; omega
    have h4 : x.is_bigger_than_halfQ = false := by
      by_contra hne
      have := ha.2.2.1 (by simpa using hne)
      omega
    rw [h4, h0]
    simp
  · have hk := k.isLt
    rw [e, intM_ok (by norm_num [INT_MAX] <;> omega) (by norm_num [INT_MAX] <;> omega), pure_bind,
      intM_ok (by norm_num [INT_MAX] <;> omega) (by norm_num [INT_MAX] <;> omega), pure_bind]
    obtain ⟨m, em, hm⟩ := forUp_inv (lo := 0) (hi := ((k.val : Int) + 1).toNat) (s := (0:ℝ))
      (body := fun j (m : ℝ) => do
        let w ← rd a.data j
        pure (m / 2^64 + (w.toNat : ℝ))) (Nat.zero_le _)
      (P := fun j m => m * (2:ℝ)^(64*(j:ℕ)) = (lv a.data j : ℝ) * 2^64) (by simp) (by
        intro j m _ hj hm
        have hjl : j < nlimb L := by omega
        rw [rd_of_lt a.data hjl, pure_bind]
        refine Ok.pure ?_
        rw [lv_succ, dig_of_lt _ hjl]
        push_cast
        rw [add_mul (lv a.data j : ℝ), ← hm, mul_add 64, pow_add]
        ring)
    rw [em, pure_bind]
    rw [show ((k.val : Int) + 1).toNat = k.val + 1 by omega] at hm
    rw [← hv, mul_add 64, pow_add] at hm
    have hm2 : m * (2:ℝ)^(64*k.val) = (a.val : ℝ) := by
      have : (2:ℝ)^(64*1) ≠ 0 := by positivity
      have h5 : (2:ℝ)^64 = 2^(64*1) := by norm_num
      rw [h5, ← mul_assoc] at hm
      exact mul_right_cancel₀ this hm
    have hz : m * (2:ℝ)^(64 * (k.val : Int) - LOGDELTA) = (a.val : ℝ) * ((2:ℝ)^LOGDELTA)⁻¹ := by
      rw [zpow_sub₀ (by norm_num), ← hm2]
      have : ((2:ℝ)^(64 * (k.val : Int))) = (2:ℝ)^(64*k.val) := by
        rw [show (64 * (k.val : Int)) = ((64 * k.val : ℕ) : Int) by push_cast; rfl, zpow_natCast]
      rw [this]; ring
    rw [hz, ha.1, hs, div_eq_mul_inv]

end

/-! ## Slots -/

theorem norm_zeta_pow (N k : Nat) : ‖zeta N ^ k‖ = 1 := by
  have h := star_zeta_pow N k
  rw [show star (zeta N ^ k) = (starRingEnd ℂ) (zeta N ^ k) from rfl, Complex.mul_conj] at h
  have h2 : Complex.normSq (zeta N ^ k) = 1 := by exact_mod_cast h
  rw [Complex.normSq_eq_norm_sq] at h2
  have := norm_nonneg (zeta N ^ k)
  nlinarith

theorem slotOf_sub_le {N : Nat} {m m' : Fin N → ℝ} {ε : ℝ} (h : ∀ k, |m k - m' k| ≤ ε) (i : Nat) :
    ‖slotOf m i - slotOf m' i‖ ≤ N * ε := by
  rw [slotOf_zeta, slotOf_zeta, ← sum_sub_distrib]
  refine (norm_sum_le _ _).trans ?_
  have : ∀ k ∈ (univ : Finset (Fin N)), ‖(m k : ℂ) * zeta N ^ (5^i * k.val) - (m' k : ℂ) * zeta N ^ (5^i * k.val)‖ ≤ ε := by
    intro k _
    rw [← sub_mul, norm_mul, norm_zeta_pow, mul_one, ← Complex.ofReal_sub, Complex.norm_real, Real.norm_eq_abs]
    exact h k
  refine (sum_le_sum this).trans ?_
  simp

theorem toC_inj {n : Nat} {a b : (Fin n → ℝ) × (Fin n → ℝ)} (h : toC a.1 a.2 = toC b.1 b.2) : a = b := by
  refine Prod.ext (funext fun i => ?_) (funext fun i => ?_)
  · exact congrArg Complex.re (congrFun h i)
  · exact congrArg Complex.im (congrFun h i)

/-- `ifft` returns the coefficient vector whose slots are `z` -/
theorem ifft_slot {LOGN : Nat} (h1 : 2 ≤ LOGN) (h2 : LOGN ≤ 27) (z : CVec LOGN) (m0 : Fin (2^LOGN) → ℝ) :
    Ok (ifft LOGN z m0) fun m => (∀ i : Fin (2^(LOGN-1)), slotOf m i = ⟨z.1 i, z.2 i⟩) ∧
      ∀ B : ℝ, (∀ i : Fin (2^(LOGN-1)), ‖(⟨z.1 i, z.2 i⟩ : ℂ)‖ ≤ B) → ∀ k, |m k| ≤ B := by
  obtain ⟨n, rfl⟩ : ∃ n, LOGN = n + 1 := ⟨LOGN - 1, by omega⟩
  have hp : 2^(n+1) = 2^n + 2^n := by ring
  refine Ok.mono (ifft_spec (n := n) (by omega) (by omega) z m0) fun m hm => ⟨fun i => ?_, fun B hB k => ?_⟩
  · rw [← fftMat_slot, hm]
    simp only [bitRev_bitRev (Fin.isLt _)]
    rw [Matrix.mulVec_mulVec, Matrix.mul_smul, fftMat_adj (le_refl n), smul_smul,
      inv_mul_cancel₀ (pow_ne_zero n two_ne_zero), one_smul, Matrix.one_mulVec]
    rfl
  · -- every coefficient is an average of slots
    have key : ∀ p : Fin (2^n), ‖pairC n m p‖ ≤ B := by
      intro p
      rw [hm]
      simp only [Matrix.smul_mulVec, Pi.smul_apply, smul_eq_mul, norm_mul, norm_inv, norm_pow, Complex.norm_ofNat]
      have h3 : ‖((fftMat n n).conjTranspose.mulVec (toC z.1 z.2)) ⟨bitRev n p, bitRev_lt n p⟩‖ ≤ 2^n * B := by
        rw [Matrix.mulVec, dotProduct]
        refine (norm_sum_le _ _).trans ?_
        have : ∀ i ∈ (univ : Finset (Fin (2^n))),
            ‖(fftMat n n).conjTranspose ⟨bitRev n p, bitRev_lt n p⟩ i * toC z.1 z.2 i‖ ≤ B := by
          intro i _
          rw [Matrix.conjTranspose_apply, fftMat_apply, norm_mul, norm_star, norm_zeta_pow, one_mul]
          exact hB i
        refine (sum_le_sum this).trans ?_
        simp
      rw [inv_mul_le_iff₀ (by positivity)]
      exact h3
    have hk := k.isLt
    by_cases hlt : k.val < 2^n
    · exact (Complex.abs_re_le_norm (pairC n m ⟨k, hlt⟩)).trans (key _)
    · have h4 := (Complex.abs_im_le_norm (pairC n m ⟨k.val - 2^n, by omega⟩)).trans (key _)
      simp only [pairC, show k.val - 2^n + 2^n = k.val by omega] at h4
      exact h4

end EvalRound

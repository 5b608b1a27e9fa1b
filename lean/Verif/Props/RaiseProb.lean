import Verif.Proofs.RaiseProb
import Verif.Props.FloatDriver

/-!
# C85: almost every ciphertext is in the range of EvalMod
-/

namespace EvalRound
open Finset Z_Q

/-- the multiple of the modulus that raising adds -/
theorem mod_raise_multiple {N LF LT : Nat} [NeZero LF] [NeZero LT] {ct : R_Q_square LF N} (hct : ct.Canonical)
    (s : Fin N → Int) (m : Fin N → Int) (hm : red LF m = R_Q_square.phase s ct) :
    ∃ I : Fin N → Int, (∀ i, 2^LF * I i = (ct.1 i).sval + negconv s (R_Q.sval ct.2) i - m i) ∧
      R_Q_square.phase s (mod_raise LT ct) = red LT (m + (2^LF : Int) • I) := by
  let x : Fin N → Int := R_Q.sval ct.1 + negconv s (R_Q.sval ct.2)
  have hx : red LF x = red LF m := by
    rw [hm, phase_eq, red_add, red_negconv, ← cls_red_sval, ← cls_red_sval]
  have hdiv : ∀ i, ∃ t : Int, x i - m i = 2^LF * t := by
    intro i
    have := (congrFun hx i).symm
    simp only [red] at this
    rw [ZMod.intCast_eq_intCast_iff_dvd_sub] at this
    push_cast at this
    exact this
  choose I hI using hdiv
  refine ⟨I, fun i => (hI i).symm, ?_⟩
  have h1 : R_Q.cls (mod_raise LT ct).1 = red LT (R_Q.sval ct.1) := funext fun i => cls_resize (hct.1 i)
  have h2 : R_Q.cls (mod_raise LT ct).2 = red LT (R_Q.sval ct.2) := funext fun i => cls_resize (hct.2 i)
  rw [phase_eq, h1, h2, ← red_negconv, ← red_add]
  congr 1
  funext i
  have := hI i
  simp only [Pi.add_apply, Pi.smul_apply, smul_eq_mul]
  have e : x i = (R_Q.sval ct.1) i + negconv s (R_Q.sval ct.2) i := rfl
  omega

/-- the raised message is in the range of EvalMod if the product of the key and the mask is not too large -/
theorem raised_range_of_mask {QT N : Nat} [NeZero QT] (hN : N ≤ 2^30) (hq : 66 ≤ QT) {s : Fin N → Int}
    (hs : Ternary s) {ct : R_Q_square 60 N} (hct : ct.Canonical)
    {m : R_Q 60 N} (hm : dec ct s = pure m) (hB : ∀ k, |(m k).sval| ≤ 2^51)
    (ha : ∀ k, |negconv s (R_Q.sval ct.2) k| < 47 * 2^59 - 2^51) :
    Ok (dec (mod_raise QT ct) s) fun M => ∀ k, -237 * 2^60 ≤ 10 * (M k).sval ∧ 10 * (M k).sval ≤ 242 * 2^60 := by
  obtain ⟨m', h1, _, h3⟩ := dec_spec hN hs ct
  obtain ⟨M, g1, _, g3⟩ := dec_spec hN hs (mod_raise QT ct)
  obtain rfl := pure_inj (hm.symm.trans h1)
  refine ⟨M, g1, fun k => ?_⟩
  obtain ⟨I, hI, h⟩ := mod_raise_multiple (LT := QT) hct s (R_Q.sval m) (by rw [← cls_red_sval, h3])
  have h5 := hI k
  have h9 := abs_le.1 (abs_sval_le (ct.1 k))
  have h10 := abs_lt.1 (ha k)
  have h8 := abs_le.1 (hB k)
  have hp : (2:ℤ)^65 ≤ 2^(QT-1) := pow_le_pow_right₀ (by norm_num) (by omega)
  have e0 : R_Q.sval m k = (m k).sval := rfl
  rw [e0] at h5
  have h7 : -23 ≤ I k ∧ I k ≤ 23 := by
    norm_num at h5 h8 h9 h10
    omega
  have e : (M k).sval = (m k).sval + 2^60 * I k := by
    refine sval_eq_of_cls (t := (m k).sval + 2^60 * I k) (congrFun (g3.trans h) k) ?_ ?_
    · refine (neg_le_neg hp).trans ?_
      norm_num at h8 ⊢
      omega
    · refine lt_of_lt_of_le ?_ hp
      norm_num at h8 ⊢
      omega
  rw [e]
  norm_num at h8 ⊢
  omega

theorem sq_sum_weight {N : Nat} {s : Fin N → Int} (hs : Ternary s) : ∑ k, ((s k : ℝ))^2 = ((univ.filter fun k => s k ≠ 0).card : ℝ) := by
  rw [card_eq_sum_ones, sum_filter, Nat.cast_sum]
  refine sum_congr rfl fun k _ => ?_
  rcases hs k with h | h | h <;> rw [h] <;> norm_num

/-- the product with the key has a coefficient that may lead out of the range of EvalMod -/
def LargeProduct {N : Nat} (s : Fin N → Int) (a : R_Q 60 N) : Prop := ¬ ∀ k, |negconv s (R_Q.sval a) k| < 47 * 2^59 - 2^51

open Classical in
/-- few polynomials have a large product with a sparse key -/
theorem count_masks {N : Nat} (hN : N ≤ 2^30) {s : Fin N → Int} (hs : Ternary s) {h : ℕ} (hh : (univ.filter fun k => s k ≠ 0).card ≤ h) :
    ((univ.filter fun a : Fin N → Fin (2*2^(60-1)) => LargeProduct s (polyOf (LOGQ := 60) a)).card : ℝ) ≤
      2 * N * Real.exp (-3310 / (h:ℝ)) * ((2*2^(60-1) : ℕ):ℝ)^N := by
  have hhN : (univ.filter fun k => s k ≠ 0).card ≤ N := (card_filter_le _ _).trans (by simp)
  have hsq := sq_sum_weight hs
  generalize (univ.filter fun k => s k ≠ 0).card = w at *
  have hc := count_large (2^(60-1)) (by positivity) (fun k => (s k : ℝ)) (12 * 23.49 / h) 23.49 (by positivity)
  rw [hsq] at hc
  have hexp : Real.exp ((w:ℝ) * (12 * 23.49 / h)^2/24 - 12 * 23.49 / h * 23.49) ≤ Real.exp (-3310 / (h:ℝ)) := by
    refine Real.exp_le_exp.2 ?_
    have hw : (w:ℝ) * (12 * 23.49 / h)^2 ≤ h * (12 * 23.49 / h)^2 := mul_le_mul_of_nonneg_right (by exact_mod_cast hh) (sq_nonneg _)
    refine le_trans (sub_le_sub_right (div_le_div_of_nonneg_right hw (by norm_num)) _) ?_
    rcases Nat.eq_zero_or_pos h with e | e
    · rw [e]; norm_num
    · have e' : (0:ℝ) < h := by exact_mod_cast e
      rw [show (h:ℝ) * (12 * 23.49 / h)^2/24 - 12 * 23.49 / h * 23.49 = -(6 * 23.49^2) / h by field_simp; ring]
      exact div_le_div_of_nonneg_right (by norm_num) e'.le
  refine le_trans ?_ (hc.trans ?_)
  · refine Nat.cast_le.2 (card_le_card fun a ha => ?_)
    have ha' := (mem_filter.1 ha).2
    unfold LargeProduct at ha'
    push Not at ha'
    obtain ⟨k, hk⟩ := ha'
    refine mem_filter.2 ⟨mem_univ _, k, ?_⟩
    have e1 : ((negconv s (R_Q.sval (polyOf (LOGQ := 60) a)) k : ℤ) : ℝ) =
        ∑ j, convMat (fun k => (s k : ℝ)) k j * (centred (2^(60-1)) (a j) : ℝ) := by
      rw [negconv_comm]
      have := negconv_map (Int.castRingHom ℝ) (R_Q.sval (polyOf (LOGQ := 60) a)) s k
      simp only [eq_intCast] at this
      rw [this, negconv_mat]
      exact sum_congr rfl fun j _ => by rw [R_Q.sval, polyOf_sval]
    have e2 : ∑ j, convMat (fun k => (s k : ℝ)) k j * (((centred (2^(60-1)) (a j) : ℝ) + 1/2) / (2 * ((2^(60-1) : ℕ) : ℝ))) =
        ((negconv s (R_Q.sval (polyOf (LOGQ := 60) a)) k : ℤ) : ℝ) / 2^60 + (∑ j, convMat (fun k => (s k : ℝ)) k j) / 2^61 := by
      rw [e1, sum_div, sum_div, ← sum_add_distrib]
      refine sum_congr rfl fun j _ => ?_
      norm_num
      ring
    have e3 : |∑ j, convMat (fun k => (s k : ℝ)) k j| ≤ 2^30 := by
      refine (abs_sum_le_sum_abs _ _).trans ((sum_le_sum (g := fun j => convMat (fun k => (s k : ℝ)) k j ^ 2) fun j _ => ?_).trans ?_)
      · unfold convMat
        split
        · rcases hs ⟨k - j, by omega⟩ with h | h | h <;> simp only [h] <;> norm_num
        · rcases hs ⟨N + k - j, by omega⟩ with h | h | h <;> simp only [h] <;> norm_num
      · rw [convMat_sq, hsq]
        exact_mod_cast hhN.trans hN
    have hk' : (47 * 2^59 - 2^51 : ℝ) ≤ |((negconv s (R_Q.sval (polyOf (LOGQ := 60) a)) k : ℤ) : ℝ)| := by
      rw [← Int.cast_abs]; exact_mod_cast hk
    rw [e2]
    have h1 := abs_sub_abs_le_abs_sub (((negconv s (R_Q.sval (polyOf (LOGQ := 60) a)) k : ℤ) : ℝ) / 2^60)
      (-((∑ j, convMat (fun k => (s k : ℝ)) k j) / 2^61))
    rw [sub_neg_eq_add, abs_neg, abs_div, abs_div, abs_of_pos (by positivity : (0:ℝ) < 2^60), abs_of_pos (by positivity : (0:ℝ) < 2^61)] at h1
    refine le_trans ?_ h1
    generalize |((negconv s (R_Q.sval (polyOf (LOGQ := 60) a)) k : ℤ) : ℝ)| = X at *
    generalize |∑ j, convMat (fun k => (s k : ℝ)) k j| = Y at *
    norm_num at *
    linarith
  · exact mul_le_mul_of_nonneg_right (mul_le_mul_of_nonneg_left hexp (by positivity)) (by positivity)

open Classical in
/-- C85: whatever the key with at most `h` nonzero entries, the message, the previous content of the ciphertext and the other random numbers, of the
draws that `enc` makes for the mask all but a fraction `2N exp(-3310/h)` give a ciphertext whose raised message is in the range of EvalMod. -/
theorem C85_range {QT N : Nat} [NeZero QT] (RAND_MAX k : Nat) (hR : RAND_MAX + 1 = 2^k) (hk : 13 ≤ k) (hN : N ≤ 2^30) (hq : 66 ≤ QT)
    (s : Fin N → Int) (hs : ∀ k, s k = -1 ∨ s k = 0 ∨ s k = 1) {h : ℕ} (hh : (univ.filter fun k => s k ≠ 0).card ≤ h) (pt : R_Q 60 N) (hpt : ∀ k, |(pt k).sval| + 8 ≤ 2^51)
    (ct0 : R_Q_square 60 N) (ρ : Rng) :
    ((univ.filter fun t : Fin N → Fin (nlimb 60) → Fin 5 → Fin (RAND_MAX+1) =>
      ¬ Ok (do
        let ct ← enc RAND_MAX pt s ct0 (maskStream t ρ)
        dec (mod_raise QT ct.1) s) fun M => ∀ k, -237 * 2^60 ≤ 10 * (M k).sval ∧ 10 * (M k).sval ≤ 242 * 2^60).card : ℝ) ≤
      2 * N * Real.exp (-3310 / (h:ℝ)) *
        Fintype.card (Fin N → Fin (nlimb 60) → Fin 5 → Fin (RAND_MAX+1)) := by
  have hs' : Ternary s := hs
  refine le_trans (Nat.cast_le.2 (card_le_card fun t ht => ?_))
    (mask_fraction RAND_MAX k hR hk ct0.2 ρ (LargeProduct s) (count_masks hN hs' hh))
  refine mem_filter.2 ⟨mem_univ _, by_contra fun hn => (mem_filter.1 ht).2 ?_⟩
  have ha := not_not.1 hn
  obtain ⟨ct, ect, hct, e, he, hph⟩ := enc_spec RAND_MAX hN hs' pt ct0 (maskStream t ρ)
  have e2 : ct.1.2 = (encMask RAND_MAX ct0.2 (maskStream t ρ)).1 := by
    unfold enc at ect
    obtain ⟨c, ec, _⟩ := convS_spec hN s (encMask RAND_MAX ct0.2 (maskStream t ρ)).1
    simp only [ec, pure_bind] at ect
    exact (congrArg (fun r => r.1.2) (pure_inj ect)).symm
  rw [ect, pure_bind]
  obtain ⟨m, hm, _, h3⟩ := dec_spec hN hs' ct.1
  refine raised_range_of_mask hN hq hs' hct hm (fun k => ?_) (by rw [e2]; exact ha)
  have h4 := hpt k
  have h5 := he k
  have e3 : (m k).sval = (pt k).sval + e k := by
    have := congrFun (h3.trans hph) k
    have h6 := abs_le.1 (by linarith [abs_nonneg (e k)] : |(pt k).sval| ≤ 2^51)
    have h7 := abs_le.1 h5
    refine sval_eq_of_cls (this.trans ?_) ?_ ?_
    · simp only [Pi.add_apply, R_Q.cls, red]
      push_cast
      rw [sval_cls]
    · norm_num at h6 ⊢; linarith
    · norm_num at h6 ⊢; linarith
  rw [e3]
  exact (abs_add_le _ _).trans (by linarith)

theorem exp_128 : 2 * Real.exp (-3310 / ((128:ℕ):ℝ)) ≤ 1/2^36 := by
  have h2 : Real.exp (-3310 / ((128:ℕ):ℝ)) ≤ Real.exp (-25.859) := Real.exp_le_exp.2 (by norm_num)
  have h3 : (2:ℝ)^37 ≤ Real.exp 25.859 := by
    rw [show (25.859:ℝ) = (26:ℕ) * 1 + (-0.141) by norm_num, Real.exp_add, Real.exp_nat_mul]
    have e1 := pow_le_pow_left₀ (by norm_num) Real.exp_one_gt_d9.le 26
    have e2 := Real.add_one_le_exp (-0.141 : ℝ)
    have e3 := mul_le_mul e1 e2 (by norm_num) (by positivity)
    refine le_trans ?_ e3
    norm_num
  have h4 : Real.exp (-25.859) ≤ 1/2^37 := by
    rw [Real.exp_neg, ← one_div]
    exact one_div_le_one_div_of_le (by positivity) h3
  refine (mul_le_mul_of_nonneg_left (h2.trans h4) (by norm_num)).trans ?_
  norm_num

theorem exp_192 : 2 * Real.exp (-3310 / ((192:ℕ):ℝ)) ≤ 1/2^23 := by
  have h2 : Real.exp (-3310 / ((192:ℕ):ℝ)) ≤ Real.exp (-17) := Real.exp_le_exp.2 (by norm_num)
  have h3 : (2:ℝ)^24 ≤ Real.exp 17 := by
    rw [show (17:ℝ) = (17:ℕ) * 1 by norm_num, Real.exp_nat_mul]
    have e1 := pow_le_pow_left₀ (by norm_num) Real.exp_one_gt_d9.le 17
    refine le_trans ?_ e1
    norm_num
  have h4 : Real.exp (-17) ≤ 1/2^24 := by
    rw [Real.exp_neg, ← one_div]
    exact one_div_le_one_div_of_le (by positivity) h3
  refine (mul_le_mul_of_nonneg_left (h2.trans h4) (by norm_num)).trans ?_
  norm_num

section
variable {QT N : Nat} [NeZero QT]

open Classical in
/-- C85 with the weight 128 of rns.h and test.h: all but a fraction `N/2^36`. -/
theorem C85_range_128 (RAND_MAX k : Nat) (hR : RAND_MAX + 1 = 2^k) (hk : 13 ≤ k) (hN : N ≤ 2^30) (hq : 66 ≤ QT)
    (s : Fin N → Int) (hs : ∀ k, s k = -1 ∨ s k = 0 ∨ s k = 1) (hh : (univ.filter fun k => s k ≠ 0).card ≤ 128)
    (pt : R_Q 60 N) (hpt : ∀ k, |(pt k).sval| + 8 ≤ 2^51) (ct0 : R_Q_square 60 N) (ρ : Rng) :
    ((univ.filter fun t : Fin N → Fin (nlimb 60) → Fin 5 → Fin (RAND_MAX+1) =>
      ¬ Ok (do
        let ct ← enc RAND_MAX pt s ct0 (maskStream t ρ)
        dec (mod_raise QT ct.1) s) fun M => ∀ k, -237 * 2^60 ≤ 10 * (M k).sval ∧ 10 * (M k).sval ≤ 242 * 2^60).card : ℝ) ≤
      N / 2^36 * Fintype.card (Fin N → Fin (nlimb 60) → Fin 5 → Fin (RAND_MAX+1)) := by
  refine (C85_range RAND_MAX k hR hk hN hq s hs hh pt hpt ct0 ρ).trans (mul_le_mul_of_nonneg_right ?_ (Nat.cast_nonneg _))
  have := mul_le_mul_of_nonneg_left exp_128 (Nat.cast_nonneg N : (0:ℝ) ≤ N)
  linarith

open Classical in
/-- C85 with the weight 192 of lattigo.h: all but a fraction `N/2^23`. -/
theorem C85_range_192 (RAND_MAX k : Nat) (hR : RAND_MAX + 1 = 2^k) (hk : 13 ≤ k) (hN : N ≤ 2^30) (hq : 66 ≤ QT)
    (s : Fin N → Int) (hs : ∀ k, s k = -1 ∨ s k = 0 ∨ s k = 1) (hh : (univ.filter fun k => s k ≠ 0).card ≤ 192)
    (pt : R_Q 60 N) (hpt : ∀ k, |(pt k).sval| + 8 ≤ 2^51) (ct0 : R_Q_square 60 N) (ρ : Rng) :
    ((univ.filter fun t : Fin N → Fin (nlimb 60) → Fin 5 → Fin (RAND_MAX+1) =>
      ¬ Ok (do
        let ct ← enc RAND_MAX pt s ct0 (maskStream t ρ)
        dec (mod_raise QT ct.1) s) fun M => ∀ k, -237 * 2^60 ≤ 10 * (M k).sval ∧ 10 * (M k).sval ≤ 242 * 2^60).card : ℝ) ≤
      N / 2^23 * Fintype.card (Fin N → Fin (nlimb 60) → Fin 5 → Fin (RAND_MAX+1)) := by
  refine (C85_range RAND_MAX k hR hk hN hq s hs hh pt hpt ct0 ρ).trans (mul_le_mul_of_nonneg_right ?_ (Nat.cast_nonneg _))
  have := mul_le_mul_of_nonneg_left exp_192 (Nat.cast_nonneg N : (0:ℝ) ≤ N)
  linarith

end

theorem encode_sizeF {L : Libm} (hL : L.Accurate) {n : Nat} (h1 : 1 ≤ n) (h2 : n ≤ 26) {z : CVec (n+1)}
    (hz : ∀ i : Fin (2^n), ‖(⟨z.1 i, z.2 i⟩ : ℂ)‖ ≤ 1) :
    ∃ pt, encodeF L 60 z (BitVec.ofNat 64 (2^50)) = pure pt ∧ ∀ k, |(pt k).sval| + 8 ≤ 2^51 := by
  have hδ : (((BitVec.ofNat 64 (2^50)).toNat : ℕ) : ℝ) = 2^50 := toNat_scale (by norm_num)
  obtain ⟨pt, ept, mz, y, hmz, hy, hl⟩ := encodeF_l2 (n := n) (Q := 60) hL (by omega) (by omega) z (BitVec.ofNat 64 (2^50))
    (scale_ne_zero (by norm_num)) (B := 1) hz (by rw [hδ]; norm_num) (by rw [hδ]; norm_num)
  rw [hδ] at hl
  refine ⟨pt, ept, fun k => ?_⟩
  have h3 := code_size (by omega) hz hmz hl (hy k).2
  have h4 : |((pt k).sval : ℝ)| ≤ 2^50 + 2^20 := h3.trans (by norm_num)
  have h5 : |(pt k).sval| ≤ 2^50 + 2^20 := by exact_mod_cast h4
  norm_num at h5 ⊢
  omega

/-- What C79 says about the output of a driver: every slot and the printed numbers are within the error of the bootstrapping. -/
def DriverClose {n : Nat} (b : Nat) (z : CVec (n+1)) (o : DriverOut (n+1)) : Prop :=
  (∀ i : Fin (2^n), ‖(⟨o.z_out.1 i, o.z_out.2 i⟩ : ℂ) - ⟨z.1 i, z.2 i⟩‖ ≤ 2^(n+1) * 2^b / 2^50 * (1 + 1/2^20)) ∧
  o.max_err_real ≤ 2^(n+1) * 2^b / 2^50 * (1 + 1/2^20) ∧ o.max_err_imag ≤ 2^(n+1) * 2^b / 2^50 * (1 + 1/2^20) ∧
  o.e_norm ≤ 2^b / 2^50 * (1 + 1/2^20) ∧ o.e_norm_low = o.e_norm

section
variable {n QT Q0 Q1 Q2 Q3 Q4 Q5 Q6 Q7 Q8 Q9 Q10 Q11 Q12 QS : Nat} [NeZero QT] [NeZero Q0] [NeZero Q1] [NeZero Q2] [NeZero Q3]
  [NeZero Q4] [NeZero Q5] [NeZero Q6] [NeZero Q7] [NeZero Q8] [NeZero Q9] [NeZero Q10] [NeZero Q11] [NeZero Q12] [NeZero QS]

/-- a driver that succeeds whenever the raised message is in the range -/
theorem driver_fraction {L : Libm} (hL : L.Accurate) (R k : Nat) (hR : R + 1 = 2^k) (hk13 : 13 ≤ k) (hn1 : 1 ≤ n) (hn : n ≤ 16) (hq : 66 ≤ QT)
    (H : Int) (hH : H ≤ 128) (z : CVec (n+1)) (hz : ∀ i : Fin (2^n), ‖(⟨z.1 i, z.2 i⟩ : ℂ)‖ ≤ 1) (ct0 : R_Q_square 60 (2^(n+1)))
    (drv : Rng → M (DriverOut (n+1))) (b : Nat) (ω ω1 : Rng) (s : Fin (2^(n+1)) → Int) (hk : keygen (2^(n+1)) H ω = pure (s, ω1))
    (hd : ∀ ω ω1, keygen (2^(n+1)) H ω = pure (s, ω1) →
      (∀ pt ct ω2 M, encodeF L 60 z (BitVec.ofNat 64 (2^50)) = pure pt → enc R pt s ct0 ω1 = pure (ct, ω2) →
        dec (mod_raise QT ct) s = pure M → ∀ k, -237 * 2^60 ≤ 10 * (M k).sval ∧ 10 * (M k).sval ≤ 242 * 2^60) → Ok (drv ω) (DriverClose b z)) :
    open Classical in
    ∃ c, (∀ σ, keygen (2^(n+1)) H (splice c ω σ) = pure (s, σ)) ∧ ∀ ρ,
      ((univ.filter fun t : Fin (2^(n+1)) → Fin (nlimb 60) → Fin 5 → Fin (R+1) => ¬ Ok (drv (splice c ω (maskStream t ρ))) (DriverClose b z)).card : ℝ) ≤
        2^(n+1) / 2^36 * Fintype.card (Fin (2^(n+1)) → Fin (nlimb 60) → Fin 5 → Fin (R+1)) := by
  classical
  have hN : 2^(n+1) ≤ 2^30 := Nat.pow_le_pow_right (by norm_num) (by omega)
  obtain ⟨c, hc⟩ := keygen_local H ω hk
  obtain ⟨hs, hw⟩ := C19_keygen_weight H ω ω1 s hk
  obtain ⟨pt, ept, hpt⟩ := encode_sizeF hL hn1 (by omega) hz
  refine ⟨c, hc, fun ρ => ?_⟩
  have h := C85_range_128 R k hR hk13 hN hq s hs (by omega) pt hpt ct0 ρ
  rw [show ((2^(n+1) : ℕ) : ℝ) = 2^(n+1) by push_cast; rfl] at h
  refine le_trans (Nat.cast_le.2 (card_le_card fun t ht => ?_)) h
  refine mem_filter.2 ⟨mem_univ _, fun hok => (mem_filter.1 ht).2 (hd _ _ (hc _) ?_)⟩
  intro pt' ct ω2 M e1 e2 e3
  obtain rfl := pure_inj (ept.symm.trans e1)
  rw [e2, pure_bind, e3] at hok
  obtain ⟨M', e4, h4⟩ := hok
  obtain rfl := pure_inj e4
  exact h4

open Classical in
/-- C85: for the driver of the conventional bootstrapping with a key of weight at most 128, whatever numbers `keygen` draws and whatever follows,
all but a fraction `N/2^36` of the draws for the mask lead to an output within the bounds of C79. -/
theorem C85_conventional {L : LibmP} (hLib : L.Accurate) (R k : Nat) (hR : R + 1 = 2^k) (hk13 : 13 ≤ k) {G b b' : Nat} (hp : BootParam2 n G b b')
    (hQ0 : QT = Q0 + n/G * 60) (hC : EvalModChain 60 Q0 Q1 Q2 Q3 Q4 Q5 Q6 Q7 Q8 Q9 Q10 Q11 Q12) (hQS : Q12 = QS + n/G * 50)
    (hlo : 65 ≤ QS) (hhi : QT ≤ 1525) (H : Int) (hH : H ≤ 128)
    (z : CVec (n+1)) (hz : ∀ i : Fin (2^n), ‖(⟨z.1 i, z.2 i⟩ : ℂ)‖ ≤ 1) (ct0 : R_Q_square 60 (2^(n+1))) (ω ω1 : Rng)
    (s : Fin (2^(n+1)) → Int) (hk : keygen (2^(n+1)) H ω = pure (s, ω1)) :
    ∃ c, (∀ σ, keygen (2^(n+1)) H (splice c ω σ) = pure (s, σ)) ∧ ∀ ρ,
      ((univ.filter fun t : Fin (2^(n+1)) → Fin (nlimb 60) → Fin 5 → Fin (R+1) =>
        ¬ Ok (convDriverF L R 60 50 G H QT Q0 Q1 Q2 Q3 Q4 Q5 Q6 Q7 Q8 Q9 Q10 Q11 Q12 QS z ct0 (splice c ω (maskStream t ρ))) (DriverClose b z)).card : ℝ) ≤
        2^(n+1) / 2^36 * Fintype.card (Fin (2^(n+1)) → Fin (nlimb 60) → Fin 5 → Fin (R+1)) := by
  have hn : 8 ≤ n ∧ n ≤ 16 := by rcases hp with ⟨rfl, rfl, rfl, rfl⟩ | ⟨rfl, rfl, rfl, rfl⟩ | ⟨rfl, rfl, rfl, rfl⟩ <;> norm_num
  exact driver_fraction hLib.1 R k hR hk13 (by omega) hn.2 (by unfold EvalModChain at hC; omega) H hH z hz ct0 _ b ω ω1 s hk
    fun ω ω1 hk hr => C79_conventional hLib R hp hQ0 hC hQS hlo hhi H hH z hz ct0 ω ω1 s hk hr

open Classical in
/-- C85: and for the driver of the proposed bootstrapping. -/
theorem C85_proposed {L : LibmP} (hLib : L.Accurate) (R k : Nat) (hR : R + 1 = 2^k) (hk13 : 13 ≤ k) {G b b' : Nat} (hp : BootParam2 n G b b')
    (hQ0 : QT = Q0 + n/G * 60) (hC : EvalModChain 60 Q0 Q1 Q2 Q3 Q4 Q5 Q6 Q7 Q8 Q9 Q10 Q11 Q12) (hQS : Q12 = QS + n/G * 60)
    (hlo : 65 ≤ QS) (hhi : QT ≤ 1525) (H : Int) (hH : H ≤ 128)
    (z : CVec (n+1)) (hz : ∀ i : Fin (2^n), ‖(⟨z.1 i, z.2 i⟩ : ℂ)‖ ≤ 1) (ct0 : R_Q_square 60 (2^(n+1))) (ω ω1 : Rng)
    (s : Fin (2^(n+1)) → Int) (hk : keygen (2^(n+1)) H ω = pure (s, ω1)) :
    ∃ c, (∀ σ, keygen (2^(n+1)) H (splice c ω σ) = pure (s, σ)) ∧ ∀ ρ,
      ((univ.filter fun t : Fin (2^(n+1)) → Fin (nlimb 60) → Fin 5 → Fin (R+1) =>
        ¬ Ok (propDriverF L R 60 60 G H QT Q0 Q1 Q2 Q3 Q4 Q5 Q6 Q7 Q8 Q9 Q10 Q11 Q12 QS z ct0 (splice c ω (maskStream t ρ))) (DriverClose b' z)).card : ℝ) ≤
        2^(n+1) / 2^36 * Fintype.card (Fin (2^(n+1)) → Fin (nlimb 60) → Fin 5 → Fin (R+1)) := by
  have hn : 8 ≤ n ∧ n ≤ 16 := by rcases hp with ⟨rfl, rfl, rfl, rfl⟩ | ⟨rfl, rfl, rfl, rfl⟩ | ⟨rfl, rfl, rfl, rfl⟩ <;> norm_num
  exact driver_fraction hLib.1 R k hR hk13 (by omega) hn.2 (by unfold EvalModChain at hC; omega) H hH z hz ct0 _ b' ω ω1 s hk
    fun ω ω1 hk hr => C79_proposed hLib R hp hQ0 hC hQS hlo hhi H hH z hz ct0 ω ω1 s hk hr

end

/-- C85 is not vacuous: with the parameters of `bootstrap_test`, its test message and its key of 128 entries there are random numbers for which the
driver returns the message up to 1/63. -/
example (ct0 : R_Q_square 60 (2^(8+1))) :
    ∃ z, set_test_messageF exactLibmP.toLibm (8+1) = pure z ∧ ∃ ω : Rng,
      Ok (convDriverF exactLibmP (2^31-1) 60 50 2 128 1450 1210 1150 1090 1030 970 910 850 790 730 670 610 550 490 290 z ct0 ω) fun o =>
        ∀ i : Fin (2^8), ‖(⟨o.z_out.1 i, o.z_out.2 i⟩ : ℂ) - ⟨z.1 i, z.2 i⟩‖ ≤ 1/63 := by
  classical
  obtain ⟨z, ez, hz⟩ := C79_test_message exactLibmP_accurate.1 (LOGN := 8+1) (by norm_num)
  obtain ⟨⟨s, ω1⟩, hk, -, -⟩ := C19_keygen_returns (N := 2^(8+1)) 128 (by norm_num) id (fun j l => ⟨j + 2^(8+1) * l, by
      have : 1 ≤ 2^(8+1) := by norm_num
      nlinarith, by
      simp only [id]
      rw [Nat.add_mul_mod_self_left, Nat.mod_eq_of_lt j.isLt]⟩)
  obtain ⟨c, -, h⟩ := C85_conventional exactLibmP_accurate (n := 8) (QT := 1450) (Q0 := 1210) (Q1 := 1150) (Q2 := 1090) (Q3 := 1030) (Q4 := 970)
    (Q5 := 910) (Q6 := 850) (Q7 := 790) (Q8 := 730) (Q9 := 670) (Q10 := 610) (Q11 := 550) (Q12 := 490) (QS := 290) (2^31-1) 31 (by norm_num)
    (by norm_num) (Or.inl ⟨rfl, rfl, rfl, rfl⟩) (by norm_num) (by unfold EvalModChain; norm_num) (by norm_num) (by norm_num) (by norm_num)
    128 (by norm_num) z (fun i => (hz i).2) ct0 id ω1 s hk
  have h1 := h id
  have hpos : 0 < Fintype.card (Fin (2^(8+1)) → Fin (nlimb 60) → Fin 5 → Fin (2^31-1+1)) :=
    Fintype.card_pos_iff.2 ⟨fun _ _ _ => ⟨0, by norm_num⟩⟩
  by_contra hcon
  refine absurd h1 (not_le.2 ?_)
  have hall : (univ.filter fun t : Fin (2^(8+1)) → Fin (nlimb 60) → Fin 5 → Fin (2^31-1+1) =>
      ¬ Ok (convDriverF exactLibmP (2^31-1) 60 50 2 128 1450 1210 1150 1090 1030 970 910 850 790 730 670 610 550 490 290 z ct0
        (splice c id (maskStream t id))) (DriverClose 35 z)) = univ :=
    filter_true_of_mem fun t _ hok => hcon ⟨z, ez, _, Ok.mono hok fun o ho i => (ho.1 i).trans (by norm_num)⟩
  rw [hall, card_univ]
  generalize Fintype.card (Fin (2^(8+1)) → Fin (nlimb 60) → Fin 5 → Fin (2^31-1+1)) = T at *
  have : (0:ℝ) < T := by exact_mod_cast hpos
  norm_num
  linarith

end EvalRound

import Verif.Proofs.RescaleProb
import Verif.Proofs.LinTransSlots

/-! # C100: the error of rescaling a fresh ciphertext over the draws of its mask -/

set_option linter.unusedSectionVars false

namespace EvalRound
open Finset Z_Q

variable {N LF LT : Nat} [NeZero LF] [NeZero LT]

open Classical in
/-- C100: encrypt, rescale from `LF` to `LT` bits, decrypt. For a plaintext that the errors cannot carry over the modulus,
all but a fraction `2N·exp(-6T²/h)` of the draws of the mask give the plaintext divided by `2^(LF-LT)` with an error below
`T + 1/2 + (h+16)/2^(LF-LT+1)` in every coefficient. (The worst case, C23, is `(h+1)/2`.) -/
theorem C100_RS (RAND_MAX k : Nat) (hR : RAND_MAX + 1 = 2^k) (hk : 13 ≤ k) (hN : N ≤ 2^30) (hl : LT < LF)
    (s : Fin N → Int) (hs : ∀ k, s k = -1 ∨ s k = 0 ∨ s k = 1) {h : ℕ} (hh : (univ.filter fun k => s k ≠ 0).card ≤ h)
    (pt : R_Q LF N) (hpt : ∀ k, 2 * (|(pt k).sval| + 8) + 2^(LF-LT) * (h+1) < 2^LF)
    (ct0 : R_Q_square LF N) (ct1 : R_Q_square LT N) (ρ : Rng) {T : ℝ} (hT : 0 ≤ T) :
    ((univ.filter fun t : Fin N → Fin (nlimb LF) → Fin 5 → Fin (RAND_MAX+1) =>
      ¬ Ok (do
        let ct ← enc RAND_MAX pt s ct0 (maskStream t ρ)
        let ct' ← RS ct.1 ct1
        dec ct' s) fun m => ∀ i, |((m i).sval : ℝ) - (pt i).sval / 2^(LF-LT)| < T + 1/2 + (h+16)/2^(LF-LT+1)).card : ℝ) ≤
      2 * N * Real.exp (-(6*T^2/h)) *
        Fintype.card (Fin N → Fin (nlimb LF) → Fin 5 → Fin (RAND_MAX+1)) := by
  have hs' : Ternary s := hs
  obtain ⟨p, hp⟩ : ∃ p, p = 2^(LF-LT-1) := ⟨_, rfl⟩
  have hp0 : 0 < p := by rw [hp]; positivity
  have e2 : (2:ℝ)^(LF-LT) = 2*p := by
    rw [hp]; push_cast; rw [← pow_succ']; congr 1; omega
  refine le_trans (Nat.cast_le.2 (card_le_card fun t ht => ?_))
    (mask_fraction RAND_MAX k hR hk ct0.2 ρ (fun A : R_Q LF N => ∃ i, T ≤ |∑ j, convMat (fun k => (s k : ℝ)) i j *
      (((centred p ((A j).val % (2*p)) : Int) + 1/2) / (2*p))|) ((le_of_eq (by congr!)).trans (count_residue hl hp (key_squares hs' hh) hT)))
  refine (@mem_filter _ _ (fun _ => Classical.propDecidable _) _ _).2 ⟨mem_univ _, by_contra fun hn => (mem_filter.1 ht).2 ?_⟩
  push Not at hn
  refine Ok.mono (rescale_fresh RAND_MAX hN hl hp hs' hh pt hpt ct0 ct1 _) fun m ⟨δ, e, hδ, he, hm⟩ i => ?_
  have h1 := mask_error hs' hh hp0 _ i (hn i)
  have h2 : ((2*p : ℕ) : ℝ) * (m i).sval = (pt i).sval + e i + δ i -
      ((negconv s (fun j => centred p (((encMask RAND_MAX ct0.2 (maskStream t ρ)).1 j).val % (2*p))) i : Int) : ℝ) := by
    exact_mod_cast hm i
  have h3 : 2 * |(δ i : ℝ)| ≤ 2*p := by exact_mod_cast hδ i
  have h4 : |(e i : ℝ)| ≤ 8 := by exact_mod_cast he i
  have hp' : (0:ℝ) < 2*p := by positivity
  rw [pow_succ, e2]
  have h5 : ((m i).sval : ℝ) - (pt i).sval / (2*p) = (e i + δ i -
      ((negconv s (fun j => centred p (((encMask RAND_MAX ct0.2 (maskStream t ρ)).1 j).val % (2*p))) i : Int) : ℝ)) / (2*p) := by
    rw [eq_div_iff hp'.ne', sub_mul, div_mul_cancel₀ _ hp'.ne']
    push_cast at h2
    linarith
  rw [h5, abs_div, abs_of_pos hp', div_lt_iff₀ hp']
  have h6 : (T + 1/2 + ((h:ℝ)+16)/(2*p*2)) * (2*p) = 2*p*T + p + (h+16)/2 := by
    field_simp
  rw [h6]
  have h7 := abs_sub ((e i : ℝ) + δ i) ((negconv s (fun j => centred p (((encMask RAND_MAX ct0.2 (maskStream t ρ)).1 j).val % (2*p))) i : Int) : ℝ)
  have h8 := abs_add_le (e i : ℝ) (δ i)
  linarith

open Classical in
/-- C100: the same in the slots. All but a fraction `2N·exp(-6T²/N)` of the draws of the mask give an error below
`hT + N/2 + N(h+16)/2^(LF-LT+1)` in every slot. (The worst case is `N(h+1)/2`.) -/
theorem C100_slots (RAND_MAX k : Nat) (hR : RAND_MAX + 1 = 2^k) (hk : 13 ≤ k) (hN : N ≤ 2^30) (hN0 : 0 < N) (hN2 : 2 ∣ N) (hl : LT < LF)
    (s : Fin N → Int) (hs : ∀ k, s k = -1 ∨ s k = 0 ∨ s k = 1) {h : ℕ} (hh : (univ.filter fun k => s k ≠ 0).card ≤ h)
    (pt : R_Q LF N) (hpt : ∀ k, 2 * (|(pt k).sval| + 8) + 2^(LF-LT) * (h+1) < 2^LF)
    (ct0 : R_Q_square LF N) (ct1 : R_Q_square LT N) (ρ : Rng) {T : ℝ} (hT : 0 ≤ T) :
    ((univ.filter fun t : Fin N → Fin (nlimb LF) → Fin 5 → Fin (RAND_MAX+1) =>
      ¬ Ok (do
        let ct ← enc RAND_MAX pt s ct0 (maskStream t ρ)
        let ct' ← RS ct.1 ct1
        dec ct' s) fun m => ∀ i < N/2,
          ‖slotOf (fun k => ((m k).sval : ℝ)) i - slotOf (fun k => ((pt k).sval : ℝ)) i / 2^(LF-LT)‖ ≤
            h*T + N/2 + N*(h+16)/2^(LF-LT+1)).card : ℝ) ≤
      2 * N * Real.exp (-(6*T^2/N)) *
        Fintype.card (Fin N → Fin (nlimb LF) → Fin 5 → Fin (RAND_MAX+1)) := by
  have hs' : Ternary s := hs
  obtain ⟨p, hp⟩ : ∃ p, p = 2^(LF-LT-1) := ⟨_, rfl⟩
  have hp0 : 0 < p := by rw [hp]; positivity
  have e2 : (2:ℝ)^(LF-LT) = 2*p := by
    rw [hp]; push_cast; rw [← pow_succ']; congr 1; omega
  have e2c : (2:ℂ)^(LF-LT) = ((2*p : ℝ) : ℂ) := by rw [← e2]; push_cast; rfl
  refine le_trans (Nat.cast_le.2 (card_le_card fun t ht => ?_))
    (mask_fraction RAND_MAX k hR hk ct0.2 ρ (fun A : R_Q LF N => ∃ i < N/2, T ≤ ‖slotOf (fun j =>
      ((centred p ((A j).val % (2*p)) : Int) + 1/2) / (2*p)) i‖) ((le_of_eq (by congr!)).trans (count_residue_slots hl hp hN0 hN2 hT)))
  refine (@mem_filter _ _ (fun _ => Classical.propDecidable _) _ _).2 ⟨mem_univ _, by_contra fun hn => (mem_filter.1 ht).2 ?_⟩
  push Not at hn
  refine Ok.mono (rescale_fresh RAND_MAX hN hl hp hs' hh pt hpt ct0 ct1 _) fun m ⟨δ, e, hδ, he, hm⟩ i hi => ?_
  obtain ⟨c, hc⟩ : ∃ c : Fin N → Int, c = fun j => centred p (((encMask RAND_MAX ct0.2 (maskStream t ρ)).1 j).val % (2*p)) := ⟨_, rfl⟩
  rw [← hc] at hm
  have hni := hn i hi
  have hp' : (0:ℝ) < 2*p := by positivity
  have hc1 : slotOf (fun j => (((centred p (((encMask RAND_MAX ct0.2 (maskStream t ρ)).1 j).val % (2*p)) : Int) : ℝ) + 1/2) / (2*p)) i =
      slotOf (fun j => ((c j : ℝ) + 1/2) / (2*p)) i := by rw [hc]
  rw [hc1] at hni
  -- the error, coefficient by coefficient
  have h5 : ∀ k, ((m k).sval : ℝ) = (pt k).sval * (1/(2*p)) + ((e k + δ k : ℝ) * (1/(2*p)) -
      negconv (fun j => (s j : ℝ)) (fun j => ((c j : ℝ) + 1/2) / (2*p)) k + negconv (fun j => (s j : ℝ)) (fun _ => (1/2) / (2*p)) k) := fun k => by
    have h2 : ((2*p : ℕ) : ℝ) * (m k).sval = (pt k).sval + e k + δ k - ((negconv s c k : Int) : ℝ) := by exact_mod_cast hm k
    have h3 : negconv (fun j => (s j : ℝ)) (fun j => ((c j : ℝ) + 1/2) / (2*p)) k =
        ((negconv s c k : Int) : ℝ) * (1/(2*p)) + negconv (fun j => (s j : ℝ)) (fun _ => (1/2) / (2*p)) k := by
      rw [negconv_real, negconv_comm, negconv_mat, negconv_comm _ (fun _ => (1/2 : ℝ) / (2*p)), negconv_mat, sum_mul, ← sum_add_distrib]
      exact sum_congr rfl fun j _ => by ring
    rw [h3]
    field_simp
    push_cast at h2
    linarith
  have hsl : slotOf (fun k => ((m k).sval : ℝ)) i - slotOf (fun k => ((pt k).sval : ℝ)) i / 2^(LF-LT) =
      slotOf (fun k => (e k + δ k : ℝ)) i * ((1/(2*p) : ℝ) : ℂ) -
        slotOf (fun j => (s j : ℝ)) i * slotOf (fun j => ((c j : ℝ) + 1/2) / (2*p)) i +
        slotOf (fun j => (s j : ℝ)) i * slotOf (fun _ : Fin N => (1/2 : ℝ) / (2*p)) i := by
    rw [← slotOf_negconv hN0, ← slotOf_negconv hN0, ← slotOf_smul, e2c, slotOf_zeta, slotOf_zeta, slotOf_zeta, slotOf_zeta, slotOf_zeta,
      sum_div, ← sum_sub_distrib, ← sum_sub_distrib, ← sum_add_distrib]
    refine sum_congr rfl fun k _ => ?_
    simp only [h5 k]
    push_cast
    ring
  have b1 : ‖slotOf (fun k => (e k + δ k : ℝ)) i‖ ≤ N * (8 + p) := by
    refine slotOf_abs (fun k => ?_) i
    have h3 : 2 * |(δ k : ℝ)| ≤ 2*p := by exact_mod_cast hδ k
    have h4 : |(e k : ℝ)| ≤ 8 := by exact_mod_cast he k
    have := abs_add_le (e k : ℝ) (δ k)
    linarith
  have b2 : ‖slotOf (fun j => (s j : ℝ)) i‖ ≤ h := by
    rw [slotOf_zeta]
    refine (norm_sum_le _ _).trans ?_
    have : ∀ k, ‖((s k : ℝ) : ℂ) * zeta N ^ (5^i * k.val)‖ = ((|s k| : Int) : ℝ) := fun k => by
      rw [norm_mul, norm_zeta_pow, mul_one, Complex.norm_real, Real.norm_eq_abs, Int.cast_abs]
    rw [sum_congr rfl fun k _ => this k, ← Int.cast_sum, hs'.sum_abs, Int.cast_natCast]
    exact_mod_cast hh
  have b3 : ‖slotOf (fun _ : Fin N => (1/2 : ℝ) / (2*p)) i‖ ≤ N * ((1/2)/(2*p)) :=
    slotOf_abs (fun k => le_of_eq (abs_of_pos (by positivity))) i
  rw [hsl, pow_succ, e2]
  refine (norm_add_le _ _).trans ((add_le_add (norm_sub_le _ _) le_rfl).trans ?_)
  rw [norm_mul, norm_mul, norm_mul, Complex.norm_real, Real.norm_eq_abs, abs_of_pos (by positivity : (0:ℝ) < 1/(2*p))]
  have c1 := mul_le_mul_of_nonneg_right b1 (by positivity : (0:ℝ) ≤ 1/(2*p))
  have c2 := mul_le_mul b2 hni.le (norm_nonneg _) (Nat.cast_nonneg _)
  have c3 := mul_le_mul b2 b3 (norm_nonneg _) (Nat.cast_nonneg _)
  refine (add_le_add (add_le_add c1 c2) c3).trans (le_of_eq ?_)
  field_simp
  ring

open Classical in
/-- C100 at work: dimension `2^17`, a key of weight 128, the plaintext with all coefficients `2^90 + 12345`, rescaled from 100 to 50
bits: all but a fraction `2^-50` of the draws of the mask give an error below 33. (The worst case is 64.5.) -/
example (N R : Nat) (hN : N = 2^17) (hR : R = 2147483647) (ct0 : R_Q_square 100 N) (ct1 : R_Q_square 50 N) (ρ : Rng) :
    ((univ.filter fun t : Fin N → Fin (nlimb 100) → Fin 5 → Fin (R+1) =>
      ¬ Ok (do
        let ct ← enc R (fun _ => Z_Q.ofNat 100 (2^90 + 12345)) (fun k => if k.val < 64 then 1 else if k.val < 128 then -1 else 0)
          ct0 (maskStream t ρ)
        let ct' ← RS ct.1 ct1
        dec ct' (fun k => if k.val < 64 then 1 else if k.val < 128 then -1 else 0)) fun m =>
          ∀ i, |((m i).sval : ℝ) - (2^90 + 12345) / 2^50| < 33).card : ℝ) ≤
      1/2^50 * Fintype.card (Fin N → Fin (nlimb 100) → Fin 5 → Fin (R+1)) := by
  have hv : (Z_Q.ofNat 100 (2^90 + 12345)).sval = 2^90 + 12345 := by
    refine sval_eq_of_cls ?_ (by norm_num) (by norm_num)
    rw [Z_Q.cls, Z_Q.val_ofNat_of_lt (by norm_num)]
    norm_num
  have hw : (univ.filter fun k : Fin N => (if k.val < 64 then (1 : Int) else if k.val < 128 then -1 else 0) ≠ 0).card ≤ 128 := by
    refine (card_le_card_of_injOn (t := range 128) Fin.val (fun k hk => ?_) Fin.val_injective.injOn).trans (le_of_eq (card_range _))
    have := (mem_filter.1 hk).2
    rw [coe_range, Set.mem_Iio]
    by_contra hc
    exact this (by rw [if_neg (by omega), if_neg hc])
  have h := C100_RS (N := N) (LF := 100) (LT := 50) R 31 (by rw [hR]; norm_num) (by norm_num) (by rw [hN]; norm_num) (by norm_num)
    (fun k => if k.val < 64 then 1 else if k.val < 128 then -1 else 0) (fun k => by split_ifs <;> simp) (h := 128) hw
    (fun _ => Z_Q.ofNat 100 (2^90 + 12345)) (fun k => by rw [hv]; norm_num) ct0 ct1 ρ (T := 32) (by norm_num)
  refine le_trans ?_ (h.trans (mul_le_mul_of_nonneg_right ?_ (Nat.cast_nonneg _)))
  · refine Nat.cast_le.2 (card_le_card fun t ht => ?_)
    refine mem_filter.2 ⟨mem_univ _, fun hok => (mem_filter.1 ht).2 (Ok.mono hok fun m hm i => ?_)⟩
    have := (hm i).trans_le (show (32:ℝ) + 1/2 + (((128:ℕ):ℝ) + 16)/2^(100-50+1) ≤ 33 by norm_num)
    rw [hv, show (((2^90 + 12345 : Int)) : ℝ) = 2^90 + 12345 by norm_num] at this
    exact this
  · rw [hN]
    have h1 : Real.exp (-(6*(32:ℝ)^2/((128:ℕ):ℝ))) = (Real.exp 48)⁻¹ := by
      rw [show -(6*(32:ℝ)^2/((128:ℕ):ℝ)) = -48 by norm_num, Real.exp_neg]
    rw [h1]
    have h4 : (2:ℝ)^68 ≤ Real.exp 48 := by
      rw [show (48:ℝ) = ((48:ℕ):ℝ) * 1 by norm_num, Real.exp_nat_mul]
      have h3 : (2.7:ℝ) ≤ Real.exp 1 := by have := Real.exp_one_gt_d9; linarith
      refine le_trans ?_ (pow_le_pow_left₀ (by norm_num) h3 48)
      norm_num
    have h5 : (Real.exp 48)⁻¹ ≤ ((2:ℝ)^68)⁻¹ := inv_anti₀ (by positivity) h4
    refine (mul_le_mul_of_nonneg_left h5 (by positivity)).trans ?_
    norm_num

end EvalRound

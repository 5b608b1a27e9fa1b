import Verif.Proofs.FloatFFT
import Verif.Proofs.Endecode

/-!
# C72: the transforms in binary64

`fftF` and `ifftF` are `fft` and `ifft` with every operation rounded, see `Verif/Model/Float.lean`.
-/

namespace EvalRound
open Finset

section
variable {L : Libm} {LOGN : Nat}

theorem tiny_le {a : ℝ} (ha : a ≤ 2^75 * etaF) : a ≤ 1/2^1000 := by
  refine ha.trans (le_of_eq ?_)
  rw [etaF_eq, show 1075 = 75 + 1000 by norm_num, pow_add]
  field_simp

theorem l2_bound {n : Nat} {x : Fin (2^n) → ℂ} {a : Nat} (hn : n ≤ 26) (ha : a ≤ 900) (h : ∀ i, ‖x i‖ ≤ 2 * 2^a) : l2 x ≤ 2^950 := by
  refine (l2_le h).trans ?_
  have h1 : ((2^n : ℕ) : ℝ) ≤ 2^26 := by exact_mod_cast Nat.pow_le_pow_right (by norm_num) hn
  calc ((2^n : ℕ) : ℝ) * (2 * 2^a) ≤ 2^26 * (2^1 * 2^a) := by
        rw [pow_one]
        exact mul_le_mul_of_nonneg_right h1 (by positivity)
    _ = 2^(26 + (1 + a)) := by rw [← pow_add, ← pow_add]
    _ ≤ 2^950 := pow_le_pow_right₀ (by norm_num) (by omega)

theorem norm_mk_le {x y b : ℝ} (hx : |x| ≤ b) (hy : |y| ≤ b) : ‖(⟨x, y⟩ : ℂ)‖ ≤ 2 * b := by
  have hb : 0 ≤ b := (abs_nonneg _).trans hx
  have := norm_le_two (z := ⟨x, y⟩) hx hy
  linarith

/-- C72: `fft<LOGN>` in binary64. For entries up to `2^900` no operation overflows, and in the Euclidean norm the computed slots differ from
the exact ones by at most `28·(LOGN-1)·2^-53` of their norm, up to an underflow term. -/
theorem C72_fft (hL : L.Accurate) (h1 : 2 ≤ LOGN) (h2 : LOGN ≤ 27) (m : Fin (2^LOGN) → ℝ) (hm : ∀ k, |m k| ≤ 2^900) :
    Ok (fftF L LOGN m) fun z => Real.sqrt (∑ i, ‖(⟨z.1 i, z.2 i⟩ : ℂ) - slotOf m i‖^2) ≤
      28 * (LOGN - 1) / 2^53 * Real.sqrt (∑ i : Fin (2^(LOGN-1)), ‖slotOf m i‖^2) + 1/2^1000 := by
  obtain ⟨n, rfl⟩ : ∃ n, LOGN = n + 1 := ⟨LOGN - 1, by omega⟩
  have hn : n ≤ 26 := by omega
  refine Ok.mono (fftF_spec hL (n := n) (by omega) hn m
    (l2_bound hn le_rfl fun p => norm_mk_le (hm _) (hm _))) fun z hz => ?_
  refine hz.trans ?_
  have e : Real.sqrt (∑ i : Fin (2^n), ‖slotOf m i‖^2) = Real.sqrt 2 ^ n * l2 (pairC n m) := slots_l2 m
  show _ ≤ 28 * (((n+1 : ℕ) : ℝ) - 1) / 2^53 * Real.sqrt (∑ i : Fin (2^n), ‖slotOf m i‖^2) + 1/2^1000
  rw [e]
  have e2 : Real.sqrt 2 ^ n * (n * (28 * uF * l2 (pairC n m) + 2 * thF n)) =
      28 * (((n+1 : ℕ) : ℝ) - 1) / 2^53 * (Real.sqrt 2 ^ n * l2 (pairC n m)) + Real.sqrt 2 ^ n * (n * (2 * thF n)) := by
    rw [uF_eq]; push_cast; ring
  rw [e2]
  refine add_le_add le_rfl (tiny_le ?_)
  have hθ := thF_le hn
  have hθ0 := thF_nonneg n
  have hη := etaF_pos.le
  have hn' : (n:ℝ) ≤ 26 := by exact_mod_cast hn
  calc Real.sqrt 2 ^ n * (n * (2 * thF n)) ≤ 2^13 * (26 * (2 * (2^31 * etaF))) :=
        mul_le_mul (sqrt2_pow hn).2 (mul_le_mul hn' (by linarith) (by linarith) (by norm_num)) (by positivity) (by norm_num)
    _ ≤ 2^75 * etaF := by nlinarith

/-- C72: `ifft<LOGN>` in binary64; `m` are the exact coefficients. -/
theorem C72_ifft (hL : L.Accurate) (h1 : 2 ≤ LOGN) (h2 : LOGN ≤ 27) (z : CVec LOGN) (m0 m : Fin (2^LOGN) → ℝ)
    (hm : ∀ i : Fin (2^(LOGN-1)), slotOf m i = ⟨z.1 i, z.2 i⟩) (hz : ∀ i, |z.1 i| ≤ 2^900 ∧ |z.2 i| ≤ 2^900) :
    Ok (ifftF L LOGN z m0) fun m' => Real.sqrt (∑ k, (m' k - m k)^2) ≤
      (28 * (LOGN - 1) + 3) / 2^53 * Real.sqrt (∑ k, m k ^ 2) + 1/2^1000 := by
  obtain ⟨n, rfl⟩ : ∃ n, LOGN = n + 1 := ⟨LOGN - 1, by omega⟩
  have hn : n ≤ 26 := by omega
  refine Ok.mono (ifftF_spec hL (n := n) (by omega) hn z m0 m hm
    (l2_bound hn le_rfl fun p => norm_mk_le (hz _).1 (hz _).2)) fun m' h => ?_
  have e : pairC n m' - pairC n m = pairC n fun k => m' k - m k := rfl
  rw [e, l2_pairC, l2_pairC] at h
  refine h.trans (add_le_add (le_of_eq ?_) (tiny_le ?_))
  · rw [uF_eq]; push_cast; ring
  · have hη := etaF_pos.le
    nlinarith

/-- the norm of the coefficients of `z` -/
theorem coeff_norm {n : Nat} {m : Fin (2^(n+1)) → ℝ} {B : ℝ} (hB : ∀ i : Fin (2^n), ‖slotOf m i‖ ≤ B) :
    Real.sqrt (∑ k, m k ^ 2) ≤ B := by
  have hB0 : 0 ≤ B := (norm_nonneg _).trans (hB ⟨0, Nat.two_pow_pos n⟩)
  have h := slots_l2 m
  rw [l2_pairC] at h
  have h1 : l2 (fun i : Fin (2^n) => slotOf m i) ≤ Real.sqrt 2 ^ n * B := by
    refine Real.sqrt_le_iff.2 ⟨by positivity, ?_⟩
    refine (sum_le_sum (g := fun _ => B^2) fun i _ => pow_le_pow_left₀ (norm_nonneg _) (hB i) 2).trans (le_of_eq ?_)
    rw [sum_const, card_univ, Fintype.card_fin, nsmul_eq_mul, mul_pow, ← pow_mul, mul_comm n 2, pow_mul, Real.sq_sqrt (by norm_num)]
    push_cast
    rfl
  rw [h] at h1
  exact le_of_mul_le_mul_left h1 (by positivity)

/-- C72: for slots of modulus at most `B`, every computed coefficient is within `(28·(LOGN-1)+3)·2^-53·B` of the exact one. -/
theorem C72_coeff (hL : L.Accurate) (h1 : 2 ≤ LOGN) (h2 : LOGN ≤ 27) (z : CVec LOGN) (m0 m : Fin (2^LOGN) → ℝ)
    (hm : ∀ i : Fin (2^(LOGN-1)), slotOf m i = ⟨z.1 i, z.2 i⟩) {B : ℝ} (hB : B ≤ 2^900)
    (hz : ∀ i, ‖(⟨z.1 i, z.2 i⟩ : ℂ)‖ ≤ B) :
    Ok (ifftF L LOGN z m0) fun m' => ∀ k, |m' k - m k| ≤ (28 * (LOGN - 1) + 3) / 2^53 * B + 1/2^1000 := by
  refine Ok.mono (C72_ifft hL h1 h2 z m0 m hm fun i =>
    ⟨(Complex.abs_re_le_norm (⟨z.1 i, z.2 i⟩ : ℂ)).trans ((hz i).trans hB),
     (Complex.abs_im_le_norm (⟨z.1 i, z.2 i⟩ : ℂ)).trans ((hz i).trans hB)⟩) fun m' h k => ?_
  obtain ⟨n, rfl⟩ : ∃ n, LOGN = n + 1 := ⟨LOGN - 1, by omega⟩
  have h3 : Real.sqrt (∑ k, m k ^ 2) ≤ B := coeff_norm fun i => by rw [hm i]; exact hz i
  have h4 : |m' k - m k| ≤ Real.sqrt (∑ k, (m' k - m k)^2) :=
    Real.abs_le_sqrt (single_le_sum (f := fun k => (m' k - m k)^2) (fun _ _ => sq_nonneg _) (mem_univ k))
  refine h4.trans (h.trans (add_le_add (mul_le_mul_of_nonneg_left h3 ?_) le_rfl))
  have : (0:ℝ) ≤ n := Nat.cast_nonneg n
  push_cast
  rw [add_sub_cancel_right]
  positivity

/-- C72: `fft` of `ifft` returns the slots with relative error at most `(56·(LOGN-1)+4)·2^-53`. -/
theorem C72_round_trip (hL : L.Accurate) (h1 : 2 ≤ LOGN) (h2 : LOGN ≤ 27) (z : CVec LOGN) (m0 : Fin (2^LOGN) → ℝ)
    (hz : ∀ i, |z.1 i| ≤ 2^800 ∧ |z.2 i| ≤ 2^800) :
    Ok (ifftF L LOGN z m0 >>= fftF L LOGN) fun z' =>
      Real.sqrt (∑ i, ‖(⟨z'.1 i, z'.2 i⟩ : ℂ) - ⟨z.1 i, z.2 i⟩‖^2) ≤
        (56 * (LOGN - 1) + 4) / 2^53 * Real.sqrt (∑ i, ‖(⟨z.1 i, z.2 i⟩ : ℂ)‖^2) + 1/2^900 := by
  obtain ⟨n, rfl⟩ : ∃ n, LOGN = n + 1 := ⟨LOGN - 1, by omega⟩
  have hn : n ≤ 26 := by omega
  obtain ⟨m, -, hm, -⟩ := ifft_slot (by omega) h2 z m0
  have hsz : l2 (toC (n := 2^n) z.1 z.2) ≤ 2^830 := by
    refine (l2_le fun i => norm_mk_le (hz i).1 (hz i).2).trans ?_
    have h1 : ((2^n : ℕ) : ℝ) ≤ 2^26 := by exact_mod_cast Nat.pow_le_pow_right (by norm_num) hn
    calc ((2^n : ℕ) : ℝ) * (2 * 2^800) ≤ 2^26 * (2^1 * 2^800) := by
          rw [pow_one]
          exact mul_le_mul_of_nonneg_right h1 (by positivity)
      _ = 2^827 := by rw [← pow_add, ← pow_add]
      _ ≤ 2^830 := pow_le_pow_right₀ (by norm_num) (by norm_num)
  have hu := uF_pos.le
  have hu2 := uF_le
  have hη := etaF_pos.le
  have hη2 := etaF_le
  have hθ := thF_le hn
  have hθ0 := thF_nonneg n
  have hn' : (n:ℝ) ≤ 26 := by exact_mod_cast hn
  have hn0 : (0:ℝ) ≤ n := Nat.cast_nonneg _
  obtain ⟨s1, s2⟩ := sqrt2_pow hn
  have hX0 := l2_nonneg (toC (n := 2^n) z.1 z.2)
  have em : l2 (toC (n := 2^n) z.1 z.2) = Real.sqrt 2 ^ n * l2 (pairC n m) := by
    rw [← slots_l2]
    congr 1
    exact funext fun i => (hm i).symm
  have hm0 := l2_nonneg (pairC n m)
  have hmX : l2 (pairC n m) ≤ l2 (toC (n := 2^n) z.1 z.2) := by rw [em]; nlinarith
  refine Ok.bind (ifftF_spec hL (n := n) (by omega) hn z m0 m hm
    (hsz.trans (pow_le_pow_right₀ (by norm_num) (by norm_num)))) fun m' h => ?_
  have ed : pairC n m' - pairC n m = pairC n fun k => m' k - m k := rfl
  have hE0 := l2_nonneg (pairC n m' - pairC n m)
  have hm' := l2_add_le (pairC n m' - pairC n m) (pairC n m)
  rw [sub_add_cancel] at hm'
  have h830 : (1:ℝ) ≤ 2^830 := one_le_pow₀ (by norm_num)
  have hsz' : l2 (pairC n m') ≤ 2^950 := by
    have k1 : (28 * (n:ℝ) + 3) * uF * l2 (pairC n m) ≤ 731 * (1/10^9) * 2^830 := by
      refine mul_le_mul (mul_le_mul (by linarith) hu2 hu (by norm_num)) (hmX.trans hsz) hm0 (by norm_num)
    have k2 : l2 (pairC n m') ≤ 2^20 * 2^830 := by
      generalize (2:ℝ)^830 = T at *
      linarith
    refine k2.trans ?_
    rw [← pow_add]
    exact pow_le_pow_right₀ (by norm_num) (by norm_num)
  refine Ok.mono (fftF_spec hL (n := n) (by omega) hn m' hsz') fun z' hz' => ?_
  have esl : (fun i : Fin (2^n) => slotOf m' i) - toC (n := 2^n) z.1 z.2 = fun i : Fin (2^n) => slotOf (fun k => m' k - m k) i := by
    funext i
    have : toC (n := 2^n) z.1 z.2 i = slotOf m i := (hm i).symm
    rw [Pi.sub_apply, this]
    unfold slotOf
    rw [← sum_sub_distrib]
    refine sum_congr rfl fun k _ => ?_
    push_cast
    ring
  have htot := l2_add_le (toC (n := 2^n) z'.1 z'.2 - fun i : Fin (2^n) => slotOf m' i)
    ((fun i : Fin (2^n) => slotOf m' i) - toC (n := 2^n) z.1 z.2)
  rw [sub_add_sub_cancel, esl, slots_l2, ← ed] at htot
  show l2 (toC (n := 2^n) z'.1 z'.2 - toC (n := 2^n) z.1 z.2) ≤ (56 * (((n+1 : ℕ) : ℝ) - 1) + 4) / 2^53 * l2 (toC (n := 2^n) z.1 z.2) + 1/2^900
  have ec : (56 * (((n+1 : ℕ) : ℝ) - 1) + 4) / 2^53 * l2 (toC (n := 2^n) z.1 z.2) =
      56 * (n * (uF * l2 (toC (n := 2^n) z.1 z.2))) + 4 * (uF * l2 (toC (n := 2^n) z.1 z.2)) := by
    rw [uF_eq]; push_cast; ring
  rw [ec]
  have tiny : (2^60 : ℝ) * etaF ≤ 1/2^900 := by
    have h5 : (2:ℝ)^60 * etaF ≤ 2^75 * etaF := mul_le_mul_of_nonneg_right (by norm_num) hη
    exact (tiny_le h5).trans (one_div_le_one_div_of_le (by positivity) (pow_le_pow_right₀ (by norm_num) (by norm_num)))
  refine le_trans ?_ (add_le_add le_rfl tiny)
  have k3 : Real.sqrt 2 ^ n * l2 (pairC n m' - pairC n m) ≤
      (28 * n + 3) * (uF * l2 (toC (n := 2^n) z.1 z.2)) + 2^53 * etaF := by
    have q1 := mul_le_mul_of_nonneg_left h (show 0 ≤ Real.sqrt 2 ^ n by linarith)
    have q2 : Real.sqrt 2 ^ n * (2^40 * etaF) ≤ 2^13 * (2^40 * etaF) := mul_le_mul_of_nonneg_right s2 (by positivity)
    have q3 : Real.sqrt 2 ^ n * ((28 * n + 3) * uF * l2 (pairC n m)) = (28 * n + 3) * (uF * l2 (toC (n := 2^n) z.1 z.2)) := by
      rw [em]; ring
    rw [mul_add, q3] at q1
    linarith
  have k4 : Real.sqrt 2 ^ n * (n * (28 * uF * l2 (pairC n m') + 2 * thF n)) ≤
      28 * (n * (uF * (l2 (toC (n := 2^n) z.1 z.2) + Real.sqrt 2 ^ n * l2 (pairC n m' - pairC n m)))) + 2^52 * etaF := by
    have q1 : Real.sqrt 2 ^ n * (n * (28 * uF * l2 (pairC n m') + 2 * thF n)) =
      28 * (n * (uF * (Real.sqrt 2 ^ n * l2 (pairC n m')))) + 2 * (n * (Real.sqrt 2 ^ n * thF n)) := by ring
    have q2 : n * (Real.sqrt 2 ^ n * thF n) ≤ 26 * (2^13 * (2^31 * etaF)) :=
      mul_le_mul hn' (mul_le_mul s2 hθ hθ0 (by norm_num)) (by positivity) (by norm_num)
    have q3 : Real.sqrt 2 ^ n * l2 (pairC n m') ≤ l2 (toC (n := 2^n) z.1 z.2) + Real.sqrt 2 ^ n * l2 (pairC n m' - pairC n m) := by
      have := mul_le_mul_of_nonneg_left hm' (show 0 ≤ Real.sqrt 2 ^ n by linarith)
      rw [mul_add, ← em] at this
      linarith
    have q4 : (n:ℝ) * (uF * (Real.sqrt 2 ^ n * l2 (pairC n m'))) ≤
        n * (uF * (l2 (toC (n := 2^n) z.1 z.2) + Real.sqrt 2 ^ n * l2 (pairC n m' - pairC n m))) :=
      mul_le_mul_of_nonneg_left (mul_le_mul_of_nonneg_left q3 hu) hn0
    rw [q1]
    linarith
  generalize Real.sqrt 2 ^ n * l2 (pairC n m' - pairC n m) = E at *
  generalize l2 (toC (n := 2^n) z.1 z.2) = X at *
  have huX : 0 ≤ uF * X := mul_nonneg hu hX0
  have q5 : (n:ℝ) * (uF * (X + E)) = n * (uF * X) + n * (uF * E) := by ring
  have q6 : (n:ℝ) * (uF * E) ≤ 26 * (1/10^9 * (731 * (uF * X) + 2^53 * etaF)) := by
    have a1 : (28 * (n:ℝ) + 3) * (uF * X) ≤ 731 * (uF * X) := mul_le_mul_of_nonneg_right (by linarith) huX
    have a2 : 0 ≤ 731 * (uF * X) + 2^53 * etaF := add_nonneg (mul_nonneg (by norm_num) huX) (mul_nonneg (by norm_num) hη)
    calc (n:ℝ) * (uF * E) ≤ n * (uF * (731 * (uF * X) + 2^53 * etaF)) :=
          mul_le_mul_of_nonneg_left (mul_le_mul_of_nonneg_left (by linarith) hu) hn0
      _ ≤ 26 * (1/10^9 * (731 * (uF * X) + 2^53 * etaF)) :=
          mul_le_mul hn' (mul_le_mul_of_nonneg_right hu2 a2) (mul_nonneg hu a2) (by norm_num)
  rw [q5] at k4
  have q7 : (28 * (n:ℝ) + 3) * (uF * X) = 28 * (n * (uF * X)) + 3 * (uF * X) := by ring
  rw [q7] at k3
  linarith

/-! ### The hypotheses are met -/

/-- a library that rounds the exact values -/
noncomputable def exactLibm : Libm := ⟨fun x => rnd (Real.cos x), fun x => rnd (Real.sin x)⟩

theorem exactLibm_accurate : exactLibm.Accurate := by
  have h : ∀ y : ℝ, |y| ≤ 1 → |rnd y - y| ≤ 1/2^52 := by
    intro y hy
    have h1 := rnd_err y
    have h2 : (1:ℝ)/2^1075 ≤ 1/2^53 := one_div_le_one_div_of_le (by positivity) (pow_le_pow_right₀ (by norm_num) (by norm_num))
    have h3 : 1/2^53 * |y| ≤ 1/2^53 * 1 := mul_le_mul_of_nonneg_left hy (by positivity)
    refine h1.trans ((add_le_add h3 h2).trans ?_)
    norm_num
  exact fun x _ => ⟨h _ (Real.abs_cos_le_one x), h _ (Real.abs_sin_le_one x)⟩

/-- The largest ring of the drivers, `LOGN = 17`, and slots of modulus at most 1: every coefficient is within `2^-44`. -/
example (z : CVec 17) (hz : ∀ i, ‖(⟨z.1 i, z.2 i⟩ : ℂ)‖ ≤ 1) (m0 : Fin (2^17) → ℝ) :
    ∃ m : Fin (2^17) → ℝ, (∀ i : Fin (2^16), slotOf m i = ⟨z.1 i, z.2 i⟩) ∧
      Ok (ifftF exactLibm 17 z m0) fun m' => ∀ k, |m' k - m k| ≤ 1/2^44 := by
  obtain ⟨m, -, hm, -⟩ := ifft_slot (LOGN := 17) (by norm_num) (by norm_num) z m0
  refine ⟨m, hm, Ok.mono (C72_coeff exactLibm_accurate (by norm_num) (by norm_num) z m0 m hm (one_le_pow₀ (by norm_num)) hz) fun m' h k => ?_⟩
  refine (h k).trans ?_
  have h2 : (1:ℝ)/2^1000 ≤ 1/2^60 := one_div_le_one_div_of_le (by positivity) (pow_le_pow_right₀ (by norm_num) (by norm_num))
  refine (add_le_add le_rfl h2).trans ?_
  norm_num

end

end EvalRound

import Verif.Proofs.FloatRow

/-! # Sums of complex products in binary64 -/

namespace EvalRound
open Finset

theorem dot_arith {u η e T t k : ℝ} (hu : 0 ≤ u) (hη : 0 ≤ η) (hT : 0 ≤ T) (ht : 0 ≤ t) (hk : 0 ≤ k)
    (hku : k * u ≤ 1/10^6) (hu2 : u ≤ 1/10^9) (he : e ≤ (3.01 + 1.01 * k) * (u * T) + 7 * k * η) :
    (1 + u) * e + u * T + 3.001 * u * t + 6 * η ≤ (3.01 + 1.01 * (k + 1)) * (u * (T + t)) + 7 * (k + 1) * η := by
  have h1 : u * e ≤ u * ((3.01 + 1.01 * k) * (u * T) + 7 * k * η) := mul_le_mul_of_nonneg_left he hu
  have h2 : (k * u) * (u * T) ≤ 1/10^6 * (u * T) := mul_le_mul_of_nonneg_right hku (by positivity)
  have h3 : u * (u * T) ≤ 1/10^9 * (u * T) := mul_le_mul_of_nonneg_right hu2 (by positivity)
  have h4 : (k * u) * η ≤ 1/10^6 * η := mul_le_mul_of_nonneg_right hku hη
  have h5 : 0 ≤ k * (u * t) := by positivity
  have h6 : 0 ≤ u * t := by positivity
  have h7 : 0 ≤ u * T := by positivity
  have e1 : u * ((3.01 + 1.01 * k) * (u * T) + 7 * k * η) = 3.01 * (u * (u * T)) + 1.01 * ((k * u) * (u * T)) + 7 * ((k * u) * η) := by ring
  rw [e1] at h1
  have e2 : (3.01 + 1.01 * (k + 1)) * (u * (T + t)) + 7 * (k + 1) * η =
    ((3.01 + 1.01 * k) * (u * T) + 7 * k * η) + 1.01 * (u * T) + 4.02 * (u * t) + 1.01 * (k * (u * t)) + 7 * η := by ring
  have e3 : (1 + u) * e + u * T + 3.001 * u * t + 6 * η = e + u * e + u * T + 3.001 * (u * t) + 6 * η := by ring
  rw [e2, e3]
  linarith

/-- `K` complex products, accumulated as the products of matrix.h and message.h do -/
theorem dotF_skip {K : Nat} (hK : K ≤ 2^20) (a x : Nat → ℂ) (hB : ∑ n ∈ range K, ‖a n‖ * ‖x n‖ ≤ 2^1000)
    (body : Nat → ℝ × ℝ → M (ℝ × ℝ))
    (hb : ∀ k c, k < K → (body k c = do
      let cr ← accF c.1 (a k).re (x k).re (a k).im (x k).im
      let ci ← accF c.2 (a k).re (x k).im (-(a k).im) (x k).re
      pure (cr, ci)) ∨ a k = 0 ∧ body k c = pure c) :
    Ok (forUp 0 K body (0, 0)) fun r => ‖(⟨r.1, r.2⟩ : ℂ) - ∑ n ∈ range K, a n * x n‖ ≤
      (2 * K + 5) / 2^53 * ∑ n ∈ range K, ‖a n‖ * ‖x n‖ + K / 2^1071 := by
  have hu := uF_pos.le
  have hu2 := uF_le
  have hη := etaF_pos.le
  have hη2 := etaF_le
  have hS0 : ∀ k, 0 ≤ ∑ n ∈ range k, ‖a n‖ * ‖x n‖ := fun k => sum_nonneg fun _ _ => by positivity
  have hS1 : ∀ k, k ≤ K → ∑ n ∈ range k, ‖a n‖ * ‖x n‖ ≤ 2^1000 := fun k hk =>
    (sum_le_sum_of_subset_of_nonneg (range_mono hk) fun _ _ _ => by positivity).trans hB
  have hKu : ∀ k : Nat, k ≤ K → (k : ℝ) * uF ≤ 1/10^6 := by
    intro k hk
    have : (k : ℝ) ≤ 2^20 := by exact_mod_cast hk.trans hK
    rw [uF_eq]
    calc (k : ℝ) * _ ≤ 2^20 * _ := mul_le_mul_of_nonneg_right this (by positivity)
      _ ≤ _ := by norm_num
  have hL : (2:ℝ)^1010 = 1024 * 2^1000 := by rw [show 1010 = 10 + 1000 by norm_num, pow_add]; norm_num
  have h1L : (1:ℝ) ≤ 2^1000 := one_le_pow₀ (by norm_num)
  have hL2 : ∀ x : ℝ, x ≤ 1024 * 2^1000 → x ≤ 2^1010 := fun x h => by rw [hL]; exact h
  have hη3 : (7:ℝ) * K * etaF ≤ 1 := by
    have : (K : ℝ) ≤ 2^20 := by exact_mod_cast hK
    have h2 : (K : ℝ) * etaF ≤ 2^20 * etaF := mul_le_mul_of_nonneg_right this hη
    have h3 : (2:ℝ)^20 * etaF ≤ 1/10 := by
      have : etaF ≤ 1/2^60 := by
        unfold etaF
        exact one_div_le_one_div_of_le (by positivity) (pow_le_pow_right₀ (by norm_num) (by norm_num))
      calc (2:ℝ)^20 * etaF ≤ 2^20 * (1/2^60) := by gcongr
        _ ≤ _ := by norm_num
    linarith
  clear hL hB
  generalize (2:ℝ)^1000 = L at *
  have hlim : ∀ k, k ≤ K → (3.01 + 1.01 * (k:ℝ)) * (uF * ∑ n ∈ range k, ‖a n‖ * ‖x n‖) + 7 * k * etaF ≤ L + 1 := by
    intro k hk
    have h1 := hKu k hk
    have h2 := hS1 k hk
    have h3 : (k : ℝ) ≤ K := by exact_mod_cast hk
    have h4 : 7 * (k:ℝ) * etaF ≤ 7 * K * etaF := by gcongr
    have h5 : (3.01 + 1.01 * (k:ℝ)) * uF ≤ 1 := by linarith
    have h6 := mul_le_mul_of_nonneg_right h5 (hS0 k)
    rw [mul_assoc] at h6
    linarith
  refine Ok.mono (forUp_inv (P := fun k (r : ℝ × ℝ) =>
    |r.1 - (∑ n ∈ range k, a n * x n).re| ≤ (3.01 + 1.01 * k) * (uF * ∑ n ∈ range k, ‖a n‖ * ‖x n‖) + 7 * k * etaF ∧
    |r.2 - (∑ n ∈ range k, a n * x n).im| ≤ (3.01 + 1.01 * k) * (uF * ∑ n ∈ range k, ‖a n‖ * ‖x n‖) + 7 * k * etaF)
    (Nat.zero_le K) ?_ ?_) ?_
  · simp
  · rintro k ⟨sr, si⟩ _ hk ⟨h1, h2⟩
    simp only at h1 h2
    rcases hb k (sr, si) hk with hbk | ⟨ha, hbk⟩
    swap
    · rw [hbk]
      refine Ok.pure ?_
      rw [sum_range_succ, sum_range_succ, ha, zero_mul, norm_zero, zero_mul, add_zero, add_zero]
      have p1 : 0 ≤ uF * ∑ n ∈ range k, ‖a n‖ * ‖x n‖ := mul_nonneg hu (hS0 k)
      have p2 : (3.01 + 1.01 * (k:ℝ)) * (uF * ∑ n ∈ range k, ‖a n‖ * ‖x n‖) + 7 * k * etaF ≤
          (3.01 + 1.01 * ((k + 1 : ℕ):ℝ)) * (uF * ∑ n ∈ range k, ‖a n‖ * ‖x n‖) + 7 * (k + 1 : ℕ) * etaF := by
        push_cast
        linarith
      exact ⟨h1.trans p2, h2.trans p2⟩
    rw [hbk]
    have hn : ‖∑ n ∈ range k, a n * x n‖ ≤ ∑ n ∈ range k, ‖a n‖ * ‖x n‖ :=
      (norm_sum_le _ _).trans (sum_le_sum fun n _ => (norm_mul _ _).le)
    have hre := (Complex.abs_re_le_norm (∑ n ∈ range k, a n * x n)).trans hn
    have him := (Complex.abs_im_le_norm (∑ n ∈ range k, a n * x n)).trans hn
    have c1 := cs_re (a k) (x k)
    have c2 := cs_im (a k) (x k)
    have hT := hS1 (k+1) hk
    rw [sum_range_succ] at hT
    have hk0 := hS0 k
    have ht0 : 0 ≤ ‖a k‖ * ‖x k‖ := by positivity
    have lim : ‖a k‖ * ‖x k‖ ≤ 2^1010 := hL2 _ (by linarith)
    have lim2 := hL2 _ (show (∑ n ∈ range k, ‖a n‖ * ‖x n‖) +
      ((3.01 + 1.01 * (k:ℝ)) * (uF * ∑ n ∈ range k, ‖a n‖ * ‖x n‖) + 7 * k * etaF) ≤ 1024 * L by
        have := hlim k hk.le
        linarith)
    refine Ok.bind (accF_ok c1 h1 hre lim lim2) fun r1 hr1 => ?_
    refine Ok.bind (accF_ok c2 h2 him lim lim2) fun r2 hr2 => Ok.pure ?_
    have ar := dot_arith hu hη hk0 ht0 (Nat.cast_nonneg k) (hKu k hk.le) hu2 (le_refl _)
    rw [sum_range_succ, sum_range_succ, Complex.add_re, Complex.add_im, Complex.mul_re, Complex.mul_im]
    push_cast
    refine ⟨hr1.trans ar, ?_⟩
    have e : (a k).re * (x k).im + (a k).im * (x k).re = (a k).re * (x k).im - -(a k).im * (x k).re := by ring
    rw [e]
    exact hr2.trans ar
  · rintro ⟨r1, r2⟩ ⟨h1, h2⟩
    have h3 := norm_le_two (z := (⟨r1, r2⟩ : ℂ) - ∑ n ∈ range K, a n * x n) h1 h2
    refine h3.trans ?_
    have hS := hS0 K
    have e1 : uF = 1/2^53 := uF_eq
    have e2 : (K : ℝ) / 2^1071 = 16 * (K * etaF) := by
      unfold etaF
      rw [show 1075 = 4 + 1071 by norm_num, pow_add]
      field_simp
      norm_num
    rw [e2]
    have p1 : 0 ≤ (K:ℝ) * (uF * ∑ n ∈ range K, ‖a n‖ * ‖x n‖) := by positivity
    have p2 : 0 ≤ uF * ∑ n ∈ range K, ‖a n‖ * ‖x n‖ := by positivity
    have p3 : 0 ≤ (K:ℝ) * etaF := by positivity
    have e3 : (2 * (K:ℝ) + 5) / 2^53 * ∑ n ∈ range K, ‖a n‖ * ‖x n‖ =
      2 * (K * (uF * ∑ n ∈ range K, ‖a n‖ * ‖x n‖)) + 5 * (uF * ∑ n ∈ range K, ‖a n‖ * ‖x n‖) := by rw [e1]; ring
    rw [e3]
    have e4 : 1.4143 * ((3.01 + 1.01 * (K:ℝ)) * (uF * ∑ n ∈ range K, ‖a n‖ * ‖x n‖) + 7 * K * etaF) =
      1.4143 * 3.01 * (uF * ∑ n ∈ range K, ‖a n‖ * ‖x n‖) + 1.4143 * 1.01 * (K * (uF * ∑ n ∈ range K, ‖a n‖ * ‖x n‖)) +
        1.4143 * 7 * (K * etaF) := by ring
    rw [e4]
    linarith

theorem dotF_ok {K : Nat} (hK : K ≤ 2^20) (a x : Nat → ℂ) (hB : ∑ n ∈ range K, ‖a n‖ * ‖x n‖ ≤ 2^1000)
    (body : Nat → ℝ × ℝ → M (ℝ × ℝ))
    (hb : ∀ k c, k < K → body k c = do
      let cr ← accF c.1 (a k).re (x k).re (a k).im (x k).im
      let ci ← accF c.2 (a k).re (x k).im (-(a k).im) (x k).re
      pure (cr, ci)) :
    Ok (forUp 0 K body (0, 0)) fun r => ‖(⟨r.1, r.2⟩ : ℂ) - ∑ n ∈ range K, a n * x n‖ ≤
      (2 * K + 5) / 2^53 * ∑ n ∈ range K, ‖a n‖ * ‖x n‖ + K / 2^1071 :=
  dotF_skip hK a x hB body fun k c hk => Or.inl (hb k c hk)

end EvalRound

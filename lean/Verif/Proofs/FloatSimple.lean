import Verif.Model.FloatSection3
import Verif.Proofs.FloatDot
import Verif.Props.Section3
import Verif.Props.Ieee
import Verif.Props.FloatCode
import Verif.Props.FloatDriver

/-! # `SimplePlaintext` in binary64 -/

namespace EvalRound
open Finset
variable {N : Nat} {L : Libm}

/-- a double minus the nearest integer is computed exactly -/
theorem fl_sub_cround {x : ℝ} (hx : Binary64 x) : fl (x - cround x) = pure (x - cround x) := by
  obtain ⟨m, e, hm, he, he2, hxe⟩ := hx
  have hc := cround_err x
  by_cases h0 : cround x = 0
  · rw [h0, Int.cast_zero, sub_zero]
    exact C74_exact ⟨m, e, hm, he, he2, hxe⟩
  rcases le_or_gt 0 e with hpos | hneg
  · -- an integer
    obtain ⟨k, rfl⟩ := Int.eq_ofNat_of_zero_le hpos
    have hint : x = ((m * 2^k : ℤ) : ℝ) := by rw [hxe]; push_cast; rw [zpow_natCast]
    have : (cround x : ℝ) = x := by
      rw [hint] at hc ⊢
      have h2 : |cround ((m * 2^k : ℤ) : ℝ) - (m * 2^k : ℤ)| < 1 := by
        have : ((|cround ((m * 2^k : ℤ) : ℝ) - (m * 2^k : ℤ)| : ℤ) : ℝ) < 1 := by push_cast at hc ⊢; linarith
        exact_mod_cast this
      have h3 := Int.abs_lt_one_iff.1 h2
      exact_mod_cast sub_eq_zero.1 h3
    rw [this, sub_self]
    exact fl_zero
  · obtain ⟨k, hk⟩ : ∃ k : Nat, e = -(k : ℤ) := ⟨(-e).toNat, by omega⟩
    have hp : (0:ℝ) < 2^k := by positivity
    have hxk : x = m / 2^k := by rw [hxe, hk, zpow_neg, zpow_natCast]; rfl
    have hd : x - cround x = ((m - cround x * 2^k : ℤ) : ℝ) * (2:ℝ)^e := by
      rw [hk, zpow_neg, zpow_natCast]
      push_cast
      rw [hxk]
      field_simp
    have h1 : (1:ℝ) ≤ |(cround x : ℝ)| := by
      have : 1 ≤ |cround x| := Int.one_le_abs h0
      exact_mod_cast this
    have h2 : 1/2 ≤ |x| := by
      have := abs_sub_abs_le_abs_sub (cround x : ℝ) x
      linarith
    have h3 : (2:ℝ)^k ≤ 2^54 := by
      rw [hxk, abs_div, abs_of_pos hp, le_div_iff₀ hp] at h2
      have h4 : |(m:ℝ)| < 2^53 := by exact_mod_cast hm
      have : (2:ℝ)^54 = 2 * 2^53 := by norm_num
      linarith
    have hk54 : k < 54 := by
      by_contra hh
      have h5 : k = 54 := by
        have : k ≤ 54 := (pow_le_pow_iff_right₀ (by norm_num : (1:ℝ) < 2)).1 h3
        omega
      rw [hxk, abs_div, abs_of_pos hp, le_div_iff₀ hp, h5] at h2
      have h4 : |(m:ℝ)| < 2^53 := by exact_mod_cast hm
      have : (2:ℝ)^54 = 2 * 2^53 := by norm_num
      linarith
    refine fl_exact (k := m - cround x * 2^k) (e := e) ?_ he (by omega) hd
    have h6 : |((m - cround x * 2^k : ℤ) : ℝ)| ≤ 2^k / 2 := by
      have h7 : ((m - cround x * 2^k : ℤ) : ℝ) = (x - cround x) * 2^k := by
        push_cast; rw [hxk]; field_simp
      rw [h7, abs_mul, abs_of_pos hp, abs_sub_comm]
      have := mul_le_mul_of_nonneg_right hc hp.le
      linarith
    have h8 : (2:ℝ)^k ≤ 2^53 := pow_le_pow_right₀ (by norm_num) (by omega)
    have h9 : |((m - cround x * 2^k : ℤ) : ℝ)| < 2^53 := by
      have : (0:ℝ) < 2^53 := by positivity
      linarith
    exact_mod_cast h9

theorem fl_sub_neg (x s : ℝ) : (fl x >>= fun p => fl (s - p)) = (fl (-x) >>= fun p => fl (s + p)) := by
  unfold fl
  rw [rnd_neg, abs_neg]
  split
  · rw [pure_bind, pure_bind, sub_eq_add_neg]
  · rfl

/-- an accumulating loop: the error so far -/
def SumInv (t : Nat → ℝ) (k : Nat) (r : ℝ) : Prop :=
  |r - ∑ j ∈ range k, t j| ≤ (3.01 + 1.01 * k) * (uF * ∑ j ∈ range k, |t j|) + 7 * k * etaF

theorem SumInv.zero (t : Nat → ℝ) : SumInv t 0 0 := by unfold SumInv; simp

theorem sum_lim {t : Nat → ℝ} {k : Nat} (hk : k ≤ 2^20) (hB : ∑ j ∈ range k, |t j| ≤ 2^1000) :
    (∑ j ∈ range k, |t j|) + ((3.01 + 1.01 * (k:ℝ)) * (uF * ∑ j ∈ range k, |t j|) + 7 * k * etaF) ≤ 2^1005 := by
  have hu := uF_pos.le
  have hu2 := uF_le
  have hη := etaF_pos.le
  have hη2 := etaF_le
  have hS : 0 ≤ ∑ j ∈ range k, |t j| := sum_nonneg fun _ _ => abs_nonneg _
  have hk' : (k:ℝ) ≤ 2^20 := by exact_mod_cast hk
  have hku : (k:ℝ) * uF ≤ 1 := by
    rw [uF_eq]
    calc (k : ℝ) * _ ≤ 2^20 * _ := mul_le_mul_of_nonneg_right hk' (by positivity)
      _ ≤ _ := by norm_num
  have hkη : (k:ℝ) * etaF ≤ 1 := by
    have : etaF ≤ 1/2^60 := by
      rw [etaF_eq]
      exact one_div_le_one_div_of_le (by positivity) (pow_le_pow_right₀ (by norm_num) (by norm_num))
    calc (k:ℝ) * etaF ≤ 2^20 * (1/2^60) := mul_le_mul hk' this hη (by positivity)
      _ ≤ 1 := by norm_num
  have h1L : (1:ℝ) ≤ 2^1000 := one_le_pow₀ (by norm_num)
  have hL : (2:ℝ)^1005 = 32 * 2^1000 := by rw [show 1005 = 5 + 1000 by norm_num, pow_add]; norm_num
  rw [hL]
  clear hL
  generalize (2:ℝ)^1000 = Q at *
  generalize ∑ j ∈ range k, |t j| = S at *
  have h6 := mul_le_mul_of_nonneg_right hku hS
  have h7 := mul_le_mul_of_nonneg_right hu2 hS
  have e : (3.01 + 1.01 * (k:ℝ)) * (uF * S) = 3.01 * (uF * S) + 1.01 * ((k:ℝ) * uF * S) := by ring
  rw [e]
  linarith

theorem SumInv.step {t : Nat → ℝ} {k : Nat} (hk : k < 2^20) (hB : ∑ j ∈ range (k+1), |t j| ≤ 2^1000) {s : ℝ} (h : SumInv t k s) :
    Ok (fl (t k) >>= fun p => fl (s + p)) (SumInv t (k+1)) := by
  unfold SumInv at *
  have hu := uF_pos.le
  have hu2 := uF_le
  have hη := etaF_pos.le
  have hη2 := etaF_le
  rw [sum_range_succ] at hB
  have hS : 0 ≤ ∑ j ∈ range k, |t j| := sum_nonneg fun _ _ => abs_nonneg _
  have ht := abs_nonneg (t k)
  have hlim := sum_lim hk.le (show ∑ j ∈ range k, |t j| ≤ 2^1000 by linarith)
  have hk' : (k:ℝ) * uF ≤ 1/10^6 := by
    have : (k:ℝ) ≤ 2^20 := by exact_mod_cast hk.le
    rw [uF_eq]
    calc (k : ℝ) * _ ≤ 2^20 * _ := mul_le_mul_of_nonneg_right this (by positivity)
      _ ≤ _ := by norm_num
  have q1 : (2:ℝ)^1000 ≤ 2^1005 := pow_le_pow_right₀ (by norm_num) (by norm_num)
  have q2 : (32:ℝ) * 2^1005 ≤ 2^1020 := by
    calc (32:ℝ) * 2^1005 = 2^5 * 2^1005 := by norm_num
      _ = 2^1010 := by rw [← pow_add]
      _ ≤ _ := pow_le_pow_right₀ (by norm_num) (by norm_num)
  have q3 : (1:ℝ) ≤ 2^1005 := one_le_pow₀ (by norm_num)
  have ar := dot_arith hu hη hS ht (Nat.cast_nonneg k) hk' hu2 h
  generalize (3.01 + 1.01 * (k:ℝ)) * (uF * ∑ j ∈ range k, |t j|) + 7 * k * etaF = E at *
  have hsum : |∑ j ∈ range k, t j| ≤ ∑ j ∈ range k, |t j| := abs_sum_le_sum_abs _ _
  have hE : 0 ≤ E := (abs_nonneg _).trans h
  refine Ok.bind (fl_near (x := t k) ?_) fun p hp => ?_
  · generalize (2:ℝ)^1020 = P at *
    generalize (2:ℝ)^1005 = Q at *
    generalize (2:ℝ)^1000 = R at *
    linarith
  have hpa : |p| ≤ |t k| + (uF * |t k| + etaF) := by
    have := abs_sub_abs_le_abs_sub p (t k)
    linarith
  have hut : uF * |t k| ≤ |t k| := by
    have := mul_le_mul_of_nonneg_right hu2 ht
    linarith
  have hsa : |s| ≤ (∑ j ∈ range k, |t j|) + E := by
    have := abs_sub_abs_le_abs_sub s (∑ j ∈ range k, t j)
    linarith
  refine Ok.mono (fl_near (x := s + p) ?_) fun r hr => ?_
  · have := abs_add_le s p
    generalize (2:ℝ)^1020 = P at *
    generalize (2:ℝ)^1005 = Q at *
    generalize (2:ℝ)^1000 = R at *
    linarith
  · have k1 : |r - ((∑ j ∈ range k, t j) + t k)| ≤ |r - (s + p)| + |s - ∑ j ∈ range k, t j| + |p - t k| := by
      have := abs_add_three (r - (s + p)) (s - ∑ j ∈ range k, t j) (p - t k)
      have e : r - (s + p) + (s - ∑ j ∈ range k, t j) + (p - t k) = r - ((∑ j ∈ range k, t j) + t k) := by ring
      rwa [e] at this
    have k2 := abs_add_le s p
    rw [sum_range_succ, sum_range_succ]
    push_cast
    refine (k1.trans (b := |r - (s + p)| + |s - ∑ j ∈ range k, t j| + |p - t k|) ?_).trans ar
    · have k3 : |s| ≤ (∑ j ∈ range k, |t j|) + |s - ∑ j ∈ range k, t j| := by
        have := abs_sub_abs_le_abs_sub s (∑ j ∈ range k, t j)
        linarith
      have k4 : uF * |s + p| ≤ uF * ((∑ j ∈ range k, |t j|) + |s - ∑ j ∈ range k, t j| + (|t k| + (uF * |t k| + etaF))) :=
        mul_le_mul_of_nonneg_left (by linarith) hu
      have k5 : uF * (uF * |t k|) ≤ 1/10^9 * (uF * |t k|) := mul_le_mul_of_nonneg_right hu2 (by positivity)
      have k6 : uF * etaF ≤ 1/10^9 * etaF := mul_le_mul_of_nonneg_right hu2 hη
      have k7 : 0 ≤ uF * |t k| := by positivity
      have e : uF * ((∑ j ∈ range k, |t j|) + |s - ∑ j ∈ range k, t j| + (|t k| + (uF * |t k| + etaF))) =
        uF * (∑ j ∈ range k, |t j|) + uF * |s - ∑ j ∈ range k, t j| + uF * |t k| + uF * (uF * |t k|) + uF * etaF := by ring
      rw [e] at k4
      have e2 : (1 + uF) * |s - ∑ j ∈ range k, t j| = |s - ∑ j ∈ range k, t j| + uF * |s - ∑ j ∈ range k, t j| := by ring
      rw [e2, mul_assoc 3.001]
      linarith

theorem sumF_loop {t : Nat → ℝ} {lo hi : Nat} (hlh : lo ≤ hi) (hhi : hi ≤ 2^20) (hB : ∑ j ∈ range hi, |t j| ≤ 2^1000)
    {body : Nat → ℝ → M ℝ} (hb : ∀ k s, lo ≤ k → k < hi → body k s = (fl (t k) >>= fun p => fl (s + p))) {s : ℝ} (hs : SumInv t lo s) :
    Ok (forUp lo hi body s) (SumInv t hi) :=
  forUp_inv hlh (SumInv t) hs fun k s h1 h2 h3 => by
    rw [hb k s h1 h2]
    exact SumInv.step (by omega) ((sum_le_sum_of_subset_of_nonneg (range_mono h2) fun _ _ _ => abs_nonneg _).trans hB) h3

/-- the terms of one coefficient of the product -/
theorem convMat_range (a b : Fin N → ℝ) (i : Fin N) {g : ℝ → ℝ} :
    ∑ j ∈ range N, g (if h : j < N then convMat b i ⟨j, h⟩ * a ⟨j, h⟩ else 0) = ∑ j, g (convMat b i j * a j) := by
  rw [← Fin.sum_univ_eq_sum_range (fun j => g (if h : j < N then convMat b i ⟨j, h⟩ * a ⟨j, h⟩ else 0))]
  exact sum_congr rfl fun j _ => by rw [dif_pos j.isLt]

theorem convF_ok (hN : N ≤ 2^20) (a b : Fin N → ℝ) {R : ℝ} (hR : ∀ i, ∑ j, |convMat b i j * a j| ≤ R) (hR2 : R ≤ 2^1000) :
    Ok (SimpleF.conv a b) fun c => ∀ i, |c i - negconv a b i| ≤ (3.01 + 1.01 * N) * (uF * R) + 7 * N * etaF := by
  unfold SimpleF.conv
  refine Ok.mono (tabM_spec (P := fun i x => ∀ hi : i < N, |x - negconv a b ⟨i, hi⟩| ≤ (3.01 + 1.01 * N) * (uF * R) + 7 * N * etaF)
    fun i hi => ?_) fun c hc i => hc i i.isLt
  have hs := convMat_range a b ⟨i, hi⟩ (g := fun x => x)
  have hs2 := convMat_range a b ⟨i, hi⟩ (g := fun x => |x|)
  obtain ⟨t, ht⟩ : ∃ t : Nat → ℝ, t = fun j => if h : j < N then convMat b ⟨i, hi⟩ ⟨j, h⟩ * a ⟨j, h⟩ else 0 := ⟨_, rfl⟩
  have hs' : ∑ j ∈ range N, t j = negconv a b ⟨i, hi⟩ := by rw [ht, negconv_mat]; exact hs
  have hs2' : ∑ j ∈ range N, |t j| ≤ R := by rw [ht]; exact le_of_eq_of_le hs2 (hR _)
  clear hs hs2
  unfold SimpleF.convCoeff
  refine Ok.bind (sumF_loop (t := t) (lo := 0) (hi := i+1) (by omega) (by omega)
    ((sum_le_sum_of_subset_of_nonneg (range_mono (show i + 1 ≤ N by omega)) fun _ _ _ => abs_nonneg _).trans (hs2'.trans hR2))
    (fun k s _ hk => ?_) (SumInv.zero t)) fun s hsi => ?_
  · have hkN : k < N := by omega
    rw [rd_of_lt a hkN, pure_bind, rd_of_lt b (show i - k < N by omega), pure_bind, ht]
    dsimp only
    rw [dif_pos hkN]
    unfold convMat
    rw [dif_pos (show (⟨k, hkN⟩ : Fin N) ≤ ⟨i, hi⟩ from (by show k ≤ i; omega)), mul_comm]
  · refine Ok.mono (sumF_loop (t := t) (lo := i+1) (hi := N) (by omega) hN (hs2'.trans hR2) (fun k s hk1 hkN => ?_) hsi) fun r hr _ => ?_
    · rw [rd_of_lt a hkN, pure_bind, rd_of_lt b (show i + N - k < N by omega), pure_bind, fl_sub_neg, ht]
      dsimp only
      rw [dif_pos hkN]
      unfold convMat
      rw [dif_neg (show ¬ (⟨k, hkN⟩ : Fin N) ≤ ⟨i, hi⟩ from (by show ¬ k ≤ i; omega))]
      have e : (⟨N + i - k, by omega⟩ : Fin N) = ⟨i + N - k, by omega⟩ := Fin.ext (by show N + i - k = i + N - k; omega)
      show (fl (-(a ⟨k, hkN⟩ * b ⟨i + N - k, _⟩)) >>= fun p => fl (s + p)) = (fl (-b ⟨N + i - k, _⟩ * a ⟨k, hkN⟩) >>= fun p => fl (s + p))
      rw [e]
      congr 2
      ring
    · unfold SumInv at hr
      rw [hs'] at hr
      refine hr.trans (add_le_add (mul_le_mul_of_nonneg_left (mul_le_mul_of_nonneg_left hs2' uF_pos.le) (by positivity)) le_rfl)

/-- Cauchy–Schwarz -/
theorem convMat_abs {a b : Fin N → ℝ} {c : ℝ} (hc : 0 ≤ c) (ha : ∀ k, |a k| ≤ c) (i : Fin N) :
    ∑ j, |convMat b i j * a j| ≤ Real.sqrt N * c * Real.sqrt (∑ k, b k ^ 2) := by
  have h1 : (∑ j, |convMat b i j * a j|)^2 ≤ (Real.sqrt N * c * Real.sqrt (∑ k, b k ^ 2))^2 := by
    simp only [abs_mul]
    refine (sum_mul_sq_le_sq_mul_sq _ _ _).trans ?_
    simp only [sq_abs]
    rw [convMat_sq, mul_pow, mul_pow, Real.sq_sqrt (Nat.cast_nonneg N), Real.sq_sqrt (sum_nonneg fun _ _ => sq_nonneg _), mul_comm]
    refine mul_le_mul_of_nonneg_right ?_ (sum_nonneg fun _ _ => sq_nonneg _)
    refine (sum_le_sum (g := fun _ => c^2) fun k _ => ?_).trans (by simp)
    exact sq_le_sq' (abs_le.1 (ha k)).1 (abs_le.1 (ha k)).2
  exact abs_le_of_sq_le_sq' h1 (by positivity) |>.2

theorem negconv_abs {a b : Fin N → ℝ} {c : ℝ} (hc : 0 ≤ c) (ha : ∀ k, |a k| ≤ c) (i : Fin N) :
    |negconv a b i| ≤ Real.sqrt N * c * Real.sqrt (∑ k, b k ^ 2) := by
  rw [negconv_mat]
  exact (abs_sum_le_sum_abs _ _).trans (convMat_abs hc ha i)

theorem square_sumF_ok (hN : N ≤ 2^20) (x : Fin N → ℝ) (hx : ∑ k, x k ^ 2 ≤ 2^1000) :
    Ok (SimpleF.square_sum x) fun r => |r - ∑ k, x k ^ 2| ≤ (3.01 + 1.01 * N) * (uF * ∑ k, x k ^ 2) + 7 * N * etaF := by
  unfold SimpleF.square_sum
  obtain ⟨t, ht⟩ : ∃ t : Nat → ℝ, t = fun j => if h : j < N then x ⟨j, h⟩ * x ⟨j, h⟩ else 0 := ⟨_, rfl⟩
  have h1 : ∑ j ∈ range N, t j = ∑ k, x k ^ 2 := by
    rw [ht, ← Fin.sum_univ_eq_sum_range (fun j => if h : j < N then x ⟨j, h⟩ * x ⟨j, h⟩ else 0)]
    exact sum_congr rfl fun j _ => by rw [dif_pos j.isLt, pow_two]
  have h2 : ∑ j ∈ range N, |t j| = ∑ k, x k ^ 2 := by
    rw [← h1]
    refine sum_congr rfl fun j _ => abs_of_nonneg ?_
    rw [ht]
    dsimp only
    split
    · exact mul_self_nonneg _
    · exact le_rfl
  refine Ok.mono (sumF_loop (t := t) (Nat.zero_le N) hN (by rw [h2]; exact hx) (fun k s _ hk => ?_) (SumInv.zero t)) fun r hr => ?_
  · rw [rd_of_lt x hk, pure_bind, ht]
    dsimp only
    rw [dif_pos hk]
  · unfold SumInv at hr
    rwa [h1, h2] at hr

theorem sqrt_near {r s κ τ : ℝ} (hκ : 0 ≤ κ) (hκ1 : κ ≤ 1) (hs : 0 ≤ s) (hτ : 0 ≤ τ) (h : |r - s| ≤ κ * s + τ) :
    |Real.sqrt r - Real.sqrt s| ≤ κ * Real.sqrt s + Real.sqrt τ := by
  obtain ⟨h1, h2⟩ := abs_le.1 h
  have hs0 := Real.sqrt_nonneg s
  have hτ0 := Real.sqrt_nonneg τ
  have hr0 := Real.sqrt_nonneg r
  have hs2 := Real.sq_sqrt hs
  have hτ2 := Real.sq_sqrt hτ
  have hκs : 0 ≤ κ * s := mul_nonneg hκ hs
  refine abs_le.2 ⟨?_, ?_⟩
  · have k : (Real.sqrt s * (1 - κ))^2 ≤ (Real.sqrt r + Real.sqrt τ)^2 := by
      have a1 : (Real.sqrt s * (1 - κ))^2 = s * (1 - κ) - κ * (1 - κ) * s := by rw [mul_pow, hs2]; ring
      have a2 : 0 ≤ κ * (1 - κ) * s := mul_nonneg (mul_nonneg hκ (by linarith)) hs
      have a3 : (Real.sqrt r + Real.sqrt τ)^2 = Real.sqrt r ^ 2 + 2 * (Real.sqrt r * Real.sqrt τ) + τ := by
        linear_combination hτ2
      have a4 : r ≤ Real.sqrt r ^ 2 := by
        rcases le_total 0 r with h0 | h0
        · rw [Real.sq_sqrt h0]
        · exact h0.trans (sq_nonneg _)
      have a5 := mul_nonneg hr0 hτ0
      rw [a1, a3]
      linarith
    have := abs_le_of_sq_le_sq' k (by positivity) |>.2
    linarith
  · have k : Real.sqrt r ≤ Real.sqrt s * (1 + κ) + Real.sqrt τ := by
      rw [Real.sqrt_le_left (by positivity)]
      have a1 : (Real.sqrt s * (1 + κ) + Real.sqrt τ)^2 =
          s * (1 + κ) + s * κ * (1 + κ) + 2 * (Real.sqrt s * (1 + κ) * Real.sqrt τ) + τ := by
        linear_combination (1 + κ)^2 * hs2 + hτ2
      rw [a1]
      have a2 : 0 ≤ s * κ * (1 + κ) := by positivity
      have a3 : 0 ≤ Real.sqrt s * (1 + κ) * Real.sqrt τ := by positivity
      linarith
    linarith

theorem l2r_sub (x c : Fin N → ℝ) {E : ℝ} (hE0 : 0 ≤ E) (hE : ∀ i, |x i - c i| ≤ E) :
    |Real.sqrt (∑ i, x i ^ 2) - Real.sqrt (∑ i, c i ^ 2)| ≤ Real.sqrt N * E := by
  have h := abs_norm_sub_norm_le (WithLp.toLp 2 x : EuclideanSpace ℝ (Fin N)) (WithLp.toLp 2 c)
  rw [EuclideanSpace.norm_eq, EuclideanSpace.norm_eq, EuclideanSpace.norm_eq] at h
  simp only [PiLp.sub_apply, Real.norm_eq_abs, sq_abs] at h
  refine h.trans ?_
  rw [Real.sqrt_le_left (by positivity), mul_pow, Real.sq_sqrt (Nat.cast_nonneg N)]
  refine (sum_le_sum (g := fun _ => E^2) fun k _ => ?_).trans (by simp)
  exact sq_le_sq' (abs_le.1 (hE k)).1 (abs_le.1 (hE k)).2

theorem l2r_le (c : Fin N → ℝ) {R : ℝ} (hR0 : 0 ≤ R) (hR : ∀ i, |c i| ≤ R) : Real.sqrt (∑ i, c i ^ 2) ≤ Real.sqrt N * R := by
  have h := l2r_sub c (fun _ => 0) hR0 (fun i => by rw [sub_zero]; exact hR i)
  simp only [ne_eq, OfNat.ofNat_ne_zero, not_false_eq_true, zero_pow, sum_const_zero, Real.sqrt_zero, sub_zero] at h
  exact (le_abs_self _).trans h

/-- the tiny terms -/
theorem sqrt_tiny (hN : N ≤ 2^20) : Real.sqrt (7 * N * etaF) ≤ 1/2^520 := by
  rw [Real.sqrt_le_left (by positivity)]
  have hN' : (N:ℝ) ≤ 2^20 := by exact_mod_cast hN
  have h1 : 7 * (N:ℝ) * etaF ≤ 2^35 * etaF := mul_le_mul_of_nonneg_right (by linarith) etaF_pos.le
  refine h1.trans ?_
  rw [etaF_eq, show 1075 = 35 + 1040 by norm_num, pow_add, div_pow, one_pow, ← pow_mul]
  rw [show (2:ℝ)^35 * (1 / (2^35 * 2^1040)) = 1/2^1040 by field_simp]

theorem kappa_le (hN : N ≤ 2^20) : (3.01 + 1.01 * (N:ℝ)) * uF ≤ 1/10^6 := by
  have hN' : (N:ℝ) ≤ 2^20 := by exact_mod_cast hN
  rw [uF_eq]
  calc (3.01 + 1.01 * (N:ℝ)) * _ ≤ (3.01 + 1.01 * 2^20) * _ := mul_le_mul_of_nonneg_right (by linarith) (by positivity)
    _ ≤ _ := by norm_num

/-- the square sum of a vector known up to `E` -/
theorem square_near (hN : N ≤ 2^20) (x c : Fin N → ℝ) {E R : ℝ} (hE0 : 0 ≤ E) (hR0 : 0 ≤ R) (hE : ∀ i, |x i - c i| ≤ E)
    (hR : ∀ i, |c i| ≤ R) (hE2 : E ≤ 2^400) (hR2 : R ≤ 2^400) :
    Ok (SimpleF.square_sum x) fun r => |Real.sqrt r - Real.sqrt (∑ i, c i ^ 2)| ≤
      Real.sqrt N * (1.001 * E + (3.01 + 1.01 * N) * uF * R) + 1/2^520 := by
  have hx : Real.sqrt (∑ i, x i ^ 2) ≤ Real.sqrt N * (R + E) := l2r_le x (by positivity) fun i => by
    have := abs_sub_abs_le_abs_sub (x i) (c i)
    have := hE i
    have := hR i
    linarith
  have hN' : (N:ℝ) ≤ 2^20 := by exact_mod_cast hN
  have hsN : Real.sqrt N ≤ 2^10 := by
    rw [Real.sqrt_le_left (by norm_num)]
    exact hN'.trans (by norm_num)
  have hx2 : ∑ i, x i ^ 2 ≤ 2^1000 := by
    have h0 : 0 ≤ ∑ i, x i ^ 2 := sum_nonneg fun _ _ => sq_nonneg _
    rw [← Real.sq_sqrt h0]
    have : Real.sqrt (∑ i, x i ^ 2) ≤ 2^411 := by
      refine hx.trans ?_
      calc Real.sqrt N * (R + E) ≤ 2^10 * (2^400 + 2^400) := mul_le_mul hsN (add_le_add hR2 hE2) (by positivity) (by norm_num)
        _ = 2^411 := by rw [← two_mul, ← mul_assoc, show (411:ℕ) = 11 + 400 by norm_num, pow_add]; norm_num
    calc Real.sqrt (∑ i, x i ^ 2) ^ 2 ≤ (2^411)^2 := pow_le_pow_left₀ (Real.sqrt_nonneg _) this 2
      _ = 2^822 := by rw [← pow_mul]
      _ ≤ 2^1000 := pow_le_pow_right₀ (by norm_num) (by norm_num)
  refine Ok.mono (square_sumF_ok hN x hx2) fun r hr => ?_
  have hκ := kappa_le hN
  have hκ0 : 0 ≤ (3.01 + 1.01 * (N:ℝ)) * uF := mul_nonneg (by positivity) uF_pos.le
  rw [← mul_assoc] at hr
  have h1 := sqrt_near hκ0 (hκ.trans (by norm_num)) (sum_nonneg fun _ _ => sq_nonneg _)
    (mul_nonneg (by positivity) etaF_pos.le) hr
  have h2 := l2r_sub x c hE0 hE
  have h3 := sqrt_tiny hN
  have h4 := mul_le_mul_of_nonneg_left hx hκ0
  generalize (3.01 + 1.01 * (N:ℝ)) * uF = κ at *
  have h5 := abs_sub_le (Real.sqrt r) (Real.sqrt (∑ i, x i ^ 2)) (Real.sqrt (∑ i, c i ^ 2))
  have h6 : κ * (Real.sqrt N * E) ≤ 1/10^6 * (Real.sqrt N * E) := mul_le_mul_of_nonneg_right hκ (by positivity)
  have h7 : 0 ≤ Real.sqrt N * E := by positivity
  have e1 : κ * (Real.sqrt N * (R + E)) = κ * (Real.sqrt N * R) + κ * (Real.sqrt N * E) := by ring
  have e2 : Real.sqrt N * (1.001 * E + κ * R) = 1.001 * (Real.sqrt N * E) + κ * (Real.sqrt N * R) := by ring
  rw [e1] at h4
  rw [e2]
  linarith

/-- `encode_raw` and `encode` compute the same numbers, the second rounds them -/
theorem simple_encodeF_spec (hL : L.Accurate) {n : Nat} (h1 : 1 ≤ n) (hn : n ≤ 26) (z : CVec (n+1)) {B : ℝ} (hB2 : B ≤ 2^64)
    (hz : ∀ i : Fin (2^n), ‖(⟨z.1 i, z.2 i⟩ : ℂ)‖ ≤ B) :
    ∃ m y : Fin (2^(n+1)) → ℝ, (∀ i : Fin (2^n), slotOf m i = ⟨z.1 i, z.2 i⟩) ∧ (∀ k, Binary64 (y k)) ∧
      SimpleF.encode_raw L z (BitVec.ofNat 64 (2^50)) = pure y ∧
      SimpleF.encode L z (BitVec.ofNat 64 (2^50)) = pure (fun k => (cround (y k) : ℝ)) ∧
      Real.sqrt (∑ k, (y k - m k * 2^50)^2) ≤ (28 * n + 5) * uF * (B * 2^50) + 2^100 * etaF := by
  have hu := uF_pos.le
  have hu2 := uF_le
  have hη := etaF_pos.le
  have hB0 : 0 ≤ B := (norm_nonneg _).trans (hz ⟨0, Nat.two_pow_pos n⟩)
  have hn' : (n:ℝ) ≤ 26 := by exact_mod_cast hn
  have hn0 : (0:ℝ) ≤ n := Nat.cast_nonneg _
  have hz2 : l2 (toC (n := 2^n) z.1 z.2) ≤ 2^950 := by
    refine (l2_le fun i => hz i).trans ?_
    have h1 : ((2^n : ℕ) : ℝ) ≤ 2^26 := by exact_mod_cast Nat.pow_le_pow_right (by norm_num) hn
    calc ((2^n : ℕ) : ℝ) * B ≤ 2^26 * 2^64 := mul_le_mul h1 hB2 hB0 (by norm_num)
      _ = 2^90 := by norm_num
      _ ≤ 2^950 := pow_le_pow_right₀ (by norm_num) (by norm_num)
  obtain ⟨m, -, hm, -⟩ := ifft_slot (LOGN := n+1) (by omega) (by omega) z (fun _ => 0)
  have hmB : l2 (pairC n m) ≤ B := by
    rw [l2_pairC]
    exact coeff_norm fun i => by rw [show slotOf m i = _ from hm i]; exact hz i
  obtain ⟨m', em, hm'⟩ := ifftF_spec hL h1 hn z (fun _ => 0) m hm hz2
  have hE : l2 (pairC n m' - pairC n m) ≤ (28 * n + 3) * uF * B + 2^40 * etaF :=
    hm'.trans (add_le_add (mul_le_mul_of_nonneg_left hmB (by positivity)) le_rfl)
  have hm'l := l2_add_le (pairC n m' - pairC n m) (pairC n m)
  rw [sub_add_cancel] at hm'l
  have huB : 0 ≤ uF * B := mul_nonneg hu hB0
  have hnuB : n * (uF * B) ≤ 26 * (uF * B) := mul_le_mul_of_nonneg_right hn' huB
  have hm'B : l2 (pairC n m') ≤ B + 731 * (uF * B) + 2^40 * etaF := by linarith
  have hδ : (((BitVec.ofNat 64 (2^50)).toNat : ℕ) : ℝ) = 2^50 := by
    rw [BitVec.toNat_ofNat, Nat.mod_eq_of_lt (by norm_num)]; norm_num
  have hd : fl (((BitVec.ofNat 64 (2^50)).toNat : ℕ) : ℝ) = pure ((2:ℝ)^50) := by
    rw [hδ]
    exact C74_exact ⟨1, 50, by norm_num, by norm_num, by norm_num, by norm_num⟩
  have hfl : ∀ k, Ok (fl (m' k * 2^50)) fun y => Binary64 y ∧ |y - m' k * 2^50| ≤ uF * |2^50 * m' k| + etaF := by
    intro k
    have hk : |m' k * 2^50| ≤ 2^1020 := by
      rw [abs_mul, abs_of_pos (show (0:ℝ) < 2^50 by norm_num)]
      have h2 := (abs_le_pair m' k).trans hm'B
      have h3 : uF * B ≤ 1/10^9 * B := mul_le_mul_of_nonneg_right hu2 hB0
      have h4 := etaF_le
      have h5 : |m' k| ≤ 2^70 := by
        have : (2:ℝ)^40 * etaF ≤ 2^60 := by
          calc (2:ℝ)^40 * etaF ≤ 2^40 * 1 := mul_le_mul_of_nonneg_left (by linarith [etaF_le_uF]) (by norm_num)
            _ ≤ _ := by norm_num
        linarith
      calc |m' k| * 2^50 ≤ 2^70 * 2^50 := mul_le_mul_of_nonneg_right h5 (by norm_num)
        _ = 2^120 := by norm_num
        _ ≤ 2^1020 := pow_le_pow_right₀ (by norm_num) (by norm_num)
    obtain ⟨y, ey, hy⟩ := fl_near hk
    exact ⟨y, ey, C74_representable ey, by rw [mul_comm (2^50 : ℝ)]; exact hy⟩
  choose y ey hyb hyn using hfl
  refine ⟨m, y, hm, hyb, ?_, ?_, ?_⟩
  · unfold SimpleF.encode_raw
    rw [em, pure_bind, hd, pure_bind]
    exact tabM_eq fun i => by rw [rd_fin, pure_bind, ey]
  · unfold SimpleF.encode
    rw [em, pure_bind, hd, pure_bind]
    exact tabM_eq fun i => by rw [rd_fin, pure_bind, ey, pure_bind]
  · rw [← l2_pairC]
    have e : (fun k => y k - m k * 2^50) = fun k => (y k - m' k * 2^50) + 2^50 * (m' k - m k) := by funext k; ring
    rw [e]
    refine (pair_add _ _).trans ?_
    rw [pair_smul (by norm_num)]
    have hs2 : Real.sqrt 2 ^ (n+1) ≤ 2^14 := by
      have h := (sqrt2_pow hn).2
      have h2 : Real.sqrt 2 ≤ 2 := sqrt2_le.trans (by norm_num)
      rw [pow_succ]
      exact (mul_le_mul h h2 (Real.sqrt_nonneg 2) (by norm_num)).trans (by norm_num)
    have hb := pair_scale (a := fun k => y k - m' k * 2^50) (b := fun k => 2^50 * m' k) (c := uF) (e := etaF) hu hη hyn
    rw [pair_smul (by norm_num)] at hb
    have hb2 : Real.sqrt 2 ^ (n+1) * etaF ≤ 2^14 * etaF := mul_le_mul_of_nonneg_right hs2 hη
    have hb3 : uF * (2^50 * l2 (pairC n m')) ≤ uF * (2^50 * (B + 731 * (uF * B) + 2^40 * etaF)) :=
      mul_le_mul_of_nonneg_left (mul_le_mul_of_nonneg_left hm'B (by norm_num)) hu
    have hb4 : 2^50 * l2 (pairC n fun k => m' k - m k) ≤ 2^50 * ((28 * n + 3) * uF * B + 2^40 * etaF) :=
      mul_le_mul_of_nonneg_left hE (by norm_num)
    have hb5 : uF * etaF ≤ 1/10^9 * etaF := mul_le_mul_of_nonneg_right hu2 hη
    have hb6 : uF * (uF * B) ≤ 1/10^9 * (uF * B) := mul_le_mul_of_nonneg_right hu2 huB
    have hb7 : uF * (2^50 * (B + 731 * (uF * B) + 2^40 * etaF)) = 2^50 * (uF * B + 731 * (uF * (uF * B)) + 2^40 * (uF * etaF)) := by ring
    rw [hb7] at hb3
    linarith

/-- one random message: its rounding errors and their product with a plaintext -/
theorem conv_stepF (hL : L.Accurate) {n : Nat} (h1 : 1 ≤ n) (hn : n ≤ 19) (z : CVec (n+1))
    (hz : ∀ i : Fin (2^n), ‖(⟨z.1 i, z.2 i⟩ : ℂ)‖ ≤ 3/2) (pt : Fin (2^(n+1)) → ℝ) (hp : Real.sqrt (∑ k, pt k ^ 2) ≤ 2^300) :
    ∃ m y c : Fin (2^(n+1)) → ℝ, (∀ i : Fin (2^n), slotOf m i = ⟨z.1 i, z.2 i⟩) ∧
      Real.sqrt (∑ k, (y k - 2^50 * m k)^2) ≤ (42 * n + 8) / 8 ∧
      SimpleF.encode_raw L z (BitVec.ofNat 64 (2^50)) = pure y ∧
      SimpleF.encode L z (BitVec.ofNat 64 (2^50)) = pure (fun k => (cround (y k) : ℝ)) ∧
      SimpleF.sub y (fun k => (cround (y k) : ℝ)) = pure (fun k => y k - cround (y k)) ∧
      SimpleF.conv (fun k => y k - cround (y k)) pt = pure c ∧
      ∀ i, |c i - negconv (fun k => y k - cround (y k)) pt i| ≤ (3.01 + 1.01 * ((2^(n+1) : ℕ) : ℝ)) *
        (uF * (Real.sqrt ((2^(n+1) : ℕ) : ℝ) * (1/2) * Real.sqrt (∑ k, pt k ^ 2))) + 7 * ((2^(n+1) : ℕ) : ℝ) * etaF := by
  have hN : 2^(n+1) ≤ 2^20 := Nat.pow_le_pow_right (by norm_num) (by omega)
  obtain ⟨m, y, hm, hy, e1, e2, hE⟩ := simple_encodeF_spec hL h1 (by omega) z (B := 3/2) (by norm_num) hz
  have he : ∀ k, |y k - (cround (y k) : ℝ)| ≤ 1/2 := fun k => by rw [abs_sub_comm]; exact cround_err _
  obtain ⟨c, ec, hc⟩ := convF_ok hN (fun k => y k - (cround (y k) : ℝ)) pt
    (R := Real.sqrt ((2^(n+1) : ℕ) : ℝ) * (1/2) * Real.sqrt (∑ k, pt k ^ 2)) (fun i => convMat_abs (by norm_num) he i) (by
      have h2 : Real.sqrt ((2^(n+1) : ℕ) : ℝ) ≤ 2^10 := by
        rw [Real.sqrt_le_left (by norm_num)]
        have : ((2^(n+1) : ℕ) : ℝ) ≤ 2^20 := by exact_mod_cast hN
        exact this.trans (by norm_num)
      calc Real.sqrt ((2^(n+1) : ℕ) : ℝ) * (1/2) * Real.sqrt (∑ k, pt k ^ 2) ≤ 2^10 * (1/2) * 2^300 :=
            mul_le_mul (mul_le_mul_of_nonneg_right h2 (by norm_num)) hp (Real.sqrt_nonneg _) (by norm_num)
        _ = 2^309 := by rw [show (309:ℕ) = 9 + 300 by norm_num, pow_add]; norm_num
        _ ≤ 2^1000 := pow_le_pow_right₀ (by norm_num) (by norm_num))
  refine ⟨m, y, c, hm, ?_, e1, e2, ?_, ec, hc⟩
  · have e : ∑ k, (y k - 2^50 * m k)^2 = ∑ k, (y k - m k * 2^50)^2 := sum_congr rfl fun k _ => by rw [mul_comm (2^50 : ℝ)]
    rw [e]
    refine hE.trans ?_
    have ht : 2^100 * etaF ≤ 1/2^900 := tiny_le' (mul_le_mul_of_nonneg_right (by norm_num) etaF_pos.le)
    have ht2 : (1:ℝ)/2^900 ≤ 1/2^20 := one_div_le_one_div_of_le (by positivity) (pow_le_pow_right₀ (by norm_num) (by norm_num))
    have ht3 := ht.trans ht2
    clear ht ht2
    have : (28 * (n:ℝ) + 5) * uF * (3/2 * 2^50) = (42 * n + 7.5) / 8 := by rw [uF_eq]; ring
    rw [this]
    linarith
  · unfold SimpleF.sub
    refine tabM_eq fun i => ?_
    rw [rd_fin, pure_bind, rd_fin, pure_bind]
    exact fl_sub_cround (hy i)

/-- the encoded test message -/
theorem test_ptF (hL : L.Accurate) {n : Nat} (h1 : 1 ≤ n) (hn : n ≤ 26) :
    ∃ (z : CVec (n+1)) (m0 y : Fin (2^(n+1)) → ℝ), set_test_messageF L (n+1) = pure z ∧
      (∀ i : Fin (2^n), slotOf m0 i = ⟨(set_test_message (n+1)).1 i, (set_test_message (n+1)).2 i⟩) ∧
      SimpleF.encode L z (BitVec.ofNat 64 (2^50)) = pure (fun k => (cround (y k) : ℝ)) ∧
      Real.sqrt (∑ k, (y k - 2^50 * m0 k)^2) ≤ (28 * n + 18) / 8 ∧ Real.sqrt (∑ k, (cround (y k) : ℝ)^2) ≤ 2^66 := by
  obtain ⟨z, ez, hz⟩ := C79_test_message hL (LOGN := n+1) (by omega)
  obtain ⟨m, y, hm, -, -, e2, hE⟩ := simple_encodeF_spec hL h1 hn z (B := 1) (by norm_num) fun i => (hz i).2
  obtain ⟨m0, -, hm0, -⟩ := ifft_slot (LOGN := n+1) (by omega) (by omega) (set_test_message (n+1)) (fun _ => 0)
  have hd : l2 (pairC n fun k => m k - m0 k) ≤ 12/2^53 := by
    rw [l2_pairC]
    refine coeff_norm fun i => ?_
    have e : slotOf (fun k => m k - m0 k) i = slotOf m i - slotOf m0 i := by
      unfold slotOf
      rw [← sum_sub_distrib]
      refine sum_congr rfl fun k _ => ?_
      push_cast
      ring
    rw [e, hm, show slotOf m0 i = _ from hm0 i]
    exact (hz i).1
  rw [← l2_pairC] at hE
  have ht : 2^100 * etaF ≤ 1/2^900 := tiny_le' (mul_le_mul_of_nonneg_right (by norm_num) etaF_pos.le)
  have ht2 : (1:ℝ)/2^900 ≤ 1/2^20 := one_div_le_one_div_of_le (by positivity) (pow_le_pow_right₀ (by norm_num) (by norm_num))
  have ht3 := ht.trans ht2
  clear ht ht2
  have hn' : (n:ℝ) ≤ 26 := by exact_mod_cast hn
  have k1 : (28 * (n:ℝ) + 5) * uF * (1 * 2^50) = (28 * n + 5) / 8 := by rw [uF_eq]; ring
  rw [k1] at hE
  have k2 : l2 (pairC n fun k => y k - 2^50 * m0 k) ≤ (28 * n + 18) / 8 := by
    have e : (fun k => y k - 2^50 * m0 k) = fun k => (y k - m k * 2^50) + 2^50 * (m k - m0 k) := by funext k; ring
    rw [e]
    refine (pair_add _ _).trans ?_
    rw [pair_smul (by norm_num)]
    have := mul_le_mul_of_nonneg_left hd (show (0:ℝ) ≤ 2^50 by norm_num)
    linarith
  refine ⟨z, m0, y, ez, hm0, e2, by rw [← l2_pairC]; exact k2, ?_⟩
  have hmB : l2 (pairC n m) ≤ 1 := by
    rw [l2_pairC]
    exact coeff_norm fun i => by rw [hm]; exact (hz i).2
  have hy : ∀ k, |(cround (y k) : ℝ)| ≤ 2^52 := by
    intro k
    have a1 := cround_err (y k)
    have a2 : |y k - m k * 2^50| ≤ _ := abs_le_pair (fun k => y k - m k * 2^50) k
    have a3 := (abs_le_pair m k).trans hmB
    have a4 : |m k * 2^50| ≤ 2^50 := by
      rw [abs_mul, abs_of_pos (show (0:ℝ) < 2^50 by norm_num)]
      linarith
    have a5 := abs_add_three ((cround (y k) : ℝ) - y k) (y k - m k * 2^50) (m k * 2^50)
    rw [show (cround (y k) : ℝ) - y k + (y k - m k * 2^50) + m k * 2^50 = cround (y k) by ring] at a5
    have a6 := a5.trans (add_le_add (add_le_add a1 (a2.trans hE)) a4)
    refine a6.trans ?_
    linarith
  refine (l2r_le _ (by norm_num) hy).trans ?_
  have h2 : Real.sqrt ((2^(n+1) : ℕ) : ℝ) ≤ 2^14 := by
    rw [Real.sqrt_le_left (by norm_num)]
    have : ((2^(n+1) : ℕ) : ℝ) ≤ 2^27 := by exact_mod_cast Nat.pow_le_pow_right (by norm_num) (by omega)
    exact this.trans (by norm_num)
  calc Real.sqrt ((2^(n+1) : ℕ) : ℝ) * 2^52 ≤ 2^14 * 2^52 := mul_le_mul_of_nonneg_right h2 (by norm_num)
    _ = 2^66 := by norm_num

theorem expected_arith {q s A S u η N t : ℝ} (hu : 0 ≤ u) (hη : 0 ≤ η) (hS : 0 ≤ S) (hA : 0 ≤ A) (hN0 : 0 ≤ N) (hN : N * u ≤ 1/10^6)
    (hu2 : u ≤ 1/10^9) (hη2 : η ≤ 1/10^9) (hAt : A ≤ t) (hNt : N ≤ t) (ht : 1 ≤ t)
    (hq : |q - A| ≤ u * A + η) (hs : |s - S| ≤ (3.01 + 1.01 * N) * (u * S) + 7 * N * η) :
    |q * s - A * S| ≤ (4.02 + 1.02 * N) * u * (A * S) + (2 * η * S + 15 * (t * t) * η) := by
  have e : q * s - A * S = (q - A) * (s - S) + A * (s - S) + (q - A) * S := by ring
  rw [e]
  refine (abs_add_three _ _ _).trans ?_
  rw [abs_mul, abs_mul, abs_mul, abs_of_nonneg hA, abs_of_nonneg hS]
  have k1 : |q - A| ≤ 1/10^9 * A + η := by
    have := mul_le_mul_of_nonneg_right hu2 hA
    linarith
  have k2 : |q - A| * |s - S| ≤ (1/10^9 * A + η) * ((3.01 + 1.01 * N) * (u * S) + 7 * N * η) :=
    mul_le_mul k1 hs (abs_nonneg _) (by positivity)
  have k3 := mul_le_mul_of_nonneg_left hs hA
  have k4 := mul_le_mul_of_nonneg_right hq hS
  have p1 : 0 ≤ A * (u * S) := by positivity
  have p2 : 0 ≤ N * (A * (u * S)) := by positivity
  have p3 : A * N * η ≤ t * t * η := mul_le_mul_of_nonneg_right (mul_le_mul hAt hNt hN0 (by linarith)) hη
  have p4 : (3.01 + 1.01 * N) * u ≤ 1 := by linarith
  have p5 : (3.01 + 1.01 * N) * u * (η * S) ≤ 1 * (η * S) := mul_le_mul_of_nonneg_right p4 (by positivity)
  have p6 : N * η * η ≤ t * t * η * (1/10^9) := by
    have a : N * η ≤ t * t * η := mul_le_mul_of_nonneg_right (by nlinarith) hη
    exact mul_le_mul a hη2 hη (by positivity)
  have p7 : 0 ≤ t * t * η := by positivity
  have e2 : (1/10^9 * A + η) * ((3.01 + 1.01 * N) * (u * S) + 7 * N * η) =
    1/10^9 * (3.01 * (A * (u * S)) + 1.01 * (N * (A * (u * S)))) + 7/10^9 * (A * N * η) + (3.01 + 1.01 * N) * u * (η * S) + 7 * (N * η * η) := by
    ring
  have e3 : A * ((3.01 + 1.01 * N) * (u * S) + 7 * N * η) = 3.01 * (A * (u * S)) + 1.01 * (N * (A * (u * S))) + 7 * (A * N * η) := by ring
  have e4 : (u * A + η) * S = A * (u * S) + η * S := by ring
  have e5 : (4.02 + 1.02 * N) * u * (A * S) = 4.02 * (A * (u * S)) + 1.02 * (N * (A * (u * S))) := by ring
  rw [e2] at k2; rw [e3] at k3; rw [e4] at k4; rw [e5]
  linarith

/-- `expected` -/
theorem expectedF_ok (hN : N ≤ 2^20) {T : Nat} (hT : T < 2^31) (pt : Fin N → ℝ) (hp : Real.sqrt (∑ k, pt k ^ 2) ≤ 2^66) :
    ∃ q s x, fl ((T : ℝ) / 12) = pure q ∧ SimpleF.square_sum pt = pure s ∧ fl (q * s) = pure x ∧
      |x - T / 12 * ∑ k, pt k ^ 2| ≤ (1.1 * N + 6) / 2^53 * (T / 12 * ∑ k, pt k ^ 2) + 1/2^900 := by
  have hS0 : 0 ≤ ∑ k, pt k ^ 2 := sum_nonneg fun _ _ => sq_nonneg _
  have hS : ∑ k, pt k ^ 2 ≤ 2^132 := by
    rw [← Real.sq_sqrt hS0]
    calc Real.sqrt (∑ k, pt k ^ 2) ^ 2 ≤ (2^66)^2 := pow_le_pow_left₀ (Real.sqrt_nonneg _) hp 2
      _ = 2^132 := by norm_num
  have hT' : (T:ℝ) ≤ 2^31 := by exact_mod_cast hT.le
  have hT0 : (0:ℝ) ≤ T := Nat.cast_nonneg T
  have hN' : (N:ℝ) ≤ 2^20 := by exact_mod_cast hN
  have hN0 : (0:ℝ) ≤ N := Nat.cast_nonneg N
  have hNu : (N:ℝ) * uF ≤ 1/10^6 := by
    rw [uF_eq]
    calc (N : ℝ) * _ ≤ 2^20 * _ := mul_le_mul_of_nonneg_right hN' (by positivity)
      _ ≤ _ := by norm_num
  have hu := uF_pos.le
  have hu2 := uF_le
  have hη := etaF_pos.le
  have hη2 : etaF ≤ 1/10^9 := by linarith [etaF_le_uF]
  have big : (2:ℝ)^200 ≤ 2^1020 := pow_le_pow_right₀ (by norm_num) (by norm_num)
  obtain ⟨q, eq, hq⟩ := fl_near (x := (T:ℝ) / 12) (by
    rw [abs_of_nonneg (by positivity)]
    refine le_trans ?_ big
    linarith)
  obtain ⟨s, es, hs⟩ := square_sumF_ok hN pt (hS.trans (pow_le_pow_right₀ (by norm_num) (by norm_num)))
  obtain ⟨A, hA⟩ : ∃ A : ℝ, (T:ℝ) / 12 = A := ⟨_, rfl⟩
  have hA0 : 0 ≤ A := by rw [← hA]; positivity
  have hA2 : A ≤ 2^28 := by rw [← hA]; linarith
  rw [hA, abs_of_nonneg hA0] at hq
  rw [hA] at eq ⊢
  have k := expected_arith (t := 2^28) hu hη hS0 hA0 hN0 hNu hu2 hη2 hA2 (hN'.trans (by norm_num)) (by norm_num) hq hs
  generalize ∑ k, pt k ^ 2 = S at *
  have hAS : 0 ≤ A * S := mul_nonneg hA0 hS0
  have hAS2 : A * S ≤ 2^160 := by
    calc A * S ≤ 2^28 * 2^132 := mul_le_mul hA2 hS hS0 (by norm_num)
      _ = 2^160 := by norm_num
  have c1 : etaF * S ≤ etaF * 2^132 := mul_le_mul_of_nonneg_left hS hη
  have c2 : (4.02 + 1.02 * (N:ℝ)) * uF ≤ 1/10^5 := by linarith
  have c3 := mul_le_mul_of_nonneg_right c2 hAS
  have c4 : 2 * etaF * S + 15 * (2^28 * 2^28) * etaF ≤ 2^134 * etaF := by linarith
  have c5 : 2^134 * etaF ≤ 2^134 := by linarith
  have hqs : |q * s| ≤ A * S + |q * s - A * S| := by
    have := abs_sub_abs_le_abs_sub (q * s) (A * S)
    rw [abs_of_nonneg hAS] at this
    linarith
  obtain ⟨x, ex, hx⟩ := fl_near (x := q * s) (by
    refine le_trans ?_ big
    linarith)
  refine ⟨q, s, x, eq, es, ex, ?_⟩
  have htiny : 2^170 * etaF ≤ 1/2^900 := tiny_le' le_rfl
  have k2 := abs_sub_le x (q * s) (A * S)
  have k3 : uF * |q * s| ≤ uF * (1.001 * (A * S) + 2^134 * etaF) := mul_le_mul_of_nonneg_left (by linarith) hu
  have k4 : uF * etaF ≤ 1 * etaF := mul_le_mul_of_nonneg_right (by linarith) hη
  have k5 : 0 ≤ uF * (A * S) := by positivity
  have k6 : 0 ≤ (N:ℝ) * (uF * (A * S)) := by positivity
  have e1 : (1.1 * (N:ℝ) + 6) / 2^53 * (A * S) = 1.1 * (N * (uF * (A * S))) + 6 * (uF * (A * S)) := by rw [uF_eq]; ring
  have e2 : (4.02 + 1.02 * (N:ℝ)) * uF * (A * S) = 4.02 * (uF * (A * S)) + 1.02 * (N * (uF * (A * S))) := by ring
  have e3 : uF * (1.001 * (A * S) + 2^134 * etaF) = 1.001 * (uF * (A * S)) + 2^134 * (uF * etaF) := by ring
  rw [e1]
  rw [e2] at k
  rw [e3] at k3
  have f1 : |x - A * S| ≤ 1.1 * (N * (uF * (A * S))) + 6 * (uF * (A * S)) + 2^170 * etaF := by linarith
  exact f1.trans (add_le_add le_rfl htiny)

end EvalRound

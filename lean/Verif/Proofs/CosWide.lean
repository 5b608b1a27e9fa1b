import Verif.Proofs.CosApprox
import Mathlib.Analysis.SpecialFunctions.Arcosh

/-! # The constants of `EvalMod` a little outside `[-1,1]` -/

namespace EvalRound
open Finset

theorem cosh_log_pow (k : Nat) : Real.cosh (k * Real.log (29/25)) = ((29/25:ℝ)^k + (25/29:ℝ)^k) / 2 := by
  rw [Real.cosh_eq, ← Real.log_pow, Real.exp_neg, Real.exp_log (by positivity), ← inv_pow]
  norm_num

/-- Chebyshev polynomials on `|x| ≤ 733/725 = (29/25 + 25/29)/2` -/
theorem rT_wide (k : Nat) {x : ℝ} (hx : |x| ≤ 733/725) : |rT k x| ≤ ((29/25:ℝ)^k + (25/29:ℝ)^k) / 2 := by
  have key : ∀ y : ℝ, 0 ≤ y → y ≤ 733/725 → |rT k y| ≤ ((29/25:ℝ)^k + (25/29:ℝ)^k) / 2 := by
    intro y h0 hy
    rw [← cosh_log_pow]
    rcases le_or_gt y 1 with h1 | h1
    · refine le_trans ?_ (Real.one_le_cosh _)
      exact Polynomial.Chebyshev.abs_eval_T_real_le_one (k : ℤ) (by rw [abs_of_nonneg h0]; exact h1)
    · obtain ⟨t, rfl⟩ : ∃ t, y = Real.cosh t := ⟨Real.arcosh y, (Real.cosh_arcosh h1.le).symm⟩
      have e : rT k (Real.cosh t) = Real.cosh (k * t) := by
        unfold rT
        rw [Polynomial.Chebyshev.T_real_cosh]
        norm_cast
      have hl : 0 ≤ Real.log (29/25) := Real.log_nonneg (by norm_num)
      rw [e, abs_of_pos (Real.cosh_pos _), Real.cosh_le_cosh]
      have ht : |t| ≤ |Real.log (29/25)| := by
        rw [← Real.cosh_le_cosh]
        have := cosh_log_pow 1
        rw [Nat.cast_one, one_mul] at this
        rw [this]
        norm_num
        exact hy
      rw [abs_mul, abs_mul]
      exact mul_le_mul_of_nonneg_left ht (abs_nonneg _)
  rcases le_total 0 x with h | h
  · rw [abs_of_nonneg h] at hx
    exact key x h hx
  · rw [abs_of_nonpos h] at hx
    have h1 := key (-x) (by linarith) hx
    have e : |rT k (-x)| = |rT k x| := by
      unfold rT
      rw [Polynomial.Chebyshev.T_eval_neg, abs_mul]
      rcases Int.units_eq_one_or ((k : ℤ).negOnePow) with h | h <;> rw [h] <;> simp
    rwa [e] at h1

theorem rT_wide' (k : Nat) {x : ℝ} (hx : |x| ≤ 733/725) : |rT k x| ≤ (29/25:ℝ)^k := by
  refine (rT_wide k hx).trans ?_
  have : (25/29:ℝ)^k ≤ (29/25)^k := pow_le_pow_left₀ (by norm_num) (by norm_num) k
  linarith

/-- the sum of the coefficients with weights -/
def sumAbsW : List ℚ → Nat → ℚ
  | [], _ => 0
  | c :: l, k => |c| * (29/25)^k + sumAbsW l (k+1)

theorem csum_wide {x : ℝ} (hx : |x| ≤ 733/725) : ∀ (l : List ℚ) (k : Nat), |csum x l k| ≤ sumAbsW l k
  | [], k => by simp [csum, sumAbsW]
  | c :: l, k => by
    simp only [csum, sumAbsW]
    have h1 := csum_wide hx l (k+1)
    have h2 := rT_wide' k hx
    refine (abs_add_le _ _).trans ?_
    rw [abs_mul]
    push_cast
    have := mul_le_mul_of_nonneg_left h2 (abs_nonneg (c : ℝ))
    linarith

theorem tree_hor_wide : sumAbsW (addL (treeL evalModQ 5 0) (smulL (-1) (horL 0 27))) 0 ≤ 1975 / 10^15 := by
  decide +kernel

theorem hor_cos_wide {x : ℝ} (hx : |x| ≤ 733/725) : |csum x (horL 0 27) 0 - Real.cos (3 * Real.pi * x)| ≤ 5 / 10^18 := by
  have hq : (piQ : ℝ) ≤ 3.15 := by unfold piQ; push_cast; norm_num
  have hq0 : (0:ℝ) ≤ piQ := by unfold piQ; push_cast; norm_num
  have h1 := horL_spec x 27 0
  have e0 : cosTerm (3 * piQ * x) 0 = 1 := by simp [cosTerm]
  rw [e0, one_mul] at h1
  simp only [zero_add] at h1
  have hz : |3 * (piQ:ℝ) * x| ≤ 9.56 := by
    rw [abs_mul, abs_of_nonneg (by positivity)]
    have := mul_le_mul_of_nonneg_left hx (show (0:ℝ) ≤ 3 * piQ by positivity)
    linarith
  have h2 := cos_taylor (3 * piQ * x) 27 (by
    rw [div_le_iff₀ (by norm_num)]; push_cast; linarith)
  rw [← h1] at h2
  have h3 : |3 * (piQ:ℝ) * x|^(2*27) / (2*27).factorial * 2 ≤ 4 / 10^18 := by
    have a := pow_le_pow_left₀ (abs_nonneg _) hz (2*27)
    have b : (0:ℝ) < ((2*27).factorial : ℝ) := by positivity
    have c : (9.56:ℝ)^(2*27) * 10^18 ≤ 2 * (2*27).factorial := by
      have e : Nat.factorial (2*27) = 230843697339241380472092742683027581083278564571807941132288000000000000 := by
        decide +kernel
      rw [e]; norm_num
    have d : (9.56:ℝ)^(2*27) / (2*27).factorial ≤ 2 / 10^18 := by
      rw [div_le_div_iff₀ b (by positivity)]; exact c
    calc _ ≤ (9.56:ℝ)^(2*27) / (2*27).factorial * 2 := by gcongr
      _ ≤ 2 / 10^18 * 2 := by gcongr
      _ = _ := by ring
  have h4 : |Real.cos (3 * piQ * x) - Real.cos (3 * Real.pi * x)| ≤ 4 / 10^20 := by
    refine (Real.abs_cos_sub_cos_le _ _).trans ?_
    rw [show 3 * (piQ:ℝ) * x - 3 * Real.pi * x = -(3 * x * (Real.pi - piQ)) by ring, abs_neg, abs_mul, abs_mul,
      abs_of_pos (show (0:ℝ) < 3 by norm_num)]
    have := mul_le_mul hx piQ_close (abs_nonneg _) (by norm_num)
    linarith
  have e : csum x (horL 0 27) 0 - Real.cos (3 * Real.pi * x) =
      -(Real.cos (3 * piQ * x) - csum x (horL 0 27) 0) + (Real.cos (3 * piQ * x) - Real.cos (3 * Real.pi * x)) := by ring
  rw [e]
  refine (abs_add_le _ _).trans ?_
  rw [abs_neg]
  refine (add_le_add (h2.trans h3) h4).trans ?_
  norm_num

/-- the tree with the constants of `EvalMod` is `cos(3πx)` up to `1.976*10^-12` for `|x| ≤ 733/725` -/
theorem tree_cos_wide' {x : ℝ} (hx : |x| ≤ 733/725) :
    ‖treeVal (arr evalModU) (x : ℂ) 5 0 - (Real.cos (3 * Real.pi * x) : ℝ)‖ ≤ 1976 / 10^15 := by
  rw [arr_evalModU, treeVal_treeL, ← Complex.ofReal_sub, Complex.norm_real, Real.norm_eq_abs]
  have h1 := csum_wide hx (addL (treeL evalModQ 5 0) (smulL (-1) (horL 0 27))) 0
  rw [csum_addL, csum_smulL] at h1
  have h2 : ((sumAbsW (addL (treeL evalModQ 5 0) (smulL (-1) (horL 0 27))) 0 : ℚ) : ℝ) ≤ ((1975 / 10^15 : ℚ) : ℝ) :=
    Rat.cast_le.2 tree_hor_wide
  have h3 := hor_cos_wide hx
  have e : csum x (treeL evalModQ 5 0) 0 - Real.cos (3 * Real.pi * x) =
      (csum x (treeL evalModQ 5 0) 0 + ((-1 : ℚ) : ℝ) * csum x (horL 0 27) 0) +
      (csum x (horL 0 27) 0 - Real.cos (3 * Real.pi * x)) := by push_cast; ring
  rw [e]
  refine (abs_add_le _ _).trans ((add_le_add (h1.trans h2) h3).trans ?_)
  push_cast
  norm_num

/-- the same, rounded up -/
theorem tree_cos_wide {x : ℝ} (hx : |x| ≤ 733/725) :
    ‖treeVal (arr evalModU) (x : ℂ) 5 0 - (Real.cos (3 * Real.pi * x) : ℝ)‖ ≤ 2 / 10^12 :=
  (tree_cos_wide' hx).trans (by norm_num)

end EvalRound

import Mathlib.MeasureTheory.Integral.Pi
import Mathlib.MeasureTheory.Integral.IntervalIntegral.FundThmCalculus
import Mathlib.Analysis.SpecialFunctions.Integrals.Basic
import Mathlib.Analysis.Complex.Basic

/-! # Moments of independent errors, each uniform on [-1/2, 1/2] -/

namespace EvalRound
open MeasureTheory Finset

variable {ι : Type} [Fintype ι]

/-- the cube of all vectors of rounding errors; it has volume 1 -/
def cube (ι : Type) : Set (ι → ℝ) := Set.univ.pi fun _ => Set.Icc (-1/2) (1/2)

theorem cube_compact : IsCompact (cube ι) := isCompact_univ_pi fun _ => isCompact_Icc

theorem cube_volume : volume (cube ι) = 1 := by
  unfold cube
  rw [volume_pi_pi]
  refine prod_eq_one fun i _ => ?_
  rw [Real.volume_Icc]
  norm_num

theorem int_one : ∫ x in Set.Icc (-1/2 : ℝ) (1/2), (1:ℝ) = 1 := by
  rw [integral_Icc_eq_integral_Ioc, ← intervalIntegral.integral_of_le (by norm_num)]
  norm_num

theorem int_id : ∫ x in Set.Icc (-1/2 : ℝ) (1/2), x = 0 := by
  rw [integral_Icc_eq_integral_Ioc, ← intervalIntegral.integral_of_le (by norm_num), integral_id]
  norm_num

theorem int_sq : ∫ x in Set.Icc (-1/2 : ℝ) (1/2), x * x = 1 / 12 := by
  rw [integral_Icc_eq_integral_Ioc, ← intervalIntegral.integral_of_le (by norm_num)]
  simp only [← pow_two]
  rw [integral_pow]
  norm_num

theorem cube_restrict : (volume : Measure (ι → ℝ)).restrict (cube ι) =
    Measure.pi fun _ => (volume : Measure ℝ).restrict (Set.Icc (-1/2) (1/2)) := by
  unfold cube
  rw [volume_pi, Measure.restrict_pi_pi]

/-- second moments -/
theorem cube_moment [DecidableEq ι] (i j : ι) : ∫ e in cube ι, e i * e j = if i = j then 1/12 else 0 := by
  rw [cube_restrict]
  have h : ∀ e : ι → ℝ, e i * e j = ∏ k, ((if k = i then e k else 1) * (if k = j then e k else 1)) := by
    intro e
    rw [prod_mul_distrib, prod_ite_eq' univ i, prod_ite_eq' univ j]
    simp
  simp only [h]
  rw [integral_fintype_prod_eq_prod (fun k (x : ℝ) => (if k = i then x else 1) * (if k = j then x else 1))]
  by_cases hij : i = j
  · subst hij
    rw [if_pos rfl, prod_eq_single i]
    · simp only [if_true]; exact int_sq
    · intro k _ hk
      simp only [if_neg hk, mul_one]; exact int_one
    · intro h; exact absurd (mem_univ _) h
  · rw [if_neg hij]
    refine prod_eq_zero (mem_univ i) ?_
    simp only [if_true, if_neg hij, mul_one]
    exact int_id

theorem cube_integrable {f : (ι → ℝ) → ℝ} (hf : Continuous f) : IntegrableOn f (cube ι) :=
  hf.continuousOn.integrableOn_compact cube_compact

/-- the mean square of a real linear form -/
theorem cube_linear_sq (a : ι → ℝ) : ∫ e in cube ι, (∑ j, a j * e j)^2 = 1/12 * ∑ j, a j ^ 2 := by
  classical
  have h : ∀ e : ι → ℝ, (∑ j, a j * e j)^2 = ∑ j, ∑ k, a j * a k * (e j * e k) := by
    intro e
    rw [pow_two, sum_mul_sum]
    refine sum_congr rfl fun j _ => sum_congr rfl fun k _ => by ring
  simp only [h]
  rw [integral_finsetSum _ fun j _ => cube_integrable (by fun_prop), mul_sum]
  refine sum_congr rfl fun j _ => ?_
  rw [integral_finsetSum _ fun k _ => cube_integrable (by fun_prop)]
  simp only [integral_const_mul, cube_moment, mul_ite, mul_zero]
  rw [sum_ite_eq, if_pos (mem_univ _)]
  ring

/-- the mean square of a complex linear form -/
theorem cube_linear_norm (c : ι → ℂ) : ∫ e in cube ι, ‖∑ j, c j * (e j : ℂ)‖^2 = 1/12 * ∑ j, ‖c j‖ ^ 2 := by
  have h : ∀ e : ι → ℝ, ‖∑ j, c j * (e j : ℂ)‖^2 = (∑ j, (c j).re * e j)^2 + (∑ j, (c j).im * e j)^2 := by
    intro e
    rw [← Complex.normSq_eq_norm_sq, Complex.normSq_apply, Complex.re_sum, Complex.im_sum]
    simp [pow_two]
  simp only [h]
  rw [integral_add (cube_integrable (by fun_prop)) (cube_integrable (by fun_prop)), cube_linear_sq, cube_linear_sq, ← mul_add,
    ← sum_add_distrib]
  congr 1
  refine sum_congr rfl fun j _ => ?_
  rw [← Complex.normSq_eq_norm_sq, Complex.normSq_apply]
  ring

end EvalRound

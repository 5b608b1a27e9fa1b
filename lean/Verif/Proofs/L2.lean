import Verif.Proofs.Matrix
import Mathlib.Analysis.InnerProductSpace.PiL2

/-! # The norm of a complex vector -/

namespace EvalRound
open Finset SparseDiagonal

section
variable {H : Nat}

/-- the norm of a complex vector -/
noncomputable def l2 (x : Fin H → ℂ) : ℝ := Real.sqrt (∑ i, ‖x i‖^2)

theorem l2_eq (x : Fin H → ℂ) : l2 x = ‖(WithLp.toLp 2 x : EuclideanSpace ℂ (Fin H))‖ := by
  rw [EuclideanSpace.norm_eq]
  rfl

theorem l2_nonneg (x : Fin H → ℂ) : 0 ≤ l2 x := Real.sqrt_nonneg _

theorem l2_sq (x : Fin H → ℂ) : l2 x ^ 2 = ∑ i, ‖x i‖^2 := Real.sq_sqrt (sum_nonneg fun _ _ => sq_nonneg _)

theorem l2_zero : l2 (0 : Fin H → ℂ) = 0 := by
  unfold l2
  simp

theorem l2_add_le (x y : Fin H → ℂ) : l2 (x + y) ≤ l2 x + l2 y := by
  rw [l2_eq, l2_eq, l2_eq, WithLp.toLp_add]
  exact norm_add_le _ _

theorem l2_sum_le {ι : Type*} (s : Finset ι) (f : ι → Fin H → ℂ) : l2 (∑ t ∈ s, f t) ≤ ∑ t ∈ s, l2 (f t) := by
  classical
  induction s using Finset.induction_on with
  | empty => simp [l2_zero]
  | insert a s ha ih =>
    rw [sum_insert ha, sum_insert ha]
    exact (l2_add_le _ _).trans (add_le_add le_rfl ih)

theorem le_l2 (x : Fin H → ℂ) (i : Fin H) : ‖x i‖ ≤ l2 x :=
  Real.le_sqrt_of_sq_le (single_le_sum (f := fun i => ‖x i‖^2) (fun _ _ => sq_nonneg _) (mem_univ i))

theorem l2_le {x : Fin H → ℂ} {B : ℝ} (hB : ∀ i, ‖x i‖ ≤ B) : l2 x ≤ H * B := by
  rcases Nat.eq_zero_or_pos H with h | h
  · subst h
    unfold l2
    simp
  have h0 : 0 ≤ B := (norm_nonneg _).trans (hB ⟨0, h⟩)
  have h1 : (1:ℝ) ≤ H := by exact_mod_cast h
  refine Real.sqrt_le_iff.2 ⟨by positivity, ?_⟩
  refine (sum_le_sum (g := fun _ => B^2) fun i _ => pow_le_pow_left₀ (norm_nonneg _) (hB i) 2).trans ?_
  rw [sum_const, card_univ, Fintype.card_fin, nsmul_eq_mul, mul_pow]
  refine mul_le_mul_of_nonneg_right ?_ (sq_nonneg _)
  nlinarith

theorem sum_shift (o : Int) (f : Fin H → ℝ) : ∑ i, f (shift o i) = ∑ i, f i := by
  refine Fintype.sum_bijective (shift o) ?_ _ _ fun _ => rfl
  refine Function.bijective_iff_has_inverse.2 ⟨shift (-o), fun i => ?_, fun i => ?_⟩
  · exact shift_cancel (by rw [add_neg_cancel]; exact Int.zero_emod _) i
  · exact shift_cancel (by rw [neg_add_cancel]; exact Int.zero_emod _) i

theorem l2_mul_shift_le {s x : Fin H → ℂ} {c : ℝ} (hc : 0 ≤ c) (hs : ∀ i, ‖s i‖ ≤ c) (o : Int) :
    l2 (fun i => s i * x (shift o i)) ≤ c * l2 x := by
  refine Real.sqrt_le_iff.2 ⟨mul_nonneg hc (l2_nonneg _), ?_⟩
  rw [mul_pow, l2_sq, ← sum_shift o fun i => ‖x i‖^2, mul_sum]
  refine sum_le_sum fun i _ => ?_
  rw [norm_mul, mul_pow]
  exact mul_le_mul_of_nonneg_right (pow_le_pow_left₀ (norm_nonneg _) (hs i) 2) (sq_nonneg _)

theorem l2_mulVec {A : Matrix (Fin H) (Fin H) ℂ} {c : ℝ} (h : A.conjTranspose * A = (c : ℂ) • 1)
    (x : Fin H → ℂ) : ∑ i, ‖A.mulVec x i‖^2 = c * ∑ i, ‖x i‖^2 := by
  have e : ∀ y : Fin H → ℂ, ((∑ i, ‖y i‖^2 : ℝ) : ℂ) = star y ⬝ᵥ y := by
    intro y
    unfold dotProduct
    push_cast
    refine sum_congr rfl fun i _ => ?_
    rw [Pi.star_apply, ← Complex.ofReal_pow, ← Complex.normSq_eq_norm_sq, Complex.normSq_eq_conj_mul_self]
    rfl
  have h1 : ((∑ i, ‖A.mulVec x i‖^2 : ℝ) : ℂ) = ((c * ∑ i, ‖x i‖^2 : ℝ) : ℂ) := by
    rw [e, Matrix.star_mulVec, ← Matrix.dotProduct_mulVec, Matrix.mulVec_mulVec, h, Matrix.smul_mulVec, Matrix.one_mulVec,
      dotProduct_smul, Complex.ofReal_mul, e, smul_eq_mul]
  exact_mod_cast h1

theorem l2_smul (c : ℂ) (x : Fin H → ℂ) : l2 (c • x) = ‖c‖ * l2 x := by
  rw [l2_eq, l2_eq, WithLp.toLp_smul, norm_smul]

theorem l2_scale_le {x y : Fin H → ℂ} {c : ℝ} (hc : 0 ≤ c) (h : ∀ i, ‖x i‖ ≤ c * ‖y i‖) : l2 x ≤ c * l2 y := by
  refine Real.sqrt_le_iff.2 ⟨mul_nonneg hc (l2_nonneg _), ?_⟩
  rw [mul_pow, l2_sq, mul_sum]
  refine sum_le_sum fun i _ => ?_
  rw [← mul_pow]
  exact pow_le_pow_left₀ (norm_nonneg _) (h i) 2

theorem l2_mono {x y : Fin H → ℂ} (h : ∀ i, ‖x i‖ ≤ ‖y i‖) : l2 x ≤ l2 y := by
  have := l2_scale_le (x := x) (y := y) zero_le_one (fun i => by rw [one_mul]; exact h i)
  rwa [one_mul] at this

theorem l2_of_iso {A : Matrix (Fin H) (Fin H) ℂ} {c : ℝ} (hc : 0 ≤ c) (h : A.conjTranspose * A = (c : ℂ) • 1)
    (x : Fin H → ℂ) : l2 (A.mulVec x) = Real.sqrt c * l2 x := by
  unfold l2
  rw [l2_mulVec h, Real.sqrt_mul hc]

end

end EvalRound

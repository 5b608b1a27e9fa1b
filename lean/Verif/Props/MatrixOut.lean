import Verif.Proofs.MatrixOut

/-!
# C82: the dense matrix product of matrix.h
-/

namespace EvalRound
open Finset
variable {N : Nat}

/-- C82: `matrix_product` writes the product of the two complex matrices, whatever the result held before. -/
theorem C82_product (Ar Ai Br Bi : Fin N → Fin N → ℝ) (C0 : Fin N → Fin N → ℝ × ℝ) :
    (fun i j => (⟨(matrix_product Ar Ai Br Bi C0 i j).1, (matrix_product Ar Ai Br Bi C0 i j).2⟩ : ℂ)) =
      Matrix.of (fun i j => (⟨Ar i j, Ai i j⟩ : ℂ)) * Matrix.of (fun i j => (⟨Br i j, Bi i j⟩ : ℂ)) := by
  rw [matrix_product_eq]
  funext i j
  rw [Matrix.mul_apply]
  apply Complex.ext
  · simp
  · simp

/-- C82: with the result written over the left factor the product of `(1)` and `(1)` is `(0)`. -/
theorem C82_alias : matrix_product_left (N := 1) (fun _ _ => 1) (fun _ _ => 0) (fun _ _ => (1, 0)) 0 0 = (0, 0) := by
  simp [matrix_product_left, forFin]

/-- C82: with the result written over the left factor every entry of the first column lacks the first term of its sum,
for all sizes and all matrices. -/
theorem C82_alias_column {n : Nat} (Br Bi : Fin (n+1) → Fin (n+1) → ℝ) (A : Fin (n+1) → Fin (n+1) → ℝ × ℝ) (i : Fin (n+1)) :
    (⟨(matrix_product_left Br Bi A i 0).1, (matrix_product_left Br Bi A i 0).2⟩ : ℂ) =
      (Matrix.of (fun i j => (⟨(A i j).1, (A i j).2⟩ : ℂ)) * Matrix.of (fun i j => (⟨Br i j, Bi i j⟩ : ℂ))) i 0 -
        (⟨(A i 0).1, (A i 0).2⟩ : ℂ) * ⟨Br 0 0, Bi 0 0⟩ := by
  rw [left_first_column, Matrix.mul_apply, Fin.sum_univ_succ]
  apply Complex.ext
  · simp
  · simp

/-- C82: in binary64, for factors where the absolute values of the terms of every entry add up to at most `2^1000`, no operation
overflows and every entry is off by at most `(2N+5)/2^53` of the sum of the absolute values of its terms, and `N/2^1071`. -/
theorem C82_float (hN : N ≤ 2^20) (Ar Ai Br Bi : Fin N → Fin N → ℝ)
    (hB : ∀ i j, ∑ k, ‖(⟨Ar i k, Ai i k⟩ : ℂ)‖ * ‖(⟨Br k j, Bi k j⟩ : ℂ)‖ ≤ 2^1000) :
    Ok (matrix_productF Ar Ai Br Bi) fun C => ∀ i j,
      ‖(⟨(C i j).1, (C i j).2⟩ : ℂ) - ∑ k, (⟨Ar i k, Ai i k⟩ : ℂ) * ⟨Br k j, Bi k j⟩‖ ≤
        (2 * N + 5) / 2^53 * ∑ k, ‖(⟨Ar i k, Ai i k⟩ : ℂ)‖ * ‖(⟨Br k j, Bi k j⟩ : ℂ)‖ + N / 2^1071 := by
  unfold matrix_productF
  have h := tabM_spec (n := N) (f := fun i => if hi : i < N then
      tabM N (fun j => if hj : j < N then mpEntryF Ar Ai Br Bi ⟨i, hi⟩ ⟨j, hj⟩ else ub) else ub)
    (P := fun i (row : Fin N → ℝ × ℝ) => ∀ hi : i < N, ∀ j, ‖(⟨(row j).1, (row j).2⟩ : ℂ) - ∑ k, (⟨Ar ⟨i, hi⟩ k, Ai ⟨i, hi⟩ k⟩ : ℂ) * ⟨Br k j, Bi k j⟩‖ ≤
        (2 * N + 5) / 2^53 * ∑ k, ‖(⟨Ar ⟨i, hi⟩ k, Ai ⟨i, hi⟩ k⟩ : ℂ)‖ * ‖(⟨Br k j, Bi k j⟩ : ℂ)‖ + N / 2^1071) ?_
  · exact h.mono fun C hC i j => hC i i.isLt j
  intro i hi
  rw [dif_pos hi]
  refine Ok.mono (tabM_spec (P := fun j (c : ℝ × ℝ) => ∀ hj : j < N, ‖(⟨c.1, c.2⟩ : ℂ) - ∑ k, (⟨Ar ⟨i, hi⟩ k, Ai ⟨i, hi⟩ k⟩ : ℂ) * ⟨Br k ⟨j, hj⟩, Bi k ⟨j, hj⟩⟩‖ ≤
        (2 * N + 5) / 2^53 * ∑ k, ‖(⟨Ar ⟨i, hi⟩ k, Ai ⟨i, hi⟩ k⟩ : ℂ)‖ * ‖(⟨Br k ⟨j, hj⟩, Bi k ⟨j, hj⟩⟩ : ℂ)‖ + N / 2^1071) ?_) fun row hrow _ j => hrow j j.isLt
  intro j hj
  rw [dif_pos hj]
  refine Ok.mono (P := fun c : ℝ × ℝ => ‖(⟨c.1, c.2⟩ : ℂ) - ∑ k, (⟨Ar ⟨i, hi⟩ k, Ai ⟨i, hi⟩ k⟩ : ℂ) * ⟨Br k ⟨j, hj⟩, Bi k ⟨j, hj⟩⟩‖ ≤
        (2 * N + 5) / 2^53 * ∑ k, ‖(⟨Ar ⟨i, hi⟩ k, Ai ⟨i, hi⟩ k⟩ : ℂ)‖ * ‖(⟨Br k ⟨j, hj⟩, Bi k ⟨j, hj⟩⟩ : ℂ)‖ + N / 2^1071) ?_ fun c hc _ => hc
  unfold mpEntryF
  have hr : ∀ {α : Type} [AddCommMonoid α] (f : Fin N → α), ∑ k, f k = ∑ k ∈ range N, if h : k < N then f ⟨k, h⟩ else 0 := fun f => by
    rw [← Fin.sum_univ_eq_sum_range (fun k => if h : k < N then f ⟨k, h⟩ else 0)]
    exact sum_congr rfl fun k _ => by rw [dif_pos k.isLt]
  have e1 : ∀ f g : Fin N → ℂ, ∑ k, f k * g k = ∑ k ∈ range N, (if h : k < N then f ⟨k, h⟩ else 0) * (if h : k < N then g ⟨k, h⟩ else 0) := by
    intro f g
    rw [hr]
    exact sum_congr rfl fun k hk => by
      rw [dif_pos (mem_range.1 hk), dif_pos (mem_range.1 hk), dif_pos (mem_range.1 hk)]
  have e2 : ∀ f g : Fin N → ℂ, ∑ k, ‖f k‖ * ‖g k‖ =
      ∑ k ∈ range N, ‖(if h : k < N then f ⟨k, h⟩ else 0)‖ * ‖(if h : k < N then g ⟨k, h⟩ else 0)‖ := by
    intro f g
    rw [hr]
    exact sum_congr rfl fun k hk => by
      rw [dif_pos (mem_range.1 hk), dif_pos (mem_range.1 hk), dif_pos (mem_range.1 hk)]
  have hB' := hB ⟨i, hi⟩ ⟨j, hj⟩
  rw [e2 (fun k => ⟨Ar ⟨i, hi⟩ k, Ai ⟨i, hi⟩ k⟩) (fun k => ⟨Br k ⟨j, hj⟩, Bi k ⟨j, hj⟩⟩)] at hB' ⊢
  rw [e1 (fun k => ⟨Ar ⟨i, hi⟩ k, Ai ⟨i, hi⟩ k⟩) (fun k => ⟨Br k ⟨j, hj⟩, Bi k ⟨j, hj⟩⟩)]
  refine dotF_ok hN _ _ hB' _ fun k c hk => ?_
  rw [dif_pos hk, dif_pos hk, rd_of_lt _ hk, pure_bind, rd_of_lt _ hk, pure_bind, rd_of_lt _ hk, pure_bind, rd_of_lt _ hk, pure_bind]

/-- matrices of size 4 with entries of absolute value at most 3 -/
example : ∀ i j : Fin 4, ∑ k : Fin 4, ‖(⟨1, 2⟩ : ℂ)‖ * ‖(⟨1, -1⟩ : ℂ)‖ ≤ 2^1000 := by
  intro i j
  have h1 : ‖(⟨1, 2⟩ : ℂ)‖ ≤ 3 := (Complex.norm_le_abs_re_add_abs_im _).trans (by norm_num)
  have h2 : ‖(⟨1, -1⟩ : ℂ)‖ ≤ 3 := (Complex.norm_le_abs_re_add_abs_im _).trans (by norm_num)
  have h3 : ‖(⟨1, 2⟩ : ℂ)‖ * ‖(⟨1, -1⟩ : ℂ)‖ ≤ 3 * 3 := mul_le_mul h1 h2 (norm_nonneg _) (by norm_num)
  rw [sum_const, card_univ, Fintype.card_fin, nsmul_eq_mul]
  have : (36 : ℝ) ≤ 2^1000 := (show (36:ℝ) ≤ 2^6 by norm_num).trans (pow_le_pow_right₀ (by norm_num) (by norm_num))
  push_cast
  refine le_trans ?_ this
  linarith

end EvalRound

import Verif.Spec.Negacyclic
import Mathlib.Algebra.Order.BigOperators.Group.Finset
import Mathlib.Algebra.Order.Ring.Abs
import Mathlib.Algebra.BigOperators.Ring.Finset
import Mathlib.Algebra.Order.BigOperators.Ring.Finset
import Mathlib.Tactic.Ring
import Mathlib.Tactic.Abel

/-! # Lemmas about the negacyclic product -/

namespace EvalRound
open Finset

variable {R S : Type*} [Ring R] [Ring S] {N : Nat}

theorem negconv_map (φ : R →+* S) (a b : Fin N → R) (i : Fin N) :
    φ (negconv a b i) = negconv (fun j => φ (a j)) (fun j => φ (b j)) i := by
  unfold negconv
  rw [map_sum]
  apply sum_congr rfl
  intro j _
  split
  · rw [map_mul]
  · rw [map_neg, map_mul]

theorem negconv_add_left (a a' b : Fin N → R) (i : Fin N) :
    negconv (fun j => a j + a' j) b i = negconv a b i + negconv a' b i := by
  unfold negconv
  rw [← sum_add_distrib]
  apply sum_congr rfl
  intro j _
  split
  · rw [add_mul]
  · rw [add_mul, neg_add]

theorem negconv_add_right (a b b' : Fin N → R) (i : Fin N) :
    negconv a (fun j => b j + b' j) i = negconv a b i + negconv a b' i := by
  unfold negconv
  rw [← sum_add_distrib]
  apply sum_congr rfl
  intro j _
  split
  · rw [mul_add]
  · rw [mul_add, neg_add]

theorem negconv_neg_left (a b : Fin N → R) (i : Fin N) :
    negconv (fun j => - a j) b i = - negconv a b i := by
  unfold negconv
  rw [← sum_neg_distrib]
  apply sum_congr rfl
  intro j _
  split <;> rw [neg_mul]

theorem negconv_neg_right (a b : Fin N → R) (i : Fin N) :
    negconv a (fun j => - b j) i = - negconv a b i := by
  unfold negconv
  rw [← sum_neg_distrib]
  apply sum_congr rfl
  intro j _
  split <;> rw [mul_neg]

theorem negconv_abs_le (a b : Fin N → Int) {B : Int} (hB : ∀ j, |b j| ≤ B) (i : Fin N) :
    |negconv a b i| ≤ (∑ j, |a j|) * B := by
  unfold negconv
  refine (abs_sum_le_sum_abs _ _).trans ?_
  rw [sum_mul]
  apply sum_le_sum
  intro j _
  split
  · rw [abs_mul]; exact mul_le_mul_of_nonneg_left (hB _) (abs_nonneg _)
  · rw [abs_neg, abs_mul]; exact mul_le_mul_of_nonneg_left (hB _) (abs_nonneg _)

theorem negconv_abs_le' (a b : Fin N → Int) {A B : Int} (hA : ∀ j, |a j| ≤ A) (hB0 : 0 ≤ B)
    (hB : ∀ j, |b j| ≤ B) (i : Fin N) : |negconv a b i| ≤ N * A * B := by
  refine (negconv_abs_le a b hB i).trans (mul_le_mul_of_nonneg_right ?_ hB0)
  calc ∑ j, |a j| ≤ ∑ _j : Fin N, A := sum_le_sum fun j _ => hA j
    _ = N * A := by simp

end EvalRound

namespace EvalRound
open Finset
variable {R : Type*} [Ring R] {N : Nat}

/-- one term of `negconv` with a plain index -/
def negterm (a b : Fin N → R) (i : Fin N) (k : Nat) : R :=
  if hk : k < N then
    if h : k ≤ i.val then a ⟨k, hk⟩ * b ⟨i - k, by omega⟩
    else - (a ⟨k, hk⟩ * b ⟨N + i - k, by omega⟩)
  else 0

theorem negconv_range (a b : Fin N → R) (i : Fin N) :
    negconv a b i = ∑ k ∈ range N, negterm a b i k := by
  rw [sum_range]
  unfold negconv
  apply sum_congr rfl
  intro j _
  unfold negterm
  rw [dif_pos j.isLt]
  by_cases h : j ≤ i
  · rw [dif_pos h, dif_pos (show j.val ≤ i.val from h)]
  · rw [dif_neg h, dif_neg (show ¬ j.val ≤ i.val from h)]

end EvalRound

namespace EvalRound
open Finset
variable {R : Type*} [Ring R] {N : Nat}

theorem negconv_one_right (a : Fin N → R) (i : Fin N) :
    negconv a (fun j => if j.val = 0 then 1 else 0) i = a i := by
  unfold negconv
  rw [sum_eq_single i]
  · simp
  · intro j _ hj
    by_cases h : j ≤ i
    · rw [dif_pos h]; simp only []; rw [if_neg]
      · simp
      · have h' : j.val ≤ i.val := h
        have : j.val ≠ i.val := fun e => hj (Fin.ext e)
        omega
    · rw [dif_neg h]; simp only []; rw [if_neg]
      · simp
      · have := j.isLt; omega
  · intro h; exact absurd (mem_univ i) h

end EvalRound

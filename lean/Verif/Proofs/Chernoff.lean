import Mathlib.Analysis.SpecialFunctions.Trigonometric.Series
import Mathlib.Analysis.SpecialFunctions.Trigonometric.DerivHyp
import Mathlib.Algebra.BigOperators.Ring.Finset
import Mathlib.Algebra.BigOperators.Field
import Mathlib.Data.Fintype.BigOperators
import Mathlib.Tactic.Linarith
import Mathlib.Tactic.Ring
import Mathlib.Tactic.FieldSimp

/-!
# The tail of a sum of independent uniform coefficients

Helper lemmas for C85: the moment generating function of the numbers `c + 1/2`, `-q/2 ≤ c < q/2`, and Chernoff's bound, as a
bound on the number of points of a finite product.
-/

namespace EvalRound
open Finset Real

theorem fact_ge (k : ℕ) : 6^k * k.factorial ≤ (2*k+1).factorial := by
  induction k with
  | zero => simp
  | succ k ih =>
    have e : (2*(k+1)+1).factorial = (2*k+3) * ((2*k+2) * (2*k+1).factorial) := by
      rw [show 2*(k+1)+1 = (2*k+2)+1 by ring, Nat.factorial_succ, Nat.factorial_succ]
    rw [e, pow_succ, Nat.factorial_succ]
    calc 6^k * 6 * ((k+1) * k.factorial) = (6 * (k+1)) * (6^k * k.factorial) := by ring
      _ ≤ ((2*k+3) * (2*k+2)) * (2*k+1).factorial := Nat.mul_le_mul (by nlinarith) ih
      _ = _ := by ring

theorem sinh_le_exp {x : ℝ} (hx : 0 ≤ x) : sinh x ≤ x * exp (x^2/6) := by
  have h1 := Real.hasSum_sinh x
  have h2 : HasSum (fun n : ℕ => x * ((x^2/6)^n / n.factorial)) (x * exp (x^2/6)) := by
    rw [Real.exp_eq_exp_ℝ]
    exact (NormedSpace.expSeries_div_hasSum_exp (x^2/6)).mul_left x
  refine hasSum_le (fun n => ?_) h1 h2
  have hf : ((6:ℝ)^n * n.factorial) ≤ ((2*n+1).factorial : ℝ) := by exact_mod_cast fact_ge n
  have e : x * ((x^2/6)^n / n.factorial) = x^(2*n+1) / (6^n * n.factorial) := by
    rw [div_pow, ← pow_mul]; field_simp; ring
  rw [e]
  exact div_le_div_of_nonneg_left (by positivity) (by positivity) hf

/-- the sum of a geometric series around zero -/
theorem geom_sinh (q : ℕ) (y : ℝ) : (∑ j ∈ range q, exp (y * (2*j+1-q))) * sinh y = sinh (q*y) := by
  have e : ∀ j : ℕ, exp (y * (2*j+1-q)) * (exp y - exp (-y)) = exp (y * (2*((j+1:ℕ):ℝ)-q)) - exp (y * (2*(j:ℝ)-q)) := fun j => by
    rw [mul_sub, ← exp_add, ← exp_add]
    congr 2 <;> push_cast <;> ring
  have h := Finset.sum_range_sub (fun j : ℕ => exp (y * (2*(j:ℝ)-q))) q
  rw [sinh_eq, sinh_eq, mul_div_assoc', sum_mul, sum_congr rfl fun j _ => e j, h]
  congr 3 <;> push_cast <;> ring

theorem geom_le (q : ℕ) (y : ℝ) : ∑ j ∈ range q, exp (y * (2*j+1-q)) ≤ q * exp ((q*y)^2/6) := by
  have key : ∀ y : ℝ, 0 < y → ∀ S : ℝ, S * sinh y = sinh (q*y) → S ≤ q * exp ((q*y)^2/6) := by
    intro y hy S hS
    have h1 : y ≤ sinh y := self_le_sinh_iff.2 hy.le
    have h2 := sinh_le_exp (x := q*y) (by positivity)
    have h3 : (q * exp ((q*y)^2/6)) * y ≤ (q * exp ((q*y)^2/6)) * sinh y := mul_le_mul_of_nonneg_left h1 (by positivity)
    have h4 : S * sinh y ≤ (q * exp ((q*y)^2/6)) * sinh y := by
      rw [hS]; refine h2.trans (le_trans (le_of_eq ?_) h3); ring
    exact le_of_mul_le_mul_right h4 (hy.trans_le h1)
  have h := geom_sinh q y
  rcases lt_trichotomy y 0 with hy | hy | hy
  · have := key (-y) (by linarith) _ (by rw [sinh_neg, mul_neg, h, mul_neg, sinh_neg])
    rwa [mul_neg, neg_sq] at this
  · subst hy; simp
  · exact key y hy _ h

/-- the representative of `x` between `-q/2` and `q/2` -/
def centred (p x : ℕ) : ℤ := if x < p then x else x - 2*p

theorem sum_centred {E : Type*} [AddCommMonoid E] (p : ℕ) (F : ℤ → E) :
    ∑ x ∈ range (2*p), F (centred p x) = ∑ j ∈ range (2*p), F (j - p) := by
  rw [two_mul, sum_range_add, sum_range_add, add_comm]
  congr 1
  · refine sum_congr rfl fun x hx => ?_
    unfold centred
    rw [if_neg (by omega)]
    congr 1; push_cast; ring
  · refine sum_congr rfl fun x hx => ?_
    unfold centred
    rw [if_pos (mem_range.1 hx)]
    congr 1; push_cast; ring

/-- the moment generating function of a centred coefficient -/
theorem mgf_le (p : ℕ) (hp : 0 < p) (l : ℝ) :
    ∑ x ∈ range (2*p), exp (l * ((centred p x + 1/2) / (2*p))) ≤ (2*p) * exp (l^2/24) := by
  rw [sum_centred p (fun c : ℤ => exp (l * (((c:ℝ) + 1/2) / (2*p))))]
  have h := geom_le (2*p) (l / (4*p))
  have hp' : (p:ℝ) ≠ 0 := by exact_mod_cast hp.ne'
  refine le_trans (le_of_eq (sum_congr rfl fun j _ => ?_)) (h.trans (le_of_eq ?_))
  · congr 1; push_cast; field_simp; ring
  · congr 1
    · push_cast; ring
    · congr 1; push_cast; field_simp; ring

/-- Chernoff's bound: of the points of `β^ι` at most a fraction `exp(hλ²/24-λt)` has `∑ ε_i v_i ≥ t`, where the `v_i` are
centred coefficients divided by `q` and `h = ∑ ε_i²`. -/
theorem chernoff {ι : Type*} [Fintype ι] [DecidableEq ι] (p : ℕ) (hp : 0 < p) (e : ι → ℝ) (l t : ℝ) (hl : 0 ≤ l) :
    ((univ.filter fun a : ι → Fin (2*p) => t ≤ ∑ i, e i * ((centred p (a i) + 1/2) / (2*p))).card : ℝ) ≤
      exp ((∑ i, e i^2) * l^2/24 - l*t) * ((2*p : ℕ):ℝ)^(Fintype.card ι) := by
  have h1 : ((univ.filter fun a : ι → Fin (2*p) => t ≤ ∑ i, e i * ((centred p (a i) + 1/2) / (2*p))).card : ℝ) ≤
      ∑ a : ι → Fin (2*p), exp (l * (∑ i, e i * ((centred p (a i) + 1/2) / (2*p))) - l*t) := by
    rw [card_eq_sum_ones, sum_filter, Nat.cast_sum]
    refine sum_le_sum fun a _ => ?_
    split_ifs with h
    · rw [Nat.cast_one]
      refine one_le_exp ?_
      have := mul_le_mul_of_nonneg_left h hl
      linarith
    · rw [Nat.cast_zero]; exact (exp_pos _).le
  refine h1.trans ?_
  have h2 : ∀ a : ι → Fin (2*p), exp (l * (∑ i, e i * ((centred p (a i) + 1/2) / (2*p))) - l*t) =
      exp (-(l*t)) * ∏ i, exp (l * e i * ((centred p (a i) + 1/2) / (2*p))) := fun a => by
    rw [← exp_sum, ← exp_add, mul_sum]
    congr 1
    rw [sub_eq_neg_add]
    congr 1
    exact sum_congr rfl fun i _ => by ring
  rw [sum_congr rfl fun a _ => h2 a, ← mul_sum]
  have h3 : ∑ a : ι → Fin (2*p), ∏ i, exp (l * e i * ((centred p (a i) + 1/2) / (2*p))) =
      ∏ i, ∑ x : Fin (2*p), exp (l * e i * ((centred p x + 1/2) / (2*p))) :=
    (Fintype.prod_sum fun i (x : Fin (2*p)) => exp (l * e i * ((centred p x + 1/2) / (2*p)))).symm
  rw [h3]
  have h4 : ∀ i, ∑ x : Fin (2*p), exp (l * e i * ((centred p x + 1/2) / (2*p))) ≤ ((2*p:ℕ):ℝ) * exp (e i^2 * l^2/24) := fun i => by
    have := mgf_le p hp (l * e i)
    rw [← Fin.sum_univ_eq_sum_range (fun x => exp (l * e i * ((centred p x + 1/2) / (2*p))))] at this
    refine this.trans (le_of_eq ?_)
    push_cast
    congr 2; ring
  have h5 := prod_le_prod (s := univ) (fun i _ => sum_nonneg fun x _ => (exp_pos _).le) (fun i _ => h4 i)
  rw [prod_mul_distrib, prod_const, card_univ, ← exp_sum] at h5
  refine (mul_le_mul_of_nonneg_left h5 (exp_pos _).le).trans (le_of_eq ?_)
  rw [← sum_div, ← sum_mul, sub_eq_neg_add, exp_add]
  ring

end EvalRound

import Mathlib.Algebra.BigOperators.Fin
import Mathlib.Algebra.Ring.Defs

/-! # Multiplication in `R[X]/(X^N+1)` -/

namespace EvalRound

/-- Coefficient `i` of the product of `∑ a_j X^j` and `∑ b_j X^j` modulo `X^N + 1`:
`∑_{j ≤ i} a_j b_{i-j} - ∑_{j > i} a_j b_{N+i-j}`. -/
def negconv {R : Type*} [Ring R] {N : Nat} (a b : Fin N → R) : Fin N → R := fun i =>
  ∑ j : Fin N, if h : j ≤ i then a j * b ⟨i - j, by omega⟩
    else - (a j * b ⟨N + i - j, by omega⟩)

end EvalRound

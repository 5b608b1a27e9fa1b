import Mathlib.Algebra.BigOperators.Fin

/-! # Substituting a power of `X` in a polynomial modulo `X^N + 1` -/

namespace EvalRound

/-- Coefficient `i` of `∑_j a_j X^(g*j)` modulo `X^N + 1`: `X^(i+N) = -X^i` and `X^(2N) = 1`. -/
def autom {R : Type*} [AddCommGroup R] {N : Nat} (g : Nat) (a : Fin N → R) : Fin N → R := fun i =>
  ∑ j : Fin N, if g * j % (2 * N) = i then a j else if g * j % (2 * N) = i + N then - a j else 0

end EvalRound

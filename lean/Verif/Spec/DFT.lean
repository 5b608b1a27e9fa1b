import Mathlib.Analysis.SpecialFunctions.Trigonometric.Basic

/-! # The canonical embedding -/

namespace EvalRound
open Real

/-- the primitive `2N`-th root of unity `exp(iπ/N)` -/
noncomputable def zeta (N : Nat) : ℂ := Complex.exp (π * Complex.I / N)

/-- slot `i` of the real polynomial `m`: its value at `exp(iπ·5^i/N)` -/
noncomputable def slotOf {N : Nat} (m : Fin N → ℝ) (i : Nat) : ℂ :=
  ∑ k : Fin N, (m k : ℂ) * Complex.exp (π * Complex.I * (5^i * k : ℕ) / N)

end EvalRound

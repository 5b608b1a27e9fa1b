import Verif.Model.Float

/-! # What the C library owes -/

namespace EvalRound

/-- On `[-7,7]`, which holds every argument of `splitU0NR`, `cos` and `sin` are within `2^-52` of the exact values: one unit in the
last place of a number in `[1/2,1]`, two half units. -/
def Libm.Accurate (L : Libm) : Prop :=
  ∀ x : ℝ, |x| ≤ 7 → |L.cos x - Real.cos x| ≤ 1/2^52 ∧ |L.sin x - Real.sin x| ≤ 1/2^52

/-- the finite numbers of binary64: 53 bits, exponents from `-1074` to `971` -/
def Binary64 (x : ℝ) : Prop := ∃ m e : ℤ, |m| < 2^53 ∧ -1074 ≤ e ∧ e ≤ 971 ∧ x = m * 2^e

end EvalRound

import Verif.Model.FloatDesign

/-!
# What C92 asks of `pow` and `log2`
-/

namespace EvalRound

/-- `pow` with a relative error of at most one in a thousand on bases from 1/2 to 2^17 and exponents from -15 to 4, and `log2` with an
error of at most 1/1000 on numbers from 1 to 2^40 -/
def LibmD.Loose (L : LibmD) : Prop :=
  (∀ x y : ℝ, 1/2 ≤ x → x ≤ 2^17 → -15 ≤ y → y ≤ 4 → |L.pow x y - x ^ y| ≤ x ^ y / 1000) ∧
    ∀ x : ℝ, 1 ≤ x → x ≤ 2^40 → |L.log2 x - Real.logb 2 x| ≤ 1/1000

end EvalRound

import Verif.Spec.FloatBoot

/-! # Error of decoding in binary64 -/

namespace EvalRound

/-- Error of the `2^n` slots decoded in binary64 from a plaintext whose slots, divided by the scaling factor, are at most `x`. -/
noncomputable def decTol (n : Nat) (x : ℝ) : ℝ := Real.sqrt 2 ^ n * ((28 * n + 8) * x / 2^53) + 1/2^900

end EvalRound

import Mathlib.RingTheory.Polynomial.Chebyshev
import Mathlib.Analysis.Complex.Basic

/-! # Chebyshev polynomials and evaluation trees -/

namespace EvalRound

/-- the value of the Chebyshev polynomial `T_k` -/
noncomputable def chebT (k : Nat) (x : ℂ) : ℂ := (Polynomial.Chebyshev.T ℂ (k : ℤ)).eval x

/-- Node `n` of level `j` of the evaluation tree with leaves `u`: neighbours are combined with
`T_1`, `T_2`, `T_4`, … -/
noncomputable def treeVal (u : Nat → ℝ) (x : ℂ) : Nat → Nat → ℂ
  | 0, n => u n
  | j+1, n => treeVal u x j (2*n) + chebT (2^j) x * treeVal u x j (2*n+1)

/-- an array as a function, zero outside -/
noncomputable def arr {K : Nat} (u : Fin K → ℝ) (n : Nat) : ℝ := if h : n < K then u ⟨n, h⟩ else 0

/-- the slots of the error of one multiplication of ciphertexts; `h` is the weight of the key -/
noncomputable def mulErr (n h : Nat) : ℝ := 2^(n+1) * (4 * 2^(n+1) + (h + 1) / 2)

/-- the slots of the error of one rescaling -/
noncomputable def rsErr (n h : Nat) : ℝ := 2^n * (h + 1)

/-- the error of the ciphertext of `T_(2^j)`; `Δ` is the scale, `ε` the error of the input -/
noncomputable def tErr (n h : Nat) (Δ ε : ℝ) : Nat → ℝ
  | 0 => ε
  | j+1 => 2 * (2 * Δ * tErr n h Δ ε j + tErr n h Δ ε j ^ 2 + mulErr n h) / Δ + rsErr n h

/-- the error of the ciphertexts of level `j+1` of the tree; `U` bounds the sum of the leaves -/
noncomputable def lErr (n h : Nat) (Δ ε U : ℝ) : Nat → ℝ
  | 0 => U * ε + 2 + rsErr n h
  | j+1 => ((Δ + tErr n h Δ ε (j+1)) * lErr n h Δ ε U j + Δ * U * tErr n h Δ ε (j+1) + mulErr n h +
      Δ * lErr n h Δ ε U j) / Δ + rsErr n h

end EvalRound

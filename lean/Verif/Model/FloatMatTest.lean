import Verif.Model.Section3
import Verif.Model.FloatTests
import Verif.Model.FloatMessage
import Verif.Model.FloatDesign

/-!
# `element_test` and `vector_test` of test/matmul_test.cpp with the arithmetic of `double`

As in `Verif/Model/Section3.lean`, with every operation of `double` rounded to binary64. Printing is left out.
-/

namespace EvalRound

open Classical in
/-- `isEqual`, matmul_test.cpp:5-10; the constant 0.001 is rounded too. -/
noncomputable def isEqualF (a b : ℝ) : M Bool := do
  if a = 0 then pure (decide (a = b))
  else do
    let d ← fl (b - a)
    let diff_rate ← divF d a
    pure (decide (-rnd (1/1000) < diff_rate ∧ diff_rate < rnd (1/1000)))

/-- `s += x * y`, or `s -= x * y` for `sgn = -1`, matmul_test.cpp:24-27. -/
noncomputable def accOneF (s sgn x y : ℝ) : M ℝ := do
  let p ← fl (x * y)
  fl (s + sgn * p)

/-- `element_test`, matmul_test.cpp:12-37: the pairs of indices printed; `A0`, `Ar0`, `Ai0` are the contents of the uninitialised
matrices. -/
noncomputable def element_testF (L : Libm) (LOGN : Nat) (A0 : Fin (LOGN - 1) → Fac LOGN) (Ar0 Ai0 : SparseDiagonal (2^(LOGN-1)) (3*3)) :
    M (List (Nat × Nat)) := do
  let U ← set_test_U0_matrixF L LOGN A0
  let U0 ← rd U 0
  let U1 ← rd U 1
  let A ← MatMulCF U0.1 U0.2 U1.1 U1.2 Ar0 Ai0
  forUp 0 (2^LOGN / 2) (fun i out => forUp 0 (2^LOGN / 2) (fun j out => do
    let sum ← forUp 0 (2^LOGN / 2) (fun k (s : ℝ × ℝ) => do
      let rik ← U0.1.get_element i k
      let rkj ← U1.1.get_element k j
      let iik ← U0.2.get_element i k
      let ikj ← U1.2.get_element k j
      let sumr ← accOneF s.1 1 rik rkj
      let sumr ← accOneF sumr (-1) iik ikj
      let sumi ← accOneF s.2 1 rik ikj
      let sumi ← accOneF sumi 1 iik rkj
      pure (sumr, sumi)) (0, 0)
    let ar ← A.1.get_element i j
    let ai ← A.2.get_element i j
    let er ← isEqualF ar sum.1
    let ei ← if er then isEqualF ai sum.2 else pure true
    pure (if !er || !ei then out ++ [(i, j)] else out)) out) []

/-- `vector_test`, matmul_test.cpp:39-54: `U0z[1]` and `Az`. -/
noncomputable def vector_testF (L : Libm) (LOGN : Nat) (A0 : Fin (LOGN - 1) → Fac LOGN) (Ar0 Ai0 : SparseDiagonal (2^(LOGN-1)) (3*3))
    (ρ : RealRng) : M (CVec LOGN × CVec LOGN) := do
  let U ← set_test_U0_matrixF L LOGN A0
  let U0 ← rd U 0
  let U1 ← rd U 1
  let A ← MatMulCF U1.1 U1.2 U0.1 U0.2 Ar0 Ai0
  let z := (set_random_message LOGN ρ).1
  let a ← MsgF.mvpSparse z U0.1 U0.2
  let b ← MsgF.mvpSparse a U1.1 U1.2
  let Az ← MsgF.mvpSparse z A.1 A.2
  pure (b, Az)

end EvalRound

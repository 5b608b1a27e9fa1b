import Verif.Model.Section3
import Verif.Model.FloatDriver

/-!
# impl/simple_plaintext.h and the programs of experiment/section3 on it with the arithmetic of `double`

As in `Verif/Model/Section3.lean`, with every operation of `double` rounded to binary64. `round` and the change of a sign are exact. The numbers
that `dist(gen)` returns are a parameter.
-/

namespace EvalRound
open Z_Q

namespace SimpleF
variable {LOGN N : Nat}

/-- `encode_raw`, simple_plaintext.h:28-36. -/
noncomputable def encode_raw (L : Libm) (z : CVec LOGN) (Delta : W) : M (Fin (2^LOGN) → ℝ) := do
  let m ← ifftF L LOGN z (fun _ => 0)
  let d ← fl (Delta.toNat : ℝ)
  tabM (2^LOGN) (fun i => do
    let x ← rd m i
    fl (x * d))

/-- `encode` for `SimplePlaintext`, simple_plaintext.h:18-26. -/
noncomputable def encode (L : Libm) (z : CVec LOGN) (Delta : W) : M (Fin (2^LOGN) → ℝ) := do
  let m ← ifftF L LOGN z (fun _ => 0)
  let d ← fl (Delta.toNat : ℝ)
  tabM (2^LOGN) (fun i => do
    let x ← rd m i
    let y ← fl (x * d)
    pure (cround y : ℝ))

/-- `decode`, simple_plaintext.h:38-47. A division by zero is undefined here. -/
noncomputable def decode (L : Libm) (pt : Fin (2^LOGN) → ℝ) (Delta : W) : M (CVec LOGN) := do
  let d ← fl (Delta.toNat : ℝ)
  let m ← tabM (2^LOGN) (fun i => do
    let x ← rd pt i
    if d = 0 then ub else fl (x / d))
  fftF L LOGN m

/-- One coefficient of `conv`, simple_plaintext.h:53-56. -/
noncomputable def convCoeff (a b : Fin N → ℝ) (i : Nat) : M ℝ := do
  let s ← forUp 0 (i+1) (fun k (s : ℝ) => do
    let x ← rd a k
    let y ← rd b (i - k)
    let p ← fl (x * y)
    fl (s + p)) 0
  forUp (i+1) N (fun k (s : ℝ) => do
    let x ← rd a k
    let y ← rd b (i + N - k)
    let p ← fl (x * y)
    fl (s - p)) s

/-- `conv`, simple_plaintext.h:49-58. -/
noncomputable def conv (a b : Fin N → ℝ) : M (Fin N → ℝ) := tabM N (convCoeff a b)

/-- `add`, simple_plaintext.h:60-65. -/
noncomputable def add (a b : Fin N → ℝ) : M (Fin N → ℝ) := tabM N (fun i => do
  let x ← rd a i
  let y ← rd b i
  fl (x + y))

/-- `sub`, simple_plaintext.h:67-72. -/
noncomputable def sub (a b : Fin N → ℝ) : M (Fin N → ℝ) := tabM N (fun i => do
  let x ← rd a i
  let y ← rd b i
  fl (x - y))

/-- `square_sum`, simple_plaintext.h:74-81. -/
noncomputable def square_sum (pt : Fin N → ℝ) : M ℝ := forUp 0 N (fun i (s : ℝ) => do
  let x ← rd pt i
  let p ← fl (x * x)
  fl (s + p)) 0

end SimpleF

/-- One round of `measure_conv_error`, lemma_conv_error.cpp:23-33. -/
noncomputable def convErrorRoundF (L : Libm) {LOGN : Nat} (Delta : W) (pt : Fin (2^LOGN) → ℝ) (ρ : RealRng) : M (ℝ × RealRng) := do
  let V := set_random_message LOGN ρ
  let pt_v_raw ← SimpleF.encode_raw L V.1 Delta
  let pt_v ← SimpleF.encode L V.1 Delta
  let e ← SimpleF.sub pt_v_raw pt_v
  let res ← SimpleF.conv e pt
  let measured ← SimpleF.square_sum res
  pure (measured, V.2)

/-- `measure_conv_error`, lemma_conv_error.cpp:5-35: `expected` and the measured values. -/
noncomputable def measure_conv_errorF (L : Libm) (LOGN rounds : Nat) (ρ : RealRng) : M (ℝ × List ℝ) := do
  let Delta ← shl1 50
  let z ← set_test_messageF L LOGN
  let pt ← SimpleF.encode L z Delta
  let q ← fl (((2^LOGN : Nat) : ℝ) / 12)
  let s ← SimpleF.square_sum pt
  let expected ← fl (q * s)
  let measured ← runRounds rounds (convErrorRoundF L Delta pt) ρ
  pure (expected, measured)

/-- One round of `measure_conv_sum_error`, lemma_conv_sum_error.cpp:23-37: `pt_rot`, computed by moving and negating coefficients, is
not used. -/
noncomputable def convSumRoundF (L : Libm) (Diag : Nat) {LOGN : Nat} (Delta : W) (pt : Fin (2^LOGN) → ℝ) (ρ : RealRng) : M (ℝ × RealRng) := do
  let r ← forUp 0 Diag (fun k (p : (Fin (2^LOGN) → ℝ) × RealRng) => do
    let V := set_random_message LOGN p.2
    let pt_v_raw ← SimpleF.encode_raw L V.1 Delta
    let pt_v ← SimpleF.encode L V.1 Delta
    let e ← SimpleF.sub pt_v_raw pt_v
    let _pt_rot ← Simple.rotate pt k
    let pt_conv ← SimpleF.conv e pt
    let res ← SimpleF.add pt_conv p.1
    pure (res, V.2)) (fun _ => 0, ρ)
  let measured ← SimpleF.square_sum r.1
  pure (measured, r.2)

/-- `measure_conv_sum_error`, lemma_conv_sum_error.cpp:5-39; `Diag` is 16 (section3.h:14). -/
noncomputable def measure_conv_sum_errorF (L : Libm) (Diag LOGN rounds : Nat) (ρ : RealRng) : M (ℝ × List ℝ) := do
  let Delta ← shl1 50
  let z ← set_test_messageF L LOGN
  let pt ← SimpleF.encode L z Delta
  let t ← intM (Diag * (2^LOGN : Nat))
  let q ← fl ((t : ℝ) / 12)
  let s ← SimpleF.square_sum pt
  let expected ← fl (q * s)
  let measured ← runRounds rounds (convSumRoundF L Diag Delta pt) ρ
  pure (expected, measured)

end EvalRound

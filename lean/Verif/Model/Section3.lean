import Verif.Model.HomTests

/-!
# The programs of experiment/section3 that measure rounding errors, the setters of experiment/setup.h they use, and
test/dft_test.cpp, `element_test` and `vector_test` of test/matmul_test.cpp

Exact real arithmetic for `double`. Each definition returns the numbers that the program prints. `rounds` is 100 in the source.
-/

namespace EvalRound
open Z_Q

/-- `square_sum` for `SimplePlaintext`, simple_plaintext.h:74-81. -/
noncomputable def Simple.square_sum {N : Nat} (pt : Fin N → ℝ) : ℝ := forFin N (fun i sum => sum + pt i * pt i) 0

/-- `norm` for `SimplePlaintext`, simple_plaintext.h:83-86. -/
noncomputable def Simple.norm {N : Nat} (pt : Fin N → ℝ) : ℝ := Real.sqrt (Simple.square_sum pt)

/-- `set_test_rounded_message`, setup.h:60-66. -/
noncomputable def set_test_rounded_message (LOGN : Nat) (Delta : W) : M (CVec LOGN) := do
  let pt ← Simple.encode (set_test_message LOGN) Delta
  Simple.decode pt Delta

/-- `set_test_matrix`, setup.h:68-78; `A0` is what the array holds. The second assignment to `A[k].r[i]` is in the source. -/
noncomputable def set_test_matrix (LOGN K : Nat) (A0 : Fin K → CVec LOGN) : M (Fin K → CVec LOGN) :=
  forUp 0 K (fun k A => do
    let a ← rd A k
    let a ← forUp 0 (2^LOGN / 2) (fun i (a : CVec LOGN) => do
      let t ← intM (k * i)
      let x : ℝ := (t : ℝ) / (2^LOGN / 2 : Nat) * Real.pi
      let r ← wr a.1 i (Real.cos x / Real.sqrt 2)
      let r ← wr r i (Real.sin x / Real.sqrt 2)
      pure (r, a.2)) a
    wr A k a) A0

/-- `set_random_matrix`, setup.h:80-85. -/
def set_random_matrix {LOGN : Nat} (K : Nat) (A0 : Fin K → CVec LOGN) (ρ : RealRng) : (Fin K → CVec LOGN) × RealRng :=
  forFin K (fun k (p : (Fin K → CVec LOGN) × RealRng) =>
    let z := set_random_message LOGN p.2
    (Function.update p.1 k z.1, z.2)) (A0, ρ)

/-- One round of `measure_conv_error`, lemma_conv_error.cpp:23-33. -/
noncomputable def convErrorRound {LOGN : Nat} (Delta : W) (pt : Fin (2^LOGN) → ℝ) (ρ : RealRng) : M (ℝ × RealRng) := do
  let V := set_random_message LOGN ρ
  let pt_v_raw ← Simple.encode_raw V.1 Delta
  let pt_v ← Simple.encode V.1 Delta
  let e := Simple.sub pt_v_raw pt_v
  let res ← Simple.conv e pt
  pure (Simple.square_sum res, V.2)

/-- `rounds` rounds, whose results are printed one after the other, lemma_conv_error.cpp:22-34. -/
def runRounds (rounds : Nat) (body : RealRng → M (ℝ × RealRng)) (ρ : RealRng) : M (List ℝ) := do
  let r ← forUp 0 rounds (fun _ (p : List ℝ × RealRng) => do
    let m ← body p.2
    pure (p.1 ++ [m.1], m.2)) ([], ρ)
  pure r.1

/-- `measure_conv_error`, lemma_conv_error.cpp:5-35: `expected` and the measured values. -/
noncomputable def measure_conv_error (LOGN rounds : Nat) (ρ : RealRng) : M (ℝ × List ℝ) := do
  let Delta ← shl1 50
  let pt ← Simple.encode (set_test_message LOGN) Delta
  let expected := ((2^LOGN : Nat) : ℝ) / 12 * Simple.square_sum pt
  let measured ← runRounds rounds (convErrorRound Delta pt) ρ
  pure (expected, measured)

/-- One round of `measure_conv_sum_error`, lemma_conv_sum_error.cpp:23-37: `pt_rot` is computed and not used. -/
noncomputable def convSumRound (Diag : Nat) {LOGN : Nat} (Delta : W) (pt : Fin (2^LOGN) → ℝ) (ρ : RealRng) : M (ℝ × RealRng) := do
  let r ← forUp 0 Diag (fun k (p : (Fin (2^LOGN) → ℝ) × RealRng) => do
    let V := set_random_message LOGN p.2
    let pt_v_raw ← Simple.encode_raw V.1 Delta
    let pt_v ← Simple.encode V.1 Delta
    let e := Simple.sub pt_v_raw pt_v
    let _pt_rot ← Simple.rotate pt k
    let pt_conv ← Simple.conv e pt
    pure (Simple.add pt_conv p.1, V.2)) (fun _ => 0, ρ)
  pure (Simple.square_sum r.1, r.2)

/-- `measure_conv_sum_error`, lemma_conv_sum_error.cpp:5-39; `Diag` is 16 (section3.h:14). -/
noncomputable def measure_conv_sum_error (Diag LOGN rounds : Nat) (ρ : RealRng) : M (ℝ × List ℝ) := do
  let Delta ← shl1 50
  let pt ← Simple.encode (set_test_message LOGN) Delta
  let t ← intM (Diag * (2^LOGN : Nat))
  let expected := (t : ℝ) / 12 * Simple.square_sum pt
  let measured ← runRounds rounds (convSumRound Diag Delta pt) ρ
  pure (expected, measured)

/-- One round of `measure_single_matmul_error`, theorem_single_matmul_error.cpp:25-43; the constructor of `Message` clears `A`
(message.h:15-20). -/
noncomputable def singleMatmulRound (Diag LOGDELTA : Nat) {LOGQ LOGN : Nat} [NeZero LOGQ] (Delta : W) (z : CVec LOGN)
    (pt : R_Q LOGQ (2^LOGN)) (ρ : RealRng) : M (ℝ × RealRng) := do
  let A := set_random_matrix Diag (fun _ => ((fun _ => 0, fun _ => 0) : CVec LOGN)) ρ
  let Az ← Msg.mvp z A.1
  let pt_Az ← ptMvp pt A.1 Delta
  let Az_tilde ← decode_log pt_Az (2 * LOGDELTA : Nat)
  pure (Msg.norm (Msg.sub Az Az_tilde), A.2)

/-- `measure_single_matmul_error`, theorem_single_matmul_error.cpp:5-44; `Diag` is 16, `LOGQ` 1450 and `LOGDELTA` 50. -/
noncomputable def measure_single_matmul_error (Diag LOGDELTA LOGQ LOGN rounds : Nat) [NeZero LOGQ] (ρ : RealRng) :
    M (ℝ × List ℝ) := do
  let Delta ← shl1 LOGDELTA
  let z ← set_test_rounded_message LOGN Delta
  let pt ← encode LOGQ z Delta
  let t ← intM (Diag * (2^LOGN : Nat))
  let expected := Real.sqrt ((t : ℝ) / 12) * Msg.norm z / (Delta.toNat : ℝ)
  let measured ← runRounds rounds (singleMatmulRound Diag LOGDELTA Delta z pt) ρ
  pure (expected, measured)

/-- `measure_serial_matmul_error`, theorem_serial_matmul_error.cpp:5-50: `expected`, `bound` and `measured`; `A0` is what the
uninitialised matrices hold. -/
noncomputable def measure_serial_matmul_error (LOGDELTA LOGQ LOGN : Nat) [NeZero LOGQ] (A0 : Fin (LOGN - 1) → Fac LOGN) :
    M (ℝ × ℝ × ℝ) := do
  let Delta ← shl1 LOGDELTA
  let D := LOGN - 1
  let z ← set_test_rounded_message LOGN Delta
  let matrix_norm_except_one : ℝ := Real.sqrt 2 ^ (D - 1)
  let t ← intM (3 * (2^LOGN : Nat))
  let expected := Real.sqrt ((t : ℝ) / 12) * Msg.norm z / (Delta.toNat : ℝ) * Real.sqrt D * matrix_norm_except_one
  let bound := Real.sqrt D * expected
  let U ← set_test_U0_matrix LOGN A0
  let U0 ← rd U 0
  let Uz ← mvpMsg z.1 z.2 U0.1 U0.2
  let Uz ← forUp 1 D (fun i temp => do
    let A ← rd U i
    mvpMsg temp.1 temp.2 A.1 A.2) Uz
  let pt ← encode LOGQ z Delta
  let pt_Uz ← ptMvpSparse pt U0 Delta
  let pt_Uz ← forUp 1 D (fun i temp => do
    let A ← rd U i
    ptMvpSparse temp A Delta) pt_Uz
  let Uz_tilde ← decode_log pt_Uz (LOGDELTA * (D + 1) : Nat)
  pure (expected, bound, Msg.norm (Msg.sub Uz Uz_tilde))

/-- The first half of an array of length `N`, the way `idft<N>` sees the arrays of a message, dft_test.cpp:8, DFT.h:24. -/
def halfOf {LOGN : Nat} (z : Fin (2^(LOGN-1)) → ℝ) : Fin (2^LOGN / 2) → ℝ := fun i => z ⟨i, lt_of_lt_of_le i.isLt (by
  rcases LOGN with _ | n
  · exact Nat.zero_le _
  · show 2^(n+1) / 2 ≤ 2^n
    rw [pow_succ]; omega)⟩

/-- `ifft_test`, dft_test.cpp:4-12: `m_idft` and `m_ifft`; `m0`, `m1` are the contents of the uninitialised arrays. -/
noncomputable def ifft_test (LOGDELTA LOGN : Nat) (m0 m1 : Fin (2^LOGN) → ℝ) : M ((Fin (2^LOGN) → ℝ) × (Fin (2^LOGN) → ℝ)) := do
  let Delta ← shl1 LOGDELTA
  let z ← set_test_rounded_message LOGN Delta
  let m_idft ← idft (halfOf z.1) (halfOf z.2) m0
  let m_ifft ← ifft LOGN z m1
  pure (m_idft, m_ifft)

/-- `run_test`, dft_test.cpp:14-23: `z` and `z_res`. -/
noncomputable def run_test (LOGN : Nat) (m0 : Fin (2^LOGN) → ℝ) (ρ : RealRng) : M (CVec LOGN × CVec LOGN) := do
  let z := (set_random_message LOGN ρ).1
  let m ← ifft LOGN z m0
  let z_res ← fft LOGN m
  pure (z, z_res)

open Classical in
/-- `isEqual`, matmul_test.cpp:5-10. -/
noncomputable def isEqual (a b : ℝ) : Bool :=
  if a = 0 then decide (a = b) else decide (-(1/1000) < (b - a) / a ∧ (b - a) / a < 1/1000)

/-- `element_test`, matmul_test.cpp:12-37: the pairs of indices printed; `A0`, `Ar0`, `Ai0` are the contents of the uninitialised
matrices. -/
noncomputable def element_test (LOGN : Nat) (A0 : Fin (LOGN - 1) → Fac LOGN) (Ar0 Ai0 : SparseDiagonal (2^(LOGN-1)) (3*3)) :
    M (List (Nat × Nat)) := do
  let U ← set_test_U0_matrix LOGN A0
  let U0 ← rd U 0
  let U1 ← rd U 1
  let A ← MatMulC U0.1 U0.2 U1.1 U1.2 Ar0 Ai0
  forUp 0 (2^LOGN / 2) (fun i out => forUp 0 (2^LOGN / 2) (fun j out => do
    let sum ← forUp 0 (2^LOGN / 2) (fun k (s : ℝ × ℝ) => do
      let rik ← U0.1.get_element i k
      let rkj ← U1.1.get_element k j
      let iik ← U0.2.get_element i k
      let ikj ← U1.2.get_element k j
      pure (s.1 + rik * rkj - iik * ikj, s.2 + rik * ikj + iik * rkj)) (0, 0)
    let ar ← A.1.get_element i j
    let ai ← A.2.get_element i j
    pure (if !isEqual ar sum.1 || !isEqual ai sum.2 then out ++ [(i, j)] else out)) out) []

/-- `vector_test`, matmul_test.cpp:39-54: `U0z[1]` and `Az`. -/
noncomputable def vector_test (LOGN : Nat) (A0 : Fin (LOGN - 1) → Fac LOGN) (Ar0 Ai0 : SparseDiagonal (2^(LOGN-1)) (3*3))
    (ρ : RealRng) : M (CVec LOGN × CVec LOGN) := do
  let U ← set_test_U0_matrix LOGN A0
  let U0 ← rd U 0
  let U1 ← rd U 1
  let A ← MatMulC U1.1 U1.2 U0.1 U0.2 Ar0 Ai0
  let z := (set_random_message LOGN ρ).1
  let a ← mvpMsg z.1 z.2 U0.1 U0.2
  let b ← mvpMsg a.1 a.2 U1.1 U1.2
  let Az ← mvpMsg z.1 z.2 A.1 A.2
  pure (b, Az)

end EvalRound

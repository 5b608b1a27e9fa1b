import Verif.Model.FloatDft
import Verif.Model.FloatTests
import Verif.Model.LinTrans

/-!
# impl/plaintext.h and the programs theorem_single_matmul_error and theorem_serial_matmul_error in binary64

As `ptMvp` and `ptMvpSparse` of `Verif/Model/LinTrans.lean` and the programs of `Verif/Model/Section3.lean`, with every operation of `double`
rounded to binary64. `ρ` is what `dist(gen)` returns.
-/

namespace EvalRound
open Z_Q

section
variable (L : Libm) {LOGQ LOGN : Nat} [NeZero LOGQ]

/-- `matrix_vector_product<LOGQ,LOGN,K>(pt,A,Delta,pt_Az)`, plaintext.h:24-37. -/
noncomputable def ptMvpF {K : Nat} (pt : R_Q LOGQ (2^LOGN)) (A : Fin K → CVec LOGN) (Delta : W) : M (R_Q LOGQ (2^LOGN)) :=
  forUp 0 K (fun k acc => do
    let a ← rd A k
    let pt_v ← encodeF L LOGQ (LOGN := LOGN) a Delta
    let pt_rot ← rotR pt R_Q.setzero k
    let pt_conv ← conv pt_v pt_rot
    pure (R_Q.add acc pt_conv)) R_Q.setzero

/-- `matrix_vector_product<LOGQ,LOGN>(pt,Ar,Ai,Delta,pt_Az)`, plaintext.h:39-54. -/
noncomputable def ptMvpSparseF (pt : R_Q LOGQ (2^LOGN)) (A : SD2 (2^(LOGN-1)) 3) (Delta : W) : M (R_Q LOGQ (2^LOGN)) :=
  forUp 0 3 (fun k acc => do
    let offr ← rd A.1.off k
    let offi ← rd A.2.off k
    assertM (decide (offr = offi))
    let vr ← rd A.1.vec k
    let vi ← rd A.2.vec k
    let pt_v ← encodeF L LOGQ (LOGN := LOGN) (vr, vi) Delta
    let pt_rot ← rotR pt R_Q.setzero offr.toNat
    let pt_conv ← conv pt_v pt_rot
    pure (R_Q.add acc pt_conv)) R_Q.setzero

/-- One round of `measure_single_matmul_error`, theorem_single_matmul_error.cpp:25-43; the constructor of `Message` clears `A`
(message.h:15-20). -/
noncomputable def singleMatmulRoundF (Diag LOGDELTA : Nat) (Delta : W) (z : CVec LOGN)
    (pt : R_Q LOGQ (2^LOGN)) (ρ : RealRng) : M (ℝ × RealRng) := do
  let A := set_random_matrix Diag (fun _ => ((fun _ => 0, fun _ => 0) : CVec LOGN)) ρ
  let Az ← MsgF.mvp z A.1
  let pt_Az ← ptMvpF L pt A.1 Delta
  let Az_tilde ← decode_logF L pt_Az (2 * LOGDELTA : Nat)
  let e ← MsgF.sub Az Az_tilde
  let measured ← MsgF.norm e
  pure (measured, A.2)

end

/-- `measure_single_matmul_error`, theorem_single_matmul_error.cpp:5-44; `Diag` is 16, `LOGQ` 1450 and `LOGDELTA` 50. -/
noncomputable def measure_single_matmul_errorF (L : Libm) (Diag LOGDELTA LOGQ LOGN rounds : Nat) [NeZero LOGQ] (ρ : RealRng) :
    M (ℝ × List ℝ) := do
  let Delta ← shl1 LOGDELTA
  let z ← set_test_rounded_messageF L LOGN Delta
  let pt ← encodeF L LOGQ z Delta
  let t ← intM (Diag * (2^LOGN : Nat))
  let q ← fl ((t : ℝ) / 12)
  let s ← fl (Real.sqrt q)
  let nz ← MsgF.norm z
  let x ← fl (s * nz)
  let d ← fl (Delta.toNat : ℝ)
  let expected ← fl (x / d)
  let measured ← runRounds rounds (singleMatmulRoundF L Diag LOGDELTA Delta z pt) ρ
  pure (expected, measured)

/-- `measure_serial_matmul_error`, theorem_serial_matmul_error.cpp:5-50: `expected`, `bound` and `measured`; `A0` is what the
uninitialised matrices hold. -/
noncomputable def measure_serial_matmul_errorF (L : LibmP) (LOGDELTA LOGQ LOGN : Nat) [NeZero LOGQ] (A0 : Fin (LOGN - 1) → Fac LOGN) :
    M (ℝ × ℝ × ℝ) := do
  let Delta ← shl1 LOGDELTA
  let D := LOGN - 1
  let z ← set_test_rounded_messageF L.toLibm LOGN Delta
  let s2 ← fl (Real.sqrt 2)
  let matrix_norm_except_one := L.pow s2 ((D : ℝ) - 1)
  let t ← intM (3 * (2^LOGN : Nat))
  let q ← fl ((t : ℝ) / 12)
  let s ← fl (Real.sqrt q)
  let nz ← MsgF.norm z
  let x ← fl (s * nz)
  let d ← fl (Delta.toNat : ℝ)
  let x ← fl (x / d)
  let sD ← fl (Real.sqrt D)
  let x ← fl (x * sD)
  let expected ← fl (x * matrix_norm_except_one)
  let sD ← fl (Real.sqrt D)
  let bound ← fl (sD * expected)
  let U ← set_test_U0_matrixF L.toLibm LOGN A0
  let U0 ← rd U 0
  let Uz ← MsgF.mvpSparse z U0.1 U0.2
  let Uz ← forUp 1 D (fun i temp => do
    let A ← rd U i
    MsgF.mvpSparse temp A.1 A.2) Uz
  let pt ← encodeF L.toLibm LOGQ z Delta
  let pt_Uz ← ptMvpSparseF L.toLibm pt U0 Delta
  let pt_Uz ← forUp 1 D (fun i temp => do
    let A ← rd U i
    ptMvpSparseF L.toLibm temp A Delta) pt_Uz
  let Uz_tilde ← decode_logF L.toLibm pt_Uz (LOGDELTA * (D + 1) : Nat)
  let e ← MsgF.sub Uz Uz_tilde
  let measured ← MsgF.norm e
  pure (expected, bound, measured)

end EvalRound

import Verif.Model.LinTrans

/-!
# Matrix-vector products of impl/message.h and impl/plaintext.h whose result is also the operand
-/

namespace EvalRound
open Z_Q

section
variable {LOGQ LOGN : Nat} [NeZero LOGQ]

/-- `matrix_vector_product<LOGQ,LOGN,K>(pt,A,Delta,pt)`, plaintext.h:24-37: line 30 clears the operand, and `rot` reads what has
been accumulated. As in `ptMvp`, `pt_rot` is overwritten completely in each round. -/
noncomputable def ptMvpOver {K : Nat} (_pt : R_Q LOGQ (2^LOGN)) (A : Fin K → CVec LOGN) (Delta : W) : M (R_Q LOGQ (2^LOGN)) :=
  forUp 0 K (fun k pt => do
    let a ← rd A k
    let pt_v ← encode LOGQ (LOGN := LOGN) a Delta
    let pt_rot ← rotR pt R_Q.setzero k
    let pt_conv ← conv pt_v pt_rot
    pure (R_Q.add pt pt_conv)) R_Q.setzero

/-- `matrix_vector_product<LOGQ,LOGN>(pt,Ar,Ai,Delta,pt)`, plaintext.h:39-54. -/
noncomputable def ptMvpSparseOver (_pt : R_Q LOGQ (2^LOGN)) (A : SD2 (2^(LOGN-1)) 3) (Delta : W) : M (R_Q LOGQ (2^LOGN)) :=
  forUp 0 3 (fun k pt => do
    let offr ← rd A.1.off k
    let offi ← rd A.2.off k
    assertM (decide (offr = offi))
    let vr ← rd A.1.vec k
    let vi ← rd A.2.vec k
    let pt_v ← encode LOGQ (LOGN := LOGN) (vr, vi) Delta
    let pt_rot ← rotR pt R_Q.setzero offr.toNat
    let pt_conv ← conv pt_v pt_rot
    pure (R_Q.add pt pt_conv)) R_Q.setzero

end

/-- `matrix_vector_product<LOGN,K>(z,A,z)` on messages, message.h:88-104. -/
noncomputable def Msg.mvpOver {n K : Nat} (z : (Fin n → ℝ) × (Fin n → ℝ)) (A : Fin K → (Fin n → ℝ) × (Fin n → ℝ)) :
    M ((Fin n → ℝ) × (Fin n → ℝ)) :=
  forUp 0 n (fun i z => do
    let s ← Msg.mvpRow z A i
    let r ← wr z.1 i s.1
    let j ← wr z.2 i s.2
    pure (r, j)) z

/-- `matrix_vector_product<LOGN,S>(z,Ar,Ai,z)` on messages, message.h:106-126. -/
noncomputable def mvpMsgOver {H S : Nat} (z : (Fin H → ℝ) × (Fin H → ℝ)) (Ar Ai : SparseDiagonal H S) :
    M ((Fin H → ℝ) × (Fin H → ℝ)) :=
  forUp 0 H (fun i z => do
    let s ← mvpMsgRow z.1 z.2 Ar Ai i
    let r ← wr z.1 i s.1
    let j ← wr z.2 i s.2
    pure (r, j)) z

/-- `matrix_vector_product<LOGN>(zr,zi,Ar,Ai,zr,zi)`, matrix/matrix.h:142-160. The matrices are passed by value. -/
noncomputable def mvpArrOver {H : Nat} (z : (Fin H → ℝ) × (Fin H → ℝ)) (Ar Ai : SparseDiagonal H 3) :
    M ((Fin H → ℝ) × (Fin H → ℝ)) :=
  forUp 0 H (fun i z => do
    let s ← mvpRow z.1 z.2 Ar Ai i
    let r ← wr z.1 i s.1
    let j ← wr z.2 i s.2
    pure (r, j)) z

end EvalRound

import Verif.Model.FloatDriver
import Verif.Model.FloatMessage

/-!
# test/end_to_end_test.cpp with the arithmetic of `double`

As in `Verif/Model/Measure.lean`, with every operation of `double` rounded to binary64. Printing is left out.
-/

namespace EvalRound
open Z_Q

/-- `(double) pt[k]`, as in end_to_end_test.cpp:47. -/
noncomputable def rdDoubleF {Q N : Nat} [NeZero Q] (pt : R_Q Q N) (k : Nat) : M ℝ := do
  let x ← rd pt k
  toDoubleF x

/-- A message whose real parts are `f(bitReverse(i,LOGN-1)+add)/Delta`; the imaginary parts keep the zero of the constructor
(message.h:15-20). The loops of end_to_end_test.cpp:46-53, 78-85, 113-120 and 149-156. -/
noncomputable def brvMessageF (LOGN : Nat) (Delta : W) (f : Nat → M ℝ) (add : Nat) : M (CVec LOGN) := do
  let r ← tabM (2^(LOGN-1)) (fun i => do
    let k ← bitReverse (BitVec.ofNat 32 i) (LOGN-1)
    let x ← f (k.toNat + add)
    divDeltaF x Delta)
  pure (r, fun _ => 0)

/-- Decryption and `decode_log` of a ciphertext, end_to_end_test.cpp:39-40, 73-74, 106-107 and 142-143. -/
noncomputable def decMessageF (L : Libm) {LOGN Q : Nat} [NeZero Q] (LOGDELTA : Int) (ct : R_Q_square Q (2^LOGN)) (s : Fin (2^LOGN) → Int) :
    M (CVec LOGN) := do
  let pt ← dec ct s
  decode_logF L pt LOGDELTA

/-- `std::max(sup_norm(e[0]), sup_norm(e[1]))` with `e[i]` the difference of two messages, end_to_end_test.cpp:56-59. -/
noncomputable def supErrF {LOGN : Nat} (z0 z1 x0 x1 : CVec LOGN) : M ℝ := do
  let e0 ← MsgF.sub z0 x0
  let e1 ← MsgF.sub z1 x1
  let a ← MsgF.sup_norm e0
  let b ← MsgF.sup_norm e1
  pure (max a b)

section
variable {LOGN : Nat} {QT Q0 Q12 QS : Nat} [NeZero QT] [NeZero Q0] [NeZero Q12] [NeZero QS]

/-- "CoeffToSlot Test", end_to_end_test.cpp:34-60: the number printed as `cts error`. -/
noncomputable def ctsTestF (L : Libm) (Delta : W) (ct_ctsrs0 ct_ctsrs1 : R_Q_square Q0 (2^LOGN)) (ct_modraise : R_Q_square QT (2^LOGN))
    (s : Fin (2^LOGN) → Int) : M ℝ := do
  let z0 ← decMessageF L 50 ct_ctsrs0 s
  let z1 ← decMessageF L 50 ct_ctsrs1 s
  let pt_modraise ← dec ct_modraise s
  let x0 ← brvMessageF LOGN Delta (rdDoubleF pt_modraise) 0
  let x1 ← brvMessageF LOGN Delta (rdDoubleF pt_modraise) (2^LOGN / 2)
  supErrF z0 z1 x0 x1

/-- "EvalMod Test", end_to_end_test.cpp:68-92: the number printed as `evalmod error`. -/
noncomputable def evalmodTestF (L : Libm) (Delta : W) (ct_evalmod0 ct_evalmod1 : R_Q_square Q12 (2^LOGN)) (pt : R_Q 60 (2^LOGN))
    (s : Fin (2^LOGN) → Int) : M ℝ := do
  let z0 ← decMessageF L 50 ct_evalmod0 s
  let z1 ← decMessageF L 50 ct_evalmod1 s
  let x0 ← brvMessageF LOGN Delta (rdDoubleF pt) 0
  let x1 ← brvMessageF LOGN Delta (rdDoubleF pt) (2^LOGN / 2)
  supErrF z0 z1 x0 x1

/-- `(double) pt_modraise[k] - (double) pt[k]`, end_to_end_test.cpp:114 and 118. -/
noncomputable def diffDoubleF (pt_modraise : R_Q QT (2^LOGN)) (pt : R_Q 60 (2^LOGN)) (k : Nat) : M ℝ := do
  let x ← rdDoubleF pt_modraise k
  let y ← rdDoubleF pt k
  fl (x - y)

/-- "EvalqI Test", end_to_end_test.cpp:101-127: the number printed as `evalqI error`. -/
noncomputable def evalqITestF (L : Libm) (Delta : W) (ct_evalqI0 ct_evalqI1 : R_Q_square Q12 (2^LOGN)) (ct_modraise : R_Q_square QT (2^LOGN))
    (pt : R_Q 60 (2^LOGN)) (s : Fin (2^LOGN) → Int) : M ℝ := do
  let z0 ← decMessageF L 50 ct_evalqI0 s
  let z1 ← decMessageF L 50 ct_evalqI1 s
  let pt_modraise ← dec ct_modraise s
  let x0 ← brvMessageF LOGN Delta (diffDoubleF pt_modraise pt) 0
  let x1 ← brvMessageF LOGN Delta (diffDoubleF pt_modraise pt) (2^LOGN / 2)
  supErrF z0 z1 x0 x1

/-- "SlotToCoeff Test", end_to_end_test.cpp:136-163: the number printed as `stc error`. -/
noncomputable def stcTestF (L : Libm) (Delta : W) (ct_evalqI0 ct_evalqI1 : R_Q_square Q12 (2^LOGN)) (ct_qI : R_Q_square QS (2^LOGN))
    (s : Fin (2^LOGN) → Int) : M ℝ := do
  let z0 ← decMessageF L 50 ct_evalqI0 s
  let z1 ← decMessageF L 50 ct_evalqI1 s
  let pt_qI ← dec ct_qI s
  let x0 ← brvMessageF LOGN Delta (rdDoubleF pt_qI) 0
  let x1 ← brvMessageF LOGN Delta (rdDoubleF pt_qI) (2^LOGN / 2)
  supErrF z0 z1 x0 x1

end

/-- The four errors `end_to_end_test` prints on the way, and the plaintext of the result, end_to_end_test.cpp:59, 91,
126, 162. -/
structure EndToEndMid (LOGN QS : Nat) [NeZero QS] where
  cts_error : ℝ
  evalmod_error : ℝ
  evalqI_error : ℝ
  stc_error : ℝ
  pt_out : R_Q QS (2^LOGN)

/-- What `end_to_end_test` prints, end_to_end_test.cpp:59-190. -/
structure EndToEndOutF (LOGN : Nat) where
  cts_error : ℝ
  evalmod_error : ℝ
  evalqI_error : ℝ
  stc_error : ℝ
  e_norm : ℝ
  max_err_real : ℝ
  max_err_imag : ℝ

section
variable (L : LibmP) (RAND_MAX LDcts LDstc G : Nat) (QT Q0 Q1 Q2 Q3 Q4 Q5 Q6 Q7 Q8 Q9 Q10 Q11 Q12 QS : Nat)
  [NeZero QT] [NeZero Q0] [NeZero Q1] [NeZero Q2] [NeZero Q3] [NeZero Q4] [NeZero Q5] [NeZero Q6] [NeZero Q7]
  [NeZero Q8] [NeZero Q9] [NeZero Q10] [NeZero Q11] [NeZero Q12] [NeZero QS]

/-- `end_to_end_test` after the encryption and down to the last decryption, end_to_end_test.cpp:22-171; `LOGDELTA = 50`, `LOGDELTA_boot = 60`,
`K = 24` (rns.h:10-19). The order of the names of the moduli is the one of Model/Boot.lean. -/
noncomputable def endToEndRunF {LOGN : Nat} (Delta : W) (pt : R_Q 60 (2^LOGN)) (ct : R_Q_square 60 (2^LOGN))
    (s : Fin (2^LOGN) → Int) (ω : Rng) : M (EndToEndMid LOGN QS) := do
  let ct_modraise := mod_raise QT ct
  let r ← CoeffToSlotF L RAND_MAX LDcts G ct_modraise s ω
  let ct_ctsrs0 : R_Q_square Q0 (2^LOGN) ← RS r.1.1 R_Q_square.setzero
  let ct_ctsrs1 : R_Q_square Q0 (2^LOGN) ← RS r.1.2 R_Q_square.setzero
  let cts ← ctsTestF L.toLibm Delta ct_ctsrs0 ct_ctsrs1 ct_modraise s
  let e0 ← EvalModKeyF RAND_MAX 60 24 Q1 Q2 Q3 Q4 Q5 Q6 Q7 Q8 Q9 Q10 Q11 Q12 ct_ctsrs0 s r.2
  let e1 ← EvalModKeyF RAND_MAX 60 24 Q1 Q2 Q3 Q4 Q5 Q6 Q7 Q8 Q9 Q10 Q11 Q12 ct_ctsrs1 s e0.2
  let evm ← evalmodTestF L.toLibm Delta e0.1 e1.1 pt s
  let ct_evalqI0 := R_Q_square.sub (R_Q_square.resize Q12 ct_ctsrs0) e0.1
  let ct_evalqI1 := R_Q_square.sub (R_Q_square.resize Q12 ct_ctsrs1) e1.1
  let eqI ← evalqITestF L.toLibm Delta ct_evalqI0 ct_evalqI1 ct_modraise pt s
  let ct_stc ← SlotToCoeffF L.toLibm RAND_MAX LDstc G ct_evalqI0 ct_evalqI1 s e1.2
  let ct_qI : R_Q_square QS (2^LOGN) ← RS ct_stc.1 R_Q_square.setzero
  let stc ← stcTestF L.toLibm Delta ct_evalqI0 ct_evalqI1 ct_qI s
  let ct_boot := R_Q_square.sub (R_Q_square.resize QS ct_modraise) ct_qI
  let pt_out ← dec ct_boot s
  pure ⟨cts, evm, eqI, stc, pt_out⟩

/-- `end_to_end_test`, end_to_end_test.cpp:6-191, with the message `z`; `ct0` is what the uninitialised `ct` holds. -/
noncomputable def endToEndDriverF {LOGN : Nat} (H : Int) (z : CVec LOGN) (ct0 : R_Q_square 60 (2^LOGN)) (ω : Rng) :
    M (EndToEndOutF LOGN) := do
  let k ← keygen (2^LOGN) H ω
  let Delta ← shl1 50
  let pt ← encodeF L.toLibm 60 z Delta
  let ct ← enc RAND_MAX pt k.1 ct0 k.2
  let o ← endToEndRunF L RAND_MAX LDcts LDstc G QT Q0 Q1 Q2 Q3 Q4 Q5 Q6 Q7 Q8 Q9 Q10 Q11 Q12 QS Delta pt ct.1 k.1 ct.2
  let z_out ← decode_logF L.toLibm o.pt_out 50
  let e ← e_sup_normF Delta pt o.pt_out
  let re ← max_errF z.1 z_out.1
  let im ← max_errF z.2 z_out.2
  pure ⟨o.cts_error, o.evalmod_error, o.evalqI_error, o.stc_error, e, re, im⟩

end

end EvalRound

import Verif.Model.HomTests
import Verif.Model.FloatBoot
import Verif.Model.FloatDriver
import Verif.Model.FloatMessage

/-!
# The programs test/conv_test.cpp, ctxt_conv_test.cpp, coeffToSlot_test.cpp and evalMod_test.cpp in binary64

As `Verif/Model/HomTests.lean`, with every operation of `double` rounded. `ρ` is what `dist(gen)` returns, `ω` what `rand()`
returns; `ct0`, `evk0` are the contents of uninitialised ciphertexts.
-/

namespace EvalRound
open Z_Q

/-- `set_evalmod_message`, setup.h:51-58. -/
noncomputable def set_evalmod_messageF (LOGN : Nat) : M (CVec LOGN) := do
  let c ← fl (1 / 10000)
  let r ← tabM (2^(LOGN-1)) (fun i => fl (c + ((i % 24 : Nat) : ℝ)))
  pure (r, fun _ => 0)

section
variable (L : LibmP) (RAND_MAX LOGDELTA : Nat) (H : Int) {LOGQ LOGN : Nat} [NeZero LOGQ]

/-- `main` of conv_test.cpp:6-21: `c_orig` and `c`. -/
noncomputable def convTestF (LOGQ LOGN : Nat) [NeZero LOGQ] (ρ : RealRng) : M (CVec LOGN × CVec LOGN) := do
  let a := set_random_message LOGN ρ
  let b := set_random_message LOGN a.2
  let Delta ← shl1 LOGDELTA
  let pt_a ← encodeF L.toLibm LOGQ a.1 Delta
  let pt_b ← encodeF L.toLibm LOGQ b.1 Delta
  let c_orig ← MsgF.mul a.1 b.1
  let pt_c ← conv pt_a pt_b
  let c ← decode_logF L.toLibm pt_c (LOGDELTA * 2 : Nat)
  pure (c_orig, c)

/-- `main` of ctxt_conv_test.cpp:5-26: `z_sq_orig` and `z_sq`. -/
noncomputable def ctxtConvTestF (evk0 : R_Q_square (2 * LOGQ) (2^LOGN)) (ct0 ct_sq0 : R_Q_square LOGQ (2^LOGN))
    (ρ : RealRng) (ω : Rng) : M (CVec LOGN × CVec LOGN) := do
  let z := (set_random_message LOGN ρ).1
  let z_sq_orig ← MsgF.mul z z
  let k ← keygen (2^LOGN) H ω
  let s_sq ← convI k.1 k.1
  let evk ← swkgen (LOGQ := LOGQ) RAND_MAX s_sq k.1 evk0 k.2
  let Delta ← shl1 LOGDELTA
  let pt ← encodeF L.toLibm LOGQ z Delta
  let ct ← enc RAND_MAX pt k.1 ct0 evk.2
  let ct_sq ← Mul ct.1 ct.1 evk.1 ct_sq0
  let pt_sq ← dec ct_sq k.1
  let z_sq ← decode_logF L.toLibm pt_sq (2 * LOGDELTA : Nat)
  pure (z_sq_orig, z_sq)

/-- `valr_double` of coeffToSlot_test.cpp:31-39 and `vali_double`, :41-47. -/
noncomputable def lowDoubleF (Delta : W) (x : Z_Q LOGQ) : M ℝ := do
  let val := copy x
  let is_negative := val.is_bigger_than_halfQ
  let val := if is_negative then Z_Q.negate val else val
  let d ← fl ((val.data (bot LOGQ)).toNat : ℝ)
  let d ← if is_negative then fl (d * -1) else pure d
  divDeltaF d Delta

/-- `z_cts_exact`, coeffToSlot_test.cpp:29-50. -/
noncomputable def ctsExactF (Delta : W) (pt : R_Q LOGQ (2^LOGN)) : M (CVec LOGN) := do
  let r ← tabM (2^(LOGN-1)) (fun i => do
    let k ← bitReverse (BitVec.ofNat 32 i) (LOGN - 1)
    let valr ← rd pt k.toNat
    let vali ← rd pt (k.toNat + 2^LOGN / 2)
    let a ← lowDoubleF Delta valr
    let b ← lowDoubleF Delta vali
    pure (a, b))
  pure (fun i => (r i).1, fun i => (r i).2)

/-- `CoeffToSlot_test`, coeffToSlot_test.cpp:6-54: `z_cts_res` and `z_cts_exact`; `LDt` is `LOGDELTA_boot_tilde`. -/
noncomputable def CoeffToSlot_testF (LDt G : Nat) (ct0 : R_Q_square LOGQ (2^LOGN)) (ρ : RealRng) (ω : Rng) :
    M (CVec LOGN × CVec LOGN) := do
  let k ← keygen (2^LOGN) H ω
  let z := (set_random_message LOGN ρ).1
  let Delta ← shl1 LOGDELTA
  let pt ← encodeF L.toLibm LOGQ z Delta
  let ct ← enc RAND_MAX pt k.1 ct0 k.2
  let ct_cts ← CoeffToSlotF L RAND_MAX LDt G ct.1 k.1 ct.2
  let pt_cts0 ← dec ct_cts.1.1 k.1
  let z_cts0 ← decode_logF L.toLibm pt_cts0 (LOGDELTA + (LOGN - 1) / G * LDt : Nat)
  let pt_cts1 ← dec ct_cts.1.2 k.1
  let z_cts1 ← decode_logF L.toLibm pt_cts1 (LOGDELTA + (LOGN - 1) / G * LDt : Nat)
  let z_cts_exact ← ctsExactF Delta pt
  pure ((z_cts0.1, z_cts1.1), z_cts_exact)

/-- `CoeffToSlot_SlotToCoeff_test`, coeffToSlot_test.cpp:56-75: `z` and `z_out`; `LDb` is `LOGDELTA_boot`. -/
noncomputable def CoeffToSlot_SlotToCoeff_testF (LDt LDb G : Nat) (ct0 : R_Q_square LOGQ (2^LOGN)) (ρ : RealRng) (ω : Rng) :
    M (CVec LOGN × CVec LOGN) := do
  let k ← keygen (2^LOGN) H ω
  let z := (set_random_message LOGN ρ).1
  let Delta ← shl1 LOGDELTA
  let pt ← encodeF L.toLibm LOGQ z Delta
  let ct ← enc RAND_MAX pt k.1 ct0 k.2
  let ct_cts ← CoeffToSlotF L RAND_MAX LDt G ct.1 k.1 ct.2
  let ct_out ← SlotToCoeffF L.toLibm RAND_MAX LDb G ct_cts.1.1 ct_cts.1.2 k.1 ct_cts.2
  let pt_out ← dec ct_out.1 k.1
  let z_out ← decode_logF L.toLibm pt_out (LOGDELTA + (LOGN - 1) / G * LDt + (LOGN - 1) / G * LDb : Nat)
  pure (z, z_out)

/-- `EvalMod_test`, evalMod_test.cpp:6-28: `z` and `z_out`; the scale is `LOGDELTA_boot`. -/
noncomputable def EvalMod_testF (K : Int) (Q1 Q2 Q3 Q4 Q5 Q6 Q7 Q8 Q9 Q10 Q11 Q12 : Nat)
    [NeZero Q1] [NeZero Q2] [NeZero Q3] [NeZero Q4] [NeZero Q5] [NeZero Q6] [NeZero Q7] [NeZero Q8] [NeZero Q9]
    [NeZero Q10] [NeZero Q11] [NeZero Q12] (ct0 : R_Q_square LOGQ (2^LOGN)) (ω : Rng) : M (CVec LOGN × CVec LOGN) := do
  let k ← keygen (2^LOGN) H ω
  let z ← set_evalmod_messageF LOGN
  let Delta ← shl1 LOGDELTA
  let pt ← encodeF L.toLibm LOGQ z Delta
  let ct ← enc RAND_MAX pt k.1 ct0 k.2
  let ct_out ← EvalModKeyF RAND_MAX LOGDELTA K Q1 Q2 Q3 Q4 Q5 Q6 Q7 Q8 Q9 Q10 Q11 Q12 ct.1 k.1 ct.2
  let pt_out ← dec ct_out.1 k.1
  let z_out ← decode_logF L.toLibm pt_out (LOGDELTA : Nat)
  pure (z, z_out)

/-- `set_test_U0_matrix`, setup.h:87-97. -/
noncomputable def set_test_U0_matrixF (L : Libm) (LOGN : Nat) (A0 : Fin (LOGN - 1) → Fac LOGN) : M (Fin (LOGN - 1) → Fac LOGN) := do
  let U ← splitU0NRF L LOGN A0
  tabM (LOGN - 1) (fun n => do
    let a ← rd U n
    let r ← a.1.transpose
    let i ← a.2.transpose
    pure (r, i.negate))

/-- `linear_transform_test`, matmul_test.cpp:56-86: `z_ser`, `z_gr2` and `z_gr4`, with `LOGN = 9` where the source
writes 8, 4 and 2. -/
noncomputable def linear_transform_testF (A0 : Fin (LOGN - 1) → Fac LOGN) (ct0 : R_Q_square LOGQ (2^LOGN)) (ρ : RealRng) (ω : Rng) :
    M (CVec LOGN × CVec LOGN × CVec LOGN) := do
  let U ← set_test_U0_matrixF L.toLibm LOGN A0
  let k ← keygen (2^LOGN) H ω
  let z := (set_random_message LOGN ρ).1
  let Delta ← shl1 LOGDELTA
  let pt ← encodeF L.toLibm LOGQ z Delta
  let ct ← enc RAND_MAX pt k.1 ct0 k.2
  let ct_ser ← serialLTF L.toLibm RAND_MAX LOGDELTA U ct.1 k.1 ct.2
  let ct_gr2 ← groupedLTF L.toLibm RAND_MAX LOGDELTA 2 U ct.1 k.1 ct_ser.2
  let ct_gr4 ← groupedLTF L.toLibm RAND_MAX LOGDELTA 4 U ct.1 k.1 ct_gr2.2
  let pt_ser ← dec ct_ser.1 k.1
  let z_ser ← decode_logF L.toLibm pt_ser (LOGDELTA + 8 * LOGDELTA : Nat)
  let pt_gr2 ← dec ct_gr2.1 k.1
  let z_gr2 ← decode_logF L.toLibm pt_gr2 (LOGDELTA + 4 * LOGDELTA : Nat)
  let pt_gr4 ← dec ct_gr4.1 k.1
  let z_gr4 ← decode_logF L.toLibm pt_gr4 (LOGDELTA + 2 * LOGDELTA : Nat)
  pure (z_ser, z_gr2, z_gr4)

end

end EvalRound

import Verif.Model.Measure

/-!
# The programs test/conv_test.cpp, ctxt_conv_test.cpp, coeffToSlot_test.cpp, evalMod_test.cpp and matmul_test.cpp

Each definition returns the messages that the program prints. Exact real arithmetic for `double`. The constants of
experiment/test.h:11-25 are parameters; `ρ` is what `dist(gen)` returns, `ω` what `rand()` returns, `ct0`, `evk0` are the
contents of uninitialised ciphertexts.
-/

namespace EvalRound
open Z_Q

/-- `set_evalmod_message`, setup.h:51-58. -/
noncomputable def set_evalmod_message (LOGN : Nat) : CVec LOGN := (fun i => 1 / 10000 + ((i.val % 24 : Nat) : ℝ), fun _ => 0)

/-- `set_test_U0_matrix`, setup.h:87-97: the same statements as the table of `ifftNR`, DFT.h:104-111. The arrays of the caller
are uninitialised; `splitU0NR` overwrites all of them. -/
noncomputable def set_test_U0_matrix (LOGN : Nat) (A0 : Fin (LOGN - 1) → Fac LOGN) : M (Fin (LOGN - 1) → Fac LOGN) := do
  let U ← splitU0NR LOGN A0
  tabM (LOGN - 1) (fun n => do
    let a ← rd U n
    let r ← a.1.transpose
    let i ← a.2.transpose
    pure (r, i.negate))

section
variable (RAND_MAX LOGDELTA : Nat) (H : Int) {LOGQ LOGN : Nat} [NeZero LOGQ]

/-- `main` of conv_test.cpp:6-21: `c_orig` and `c`. -/
noncomputable def convTest (LOGQ LOGN : Nat) [NeZero LOGQ] (ρ : RealRng) : M (CVec LOGN × CVec LOGN) := do
  let a := set_random_message LOGN ρ
  let b := set_random_message LOGN a.2
  let Delta ← shl1 LOGDELTA
  let pt_a ← encode LOGQ a.1 Delta
  let pt_b ← encode LOGQ b.1 Delta
  let c_orig : CVec LOGN := Msg.mul a.1 b.1
  let pt_c ← conv pt_a pt_b
  let c ← decode_log pt_c (LOGDELTA * 2 : Nat)
  pure (c_orig, c)

/-- `main` of ctxt_conv_test.cpp:5-26: `z_sq_orig` and `z_sq`. -/
noncomputable def ctxtConvTest (evk0 : R_Q_square (2 * LOGQ) (2^LOGN)) (ct0 ct_sq0 : R_Q_square LOGQ (2^LOGN))
    (ρ : RealRng) (ω : Rng) : M (CVec LOGN × CVec LOGN) := do
  let z := (set_random_message LOGN ρ).1
  let z_sq_orig : CVec LOGN := Msg.mul z z
  let k ← keygen (2^LOGN) H ω
  let s_sq ← convI k.1 k.1
  let evk ← swkgen (LOGQ := LOGQ) RAND_MAX s_sq k.1 evk0 k.2
  let Delta ← shl1 LOGDELTA
  let pt ← encode LOGQ z Delta
  let ct ← enc RAND_MAX pt k.1 ct0 evk.2
  let ct_sq ← Mul ct.1 ct.1 evk.1 ct_sq0
  let pt_sq ← dec ct_sq k.1
  let z_sq ← decode_log pt_sq (2 * LOGDELTA : Nat)
  pure (z_sq_orig, z_sq)

/-- `valr_double` of coeffToSlot_test.cpp:31-39 (and `vali_double`, :41-47) before the division: limb 0 of the absolute value,
with the sign. -/
noncomputable def lowDouble (x : Z_Q LOGQ) : ℝ :=
  let val := copy x
  let is_negative := val.is_bigger_than_halfQ
  let val := if is_negative then Z_Q.negate val else val
  let d : ℝ := ((val.data (bot LOGQ)).toNat : ℝ)
  if is_negative then d * -1 else d

/-- `z_cts_exact`, coeffToSlot_test.cpp:29-50. -/
noncomputable def ctsExact (Delta : W) (pt : R_Q LOGQ (2^LOGN)) : M (CVec LOGN) := do
  let r ← tabM (2^(LOGN-1)) (fun i => do
    let k ← bitReverse (BitVec.ofNat 32 i) (LOGN - 1)
    let valr ← rd pt k.toNat
    let vali ← rd pt (k.toNat + 2^LOGN / 2)
    pure (lowDouble valr / (Delta.toNat : ℝ), lowDouble vali / (Delta.toNat : ℝ)))
  pure (fun i => (r i).1, fun i => (r i).2)

/-- `CoeffToSlot_test`, coeffToSlot_test.cpp:6-54: `z_cts_res` and `z_cts_exact`; `LDt` is `LOGDELTA_boot_tilde`. -/
noncomputable def CoeffToSlot_test (LDt G : Nat) (ct0 : R_Q_square LOGQ (2^LOGN)) (ρ : RealRng) (ω : Rng) :
    M (CVec LOGN × CVec LOGN) := do
  let k ← keygen (2^LOGN) H ω
  let z := (set_random_message LOGN ρ).1
  let Delta ← shl1 LOGDELTA
  let pt ← encode LOGQ z Delta
  let ct ← enc RAND_MAX pt k.1 ct0 k.2
  let ct_cts ← CoeffToSlot RAND_MAX LDt G ct.1 k.1 ct.2
  let pt_cts0 ← dec ct_cts.1.1 k.1
  let z_cts0 ← decode_log pt_cts0 (LOGDELTA + (LOGN - 1) / G * LDt : Nat)
  let pt_cts1 ← dec ct_cts.1.2 k.1
  let z_cts1 ← decode_log pt_cts1 (LOGDELTA + (LOGN - 1) / G * LDt : Nat)
  let z_cts_exact ← ctsExact Delta pt
  pure ((z_cts0.1, z_cts1.1), z_cts_exact)

/-- `CoeffToSlot_SlotToCoeff_test`, coeffToSlot_test.cpp:56-75: `z` and `z_out`; `LDb` is `LOGDELTA_boot`. -/
noncomputable def CoeffToSlot_SlotToCoeff_test (LDt LDb G : Nat) (ct0 : R_Q_square LOGQ (2^LOGN)) (ρ : RealRng) (ω : Rng) :
    M (CVec LOGN × CVec LOGN) := do
  let k ← keygen (2^LOGN) H ω
  let z := (set_random_message LOGN ρ).1
  let Delta ← shl1 LOGDELTA
  let pt ← encode LOGQ z Delta
  let ct ← enc RAND_MAX pt k.1 ct0 k.2
  let ct_cts ← CoeffToSlot RAND_MAX LDt G ct.1 k.1 ct.2
  let ct_out ← SlotToCoeff RAND_MAX LDb G ct_cts.1.1 ct_cts.1.2 k.1 ct_cts.2
  let pt_out ← dec ct_out.1 k.1
  let z_out ← decode_log pt_out (LOGDELTA + (LOGN - 1) / G * LDt + (LOGN - 1) / G * LDb : Nat)
  pure (z, z_out)

/-- `EvalMod_test`, evalMod_test.cpp:6-28: `z` and `z_out`; the scale is `LOGDELTA_boot`. -/
noncomputable def EvalMod_test (K : Int) (Q1 Q2 Q3 Q4 Q5 Q6 Q7 Q8 Q9 Q10 Q11 Q12 : Nat)
    [NeZero Q1] [NeZero Q2] [NeZero Q3] [NeZero Q4] [NeZero Q5] [NeZero Q6] [NeZero Q7] [NeZero Q8] [NeZero Q9]
    [NeZero Q10] [NeZero Q11] [NeZero Q12] (ct0 : R_Q_square LOGQ (2^LOGN)) (ω : Rng) : M (CVec LOGN × CVec LOGN) := do
  let k ← keygen (2^LOGN) H ω
  let z := set_evalmod_message LOGN
  let Delta ← shl1 LOGDELTA
  let pt ← encode LOGQ z Delta
  let ct ← enc RAND_MAX pt k.1 ct0 k.2
  let ct_out ← EvalModKey RAND_MAX LOGDELTA K Q1 Q2 Q3 Q4 Q5 Q6 Q7 Q8 Q9 Q10 Q11 Q12 ct.1 k.1 ct.2
  let pt_out ← dec ct_out.1 k.1
  let z_out ← decode_log pt_out (LOGDELTA : Nat)
  pure (z, z_out)

/-- `linear_transform_test`, matmul_test.cpp:56-86: `z_ser`, `z_gr2` and `z_gr4`. The source writes `8`, `8`, `4` and `2` for
`LOGN-1` and its quotients. -/
noncomputable def linear_transform_test (A0 : Fin (LOGN - 1) → Fac LOGN) (ct0 : R_Q_square LOGQ (2^LOGN)) (ρ : RealRng) (ω : Rng) :
    M (CVec LOGN × CVec LOGN × CVec LOGN) := do
  let U ← set_test_U0_matrix LOGN A0
  let k ← keygen (2^LOGN) H ω
  let z := (set_random_message LOGN ρ).1
  let Delta ← shl1 LOGDELTA
  let pt ← encode LOGQ z Delta
  let ct ← enc RAND_MAX pt k.1 ct0 k.2
  let ct_ser ← serialLT RAND_MAX LOGDELTA U ct.1 k.1 ct.2
  let ct_gr2 ← groupedLT RAND_MAX LOGDELTA 2 U ct.1 k.1 ct_ser.2
  let ct_gr4 ← groupedLT RAND_MAX LOGDELTA 4 U ct.1 k.1 ct_gr2.2
  let pt_ser ← dec ct_ser.1 k.1
  let z_ser ← decode_log pt_ser (LOGDELTA + 8 * LOGDELTA : Nat)
  let pt_gr2 ← dec ct_gr2.1 k.1
  let z_gr2 ← decode_log pt_gr2 (LOGDELTA + 4 * LOGDELTA : Nat)
  let pt_gr4 ← dec ct_gr4.1 k.1
  let z_gr4 ← decode_log pt_gr4 (LOGDELTA + 2 * LOGDELTA : Nat)
  pure (z_ser, z_gr2, z_gr4)

end

end EvalRound

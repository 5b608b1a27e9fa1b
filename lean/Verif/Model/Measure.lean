import Verif.Model.Driver

/-!
# The drivers that look inside the bootstrapping: test/end_to_end_test.cpp,
experiment/section3/theorem_cts_error.cpp and experiment/section4/example_sup_norm.cpp

Exact real arithmetic for `double`. Printing and the constants printed beside the measured numbers are left out.
-/

namespace EvalRound
open Z_Q

/-- What `dist(gen)` returns, call after call: setup.h:9-14. -/
abbrev RealRng := Nat → ℝ

/-- `set_random_message`, setup.h:44-49 (with `sampleUniform`, setup.h:16-21); `ρ` starts at the first call. -/
def set_random_message (LOGN : Nat) (ρ : RealRng) : CVec LOGN × RealRng :=
  ((fun i => ρ i, fun i => ρ (2^(LOGN-1) + i)), fun j => ρ (2^LOGN + j))

/-- `(double) pt[k]`, as in end_to_end_test.cpp:47. -/
noncomputable def rdDouble {Q N : Nat} [NeZero Q] (pt : R_Q Q N) (k : Nat) : M ℝ := do
  let x ← rd pt k
  pure (x.toDoubleInt : ℝ)

/-- A message whose real parts are `f(bitReverse(i,LOGN-1)+add)/Delta`; the imaginary parts keep the zero of the constructor
(message.h:15-20). The loops of end_to_end_test.cpp:46-53, 78-85, 113-120 and 149-156, theorem_cts_error.cpp:65-72 and
example_sup_norm.cpp:108-115. -/
noncomputable def brvMessage (LOGN : Nat) (Delta : W) (f : Nat → M ℝ) (add : Nat) : M (CVec LOGN) := do
  let r ← tabM (2^(LOGN-1)) (fun i => do
    let k ← bitReverse (BitVec.ofNat 32 i) (LOGN-1)
    let x ← f (k.toNat + add)
    pure (x / (Delta.toNat : ℝ)))
  pure (r, fun _ => 0)

/-- Decryption and `decode_log` of a ciphertext, end_to_end_test.cpp:39-40, 73-74, 106-107 and 142-143. -/
noncomputable def decMessage {LOGN Q : Nat} [NeZero Q] (LOGDELTA : Int) (ct : R_Q_square Q (2^LOGN)) (s : Fin (2^LOGN) → Int) :
    M (CVec LOGN) := do
  let pt ← dec ct s
  decode_log pt LOGDELTA

/-- `std::max(sup_norm(e[0]), sup_norm(e[1]))` with `e[i]` the difference of two messages, end_to_end_test.cpp:56-59. -/
noncomputable def supErr {LOGN : Nat} (z0 z1 x0 x1 : CVec LOGN) : ℝ :=
  max (Msg.sup_norm (Msg.sub z0 x0)) (Msg.sup_norm (Msg.sub z1 x1))

section
variable {LOGN : Nat} {QT Q0 Q12 QS : Nat} [NeZero QT] [NeZero Q0] [NeZero Q12] [NeZero QS]

/-- "CoeffToSlot Test", end_to_end_test.cpp:34-60: the number printed as `cts error`. -/
noncomputable def ctsTest (Delta : W) (ct_ctsrs0 ct_ctsrs1 : R_Q_square Q0 (2^LOGN)) (ct_modraise : R_Q_square QT (2^LOGN))
    (s : Fin (2^LOGN) → Int) : M ℝ := do
  let z0 ← decMessage 50 ct_ctsrs0 s
  let z1 ← decMessage 50 ct_ctsrs1 s
  let pt_modraise ← dec ct_modraise s
  let x0 ← brvMessage LOGN Delta (rdDouble pt_modraise) 0
  let x1 ← brvMessage LOGN Delta (rdDouble pt_modraise) (2^LOGN / 2)
  pure (supErr z0 z1 x0 x1)

/-- "EvalMod Test", end_to_end_test.cpp:68-92: the number printed as `evalmod error`. -/
noncomputable def evalmodTest (Delta : W) (ct_evalmod0 ct_evalmod1 : R_Q_square Q12 (2^LOGN)) (pt : R_Q 60 (2^LOGN))
    (s : Fin (2^LOGN) → Int) : M ℝ := do
  let z0 ← decMessage 50 ct_evalmod0 s
  let z1 ← decMessage 50 ct_evalmod1 s
  let x0 ← brvMessage LOGN Delta (rdDouble pt) 0
  let x1 ← brvMessage LOGN Delta (rdDouble pt) (2^LOGN / 2)
  pure (supErr z0 z1 x0 x1)

/-- "EvalqI Test", end_to_end_test.cpp:101-127: the number printed as `evalqI error`. -/
noncomputable def evalqITest (Delta : W) (ct_evalqI0 ct_evalqI1 : R_Q_square Q12 (2^LOGN)) (ct_modraise : R_Q_square QT (2^LOGN))
    (pt : R_Q 60 (2^LOGN)) (s : Fin (2^LOGN) → Int) : M ℝ := do
  let z0 ← decMessage 50 ct_evalqI0 s
  let z1 ← decMessage 50 ct_evalqI1 s
  let pt_modraise ← dec ct_modraise s
  let diff := fun k => do
    let x ← rdDouble pt_modraise k
    let y ← rdDouble pt k
    pure (x - y)
  let x0 ← brvMessage LOGN Delta diff 0
  let x1 ← brvMessage LOGN Delta diff (2^LOGN / 2)
  pure (supErr z0 z1 x0 x1)

/-- "SlotToCoeff Test", end_to_end_test.cpp:136-163: the number printed as `stc error`. -/
noncomputable def stcTest (Delta : W) (ct_evalqI0 ct_evalqI1 : R_Q_square Q12 (2^LOGN)) (ct_qI : R_Q_square QS (2^LOGN))
    (s : Fin (2^LOGN) → Int) : M ℝ := do
  let z0 ← decMessage 50 ct_evalqI0 s
  let z1 ← decMessage 50 ct_evalqI1 s
  let pt_qI ← dec ct_qI s
  let x0 ← brvMessage LOGN Delta (rdDouble pt_qI) 0
  let x1 ← brvMessage LOGN Delta (rdDouble pt_qI) (2^LOGN / 2)
  pure (supErr z0 z1 x0 x1)

end

/-- What `end_to_end_test` prints, end_to_end_test.cpp:59-190. -/
structure EndToEndOut (LOGN : Nat) where
  cts_error : ℝ
  evalmod_error : ℝ
  evalqI_error : ℝ
  stc_error : ℝ
  e_norm : ℝ
  z_out : CVec LOGN

section
variable (RAND_MAX LDcts LDstc G : Nat) (QT Q0 Q1 Q2 Q3 Q4 Q5 Q6 Q7 Q8 Q9 Q10 Q11 Q12 QS : Nat)
  [NeZero QT] [NeZero Q0] [NeZero Q1] [NeZero Q2] [NeZero Q3] [NeZero Q4] [NeZero Q5] [NeZero Q6] [NeZero Q7]
  [NeZero Q8] [NeZero Q9] [NeZero Q10] [NeZero Q11] [NeZero Q12] [NeZero QS]

/-- `end_to_end_test` after the encryption, end_to_end_test.cpp:22-187; `LOGDELTA = 50`, `LOGDELTA_boot = 60`, `K = 24`
(rns.h:10-19). The order of the names of the moduli is the one of Model/Boot.lean. -/
noncomputable def endToEndRun {LOGN : Nat} (Delta : W) (pt : R_Q 60 (2^LOGN)) (ct : R_Q_square 60 (2^LOGN))
    (s : Fin (2^LOGN) → Int) (ω : Rng) : M (EndToEndOut LOGN) := do
  let ct_modraise := mod_raise QT ct
  let r ← CoeffToSlot RAND_MAX LDcts G ct_modraise s ω
  let ct_ctsrs0 : R_Q_square Q0 (2^LOGN) ← RS r.1.1 R_Q_square.setzero
  let ct_ctsrs1 : R_Q_square Q0 (2^LOGN) ← RS r.1.2 R_Q_square.setzero
  let cts ← ctsTest Delta ct_ctsrs0 ct_ctsrs1 ct_modraise s
  let e0 ← EvalModKey RAND_MAX 60 24 Q1 Q2 Q3 Q4 Q5 Q6 Q7 Q8 Q9 Q10 Q11 Q12 ct_ctsrs0 s r.2
  let e1 ← EvalModKey RAND_MAX 60 24 Q1 Q2 Q3 Q4 Q5 Q6 Q7 Q8 Q9 Q10 Q11 Q12 ct_ctsrs1 s e0.2
  let evm ← evalmodTest Delta e0.1 e1.1 pt s
  let ct_evalqI0 := R_Q_square.sub (R_Q_square.resize Q12 ct_ctsrs0) e0.1
  let ct_evalqI1 := R_Q_square.sub (R_Q_square.resize Q12 ct_ctsrs1) e1.1
  let eqI ← evalqITest Delta ct_evalqI0 ct_evalqI1 ct_modraise pt s
  let ct_stc ← SlotToCoeff RAND_MAX LDstc G ct_evalqI0 ct_evalqI1 s e1.2
  let ct_qI : R_Q_square QS (2^LOGN) ← RS ct_stc.1 R_Q_square.setzero
  let stc ← stcTest Delta ct_evalqI0 ct_evalqI1 ct_qI s
  let ct_boot := R_Q_square.sub (R_Q_square.resize QS ct_modraise) ct_qI
  let pt_out ← dec ct_boot s
  let z_out ← decode_log pt_out 50
  pure ⟨cts, evm, eqI, stc, e_sup_norm Delta pt pt_out, z_out⟩

/-- `end_to_end_test`, end_to_end_test.cpp:6-187; `ct0` is what the uninitialised `ct` holds. -/
noncomputable def endToEndDriver {LOGN : Nat} (H : Int) (z : CVec LOGN) (ct0 : R_Q_square 60 (2^LOGN)) (ω : Rng) :
    M (EndToEndOut LOGN) := do
  let k ← keygen (2^LOGN) H ω
  let Delta ← shl1 50
  let pt ← encode 60 z Delta
  let ct ← enc RAND_MAX pt k.1 ct0 k.2
  endToEndRun RAND_MAX LDcts LDstc G QT Q0 Q1 Q2 Q3 Q4 Q5 Q6 Q7 Q8 Q9 Q10 Q11 Q12 QS Delta pt ct.1 k.1 ct.2

end

/-- `measure_cts_error`, theorem_cts_error.cpp:6-93, and `measure_sup_norm`, example_sup_norm.cpp:44-129, down to the numbers
measured: `norm(z_amb)`, `norm(e_whole)` and `sup_norm(e_whole)`. -/
noncomputable def measureCts (RAND_MAX LDcts G : Nat) (H : Int) (QT : Nat) [NeZero QT] {LOGN : Nat} (ρ : RealRng)
    (ct0 : R_Q_square 60 (2^LOGN)) (ω : Rng) : M (ℝ × ℝ × ℝ) := do
  assertM ((LOGN - 1) % G = 0)
  let k ← keygen (2^LOGN) H ω
  let z := (set_random_message LOGN ρ).1
  let Delta ← shl1 50
  let pt_q ← encode 60 z Delta
  let ct_q ← enc RAND_MAX pt_q k.1 ct0 k.2
  let ct := R_Q_square.resize QT ct_q.1
  let pt ← dec ct k.1
  let z_amb ← decode pt Delta
  let c ← CoeffToSlot RAND_MAX LDcts G ct k.1 ct_q.2
  let z0 ← decMessage (50 + ((LOGN-1)/G*LDcts : Nat)) c.1.1 k.1
  let z1 ← decMessage (50 + ((LOGN-1)/G*LDcts : Nat)) c.1.2 k.1
  let x0 ← brvMessage LOGN Delta (rdDouble pt) 0
  let x1 ← brvMessage LOGN Delta (rdDouble pt) (2^LOGN / 2)
  let e ← Msg.aggregate LOGN (Msg.sub z0 x0) (Msg.sub z1 x1)
  pure (Msg.norm z_amb, Msg.norm e, Msg.sup_norm e)

/-- One round of `check_sup_norm_bound`, example_sup_norm.cpp:19-33: the Euclidean norm, the sup norm and their ratio. -/
noncomputable def supNormRound (LOGQ : Nat) [NeZero LOGQ] {LOGN : Nat} (z : CVec LOGN) (Delta : W) : M (ℝ × ℝ × ℝ) := do
  let pt ← encode LOGQ z Delta
  let p : ℝ × ℝ := forFin (2^LOGN) (fun i (p : ℝ × ℝ) =>
    let val := copy (pt i)
    let val := if val.is_bigger_than_halfQ then negate val else val
    let a : ℝ := ((val.data (bot LOGQ)).toNat : ℝ)
    (p.1 + a * a, if a > p.2 then a else p.2)) (0, 0)
  let norm := Real.sqrt p.1
  pure (norm, p.2, p.2 / (norm / Real.sqrt ((2^LOGN : Nat) : ℝ)))

/-- `check_sup_norm_bound`, example_sup_norm.cpp:8-42: `max_sup_norm_ratio` after `rounds` rounds. -/
noncomputable def checkSupNorm (LOGQ : Nat) [NeZero LOGQ] (LOGN rounds : Nat) (ρ : RealRng) : M ℝ := do
  let Delta ← shl1 50
  let r ← forUp 0 rounds (fun _ (p : ℝ × RealRng) => do
    let z := set_random_message LOGN p.2
    let o ← supNormRound LOGQ z.1 Delta
    pure (if o.2.2 > p.1 then o.2.2 else p.1, z.2)) (0, ρ)
  pure r.1

end EvalRound

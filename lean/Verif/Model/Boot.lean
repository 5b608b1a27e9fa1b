import Verif.Model.EvalMod
import Verif.Model.Rot

/-!
# Bootstrapping

The pipeline of src/test/bootstrap_test.cpp and src/experiment/section4/proposal.cpp, from the ciphertext
to the bootstrapped ciphertext. In the source `LF` is `LOGq`, `QT` is `LOGQ`, `Q0` is `LOGQ_after_cts`,
`Qi` is `Q0 - i*LOGDELTA_boot`, `Q12` is `LOGQ_after_evalmod` and `QS` is `LOGQ_after_stc`.
The local ciphertexts are uninitialised in the source; `RS` overwrites them.
-/

namespace EvalRound
open Z_Q

section
variable {LOGN LF : Nat} [NeZero LF]

/-- The ciphertexts of the drivers up to `EvalMod`, bootstrap_test.cpp:19-35, proposal.cpp:27-43 and 94-110. -/
structure BootState (LOGN QT Q0 Q12 : Nat) [NeZero QT] [NeZero Q0] [NeZero Q12] where
  ct_modraise : R_Q_square QT (2^LOGN)
  ct_ctsrs0 : R_Q_square Q0 (2^LOGN)
  ct_ctsrs1 : R_Q_square Q0 (2^LOGN)
  ct_evalmod0 : R_Q_square Q12 (2^LOGN)
  ct_evalmod1 : R_Q_square Q12 (2^LOGN)
  ω : Rng

/-- ModRaise, CoeffToSlot, the two rescalings and the two calls of EvalMod: bootstrap_test.cpp:19-35,
proposal.cpp:27-43 and proposal.cpp:94-110. -/
noncomputable def bootToEvalMod (RAND_MAX LDcts LDboot G : Nat) (K : Int) (QT Q0 Q1 Q2 Q3 Q4 Q5 Q6 Q7 Q8 Q9 Q10 Q11 Q12 : Nat)
    [NeZero QT] [NeZero Q0] [NeZero Q1] [NeZero Q2] [NeZero Q3] [NeZero Q4] [NeZero Q5] [NeZero Q6] [NeZero Q7]
    [NeZero Q8] [NeZero Q9] [NeZero Q10] [NeZero Q11] [NeZero Q12]
    (ct : R_Q_square LF (2^LOGN)) (s : Fin (2^LOGN) → Int) (ω : Rng) : M (BootState LOGN QT Q0 Q12) := do
  let ct_modraise := mod_raise QT ct
  let r ← CoeffToSlot RAND_MAX LDcts G ct_modraise s ω
  let ct_ctsrs0 : R_Q_square Q0 (2^LOGN) ← RS r.1.1 R_Q_square.setzero
  let ct_ctsrs1 : R_Q_square Q0 (2^LOGN) ← RS r.1.2 R_Q_square.setzero
  let e0 ← EvalModKey RAND_MAX LDboot K Q1 Q2 Q3 Q4 Q5 Q6 Q7 Q8 Q9 Q10 Q11 Q12 ct_ctsrs0 s r.2
  let e1 ← EvalModKey RAND_MAX LDboot K Q1 Q2 Q3 Q4 Q5 Q6 Q7 Q8 Q9 Q10 Q11 Q12 ct_ctsrs1 s e0.2
  pure ⟨ct_modraise, ct_ctsrs0, ct_ctsrs1, e0.1, e1.1, e1.2⟩

variable {QT Q0 Q12 : Nat} [NeZero QT] [NeZero Q0] [NeZero Q12]

/-- SlotToCoeff and the last rescaling of the conventional bootstrapping: bootstrap_test.cpp:37-43,
proposal.cpp:45-51. -/
noncomputable def bootConvTail (RAND_MAX LDstc G QS : Nat) [NeZero QS] (b : BootState LOGN QT Q0 Q12)
    (s : Fin (2^LOGN) → Int) : M (R_Q_square QS (2^LOGN) × Rng) := do
  let ct_stc ← SlotToCoeff RAND_MAX LDstc G b.ct_evalmod0 b.ct_evalmod1 s b.ω
  let ct_boot : R_Q_square QS (2^LOGN) ← RS ct_stc.1 R_Q_square.setzero
  pure (ct_boot, ct_stc.2)

/-- EvalqI, SlotToCoeff, the last rescaling and the subtraction of the proposed bootstrapping:
proposal.cpp:112-129, evalqI_test.cpp:40-60. end_to_end_test.cpp:94-99, 129-134 and 165-168 is the same code with checks between. -/
noncomputable def bootPropTail (RAND_MAX LDstc G QS : Nat) [NeZero QS] (b : BootState LOGN QT Q0 Q12)
    (s : Fin (2^LOGN) → Int) : M (R_Q_square QS (2^LOGN) × Rng) := do
  let ct_evalqI0 := R_Q_square.sub (R_Q_square.resize Q12 b.ct_ctsrs0) b.ct_evalmod0
  let ct_evalqI1 := R_Q_square.sub (R_Q_square.resize Q12 b.ct_ctsrs1) b.ct_evalmod1
  let ct_stc ← SlotToCoeff RAND_MAX LDstc G ct_evalqI0 ct_evalqI1 s b.ω
  let ct_qI : R_Q_square QS (2^LOGN) ← RS ct_stc.1 R_Q_square.setzero
  pure (R_Q_square.sub (R_Q_square.resize QS b.ct_modraise) ct_qI, ct_stc.2)

end

section
variable {LOGN LF : Nat} [NeZero LF] (RAND_MAX LDcts LDboot LDstc G : Nat) (K : Int)
  (QT Q0 Q1 Q2 Q3 Q4 Q5 Q6 Q7 Q8 Q9 Q10 Q11 Q12 QS : Nat)
  [NeZero QT] [NeZero Q0] [NeZero Q1] [NeZero Q2] [NeZero Q3] [NeZero Q4] [NeZero Q5] [NeZero Q6] [NeZero Q7]
  [NeZero Q8] [NeZero Q9] [NeZero Q10] [NeZero Q11] [NeZero Q12] [NeZero QS]

/-- The conventional bootstrapping, bootstrap_test.cpp:19-43, proposal.cpp:27-51. -/
noncomputable def bootConv (ct : R_Q_square LF (2^LOGN)) (s : Fin (2^LOGN) → Int) (ω : Rng) :
    M (R_Q_square QS (2^LOGN) × Rng) := do
  let b ← bootToEvalMod RAND_MAX LDcts LDboot G K QT Q0 Q1 Q2 Q3 Q4 Q5 Q6 Q7 Q8 Q9 Q10 Q11 Q12 ct s ω
  bootConvTail RAND_MAX LDstc G QS b s

/-- The proposed bootstrapping, proposal.cpp:94-129. -/
noncomputable def bootProp (ct : R_Q_square LF (2^LOGN)) (s : Fin (2^LOGN) → Int) (ω : Rng) :
    M (R_Q_square QS (2^LOGN) × Rng) := do
  let b ← bootToEvalMod RAND_MAX LDcts LDboot G K QT Q0 Q1 Q2 Q3 Q4 Q5 Q6 Q7 Q8 Q9 Q10 Q11 Q12 ct s ω
  bootPropTail RAND_MAX LDstc G QS b s

end

end EvalRound

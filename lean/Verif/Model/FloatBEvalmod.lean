import Verif.Model.BEvalmod
import Verif.Model.FloatBoot
import Verif.Model.FloatMessage

/-!
# The program experiment/section4/measure_b_evalmod.cpp in binary64

As `Verif/Model/BEvalmod.lean`, with every operation of `double` rounded.
-/

namespace EvalRound
open Z_Q

/-- The loops of measure_b_evalmod.cpp:17-28: `z.r` and `z_evalmod_exact.r`. `j / (double) eps_num` is written twice in the source. -/
noncomputable def bMessageF (L : LibmP) (LOGN : Nat) : M ((Fin (2^(LOGN-1)) → ℝ) × (Fin (2^(LOGN-1)) → ℝ)) := do
  let eps := epsNum LOGN
  let q_per_Delta := L.pow 2 10
  let r ← forUp 0 49 (fun i s => forUp 0 (2 * eps + 1).toNat
    (fun j (s : Nat × (Fin (2^(LOGN-1)) → ℝ) × (Fin (2^(LOGN-1)) → ℝ)) => do
      if eps = 0 then ub else do
      let ii ← fl (((i : Int) - 24 : Int) : ℝ)
      let p ← fl (ii * q_per_Delta)
      let jj ← fl (((j : Int) - eps : Int) : ℝ)
      let ee ← fl (eps : ℝ)
      let q ← fl (jj / ee)
      let v ← fl (p + q)
      let zr ← wr s.2.1 s.1 v
      let er ← wr s.2.2 s.1 q
      pure (s.1 + 1, zr, er)) s) (0, fun _ => 0, fun _ => 0)
  pure r.2

/-- `measure_b_evalmod`, measure_b_evalmod.cpp:6-56: the number printed. -/
noncomputable def measure_b_evalmodF (L : LibmP) (RAND_MAX LOGDELTA LOGDELTA_boot : Nat) (H K : Int) {LOGQ LOGN : Nat} [NeZero LOGQ]
    (Q1 Q2 Q3 Q4 Q5 Q6 Q7 Q8 Q9 Q10 Q11 Q12 : Nat)
    [NeZero Q1] [NeZero Q2] [NeZero Q3] [NeZero Q4] [NeZero Q5] [NeZero Q6] [NeZero Q7] [NeZero Q8] [NeZero Q9]
    [NeZero Q10] [NeZero Q11] [NeZero Q12] (ct0 : R_Q_square LOGQ (2^LOGN)) (ω : Rng) : M ℝ := do
  let k ← keygen (2^LOGN) H ω
  let b ← bMessageF L LOGN
  let z : CVec LOGN := (b.1, fun _ => 0)
  let z_evalmod_exact : CVec LOGN := (b.2, fun _ => 0)
  let Delta ← shl1 LOGDELTA
  let pt ← encodeF L.toLibm LOGQ z Delta
  let ct ← enc RAND_MAX pt k.1 ct0 k.2
  let ct_1 ← EvalModKeyF RAND_MAX LOGDELTA_boot K Q1 Q2 Q3 Q4 Q5 Q6 Q7 Q8 Q9 Q10 Q11 Q12 ct.1 k.1 ct.2
  let ct_evalmod ← EvalModKeyF RAND_MAX LOGDELTA_boot K Q1 Q2 Q3 Q4 Q5 Q6 Q7 Q8 Q9 Q10 Q11 Q12 ct.1 k.1 ct_1.2
  let pt_evalmod ← dec ct_evalmod.1 k.1
  let z_evalmod ← decode_logF L.toLibm pt_evalmod (LOGDELTA : Nat)
  let e ← MsgF.sub z_evalmod_exact z_evalmod
  MsgF.sup_norm (e.1, fun _ => 0)

end EvalRound

import Verif.Model.Measure

/-!
# The program experiment/section4/measure_b_evalmod.cpp

The constants of experiment/rns.h:10-20 are parameters. A division of a `double` by zero counts as undefined.
-/

namespace EvalRound
open Z_Q

/-- `eps_num`, measure_b_evalmod.cpp:19. -/
def epsNum (LOGN : Nat) : Int := (((2^LOGN / 2 / 49 : Nat) : Int) - 1).tdiv 2

/-- The loops of measure_b_evalmod.cpp:17-28: `z.r` and `z_evalmod_exact.r`. The constructor of `Message` sets all entries to 0.
The loop variables are shifted by `24` and by `eps_num`; `idx` is the first component of the state. -/
noncomputable def bMessage (LOGN : Nat) : M ((Fin (2^(LOGN-1)) → ℝ) × (Fin (2^(LOGN-1)) → ℝ)) := do
  let eps := epsNum LOGN
  let r ← forUp 0 49 (fun i s => forUp 0 (2 * eps + 1).toNat
    (fun j (s : Nat × (Fin (2^(LOGN-1)) → ℝ) × (Fin (2^(LOGN-1)) → ℝ)) => do
      if eps = 0 then ub else do
      let q : ℝ := (((j : Int) - eps : Int) : ℝ) / (eps : ℝ)
      let zr ← wr s.2.1 s.1 ((((i : Int) - 24 : Int) : ℝ) * 2^10 + q)
      let er ← wr s.2.2 s.1 q
      pure (s.1 + 1, zr, er)) s) (0, fun _ => 0, fun _ => 0)
  pure r.2

/-- `measure_b_evalmod`, measure_b_evalmod.cpp:6-56: the number printed, for `LOGDELTA` and `LOGDELTA_boot`. `EvalMod` runs
twice and the second result is used. -/
noncomputable def measure_b_evalmod (RAND_MAX LOGDELTA LOGDELTA_boot : Nat) (H K : Int) {LOGQ LOGN : Nat} [NeZero LOGQ]
    (Q1 Q2 Q3 Q4 Q5 Q6 Q7 Q8 Q9 Q10 Q11 Q12 : Nat)
    [NeZero Q1] [NeZero Q2] [NeZero Q3] [NeZero Q4] [NeZero Q5] [NeZero Q6] [NeZero Q7] [NeZero Q8] [NeZero Q9]
    [NeZero Q10] [NeZero Q11] [NeZero Q12] (ct0 : R_Q_square LOGQ (2^LOGN)) (ω : Rng) : M ℝ := do
  let k ← keygen (2^LOGN) H ω
  let b ← bMessage LOGN
  let z : CVec LOGN := (b.1, fun _ => 0)
  let z_evalmod_exact : CVec LOGN := (b.2, fun _ => 0)
  let Delta ← shl1 LOGDELTA
  let pt ← encode LOGQ z Delta
  let ct ← enc RAND_MAX pt k.1 ct0 k.2
  let ct_1 ← EvalModKey RAND_MAX LOGDELTA_boot K Q1 Q2 Q3 Q4 Q5 Q6 Q7 Q8 Q9 Q10 Q11 Q12 ct.1 k.1 ct.2
  let ct_evalmod ← EvalModKey RAND_MAX LOGDELTA_boot K Q1 Q2 Q3 Q4 Q5 Q6 Q7 Q8 Q9 Q10 Q11 Q12 ct.1 k.1 ct_1.2
  let pt_evalmod ← dec ct_evalmod.1 k.1
  let z_evalmod ← decode_log pt_evalmod (LOGDELTA : Nat)
  let e : CVec LOGN := Msg.sub z_evalmod_exact z_evalmod
  pure (Msg.sup_norm (e.1, fun _ => 0))

end EvalRound

import Verif.Model.Poly

/-!
# `EvalMod` of HEAAN/bootstrap.h:92-228

Exact real arithmetic for `double`, `PI` as π. The moduli `LOGQ - i*LOGDELTA` of the source are
parameters `Qi`. The four double-angle blocks have the same text as the blocks `T' = RS(2*T*T - 1)`
of poly.h and are modelled by `polyT`. Locals that are completely overwritten start as zero.
-/

namespace EvalRound
open Z_Q

/-- The constants of bootstrap.h:149-181, times `10^17`. -/
def evalModDigits : List Int :=
  [ -18121145350892778, 176, -51003675488366396, -206,
    -62436800964507644, -28, 17069002507116071, 187,
    64387933774156236, 155, -60946403046665876, -439,
    16023104261940782, -53, -5094267475677791, 128,
    145283705186850, 268, -24484541895481, -37,
    1620811709676, -323, -171679432516, 197,
    3753839882, 263, -274617457, 504,
    8565582, 1545, -460528, -2388 ]

/-- `u` of bootstrap.h:149-181. -/
noncomputable def evalModU (i : Fin 32) : ℝ := (evalModDigits.getD i 0 : ℝ) / 10^17

/-- `(1ULL<<LOGDELTA)/static_cast<double>(K)` converted to `uint64_t`: undefined for `K = 0`, where
the quotient is infinite, bootstrap.h:140. -/
noncomputable def divK (D : W) (K : Int) : M W := if K = 0 then ub else truncU64 ((D.toNat : ℝ) / (K : ℝ))

section
variable {N Q0 Q1 : Nat} [NeZero Q0] [NeZero Q1]

/-- `ct1`, bootstrap.h:139-146. -/
noncomputable def evalModStart (LOGDELTA : Nat) (K : Int) (ct : R_Q_square Q0 N) : M (R_Q_square Q1 N) := do
  let D ← shl1 LOGDELTA
  let w ← divK D K
  let ct_copy := R_Q_square.mulW (R_Q_square.copy ct) w
  let ct1 : R_Q_square Q1 N ← RS ct_copy R_Q_square.setzero
  let K4 ← intM (4 * K)
  let q ← divK D K4
  let qtK : Z_Q Q1 := ofW q
  let x ← rd ct1.1 0
  let c ← wr ct1.1 0 (sub x qtK)
  pure (c, ct1.2)

/-- `ct7`, bootstrap.h:215-219. The product `(1ULL<<LOGDELTA)*6` wraps at 64 bits. -/
def evalModSix (LOGDELTA : Nat) (ct6 : R_Q_square Q0 N) (evk : R_Q_square (2 * Q0) N) : M (R_Q_square Q1 N) := do
  let temp5 ← Mul ct6 ct6 evk R_Q_square.setzero
  let D ← shl1 LOGDELTA
  let six : Z_Q Q0 := mulW (ofW (D * 6)) D
  let x ← rd temp5.1 0
  let c ← wr temp5.1 0 (add x six)
  RS (c, temp5.2) R_Q_square.setzero

/-- `ct8`, bootstrap.h:221-223. -/
noncomputable def evalModLin (LOGDELTA : Nat) (ct6 : R_Q_square Q0 N) : M (R_Q_square Q1 N) := do
  let D ← shl1 LOGDELTA
  let w ← truncU64 ((D.toNat : ℝ) / (12 * Real.pi))
  let temp5 := R_Q_square.mulW (R_Q_square.copy ct6) w
  RS temp5 R_Q_square.setzero

end

section
variable {N Q0 Q1 Q2 Q3 Q4 Q5 Q6 Q7 Q8 Q9 Q10 Q11 Q12 : Nat} [NeZero Q0] [NeZero Q1] [NeZero Q2] [NeZero Q3]
  [NeZero Q4] [NeZero Q5] [NeZero Q6] [NeZero Q7] [NeZero Q8] [NeZero Q9] [NeZero Q10] [NeZero Q11] [NeZero Q12]

/-- `EvalMod<LOGQ,N,LOGDELTA,K>(ct,evk1,...,evk11,p)`, bootstrap.h:124-228. In the source `Qi` is
`LOGQ - i*LOGDELTA`. -/
noncomputable def EvalMod (LOGDELTA : Nat) (K : Int) (ct : R_Q_square Q0 N)
    (evk1 : R_Q_square (2 * Q1) N) (evk2 : R_Q_square (2 * Q2) N) (evk3 : R_Q_square (2 * Q3) N)
    (evk4 : R_Q_square (2 * Q4) N) (evk5 : R_Q_square (2 * Q5) N) (evk6 : R_Q_square (2 * Q6) N)
    (evk7 : R_Q_square (2 * Q7) N) (evk8 : R_Q_square (2 * Q8) N) (evk9 : R_Q_square (2 * Q9) N)
    (evk10 : R_Q_square (2 * Q10) N) (evk11 : R_Q_square (2 * Q11) N) : M (R_Q_square Q12 N) := do
  let ct1 : R_Q_square Q1 N ← evalModStart LOGDELTA K ct
  let ct2 : R_Q_square Q6 N ← eval_poly_deg31 LOGDELTA evalModU ct1 evk1 evk2 evk3 evk4 evk5
  let ct3 ← polyT Q7 LOGDELTA ct2 evk6
  let ct4 ← polyT Q8 LOGDELTA ct3 evk7
  let ct5 ← polyT Q9 LOGDELTA ct4 evk8
  let ct6 ← polyT Q10 LOGDELTA ct5 evk9
  let ct7 : R_Q_square Q11 N ← evalModSix LOGDELTA ct6 evk10
  let ct8 : R_Q_square Q11 N ← evalModLin LOGDELTA ct6
  let ct9 ← Mul ct7 ct8 evk11 R_Q_square.setzero
  RS ct9 R_Q_square.setzero

/-- `EvalMod<LOGQ,N,LOGDELTA,K>(ct,s,p)`, bootstrap.h:92-122: builds the keys and calls the other
overload. -/
noncomputable def EvalModKey (RAND_MAX LOGDELTA : Nat) (K : Int) (Q1 Q2 Q3 Q4 Q5 Q6 Q7 Q8 Q9 Q10 Q11 Q12 : Nat)
    [NeZero Q1] [NeZero Q2] [NeZero Q3] [NeZero Q4] [NeZero Q5] [NeZero Q6] [NeZero Q7] [NeZero Q8] [NeZero Q9]
    [NeZero Q10] [NeZero Q11] [NeZero Q12] (ct : R_Q_square Q0 N) (s : Fin N → Int) (ω : Rng) :
    M (R_Q_square Q12 N × Rng) := do
  let s_sq ← convI s s
  let k1 ← swkgen (LOGQ := Q1) RAND_MAX s_sq s R_Q_square.setzero ω
  let k2 ← swkgen (LOGQ := Q2) RAND_MAX s_sq s R_Q_square.setzero k1.2
  let k3 ← swkgen (LOGQ := Q3) RAND_MAX s_sq s R_Q_square.setzero k2.2
  let k4 ← swkgen (LOGQ := Q4) RAND_MAX s_sq s R_Q_square.setzero k3.2
  let k5 ← swkgen (LOGQ := Q5) RAND_MAX s_sq s R_Q_square.setzero k4.2
  let k6 ← swkgen (LOGQ := Q6) RAND_MAX s_sq s R_Q_square.setzero k5.2
  let k7 ← swkgen (LOGQ := Q7) RAND_MAX s_sq s R_Q_square.setzero k6.2
  let k8 ← swkgen (LOGQ := Q8) RAND_MAX s_sq s R_Q_square.setzero k7.2
  let k9 ← swkgen (LOGQ := Q9) RAND_MAX s_sq s R_Q_square.setzero k8.2
  let k10 ← swkgen (LOGQ := Q10) RAND_MAX s_sq s R_Q_square.setzero k9.2
  let k11 ← swkgen (LOGQ := Q11) RAND_MAX s_sq s R_Q_square.setzero k10.2
  let p : R_Q_square Q12 N ← EvalMod LOGDELTA K ct k1.1 k2.1 k3.1 k4.1 k5.1 k6.1 k7.1 k8.1 k9.1 k10.1 k11.1
  pure (p, k11.2)

end

end EvalRound

import Verif.Model.Boot
import Verif.Model.Float

/-!
# The linear transforms, `EvalMod` and bootstrapping with the arithmetic of `double`

As in `Verif/Model/Float.lean`: every operation of `double` rounds to binary64, a result that rounds to an infinity is
undefined here, products and sums are not fused, `cos`, `sin` and `pow` come from the C library and are parameters. All
integer code is that of the other files. `copy`, `transpose`, `negate` and `setzero` of a sparse matrix move numbers or change
signs and are the ones of `Verif/Model/Matrix.lean`.
-/

namespace EvalRound
open Z_Q

/-- `cos`, `sin` and `pow` of math.h, `pow` is called in bootstrap.h:29-30. -/
structure LibmP extends Libm where
  pow : ℝ → ℝ → ℝ

section
variable {N S S1 S2 D : Nat}

/-- `operator*=(double a)`, matrix.h:112-116. -/
noncomputable def scaleF (A : SparseDiagonal N S) (a : ℝ) : M (SparseDiagonal N S) := do
  let vec ← tabM S (fun s => do
    let v ← rd A.vec s
    tabM N (fun i => do
      let x ← rd v i
      fl (x * a)))
  pure { A with vec := vec }

/-- `for(i=0;i<N;i++) C.vec[s3][i] += a[i] * b[(i+off1)%N]`, or `-=` for `sgn = -1`, matrix.h:218-223. -/
noncomputable def accDiagF {S : Nat} (C : SparseDiagonal N S) (s3 : Nat) (sgn : ℝ) (a b : Fin N → ℝ)
    (off1 : Int) : M (SparseDiagonal N S) := do
  let v0 ← rd C.vec s3
  let v ← forUp 0 N (fun i v => do
    let c ← rd v i
    let x ← rd a i
    let j ← wrapIdx N i off1
    let y ← rd b j
    let p ← fl (x * y)
    let r ← fl (c + sgn * p)
    wr v i r) v0
  let vec ← wr C.vec s3 v
  pure { C with vec := vec }

/-- Body of the loops of the complex `MatMul` after the `continue`, matrix.h:201-223. The four statements of the loop over
`i` are run as four loops, like in `matMulCStep`. -/
noncomputable def matMulCStepF (Ar Ai : SparseDiagonal N S1) (Br Bi : SparseDiagonal N S2) (s1 s2 : Nat)
    (st : Nat × SparseDiagonal N (S1 * S2) × SparseDiagonal N (S1 * S2)) :
    M (Nat × SparseDiagonal N (S1 * S2) × SparseDiagonal N (S1 * S2)) := do
  let off1 ← rd Ar.off s1
  let off1' ← rd Ai.off s1
  assertM (decide (off1 = off1'))
  let off2 ← rd Br.off s2
  let off2' ← rd Bi.off s2
  assertM (decide (off2 = off2'))
  let t ← intM (off1 + off2)
  let off3 := Int.tmod t N
  let (s3, count, Cr, Ci) ← slotC st off3
  let ar ← rd Ar.vec s1
  let ai ← rd Ai.vec s1
  let br ← rd Br.vec s2
  let bi ← rd Bi.vec s2
  let Cr ← accDiagF Cr s3 1 ar br off1
  let Cr ← accDiagF Cr s3 (-1) ai bi off1
  let Ci ← accDiagF Ci s3 1 ar bi off1
  let Ci ← accDiagF Ci s3 1 ai br off1
  pure (count, Cr, Ci)

/-- `MatMul(Ar,Ai,Br,Bi,Cr,Ci)`, matrix.h:191-225; `Cr0`, `Ci0` are the previous contents. -/
noncomputable def MatMulCF (Ar Ai : SparseDiagonal N S1) (Br Bi : SparseDiagonal N S2)
    (Cr0 Ci0 : SparseDiagonal N (S1 * S2)) :
    M (SparseDiagonal N (S1 * S2) × SparseDiagonal N (S1 * S2)) := do
  let st ← forUp 0 S1 (fun s1 st => forUp 0 S2 (fun s2 st => do
    let skip ← skipC Ar Ai Br Bi s1 s2
    if skip then pure st else matMulCStepF Ar Ai Br Bi s1 s2 st) st)
    (0, Cr0.setzero, Ci0.setzero)
  pure st.2

/-- The loop of `grouped2_serial_linear_transform`, linear_transform.h:196-202. -/
noncomputable def group2F (A : Fin D → SD2 N S) : M (Fin (D/2) → SD2 N (S*S)) := do
  assertM (decide (D % 2 = 0))
  tabM (D/2) (fun i => do
    let a1 ← rd A (2*i+1)
    let a0 ← rd A (2*i)
    MatMulCF a1.1 a1.2 a0.1 a0.2 (sd0 N _) (sd0 N _))

/-- The loop of `grouped3_serial_linear_transform`, linear_transform.h:212-222. -/
noncomputable def group3F (A : Fin D → SD2 N S) : M (Fin (D/3) → SD2 N (S*(S*S))) := do
  assertM (decide (D % 3 = 0))
  tabM (D/3) (fun i => do
    let a1 ← rd A (3*i+1)
    let a0 ← rd A (3*i)
    let b ← MatMulCF a1.1 a1.2 a0.1 a0.2 (sd0 N _) (sd0 N _)
    let a2 ← rd A (3*i+2)
    MatMulCF a2.1 a2.2 b.1 b.2 (sd0 N _) (sd0 N _))

/-- The loop of `grouped4_serial_linear_transform`, linear_transform.h:232-243. -/
noncomputable def group4F (A : Fin D → SD2 N S) : M (Fin (D/4) → SD2 N (S*(S*(S*S)))) := do
  assertM (decide (D % 4 = 0))
  tabM (D/4) (fun i => do
    let a1 ← rd A (4*i+1)
    let a0 ← rd A (4*i)
    let b ← MatMulCF a1.1 a1.2 a0.1 a0.2 (sd0 N _) (sd0 N _)
    let a2 ← rd A (4*i+2)
    let c ← MatMulCF a2.1 a2.2 b.1 b.2 (sd0 N _) (sd0 N _)
    let a3 ← rd A (4*i+3)
    MatMulCF a3.1 a3.2 c.1 c.2 (sd0 N _) (sd0 N _))

end

section
variable {LOGQ LOGN S : Nat} [NeZero LOGQ]

/-- The loop body, linear_transform.h:156-171; state `(Act, random stream)`. -/
noncomputable def ltStepF (L : Libm) (RAND_MAX LOGDELTA : Nat) (A : SD2 (2^(LOGN-1)) S) (ct : R_Q_square LOGQ (2^LOGN))
    (skey : Fin (2^LOGN) → Int) (s : Fin S) (st : R_Q_square LOGQ (2^LOGN) × Rng) :
    M (R_Q_square LOGQ (2^LOGN) × Rng) := do
  assertM (decide (A.1.off s = A.2.off s))
  if A.1.zero s && A.2.zero s then pure st
  else do
    let Delta ← shl1 LOGDELTA
    let pt ← encodeF L LOGQ (LOGN := LOGN) (A.1.vec s, A.2.vec s) Delta
    let r ← ltRot RAND_MAX ct (A.1.off s) skey st.2
    let ct_rot ← R_Q_square.mulR r.1 pt
    pure (R_Q_square.add st.1 ct_rot, r.2)

/-- `linear_transform(Ar,Ai,ct,skey,Act)`, linear_transform.h:147-173. -/
noncomputable def linTransF (L : Libm) (RAND_MAX LOGDELTA : Nat) (A : SD2 (2^(LOGN-1)) S) (ct : R_Q_square LOGQ (2^LOGN))
    (skey : Fin (2^LOGN) → Int) (ω : Rng) : M (R_Q_square LOGQ (2^LOGN) × Rng) :=
  forUp 0 S (fun s st => if h : s < S then ltStepF L RAND_MAX LOGDELTA A ct skey ⟨s, h⟩ st else ub)
    (R_Q_square.setzero, ω)

/-- `serial_linear_transform`, linear_transform.h:175-187. -/
noncomputable def serialLTF (L : Libm) (RAND_MAX LOGDELTA : Nat) {D : Nat} (A : Fin D → SD2 (2^(LOGN-1)) S)
    (ct : R_Q_square LOGQ (2^LOGN)) (skey : Fin (2^LOGN) → Int) (ω : Rng) :
    M (R_Q_square LOGQ (2^LOGN) × Rng) :=
  forUp 0 D (fun d st => do
    let a ← rd A d
    linTransF L RAND_MAX LOGDELTA a (R_Q_square.copy st.1) skey st.2) (R_Q_square.copy ct, ω)

/-- `grouped_serial_linear_transform<LOGQ,LOGN,LOGDELTA,S,D,G>`, linear_transform.h:246-262, with
the three functions it calls, linear_transform.h:189-244. -/
noncomputable def groupedLTF (L : Libm) (RAND_MAX LOGDELTA G : Nat) {D : Nat} (A : Fin D → SD2 (2^(LOGN-1)) S)
    (ct : R_Q_square LOGQ (2^LOGN)) (skey : Fin (2^LOGN) → Int) (ω : Rng) :
    M (R_Q_square LOGQ (2^LOGN) × Rng) :=
  match G with
  | 1 => serialLTF L RAND_MAX LOGDELTA A ct skey ω
  | 2 => do
    let B ← group2F A
    serialLTF L RAND_MAX LOGDELTA B ct skey ω
  | 3 => do
    let B ← group3F A
    serialLTF L RAND_MAX LOGDELTA B ct skey ω
  | 4 => do
    let B ← group4F A
    serialLTF L RAND_MAX LOGDELTA B ct skey ω
  | _ => throw Fault.assertFail

/-- `1 / pow(N, 1.0 / (LOGN - 1))`, bootstrap.h:29-30. -/
noncomputable def ctsScaleF (L : LibmP) (LOGN : Nat) : M ℝ := do
  let e ← fl (1 / ((LOGN - 1 : Nat) : ℝ))
  fl (1 / L.pow ((2^LOGN : Nat) : ℝ) e)

/-- One iteration of the initialisation loop of `CoeffToSlot`, bootstrap.h:26-30. -/
noncomputable def ctsFactorF (L : LibmP) {LOGN : Nat} (A : Fac LOGN) : M (Fac LOGN) := do
  let r ← A.1.transpose
  let i ← A.2.transpose
  let i := i.negate
  let c ← ctsScaleF L LOGN
  let r ← scaleF r c
  let i ← scaleF i c
  pure (r, i)

/-- The tables of `CoeffToSlot`, bootstrap.h:19-33. -/
noncomputable def ctsTableF (L : LibmP) (LOGN : Nat) : M (Fin (LOGN - 1) → Fac LOGN) := do
  let U ← splitU0NRF L.toLibm LOGN (fac0 LOGN)
  tabM (LOGN - 1) (fun n => do
    let a ← rd U n
    ctsFactorF L a)

/-- `CoeffToSlot` after the tables are there, bootstrap.h:35-48. Result `(ct_[0], ct_[1])`. -/
noncomputable def ctsWithF (L : Libm) (RAND_MAX LOGDELTA G : Nat) (U : Fin (LOGN - 1) → Fac LOGN)
    (ct : R_Q_square LOGQ (2^LOGN)) (s : Fin (2^LOGN) → Int) (ω : Rng) :
    M ((R_Q_square LOGQ (2^LOGN) × R_Q_square LOGQ (2^LOGN)) × Rng) := do
  let t ← groupedLTF L RAND_MAX LOGDELTA G U ct s ω
  let U0ct := t.1
  let s_conj ← conjI s (fun _ => 0)
  let ckey ← swkgen (LOGQ := LOGQ) RAND_MAX s_conj s R_Q_square.setzero t.2
  let U0ct_conj ← conj_ct U0ct ckey.1 R_Q_square.setzero
  let pti ← ctsPti LOGQ LOGN
  let c0 := R_Q_square.add (R_Q_square.copy U0ct) U0ct_conj
  let c1 ← R_Q_square.mulR (R_Q_square.sub (R_Q_square.copy U0ct) U0ct_conj) pti
  pure ((c0, c1), ckey.2)

/-- `CoeffToSlot<LOGQ,LOGN,LOGDELTA,G>(ct,s,ct_)`, bootstrap.h:14-49. -/
noncomputable def CoeffToSlotF (L : LibmP) (RAND_MAX LOGDELTA G : Nat) (ct : R_Q_square LOGQ (2^LOGN))
    (s : Fin (2^LOGN) → Int) (ω : Rng) :
    M ((R_Q_square LOGQ (2^LOGN) × R_Q_square LOGQ (2^LOGN)) × Rng) := do
  let U ← ctsTableF L LOGN
  ctsWithF L.toLibm RAND_MAX LOGDELTA G U ct s ω

/-- The tables of `SlotToCoeff`, bootstrap.h:57-84. -/
noncomputable def stcTableF (L : Libm) (LOGN : Nat) : M ((Fin (LOGN - 1) → Fac LOGN) × (Fin (LOGN - 1) → Fac LOGN)) := do
  let T ← splitU0NRF L LOGN (fac0 LOGN)
  let U ← stcReal T
  let V ← stcImag T
  pure (U, V)

/-- `SlotToCoeff` after the tables are there, bootstrap.h:86-89. -/
noncomputable def stcWithF (L : Libm) (RAND_MAX LOGDELTA G : Nat) (U V : Fin (LOGN - 1) → Fac LOGN)
    (ct0 ct1 : R_Q_square LOGQ (2^LOGN)) (s : Fin (2^LOGN) → Int) (ω : Rng) :
    M (R_Q_square LOGQ (2^LOGN) × Rng) := do
  let a ← groupedLTF L RAND_MAX LOGDELTA G U ct0 s ω
  let b ← groupedLTF L RAND_MAX LOGDELTA G V ct1 s a.2
  pure (R_Q_square.add a.1 b.1, b.2)

/-- `SlotToCoeff<LOGQ,LOGN,LOGDELTA,G>(ct0,ct1,skey,ct_)`, bootstrap.h:51-90. -/
noncomputable def SlotToCoeffF (L : Libm) (RAND_MAX LOGDELTA G : Nat) (ct0 ct1 : R_Q_square LOGQ (2^LOGN))
    (s : Fin (2^LOGN) → Int) (ω : Rng) : M (R_Q_square LOGQ (2^LOGN) × Rng) := do
  let T ← stcTableF L LOGN
  stcWithF L RAND_MAX LOGDELTA G T.1 T.2 ct0 ct1 s ω

end

/-! ## EvalMod -/

/-- The constant polynomials `L0` of `eval_poly_deg31`, poly.h:196-203. -/
noncomputable def polyConstSF (LOGQ N LOGDELTA : Nat) [NeZero LOGQ] (n : Nat) (u : ℝ) : M (R_Q LOGQ N) := do
  let D ← shl1 LOGDELTA
  let d ← fl (D.toNat : ℝ)
  let x ← fl (|u| * d)
  let w ← truncU64 x
  let z : Z_Q LOGQ := ofW w
  let z := if n % 2 = 0 then mulW z D else z
  let z := if u < 0 then negate z else z
  wr R_Q.setzero 0 z

section
variable {N Q0 Q1 Q2 Q3 Q4 Q5 : Nat} [NeZero Q0] [NeZero Q1] [NeZero Q2] [NeZero Q3] [NeZero Q4] [NeZero Q5]

/-- `eval_poly_deg31`, poly.h:186-282. -/
noncomputable def eval_poly_deg31F (LOGDELTA : Nat) (u : Fin 32 → ℝ) (ct : R_Q_square Q0 N)
    (evk1 : R_Q_square (2 * Q0) N) (evk2 : R_Q_square (2 * Q1) N) (evk3 : R_Q_square (2 * Q2) N)
    (evk4 : R_Q_square (2 * Q3) N) (evk5 : R_Q_square (2 * Q4) N) : M (R_Q_square Q5 N) := do
  let L0 ← tabM 32 (fun n => do
    let x ← rd u n
    polyConstSF Q0 N LOGDELTA n x)
  let L1 ← polyL1 Q1 16 ct L0
  let T2 ← polyT Q1 LOGDELTA ct evk1
  let L2 ← polyL Q2 LOGDELTA 8 T2 L1 evk2
  let T4 ← polyT Q2 LOGDELTA T2 evk2
  let L3 ← polyL Q3 LOGDELTA 4 T4 L2 evk3
  let T8 ← polyT Q3 LOGDELTA T4 evk3
  let L4 ← polyL Q4 LOGDELTA 2 T8 L3 evk4
  let T16 ← polyT Q4 LOGDELTA T8 evk4
  polyLast Q5 LOGDELTA T16 L4 evk5

/-- `u` of bootstrap.h:149-181: the decimal constants rounded to `double`. -/
noncomputable def evalModUF (i : Fin 32) : ℝ := rnd (evalModU i)

/-- `(1ULL<<LOGDELTA)/static_cast<double>(K)` converted to `uint64_t`: undefined for `K = 0`, where
the quotient is infinite; bootstrap.h:140 and 145. -/
noncomputable def divKF (D : W) (K : Int) : M W :=
  if K = 0 then ub else do
    let d ← fl (D.toNat : ℝ)
    let k ← fl (K : ℝ)
    let q ← fl (d / k)
    truncU64 q

/-- `ct1`, bootstrap.h:139-146. -/
noncomputable def evalModStartF (LOGDELTA : Nat) (K : Int) (ct : R_Q_square Q0 N) : M (R_Q_square Q1 N) := do
  let D ← shl1 LOGDELTA
  let w ← divKF D K
  let ct_copy := R_Q_square.mulW (R_Q_square.copy ct) w
  let ct1 : R_Q_square Q1 N ← RS ct_copy R_Q_square.setzero
  let K4 ← intM (4 * K)
  let q ← divKF D K4
  let qtK : Z_Q Q1 := ofW q
  let x ← rd ct1.1 0
  let c ← wr ct1.1 0 (sub x qtK)
  pure (c, ct1.2)

/-- `ct8`, bootstrap.h:221-223. -/
noncomputable def evalModLinF (LOGDELTA : Nat) (ct6 : R_Q_square Q0 N) : M (R_Q_square Q1 N) := do
  let D ← shl1 LOGDELTA
  let p ← fl (12 * PI64)
  let d ← fl (D.toNat : ℝ)
  let x ← fl (d / p)
  let w ← truncU64 x
  let temp5 := R_Q_square.mulW (R_Q_square.copy ct6) w
  RS temp5 R_Q_square.setzero

end

section
variable {N Q0 Q1 Q2 Q3 Q4 Q5 Q6 Q7 Q8 Q9 Q10 Q11 Q12 : Nat} [NeZero Q0] [NeZero Q1] [NeZero Q2] [NeZero Q3]
  [NeZero Q4] [NeZero Q5] [NeZero Q6] [NeZero Q7] [NeZero Q8] [NeZero Q9] [NeZero Q10] [NeZero Q11] [NeZero Q12]

/-- `EvalMod<LOGQ,N,LOGDELTA,K>(ct,evk1,...,evk11,p)`, bootstrap.h:124-228. In the source `Qi` is
`LOGQ - i*LOGDELTA`. -/
noncomputable def EvalModF (LOGDELTA : Nat) (K : Int) (ct : R_Q_square Q0 N)
    (evk1 : R_Q_square (2 * Q1) N) (evk2 : R_Q_square (2 * Q2) N) (evk3 : R_Q_square (2 * Q3) N)
    (evk4 : R_Q_square (2 * Q4) N) (evk5 : R_Q_square (2 * Q5) N) (evk6 : R_Q_square (2 * Q6) N)
    (evk7 : R_Q_square (2 * Q7) N) (evk8 : R_Q_square (2 * Q8) N) (evk9 : R_Q_square (2 * Q9) N)
    (evk10 : R_Q_square (2 * Q10) N) (evk11 : R_Q_square (2 * Q11) N) : M (R_Q_square Q12 N) := do
  let ct1 : R_Q_square Q1 N ← evalModStartF LOGDELTA K ct
  let ct2 : R_Q_square Q6 N ← eval_poly_deg31F LOGDELTA evalModUF ct1 evk1 evk2 evk3 evk4 evk5
  let ct3 ← polyT Q7 LOGDELTA ct2 evk6
  let ct4 ← polyT Q8 LOGDELTA ct3 evk7
  let ct5 ← polyT Q9 LOGDELTA ct4 evk8
  let ct6 ← polyT Q10 LOGDELTA ct5 evk9
  let ct7 : R_Q_square Q11 N ← evalModSix LOGDELTA ct6 evk10
  let ct8 : R_Q_square Q11 N ← evalModLinF LOGDELTA ct6
  let ct9 ← Mul ct7 ct8 evk11 R_Q_square.setzero
  RS ct9 R_Q_square.setzero

/-- `EvalMod<LOGQ,N,LOGDELTA,K>(ct,s,p)`, bootstrap.h:92-122. -/
noncomputable def EvalModKeyF (RAND_MAX LOGDELTA : Nat) (K : Int) (Q1 Q2 Q3 Q4 Q5 Q6 Q7 Q8 Q9 Q10 Q11 Q12 : Nat)
    [NeZero Q1] [NeZero Q2] [NeZero Q3] [NeZero Q4] [NeZero Q5] [NeZero Q6] [NeZero Q7] [NeZero Q8] [NeZero Q9]
    [NeZero Q10] [NeZero Q11] [NeZero Q12] (ct : R_Q_square Q0 N) (s : Fin N → Int) (ω : Rng) :
    M (R_Q_square Q12 N × Rng) := do
  let s_sq ← convI s s
  let k1 ← swkgen (LOGQ := Q1) RAND_MAX s_sq s R_Q_square.setzero ω
  let k2 ← swkgen (LOGQ := Q2) RAND_MAX s_sq s R_Q_square.setzero k1.2
  let k3 ← swkgen (LOGQ := Q3) RAND_MAX s_sq s R_Q_square.setzero k2.2
  let k4 ← swkgen (LOGQ := Q4) RAND_MAX s_sq s R_Q_square.setzero k3.2
  let k5 ← swkgen (LOGQ := Q5) RAND_MAX s_sq s R_Q_square.setzero k4.2
  let k6 ← swkgen (LOGQ := Q6) RAND_MAX s_sq s R_Q_square.setzero k5.2
  let k7 ← swkgen (LOGQ := Q7) RAND_MAX s_sq s R_Q_square.setzero k6.2
  let k8 ← swkgen (LOGQ := Q8) RAND_MAX s_sq s R_Q_square.setzero k7.2
  let k9 ← swkgen (LOGQ := Q9) RAND_MAX s_sq s R_Q_square.setzero k8.2
  let k10 ← swkgen (LOGQ := Q10) RAND_MAX s_sq s R_Q_square.setzero k9.2
  let k11 ← swkgen (LOGQ := Q11) RAND_MAX s_sq s R_Q_square.setzero k10.2
  let p : R_Q_square Q12 N ← EvalModF LOGDELTA K ct k1.1 k2.1 k3.1 k4.1 k5.1 k6.1 k7.1 k8.1 k9.1 k10.1 k11.1
  pure (p, k11.2)

end

/-! ## Bootstrapping -/

section
variable {LOGN LF : Nat} [NeZero LF]

/-- ModRaise, CoeffToSlot, the two rescalings and the two calls of EvalMod: bootstrap_test.cpp:19-35,
proposal.cpp:27-43 and proposal.cpp:94-110. -/
noncomputable def bootToEvalModF (L : LibmP) (RAND_MAX LDcts LDboot G : Nat) (K : Int)
    (QT Q0 Q1 Q2 Q3 Q4 Q5 Q6 Q7 Q8 Q9 Q10 Q11 Q12 : Nat)
    [NeZero QT] [NeZero Q0] [NeZero Q1] [NeZero Q2] [NeZero Q3] [NeZero Q4] [NeZero Q5] [NeZero Q6] [NeZero Q7]
    [NeZero Q8] [NeZero Q9] [NeZero Q10] [NeZero Q11] [NeZero Q12]
    (ct : R_Q_square LF (2^LOGN)) (s : Fin (2^LOGN) → Int) (ω : Rng) : M (BootState LOGN QT Q0 Q12) := do
  let ct_modraise := mod_raise QT ct
  let r ← CoeffToSlotF L RAND_MAX LDcts G ct_modraise s ω
  let ct_ctsrs0 : R_Q_square Q0 (2^LOGN) ← RS r.1.1 R_Q_square.setzero
  let ct_ctsrs1 : R_Q_square Q0 (2^LOGN) ← RS r.1.2 R_Q_square.setzero
  let e0 ← EvalModKeyF RAND_MAX LDboot K Q1 Q2 Q3 Q4 Q5 Q6 Q7 Q8 Q9 Q10 Q11 Q12 ct_ctsrs0 s r.2
  let e1 ← EvalModKeyF RAND_MAX LDboot K Q1 Q2 Q3 Q4 Q5 Q6 Q7 Q8 Q9 Q10 Q11 Q12 ct_ctsrs1 s e0.2
  pure ⟨ct_modraise, ct_ctsrs0, ct_ctsrs1, e0.1, e1.1, e1.2⟩

variable {QT Q0 Q12 : Nat} [NeZero QT] [NeZero Q0] [NeZero Q12]

/-- SlotToCoeff and the last rescaling of the conventional bootstrapping: bootstrap_test.cpp:37-43,
proposal.cpp:45-51. -/
noncomputable def bootConvTailF (L : Libm) (RAND_MAX LDstc G QS : Nat) [NeZero QS] (b : BootState LOGN QT Q0 Q12)
    (s : Fin (2^LOGN) → Int) : M (R_Q_square QS (2^LOGN) × Rng) := do
  let ct_stc ← SlotToCoeffF L RAND_MAX LDstc G b.ct_evalmod0 b.ct_evalmod1 s b.ω
  let ct_boot : R_Q_square QS (2^LOGN) ← RS ct_stc.1 R_Q_square.setzero
  pure (ct_boot, ct_stc.2)

/-- EvalqI, SlotToCoeff, the last rescaling and the subtraction of the proposed bootstrapping:
proposal.cpp:112-129. -/
noncomputable def bootPropTailF (L : Libm) (RAND_MAX LDstc G QS : Nat) [NeZero QS] (b : BootState LOGN QT Q0 Q12)
    (s : Fin (2^LOGN) → Int) : M (R_Q_square QS (2^LOGN) × Rng) := do
  let ct_evalqI0 := R_Q_square.sub (R_Q_square.resize Q12 b.ct_ctsrs0) b.ct_evalmod0
  let ct_evalqI1 := R_Q_square.sub (R_Q_square.resize Q12 b.ct_ctsrs1) b.ct_evalmod1
  let ct_stc ← SlotToCoeffF L RAND_MAX LDstc G ct_evalqI0 ct_evalqI1 s b.ω
  let ct_qI : R_Q_square QS (2^LOGN) ← RS ct_stc.1 R_Q_square.setzero
  pure (R_Q_square.sub (R_Q_square.resize QS b.ct_modraise) ct_qI, ct_stc.2)

end

section
variable {LOGN LF : Nat} [NeZero LF] (L : LibmP) (RAND_MAX LDcts LDboot LDstc G : Nat) (K : Int)
  (QT Q0 Q1 Q2 Q3 Q4 Q5 Q6 Q7 Q8 Q9 Q10 Q11 Q12 QS : Nat)
  [NeZero QT] [NeZero Q0] [NeZero Q1] [NeZero Q2] [NeZero Q3] [NeZero Q4] [NeZero Q5] [NeZero Q6] [NeZero Q7]
  [NeZero Q8] [NeZero Q9] [NeZero Q10] [NeZero Q11] [NeZero Q12] [NeZero QS]

/-- The conventional bootstrapping, bootstrap_test.cpp:19-43, proposal.cpp:27-51. -/
noncomputable def bootConvF (ct : R_Q_square LF (2^LOGN)) (s : Fin (2^LOGN) → Int) (ω : Rng) :
    M (R_Q_square QS (2^LOGN) × Rng) := do
  let b ← bootToEvalModF L RAND_MAX LDcts LDboot G K QT Q0 Q1 Q2 Q3 Q4 Q5 Q6 Q7 Q8 Q9 Q10 Q11 Q12 ct s ω
  bootConvTailF L.toLibm RAND_MAX LDstc G QS b s

/-- The proposed bootstrapping, proposal.cpp:94-129. -/
noncomputable def bootPropF (ct : R_Q_square LF (2^LOGN)) (s : Fin (2^LOGN) → Int) (ω : Rng) :
    M (R_Q_square QS (2^LOGN) × Rng) := do
  let b ← bootToEvalModF L RAND_MAX LDcts LDboot G K QT Q0 Q1 Q2 Q3 Q4 Q5 Q6 Q7 Q8 Q9 Q10 Q11 Q12 ct s ω
  bootPropTailF L.toLibm RAND_MAX LDstc G QS b s

end

end EvalRound

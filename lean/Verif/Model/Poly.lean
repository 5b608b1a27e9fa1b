import Verif.Model.LinTrans
import Verif.Model.Print

/-!
# HEAAN/poly.h

The six evaluation functions repeat the same blocks at different levels; the blocks are modelled
once, with the modulus before (`LF`) and after (`LT`) rescaling as parameters. Exact real arithmetic
for `double`. Uninitialised locals that are completely
overwritten start as zero.
-/

namespace EvalRound
open Z_Q

/-- `uint64_t(x)` for a `double`: truncation towards zero, undefined when the truncated value does
not fit, poly.h:15, bootstrap.h:140. -/
noncomputable def truncU64 (x : ℝ) : M W :=
  if -1 < x ∧ x < 2^64 then pure (BitVec.ofNat 64 ⌊x⌋₊) else ub

section
variable {LOGQ LF LT N : Nat} [NeZero LOGQ] [NeZero LF] [NeZero LT]

/-- The constant polynomials `L0` of the degrees 3, 7 and 15, poly.h:12-18, 51-57, 114-120. -/
noncomputable def polyConstU (LOGQ N LOGDELTA : Nat) [NeZero LOGQ] (n : Nat) (u : ℝ) : M (R_Q LOGQ N) := do
  let D ← shl1 LOGDELTA
  let w ← truncU64 (u * (D.toNat : ℝ))
  let z : Z_Q LOGQ := ofW w
  let z := if n % 2 = 0 then mulW z D else z
  wr R_Q.setzero 0 z

/-- The constant polynomials `L0` of the degrees 31, 63 and 127, poly.h:196-203, 296-303, 418-425. -/
noncomputable def polyConstS (LOGQ N LOGDELTA : Nat) [NeZero LOGQ] (n : Nat) (u : ℝ) : M (R_Q LOGQ N) := do
  let D ← shl1 LOGDELTA
  let w ← truncU64 (|u| * (D.toNat : ℝ))
  let z : Z_Q LOGQ := ofW w
  let z := if n % 2 = 0 then mulW z D else z
  let z := if u < 0 then negate z else z
  wr R_Q.setzero 0 z

/-- Level one: `K` times `RS(T1*L0[2n+1] + L0[2n])`, poly.h:23-28 and alike. -/
def polyL1 (LT : Nat) [NeZero LT] (K : Nat) {K0 : Nat} (T1 : R_Q_square LF N) (L0 : Fin K0 → R_Q LF N) :
    M (Fin K → R_Q_square LT N) :=
  tabM K (fun n => do
    let temp := R_Q_square.copy T1
    let a ← rd L0 (2*n+1)
    let temp ← R_Q_square.mulR temp a
    let b ← rd L0 (2*n)
    RS (R_Q.add temp.1 b, temp.2) R_Q_square.setzero)

/-- `temp[0][0] -= one` with `one = 2^LOGDELTA * 2^LOGDELTA`, poly.h:32-33 and alike. -/
def subOne (LOGDELTA : Nat) (temp : R_Q_square LF N) : M (R_Q_square LF N) := do
  let D ← shl1 LOGDELTA
  let one : Z_Q LF := mulW (ofW D) D
  let x ← rd temp.1 0
  let c ← wr temp.1 0 (sub x one)
  pure (c, temp.2)

/-- `T' = RS(2*T*T - 1)`, poly.h:31-35 and alike. -/
def polyT (LT : Nat) [NeZero LT] (LOGDELTA : Nat) (T : R_Q_square LF N) (evk : R_Q_square (2 * LF) N) :
    M (R_Q_square LT N) := do
  let temp ← Mul T T evk R_Q_square.setzero
  let temp := R_Q_square.mulW temp 2
  let temp ← subOne LOGDELTA temp
  RS temp R_Q_square.setzero

/-- `RS(T*L[2n+1] + 2^LOGDELTA * L[2n])`, poly.h:36-40, 78-81 and alike. -/
def polyComb (LT : Nat) [NeZero LT] (LOGDELTA : Nat) (T a b : R_Q_square LF N) (evk : R_Q_square (2 * LF) N) :
    M (R_Q_square LT N) := do
  let temp ← Mul T a evk R_Q_square.setzero
  let D ← shl1 LOGDELTA
  let b := R_Q_square.mulW b D
  RS (R_Q_square.add temp b) R_Q_square.setzero

/-- The loop over `n` of a level, poly.h:77-82 and alike. -/
def polyL (LT : Nat) [NeZero LT] (LOGDELTA K : Nat) {K0 : Nat} (T : R_Q_square LF N) (L : Fin K0 → R_Q_square LF N)
    (evk : R_Q_square (2 * LF) N) : M (Fin K → R_Q_square LT N) :=
  tabM K (fun n => do
    let a ← rd L (2*n+1)
    let b ← rd L (2*n)
    polyComb LT LOGDELTA T a b evk)

/-- The last block of each function, poly.h:36-40. -/
def polyLast (LT : Nat) [NeZero LT] (LOGDELTA : Nat) {K0 : Nat} (T : R_Q_square LF N) (L : Fin K0 → R_Q_square LF N)
    (evk : R_Q_square (2 * LF) N) : M (R_Q_square LT N) := do
  let a ← rd L 1
  let b ← rd L 0
  polyComb LT LOGDELTA T a b evk

end

section
variable {N Q0 Q1 Q2 Q3 Q4 Q5 Q6 Q7 : Nat} [NeZero Q0] [NeZero Q1] [NeZero Q2] [NeZero Q3] [NeZero Q4] [NeZero Q5]
  [NeZero Q6] [NeZero Q7]

/-- `eval_poly_deg3`, poly.h:5-41. In the source `Qi` is `LOGQ - i*LOGDELTA`. -/
noncomputable def eval_poly_deg3 (LOGDELTA : Nat) (u : Fin 4 → ℝ) (ct : R_Q_square Q0 N)
    (evk1 : R_Q_square (2 * Q0) N) (evk2 : R_Q_square (2 * Q1) N) : M (R_Q_square Q2 N) := do
  let L0 ← tabM 4 (fun n => do
    let x ← rd u n
    polyConstU Q0 N LOGDELTA n x)
  let L1 ← polyL1 Q1 2 ct L0
  let T2 ← polyT Q1 LOGDELTA ct evk1
  polyLast Q2 LOGDELTA T2 L1 evk2

/-- `eval_poly_deg7`, poly.h:43-103. It prints three of its intermediate ciphertexts, poly.h:92-94; the text is dropped here. -/
noncomputable def eval_poly_deg7 (LOGDELTA : Nat) (u : Fin 8 → ℝ) (ct : R_Q_square Q0 N)
    (evk1 : R_Q_square (2 * Q0) N) (evk2 : R_Q_square (2 * Q1) N) (evk3 : R_Q_square (2 * Q2) N) :
    M (R_Q_square Q3 N) := do
  let L0 ← tabM 8 (fun n => do
    let x ← rd u n
    polyConstU Q0 N LOGDELTA n x)
  let L1 ← polyL1 Q1 4 ct L0
  let T2 ← polyT Q1 LOGDELTA ct evk1
  let L2 ← polyL Q2 LOGDELTA 2 T2 L1 evk2
  let T4 ← polyT Q2 LOGDELTA T2 evk2
  let _ ← R_Q_square.print T4
  let l0 ← rd L2 0
  let _ ← R_Q_square.print l0
  let l1 ← rd L2 1
  let _ ← R_Q_square.print l1
  polyLast Q3 LOGDELTA T4 L2 evk3

/-- `eval_poly_deg15`, poly.h:105-183. -/
noncomputable def eval_poly_deg15 (LOGDELTA : Nat) (u : Fin 16 → ℝ) (ct : R_Q_square Q0 N)
    (evk1 : R_Q_square (2 * Q0) N) (evk2 : R_Q_square (2 * Q1) N) (evk3 : R_Q_square (2 * Q2) N)
    (evk4 : R_Q_square (2 * Q3) N) : M (R_Q_square Q4 N) := do
  let L0 ← tabM 16 (fun n => do
    let x ← rd u n
    polyConstU Q0 N LOGDELTA n x)
  let L1 ← polyL1 Q1 8 ct L0
  let T2 ← polyT Q1 LOGDELTA ct evk1
  let L2 ← polyL Q2 LOGDELTA 4 T2 L1 evk2
  let T4 ← polyT Q2 LOGDELTA T2 evk2
  let L3 ← polyL Q3 LOGDELTA 2 T4 L2 evk3
  let T8 ← polyT Q3 LOGDELTA T4 evk3
  polyLast Q4 LOGDELTA T8 L3 evk4

/-- `eval_poly_deg31`, poly.h:186-282. -/
noncomputable def eval_poly_deg31 (LOGDELTA : Nat) (u : Fin 32 → ℝ) (ct : R_Q_square Q0 N)
    (evk1 : R_Q_square (2 * Q0) N) (evk2 : R_Q_square (2 * Q1) N) (evk3 : R_Q_square (2 * Q2) N)
    (evk4 : R_Q_square (2 * Q3) N) (evk5 : R_Q_square (2 * Q4) N) : M (R_Q_square Q5 N) := do
  let L0 ← tabM 32 (fun n => do
    let x ← rd u n
    polyConstS Q0 N LOGDELTA n x)
  let L1 ← polyL1 Q1 16 ct L0
  let T2 ← polyT Q1 LOGDELTA ct evk1
  let L2 ← polyL Q2 LOGDELTA 8 T2 L1 evk2
  let T4 ← polyT Q2 LOGDELTA T2 evk2
  let L3 ← polyL Q3 LOGDELTA 4 T4 L2 evk3
  let T8 ← polyT Q3 LOGDELTA T4 evk3
  let L4 ← polyL Q4 LOGDELTA 2 T8 L3 evk4
  let T16 ← polyT Q4 LOGDELTA T8 evk4
  polyLast Q5 LOGDELTA T16 L4 evk5

/-- `eval_poly_deg63`, poly.h:285-404. -/
noncomputable def eval_poly_deg63 (LOGDELTA : Nat) (u : Fin 64 → ℝ) (ct : R_Q_square Q0 N)
    (evk1 : R_Q_square (2 * Q0) N) (evk2 : R_Q_square (2 * Q1) N) (evk3 : R_Q_square (2 * Q2) N)
    (evk4 : R_Q_square (2 * Q3) N) (evk5 : R_Q_square (2 * Q4) N) (evk6 : R_Q_square (2 * Q5) N) :
    M (R_Q_square Q6 N) := do
  let L0 ← tabM 64 (fun n => do
    let x ← rd u n
    polyConstS Q0 N LOGDELTA n x)
  let L1 ← polyL1 Q1 32 ct L0
  let T2 ← polyT Q1 LOGDELTA ct evk1
  let L2 ← polyL Q2 LOGDELTA 16 T2 L1 evk2
  let T4 ← polyT Q2 LOGDELTA T2 evk2
  let L3 ← polyL Q3 LOGDELTA 8 T4 L2 evk3
  let T8 ← polyT Q3 LOGDELTA T4 evk3
  let L4 ← polyL Q4 LOGDELTA 4 T8 L3 evk4
  let T16 ← polyT Q4 LOGDELTA T8 evk4
  let L5 ← polyL Q5 LOGDELTA 2 T16 L4 evk5
  let T32 ← polyT Q5 LOGDELTA T16 evk5
  polyLast Q6 LOGDELTA T32 L5 evk6

/-- `eval_poly_deg127`, poly.h:406-545. -/
noncomputable def eval_poly_deg127 (LOGDELTA : Nat) (u : Fin 128 → ℝ) (ct : R_Q_square Q0 N)
    (evk1 : R_Q_square (2 * Q0) N) (evk2 : R_Q_square (2 * Q1) N) (evk3 : R_Q_square (2 * Q2) N)
    (evk4 : R_Q_square (2 * Q3) N) (evk5 : R_Q_square (2 * Q4) N) (evk6 : R_Q_square (2 * Q5) N)
    (evk7 : R_Q_square (2 * Q6) N) : M (R_Q_square Q7 N) := do
  let L0 ← tabM 128 (fun n => do
    let x ← rd u n
    polyConstS Q0 N LOGDELTA n x)
  let L1 ← polyL1 Q1 64 ct L0
  let T2 ← polyT Q1 LOGDELTA ct evk1
  let L2 ← polyL Q2 LOGDELTA 32 T2 L1 evk2
  let T4 ← polyT Q2 LOGDELTA T2 evk2
  let L3 ← polyL Q3 LOGDELTA 16 T4 L2 evk3
  let T8 ← polyT Q3 LOGDELTA T4 evk3
  let L4 ← polyL Q4 LOGDELTA 8 T8 L3 evk4
  let T16 ← polyT Q4 LOGDELTA T8 evk4
  let L5 ← polyL Q5 LOGDELTA 4 T16 L4 evk5
  let T32 ← polyT Q5 LOGDELTA T16 evk5
  let L6 ← polyL Q6 LOGDELTA 2 T32 L5 evk6
  let T64 ← polyT Q6 LOGDELTA T32 evk6
  polyLast Q7 LOGDELTA T64 L6 evk7

end

/-- The loop poly.h:555-556. -/
noncomputable def frcFold {H : Nat} (c0 c1 : Fin H → ℝ) : M ((Fin H → ℝ) × (Fin H → ℝ)) :=
  forUp 1 H (fun i st => do
    let a ← rd st.1 (H - i)
    let b ← rd st.2 i
    let c0 ← wr st.1 (H - i) (a - b)
    let c1 ← wr st.2 i (b * 2)
    pure (c0, c1)) (c0, c1)

/-- `convert_frc_tou(c,u+off,N)`, poly.h:548-562: `c` is an array of `cn` numbers, `u` one of `K`.
The source never checks `N`; recursion that does not end is divergence. -/
noncomputable def convert_frc_tou {K : Nat} (N cn : Nat) (c : Fin cn → ℝ) (off : Nat) (u : Fin K → ℝ) :
    M (Fin K → ℝ) :=
  if N = 4 then do
    let c0 ← rd c 0
    let u ← wr u off c0
    let c1 ← rd c 1
    let c3 ← rd c 3
    let u ← wr u (off+1) (c1 - c3)
    let c2 ← rd c 2
    let u ← wr u (off+2) c2
    let c3 ← rd c 3
    wr u (off+3) (c3 * 2)
  else do
    let c0 ← tabM (N/2) (fun i => rd c i)
    let c1 ← tabM (N/2) (fun i => rd c (i + N/2))
    let p ← frcFold c0 c1
    let u ← convert_frc_tou (N/2) (N/2) p.1 off u
    convert_frc_tou (N/2) (N/2) p.2 (off + N/2) u
partial_fixpoint

end EvalRound

import Verif.Model.CRT
import Verif.Model.NTT
import Verif.Model.Primes
import Verif.Model.Ring

/-!
# Products of polynomials: arith/conv/conv.h, arith/conv.h and `R_Q_square::operator*=`

The `#pragma omp parallel for` loops are modelled in source order; C38 covers the other schedules.
The arrays live on the stack in the source; exhaustion of the stack is not modelled.
-/

namespace EvalRound
open Z_Q

variable {L LOGQ N : Nat}

/-- `struct CONV<L,LOGQ,N>`, conv/conv.h:10-23. -/
structure CONV (L LOGQ N : Nat) where
  crt : CRT L LOGQ
  ntt : Fin L → NTT N

/-- The constructor, conv/conv.h:25-30. -/
def CONV.new (LOGQ N : Nat) (q : Fin L → W) : M (CONV L LOGQ N) := do
  let crt ← CRT.new LOGQ q
  let ntt ← tabM L (fun i => do
    let qi ← rd q i
    NTT.new N qi)
  pure ⟨crt, ntt⟩

/-- `icrt_polynomial`, conv/conv.h:53-63. Row `j` of the result is `A_rns[j]`. -/
def CONV.icrt_polynomial [NeZero LOGQ] (C : CONV L LOGQ N) (A : R_Q LOGQ N) :
    M (Fin L → Fin N → W) := do
  let cols ← tabM N (fun i => do
    let Ai ← rd A i
    C.crt.icrt Ai)
  pure (fun j i => cols i j)

/-- `crt_polynomial`, conv/conv.h:65-75. -/
def CONV.crt_polynomial [NeZero LOGQ] (C : CONV L LOGQ N) (A_rns : Fin L → Fin N → W) :
    M (R_Q LOGQ N) :=
  tabM N (fun i => do
    let Ai_rns ← tabM L (fun j => do
      let row ← rd A_rns j
      rd row i)
    C.crt.crt Ai_rns)

/-- The body of the loop over the primes, conv/conv.h:42-47. -/
def CONV.row (C : CONV L LOGQ N) (A_rns B_rns : Fin L → Fin N → W) (i : Nat) : M (Fin N → W) := do
  let T ← rd C.ntt i
  let a ← rd A_rns i
  let b ← rd B_rns i
  let a ← T.ntt a
  let b ← T.ntt b
  let c ← tabM N (fun j => do
    let x ← rd a j
    let y ← rd b j
    mul_mod x y T.q)
  T.intt c

/-- `CONV::conv`, conv/conv.h:32-51. -/
def CONV.conv [NeZero LOGQ] (C : CONV L LOGQ N) (A B : R_Q LOGQ N) : M (R_Q LOGQ N) := do
  let A_rns ← C.icrt_polynomial A
  let B_rns ← C.icrt_polynomial B
  let C_rns ← tabM L (C.row A_rns B_rns)
  C.crt_polynomial C_rns

/-- `L`, conv.h:143. -/
def convL (LOGQ : Nat) : Nat := (2 * LOGQ + 17 + 59) / 60

/-- The construction of `theConv`, conv.h:144-149: the constructor reads `Q_primes[0..L-1]`, which
is out of bounds for `L > 102`. -/
def theConv (LOGQ N : Nat) : M (CONV (convL LOGQ) LOGQ N) := do
  let q ← tabM (convL LOGQ) (fun i => rd Q_primes i)
  CONV.new LOGQ N q

/-- `conv(A,B,C)`, conv.h:34-151, when the static `theConv` is not yet constructed. See C39 for
later calls. `C` is a different object from `A` and `B`. -/
def conv [NeZero LOGQ] (A B : R_Q LOGQ N) : M (R_Q LOGQ N) := do
  let C ← theConv LOGQ N
  C.conv A B

/-- `R_Q_square::operator*=(const R_Q&)`, R_Q_square.h:49-54. -/
def R_Q_square.mulR [NeZero LOGQ] (x : R_Q_square LOGQ N) (B : R_Q LOGQ N) :
    M (R_Q_square LOGQ N) := do
  let temp := R_Q.copy x.1
  let d0 ← EvalRound.conv temp B
  let temp := R_Q.copy x.2
  let d1 ← EvalRound.conv temp B
  pure (d0, d1)

/-- The value of an `int` index expression with a non-negative value; overflow is undefined. Used wherever the code
computes such an index, first in conv.h:21-30. -/
def idxM (x : Nat) : M Nat := if x ≤ INT_MAX then pure x else ub

/-- The body of the loop over `k` in `conv(s,A,C)`, conv.h:21-30. -/
def convSBody [NeZero LOGQ] (s : Fin N → Int) (A : R_Q LOGQ N) (i k : Nat) (c : Z_Q LOGQ) :
    M (Z_Q LOGQ) := do
  let sk ← rd s k
  if sk ≠ 0 then do
    let sign : Bool := sk == 1
    if k ≤ i then do
      let temp ← rd A (i - k)
      pure (if sign then add c temp else sub c temp)
    else do
      let j ← idxM (N + i)
      let temp ← rd A (j - k)
      pure (if !sign then add c temp else sub c temp)
  else pure c

/-- `conv(s,A,C)` with an `int` array, conv.h:15-32. `C` is a different object from `A`. -/
def convS [NeZero LOGQ] (s : Fin N → Int) (A : R_Q LOGQ N) : M (R_Q LOGQ N) :=
  tabM N (fun i => forUp 0 N (convSBody s A i) setzero)

/-- The value of an `int` expression; overflow is undefined. Used for the `int` arithmetic of the repository, first in
conv.h:5-13. -/
def intM (x : Int) : M Int := if -2^31 ≤ x ∧ x < 2^31 then pure x else ub

/-- `conv<N>(s1,s2,s3)` on `int` arrays, conv.h:5-13. -/
def convI (s1 s2 : Fin N → Int) : M (Fin N → Int) :=
  tabM N (fun i => do
    let c ← forUp 0 (i + 1) (fun k c => do
      let x ← rd s1 k
      let y ← rd s2 (i - k)
      let p ← intM (x * y)
      intM (c + p)) 0
    forUp (i + 1) N (fun k c => do
      let x ← rd s1 k
      let j ← idxM (i + N)
      let y ← rd s2 (j - k)
      let p ← intM (x * y)
      intM (c - p)) c)

end EvalRound

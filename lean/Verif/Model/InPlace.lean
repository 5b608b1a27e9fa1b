import Verif.Model.Rot

/-!
# Calls whose result is also an operand: `Mul`, `conj`, `rot`, `conv` with an `int` array, `R_Q_square::operator*=`, `resize`

The parameters of these functions are references and nothing keeps a caller from passing the same object twice. The
definitions follow the same statements as those in `Core` and `Rot`, but read the operand from the object that is being
written.
-/

namespace EvalRound
open Z_Q

variable {LOGQ N : Nat} [NeZero LOGQ]

/-- The statements core.h:113-118 of `Mul`: what `RS` leaves in `ct3`. -/
def mulSwitch (c1 c2 : R_Q LOGQ N) (evk : R_Q_square (2 * LOGQ) N) (ct30 : R_Q_square LOGQ N) : M (R_Q_square LOGQ N) := do
  let d2 ← conv c1 c2
  let d2_ : R_Q (2 * LOGQ) N := R_Q.resize (2 * LOGQ) d2
  let evk_d2 := R_Q_square.copy evk
  let evk_d2 ← R_Q_square.mulR evk_d2 d2_
  RS evk_d2 ct30

/-- The statements core.h:119-124 of `Mul`, with what `ct1`, `ct2` and `ct3` hold at that point. -/
def mulRest (ct1 ct2 ct3 : R_Q_square LOGQ N) : M (R_Q_square LOGQ N) := do
  let d0 ← conv ct1.1 ct2.2
  let d1 ← conv ct1.2 ct2.1
  let d1 := R_Q.add d1 d0
  let d0 ← conv ct1.1 ct2.1
  pure (R_Q_square.add ct3 (d0, d1))

/-- `Mul(ct,ct2,evk,ct)`, core.h:108-125. -/
def MulOver1 (ct ct2 : R_Q_square LOGQ N) (evk : R_Q_square (2 * LOGQ) N) : M (R_Q_square LOGQ N) := do
  let w ← mulSwitch ct.2 ct2.2 evk ct
  mulRest w ct2 w

/-- `Mul(ct1,ct,evk,ct)`, core.h:108-125. -/
def MulOver2 (ct1 ct : R_Q_square LOGQ N) (evk : R_Q_square (2 * LOGQ) N) : M (R_Q_square LOGQ N) := do
  let w ← mulSwitch ct1.2 ct.2 evk ct
  mulRest ct1 w w

/-- `Mul(ct,ct,evk,ct)`, core.h:108-125. -/
def MulOver12 (ct : R_Q_square LOGQ N) (evk : R_Q_square (2 * LOGQ) N) : M (R_Q_square LOGQ N) := do
  let w ← mulSwitch ct.2 ct.2 evk ct
  mulRest w w w

/-- `conj(pt,pt)`, linear_transform.h:67-75. -/
def conjOver (A : R_Q LOGQ N) : M (R_Q LOGQ N) := do
  let x ← rd A 0
  let d ← wr A 0 (Z_Q.copy x)
  forUp 1 N (fun i d => do
    let x ← rd d (N - i)
    let d ← wr d i (Z_Q.copy x)
    let y ← rd d i
    wr d i (negate y)) d

/-- `rot(pt,pt,r)`, linear_transform.h:31-47. -/
def rotOver (A : R_Q LOGQ N) (r : Nat) : M (R_Q LOGQ N) := do
  let pow ← rotPow N r
  let st ← forUp 0 N (fun i (st : R_Q LOGQ N × Nat) => do
    let x ← rd st.1 i
    let d ← if st.2 < N then wr st.1 st.2 (Z_Q.copy x)
      else do
        let d ← wr st.1 (st.2 - N) (Z_Q.copy x)
        let y ← rd d (st.2 - N)
        wr d (st.2 - N) (negate y)
    let j ← rotNext N pow st.2
    pure (d, j)) (A, 0)
  pure st.1

/-- The body of the loop over `k` in `conv(s,A,A)`, conv.h:21-30. For `k = 0` the summand is the coefficient being
computed, so that line 27 is `x += x`. -/
def convSOverBody (s : Fin N → Int) (i k : Nat) (d : R_Q LOGQ N) : M (R_Q LOGQ N) := do
  let sk ← rd s k
  if sk ≠ 0 then do
    let sign : Bool := sk == 1
    let c ← rd d i
    if k ≤ i then do
      let temp ← rd d (i - k)
      if sign then wr d i (if i - k = i then Z_Q.addSelf c else Z_Q.add c temp) else wr d i (Z_Q.sub c temp)
    else do
      let j ← idxM (N + i)
      let temp ← rd d (j - k)
      if !sign then wr d i (Z_Q.add c temp) else wr d i (Z_Q.sub c temp)
  else pure d

/-- `conv(s,A,A)` with an `int` array, conv.h:15-32, on one thread. -/
def convSOver (s : Fin N → Int) (A : R_Q LOGQ N) : M (R_Q LOGQ N) :=
  forUp 0 N (fun i d => do
    let d ← wr d i setzero
    forUp 0 N (convSOverBody s i) d) A

/-- `ct *= ct[0]`, R_Q_square.h:49-54: `B` is `data[0]`. `conv` has read its operands before it writes the result
(conv/conv.h:32-51), so line 52 is the product with the old `data[0]`, and line 53 the product with the new one. -/
def mulFirst (x : R_Q_square LOGQ N) : M (R_Q_square LOGQ N) := do
  let temp := R_Q.copy x.1
  let d0 ← conv temp x.1
  let temp := R_Q.copy x.2
  let d1 ← conv temp d0
  pure (d0, d1)

/-- `resize<LOGQ,LOGQ>(x,x)`, Z_Q.h:293-309: on a non-negative argument line 304 clears what line 306 then copies. -/
def resizeOver (x : Z_Q LOGQ) : Z_Q LOGQ :=
  let is_negative := x.is_bigger_than_halfQ
  let y :=
    if is_negative then
      let x_abs := negate (Z_Q.copy x)
      let y : Z_Q LOGQ := setzero
      let y := Z_Q.copyMin x_abs y
      negate y
    else
      let y : Z_Q LOGQ := setzero
      Z_Q.copyMin y y
  remove_clutter y

end EvalRound

import Verif.Model.Core

/-!
# Rotation and conjugation, HEAAN/linear_transform.h:6-84, and `mod_raise`, HEAAN/bootstrap.h

Rotation counts are natural numbers; a negative `r` runs no iteration of the power loop, like 0.
The destination is a different object from the source; `d0` is its previous content.
-/

namespace EvalRound
open Z_Q

variable {LOGQ N : Nat}

/-- The value stored by linear_transform.h:11. -/
def rotVal (q : Nat) (x : Int) : M Int := if q % 2 = 0 then pure x else intM (-x)

/-- `rot(s,s_rot)`, linear_transform.h:6-13. -/
def rotI1 (s d0 : Fin N → Int) : M (Fin N → Int) :=
  forUp 0 N (fun i d => do
    let t ← idxM (5 * i)
    let q := t / N
    let r := t % N
    let x ← rd s i
    let v ← rotVal q x
    wr d r v) d0

/-- `pow = 5^r % (2*N)`, linear_transform.h:18-21 and 34-37. -/
def rotPow (N r : Nat) : M Nat :=
  forUp 0 r (fun _ p => do
    let t ← idxM (5 * p)
    pure (t % (2 * N))) 1

/-- Step of the scattering index, linear_transform.h:23 and 39. -/
def rotNext (N pow j : Nat) : M Nat := do
  let t ← idxM (j + pow)
  pure (t % (2 * N))

/-- `rot(s,s_rot,r)`, linear_transform.h:15-29; loop state `(s_rot, j)`. -/
def rotI (s d0 : Fin N → Int) (r : Nat) : M (Fin N → Int) := do
  let pow ← rotPow N r
  let st ← forUp 0 N (fun i (st : (Fin N → Int) × Nat) => do
    let x ← rd s i
    let d ← if st.2 < N then wr st.1 st.2 x
      else do
        let y ← intM (-x)
        wr st.1 (st.2 - N) y
    let j ← rotNext N pow st.2
    pure (d, j)) (d0, 0)
  pure st.1

variable [NeZero LOGQ]

/-- `rot(pt,pt_rot,r)`, linear_transform.h:31-47. -/
def rotR (pt d0 : R_Q LOGQ N) (r : Nat) : M (R_Q LOGQ N) := do
  let pow ← rotPow N r
  let st ← forUp 0 N (fun i (st : R_Q LOGQ N × Nat) => do
    let x ← rd pt i
    let d ← if st.2 < N then wr st.1 st.2 (Z_Q.copy x)
      else do
        let d ← wr st.1 (st.2 - N) (Z_Q.copy x)
        let y ← rd d (st.2 - N)
        wr d (st.2 - N) (negate y)
    let j ← rotNext N pow st.2
    pure (d, j)) (d0, 0)
  pure st.1

/-- `rot_ct(ct,off,rkey,ct_rot)`, linear_transform.h:52-59. -/
def rot_ct (ct : R_Q_square LOGQ N) (off : Nat) (rkey : R_Q_square (2 * LOGQ) N)
    (ct0 : R_Q_square LOGQ N) : M (R_Q_square LOGQ N) := do
  let a ← rotR ct.1 ct0.1 off
  let b ← rotR ct.2 ct0.2 off
  ks rkey (a, b)

omit [NeZero LOGQ] in
/-- `conj(s,s_conj)`, linear_transform.h:61-65. -/
def conjI (s d0 : Fin N → Int) : M (Fin N → Int) := do
  let x ← rd s 0
  let d ← wr d0 0 x
  forUp 1 N (fun i d => do
    let x ← rd s (N - i)
    let y ← intM (-x)
    wr d i y) d

/-- `conj(pt,pt_conj)`, linear_transform.h:67-75. -/
def conjR (pt d0 : R_Q LOGQ N) : M (R_Q LOGQ N) := do
  let x ← rd pt 0
  let d ← wr d0 0 (Z_Q.copy x)
  forUp 1 N (fun i d => do
    let x ← rd pt (N - i)
    let d ← wr d i (Z_Q.copy x)
    let y ← rd d i
    wr d i (negate y)) d

/-- `conj(ct,ckey,ct_conj)`, linear_transform.h:77-84. -/
def conj_ct (ct : R_Q_square LOGQ N) (ckey : R_Q_square (2 * LOGQ) N) (ct0 : R_Q_square LOGQ N) :
    M (R_Q_square LOGQ N) := do
  let a ← conjR ct.1 ct0.1
  let b ← conjR ct.2 ct0.2
  ks ckey (a, b)

/-- `mod_raise<LOGQfr,LOGQto,N>(ctfr,ctto)`, bootstrap.h:8-12. -/
def mod_raise {LF : Nat} (LT : Nat) [NeZero LF] [NeZero LT] (ct : R_Q_square LF N) : R_Q_square LT N :=
  R_Q_square.resize LT ct

end EvalRound

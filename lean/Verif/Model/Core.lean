import Verif.Model.Conv
import Verif.Model.Util

/-!
# Keys, encryption, key switching, rescaling and multiplication: HEAAN/core.h

`int` arrays are arrays of `Int`. Local objects that the source leaves uninitialised start as zero
here when every limb is overwritten before it is read; objects passed in by the caller and
overwritten are explicit arguments (`ct0`). The results of `rand()` are an arbitrary stream.
-/

namespace EvalRound
open Z_Q

variable {LOGQ N : Nat}

instance [NeZero LOGQ] : NeZero (2 * LOGQ) := ⟨by have := NeZero.ne LOGQ; omega⟩

/-- One round of the loop of `keygen`, core.h:21-25. -/
def keygenStep [NeZero N] (st : (Fin N → Int) × Rng) : M ((Fin N → Int) × Rng) := do
  let j := Fin.ofNat N (st.2 0)
  let p ← whileM (fun p : Fin N × Rng => st.1 p.1 != 0)
    (fun p => pure (Fin.ofNat N (p.2 0), p.2.next)) (j, st.2.next)
  let v : Int := if p.2 0 % 2 = 0 then 1 else -1
  pure (Function.update st.1 p.1 v, p.2.next)

/-- `keygen(h,s)`, core.h:18-27; the previous content of `s` is overwritten. -/
def keygen (N : Nat) [NeZero N] (h : Int) (ω : Rng) : M ((Fin N → Int) × Rng) :=
  forUp 0 h.toNat (fun _ st => keygenStep st) (fun _ => 0, ω)

variable [NeZero LOGQ]

/-- Coefficient `i` of the loop core.h:32-36: all limbs random, then `remove_clutter`. -/
def randCoef (RAND_MAX : Nat) (z : Z_Q LOGQ) (ω : Rng) : Z_Q LOGQ × Rng :=
  let s := forFin (nlimb LOGQ) (fun j (s : (Fin (nlimb LOGQ) → W) × Rng) =>
    let r := rand_uint64 RAND_MAX s.2
    (Function.update s.1 j r.1, r.2)) (z.data, ω)
  (remove_clutter ⟨s.1⟩, s.2)

/-- The loop core.h:32-36; `A0` is the previous content of `ct[1]`. -/
def encMask (RAND_MAX : Nat) (A0 : R_Q LOGQ N) (ω : Rng) : R_Q LOGQ N × Rng :=
  forFin N (fun i (s : R_Q LOGQ N × Rng) =>
    let r := randCoef RAND_MAX (s.1 i) s.2
    (Function.update s.1 i r.1, r.2)) (A0, ω)

/-- The loop core.h:38-43. -/
def encNoise (ω : Rng) : R_Q LOGQ N × Rng :=
  forFin N (fun i (s : R_Q LOGQ N × Rng) =>
    let z : Z_Q LOGQ := ofW (BitVec.ofNat 64 (s.2 0 % 9))
    let ω := s.2.next
    let z := if ω 0 % 2 = 1 then negate z else z
    (Function.update s.1 i z, ω.next)) (R_Q.setzero, ω)

/-- `enc(pt,s,ct)`, core.h:29-49; `ct0` is the previous content of `ct`. Returns the ciphertext
and the rest of the random stream. -/
def enc (RAND_MAX : Nat) (pt : R_Q LOGQ N) (s : Fin N → Int) (ct0 : R_Q_square LOGQ N) (ω : Rng) :
    M (R_Q_square LOGQ N × Rng) := do
  let m := encMask RAND_MAX ct0.2 ω
  let n : R_Q LOGQ N × Rng := encNoise m.2
  let e := R_Q.add n.1 pt
  let c0 := R_Q.copy e
  let e ← convS s m.1
  let c0 := R_Q.sub c0 e
  pure ((c0, m.1), n.2)

/-- `dec(ct,s,pt)`, core.h:51-57. -/
def dec (ct : R_Q_square LOGQ N) (s : Fin N → Int) : M (R_Q LOGQ N) := do
  let pt ← convS s ct.2
  pure (R_Q.add pt ct.1)

/-- The loop body of `swkgen`, core.h:69-78. The negation of the smallest `int` is undefined. -/
def swkEntry (P : Z_Q LOGQ) (si : Int) : M (Z_Q LOGQ) :=
  if si = 0 then pure setzero
  else do
    let abs ← intM (if si > 0 then si else -si)
    let p ← whileM (fun p : Z_Q LOGQ × Int => decide (p.2 > 0))
      (fun p => pure (add p.1 P, p.2 - 1)) (copy P, abs - 1)
    pure (if si < 0 then negate p.1 else p.1)

/-- `swkgen(s_fr,s_to,swk)`, core.h:60-80; `swk0` is the previous content of `swk`. -/
def swkgen (RAND_MAX : Nat) (s_fr s_to : Fin N → Int) (swk0 : R_Q_square (2 * LOGQ) N) (ω : Rng) :
    M (R_Q_square (2 * LOGQ) N × Rng) := do
  let one : Z_Q LOGQ := ofW 1
  let P : Z_Q (2 * LOGQ) ← shift_left one setzero
  let Ps_fr ← tabM N (fun i => do
    let si ← rd s_fr i
    swkEntry P si)
  enc RAND_MAX Ps_fr s_to swk0 ω

/-- `RS<LOGQfr,LOGQto,N>(ct_fr,ct_to)`, core.h:82-89; `ct0` is the previous content of `ct_to`. -/
def RS {LF LT : Nat} [NeZero LF] [NeZero LT] (ct : R_Q_square LF N) (ct0 : R_Q_square LT N) :
    M (R_Q_square LT N) := do
  let r ← tabM N (fun i => do
    let x ← rd ct.1 i
    let x0 ← rd ct0.1 i
    let a ← shift_right x x0
    let y ← rd ct.2 i
    let y0 ← rd ct0.2 i
    let b ← shift_right y y0
    pure (a, b))
  pure (fun i => (r i).1, fun i => (r i).2)

/-- The limb loop of `ks`, core.h:96-99: the limbs of `x` below, zeros above. -/
def zext (x : Z_Q LOGQ) : Z_Q (2 * LOGQ) :=
  ⟨fun j => if h : j.val < nlimb LOGQ then x.data ⟨j.val, h⟩ else 0⟩

/-- `ks(swk,ct)`, core.h:91-106. -/
def ks (swk : R_Q_square (2 * LOGQ) N) (ct : R_Q_square LOGQ N) : M (R_Q_square LOGQ N) := do
  let ct1_swk := R_Q_square.copy swk
  let ct1_ : R_Q (2 * LOGQ) N := fun i => zext (ct.2 i)
  let ct1_swk ← R_Q_square.mulR ct1_swk ct1_
  let ct1_swk_rs : R_Q_square LOGQ N ← RS ct1_swk R_Q_square.setzero
  let ct : R_Q_square LOGQ N := (ct.1, R_Q.setzero)
  pure (R_Q_square.add ct ct1_swk_rs)

/-- `Mul(ct1,ct2,evk,ct3)`, core.h:108-125, when `ct3` is a different object from `ct1` and `ct2`;
`ct30` is the previous content of `ct3`. -/
def Mul (ct1 ct2 : R_Q_square LOGQ N) (evk : R_Q_square (2 * LOGQ) N) (ct30 : R_Q_square LOGQ N) :
    M (R_Q_square LOGQ N) := do
  let d2 ← conv ct1.2 ct2.2
  let d2_ : R_Q (2 * LOGQ) N := R_Q.resize (2 * LOGQ) d2
  let evk_d2 := R_Q_square.copy evk
  let evk_d2 ← R_Q_square.mulR evk_d2 d2_
  let ct3 : R_Q_square LOGQ N ← RS evk_d2 ct30
  let d0 ← conv ct1.1 ct2.2
  let d1 ← conv ct1.2 ct2.1
  let d1 := R_Q.add d1 d0
  let d0 ← conv ct1.1 ct2.1
  pure (R_Q_square.add ct3 (d0, d1))

end EvalRound

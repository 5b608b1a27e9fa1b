import Verif.Model.Word
import Mathlib.Algebra.NeZero

/-!
# The multi-limb integers `Z_Q<LOGQ>` of include/HEAAN/arith/Z_Q.h
-/

namespace EvalRound

/-- Number of limbs `(LOGQ+63)/64`, include/HEAAN/arith/Z_Q.h:25,32. -/
def nlimb (LOGQ : Nat) : Nat := (LOGQ + 63) / 64

/-- `struct Z_Q<LOGQ>`, include/HEAAN/arith/Z_Q.h:20-25. `LOGQ ≥ 1` because a C++ array has at
least one element. -/
structure Z_Q (LOGQ : Nat) where
  data : Fin (nlimb LOGQ) → W

theorem nlimb_pos (LOGQ : Nat) [h : NeZero LOGQ] : 0 < nlimb LOGQ := by
  have := h.out
  unfold nlimb; omega

namespace Z_Q
variable {LOGQ : Nat} [NeZero LOGQ]

/-- index `length-1`, as in Z_Q.h:202-208. -/
def top (LOGQ : Nat) [NeZero LOGQ] : Fin (nlimb LOGQ) :=
  ⟨nlimb LOGQ - 1, Nat.sub_lt (nlimb_pos LOGQ) Nat.one_pos⟩

/-- index `0`, as in Z_Q.h:252-265. -/
def bot (LOGQ : Nat) [NeZero LOGQ] : Fin (nlimb LOGQ) := ⟨0, nlimb_pos LOGQ⟩

/-- `setzero`, Z_Q.h:225-229. (The loop assigns 0 to every limb.) -/
def setzero : Z_Q LOGQ := ⟨fun _ => 0⟩

/-- Copy constructor and copy assignment, Z_Q.h:116-124. -/
def copy (B : Z_Q LOGQ) : Z_Q LOGQ := ⟨fun i => B.data i⟩

/-- `remove_clutter`, Z_Q.h:202-208. -/
def remove_clutter (x : Z_Q LOGQ) : Z_Q LOGQ :=
  let r := 64 * nlimb LOGQ - LOGQ
  let d := Function.update x.data (top LOGQ) (x.data (top LOGQ) <<< r)
  let d := Function.update d (top LOGQ) (d (top LOGQ) >>> r)
  ⟨d⟩

/-- One round of the loop of `operator+=`, Z_Q.h:193-198: `di` is the limb before the round,
`ai` the limb of the other operand, `c` the incoming carry; returns the limb and the carry. -/
def addStep (di ai : W) (c : Bool) : W × Bool :=
  let di := di + ai
  let c_next : Bool := di < ai
  let di := if c then di + 1 else di
  let c := (c && di == 0) || c_next
  (di, c)

/-- `operator+=(const Z_Q&)`, Z_Q.h:190-200, for an argument that is a different object. -/
def add (x A : Z_Q LOGQ) : Z_Q LOGQ :=
  let s := forFin (nlimb LOGQ) (fun i (s : (Fin (nlimb LOGQ) → W) × Bool) =>
    let r := addStep (s.1 i) (A.data i) s.2
    (Function.update s.1 i r.1, r.2)) (x.data, false)
  remove_clutter ⟨s.1⟩

/-- `x += x`: `operator+=`, Z_Q.h:190-200, when the argument is the object itself, so that
line 195 compares the sum with the already overwritten limb. -/
def addSelf (x : Z_Q LOGQ) : Z_Q LOGQ :=
  let s := forFin (nlimb LOGQ) (fun i (s : (Fin (nlimb LOGQ) → W) × Bool) =>
    let di := s.1 i + s.1 i
    let c_next : Bool := di < di
    let di := if s.2 then di + 1 else di
    let c := (s.2 && di == 0) || c_next
    (Function.update s.1 i di, c)) (x.data, false)
  remove_clutter ⟨s.1⟩

/-- `negate`, Z_Q.h:211-223. -/
def negate (x : Z_Q LOGQ) : Z_Q LOGQ :=
  let ones : W := -1
  let d := forFin (nlimb LOGQ) (fun i d => Function.update d i (d i ^^^ ones)) x.data
  let d := (remove_clutter (⟨d⟩ : Z_Q LOGQ)).data
  let d := Function.update d (bot LOGQ) (d (bot LOGQ) + 1)
  let c : Bool := d (bot LOGQ) == 0
  -- for(i=1; c && i<length; i++): once `c` is false the remaining rounds do nothing
  let s := forFin (nlimb LOGQ) (fun i (s : (Fin (nlimb LOGQ) → W) × Bool) =>
    if 1 ≤ i.val ∧ s.2 = true then
      let d := Function.update s.1 i (s.1 i + 1)
      (d, d i == 0)
    else s) (d, c)
  remove_clutter ⟨s.1⟩

/-- `operator-=`, Z_Q.h:231-236. The argument is copied first, so it may be the object itself. -/
def sub (x A : Z_Q LOGQ) : Z_Q LOGQ := add x (negate (copy A))

/-- `operator*=(uint64_t a)`, Z_Q.h:252-265. `junk` is the indeterminate content of the local
`Hi`, whose limb 0 is set on line 254. -/
def mulWFrom (junk : Z_Q LOGQ) (x : Z_Q LOGQ) (a : W) : Z_Q LOGQ :=
  let Hi := Function.update junk.data (bot LOGQ) 0
  let s := forFin (nlimb LOGQ) (fun i (s : (Fin (nlimb LOGQ) → W) × (Fin (nlimb LOGQ) → W)) =>
    let p := mul (s.1 i) a
    if h : i.val < nlimb LOGQ - 1 then
      (Function.update s.1 i p.1,
       Function.update s.2 ⟨i.val + 1, by omega⟩ p.2)
    else (Function.update s.1 i p.1, s.2)) (x.data, Hi)
  add ⟨s.1⟩ ⟨s.2⟩

/-- `operator*=(uint64_t a)`; the result does not depend on `junk`, see `mulWFrom_junk`. Z_Q.h:252-265. -/
def mulW (x : Z_Q LOGQ) (a : W) : Z_Q LOGQ := mulWFrom setzero x a

/-- The inner loop of `operator*=(const Z_Q&)`, Z_Q.h:274-276: move all limbs up by `i`,
from the top limb down. -/
def shiftLimbs (i : Nat) (x : Z_Q LOGQ) : Z_Q LOGQ :=
  ⟨forFinDown (nlimb LOGQ) (fun j d =>
    if i ≤ j.val then Function.update d j (d ⟨j.val - i, by omega⟩)
    else Function.update d j 0) x.data⟩

/-- `operator*=(const Z_Q&)`, Z_Q.h:267-281. -/
def mulZ (x B : Z_Q LOGQ) : Z_Q LOGQ :=
  forFin (nlimb LOGQ) (fun i sum =>
    let ABi := copy x
    let ABi := mulW ABi (B.data i)
    let ABi := shiftLimbs i.val ABi
    add sum ABi) setzero

/-- `is_bigger_than_halfQ`, Z_Q.h:284-289. -/
def is_bigger_than_halfQ (x : Z_Q LOGQ) : Bool :=
  let length := nlimb LOGQ
  let r := LOGQ - (length - 1) * 64
  x.data (top LOGQ) >>> (r - 1) == 1

/-- Store `w` in limb 0 (`x[0] = w`), the pattern used with `setzero` throughout, for example core.h:40-41. -/
def setLow (x : Z_Q LOGQ) (w : W) : Z_Q LOGQ := ⟨Function.update x.data (bot LOGQ) w⟩

/-- `x.setzero(); x[0]=w;`, for example core.h:63. -/
def ofW (w : W) : Z_Q LOGQ := setLow setzero w

/-- The copy loop of `resize`, Z_Q.h:300-301 and 305-306:
`for i < min(len from, len to): Ato.data[i] = A.data[i]` into a zeroed object. -/
def copyMin {LF LT : Nat} (A : Z_Q LF) (Ato : Z_Q LT) : Z_Q LT :=
  ⟨forFin (min (nlimb LF) (nlimb LT)) (fun i d =>
    Function.update d ⟨i.val, by have := i.isLt; omega⟩ (A.data ⟨i.val, by have := i.isLt; omega⟩))
    Ato.data⟩

/-- `resize<LOGQfrom,LOGQto>`, Z_Q.h:293-309. -/
def resize {LF : Nat} (LT : Nat) [NeZero LF] [NeZero LT] (Afrom : Z_Q LF) : Z_Q LT :=
  let is_negative := Afrom.is_bigger_than_halfQ
  let Ato :=
    if is_negative then
      let Afrom_abs := negate (copy Afrom)
      let Ato : Z_Q LT := setzero
      let Ato := copyMin Afrom_abs Ato
      negate Ato
    else
      let Ato : Z_Q LT := setzero
      copyMin Afrom Ato
  remove_clutter Ato

/-- The integer that `operator double`, Z_Q.h:311-321, converts: limb 0 of the absolute value
with the sign. (The rounding of `uint64_t → double` is in `toDoubleF`.) -/
def toDoubleInt (x : Z_Q LOGQ) : Int :=
  let val := copy x
  let is_negative := val.is_bigger_than_halfQ
  let val := if is_negative then negate val else val
  let result : Int := (val.data (bot LOGQ)).toNat
  if is_negative then result * (-1) else result

/-- `max_valid_digit`, Z_Q.h:323-331. The loop returns the first index from the top whose limb
differs from `invalid_digit`, and `-1` if there is none. -/
def max_valid_digit (x : Z_Q LOGQ) : Int :=
  let invalid_digit : W := if x.is_bigger_than_halfQ then 0xFFFFFFFF else 0
  (forFinDown (nlimb LOGQ) (fun i (s : Option Int) =>
    match s with
    | some r => some r
    | none => if x.data i != invalid_digit then some i.val else none) none).getD (-1)

end Z_Q

/-- Limb `B` of `shift_right` after the limb copy of Z_Q.h:69-70, with checked reads of `A`. -/
def shrCopy {LF LT : Nat} (A : Z_Q LF) (q : Nat) (B : Z_Q LT) : M (Z_Q LT) := do
  let d ← forUp 0 (nlimb LT) (fun i d => do
    let v ← rd A.data (i + q)
    wr d i v) B.data
  pure ⟨d⟩

/-- The bit loop of `shift_right`, Z_Q.h:76-80, from the top limb down. -/
def shrBits {LT : Nat} (r : Nat) (B : Z_Q LT) (Bextra : W) : Z_Q LT :=
  let s := forFinDown (nlimb LT) (fun i (s : (Fin (nlimb LT) → W) × W) =>
    let temp := s.1 i <<< (64 - r)
    let b := s.1 i >>> r
    let b := b + s.2
    (Function.update s.1 i b, temp)) (B.data, Bextra)
  ⟨s.1⟩

/-- The truncating part of `shift_right`, Z_Q.h:67-81 (used with `LOGQfr > LOGQto`). -/
def shrTrunc {LF LT : Nat} (A : Z_Q LF) (B0 : Z_Q LT) : M (Z_Q LT) := do
  let q := (LF - LT) / 64
  let r := (LF - LT) % 64
  let B ← shrCopy A q B0
  if 0 < r then do
    let Bextra ← (if (LT + r + 63) / 64 ≠ (LT + 63) / 64 then rd A.data (nlimb LT + q) else pure 0)
    let Bextra := Bextra <<< (64 - r)
    pure (shrBits r B Bextra)
  else pure B

/-- `shift_right<LOGQfr,LOGQto>(A,B)`, Z_Q.h:59-92. `B0` is the previous (overwritten) content
of `B`. With `LOGQfr < LOGQto` either `q < 0` and line 70 reads `A[q]`, or `idx < 0` and line 83
reads `A[-1]` or shifts by a negative count. All are undefined. -/
def shift_right {LF LT : Nat} [NeZero LF] [NeZero LT] (A : Z_Q LF) (B0 : Z_Q LT) : M (Z_Q LT) :=
  if LF = LT then do
    let d ← forUp 0 (nlimb LT) (fun i d => do
      let v ← rd A.data i
      wr d i v) B0.data
    pure ⟨d⟩
  else if LF < LT then ub
  else do
    let B ← shrTrunc A B0
    let idx := LF - LT - 1
    let w ← rd A.data (idx / 64)
    let c := (1 : W) &&& (w >>> (idx % 64))
    if c ≠ 0 then
      let C : Z_Q LT := Z_Q.ofW 1
      pure (Z_Q.add B C)
    else pure B

/-- `shift_left<LOGQfr,LOGQto>(A,B)`, Z_Q.h:94-112; `B0` is the previous content of `B`.
With `LOGQfr > LOGQto` the quotient and the remainder are non-positive: either `q < 0` and line
100 writes `B[q]`, or `q = 0`, `r < 0` and line 106 shifts by `64-r > 64`. Both are undefined. -/
def shift_left {LF LT : Nat} [NeZero LF] [NeZero LT] (A : Z_Q LF) (B0 : Z_Q LT) : M (Z_Q LT) :=
  if LT < LF then ub
  else do
    let q := (LT - LF) / 64
    let r := (LT - LF) % 64
    let d ← forUp 0 (nlimb LF) (fun i d => do
      let v ← rd A.data i
      wr d (i + q) v) B0.data
    let d ← forUp 0 q (fun i d => wr d i 0) d
    if r = 0 then pure ⟨d⟩
    else do
      let s ← forUp 0 (nlimb LF) (fun i (s : (Fin (nlimb LT) → W) × W) => do
        let v ← rd s.1 (i + q)
        let temp := v >>> (64 - r)
        let d ← wr s.1 (i + q) ((v <<< r) + s.2)
        pure (d, temp)) (d, 0)
      if (LF + r + 63) / 64 ≠ (LF + 63) / 64 then do
        let d ← wr s.1 (nlimb LF + q) s.2
        pure ⟨d⟩
      else pure ⟨s.1⟩

end EvalRound

import Verif.Model.ZQ

/-!
# Decimal text: `Z_Q::to_str` and `Z_Q::fr_str` of include/HEAAN/arith/Z_Q.h

`char` is `BitVec 8` (signed, as with gcc on x86-64), `int` is `BitVec 32`.
-/

namespace EvalRound
namespace Z_Q
variable {LOGQ : Nat}

/-- Base `2^64` to base `2^32`, Z_Q.h:155-159. -/
def toHalf (x : Z_Q LOGQ) : Fin (2 * nlimb LOGQ) → W := fun j =>
  -- A[2*i] = (data[i]<<32)>>32; A[2*i+1] = data[i]>>32
  if j.val % 2 = 0 then (x.data ⟨j.val / 2, by omega⟩ <<< 32) >>> 32
  else x.data ⟨j.val / 2, by omega⟩ >>> 32

/-- One division by ten, Z_Q.h:165-170. State: digits, remainder, flag `zero`. -/
def toStrRound {m : Nat} (A : Fin m → W) : (Fin m → W) × W × Bool :=
  forFinDown m (fun i (s : (Fin m → W) × W × Bool) =>
    let rem := s.2.1 <<< 32
    let rem := rem + s.1 i
    let a := rem / 10
    let zero := if a != 0 then false else s.2.2
    (Function.update s.1 i a, rem % 10, zero)) (A, 0, true)

/-- `to_str`, Z_Q.h:151-175; `str` is the caller's buffer of `cap` characters. -/
def to_str (x : Z_Q LOGQ) {cap : Nat} (str : Fin cap → BitVec 8) : M (Fin cap → BitVec 8) := do
  let A := toHalf x
  assertM (LOGQ ≤ 1300)
  let B : Fin 520 → BitVec 32 := fun _ => 0   -- indeterminate; only written cells are read below
  let s ← whileM (σ := (Fin (2 * nlimb LOGQ) → W) × (Fin 520 → BitVec 32) × Nat × Bool)
    (fun s => !s.2.2.2)
    (fun s => do
      let r := toStrRound s.1
      let B ← wr s.2.1 s.2.2.1 (r.2.1.setWidth 32)
      pure (r.1, B, s.2.2.1 + 1, r.2.2))
    (A, B, 0, false)
  let B := s.2.1
  let count := s.2.2.1
  let str ← forUp 0 count (fun i str => do
    let b ← rd B (count - 1 - i)
    wr str i ((48#32 + b).setWidth 8)) str
  wr str count 0

/-- The digit array, Z_Q.h:129-132. The C array has 520 cells, of which the first `n = strlen`
are used; `fr_str` below makes `n > 520` undefined. `str` is the text without its final NUL. -/
def frDigits (str : List (BitVec 8)) : Fin str.length → BitVec 32 := fun i =>
  (str.get ⟨str.length - 1 - i.val, by omega⟩).signExtend 32 - 48#32

/-- One division by `2^32`, Z_Q.h:137-142. An `int` operand is sign-extended to `uint64_t`; the
conversion back to `int` keeps the low 32 bits. -/
def frStrRound {m : Nat} (A : Fin m → BitVec 32) : (Fin m → BitVec 32) × W × Bool :=
  forFinDown m (fun i (s : (Fin m → BitVec 32) × W × Bool) =>
    let rem := s.2.1 * 10
    let rem := rem + (s.1 i).signExtend 64
    let a := (rem >>> 32).setWidth 32
    let zero := if a != 0 then false else s.2.2
    (Function.update s.1 i a, (rem <<< 32) >>> 32, zero)) (A, 0, true)

/-- `fr_str`, Z_Q.h:126-149. `B` has `2*length` cells (indeterminate before the writes). -/
def fr_str (LOGQ : Nat) (str : List (BitVec 8)) : M (Z_Q LOGQ) :=
  if 520 < str.length then ub
  else do
    let B : Fin (2 * nlimb LOGQ) → W := fun _ => 0
    let s ← whileM (σ := (Fin str.length → BitVec 32) × (Fin (2 * nlimb LOGQ) → W) × Nat × Bool)
      (fun s => !s.2.2.2)
      (fun s => do
        let r := frStrRound s.1
        let B ← wr s.2.1 s.2.2.1 r.2.1
        pure (r.1, B, s.2.2.1 + 1, r.2.2))
      (frDigits str, B, 0, false)
    let B := s.2.1
    let count := s.2.2.1
    let B ← forUp count (2 * nlimb LOGQ) (fun i B => wr B i 0) B
    pure ⟨fun i => B ⟨2 * i.val, by omega⟩ + (B ⟨2 * i.val + 1, by omega⟩ <<< 32)⟩

end Z_Q
end EvalRound

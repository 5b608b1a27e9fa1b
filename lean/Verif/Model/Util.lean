import Verif.Base.Sem

/-!
# include/util/util.h
-/

namespace EvalRound

/-- largest `int` (32-bit `int`). Bounds the `int` arithmetic, first in util.h:13-20. -/
def INT_MAX : Nat := 2^31 - 1

/-- `log(int N)`, include/util/util.h:13-20, for `N ≥ 0`; `n *= 2` overflows above `INT_MAX`.
Loop state `(i, n)`. -/
def logInt (N : Nat) : M Nat := do
  let s ← whileM (fun s : Nat × Nat => decide (s.2 < N)) (fun s =>
    if s.2 * 2 ≤ INT_MAX then pure (s.1 + 1, s.2 * 2) else ub) (0, 1)
  pure s.1

/-- `bitReverse32`, include/util/util.h:22-28. -/
def bitReverse32 (x : BitVec 32) : BitVec 32 :=
  let x := ((x &&& 0xaaaaaaaa) >>> 1) ||| ((x &&& 0x55555555) <<< 1)
  let x := ((x &&& 0xcccccccc) >>> 2) ||| ((x &&& 0x33333333) <<< 2)
  let x := ((x &&& 0xf0f0f0f0) >>> 4) ||| ((x &&& 0x0f0f0f0f) <<< 4)
  let x := ((x &&& 0xff00ff00) >>> 8) ||| ((x &&& 0x00ff00ff) <<< 8)
  (x >>> 16) ||| (x <<< 16)

/-- `bitReverse(x,digits)`, include/util/util.h:30-32; the shift by `32-digits` is undefined
unless `0 ≤ 32-digits < 32`. -/
def bitReverse (x : BitVec 32) (digits : Nat) : M (BitVec 32) :=
  if 1 ≤ digits ∧ digits ≤ 32 then pure (bitReverse32 x >>> (32 - digits)) else ub

/-- What `rand()` returns from now on: call number `n` returns `ω n`. `rand()` is called in util.h:37 and core.h:22-25,
41-42. -/
abbrev Rng := Nat → Nat

/-- the stream after one call, one call of `rand()`, as in util.h:37. -/
def Rng.next (ω : Rng) : Rng := fun n => ω (n + 1)

/-- the stream after `k` calls, as in util.h:34-40. -/
def Rng.drop (ω : Rng) (k : Nat) : Rng := fun n => ω (k + n)

/-- `rand_uint64`, include/util/util.h:34-40: five rounds (`i` = 0, 15, 30, 45, 60).
Returns the word and the rest of the stream. -/
def rand_uint64 (RAND_MAX : Nat) (ω : Rng) : W × Rng :=
  forFin 5 (fun _ (s : W × Rng) =>
    (s.1 * (BitVec.ofNat 64 RAND_MAX + 1) + BitVec.ofNat 64 (s.2 0), s.2.next)) (0, ω)

end EvalRound

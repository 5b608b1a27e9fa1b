import Mathlib.Algebra.Order.Floor.Ring
import Verif.Model.DFT
import Verif.Model.Ring

/-!
# HEAAN/endecode.h, impl/simple_plaintext.h and impl/message.h

Exact real arithmetic, as in `Verif/Model/DFT.lean`.
-/

namespace EvalRound
open Z_Q

/-- `std::round`: to the nearest integer, halves away from zero, endecode.h:15 and simple_plaintext.h:24. -/
noncomputable def cround (x : ℝ) : ℤ := if 0 ≤ x then ⌊x + 1/2⌋ else -⌊-x + 1/2⌋

/-- `(uint64_t)x` for an integral `double`: undefined unless the value fits, endecode.h:15. -/
def toU64 (x : ℤ) : M W := if 0 ≤ x ∧ x < 2^64 then pure (BitVec.ofInt 64 x) else ub

section
variable {LOGQ : Nat} [NeZero LOGQ]

/-- The loop body of `encode`, endecode.h:14-17. (`abs` is the overload for `double`.) -/
noncomputable def encodeCoeff (LOGQ : Nat) [NeZero LOGQ] (Delta : W) (x : ℝ) : M (Z_Q LOGQ) := do
  let w ← toU64 (cround (|x| * (Delta.toNat : ℝ)))
  let p : Z_Q LOGQ := ofW w
  pure (if x < 0 then negate p else p)

/-- `encode<LOGQ,LOGN>`, endecode.h:8-19. The local array `m` is written completely by `ifft`. -/
noncomputable def encode (LOGQ : Nat) [NeZero LOGQ] {LOGN : Nat} (z : CVec LOGN) (Delta : W) :
    M (R_Q LOGQ (2^LOGN)) := do
  let m ← ifft LOGN z (fun _ => 0)
  tabM (2^LOGN) (fun i => do
    let x ← rd m i
    encodeCoeff LOGQ Delta x)

/-- The loop body of `decode`, endecode.h:29-37; `beta = 2^64`. -/
noncomputable def decodeCoeff (Delta : W) (x : Z_Q LOGQ) : ℝ :=
  let a := if x.is_bigger_than_halfQ then negate (copy x) else copy x
  let s := forFin (nlimb LOGQ) (fun j (s : ℝ × ℝ) =>
    (if a.data j ≠ 0 then s.1 + ((a.data j).toNat : ℝ) * s.2 / (Delta.toNat : ℝ) else s.1, s.2 * 2^64)) (0, 1)
  if x.is_bigger_than_halfQ then - s.1 else s.1

/-- `decode<LOGQ,LOGN>`, endecode.h:21-40. -/
noncomputable def decode {LOGN : Nat} (pt : R_Q LOGQ (2^LOGN)) (Delta : W) : M (CVec LOGN) :=
  fft LOGN (fun i => decodeCoeff Delta (pt i))

/-- The loop body of `decode_log`, endecode.h:50-60. -/
noncomputable def decodeLogCoeff (LOGDELTA : Int) (x : Z_Q LOGQ) : M ℝ := do
  let a := if x.is_bigger_than_halfQ then negate (copy x) else copy x
  let d := a.max_valid_digit
  let t ← intM (64 * d)
  let scale_diff ← intM (t - LOGDELTA)
  let m ← forUp 0 (d + 1).toNat (fun j (m : ℝ) => do
    let w ← rd a.data j
    pure (m / 2^64 + (w.toNat : ℝ))) 0
  let m := m * (2 : ℝ) ^ scale_diff
  pure (if x.is_bigger_than_halfQ then - m else m)

/-- `decode_log<LOGQ,LOGN>`, endecode.h:42-63. -/
noncomputable def decode_log {LOGN : Nat} (pt : R_Q LOGQ (2^LOGN)) (LOGDELTA : Int) : M (CVec LOGN) := do
  let m ← tabM (2^LOGN) (fun i => do
    let x ← rd pt i
    decodeLogCoeff LOGDELTA x)
  fft LOGN m

end

/-! ## `SimplePlaintext`: the coefficient array of `double` -/

namespace Simple
variable {LOGN : Nat}

/-- `encode` for `SimplePlaintext`, simple_plaintext.h:18-26. -/
noncomputable def encode (z : CVec LOGN) (Delta : W) : M (Fin (2^LOGN) → ℝ) := do
  let m ← ifft LOGN z (fun _ => 0)
  pure (fun i => (cround (m i * (Delta.toNat : ℝ)) : ℝ))

/-- `encode_raw`, simple_plaintext.h:28-36. -/
noncomputable def encode_raw (z : CVec LOGN) (Delta : W) : M (Fin (2^LOGN) → ℝ) := do
  let m ← ifft LOGN z (fun _ => 0)
  pure (fun i => m i * (Delta.toNat : ℝ))

/-- `decode`, simple_plaintext.h:38-47. -/
noncomputable def decode (pt : Fin (2^LOGN) → ℝ) (Delta : W) : M (CVec LOGN) :=
  fft LOGN (fun i => pt i / (Delta.toNat : ℝ))

/-- One coefficient of `conv`, simple_plaintext.h:53-56. -/
noncomputable def convCoeff {N : Nat} (a b : Fin N → ℝ) (i : Nat) : M ℝ := do
  let s ← forUp 0 (i+1) (fun k (s : ℝ) => do
    let x ← rd a k
    let y ← rd b (i - k)
    pure (s + x * y)) 0
  forUp (i+1) N (fun k (s : ℝ) => do
    let x ← rd a k
    let y ← rd b (i + N - k)
    pure (s - x * y)) s

/-- `conv`, simple_plaintext.h:49-58, for `pt3` a different object. -/
noncomputable def conv {N : Nat} (a b : Fin N → ℝ) : M (Fin N → ℝ) := tabM N (convCoeff a b)

/-- `add`, simple_plaintext.h:60-65. -/
def add {N : Nat} (a b : Fin N → ℝ) : Fin N → ℝ := fun i => a i + b i

/-- `sub`, simple_plaintext.h:67-72. -/
def sub {N : Nat} (a b : Fin N → ℝ) : Fin N → ℝ := fun i => a i - b i

/-- `rotate_once`, simple_plaintext.h:88-97; `r0` is the previous content of `pt_rot`. -/
def rotate_once {N : Nat} (pt r0 : Fin N → ℝ) : M (Fin N → ℝ) :=
  forUp 0 N (fun i p => do
    let t ← idxM (5 * i)
    let x ← rd pt i
    wr p (t % N) (if t / N % 2 = 1 then - x else x)) r0

/-- `rotate`, simple_plaintext.h:99-113. -/
def rotate {N : Nat} (pt : Fin N → ℝ) (r : Nat) : M (Fin N → ℝ) :=
  forUp 0 r (fun _ p => rotate_once p p) pt

end Simple

/-! ## `Message` -/

namespace Msg
variable {n : Nat}

/-- `add`, message.h:30-36. -/
def add (a b : (Fin n → ℝ) × (Fin n → ℝ)) : (Fin n → ℝ) × (Fin n → ℝ) :=
  (fun i => a.1 i + b.1 i, fun i => a.2 i + b.2 i)

/-- `sub`, message.h:38-44. -/
def sub (a b : (Fin n → ℝ) × (Fin n → ℝ)) : (Fin n → ℝ) × (Fin n → ℝ) :=
  (fun i => a.1 i - b.1 i, fun i => a.2 i - b.2 i)

/-- `mul`, message.h:46-52, for `z3` a different object. -/
def mul (a b : (Fin n → ℝ) × (Fin n → ℝ)) : (Fin n → ℝ) × (Fin n → ℝ) :=
  (fun i => a.1 i * b.1 i - a.2 i * b.2 i, fun i => a.1 i * b.2 i + a.2 i * b.1 i)

/-- The loop body of `mul`, message.h:49-50, when `z3` is the object `z1`: the second statement
reads the overwritten real part. -/
def mulAliasStep (b : (Fin n → ℝ) × (Fin n → ℝ)) (i : Fin n) (a : (Fin n → ℝ) × (Fin n → ℝ)) :
    (Fin n → ℝ) × (Fin n → ℝ) :=
  let r := Function.update a.1 i (a.1 i * b.1 i - a.2 i * b.2 i)
  (r, Function.update a.2 i (r i * b.2 i + a.2 i * b.1 i))

/-- `mul(z1, z2, z1)`, message.h:46-52. -/
def mulAlias (a b : (Fin n → ℝ) × (Fin n → ℝ)) : (Fin n → ℝ) × (Fin n → ℝ) :=
  forFin n (mulAliasStep b) a

/-- `square_sum`, message.h:54-61. -/
noncomputable def square_sum (z : (Fin n → ℝ) × (Fin n → ℝ)) : ℝ :=
  forFin n (fun i s => s + (z.1 i * z.1 i + z.2 i * z.2 i)) 0

/-- `norm`, message.h:63-66. -/
noncomputable def norm (z : (Fin n → ℝ) × (Fin n → ℝ)) : ℝ := Real.sqrt (square_sum z)

/-- `sup_norm`, message.h:68-76. -/
noncomputable def sup_norm (z : (Fin n → ℝ) × (Fin n → ℝ)) : ℝ :=
  forFin n (fun i mx =>
    let a := Real.sqrt (z.1 i * z.1 i + z.2 i * z.2 i)
    if a > mx then a else mx) 0

/-- One row of the dense `matrix_vector_product<LOGN,K>`, message.h:94-103. -/
noncomputable def mvpRow {K : Nat} (z : (Fin n → ℝ) × (Fin n → ℝ)) (A : Fin K → (Fin n → ℝ) × (Fin n → ℝ)) (i : Nat) :
    M (ℝ × ℝ) :=
  forUp 0 K (fun k (s : ℝ × ℝ) => do
    let t ← idxM (i + k)
    let a ← rd A k
    let ar ← rd a.1 i
    let ai ← rd a.2 i
    let zr ← rd z.1 (t % n)
    let zi ← rd z.2 (t % n)
    pure (s.1 + (ar * zr - ai * zi), s.2 + (ar * zi + ai * zr))) (0, 0)

/-- `matrix_vector_product<LOGN,K>`, message.h:88-104. -/
noncomputable def mvp {K : Nat} (z : (Fin n → ℝ) × (Fin n → ℝ)) (A : Fin K → (Fin n → ℝ) × (Fin n → ℝ)) :
    M ((Fin n → ℝ) × (Fin n → ℝ)) := do
  let rows ← tabM n (mvpRow z A)
  pure (fun i => (rows i).1, fun i => (rows i).2)

/-- `aggregate<LOGN>`, message.h:128-139, one of the two arrays: `a[i]` for `i < N/2`, else `b[i]`. -/
def aggregateHalf (LOGN : Nat) (a b : Fin (2^(LOGN-1)) → ℝ) : M (Fin (2^LOGN) → ℝ) :=
  tabM (2^LOGN) (fun i => if i < 2^LOGN / 2 then rd a i else rd b i)

/-- `aggregate<LOGN>`, message.h:128-139. -/
def aggregate (LOGN : Nat) (z1 z2 : CVec LOGN) : M ((Fin (2^LOGN) → ℝ) × (Fin (2^LOGN) → ℝ)) := do
  let r ← aggregateHalf LOGN z1.1 z2.1
  let i ← aggregateHalf LOGN z1.2 z2.2
  pure (r, i)

end Msg
end EvalRound

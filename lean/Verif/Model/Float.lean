import Mathlib.Data.Int.Log
import Verif.Model.Endecode

/-!
# HEAAN/matrix/DFT.h and HEAAN/endecode.h with the arithmetic of `double`

A `double` is a real number; every operation rounds its exact result to binary64, to nearest with ties to even. A result
that rounds to an infinity is undefined here. Products and sums are not fused. `cos` and `sin` come from the C library and
are parameters. The other files take the exact reals instead.
-/

namespace EvalRound
open Z_Q

/-- to the nearest integer, halves to the even one. The rounding of every operation on `double`, for example
endecode.h:15; not a line of the repository. -/
noncomputable def roundEven (x : ℝ) : ℤ :=
  if x - ⌊x⌋ < 1/2 then ⌊x⌋ else if 1/2 < x - ⌊x⌋ then ⌊x⌋ + 1 else if ⌊x⌋ % 2 = 0 then ⌊x⌋ else ⌊x⌋ + 1

/-- the exponent of the last bit of binary64 near `x`: 53 bits, and not below `-1074`. As `roundEven` part of the
meaning of `double`, for example endecode.h:15. -/
noncomputable def ulpExp (x : ℝ) : ℤ := max (Int.log 2 |x| - 52) (-1074)

/-- `x` rounded to binary64, without a limit on the exponent. The meaning of an operation on `double`, for example
`m[i]*Delta` in endecode.h:15. -/
noncomputable def rnd (x : ℝ) : ℝ := roundEven (x / 2^ulpExp x) * 2^ulpExp x

/-- The result of an operation of `double` whose exact result is `x`. For example `m[i]*Delta` in endecode.h:15. An
overflow counts as undefined. -/
noncomputable def fl (x : ℝ) : M ℝ := if |rnd x| < 2^1024 then pure (rnd x) else ub

/-- `cos` and `sin` of math.h, called in DFT.h:17-18, 30-31, 58-61. -/
structure Libm where
  cos : ℝ → ℝ
  sin : ℝ → ℝ

/-- the macro `PI`, util.h:11, as a `double` -/
noncomputable def PI64 : ℝ := rnd 3.1415926535897932384626433

/-- `PI/N*fivei`, DFT.h:58-61. -/
noncomputable def angleF (N fivei : Nat) : M ℝ := do
  let a ← fl (PI64 / (N : ℝ))
  fl (a * (fivei : ℝ))

/-- The six statements of the innermost loop of `splitU0NR`, DFT.h:56-61. -/
noncomputable def splitStepF (L : Libm) (LOGN Mm k i fivei : Nat) (A : Fac LOGN) : M (Fac LOGN) := do
  let Ar ← A.1.set_element (2 * Mm * k + i) (2 * Mm * k + i) 1
  let Ar ← Ar.set_element (2 * Mm * k + Mm + i) (2 * Mm * k + i) 1
  let t ← angleF (2^LOGN) fivei
  let Ar ← Ar.set_element (2 * Mm * k + i) (2 * Mm * k + Mm + i) (L.cos t)
  let Ai ← A.2.set_element (2 * Mm * k + i) (2 * Mm * k + Mm + i) (L.sin t)
  let Ar ← Ar.set_element (2 * Mm * k + Mm + i) (2 * Mm * k + Mm + i) (-L.cos t)
  let Ai ← Ai.set_element (2 * Mm * k + Mm + i) (2 * Mm * k + Mm + i) (-L.sin t)
  pure (Ar, Ai)

/-- One iteration of the loop over `n` in `splitU0NR`, DFT.h:48-62; `A0` is the previous content of `(Ar[n], Ai[n])`. -/
noncomputable def splitFactorF (L : Libm) (LOGN n : Nat) (A0 : Fac LOGN) : M (Fac LOGN) := do
  let Mm := 2^(LOGN - n - 2)
  let A : Fac LOGN := (setOffs A0.1.setzero Mm, setOffs A0.2.setzero Mm)
  forUp 0 (2^n) (fun k A => do
    let st ← forUp 0 Mm (fun i (st : Fac LOGN × Nat) => do
      let A ← splitStepF L LOGN Mm k i st.2 st.1
      let f ← five (2^LOGN) st.2
      pure (A, f)) (A, 2^n)
    pure st.1) A

/-- `splitU0NR<LOGN>(Ar,Ai)`, DFT.h:44-64. -/
noncomputable def splitU0NRF (L : Libm) (LOGN : Nat) (A0 : Fin (LOGN - 1) → Fac LOGN) : M (Fin (LOGN - 1) → Fac LOGN) :=
  tabM (LOGN - 1) (fun n => do
    let a ← rd A0 n
    splitFactorF L LOGN n a)

/-- The table of `ifftNR`, DFT.h:104-111. -/
noncomputable def adjTableF (L : Libm) (LOGN : Nat) : M (Fin (LOGN - 1) → Fac LOGN) := do
  let U ← splitU0NRF L LOGN (fac0 LOGN)
  tabM (LOGN - 1) (fun n => do
    let a ← rd U n
    adjFactor a)

/-- `a*x - b*y` and its addition to `s`, matrix.h:153-154 (the second line with `-b` for `b`). -/
noncomputable def accF (s a x b y : ℝ) : M ℝ := do
  let p ← fl (a * x)
  let q ← fl (b * y)
  let r ← fl (p - q)
  fl (s + r)

/-- Row `i` of `matrix_vector_product<LOGN>(zr,zi,Ar,Ai,Azr,Azi)`, matrix.h:149-156, with `H = 1 << (LOGN-1)`.
A product and its negative round alike. -/
noncomputable def mvpRowF {H : Nat} (zr zi : Fin H → ℝ) (Ar Ai : SparseDiagonal H 3) (i : Nat) : M (ℝ × ℝ) :=
  forUp 0 3 (fun k (s : ℝ × ℝ) => do
    let offr ← rd Ar.off k
    let offi ← rd Ai.off k
    let jr ← wrapIdx H i offr
    let ji ← wrapIdx H i offi
    let vr ← rd Ar.vec k
    let ar ← rd vr i
    let vi ← rd Ai.vec k
    let ai ← rd vi i
    let xr ← rd zr jr
    let xi ← rd zi ji
    let sr ← accF s.1 ar xr ai xi
    let si ← accF s.2 ar xi (-ai) xr
    pure (sr, si)) (0, 0)

/-- `matrix_vector_product<LOGN>(zr,zi,Ar,Ai,Azr,Azi)`, matrix.h:142-160. -/
noncomputable def matrix_vector_productF {H : Nat} (zr zi : Fin H → ℝ) (Ar Ai : SparseDiagonal H 3) :
    M ((Fin H → ℝ) × (Fin H → ℝ)) := do
  let rows ← tabM H (fun i => mvpRowF zr zi Ar Ai i)
  pure (fun i => (rows i).1, fun i => (rows i).2)

/-- `fftNR<LOGN>(m,zr,zi)`, DFT.h:66-93. -/
noncomputable def fftNRF (L : Libm) (LOGN : Nat) (m : Fin (2^LOGN) → ℝ) : M (CVec LOGN) := do
  let U ← splitU0NRF L LOGN (fac0 LOGN)
  let z ← halves LOGN m
  forUp 0 (LOGN - 1) (fun t (z : CVec LOGN) => do
    let A ← rd U (LOGN - 2 - t)
    matrix_vector_productF z.1 z.2 A.1 A.2) z

/-- `ifftNR<LOGN>(zr,zi,m)`, DFT.h:96-131. -/
noncomputable def ifftNRF (L : Libm) (LOGN : Nat) (z : CVec LOGN) : M (Fin (2^LOGN) → ℝ) := do
  let U ← adjTableF L LOGN
  let m ← forUp 0 (LOGN - 1) (fun d (m : CVec LOGN) => do
    let A ← rd U d
    matrix_vector_productF m.1 m.2 A.1 A.2) z
  tabM (2^LOGN) (fun i => do
    let x ← readHalves m i
    let y ← fl (x * 2)
    fl (y / (2^LOGN : Nat)))

/-- `fft<LOGN>(m,zr,zi)`, DFT.h:133-146. -/
noncomputable def fftF (L : Libm) (LOGN : Nat) (m : Fin (2^LOGN) → ℝ) : M (CVec LOGN) := do
  let mem ← toNR LOGN m
  let mNR ← tabM (2^LOGN) (fun i => rdM mem i)
  fftNRF L LOGN mNR

/-- `ifft<LOGN>(zr,zi,m)`, DFT.h:148-159. -/
noncomputable def ifftF (L : Libm) (LOGN : Nat) (z : CVec LOGN) (m0 : Fin (2^LOGN) → ℝ) : M (Fin (2^LOGN) → ℝ) := do
  let mNR ← ifftNRF L LOGN z
  fromNR LOGN mNR m0

section
variable {LOGQ : Nat} [NeZero LOGQ]

/-- The loop body of `encode`, endecode.h:14-17. `std::round` is exact. -/
noncomputable def encodeCoeffF (LOGQ : Nat) [NeZero LOGQ] (Delta : W) (x : ℝ) : M (Z_Q LOGQ) := do
  let d ← fl (Delta.toNat : ℝ)
  let y ← fl (|x| * d)
  let w ← toU64 (cround y)
  let p : Z_Q LOGQ := ofW w
  pure (if x < 0 then negate p else p)

/-- `encode<LOGQ,LOGN>`, endecode.h:8-19. -/
noncomputable def encodeF (L : Libm) (LOGQ : Nat) [NeZero LOGQ] {LOGN : Nat} (z : CVec LOGN) (Delta : W) :
    M (R_Q LOGQ (2^LOGN)) := do
  let m ← ifftF L LOGN z (fun _ => 0)
  tabM (2^LOGN) (fun i => do
    let x ← rd m i
    encodeCoeffF LOGQ Delta x)

/-- `power*=beta`, endecode.h:33; `none` is the infinity, which the loop may reach without using it. -/
noncomputable def mulBeta : Option ℝ → Option ℝ
  | none => none
  | some p => if |rnd (p * 2^64)| < 2^1024 then some (rnd (p * 2^64)) else none

/-- The term `abs_pti[j]*power/Delta`, endecode.h:35. An infinity and a division by zero are undefined here. -/
noncomputable def decodeTermF (Delta w : W) : Option ℝ → M ℝ
  | none => ub
  | some p => do
    let y ← fl (w.toNat : ℝ)
    let y ← fl (y * p)
    let d ← fl (Delta.toNat : ℝ)
    if d = 0 then ub else fl (y / d)

/-- The loop body of `decode`, endecode.h:29-37. -/
noncomputable def decodeCoeffF (Delta : W) (x : Z_Q LOGQ) : M ℝ := do
  let a := if x.is_bigger_than_halfQ then negate (copy x) else copy x
  let s ← forUp 0 (nlimb LOGQ) (fun j (s : ℝ × Option ℝ) => do
    let w ← rd a.data j
    let m ← if w ≠ 0 then do
        let y ← decodeTermF Delta w s.2
        fl (s.1 + y)
      else pure s.1
    pure (m, mulBeta s.2)) (0, some 1)
  pure (if x.is_bigger_than_halfQ then - s.1 else s.1)

/-- `decode<LOGQ,LOGN>`, endecode.h:21-40. -/
noncomputable def decodeF (L : Libm) {LOGN : Nat} (pt : R_Q LOGQ (2^LOGN)) (Delta : W) : M (CVec LOGN) := do
  let m ← tabM (2^LOGN) (fun i => do
    let x ← rd pt i
    decodeCoeffF Delta x)
  fftF L LOGN m

/-- The loop body of `decode_log`, endecode.h:50-60; `beta` is `2^64`. The limb is converted to `double` first. -/
noncomputable def decodeLogCoeffF (LOGDELTA : Int) (x : Z_Q LOGQ) : M ℝ := do
  let a := if x.is_bigger_than_halfQ then negate (copy x) else copy x
  let d := a.max_valid_digit
  let t ← intM (64 * d)
  let scale_diff ← intM (t - LOGDELTA)
  let m ← forUp 0 (d + 1).toNat (fun j (m : ℝ) => do
    let w ← rd a.data j
    let q ← fl (m / 2^64)
    let w ← fl (w.toNat : ℝ)
    fl (q + w)) 0
  let m ← fl (m * (2 : ℝ) ^ scale_diff)
  pure (if x.is_bigger_than_halfQ then - m else m)

/-- `decode_log<LOGQ,LOGN>`, endecode.h:42-63. -/
noncomputable def decode_logF (L : Libm) {LOGN : Nat} (pt : R_Q LOGQ (2^LOGN)) (LOGDELTA : Int) : M (CVec LOGN) := do
  let m ← tabM (2^LOGN) (fun i => do
    let x ← rd pt i
    decodeLogCoeffF LOGDELTA x)
  fftF L LOGN m

end

end EvalRound

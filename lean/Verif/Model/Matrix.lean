import Mathlib.Data.Real.Basic
import Verif.Model.Conv

/-!
# HEAAN/matrix/matrix.h, and the matrix-vector products of impl/message.h

`double` is modelled by the exact real numbers: no rounding, no infinities.  `int` offsets are
integers, and `int` arithmetic on them is checked by `intM`.  Destinations are different objects
from sources.  `print` and `print_max` (output only) are not modelled.
-/

namespace EvalRound

/-- a computed `int` index; a negative one is out of bounds, matrix.h:71, 152-153. -/
def idxZ (x : Int) : M Nat := if 0 ≤ x then pure x.toNat else ub

/-- `for(s=0;s<S;s++) if(p(s)) return s;`: the first `s` with `p s`, matrix.h:61-64 and 87-92. -/
def firstM : (S : Nat) → (Fin S → M Bool) → M (Option (Fin S))
  | 0, _ => pure none
  | S+1, p => do
    match ← firstM S (fun s => p s.castSucc) with
    | some s => pure (some s.castSucc)
    | none => do
      let b ← p (Fin.last S)
      pure (if b then some (Fin.last S) else none)

/-- `struct SparseDiagonal<N,S>`, matrix.h:43-47. -/
structure SparseDiagonal (N S : Nat) where
  vec : Fin S → Fin N → ℝ
  off : Fin S → Int
  zero : Fin S → Bool

namespace SparseDiagonal
variable {N S S1 S2 : Nat}

/-- `operator=`, matrix.h:49-58. -/
def copy (other A0 : SparseDiagonal N S) : SparseDiagonal N S :=
  forFin S (fun s A =>
    { vec := Function.update A.vec s (forFin N (fun i v => Function.update v i (other.vec s i)) (A.vec s))
      off := Function.update A.off s (other.off s)
      zero := Function.update A.zero s (other.zero s) }) A0

/-- `(j - i - off) % N == 0`, matrix.h:62 and 88. -/
def onDiag (N : Nat) (i j : Nat) (off : Int) : M Bool := do
  let t ← intM ((j : Int) - i)
  let t ← intM (t - off)
  pure (decide (Int.tmod t N = 0))

/-- `get_element`, matrix.h:60-65, for indices `i`, `j` that are not negative. -/
noncomputable def get_element (A : SparseDiagonal N S) (i j : Nat) : M ℝ := do
  match ← firstM S (fun s => onDiag N i j (A.off s)) with
  | some s => rd (A.vec s) i
  | none => pure 0

/-- `setzero`, matrix.h:78-84. -/
noncomputable def setzero (A : SparseDiagonal N S) : SparseDiagonal N S :=
  forFin S (fun s A =>
    { vec := Function.update A.vec s (forFin N (fun i v => Function.update v i 0) (A.vec s))
      off := Function.update A.off s 0
      zero := Function.update A.zero s true }) A

/-- `set_element`, matrix.h:86-94, for indices `i`, `j` that are not negative. -/
noncomputable def set_element (A : SparseDiagonal N S) (i j : Nat) (v : ℝ) : M (SparseDiagonal N S) := do
  match ← firstM S (fun s => onDiag N i j (A.off s)) with
  | some s => do
    let w ← wr (A.vec s) i v
    pure { A with vec := Function.update A.vec s w, zero := Function.update A.zero s false }
  | none => do
    assertM false
    pure A

/-- `operator+=`, matrix.h:96-102. -/
noncomputable def addAssign (A B : SparseDiagonal N S) : M (SparseDiagonal N S) :=
  forUp 0 S (fun s A => do
    let oa ← rd A.off s
    let ob ← rd B.off s
    assertM (decide (oa = ob))
    let va ← rd A.vec s
    let vb ← rd B.vec s
    let vec ← wr A.vec s (forFin N (fun i v => Function.update v i (v i + vb i)) va)
    pure { A with vec := vec }) A

/-- `operator-=`, matrix.h:104-110. -/
noncomputable def subAssign (A B : SparseDiagonal N S) : M (SparseDiagonal N S) :=
  forUp 0 S (fun s A => do
    let oa ← rd A.off s
    let ob ← rd B.off s
    assertM (decide (oa = ob))
    let va ← rd A.vec s
    let vb ← rd B.vec s
    let vec ← wr A.vec s (forFin N (fun i v => Function.update v i (v i - vb i)) va)
    pure { A with vec := vec }) A

/-- `operator*=(double a)`, matrix.h:112-116. -/
noncomputable def scale (A : SparseDiagonal N S) (a : ℝ) : SparseDiagonal N S :=
  forFin S (fun s A =>
    let v := forFin N (fun i v => Function.update v i (v i * a)) (A.vec s)
    { A with vec := Function.update A.vec s v }) A

/-- The position written by matrix.h:123-124. -/
def transposePos (N i : Nat) (off : Int) : M Int := do
  let d ← intM (N - off)
  if (i : Int) < d then intM (off + i) else intM (i - d)

/-- `temp` of matrix.h:121-125: the diagonal `v` shifted by `off`, into an uninitialised array. -/
def transposeTemp (v : Fin N → ℝ) (off : Int) : M (Mem N ℝ) :=
  forUp 0 N (fun i temp => do
    let x ← rd v i
    let p ← transposePos N i off
    let p ← idxZ p
    wrM temp p x) (fun _ => none)

/-- One iteration of the loop of `transpose`, matrix.h:120-129. -/
def transposeStep (s : Fin S) (A : SparseDiagonal N S) : M (SparseDiagonal N S) :=
  if 0 < A.off s then do
    let temp ← transposeTemp (A.vec s) (A.off s)
    let v ← tabM N (fun i => rdM temp i)
    let o ← intM (N - A.off s)
    pure { A with vec := Function.update A.vec s v, off := Function.update A.off s o }
  else pure A

/-- `transpose`, matrix.h:118-130. -/
def transpose (A : SparseDiagonal N S) : M (SparseDiagonal N S) :=
  forUp 0 S (fun s A => if h : s < S then transposeStep ⟨s, h⟩ A else ub) A

/-- `negate`, matrix.h:132-136. -/
noncomputable def negate (A : SparseDiagonal N S) : SparseDiagonal N S :=
  forFin S (fun s A =>
    let v := forFin N (fun i v => Function.update v i (- v i)) (A.vec s)
    { A with vec := Function.update A.vec s v }) A

end SparseDiagonal

section
variable {N S S1 S2 : Nat}

/-- `(i + off) % N`, an `int` used as an index, matrix.h:71, 152-153, 175, 187. -/
def wrapIdx (N i : Nat) (off : Int) : M Nat := do
  let t ← intM (i + off)
  idxZ (Int.tmod t N)

/-- Row `i` of `matrix_vector_product<LOGN>(zr,zi,Ar,Ai,Azr,Azi)`, matrix.h:149-156, with
`H = 1 << (LOGN-1)`. -/
noncomputable def mvpRow {H : Nat} (zr zi : Fin H → ℝ) (Ar Ai : SparseDiagonal H 3) (i : Nat) :
    M (ℝ × ℝ) :=
  forUp 0 3 (fun k (s : ℝ × ℝ) => do
    let offr ← rd Ar.off k
    let offi ← rd Ai.off k
    let jr ← wrapIdx H i offr
    let ji ← wrapIdx H i offi
    let vr ← rd Ar.vec k
    let ar ← rd vr i
    let vi ← rd Ai.vec k
    let ai ← rd vi i
    let xr ← rd zr jr
    let xi ← rd zi ji
    pure (s.1 + (ar * xr - ai * xi), s.2 + (ar * xi + ai * xr))) (0, 0)

/-- `matrix_vector_product<LOGN>(zr,zi,Ar,Ai,Azr,Azi)`, matrix.h:142-160.  The result is the pair
`(Azr, Azi)`. -/
noncomputable def matrix_vector_product {H : Nat} (zr zi : Fin H → ℝ) (Ar Ai : SparseDiagonal H 3) :
    M ((Fin H → ℝ) × (Fin H → ℝ)) := do
  let rows ← tabM H (fun i => mvpRow zr zi Ar Ai i)
  pure (fun i => (rows i).1, fun i => (rows i).2)

/-- The search for `s3`, matrix.h:177-179. -/
def findOff {S : Nat} (off : Fin S → Int) (count : Nat) (off3 : Int) : M (Option Nat) :=
  forUp 0 count (fun k s3 => match s3 with
    | some s => pure (some s)
    | none => do
      let o ← rd off k
      pure (if o = off3 then some k else none)) none

/-- `C.zero[s3] = false; C.off[s3] = off3;`, matrix.h:182-183. -/
def openDiag {S : Nat} (C : SparseDiagonal N S) (s3 : Nat) (off3 : Int) : M (SparseDiagonal N S) := do
  let z ← wr C.zero s3 false
  let o ← wr C.off s3 off3
  pure { C with zero := z, off := o }

/-- `for(i=0;i<N;i++) C.vec[s3][i] += sgn * a[i] * b[(i+off1)%N]`, matrix.h:186-187 and the
four statements of 219-222. -/
noncomputable def accDiag {S : Nat} (C : SparseDiagonal N S) (s3 : Nat) (sgn : ℝ) (a b : Fin N → ℝ)
    (off1 : Int) : M (SparseDiagonal N S) := do
  let v0 ← rd C.vec s3
  let v ← forUp 0 N (fun i v => do
    let c ← rd v i
    let x ← rd a i
    let j ← wrapIdx N i off1
    let y ← rd b j
    wr v i (c + sgn * (x * y))) v0
  let vec ← wr C.vec s3 v
  pure { C with vec := vec }

/-- `s3`, after making a new diagonal if none has offset `off3`, matrix.h:176-185.
State `(count, C)`. -/
def slot {S : Nat} (st : Nat × SparseDiagonal N S) (off3 : Int) : M (Nat × Nat × SparseDiagonal N S) := do
  match ← findOff st.2.off st.1 off3 with
  | some s3 => pure (s3, st.1, st.2)
  | none => do
    let C ← openDiag st.2 st.1 off3
    pure (st.1, st.1 + 1, C)

/-- Body of the loops of `MatMul`, matrix.h:173-187. -/
noncomputable def matMulStep (A : SparseDiagonal N S1) (B : SparseDiagonal N S2) (s1 s2 : Nat)
    (st : Nat × SparseDiagonal N (S1 * S2)) : M (Nat × SparseDiagonal N (S1 * S2)) := do
  let off1 ← rd A.off s1
  let off2 ← rd B.off s2
  let t ← intM (off1 + off2)
  let off3 := Int.tmod t N
  let (s3, count, C) ← slot st off3
  let a ← rd A.vec s1
  let b ← rd B.vec s2
  let C ← accDiag C s3 1 a b off1
  pure (count, C)

/-- `MatMul(A,B,C)`, matrix.h:166-189; `C0` is the previous content of `C`. -/
noncomputable def MatMul (A : SparseDiagonal N S1) (B : SparseDiagonal N S2)
    (C0 : SparseDiagonal N (S1 * S2)) : M (SparseDiagonal N (S1 * S2)) := do
  let st ← forUp 0 S1 (fun s1 st => forUp 0 S2 (fun s2 st => matMulStep A B s1 s2 st) st)
    (0, C0.setzero)
  pure st.2

/-- The search for `s3` in the complex `MatMul`, matrix.h:207-211, with its assertion. -/
def findOffC {S : Nat} (offr offi : Fin S → Int) (count : Nat) (off3 : Int) : M (Option Nat) :=
  forUp 0 count (fun k s3 => match s3 with
    | some s => pure (some s)
    | none => do
      let o ← rd offr k
      let o' ← rd offi k
      assertM (decide (o = o'))
      pure (if o = off3 then some k else none)) none

/-- `s3`, after making a new diagonal if none has offset `off3`, matrix.h:206-217.
State `(count, Cr, Ci)`. -/
def slotC {S : Nat} (st : Nat × SparseDiagonal N S × SparseDiagonal N S) (off3 : Int) :
    M (Nat × Nat × SparseDiagonal N S × SparseDiagonal N S) := do
  match ← findOffC st.2.1.off st.2.2.off st.1 off3 with
  | some s3 => pure (s3, st.1, st.2.1, st.2.2)
  | none => do
    let Cr ← openDiag st.2.1 st.1 off3
    let Ci ← openDiag st.2.2 st.1 off3
    pure (st.1, st.1 + 1, Cr, Ci)

/-- Body of the loops of the complex `MatMul` after the `continue`, matrix.h:201-223.
The four statements of the loop over `i` write different cells for different `i` and read none
of them, so they are run as four loops. -/
noncomputable def matMulCStep (Ar Ai : SparseDiagonal N S1) (Br Bi : SparseDiagonal N S2) (s1 s2 : Nat)
    (st : Nat × SparseDiagonal N (S1 * S2) × SparseDiagonal N (S1 * S2)) :
    M (Nat × SparseDiagonal N (S1 * S2) × SparseDiagonal N (S1 * S2)) := do
  let off1 ← rd Ar.off s1
  let off1' ← rd Ai.off s1
  assertM (decide (off1 = off1'))
  let off2 ← rd Br.off s2
  let off2' ← rd Bi.off s2
  assertM (decide (off2 = off2'))
  let t ← intM (off1 + off2)
  let off3 := Int.tmod t N
  let (s3, count, Cr, Ci) ← slotC st off3
  let ar ← rd Ar.vec s1
  let ai ← rd Ai.vec s1
  let br ← rd Br.vec s2
  let bi ← rd Bi.vec s2
  let Cr ← accDiag Cr s3 1 ar br off1
  let Cr ← accDiag Cr s3 (-1) ai bi off1
  let Ci ← accDiag Ci s3 1 ar bi off1
  let Ci ← accDiag Ci s3 1 ai br off1
  pure (count, Cr, Ci)

/-- `Ar.zero[s1] && Ai.zero[s1] || Br.zero[s2] && Bi.zero[s2]`, matrix.h:199. -/
def skipC (Ar Ai : SparseDiagonal N S1) (Br Bi : SparseDiagonal N S2) (s1 s2 : Nat) : M Bool := do
  let ar ← rd Ar.zero s1
  let ai ← rd Ai.zero s1
  let br ← rd Br.zero s2
  let bi ← rd Bi.zero s2
  pure (ar && ai || br && bi)

/-- `MatMul(Ar,Ai,Br,Bi,Cr,Ci)`, matrix.h:191-225; `Cr0`, `Ci0` are the previous contents. -/
noncomputable def MatMulC (Ar Ai : SparseDiagonal N S1) (Br Bi : SparseDiagonal N S2)
    (Cr0 Ci0 : SparseDiagonal N (S1 * S2)) :
    M (SparseDiagonal N (S1 * S2) × SparseDiagonal N (S1 * S2)) := do
  let st ← forUp 0 S1 (fun s1 st => forUp 0 S2 (fun s2 st => do
    let skip ← skipC Ar Ai Br Bi s1 s2
    if skip then pure st else matMulCStep Ar Ai Br Bi s1 s2 st) st)
    (0, Cr0.setzero, Ci0.setzero)
  pure st.2

/-- `RemoveClutter(A,B)`, matrix.h:230-243; `B0` is the previous content of `B`. -/
noncomputable def RemoveClutter (A : SparseDiagonal N S1) (B0 : SparseDiagonal N S2) :
    M (SparseDiagonal N S2) := do
  assertM (decide (S2 < S1))
  let B ← forUp 0 S2 (fun s B => do
    let o ← rd A.off s
    let off ← wr B.off s o
    let zero ← wr B.zero s false
    let va ← rd A.vec s
    let vb ← rd B.vec s
    let vec ← wr B.vec s (forFin N (fun i v => Function.update v i (va i)) vb)
    pure ({ off := off, zero := zero, vec := vec } : SparseDiagonal N S2)) B0.setzero
  forUp S2 S1 (fun s B => do
    let z ← rd A.zero s
    assertM z
    pure B) B

/-- Row `i` of `matrix_vector_product(z,Ar,Ai,Az)` on messages, impl/message.h:113-123. -/
noncomputable def mvpMsgRow {H : Nat} (zr zi : Fin H → ℝ) (Ar Ai : SparseDiagonal H S) (i : Nat) :
    M (ℝ × ℝ) :=
  forUp 0 S (fun k (s : ℝ × ℝ) => do
    let fr ← rd Ar.zero k
    let fi ← rd Ai.zero k
    if !fr || !fi then do
      let offr ← rd Ar.off k
      let offi ← rd Ai.off k
      let jr ← wrapIdx H i offr
      let ji ← wrapIdx H i offi
      let vr ← rd Ar.vec k
      let ar ← rd vr i
      let vi ← rd Ai.vec k
      let ai ← rd vi i
      let xr ← rd zr jr
      let xi ← rd zi ji
      pure (s.1 + (ar * xr - ai * xi), s.2 + (ar * xi + ai * xr))
    else pure s) (0, 0)

/-- `matrix_vector_product(z,Ar,Ai,Az)` on messages, impl/message.h:106-127. -/
noncomputable def mvpMsg {H : Nat} (zr zi : Fin H → ℝ) (Ar Ai : SparseDiagonal H S) :
    M ((Fin H → ℝ) × (Fin H → ℝ)) := do
  let rows ← tabM H (fun i => mvpMsgRow zr zi Ar Ai i)
  pure (fun i => (rows i).1, fun i => (rows i).2)

end
end EvalRound

import Mathlib.Analysis.SpecialFunctions.Trigonometric.Basic
import Verif.Model.Matrix
import Verif.Model.Util

/-!
# HEAAN/matrix/DFT.h

`double` is modelled by the exact real numbers, `cos` and `sin` by the real functions and the
macro `PI` (util.h:11) by `π`.  The function-local static tables are recomputed by every call; see
`Verif/Model/Static.lean` for the caching.  Parameters: `LOGN`, with `N = 2^LOGN` and
`N/2 = 2^(LOGN-1)`.
-/

namespace EvalRound
open Real

/-- `x * 5 % (2*N)`, the step of the power loops, DFT.h:14, 29 and 55. -/
def five (N x : Nat) : M Nat := do
  let t ← idxM (x * 5)
  pure (t % (2 * N))

/-- `(fivei_k + fivei) % (2*N)`, DFT.h:16. -/
def addMod (N x y : Nat) : M Nat := do
  let t ← idxM (x + y)
  pure (t % (2 * N))

/-- The loop over `k` of `dft`, DFT.h:15-19: the sums for one `i`. -/
noncomputable def dftRow {N : Nat} (m : Fin N → ℝ) (fivei : Nat) : M (ℝ × ℝ) := do
  let st ← forUp 0 N (fun k (st : (ℝ × ℝ) × Nat) => do
    let x ← rd m k
    let nk ← addMod N st.2 fivei
    pure ((st.1.1 + x * cos (π / N * st.2), st.1.2 + x * sin (π / N * st.2)), nk)) ((0, 0), 0)
  pure st.1

/-- `dft<N>(m,zr,zi)`, DFT.h:10-21; `z0` is the previous content of the outputs. -/
noncomputable def dft {N : Nat} (m : Fin N → ℝ) (z0 : (Fin (N/2) → ℝ) × (Fin (N/2) → ℝ)) :
    M ((Fin (N/2) → ℝ) × (Fin (N/2) → ℝ)) := do
  let st ← forUp 0 (N/2) (fun i (st : ((Fin (N/2) → ℝ) × (Fin (N/2) → ℝ)) × Nat) => do
    let r ← dftRow m st.2
    let zr ← wr st.1.1 i r.1
    let zi ← wr st.1.2 i r.2
    let f ← five N st.2
    pure ((zr, zi), f)) (z0, 1)
  pure st.1

/-- The loop over `i` of `idft`, DFT.h:27-32. -/
noncomputable def idftRow (N : Nat) {H : Nat} (zr zi : Fin H → ℝ) (k : Nat) : M (ℝ × ℝ) := do
  let st ← forUp 0 H (fun i (st : (ℝ × ℝ) × Nat) => do
    let x ← rd zr i
    let y ← rd zi i
    let nk ← five N st.2
    pure ((st.1.1 + (cos (π / N * st.2) * x + sin (π / N * st.2) * y),
      st.1.2 + (cos (π / N * st.2) * y - sin (π / N * st.2) * x)), nk)) ((0, 0), k)
  pure st.1

/-- `idft<N>(zr,zi,m)`, DFT.h:23-36; `m0` is the previous content of `m`. -/
noncomputable def idft {N : Nat} (zr zi : Fin (N/2) → ℝ) (m0 : Fin N → ℝ) : M (Fin N → ℝ) :=
  forUp 0 (N/2) (fun k m => do
    let r ← idftRow N zr zi k
    let m ← wr m k (2 / N * r.1)
    wr m (k + N/2) (2 / N * r.2)) m0

/-- a factor: its real and imaginary part. DFT.h:73-74. -/
abbrev Fac (LOGN : Nat) := SparseDiagonal (2^(LOGN-1)) 3 × SparseDiagonal (2^(LOGN-1)) 3

/-- `A.off[0] = 0; A.off[1] = M; A.off[2] = N/2-M;`, DFT.h:50-52. -/
def setOffs {H : Nat} (A : SparseDiagonal H 3) (M : Nat) : SparseDiagonal H 3 :=
  { A with off := Function.update (Function.update (Function.update A.off 0 0) 1 M) 2 (H - M) }

/-- The six statements of the innermost loop of `splitU0NR`, DFT.h:56-61. -/
noncomputable def splitStep (LOGN Mm k i fivei : Nat) (A : Fac LOGN) : M (Fac LOGN) := do
  let c := cos (π / (2^LOGN : Nat) * fivei)
  let s := sin (π / (2^LOGN : Nat) * fivei)
  let Ar ← A.1.set_element (2 * Mm * k + i) (2 * Mm * k + i) 1
  let Ar ← Ar.set_element (2 * Mm * k + Mm + i) (2 * Mm * k + i) 1
  let Ar ← Ar.set_element (2 * Mm * k + i) (2 * Mm * k + Mm + i) c
  let Ai ← A.2.set_element (2 * Mm * k + i) (2 * Mm * k + Mm + i) s
  let Ar ← Ar.set_element (2 * Mm * k + Mm + i) (2 * Mm * k + Mm + i) (-c)
  let Ai ← Ai.set_element (2 * Mm * k + Mm + i) (2 * Mm * k + Mm + i) (-s)
  pure (Ar, Ai)

/-- One iteration of the loop over `n` in `splitU0NR`, DFT.h:48-62; `A0` is the previous content
of `(Ar[n], Ai[n])`. -/
noncomputable def splitFactor (LOGN n : Nat) (A0 : Fac LOGN) : M (Fac LOGN) := do
  let Mm := 2^(LOGN - n - 2)
  let A : Fac LOGN := (setOffs A0.1.setzero Mm, setOffs A0.2.setzero Mm)
  forUp 0 (2^n) (fun k A => do
    let st ← forUp 0 Mm (fun i (st : Fac LOGN × Nat) => do
      let A ← splitStep LOGN Mm k i st.2 st.1
      let f ← five (2^LOGN) st.2
      pure (A, f)) (A, 2^n)
    pure st.1) A

/-- `splitU0NR<LOGN>(Ar,Ai)`, DFT.h:44-64. -/
noncomputable def splitU0NR (LOGN : Nat) (A0 : Fin (LOGN - 1) → Fac LOGN) : M (Fin (LOGN - 1) → Fac LOGN) :=
  tabM (LOGN - 1) (fun n => do
    let a ← rd A0 n
    splitFactor LOGN n a)

/-- zero-initialised static table of factors, DFT.h:73-74 -/
noncomputable def fac0 (LOGN : Nat) : Fin (LOGN - 1) → Fac LOGN :=
  fun _ => (⟨fun _ _ => 0, fun _ => 0, fun _ => false⟩, ⟨fun _ _ => 0, fun _ => 0, fun _ => false⟩)

/-- a vector of `N/2` complex numbers as two arrays. DFT.h:67-69 and message.h:11-13. -/
abbrev CVec (LOGN : Nat) := (Fin (2^(LOGN-1)) → ℝ) × (Fin (2^(LOGN-1)) → ℝ)

/-- `for(i<N/2){ zr[i] = m[i]; zi[i] = m[i+N/2]; }`, DFT.h:80-83. -/
noncomputable def halves (LOGN : Nat) (m : Fin (2^LOGN) → ℝ) : M (CVec LOGN) := do
  let zr ← tabM (2^(LOGN-1)) (fun i => rd m i)
  let zi ← tabM (2^(LOGN-1)) (fun i => rd m (i + 2^(LOGN-1)))
  pure (zr, zi)

/-- `fftNR<LOGN>(m,zr,zi)` after the table is there, DFT.h:80-92. -/
noncomputable def fftNRWith (LOGN : Nat) (U : Fin (LOGN - 1) → Fac LOGN) (m : Fin (2^LOGN) → ℝ) :
    M (CVec LOGN) := do
  let z ← halves LOGN m
  forUp 0 (LOGN - 1) (fun t (z : CVec LOGN) => do
    let A ← rd U (LOGN - 2 - t)
    matrix_vector_product z.1 z.2 A.1 A.2) z

/-- `fftNR<LOGN>(m,zr,zi)`, DFT.h:66-93. -/
noncomputable def fftNR (LOGN : Nat) (m : Fin (2^LOGN) → ℝ) : M (CVec LOGN) := do
  let U ← splitU0NR LOGN (fac0 LOGN)
  fftNRWith LOGN U m

/-- `U0r[n].transpose(); U0i[n].transpose(); U0i[n].negate();`, DFT.h:106-108. -/
noncomputable def adjFactor {LOGN : Nat} (A : Fac LOGN) : M (Fac LOGN) := do
  let r ← A.1.transpose
  let i ← A.2.transpose
  pure (r, i.negate)

/-- The table of `ifftNR`, DFT.h:104-111. -/
noncomputable def adjTable (LOGN : Nat) : M (Fin (LOGN - 1) → Fac LOGN) := do
  let U ← splitU0NR LOGN (fac0 LOGN)
  tabM (LOGN - 1) (fun n => do
    let a ← rd U n
    adjFactor a)

/-- `m[i]`, DFT.h:129, of the array whose halves are the pair. -/
def readHalves {LOGN : Nat} (m : CVec LOGN) (i : Nat) : M ℝ :=
  if i < 2^(LOGN-1) then rd m.1 i else rd m.2 (i - 2^(LOGN-1))

/-- `ifftNR<LOGN>(zr,zi,m)` after the table is there, DFT.h:113-130.  The two halves of `m` are the
pair of arrays that `matrix_vector_product` writes. -/
noncomputable def ifftNRWith (LOGN : Nat) (U : Fin (LOGN - 1) → Fac LOGN) (z : CVec LOGN) :
    M (Fin (2^LOGN) → ℝ) := do
  let m ← forUp 0 (LOGN - 1) (fun d (m : CVec LOGN) => do
    let A ← rd U d
    matrix_vector_product m.1 m.2 A.1 A.2) z
  tabM (2^LOGN) (fun i => do
    let x ← readHalves m i
    pure (x * 2 / (2^LOGN : Nat)))

/-- `ifftNR<LOGN>(zr,zi,m)`, DFT.h:96-131. -/
noncomputable def ifftNR (LOGN : Nat) (z : CVec LOGN) : M (Fin (2^LOGN) → ℝ) := do
  let U ← adjTable LOGN
  ifftNRWith LOGN U z

/-- The permutation loop of `fft`, DFT.h:139-144. -/
noncomputable def toNR (LOGN : Nat) (m : Fin (2^LOGN) → ℝ) : M (Mem (2^LOGN) ℝ) :=
  forUp 0 (2^(LOGN-1)) (fun i mNR => do
    let r ← bitReverse (BitVec.ofNat 32 i) (LOGN - 1)
    let x ← rd m i
    let mNR ← wrM mNR r.toNat x
    let y ← rd m (i + 2^(LOGN-1))
    wrM mNR (r.toNat + 2^(LOGN-1)) y) (fun _ => none)

/-- `fft<LOGN>(m,zr,zi)`, DFT.h:133-146. -/
noncomputable def fft (LOGN : Nat) (m : Fin (2^LOGN) → ℝ) : M (CVec LOGN) := do
  let mem ← toNR LOGN m
  let mNR ← tabM (2^LOGN) (fun i => rdM mem i)
  fftNR LOGN mNR

/-- The permutation loop of `ifft`, DFT.h:154-158; `m0` is the previous content of `m`. -/
noncomputable def fromNR (LOGN : Nat) (mNR m0 : Fin (2^LOGN) → ℝ) : M (Fin (2^LOGN) → ℝ) :=
  forUp 0 (2^(LOGN-1)) (fun i m => do
    let r ← bitReverse (BitVec.ofNat 32 i) (LOGN - 1)
    let x ← rd mNR r.toNat
    let m ← wr m i x
    let y ← rd mNR (r.toNat + 2^(LOGN-1))
    wr m (i + 2^(LOGN-1)) y) m0

/-- `ifft<LOGN>(zr,zi,m)`, DFT.h:148-159. -/
noncomputable def ifft (LOGN : Nat) (z : CVec LOGN) (m0 : Fin (2^LOGN) → ℝ) : M (Fin (2^LOGN) → ℝ) := do
  let mNR ← ifftNR LOGN z
  fromNR LOGN mNR m0

end EvalRound

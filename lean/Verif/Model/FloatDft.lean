import Verif.Model.FloatMessage
import Verif.Model.FloatSection3

/-!
# `dft` and `idft` of HEAAN/matrix/DFT.h and src/test/dft_test.cpp with the arithmetic of `double`

As in `Verif/Model/DFT.lean` and `Verif/Model/Section3.lean`, with every operation of `double` rounded to binary64. The angle of a step is
written once: the code repeats the same expression.
-/

namespace EvalRound
open Z_Q

/-- The loop over `k` of `dft`, DFT.h:15-19: the sums for one `i`. -/
noncomputable def dftRowF (L : Libm) {N : Nat} (m : Fin N → ℝ) (fivei : Nat) : M (ℝ × ℝ) := do
  let st ← forUp 0 N (fun k (st : (ℝ × ℝ) × Nat) => do
    let x ← rd m k
    let t ← angleF N st.2
    let p ← fl (x * L.cos t)
    let zr ← fl (st.1.1 + p)
    let q ← fl (x * L.sin t)
    let zi ← fl (st.1.2 + q)
    let nk ← addMod N st.2 fivei
    pure ((zr, zi), nk)) ((0, 0), 0)
  pure st.1

/-- `dft<N>(m,zr,zi)`, DFT.h:10-21; `z0` is the previous content of the outputs. -/
noncomputable def dftF (L : Libm) {N : Nat} (m : Fin N → ℝ) (z0 : (Fin (N/2) → ℝ) × (Fin (N/2) → ℝ)) :
    M ((Fin (N/2) → ℝ) × (Fin (N/2) → ℝ)) := do
  let st ← forUp 0 (N/2) (fun i (st : ((Fin (N/2) → ℝ) × (Fin (N/2) → ℝ)) × Nat) => do
    let r ← dftRowF L m st.2
    let zr ← wr st.1.1 i r.1
    let zi ← wr st.1.2 i r.2
    let f ← five N st.2
    pure ((zr, zi), f)) (z0, 1)
  pure st.1

/-- The loop over `i` of `idft`, DFT.h:27-32. -/
noncomputable def idftRowF (L : Libm) (N : Nat) {H : Nat} (zr zi : Fin H → ℝ) (k : Nat) : M (ℝ × ℝ) := do
  let st ← forUp 0 H (fun i (st : (ℝ × ℝ) × Nat) => do
    let x ← rd zr i
    let y ← rd zi i
    let t ← angleF N st.2
    let s1 ← MsgF.accAdd st.1.1 (L.cos t) x (L.sin t) y
    let s2 ← MsgF.accSub st.1.2 (L.cos t) y (L.sin t) x
    let nk ← five N st.2
    pure ((s1, s2), nk)) ((0, 0), k)
  pure st.1

/-- `idft<N>(zr,zi,m)`, DFT.h:23-36; `m0` is the previous content of `m`. -/
noncomputable def idftF (L : Libm) {N : Nat} (zr zi : Fin (N/2) → ℝ) (m0 : Fin N → ℝ) : M (Fin N → ℝ) :=
  forUp 0 (N/2) (fun k m => do
    let r ← idftRowF L N zr zi k
    let c ← fl (2 / (N : ℝ))
    let x ← fl (c * r.1)
    let m ← wr m k x
    let y ← fl (c * r.2)
    wr m (k + N/2) y) m0

/-- `set_test_rounded_message`, setup.h:60-66. -/
noncomputable def set_test_rounded_messageF (L : Libm) (LOGN : Nat) (Delta : W) : M (CVec LOGN) := do
  let z ← set_test_messageF L LOGN
  let pt ← SimpleF.encode L z Delta
  SimpleF.decode L pt Delta

/-- `ifft_test`, dft_test.cpp:4-12: `m_idft` and `m_ifft`; `m0`, `m1` are the contents of the uninitialised arrays. -/
noncomputable def ifft_testF (L : Libm) (LOGDELTA LOGN : Nat) (m0 m1 : Fin (2^LOGN) → ℝ) : M ((Fin (2^LOGN) → ℝ) × (Fin (2^LOGN) → ℝ)) := do
  let Delta ← shl1 LOGDELTA
  let z ← set_test_rounded_messageF L LOGN Delta
  let m_idft ← idftF L (halfOf z.1) (halfOf z.2) m0
  let m_ifft ← ifftF L LOGN z m1
  pure (m_idft, m_ifft)

/-- `run_test`, dft_test.cpp:14-23: `z` and `z_res`. -/
noncomputable def run_testF (L : Libm) (LOGN : Nat) (m0 : Fin (2^LOGN) → ℝ) (ρ : RealRng) : M (CVec LOGN × CVec LOGN) := do
  let z := (set_random_message LOGN ρ).1
  let m ← ifftF L LOGN z m0
  let z_res ← fftF L LOGN m
  pure (z, z_res)

end EvalRound

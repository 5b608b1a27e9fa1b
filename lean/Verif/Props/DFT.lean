import Verif.Proofs.DFT

/-!
# C28: the transforms of DFT.h

Exact real arithmetic; `2 ≤ LOGN ≤ 27`, because `fivei*5` overflows `int` from `LOGN = 28` on
(`C28_overflow`).
-/

namespace EvalRound
open SparseDiagonal

/-- C28: `dft<N>` computes the slots, the values at `exp(iπ5^i/N)`. -/
theorem C28_dft {N : Nat} (hN : 0 < N) (hb : 10 * N ≤ 2^31 - 1) (m : Fin N → ℝ)
    (z0 : (Fin (N/2) → ℝ) × (Fin (N/2) → ℝ)) :
    Ok (dft m z0) fun z => ∀ i : Fin (N/2), (⟨z.1 i, z.2 i⟩ : ℂ) = slotOf m i :=
  dft_spec hN hb m z0

/-- C28: `fft<LOGN>` computes the slots; no access is out of bounds. -/
theorem C28_fft {LOGN : Nat} (h1 : 2 ≤ LOGN) (h2 : LOGN ≤ 27) (m : Fin (2^LOGN) → ℝ) :
    Ok (fft LOGN m) fun z => ∀ i : Fin (2^(LOGN-1)), (⟨z.1 i, z.2 i⟩ : ℂ) = slotOf m i := by
  obtain ⟨n, rfl⟩ : ∃ n, LOGN = n + 1 := ⟨LOGN - 1, by omega⟩
  refine Ok.mono (fft_spec (by omega) (by omega) m) fun z hz i => ?_
  exact (congrFun hz i).trans (fftMat_slot m i)

/-- C28: `ifft` undoes `fft`. -/
theorem C28_ifft_fft {LOGN : Nat} (h1 : 2 ≤ LOGN) (h2 : LOGN ≤ 27) (m m0 : Fin (2^LOGN) → ℝ) :
    (do
      let z ← fft LOGN m
      ifft LOGN z m0) = pure m := by
  obtain ⟨n, rfl⟩ : ∃ n, LOGN = n + 1 := ⟨LOGN - 1, by omega⟩
  obtain ⟨z, e, hz⟩ := fft_spec (n := n) (by omega) (by omega) m
  obtain ⟨m', e', hm⟩ := ifft_spec (n := n) (by omega) (by omega) z m0
  rw [e, pure_bind, e']
  congr 1
  apply pairC_inj
  rw [hm, hz]
  have h := adj_mul_of_mul_adj (pow_ne_zero n two_ne_zero) (fftMat_adj (le_refl n))
  funext p
  rw [Matrix.mulVec_mulVec, Matrix.smul_mul, h, smul_smul, inv_mul_cancel₀ (pow_ne_zero n two_ne_zero), one_smul, Matrix.one_mulVec]
  exact congrArg (pairC n m) (Fin.ext (bitRev_bitRev p.isLt))

/-- C28: `fft` undoes `ifft`. -/
theorem C28_fft_ifft {LOGN : Nat} (h1 : 2 ≤ LOGN) (h2 : LOGN ≤ 27) (z : CVec LOGN) (m0 : Fin (2^LOGN) → ℝ) :
    (do
      let m ← ifft LOGN z m0
      fft LOGN m) = pure z := by
  obtain ⟨n, rfl⟩ : ∃ n, LOGN = n + 1 := ⟨LOGN - 1, by omega⟩
  obtain ⟨m, e, hm⟩ := ifft_spec (n := n) (by omega) (by omega) z m0
  obtain ⟨z', e', hz⟩ := fft_spec (n := n) (by omega) (by omega) m
  rw [e, pure_bind, e']
  congr 1
  have key : toC z'.1 z'.2 = toC z.1 z.2 := by
    rw [hz, hm]
    simp only [bitRev_bitRev (Fin.isLt _)]
    rw [Matrix.mulVec_mulVec, Matrix.mul_smul, fftMat_adj (le_refl n), smul_smul, inv_mul_cancel₀ (pow_ne_zero n two_ne_zero),
      one_smul, Matrix.one_mulVec]
  refine Prod.ext (funext fun i => ?_) (funext fun i => ?_)
  · exact congrArg Complex.re (congrFun key i)
  · exact congrArg Complex.im (congrFun key i)

/-- C28: `ifft<LOGN>` and `idft<N>` return the same array. -/
theorem C28_ifft_idft {LOGN : Nat} (h1 : 2 ≤ LOGN) (h2 : LOGN ≤ 27) (z : CVec LOGN)
    (zr zi : Fin (2^LOGN/2) → ℝ) (hr : ∀ i (h : i < 2^(LOGN-1)) (h' : i < 2^LOGN/2), zr ⟨i, h'⟩ = z.1 ⟨i, h⟩)
    (hi : ∀ i (h : i < 2^(LOGN-1)) (h' : i < 2^LOGN/2), zi ⟨i, h'⟩ = z.2 ⟨i, h⟩) (m0 m0' : Fin (2^LOGN) → ℝ) :
    Ok (ifft LOGN z m0) fun m => idft zr zi m0' = pure m := by
  obtain ⟨n, rfl⟩ : ∃ n, LOGN = n + 1 := ⟨LOGN - 1, by omega⟩
  refine Ok.mono (ifft_spec (n := n) (by omega) (by omega) z m0) fun m hm => ?_
  have hp : 2^(n+1) = 2 * 2^n := by ring
  have hle : 2^(n+1) ≤ 2^27 := Nat.pow_le_pow_right (by norm_num) h2
  have hhalf : 2^(n+1)/2 = 2^n := by omega
  obtain ⟨m', e, h⟩ := idft_spec (N := 2^(n+1)) (by positivity) (by omega)
    (by have : INT_MAX = 2147483647 := by decide
        omega) zr zi m0'
  rw [e]
  congr 1
  apply pairC_inj
  rw [hm]
  funext p
  have hk := h p.val (by rw [hhalf]; exact p.isLt)
  have e1 : pairC n m' p = ⟨m' ⟨p.val, by have := p.isLt; omega⟩, m' ⟨p.val + 2^(n+1)/2, by have := p.isLt; omega⟩⟩ := by
    unfold pairC
    simp only [hhalf]
  rw [e1, hk, Matrix.smul_mulVec, Pi.smul_apply, smul_eq_mul, Matrix.mulVec, dotProduct]
  congr 1
  · push_cast
    rw [pow_succ]
    field_simp
  · rw [← Equiv.sum_comp (finCongr hhalf)]
    refine Finset.sum_congr rfl fun i _ => ?_
    rw [Matrix.conjTranspose_apply, fftMat_apply]
    have hi2 : i.val < 2^n := by have := i.isLt; omega
    congr 1
    unfold toC
    have e2 : zr i = z.1 (finCongr hhalf i) := hr i.val hi2 i.isLt
    have e3 : zi i = z.2 (finCongr hhalf i) := hi i.val hi2 i.isLt
    rw [e2, e3]

/-- C28: from `LOGN = 28` on the statement fails: building the tables overflows `int`. -/
theorem C28_overflow (m : Fin (2^28) → ℝ) : fft 28 m = ub := fft_overflow m

/-- The theorems are about every array; here the slots of `X` for `LOGN = 2`. -/
example : Ok (fft 2 ![0, 1, 0, 0]) fun z =>
    (⟨z.1 0, z.2 0⟩ : ℂ) = zeta 4 ∧ (⟨z.1 1, z.2 1⟩ : ℂ) = zeta 4 ^ 5 := by
  refine Ok.mono (C28_fft (by norm_num) (by norm_num) _) fun z h => ⟨?_, ?_⟩
  · exact (h 0).trans (by rw [slotOf_zeta]; simp [Fin.sum_univ_four])
  · exact (h 1).trans (by rw [slotOf_zeta]; simp [Fin.sum_univ_four])

end EvalRound

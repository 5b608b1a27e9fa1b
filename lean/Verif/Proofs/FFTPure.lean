import Mathlib.LinearAlgebra.Matrix.ConjTranspose
import Mathlib.LinearAlgebra.Matrix.NonsingularInverse
import Mathlib.Tactic.Ring
import Mathlib.Tactic.FieldSimp
import Mathlib.Tactic.LinearCombination
import Verif.Spec.DFT
import Verif.Spec.Bits
import Verif.Proofs.Util

/-! # The radix-2 factorisation behind `fft`, over exact complex numbers -/

set_option linter.unusedSimpArgs false

namespace EvalRound
open Real Complex Finset

/-! ## Blocks of `2M` indices -/

theorem blk {M b c i : Nat} (hi : i < M) (hc : c < 2) :
    (2*M*b + c*M + i) / (2*M) = b ∧ (2*M*b + c*M + i) % (2*M) = c*M + i ∧
    (2*M*b + c*M + i) % M = i ∧ (2*M*b + c*M + i) / M = 2*b + c := by
  have h1 : c*M + i < 2*M := by
    have : c*M ≤ 1*M := Nat.mul_le_mul_right _ (by omega)
    omega
  have hM : 0 < M := by omega
  refine ⟨?_, ?_, ?_, ?_⟩
  · rw [show 2*M*b + c*M + i = (c*M+i) + 2*M*b by ring, Nat.add_mul_div_left _ _ (by omega), Nat.div_eq_of_lt h1]
    simp
  · rw [show 2*M*b + c*M + i = (c*M+i) + 2*M*b by ring, Nat.add_mul_mod_self_left, Nat.mod_eq_of_lt h1]
  · rw [show 2*M*b + c*M + i = i + M*(2*b+c) by ring, Nat.add_mul_mod_self_left, Nat.mod_eq_of_lt hi]
  · rw [show 2*M*b + c*M + i = i + M*(2*b+c) by ring, Nat.add_mul_div_left _ _ hM, Nat.div_eq_of_lt hi]
    simp

theorem exists_blk {M : Nat} (hM : 0 < M) (p : Nat) : ∃ b c i, p = 2*M*b + c*M + i ∧ c < 2 ∧ i < M := by
  refine ⟨p / (2*M), p / M % 2, p % M, ?_, Nat.mod_lt _ (by omega), Nat.mod_lt _ hM⟩
  have h1 := Nat.div_add_mod p M
  have h2 := Nat.div_add_mod (p/M) 2
  rw [Nat.div_div_eq_div_mul, Nat.mul_comm M 2] at h2
  calc p = M * (p/M) + p % M := h1.symm
    _ = M * (2 * (p/(2*M)) + p/M % 2) + p % M := by rw [h2]
    _ = _ := by ring

/-- the first index of the pair of `p` -/
def lo (M p : Nat) : Nat := 2*M*(p/(2*M)) + p % M

theorem lo_blk {M b c i : Nat} (hi : i < M) (hc : c < 2) : lo M (2*M*b + c*M + i) = 2*M*b + i := by
  obtain ⟨h1, -, h3, -⟩ := blk (b := b) hi hc
  rw [lo, h1, h3]

theorem lo_lt {H M p : Nat} (hM : 0 < M) (hd : 2*M ∣ H) (hp : p < H) : lo M p + M < H := by
  obtain ⟨b, c, i, e, hc, hi⟩ := exists_blk hM p
  rw [e, lo_blk hi hc]
  obtain ⟨k, rfl⟩ := hd
  have hb : b < k := by
    by_contra h
    have : 2*M*k ≤ 2*M*b := Nat.mul_le_mul_left _ (by omega)
    omega
  have : 2*M*(b+1) ≤ 2*M*k := Nat.mul_le_mul_left _ (by omega)
  have e2 : 2*M*(b+1) = 2*M*b + 2*M := by ring
  omega

/-- the sign of row `p` -/
noncomputable def sgn (M p : Nat) : ℂ := if p % (2*M) < M then 1 else -1

theorem sgn_blk {M b c i : Nat} (hi : i < M) (hc : c < 2) : sgn M (2*M*b + c*M + i) = (-1)^c := by
  rw [sgn, (blk hi hc).2.1]
  have : c = 0 ∨ c = 1 := by omega
  rcases this with rfl | rfl
  · rw [if_pos (by omega)]; simp
  · rw [if_neg (by omega)]; simp

/-- the butterfly matrix -/
noncomputable def bfly (H M : Nat) (ω : Nat → ℂ) : Matrix (Fin H) (Fin H) ℂ := fun p q =>
  if q.val = lo M p then 1 else if q.val = lo M p + M then sgn M p * ω (p % M) else 0

section
variable {H M : Nat} (hM : 0 < M) (hd : 2*M ∣ H) (ω : Nat → ℂ)
include hM hd

theorem bfly_sum (p : Fin H) (x : Fin H → ℂ) :
    ∑ q, bfly H M ω p q * x q =
      x ⟨lo M p, by have := lo_lt hM hd p.isLt; omega⟩ +
        sgn M p * ω (p % M) * x ⟨lo M p + M, lo_lt hM hd p.isLt⟩ := by
  have h1 := lo_lt hM hd p.isLt
  have e : ∀ q : Fin H, bfly H M ω p q * x q =
      (if q = (⟨lo M p, by omega⟩ : Fin H) then x q else 0) +
      (if q = (⟨lo M p + M, h1⟩ : Fin H) then sgn M p * ω (p % M) * x q else 0) := by
    intro q
    simp only [bfly, Fin.ext_iff]
    by_cases h2 : q.val = lo M p
    · rw [if_pos h2, if_pos h2, if_neg (by omega)]; simp
    · rw [if_neg h2, if_neg h2]
      by_cases h3 : q.val = lo M p + M
      · rw [if_pos h3, if_pos h3]; simp
      · rw [if_neg h3, if_neg h3]; simp
  simp_rw [e]
  rw [sum_add_distrib, sum_ite_eq', sum_ite_eq', if_pos (mem_univ _), if_pos (mem_univ _)]

theorem bfly_mulVec (x : Fin H → ℂ) (p : Fin H) :
    (bfly H M ω).mulVec x p =
      x ⟨lo M p, by have := lo_lt hM hd p.isLt; omega⟩ +
        sgn M p * ω (p % M) * x ⟨lo M p + M, lo_lt hM hd p.isLt⟩ :=
  bfly_sum hM hd ω p x

theorem bfly_mul_adj (hω : ∀ i, i < M → ω i * star (ω i) = 1) :
    bfly H M ω * (bfly H M ω).conjTranspose = (2 : ℂ) • 1 := by
  funext p q
  rw [Matrix.mul_apply]
  simp only [Matrix.conjTranspose_apply]
  rw [bfly_sum hM hd ω p (fun j => star (bfly H M ω q j))]
  simp only [bfly, Matrix.smul_apply, Matrix.one_apply, Fin.ext_iff, smul_eq_mul]
  obtain ⟨p, hp⟩ := p
  obtain ⟨q, hq⟩ := q
  obtain ⟨b, c, i, e, hc, hi⟩ := exists_blk hM p
  obtain ⟨b', c', i', e', hc', hi'⟩ := exists_blk hM q
  simp only [e, e', lo_blk hi hc, lo_blk hi' hc', sgn_blk hi hc, sgn_blk hi' hc', (blk hi hc).2.2.1,
    (blk hi' hc').2.2.1]
  by_cases hb : b = b' ∧ i = i'
  · obtain ⟨rfl, rfl⟩ := hb
    rw [if_pos rfl, if_neg (by omega), if_pos rfl]
    have h3 := hω i hi
    have hc1 : c = 0 ∨ c = 1 := by omega
    have hc2 : c' = 0 ∨ c' = 1 := by omega
    rcases hc1 with rfl | rfl <;> rcases hc2 with rfl | rfl
    · rw [if_pos rfl]; simp only [pow_zero, one_mul, star_one, h3]; norm_num
    · rw [if_neg (by omega)]
      simp only [pow_zero, pow_one, one_mul, star_one, star_mul', star_neg, neg_mul, mul_neg, h3]; norm_num
    · rw [if_neg (by omega)]
      simp only [pow_zero, pow_one, one_mul, star_one, star_mul', star_neg, neg_mul, mul_neg, h3]; norm_num
    · rw [if_pos rfl]
      simp only [pow_one, one_mul, star_one, star_mul', star_neg, neg_mul, mul_neg, h3]; norm_num
  · -- the pairs are different
    have key : ∀ u v : Nat, u < 2 → v < 2 → 2*M*b + i + u*M = 2*M*b' + i' + v*M → b = b' ∧ i = i' := by
      intro u v hu hv h
      have h1 := blk (b := b) hi hu
      have h2 := blk (b := b') hi' hv
      have e3 : 2*M*b + u*M + i = 2*M*b' + v*M + i' := by omega
      rw [e3] at h1
      exact ⟨h1.1.symm.trans h2.1, h1.2.2.1.symm.trans h2.2.2.1⟩
    have n1 : ¬ 2*M*b+i = 2*M*b'+i' := fun h => hb (key 0 0 (by omega) (by omega) (by omega))
    have n2 : ¬ 2*M*b+i = 2*M*b'+i'+M := fun h => hb (key 0 1 (by omega) (by omega) (by omega))
    have n3 : ¬ 2*M*b+i+M = 2*M*b'+i' := fun h => hb (key 1 0 (by omega) (by omega) (by omega))
    have n4 : ¬ 2*M*b+i+M = 2*M*b'+i'+M := fun h => hb (key 1 1 (by omega) (by omega) (by omega))
    have n5 : ¬ 2*M*b+c*M+i = 2*M*b'+c'*M+i' := fun h => hb (key c c' hc hc' (by omega))
    rw [if_neg n1, if_neg n2, if_neg n3, if_neg n4, if_neg n5]
    simp

end

theorem adj_mul_of_mul_adj {n : Type*} [Fintype n] [DecidableEq n] {A B : Matrix n n ℂ} {c : ℂ} (hc : c ≠ 0)
    (h : A * B = c • 1) : B * A = c • 1 := by
  have h1 : A * (c⁻¹ • B) = 1 := by
    rw [Matrix.mul_smul, h, smul_smul, inv_mul_cancel₀ hc, one_smul]
  have h2 : (c⁻¹ • B) * A = 1 := mul_eq_one_comm.mp h1
  rw [Matrix.smul_mul] at h2
  calc B * A = c • (c⁻¹ • (B * A)) := by rw [smul_smul, mul_inv_cancel₀ hc, one_smul]
    _ = _ := by rw [h2]

/-! ## Roots of unity -/

theorem zeta_pow_N {N : Nat} (hN : 0 < N) : zeta N ^ N = -1 := by
  rw [zeta, ← Complex.exp_nat_mul]
  have : (N : ℂ) ≠ 0 := by exact_mod_cast hN.ne'
  rw [mul_div_cancel₀ _ this, Complex.exp_pi_mul_I]

theorem zeta_pow (N k : Nat) : zeta N ^ k = Complex.exp (π * I * k / N) := by
  rw [zeta, ← Complex.exp_nat_mul]
  congr 1
  ring

theorem zeta_pow_mod {N : Nat} (hN : 0 < N) (k : Nat) : zeta N ^ (k % (2*N)) = zeta N ^ k := by
  conv_rhs => rw [← Nat.div_add_mod k (2*N), pow_add, pow_mul, mul_comm 2 N, pow_mul (zeta N) N 2, zeta_pow_N hN]
  rw [mul_comm 2 N]
  simp

theorem cos_sin_zeta (N k : Nat) : (⟨Real.cos (π / N * k), Real.sin (π / N * k)⟩ : ℂ) = zeta N ^ k := by
  rw [zeta_pow]
  have : (π * I * k / N : ℂ) = ((π / N * k : ℝ) : ℂ) * I := by push_cast; ring
  rw [this, Complex.exp_mul_I]
  generalize π / N * k = θ
  rw [← Complex.ofReal_cos, ← Complex.ofReal_sin]
  apply Complex.ext <;> simp [Complex.cos_ofReal_re, Complex.sin_ofReal_re]

theorem zeta_half {H : Nat} (hH : 0 < H) : zeta (2*H) ^ H = I := by
  rw [zeta_pow]
  have hc : (H : ℂ) ≠ 0 := by exact_mod_cast hH.ne'
  have : (π * I * H / ((2*H : ℕ) : ℂ)) = π / 2 * I := by push_cast; field_simp
  rw [this, Complex.exp_mul_I]
  simp

theorem star_zeta_pow (N k : Nat) : zeta N ^ k * star (zeta N ^ k) = 1 := by
  have h : Complex.normSq (zeta N ^ k) = 1 := by
    rw [← cos_sin_zeta, Complex.normSq_mk]
    have := Real.sin_sq_add_cos_sq (π / N * k)
    nlinarith
  rw [show star (zeta N ^ k) = (starRingEnd ℂ) (zeta N ^ k) from rfl, Complex.mul_conj, h]
  simp

theorem five_pow_two (t : Nat) : ∃ c, 5^(2^t) = 1 + 4 * 2^t * (1 + 2*c) := by
  induction t with
  | zero => exact ⟨0, by norm_num⟩
  | succ t ih =>
    obtain ⟨c, hc⟩ := ih
    refine ⟨c + 2^t * (1+2*c)^2, ?_⟩
    rw [pow_succ, pow_mul, hc]
    ring

/-! ## The transform -/

/-- the twiddle factors of the butterfly with blocks of `2·2^t` indices -/
noncomputable def ctw (n t : Nat) (i : Nat) : ℂ := zeta (2^(n+1)) ^ (2^(n-1-t) * 5^i)

theorem ctw_star (n t i : Nat) : ctw n t i * star (ctw n t i) = 1 := star_zeta_pow _ _

theorem ctw_add {n t : Nat} (ht : t < n) (i : Nat) : ctw n t (2^t + i) = - ctw n t i := by
  obtain ⟨c, hc⟩ := five_pow_two t
  unfold ctw
  have e : 2^(n-1-t) * 5^(2^t + i) = 2^(n-1-t) * 5^i + 2^(n+1) * ((1+2*c) * 5^i) := by
    rw [pow_add, hc]
    have : 2^(n+1) = 2^(n-1-t) * (4 * 2^t) := by
      rw [show (4:Nat) = 2^2 by norm_num, ← pow_add, ← pow_add]; congr 1; omega
    rw [this]; ring
  have hodd : Odd ((1+2*c) * 5^i) := by
    apply Odd.mul
    · exact ⟨c, by ring⟩
    · exact Odd.pow (by decide)
  rw [e, pow_add, pow_mul (zeta _) (2^(n+1)), zeta_pow_N (by positivity), hodd.neg_one_pow]
  ring

theorem sum_even_odd (f : Nat → ℂ) (m : Nat) :
    ∑ j ∈ range (2*m), f j = ∑ j ∈ range m, (f (2*j) + f (2*j+1)) := by
  induction m with
  | zero => rfl
  | succ m ih =>
    rw [show 2*(m+1) = 2*m+1+1 by ring, sum_range_succ, sum_range_succ, ih, sum_range_succ]
    ring

/-- the state after `t` butterflies -/
noncomputable def fftState (n : Nat) (w : Nat → ℂ) (t p : Nat) : ℂ :=
  ∑ j ∈ range (2^t), w (j * 2^(n-t) + bitRev (n-t) (p / 2^t)) * (zeta (2^(n+1)) ^ (2^(n-t) * 5^(p % 2^t)))^j

theorem fftState_step {n t : Nat} (ht : t < n) (w : Nat → ℂ) (p : Nat) :
    fftState n w (t+1) p = fftState n w t (lo (2^t) p) +
      sgn (2^t) p * ctw n t (p % 2^t) * fftState n w t (lo (2^t) p + 2^t) := by
  obtain ⟨b, c, i, e, hc, hi⟩ := exists_blk (Nat.two_pow_pos t) p
  have hb0 := blk (b := b) (c := 0) hi (by omega)
  have hb1 := blk (b := b) (c := 1) hi (by omega)
  have hb := blk (b := b) hi hc
  have e0 : 2*2^t*b + 0*2^t + i = 2*2^t*b + i := by omega
  have e1 : 2*2^t*b + 1*2^t + i = 2*2^t*b + i + 2^t := by omega
  rw [e0] at hb0
  rw [e1] at hb1
  rw [e, lo_blk hi hc, sgn_blk hi hc]
  unfold fftState
  rw [hb0.2.2.1, hb0.2.2.2, hb1.2.2.1, hb1.2.2.2, hb.2.2.1, show 2^(t+1) = 2*2^t by ring, hb.1, hb.2.1,
    show n - t = (n-1-t)+1 by omega, show n - (t+1) = n-1-t by omega]
  generalize hdd : n - 1 - t = d
  have er0 : bitRev (d+1) (2*b+0) = bitRev d b := bitRev_double d b
  have er1 : bitRev (d+1) (2*b+1) = 2^d + bitRev d b := bitRev_double_add_one d b
  rw [er0, er1, sum_even_odd]
  have hu : zeta (2^(n+1)) ^ (2^d * 5^(c*2^t+i)) = (-1)^c * ctw n t i := by
    have : c = 0 ∨ c = 1 := by omega
    rcases this with rfl | rfl
    · simp [ctw, hdd]
    · have := ctw_add ht i
      rw [ctw, hdd] at this
      rw [one_mul, this]; simp
  have hv : zeta (2^(n+1)) ^ (2^(d+1) * 5^i) = (ctw n t i)^2 := by
    rw [ctw, hdd, ← pow_mul]; congr 1; ring
  rw [hu, hv, mul_sum, ← sum_add_distrib]
  refine sum_congr rfl fun j _ => ?_
  have es : ((-1 : ℂ)^c)^2 = 1 := by rw [← pow_mul, mul_comm, pow_mul]; simp
  have ep : ((-1)^c * ctw n t i)^(2*j) = ((ctw n t i)^2)^j := by
    rw [pow_mul, mul_pow, es, one_mul]
  rw [pow_succ, ep, show 2*j*2^d = j*2^(d+1) by ring, show (2*j+1)*2^d + bitRev d b = j*2^(d+1) + (2^d + bitRev d b) by ring]
  ring

/-- the matrix of the first `t` butterflies -/
noncomputable def fftMat (n : Nat) : Nat → Matrix (Fin (2^n)) (Fin (2^n)) ℂ
  | 0 => 1
  | t+1 => bfly (2^n) (2^t) (ctw n t) * fftMat n t

theorem dvd_pow_blk {n t : Nat} (ht : t < n) : 2 * 2^t ∣ 2^n := by
  rw [show 2 * 2^t = 2^(t+1) by ring]
  exact pow_dvd_pow 2 ht

theorem fftMat_state {n t : Nat} (ht : t ≤ n) (w : Nat → ℂ) :
    (fftMat n t).mulVec (fun p => w (bitRev n p)) = fun p : Fin (2^n) => fftState n w t p := by
  induction t with
  | zero =>
    funext p
    simp [fftMat, fftState]
  | succ t ih =>
    funext p
    rw [fftMat, ← Matrix.mulVec_mulVec, ih (by omega), bfly_mulVec (Nat.two_pow_pos t) (dvd_pow_blk ht),
      fftState_step ht]

theorem fftMat_adj {n t : Nat} (ht : t ≤ n) :
    fftMat n t * (fftMat n t).conjTranspose = ((2:ℂ)^t) • 1 := by
  induction t with
  | zero => simp [fftMat]
  | succ t ih =>
    rw [fftMat, Matrix.conjTranspose_mul, Matrix.mul_assoc, ← Matrix.mul_assoc (fftMat n t), ih (by omega),
      Matrix.smul_mul, Matrix.one_mul, Matrix.mul_smul,
      bfly_mul_adj (Nat.two_pow_pos t) (dvd_pow_blk ht) _ (fun i _ => ctw_star n t i), smul_smul, pow_succ]

/-- the matrix of the first `s` adjoint butterflies, in the order of `ifftNR` -/
noncomputable def ifftMat (n : Nat) : Nat → Matrix (Fin (2^n)) (Fin (2^n)) ℂ
  | 0 => 1
  | s+1 => (bfly (2^n) (2^(n-1-s)) (ctw n (n-1-s))).conjTranspose * ifftMat n s

theorem ifftMat_mul {n s : Nat} (hs : s ≤ n) :
    (ifftMat n s).conjTranspose * fftMat n (n-s) = fftMat n n := by
  induction s with
  | zero => simp [ifftMat]
  | succ s ih =>
    rw [ifftMat, Matrix.conjTranspose_mul, Matrix.conjTranspose_conjTranspose, Matrix.mul_assoc]
    have : bfly (2^n) (2^(n-1-s)) (ctw n (n-1-s)) * fftMat n (n-(s+1)) = fftMat n (n-s) := by
      rw [show n - s = (n-1-s)+1 by omega, fftMat, show n-(s+1) = n-1-s by omega]
    rw [this, ih (by omega)]

theorem ifftMat_eq (n : Nat) : ifftMat n n = (fftMat n n).conjTranspose := by
  have := ifftMat_mul (le_refl n)
  rw [Nat.sub_self, fftMat, Matrix.mul_one] at this
  rw [← this, Matrix.conjTranspose_conjTranspose]

/-- column `bitRev k` of the matrix holds the powers of the roots -/
theorem fftMat_apply {n : Nat} (p k : Fin (2^n)) :
    fftMat n n p ⟨bitRev n k, bitRev_lt n k⟩ = zeta (2^(n+1)) ^ (5^p.val * k.val) := by
  have h := congrFun (fftMat_state (le_refl n) (fun j => if j = k.val then 1 else 0)) p
  simp only [fftState, Nat.sub_self, pow_zero, mul_one, one_mul, bitRev, add_zero, Matrix.mulVec, dotProduct] at h
  have e1 : ∀ q : Fin (2^n), (fftMat n n p q * if bitRev n q = k.val then 1 else 0) =
      if q = ⟨bitRev n k, bitRev_lt n k⟩ then fftMat n n p q else 0 := by
    intro q
    by_cases hq : bitRev n q = k.val
    · rw [if_pos hq, if_pos (by apply Fin.ext; simp only []; rw [← hq, bitRev_bitRev q.isLt]), mul_one]
    · rw [if_neg hq, if_neg (by
        intro e; apply hq; rw [e]; exact bitRev_bitRev k.isLt), mul_zero]
  simp_rw [e1] at h
  rw [sum_ite_eq', if_pos (mem_univ _)] at h
  rw [h]
  simp only [ite_mul, one_mul, zero_mul]
  rw [sum_ite_eq', if_pos (mem_range.mpr k.isLt), Nat.mod_eq_of_lt p.isLt, ← pow_mul]

end EvalRound

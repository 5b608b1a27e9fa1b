import Mathlib.Analysis.Complex.ExponentialBounds
import Verif.Proofs.FloatGroup
import Verif.Proofs.CtS
import Verif.Spec.FloatBoot
import Verif.Proofs.FloatCode

/-! # The factors of CoeffToSlot and SlotToCoeff in binary64 -/

set_option linter.unusedSectionVars false

namespace EvalRound
open Finset SparseDiagonal

variable {H n S : Nat}

theorem bfly_near {M : Nat} (hM : 0 < M) {ω ω' : Nat → ℂ} {τ : ℝ} (hτ : 0 ≤ τ) (h : ∀ i, i < M → ‖ω' i - ω i‖ ≤ τ) (p q : Fin H) :
    ‖bfly H M ω' p q - bfly H M ω p q‖ ≤ if q.val = lo M p + M then τ else 0 := by
  unfold bfly
  have hs : ‖sgn M p‖ = 1 := by unfold sgn; split <;> simp
  by_cases h1 : q.val = lo M p
  · rw [if_pos h1, if_pos h1, sub_self, norm_zero]; split <;> linarith
  · rw [if_neg h1, if_neg h1]
    by_cases h2 : q.val = lo M p + M
    · rw [if_pos h2, if_pos h2, if_pos h2, ← mul_sub, norm_mul, hs, one_mul]
      exact h _ (Nat.mod_lt _ hM)
    · rw [if_neg h2, if_neg h2, if_neg h2, sub_self, norm_zero]

theorem bfly_rowNear {M : Nat} (hM : 0 < M) {ω ω' : Nat → ℂ} {τ : ℝ} (hτ : 0 ≤ τ) (h : ∀ i, i < M → ‖ω' i - ω i‖ ≤ τ) :
    RowNearC (bfly H M ω') (bfly H M ω) τ := by
  intro p
  refine (sum_le_sum fun q _ => bfly_near hM hτ h p q).trans ?_
  by_cases hc : lo M p + M < H
  · have : ∀ q : Fin H, (if q.val = lo M p + M then τ else 0) = if q = ⟨lo M p + M, hc⟩ then τ else 0 := fun q => by
      simp only [Fin.ext_iff]
    simp_rw [this]
    simp
  · rw [sum_eq_zero fun q _ => if_neg (by have := q.isLt; omega)]
    exact hτ

theorem bfly_rowNear_adj {M : Nat} (hM : 0 < M) {ω ω' : Nat → ℂ} {τ : ℝ} (hτ : 0 ≤ τ) (h : ∀ i, i < M → ‖ω' i - ω i‖ ≤ τ) :
    RowNearC (bfly H M ω').conjTranspose (bfly H M ω).conjTranspose (2 * τ) := by
  intro p
  have : ∀ q : Fin H, ‖(bfly H M ω').conjTranspose p q - (bfly H M ω).conjTranspose p q‖ ≤ τ * if lo M p = lo M q then 1 else 0 := by
    intro q
    rw [Matrix.conjTranspose_apply, Matrix.conjTranspose_apply, ← star_sub, norm_star]
    refine (bfly_near hM hτ h q p).trans ?_
    by_cases h2 : p.val = lo M q + M
    · rw [if_pos h2, if_pos (by rw [h2]; exact (lo_lo hM _).2), mul_one]
    · rw [if_neg h2]; split <;> linarith
  refine (sum_le_sum fun q _ => this q).trans ?_
  rw [← mul_sum]
  have := mul_le_mul_of_nonneg_left (lo_card hM p) hτ
  linarith

theorem den_rowNear {A B : SparseDiagonal H S} (ho : A.off = B.off) (i : Fin H) :
    ∑ j, |den A i j - den B i j| ≤ ∑ s, |A.vec s i - B.vec s i| := by
  have : ∀ j, |den A i j - den B i j| ≤ ∑ s, if shift (A.off s) i = j then |A.vec s i - B.vec s i| else 0 := by
    intro j
    unfold den dg
    rw [← sum_sub_distrib]
    refine (abs_sum_le_sum_abs _ _).trans (sum_le_sum fun s _ => ?_)
    rw [← ho]
    by_cases h : shift (A.off s) i = j
    · rw [if_pos h, if_pos h, if_pos h]
    · rw [if_neg h, if_neg h, if_neg h, sub_zero, abs_zero]
  refine (sum_le_sum fun j _ => this j).trans (le_of_eq ?_)
  rw [sum_comm]
  refine sum_congr rfl fun s _ => ?_
  rw [sum_ite_eq]; simp

theorem denC_rowNear {A B : SD2 H S} (h1 : A.1.off = B.1.off) (h2 : A.2.off = B.2.off) {e : ℝ}
    (h : ∀ i, ∑ s, (|A.1.vec s i - B.1.vec s i| + |A.2.vec s i - B.2.vec s i|) ≤ e) :
    RowNearC (denC A.1 A.2) (denC B.1 B.2) e := by
  intro i
  refine le_trans ?_ (h i)
  rw [sum_add_distrib]
  refine le_trans ?_ (add_le_add (den_rowNear h1 i) (den_rowNear h2 i))
  rw [← sum_add_distrib]
  refine sum_le_sum fun j _ => ?_
  have := Complex.norm_le_abs_re_add_abs_im (denC A.1 A.2 i j - denC B.1 B.2 i j)
  simpa [denC] using this

/-! ## Scaling -/

theorem scaleF_spec (A : SparseDiagonal H S) {a : ℝ} (h : ∀ s i, |A.vec s i * a| ≤ 2^1020) :
    Ok (scaleF A a) fun B => B.off = A.off ∧ B.zero = A.zero ∧
      ∀ s i, |B.vec s i - A.vec s i * a| ≤ uF * |A.vec s i * a| + etaF ∧ (A.vec s i = 0 → B.vec s i = 0) := by
  unfold scaleF
  refine Ok.bind (tabM_spec (P := fun s (v : Fin H → ℝ) => ∀ hs : s < S, ∀ i,
    |v i - A.vec ⟨s, hs⟩ i * a| ≤ uF * |A.vec ⟨s, hs⟩ i * a| + etaF ∧ (A.vec ⟨s, hs⟩ i = 0 → v i = 0)) fun s hs => ?_) fun v hv =>
    Ok.pure ⟨rfl, rfl, fun s i => hv s s.isLt i⟩
  rw [rd_of_lt A.vec hs, pure_bind]
  refine Ok.mono (tabM_spec (P := fun i (x : ℝ) => ∀ hi : i < H,
    |x - A.vec ⟨s, hs⟩ ⟨i, hi⟩ * a| ≤ uF * |A.vec ⟨s, hs⟩ ⟨i, hi⟩ * a| + etaF ∧ (A.vec ⟨s, hs⟩ ⟨i, hi⟩ = 0 → x = 0)) fun i hi => ?_)
    fun v hv _ i => hv i i.isLt
  rw [rd_of_lt (A.vec ⟨s, hs⟩) hi, pure_bind]
  obtain ⟨r, e, hr⟩ := fl_near (h ⟨s, hs⟩ ⟨i, hi⟩)
  refine ⟨r, e, fun _ => ⟨hr, fun h0 => ?_⟩⟩
  rw [h0, zero_mul, fl_zero] at e
  exact (pure_inj e).symm

/-- the scaling factor of CoeffToSlot in binary64 -/
theorem ctsScaleF_spec {L : LibmP} (hL : L.Accurate) (hn1 : 1 ≤ n) (hn : n ≤ 26) :
    Ok (ctsScaleF L (n+1)) fun c => |c - ctsC n| ≤ 6 * uF * ctsC n := by
  have hu := uF_pos
  have hu2 := uF_le
  have hη := etaF_pos
  have hη2 : etaF ≤ uF / 10^12 := by
    have h3 : ((2:ℝ)^1075) = 2^53 * (2^40 * 2^982) := by rw [← pow_add, ← pow_add]
    have h4 : (1:ℝ) ≤ 2^982 := one_le_pow₀ (by norm_num)
    rw [etaF_eq, uF_eq, h3, div_div]
    refine one_div_le_one_div_of_le (by positivity) ?_
    refine mul_le_mul_of_nonneg_left ?_ (by positivity)
    have : (2:ℝ)^40 * 1 ≤ 2^40 * 2^982 := mul_le_mul_of_nonneg_left h4 (by positivity)
    refine le_trans ?_ this
    norm_num
  have big : ∀ z : ℝ, z ≤ 2000 → z ≤ 2^1020 := fun z hz => hz.trans (by
    have : (2:ℝ)^1020 = 2^11 * 2^1009 := by rw [← pow_add]
    rw [this]
    have : (1:ℝ) ≤ 2^1009 := one_le_pow₀ (by norm_num)
    have : (2:ℝ)^11 * 1 ≤ 2^11 * 2^1009 := mul_le_mul_of_nonneg_left this (by positivity)
    refine le_trans ?_ this
    norm_num)
  unfold ctsScaleF
  have hnR : (1:ℝ) ≤ n := by exact_mod_cast hn1
  have hnR2 : (n:ℝ) ≤ 26 := by exact_mod_cast hn
  have hinv : (1:ℝ) / n ≤ 1 := by rw [div_le_one (by linarith)]; exact hnR
  have hinv0 : (0:ℝ) < 1 / n := by positivity
  rw [show n + 1 - 1 = n by omega]
  refine Ok.bind (fl_near0 hinv0.le (big _ (by linarith))) fun e ⟨he0, he⟩ => ?_
  set N : ℝ := ((2^(n+1) : ℕ) : ℝ) with hN
  have hN1 : 1 ≤ N := by rw [hN]; exact_mod_cast Nat.one_le_two_pow
  have hN2 : N ≤ 2^27 := by
    rw [hN]; push_cast
    exact pow_le_pow_right₀ (by norm_num) (by omega)
  have hN0 : 0 < N := by linarith
  have he' := abs_le.1 he
  have hu3 : uF * (1/n) ≤ uF := by
    have := mul_le_mul_of_nonneg_left hinv hu.le
    linarith
  have he2 : e ≤ 2 := by linarith [he'.2]
  have hp := hL.2 N e hN1 hN2 he0 he2
  -- the logarithm
  set P : ℝ := N ^ ((1:ℝ)/n) with hP
  have hPpos : 0 < P := Real.rpow_pos_of_pos hN0 _
  have hcP : ctsC n = 1 / P := rfl
  set t : ℝ := Real.log N * (e - 1/n) with ht
  have hNe : N ^ e = P * Real.exp t := by
    rw [hP, Real.rpow_def_of_pos hN0, Real.rpow_def_of_pos hN0, ← Real.exp_add, ht]
    congr 1; ring
  have hlog : Real.log N = (n+1) * Real.log 2 := by
    rw [hN]; push_cast; rw [Real.log_pow]; push_cast; ring
  have hl2 : Real.log 2 ≤ 0.6932 := by have := Real.log_two_lt_d9; linarith
  have hl20 : 0 ≤ Real.log 2 := Real.log_nonneg (by norm_num)
  have hlog0 : 0 ≤ Real.log N := Real.log_nonneg hN1
  have hlogn : Real.log N * (1/n) ≤ 1.3864 := by
    rw [hlog, mul_one_div, div_le_iff₀ (by linarith)]
    nlinarith
  have hlog27 : Real.log N ≤ 20 := by
    rw [hlog]; nlinarith
  have htle : |t| ≤ 1.4 * uF := by
    rw [ht, abs_mul, abs_of_nonneg hlog0]
    have h1 := mul_le_mul_of_nonneg_left he hlog0
    have h2 := mul_le_mul_of_nonneg_left hlogn hu.le
    have h3 := mul_le_mul_of_nonneg_right hlog27 hη.le
    have : Real.log N * (uF * (1/n) + etaF) = uF * (Real.log N * (1/n)) + Real.log N * etaF := by ring
    rw [this] at h1
    linarith
  have hex : |Real.exp t - 1| ≤ 2.8 * uF := by
    have := Real.abs_exp_sub_one_le (x := t) (by linarith)
    linarith
  -- relative error of pow
  set w := L.pow N e with hw
  have hex' := abs_le.1 hex
  have hwr : |w - P| ≤ 4.81 * uF * P := by
    have h1 : |w - N^e| ≤ 2 * uF * N^e := by
      refine hp.trans (le_of_eq ?_)
      rw [uF_eq]; ring
    rw [hNe] at h1
    have h2 : w - P = (w - P * Real.exp t) + P * (Real.exp t - 1) := by ring
    rw [h2]
    refine (abs_add_le _ _).trans ?_
    rw [abs_mul, abs_of_pos hPpos]
    have h3 := mul_le_mul_of_nonneg_left hex hPpos.le
    have h4 : 2 * uF * (P * Real.exp t) ≤ 2.001 * (uF * P) := by
      have : Real.exp t ≤ 1.0005 := by linarith [hex'.2]
      have := mul_le_mul_of_nonneg_left this (show 0 ≤ 2 * (uF * P) by positivity)
      linarith
    have h5 : 0 < uF * P := by positivity
    linarith
  have hw' := abs_le.1 hwr
  have huP : 0 < uF * P := by positivity
  have huP2 : uF * P ≤ P / 10^9 := by
    have := mul_le_mul_of_nonneg_right hu2 hPpos.le
    linarith
  have hwpos : 0 < w := by linarith [hw'.1]
  have hP2 : 2 ≤ P := by
    have := ctsC_le hn1
    rw [hcP, mul_one_div, div_le_one hPpos] at this
    exact this
  have hinvw : |1/w - 1/P| ≤ 4.9 * uF * (1/P) := by
    have h1 : 1/w - 1/P = (P - w) / w * (1/P) := by field_simp
    rw [h1, abs_mul, abs_of_pos (show 0 < 1/P by positivity)]
    refine mul_le_mul_of_nonneg_right ?_ (by positivity)
    rw [abs_div, abs_of_pos hwpos, div_le_iff₀ hwpos, abs_sub_comm]
    refine hwr.trans ?_
    have h2 : 0.99 * P ≤ w := by linarith [hw'.1]
    have := mul_le_mul_of_nonneg_left h2 (show 0 ≤ 4.9 * uF by positivity)
    linarith
  have hPinv : 1/P ≤ 1/2 := one_div_le_one_div_of_le (by norm_num) hP2
  have hPinv0 : 0 < 1/P := by positivity
  have hPlb : 1/2^27 ≤ 1/P := by
    refine one_div_le_one_div_of_le hPpos ?_
    rw [hP]
    calc N ^ ((1:ℝ)/n) ≤ N ^ (1:ℝ) := Real.rpow_le_rpow_of_exponent_le hN1 hinv
      _ = N := Real.rpow_one N
      _ ≤ 2^27 := hN2
  have huQ : 4.9 * uF * (1/P) ≤ 0.001 * (1/P) := mul_le_mul_of_nonneg_right (by linarith) hPinv0.le
  have hiw := abs_le.1 hinvw
  refine Ok.mono (fl_near0 (show 0 ≤ 1/w by positivity) (big _ (by linarith [hiw.2]))) fun c ⟨_, hc⟩ => ?_
  rw [hcP]
  have h2 : c - 1/P = (c - 1/w) + (1/w - 1/P) := by ring
  rw [h2]
  refine (abs_add_le _ _).trans ?_
  have h3 : uF * (1/w) ≤ uF * (1.001 * (1/P)) := mul_le_mul_of_nonneg_left (by linarith [hiw.2]) hu.le
  have h4 : etaF ≤ 0.05 * (uF * (1/P)) := by
    have h5 := mul_le_mul_of_nonneg_left hPlb hu.le
    refine hη2.trans ?_
    refine le_trans ?_ (mul_le_mul_of_nonneg_left h5 (by norm_num))
    rw [uF_eq]; norm_num
  linarith

/-! ## Products of the exact factors -/

/-- the exact factors of CoeffToSlot -/
noncomputable def ctsR (n d : Nat) : Matrix (Fin (2^n)) (Fin (2^n)) ℂ :=
  (ctsC n : ℂ) • (bfly (2^n) (2^(n-1-d)) (ctw n (n-1-d))).conjTranspose

/-- the exact factors of SlotToCoeff -/
noncomputable def stcR (n : Nat) (c : Nat → ℂ) (d : Nat) : Matrix (Fin (2^n)) (Fin (2^n)) ℂ := c d • bfly (2^n) (2^d) (ctw n d)

theorem seqMat_congr {A B : Nat → Matrix (Fin H) (Fin H) ℂ} {t : Nat} (h : ∀ i, i < t → A i = B i) : seqMat A t = seqMat B t := by
  induction t with
  | zero => rfl
  | succ t ih => rw [seqMat, seqMat, h t (by omega), ih fun i hi => h i (by omega)]

theorem seqMat_adj (A : Nat → Matrix (Fin H) (Fin H) ℂ) {m t : Nat} (ht : t ≤ m) :
    seqMat (fun j => (A (m - 1 - j)).conjTranspose) t = (seqMat (fun j => A (m - t + j)) t).conjTranspose := by
  induction t with
  | zero => simp [seqMat]
  | succ t ih =>
    rw [seqMat, ih (by omega), ← Matrix.conjTranspose_mul]
    congr 1
    have e := seqMat_add (fun j => A (m - (t+1) + j)) 1 t
    rw [add_comm 1 t] at e
    rw [e, seqMat_one, add_zero, show m - (t + 1) = m - 1 - t by omega]
    congr 1
    refine seqMat_congr fun j hj => ?_
    rw [show m - t + j = m - 1 - t + (1 + j) by omega]

theorem seqMat_smul (A : Nat → Matrix (Fin H) (Fin H) ℂ) (c : ℂ) (t : Nat) : seqMat (fun j => c • A j) t = c^t • seqMat A t := by
  induction t with
  | zero => simp [seqMat]
  | succ t ih => rw [seqMat, ih, seqMat, Matrix.smul_mul, Matrix.mul_smul, smul_smul, pow_succ']

theorem norm_ctsC : ‖(ctsC n : ℂ)‖ = ctsC n := by rw [Complex.norm_real, Real.norm_of_nonneg ctsC_pos.le]

theorem ctsR_entry (hn : 1 ≤ n) {d t : Nat} (h : d + t ≤ n) (p q : Fin (2^n)) : ‖seqMat (fun j => ctsR n (d + j)) t p q‖ ≤ (1/2)^t := by
  have e : seqMat (fun j => ctsR n (d + j)) t =
      (ctsC n : ℂ)^t • seqMat (fun j => (bfly (2^n) (2^(n-d-1-j)) (ctw n (n-d-1-j))).conjTranspose) t := by
    rw [← seqMat_smul]
    refine seqMat_congr fun j _ => ?_
    unfold ctsR
    rw [show n - 1 - (d + j) = n - d - 1 - j by omega]
  rw [e, seqMat_adj (fun k => bfly (2^n) (2^k) (ctw n k)) (by omega : t ≤ n - d), Matrix.smul_apply, norm_smul, norm_pow, norm_ctsC,
    Matrix.conjTranspose_apply, norm_star]
  have k := bfly_seq (d := n - d - t) (A := fun j => bfly (2^n) (2^(n-d-t+j)) (ctw n (n-d-t+j))) (c := fun _ => 1)
    (ω := fun j => ctw n (n-d-t+j)) (g := t) (fun j _ => (one_smul _ _).symm) (fun _ => norm_one) (fun _ => norm_ctw _ _) q p
  have k2 : ‖seqMat (fun j => bfly (2^n) (2^(n-d-t+j)) (ctw n (n-d-t+j))) t q p‖ ≤ 1 := k.trans (by split <;> norm_num)
  have h3 : ctsC n ^ t ≤ (1/2)^t := pow_le_pow_left₀ ctsC_pos.le (by linarith [ctsC_le hn]) t
  calc _ ≤ (1/2)^t * 1 := mul_le_mul h3 k2 (norm_nonneg _) (by positivity)
    _ = (1/2)^t := mul_one _

theorem ctsR_row (hn : 1 ≤ n) (d : Nat) (p : Fin (2^n)) : ∑ q, ‖ctsR n d p q‖ ≤ 1 := by
  unfold ctsR
  simp only [Matrix.smul_apply, norm_smul]
  rw [← mul_sum, norm_ctsC]
  have h1 := bfly_row_adj (H := 2^n) (Nat.two_pow_pos (n-1-d)) (norm_ctw n (n-1-d)) p
  have := mul_le_mul_of_nonneg_left h1 (ctsC_pos (n := n)).le
  have := ctsC_le hn
  linarith

theorem ctsR_seq {t : Nat} : seqMat (ctsR n) t = ((ctsC n : ℂ)^t) • ifftMat n t := by
  induction t with
  | zero => simp [seqMat, ifftMat]
  | succ t ih => rw [seqMat, ih, ctsR, ifftMat, Matrix.smul_mul, Matrix.mul_smul, smul_smul, pow_succ']

theorem stcR_entry {c : Nat → ℂ} (hc : ∀ d, ‖c d‖ = 1) (d t : Nat) (p q : Fin (2^n)) : ‖seqMat (fun j => stcR n c (d + j)) t p q‖ ≤ 1 :=
  (bfly_seq (d := d) (c := fun j => c (d + j)) (ω := fun j => ctw n (d + j)) (fun _ _ => rfl)
    (fun _ => hc _) (fun _ => norm_ctw _ _) p q).trans (by split <;> norm_num)

theorem stcR_row {c : Nat → ℂ} (hc : ∀ d, ‖c d‖ = 1) (d : Nat) (p : Fin (2^n)) : ∑ q, ‖stcR n c d p q‖ ≤ 2 := by
  unfold stcR
  simp only [Matrix.smul_apply, norm_smul, hc, one_mul]
  exact bfly_row (Nat.two_pow_pos d) (norm_ctw n d) p

theorem stcR_seq (c : Nat → ℂ) (t : Nat) : seqMat (stcR n c) t = (∏ d ∈ range t, c d) • fftMat n t := by
  induction t with
  | zero => simp [seqMat, fftMat]
  | succ t ih =>
    rw [seqMat, ih, stcR, fftMat, Matrix.smul_mul, Matrix.mul_smul, smul_smul, prod_range_succ, mul_comm (∏ d ∈ range t, c d)]

/-! ## The tables -/

theorem denC_I (A : SD2 H S) : denC { A.2 with vec := fun s i => - A.2.vec s i } A.1 = Complex.I • denC A.1 A.2 := by
  funext i j
  simp only [denC, den_neg, Matrix.smul_apply, Matrix.neg_apply, smul_eq_mul]
  apply Complex.ext <;> simp

theorem denC_adj {A : SD2 H S} (h1 : ∀ s, 0 ≤ A.1.off s) (h2 : ∀ s, 0 ≤ A.2.off s) :
    denC (transposed A.1) { transposed A.2 with vec := fun s i => - (transposed A.2).vec s i } = (denC A.1 A.2).conjTranspose := by
  funext p q
  simp only [denC]
  rw [den_transposed h1, den_neg, den_transposed h2, Matrix.conjTranspose_apply]
  rfl

theorem IsFactorF.prod {d : Nat} (hd : d < n) {A : Fac (n+1)} (h : IsFactorF n d A) : SDProd (H := 2^n) A :=
  ⟨⟨(h.inRange hd).1, fun s _ => by rw [h.re.off, h.im.off], h.re.flag, h.im.flag⟩, h.re.off.trans h.im.off.symm,
    h.re.own, h.im.own⟩

theorem RowNearC.smul {X Y : Matrix (Fin H) (Fin H) ℂ} {e : ℝ} (h : RowNearC X Y e) (c : ℂ) : RowNearC (c • X) (c • Y) (‖c‖ * e) := by
  intro i
  have : ∀ j, ‖(c • X) i j - (c • Y) i j‖ = ‖c‖ * ‖X i j - Y i j‖ := fun j => by
    rw [Matrix.smul_apply, Matrix.smul_apply, ← smul_sub, norm_smul]
  simp_rw [this]
  rw [← mul_sum]
  exact mul_le_mul_of_nonneg_left (h i) (norm_nonneg _)

theorem IsFactorF.near {d : Nat} {A : Fac (n+1)} (h : IsFactorF n d A) :
    RowNearC (denC (N := 2^n) A.1 A.2) (bfly (2^n) (2^(n-1-d)) (ctw n (n-1-d))) (12 * uF) := by
  obtain ⟨ω, h1, h2⟩ := h.den
  have e : denC (N := 2^n) A.1 A.2 = _ := h2
  rw [e]
  exact bfly_rowNear (Nat.two_pow_pos _) (by have := uF_pos; positivity) h1

theorem stcRealF_spec {T : Fin n → Fac (n+1)} (hT : ∀ d : Fin n, IsFactorF n d (T d)) :
    Ok (stcReal (LOGN := n+1) T) fun U => NearFactors (H := 2^n) U (stcR n fun _ => 1) := by
  unfold stcReal
  refine Ok.mono (tabM_spec (P := fun d A => SDProd (H := 2^n) A ∧ RowNearC (denC (N := 2^n) A.1 A.2) (stcR n (fun _ => 1) d) (12 * uF))
    fun d hd => ?_) fun U hU => ⟨fun d => (hU d).1, fun d => (hU d).2.mono (by have := uF_pos; linarith),
      fun d _ => stcR_row (fun _ => norm_one) d, fun d t _ => stcR_entry (fun _ => norm_one) d t⟩
  have hd : d < n := hd
  have h : n + 1 - 2 - d < n := by omega
  rw [rd_of_lt T h, pure_bind, copy_eq, copy_eq]
  have hF := hT ⟨_, h⟩
  refine Ok.pure ⟨hF.prod h, ?_⟩
  have e := hF.near
  simp only [show n - 1 - (n + 1 - 2 - d) = d by omega] at e
  unfold stcR
  rw [one_smul]
  exact e

/-- the units of the second table of SlotToCoeff -/
noncomputable def unitI (d : Nat) : ℂ := if d = 0 then Complex.I else 1

theorem norm_unitI (d : Nat) : ‖unitI d‖ = 1 := by unfold unitI; split <;> simp

theorem stcImagF_spec {T : Fin n → Fac (n+1)} (hT : ∀ d : Fin n, IsFactorF n d (T d)) :
    Ok (stcImag (LOGN := n+1) T) fun U => NearFactors (H := 2^n) U (stcR n unitI) := by
  unfold stcImag
  refine Ok.mono (tabM_spec (P := fun d A => SDProd (H := 2^n) A ∧ RowNearC (denC (N := 2^n) A.1 A.2) (stcR n unitI d) (12 * uF))
    fun d hd => ?_) fun U hU => ⟨fun d => (hU d).1, fun d => (hU d).2.mono (by have := uF_pos; linarith),
      fun d _ => stcR_row norm_unitI d, fun d t _ => stcR_entry norm_unitI d t⟩
  have hd : d < n := hd
  have h : n + 1 - 2 - d < n := by omega
  rw [rd_of_lt T h, pure_bind, copy_eq, copy_eq, negate_eq]
  have hF := hT ⟨_, h⟩
  have hp := hF.prod h
  have e := hF.near
  simp only [show n - 1 - (n + 1 - 2 - d) = d by omega] at e
  unfold stcR unitI
  by_cases h0 : d = 0
  · rw [if_pos h0, if_pos h0]
    refine Ok.pure ⟨⟨⟨(hF.inRange h).2, fun s _ => ?_, ?_, hp.flag.1⟩, hp.offEq.symm, ?_, hp.own.1⟩, ?_⟩
    · exact congrFun hp.offEq.symm s
    · intro s hs i; simp only [neg_eq_zero]; exact hp.flag.2 s hs i
    · intro s s' h1 h2 i; simp only [neg_eq_zero]; exact hp.own.2 s s' h1 h2 i
    · have e2 := e.smul Complex.I
      rw [Complex.norm_I, one_mul, ← denC_I (H := 2^n)] at e2
      exact e2
  · rw [if_neg h0, if_neg h0]
    refine Ok.pure ⟨hp, ?_⟩
    rw [one_smul]
    exact e

theorem stcTableF_spec {L : Libm} (hL : L.Accurate) (hn : n ≤ 26) : Ok (stcTableF L (n+1)) fun T =>
    NearFactors (H := 2^n) T.1 (stcR n fun _ => 1) ∧ NearFactors (H := 2^n) T.2 (stcR n unitI) := by
  unfold stcTableF
  refine Ok.bind (splitU0NRF_spec hL hn _) fun T hT => ?_
  refine Ok.bind (stcRealF_spec hT) fun U hU => ?_
  exact Ok.bind (stcImagF_spec hT) fun V hV => Ok.pure ⟨hU, hV⟩

/-- the adjoint of a factor -/
theorem adjFactorF_prod {d : Nat} (hn : n ≤ 30) (hd : d < n) {A : Fac (n+1)} (h : IsFactorF n d A) :
    Ok (adjFactor A) fun B => SDProd (H := 2^n) B ∧
      RowNearC (denC (N := 2^n) B.1 B.2) (bfly (2^n) (2^(n-1-d)) (ctw n (n-1-d))).conjTranspose (24 * uF) := by
  unfold adjFactor
  obtain ⟨h1, h2⟩ := h.inRange hd
  have hH : 2^n ≤ 2^30 := Nat.pow_le_pow_right (by norm_num) hn
  rw [transpose_eq hH (fun s => ⟨(h1 s).1, (h1 s).2.le⟩), pure_bind,
    transpose_eq hH (fun s => ⟨(h2 s).1, (h2 s).2.le⟩), pure_bind, negate_eq]
  obtain ⟨ω, hω, hden⟩ := h.den
  have ho : (transposed A.1).off = (transposed A.2).off := by
    simp only [transposed]
    rw [h.re.off, h.im.off]
  refine Ok.pure ⟨⟨⟨transposed_inRange h1, fun s _ => congrFun ho s, transposed_flagSound h.re.flag, ?_⟩, ho,
    transposed_firstOwns h1 h.re.own, ?_⟩, ?_⟩
  · intro s hs i
    simp only [neg_eq_zero]
    exact transposed_flagSound h.im.flag s hs i
  · intro s s' hs ho i
    simp only [neg_eq_zero]
    exact transposed_firstOwns h2 h.im.own s s' hs ho i
  · have e := bfly_rowNear_adj (H := 2^n) (Nat.two_pow_pos (n-1-d)) (by have := uF_pos; positivity) hω
    have e2 : denC (N := 2^n) A.1 A.2 = _ := hden
    rw [← e2, ← denC_adj (H := 2^n) (A := A) (fun s => (h1 s).1) (fun s => (h2 s).1), show 2 * (12 * uF) = 24 * uF by ring] at e
    exact e

theorem ctsFactorF_spec {L : LibmP} (hL : L.Accurate) {d : Nat} (hn1 : 1 ≤ n) (hn : n ≤ 26) (hd : d < n) {A : Fac (n+1)}
    (h : IsFactorF n d A) :
    Ok (ctsFactorF L A) fun B => SDProd (H := 2^n) B ∧ RowNearC (denC (N := 2^n) B.1 B.2) (ctsR n d) (36 * uF) := by
  have e : ctsFactorF L A = (do
      let B ← adjFactor A
      let c ← ctsScaleF L (n+1)
      let r ← scaleF B.1 c
      let i ← scaleF B.2 c
      pure (r, i)) := by
    unfold ctsFactorF adjFactor
    simp only [bind_assoc, pure_bind]
  rw [e]
  have hu := uF_pos
  have hu2 := uF_le
  have hη := etaF_pos
  have hη2 := etaF_le_uF
  have hη3 : etaF ≤ uF / 100 := by
    have : etaF ≤ 1/2^200 := by
      rw [etaF_eq]
      exact one_div_le_one_div_of_le (by positivity) (pow_le_pow_right₀ (by norm_num) (by norm_num))
    refine this.trans ?_
    rw [uF_eq]; norm_num
  have big : ∀ z : ℝ, z ≤ 2000 → z ≤ 2^1020 := fun z hz => hz.trans (by
    have : (2:ℝ)^1020 = 2^11 * 2^1009 := by rw [← pow_add]
    rw [this]
    have : (1:ℝ) ≤ 2^1009 := one_le_pow₀ (by norm_num)
    have : (2:ℝ)^11 * 1 ≤ 2^11 * 2^1009 := mul_le_mul_of_nonneg_left this (by positivity)
    refine le_trans ?_ this
    norm_num)
  refine Ok.bind (adjFactorF_prod (by omega) hd h) fun B ⟨hB, nB⟩ => ?_
  refine Ok.bind (ctsScaleF_spec hL hn1 hn) fun c hc => ?_
  have hC := ctsC_le hn1
  have hC0 := ctsC_pos (n := n)
  have hcu : 6 * uF * ctsC n ≤ 6 * uF * (1/2) := mul_le_mul_of_nonneg_left (by linarith) (by positivity)
  have hc2 : |c| ≤ 0.501 := by
    have := abs_le.1 hc
    rw [abs_le]
    constructor <;> linarith [this.1, this.2]
  -- the entries
  have ent : ∀ s i, ‖(⟨B.1.vec s i, B.2.vec s i⟩ : ℂ)‖ ≤ 1.001 := by
    intro s i
    refine (SDProd.entry (H := 2^n) hB s i).trans ((nB.entry_le (b := 1) (fun p q => ?_) _ _).trans (by linarith))
    rw [Matrix.conjTranspose_apply, norm_star]
    exact (norm_bfly_le (Nat.two_pow_pos _) (norm_ctw _ _) _ _).trans (by split <;> norm_num)
  have e1 : ∀ s i, |B.1.vec s i| ≤ 1.001 := fun s i => (Complex.abs_re_le_norm (⟨B.1.vec s i, B.2.vec s i⟩ : ℂ)).trans (ent s i)
  have e2 : ∀ s i, |B.2.vec s i| ≤ 1.001 := fun s i => (Complex.abs_im_le_norm (⟨B.1.vec s i, B.2.vec s i⟩ : ℂ)).trans (ent s i)
  have bnd : ∀ x : ℝ, |x| ≤ 1.001 → |x * c| ≤ 0.503 := by
    intro x hx
    rw [abs_mul]
    have := mul_le_mul hx hc2 (abs_nonneg _) (by norm_num)
    linarith
  have err : ∀ x y : ℝ, |x| ≤ 1.001 → |y - x * c| ≤ uF * |x * c| + etaF → |y - x * ctsC n| ≤ 3.7 * uF := by
    intro x y hx hy
    have k1 : y - x * ctsC n = (y - x * c) + x * (c - ctsC n) := by ring
    rw [k1]
    refine (abs_add_le _ _).trans ?_
    rw [abs_mul x]
    have k2 := mul_le_mul_of_nonneg_left (bnd x hx) hu.le
    have k3 : |x| * |c - ctsC n| ≤ 1.001 * (3 * uF) := mul_le_mul hx (by linarith) (abs_nonneg _) (by norm_num)
    linarith
  refine Ok.bind (scaleF_spec B.1 fun s i => big _ ((bnd _ (e1 s i)).trans (by norm_num))) fun r ⟨r1, r2, r3⟩ => ?_
  refine Ok.bind (scaleF_spec B.2 fun s i => big _ ((bnd _ (e2 s i)).trans (by norm_num))) fun m ⟨m1, m2, m3⟩ => Ok.pure ⟨?_, ?_⟩
  · refine ⟨⟨?_, ?_, ?_, ?_⟩, ?_, ?_, ?_⟩
    · intro s; simp only []; rw [r1]; exact hB.rng s
    · intro s _; simp only []; rw [r1, m1]; exact congrFun hB.offEq s
    · intro s hs i; simp only [] at hs ⊢; rw [r2] at hs; exact (r3 s i).2 (hB.flag.1 s hs i)
    · intro s hs i; simp only [] at hs ⊢; rw [m2] at hs; exact (m3 s i).2 (hB.flag.2 s hs i)
    · simp only []; rw [r1, m1]; exact hB.offEq
    · intro s s' h1 h2 i; simp only [] at h2 ⊢; rw [r1] at h2; exact (r3 s' i).2 (hB.own.1 s s' h1 h2 i)
    · intro s s' h1 h2 i; simp only [] at h2 ⊢; rw [m1] at h2; exact (m3 s' i).2 (hB.own.2 s s' h1 h2 i)
  · have k1 := denC_rowNear (H := 2^n) (S := 3) (A := (r, m))
      (B := ({ B.1 with vec := fun s i => B.1.vec s i * ctsC n }, { B.2 with vec := fun s i => B.2.vec s i * ctsC n })) r1 m1
      (e := 23 * uF) (fun i => by
        refine (sum_le_sum (g := fun _ => 7.4 * uF) fun s _ => ?_).trans (by simp; linarith)
        have a1 := err _ _ (e1 s i) (r3 s i).1
        have a2 := err _ _ (e2 s i) (m3 s i).1
        simp only []
        linarith)
    have k2 := nB.smul (ctsC n : ℂ)
    rw [norm_ctsC] at k2
    have k3 : RowNearC (denC (N := 2^n) r m) (ctsR n d) (23 * uF + ctsC n * (24 * uF)) := by
      refine RowNearC.trans k1 ?_
      have e : denC (N := 2^n) { B.1 with vec := fun s i => B.1.vec s i * ctsC n } { B.2 with vec := fun s i => B.2.vec s i * ctsC n } = _ :=
        denC_scale B.1 B.2 (ctsC n)
      simp only []
      rw [e]
      exact k2
    refine k3.mono ?_
    have : ctsC n * (24 * uF) ≤ 1/2 * (24 * uF) := mul_le_mul_of_nonneg_right (by linarith) (by positivity)
    linarith

theorem ctsTableF_spec {L : LibmP} (hL : L.Accurate) (hn1 : 1 ≤ n) (hn : n ≤ 26) :
    Ok (ctsTableF L (n+1)) fun U => NearFactors (H := 2^n) U (ctsR n) := by
  unfold ctsTableF
  refine Ok.bind (splitU0NRF_spec hL.1 hn _) fun U hU => ?_
  refine Ok.mono (tabM_spec (P := fun d A => SDProd (H := 2^n) A ∧ RowNearC (denC (N := 2^n) A.1 A.2) (ctsR n d) (36 * uF))
    fun d hd => ?_) fun V hV => ⟨fun d => (hV d).1, fun d => (hV d).2, fun d _ p => (ctsR_row hn1 d p).trans (by norm_num),
      fun d t h p q => (ctsR_entry hn1 h p q).trans (pow_le_one₀ (by norm_num) (by norm_num))⟩
  rw [rd_of_lt U hd, pure_bind]
  exact ctsFactorF_spec hL hn1 hn hd (hU ⟨d, hd⟩)

end EvalRound

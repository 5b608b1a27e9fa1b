import Verif.Proofs.FloatCode
import Verif.Props.Float
import Verif.Proofs.Fresh

/-!
# Encoding and decoding in binary64, all coefficients

-/

namespace EvalRound
open Finset Z_Q

section
variable {n : Nat}

theorem pair_mono {a b : Fin (2^(n+1)) → ℝ} (h : ∀ k, |a k| ≤ |b k|) : l2 (pairC n a) ≤ l2 (pairC n b) := by
  rw [l2_pairC, l2_pairC]
  exact Real.sqrt_le_sqrt (sum_le_sum fun k _ => sq_le_sq.2 (h k))

theorem pair_smul {c : ℝ} (hc : 0 ≤ c) (b : Fin (2^(n+1)) → ℝ) : l2 (pairC n fun k => c * b k) = c * l2 (pairC n b) := by
  rw [l2_pairC, l2_pairC]
  have : ∑ k, (c * b k)^2 = c^2 * ∑ k, b k ^ 2 := by rw [mul_sum]; exact sum_congr rfl fun k _ => by ring
  rw [this, Real.sqrt_mul (sq_nonneg c), Real.sqrt_sq hc]

theorem pair_abs (b : Fin (2^(n+1)) → ℝ) : l2 (pairC n fun k => |b k|) = l2 (pairC n b) := by
  rw [l2_pairC, l2_pairC]
  simp only [sq_abs]

theorem pair_add (a b : Fin (2^(n+1)) → ℝ) : l2 (pairC n fun k => a k + b k) ≤ l2 (pairC n a) + l2 (pairC n b) :=
  l2_add_le (pairC n a) (pairC n b)

theorem pair_const {e : ℝ} (he : 0 ≤ e) : l2 (pairC n fun _ => e) = Real.sqrt 2 ^ (n+1) * e := by
  rw [l2_pairC, sum_const, card_univ, Fintype.card_fin, nsmul_eq_mul, Real.sqrt_mul (by positivity), Real.sqrt_sq he]
  congr 1
  push_cast
  rw [show (2:ℝ)^(n+1) = (Real.sqrt 2 ^ (n+1))^2 by rw [← pow_mul, mul_comm (n+1) 2, pow_mul, Real.sq_sqrt (by norm_num)],
    Real.sqrt_sq (by positivity)]

theorem pair_scale {a b : Fin (2^(n+1)) → ℝ} {c e : ℝ} (hc : 0 ≤ c) (he : 0 ≤ e) (h : ∀ k, |a k| ≤ c * |b k| + e) :
    l2 (pairC n a) ≤ c * l2 (pairC n b) + Real.sqrt 2 ^ (n+1) * e := by
  have h1 : l2 (pairC n a) ≤ l2 (pairC n fun k => c * |b k| + e) := pair_mono fun k =>
    (h k).trans (le_abs_self _)
  have h2 := pair_add (fun k => c * |b k|) (fun _ : Fin (2^(n+1)) => e)
  rw [pair_const he, pair_smul hc, pair_abs] at h2
  exact h1.trans h2

theorem abs_le_pair (a : Fin (2^(n+1)) → ℝ) (k : Fin (2^(n+1))) : |a k| ≤ l2 (pairC n a) := by
  rw [l2_pairC]
  exact Real.abs_le_sqrt (single_le_sum (f := fun k => a k ^ 2) (fun _ _ => sq_nonneg _) (mem_univ k))

theorem tiny_le' {a : ℝ} (ha : a ≤ 2^170 * etaF) : a ≤ 1/2^900 := by
  refine (ha.trans (mul_le_mul_of_nonneg_right (pow_le_pow_right₀ (by norm_num) (show 170 ≤ 175 by norm_num)) etaF_pos.le)).trans (le_of_eq ?_)
  rw [etaF_eq, show 1075 = 175 + 900 by norm_num, pow_add]
  field_simp

variable {Q : Nat} [NeZero Q] {L : Libm}

set_option maxHeartbeats 1000000 in
/-- with a bound `C` for the coefficients that may be smaller than the bound for the slots -/
theorem encodeF_l2c (hL : L.Accurate) (h1 : 1 ≤ n) (hn : n ≤ 26) (z : CVec (n+1)) (Delta : W) (hD : Delta ≠ 0) {B C : ℝ}
    (hz : ∀ i : Fin (2^n), ‖(⟨z.1 i, z.2 i⟩ : ℂ)‖ ≤ B)
    (hC : ∀ m : Fin (2^(n+1)) → ℝ, (∀ i : Fin (2^n), slotOf m i = ⟨z.1 i, z.2 i⟩) → ∀ k, |m k| ≤ C) (hCB : C ≤ B)
    (hB : B * Delta.toNat ≤ 2^100)
    (hw : C * Delta.toNat + B * Delta.toNat / 2^40 + 2 ≤ 2^64) (hq : C * Delta.toNat + B * Delta.toNat / 2^40 + 2 ≤ 2^(Q-1)) :
    Ok (encodeF L Q z Delta) fun pt => ∃ m y : Fin (2^(n+1)) → ℝ, (∀ i : Fin (2^n), slotOf m i = ⟨z.1 i, z.2 i⟩) ∧
      (∀ k, (pt k).Canonical ∧ |((pt k).sval : ℝ) - y k| ≤ 1/2) ∧
      l2 (pairC n fun k => y k - m k * Delta.toNat) ≤ (28 * n + 6) * uF * (B * Delta.toNat) + 2^106 * etaF := by
  have hu := uF_pos.le
  have hu2 := uF_le
  have hη := etaF_pos.le
  have hη2 := etaF_le_uF
  have hB0 : 0 ≤ B := (norm_nonneg _).trans (hz ⟨0, Nat.two_pow_pos n⟩)
  have hΔ1 : (1:ℝ) ≤ Delta.toNat := by
    have : Delta.toNat ≠ 0 := fun h => hD (BitVec.eq_of_toNat_eq (by simpa using h))
    exact_mod_cast Nat.pos_of_ne_zero this
  have hΔ2 : (Delta.toNat : ℝ) ≤ 2^64 := by exact_mod_cast Delta.isLt.le
  obtain ⟨Δ, hΔ⟩ : ∃ Δ : ℝ, (Delta.toNat : ℝ) = Δ := ⟨_, rfl⟩
  rw [hΔ] at hw hq hB hΔ1 hΔ2
  have hBΔ0 : 0 ≤ B * Δ := by positivity
  have hBB : B ≤ 2^100 := by nlinarith
  have hn' : (n:ℝ) ≤ 26 := by exact_mod_cast hn
  have hn0 : (0:ℝ) ≤ n := Nat.cast_nonneg _
  have hu40 : 1000 * uF ≤ 1/2^41 := by rw [uF_eq]; norm_num
  have hz2 : l2 (toC (n := 2^n) z.1 z.2) ≤ 2^950 := by
    refine (l2_le fun i => hz i).trans ?_
    have h1 : ((2^n : ℕ) : ℝ) ≤ 2^26 := by exact_mod_cast Nat.pow_le_pow_right (by norm_num) hn
    calc ((2^n : ℕ) : ℝ) * B ≤ 2^26 * 2^100 := mul_le_mul h1 hBB hB0 (by norm_num)
      _ = 2^126 := by norm_num
      _ ≤ 2^950 := pow_le_pow_right₀ (by norm_num) (by norm_num)
  obtain ⟨m, -, hm, -⟩ := ifft_slot (LOGN := n+1) (by omega) (by omega) z (fun _ => 0)
  have hmB : l2 (pairC n m) ≤ B := by
    rw [l2_pairC]
    exact coeff_norm fun i => by rw [show slotOf m i = _ from hm i]; exact hz i
  have hm0 := l2_nonneg (pairC n m)
  unfold encodeF
  refine Ok.bind (ifftF_spec hL h1 hn z _ m hm hz2) fun m' hm' => ?_
  have hE : l2 (pairC n m' - pairC n m) ≤ (28 * n + 3) * uF * B + 2^40 * etaF :=
    hm'.trans (add_le_add (mul_le_mul_of_nonneg_left hmB (by positivity)) le_rfl)
  have hE0 := l2_nonneg (pairC n m' - pairC n m)
  have hm'l := l2_add_le (pairC n m' - pairC n m) (pairC n m)
  rw [sub_add_cancel] at hm'l
  have huB : 0 ≤ uF * B := mul_nonneg hu hB0
  have hnuB : n * (uF * B) ≤ 26 * (uF * B) := mul_le_mul_of_nonneg_right hn' huB
  have hm'B : l2 (pairC n m') ≤ B + 731 * (uF * B) + 2^40 * etaF := by linarith
  have hηΔ : etaF * Δ ≤ 2^64 * etaF := by rw [mul_comm]; exact mul_le_mul_of_nonneg_right hΔ2 hη
  have hηΔ0 : 0 ≤ etaF * Δ := by positivity
  have htiny : 2^106 * etaF ≤ 1/2^900 := tiny_le' (mul_le_mul_of_nonneg_right (by norm_num) hη)
  have htiny2 : (1:ℝ)/2^900 ≤ 1/2^20 := one_div_le_one_div_of_le (by positivity) (pow_le_pow_right₀ (by norm_num) (by norm_num))
  have htiny3 := htiny.trans htiny2
  clear htiny htiny2
  have huBΔ : 0 ≤ uF * (B * Δ) := mul_nonneg hu hBΔ0
  obtain ⟨K, hK⟩ : ∃ K, (B + 731 * (uF * B) + 2^40 * etaF) * Δ = K := ⟨_, rfl⟩
  have hK2 : K ≤ B * Δ + 731 * (uF * (B * Δ)) + 2^104 * etaF := by
    rw [← hK, show (B + 731 * (uF * B) + 2^40 * etaF) * Δ = B * Δ + 731 * (uF * (B * Δ)) + 2^40 * (etaF * Δ) by ring]
    linarith
  have hK0 : 0 ≤ K := by rw [← hK]; positivity
  obtain ⟨K', hK'⟩ : ∃ K', (C + 731 * (uF * B) + 2^40 * etaF) * Δ = K' := ⟨_, rfl⟩
  have hCBΔ : C * Δ ≤ B * Δ := mul_le_mul_of_nonneg_right hCB (by linarith)
  have hK'2 : K' ≤ C * Δ + 731 * (uF * (B * Δ)) + 2^104 * etaF := by
    rw [← hK', show (C + 731 * (uF * B) + 2^40 * etaF) * Δ = C * Δ + 731 * (uF * (B * Δ)) + 2^40 * (etaF * Δ) by ring]
    linarith
  have hmK : ∀ k, |m' k| * Δ ≤ K' := fun k => by
    rw [← hK']
    refine mul_le_mul_of_nonneg_right ?_ (by linarith)
    have h1 := abs_le_pair (fun k => m' k - m k) k
    have h2 : l2 (pairC n fun k => m' k - m k) ≤ (28 * n + 3) * uF * B + 2^40 * etaF := hE
    have h3 := abs_sub_abs_le_abs_sub (m' k) (m k)
    have h4 := hC m hm k
    linarith
  have hKs : K' * (1 + 3 * uF) + 1 < C * Δ + B * Δ / 2^40 + 2 := by
    have k0 : uF * (B * Δ) ≤ 1/10^9 * (B * Δ) := mul_le_mul_of_nonneg_right hu2 hBΔ0
    have k1 : uF * K' ≤ uF * (1.001 * (B * Δ) + 1) := by
      refine mul_le_mul_of_nonneg_left ?_ hu
      linarith
    have k2 : 1000 * uF * (B * Δ) ≤ 1/2^41 * (B * Δ) := mul_le_mul_of_nonneg_right hu40 hBΔ0
    linarith
  refine Ok.mono (tabM_spec (P := fun i p => ∀ h : i < 2^(n+1), p.Canonical ∧ ∃ y : ℝ,
    |y - m' ⟨i, h⟩ * Δ| ≤ 2.001 * uF * (|m' ⟨i, h⟩| * Δ) + 2 * etaF ∧ |(p.sval : ℝ) - y| ≤ 1/2) fun i hi => ?_) fun pt hpt => ?_
  · rw [rd_of_lt _ hi, pure_bind]
    have hs := encodeCoeffF_spec (Q := Q) (Delta := Delta) (x := m' ⟨i, hi⟩) (K := K') (by rw [hΔ]; exact hmK _)
      (lt_of_lt_of_le hKs hw) (lt_of_lt_of_le hKs hq)
    rw [hΔ] at hs
    exact Ok.mono hs fun p hp _ => hp
  · choose hc y hy1 hy2 using fun k : Fin (2^(n+1)) => hpt k k.isLt
    refine ⟨m, y, hm, fun k => ⟨hc k, hy2 k⟩, ?_⟩
    rw [hΔ]
    have e : (fun k => y k - m k * Δ) = fun k => (y k - m' k * Δ) + Δ * (m' k - m k) := by funext k; ring
    rw [e]
    refine (pair_add _ _).trans ?_
    rw [pair_smul (by linarith)]
    have hs2 : Real.sqrt 2 ^ (n+1) ≤ 2^14 := by
      have h := (sqrt2_pow hn).2
      have h2 : Real.sqrt 2 ≤ 2 := sqrt2_le.trans (by norm_num)
      rw [pow_succ]
      exact (mul_le_mul h h2 (Real.sqrt_nonneg 2) (by norm_num)).trans (by norm_num)
    have hb := pair_scale (a := fun k => y k - m' k * Δ) (b := fun k => Δ * m' k) (c := 2.001 * uF) (e := 2 * etaF)
      (by positivity) (by positivity) (fun k => by
        have := hy1 k
        rw [abs_mul, abs_of_pos (show 0 < Δ by linarith), mul_comm Δ]
        exact this)
    rw [pair_smul (by linarith)] at hb
    have hb2 : Real.sqrt 2 ^ (n+1) * (2 * etaF) ≤ 2^14 * (2 * etaF) := mul_le_mul_of_nonneg_right hs2 (by positivity)
    have hb3 : 2.001 * uF * (Δ * l2 (pairC n m')) ≤ 2.001 * (uF * (1.001 * (B * Δ) + 2^105 * etaF)) := by
      rw [mul_assoc]
      refine mul_le_mul_of_nonneg_left (mul_le_mul_of_nonneg_left ?_ hu) (by norm_num)
      have : Δ * l2 (pairC n m') ≤ K := by
        rw [← hK, mul_comm]
        exact mul_le_mul_of_nonneg_right hm'B (by linarith)
      have : uF * (B * Δ) ≤ 1/10^9 * (B * Δ) := mul_le_mul_of_nonneg_right hu2 hBΔ0
      linarith
    have hb4 : Δ * l2 (pairC n fun k => m' k - m k) ≤ Δ * ((28 * n + 3) * uF * B + 2^40 * etaF) :=
      mul_le_mul_of_nonneg_left hE (by linarith)
    have hb5 : uF * etaF ≤ 1/10^9 * etaF := mul_le_mul_of_nonneg_right hu2 hη
    have e5 : Δ * ((28 * n + 3) * uF * B + 2^40 * etaF) = 28 * (n * (uF * (B * Δ))) + 3 * (uF * (B * Δ)) + 2^40 * (etaF * Δ) := by ring
    have e6 : (28 * n + 6) * uF * (B * Δ) = 28 * (n * (uF * (B * Δ))) + 6 * (uF * (B * Δ)) := by ring
    rw [e6]
    rw [e5] at hb4
    linarith

theorem encodeF_l2 (hL : L.Accurate) (h1 : 1 ≤ n) (hn : n ≤ 26) (z : CVec (n+1)) (Delta : W) (hD : Delta ≠ 0) {B : ℝ}
    (hz : ∀ i : Fin (2^n), ‖(⟨z.1 i, z.2 i⟩ : ℂ)‖ ≤ B)
    (hw : B * Delta.toNat * (1 + 1/2^40) + 2 ≤ 2^64) (hq : B * Delta.toNat * (1 + 1/2^40) + 2 ≤ 2^(Q-1)) :
    Ok (encodeF L Q z Delta) fun pt => ∃ m y : Fin (2^(n+1)) → ℝ, (∀ i : Fin (2^n), slotOf m i = ⟨z.1 i, z.2 i⟩) ∧
      (∀ k, (pt k).Canonical ∧ |((pt k).sval : ℝ) - y k| ≤ 1/2) ∧
      l2 (pairC n fun k => y k - m k * Delta.toNat) ≤ (28 * n + 6) * uF * (B * Delta.toNat) + 2^106 * etaF := by
  have hB0 : 0 ≤ B := (norm_nonneg _).trans (hz ⟨0, Nat.two_pow_pos n⟩)
  have hBΔ0 : 0 ≤ B * Delta.toNat := by positivity
  refine encodeF_l2c hL h1 hn z Delta hD hz
    (fun m hm => coeff_le_slots h1 hn fun i => by rw [hm i]; exact hz i) le_rfl ?_ (le_trans (le_of_eq ?_) hw) (le_trans (le_of_eq ?_) hq)
  · have : (2:ℝ)^64 ≤ 2^100 := pow_le_pow_right₀ (by norm_num) (by norm_num)
    linarith
  · ring
  · ring

theorem sqrt2_succ (hn : n ≤ 26) : Real.sqrt 2 ^ (n+1) ≤ 2^14 := by
  have h := (sqrt2_pow hn).2
  have h2 : Real.sqrt 2 ≤ 2 := sqrt2_le.trans (by norm_num)
  rw [pow_succ]
  exact (mul_le_mul h h2 (Real.sqrt_nonneg 2) (by norm_num)).trans (by norm_num)

theorem slotOf_sub {N : Nat} (a b : Fin N → ℝ) (i : Nat) : slotOf (fun k => a k - b k) i = slotOf a i - slotOf b i := by
  unfold slotOf
  rw [← sum_sub_distrib]
  refine sum_congr rfl fun k _ => ?_
  push_cast
  ring

set_option maxHeartbeats 1000000 in
theorem decodeF_l2 (hL : L.Accurate) (h1 : 1 ≤ n) (hn : n ≤ 26) (hQ : Q ≤ 2^29) {D : Nat} (hD : D ≤ 2^30)
    (pt : R_Q Q (2^(n+1))) (hpt : ∀ k, (pt k).Canonical) (hb : ∀ k, |((pt k).sval : ℝ)| ≤ 2^900 * 2^D) :
    Ok (decode_logF (LOGN := n+1) L pt (D : Int)) fun z =>
      l2 (toC (n := 2^n) z.1 z.2 - fun i : Fin (2^n) => slotOf (fun k => ((pt k).sval : ℝ) / 2^D) i) ≤
      Real.sqrt 2 ^ n * ((28 * n + 8) * uF * l2 (pairC n fun k => ((pt k).sval : ℝ) / 2^D) + 2^40 * etaF) := by
  have hu := uF_pos.le
  have hu2 := uF_le
  have hη := etaF_pos.le
  have hη2 := etaF_le_uF
  have hθ := thF_le hn
  have hθ0 := thF_nonneg n
  have hn' : (n:ℝ) ≤ 26 := by exact_mod_cast hn
  have hn0 : (0:ℝ) ≤ n := Nat.cast_nonneg _
  have hs := sqrt2_succ hn
  obtain ⟨c, hc⟩ : ∃ c : Fin (2^(n+1)) → ℝ, c = fun k => ((pt k).sval : ℝ) / 2^D := ⟨_, rfl⟩
  have hc2 : ∀ k, |c k| ≤ 2^900 := fun k => by
    rw [hc, abs_div, abs_of_pos (show (0:ℝ) < 2^D by positivity), div_le_iff₀ (by positivity)]
    exact hb k
  unfold decode_logF
  refine Ok.bind (tabM_spec (P := fun i (m : ℝ) => ∀ h : i < 2^(n+1), |m - c ⟨i, h⟩| ≤ 7 * uF * |c ⟨i, h⟩| + etaF) fun i hi => ?_) fun m hm => ?_
  · rw [rd_of_lt _ hi, pure_bind, hc]
    exact Ok.mono (decodeLogCoeffF_spec (hpt _) hQ hD (hb _)) fun m hm _ => hm
  rw [← hc]
  have hd := pair_scale (a := fun k => m k - c k) (b := c) (by positivity) hη fun k => hm k k.isLt
  have hX0 := l2_nonneg (pairC n c)
  have ha := pair_add (fun k => m k - c k) c
  simp only [sub_add_cancel] at ha
  have hsη : Real.sqrt 2 ^ (n+1) * etaF ≤ 2^14 * etaF := mul_le_mul_of_nonneg_right hs hη
  have huX : 0 ≤ uF * l2 (pairC n c) := mul_nonneg hu hX0
  have huX2 : uF * l2 (pairC n c) ≤ 1/10^9 * l2 (pairC n c) := mul_le_mul_of_nonneg_right hu2 hX0
  have hcl : l2 (pairC n c) ≤ 2^14 * 2^900 := by
    have := pair_scale (n := n) (a := c) (b := fun _ => 0) (c := 0) (e := 2^900) le_rfl (by positivity) fun k => by
      rw [zero_mul, zero_add]; exact hc2 k
    rw [zero_mul, zero_add] at this
    exact this.trans (mul_le_mul_of_nonneg_right hs (by positivity))
  have hm950 : l2 (pairC n m) ≤ 2^950 := by
    have : l2 (pairC n m) ≤ 2^16 * 2^900 := by
      have h900 : (1:ℝ) ≤ 2^900 := one_le_pow₀ (by norm_num)
      generalize (2:ℝ)^900 = T at *
      linarith
    refine this.trans ?_
    rw [← pow_add]
    exact pow_le_pow_right₀ (by norm_num) (by norm_num)
  refine Ok.mono (fftF_spec hL h1 hn m hm950) fun z hz => ?_
  have htot := l2_add_le (toC (n := 2^n) z.1 z.2 - fun i : Fin (2^n) => slotOf m i)
    ((fun i : Fin (2^n) => slotOf m i) - fun i : Fin (2^n) => slotOf c i)
  rw [sub_add_sub_cancel] at htot
  have esl : ((fun i : Fin (2^n) => slotOf m i) - fun i : Fin (2^n) => slotOf c i) = fun i : Fin (2^n) => slotOf (fun k => m k - c k) i :=
    funext fun i => (slotOf_sub m c i).symm
  rw [esl, slots_l2] at htot
  refine htot.trans ((add_le_add hz le_rfl).trans ?_)
  rw [← mul_add]
  refine mul_le_mul_of_nonneg_left ?_ (by positivity)
  generalize l2 (pairC n c) = X at *
  have k1 : 28 * uF * l2 (pairC n m) ≤ 28 * (uF * X) + 28 * (7.001 * (uF * (uF * X)) + 2^14 * (uF * etaF)) := by
    have : uF * l2 (pairC n m) ≤ uF * (X + (7 * uF * X + 2^14 * etaF)) := mul_le_mul_of_nonneg_left (by linarith) hu
    have e : uF * (X + (7 * uF * X + 2^14 * etaF)) = uF * X + (7 * (uF * (uF * X)) + 2^14 * (uF * etaF)) := by ring
    have : 0 ≤ uF * (uF * X) := mul_nonneg hu huX
    linarith
  have k2 : uF * (uF * X) ≤ 1/10^9 * (uF * X) := mul_le_mul_of_nonneg_right hu2 huX
  have k3 : uF * etaF ≤ 1/10^9 * etaF := mul_le_mul_of_nonneg_right hu2 hη
  have k4 : n * (28 * uF * l2 (pairC n m) + 2 * thF n) ≤ n * (28 * (uF * X)) + 26 * (1/10^6 * (uF * X) + 2^33 * etaF) := by
    have : n * (28 * uF * l2 (pairC n m) + 2 * thF n) ≤ n * (28 * (uF * X) + (1/10^6 * (uF * X) + 2^33 * etaF)) :=
      mul_le_mul_of_nonneg_left (by linarith) hn0
    have k5 : (n:ℝ) * (1/10^6 * (uF * X) + 2^33 * etaF) ≤ 26 * (1/10^6 * (uF * X) + 2^33 * etaF) :=
      mul_le_mul_of_nonneg_right hn' (by linarith)
    rw [mul_add] at this
    linarith
  have e6 : (28 * n + 8) * uF * X = n * (28 * (uF * X)) + 8 * (uF * X) := by ring
  rw [e6]
  linarith

set_option maxHeartbeats 1000000 in
/-- decoding a plaintext `m + f + r` with `f` small in the Euclidean norm and `r` small in every coefficient -/
theorem decodeF_out (hL : L.Accurate) (h1 : 1 ≤ n) (hn : n ≤ 26) (hQ : Q ≤ 2^29) {D : Nat} (hD : D ≤ 2^30)
    (pt : R_Q Q (2^(n+1))) (hpt : ∀ k, (pt k).Canonical) {m f : Fin (2^(n+1)) → ℝ} {B F ρ : ℝ} (hF : l2 (pairC n f) ≤ F)
    (hB : ∀ i : Fin (2^n), ‖slotOf m i‖ ≤ B) (hr : ∀ k, |((pt k).sval : ℝ) / 2^D - (m k + f k)| ≤ ρ)
    (hbig : B + F + ρ ≤ 2^900) :
    Ok (decode_logF (LOGN := n+1) L pt (D : Int)) fun z => ∀ i : Fin (2^n),
      ‖(⟨z.1 i, z.2 i⟩ : ℂ) - slotOf m i‖ ≤ (2^(n+1) * ρ + Real.sqrt 2 ^ n * F) + (28 * n + 8) * uF * (Real.sqrt 2 ^ n * (B + F) + 2^(n+1) * ρ)
        + 2^60 * etaF := by
  have hu := uF_pos.le
  have hη := etaF_pos.le
  have hn0 : (0:ℝ) ≤ n := Nat.cast_nonneg _
  have hρ : 0 ≤ ρ := (abs_nonneg _).trans (hr ⟨0, Nat.two_pow_pos _⟩)
  have hmB : l2 (pairC n m) ≤ B := by rw [l2_pairC]; exact coeff_norm hB
  obtain ⟨c, hc⟩ : ∃ c : Fin (2^(n+1)) → ℝ, c = fun k => ((pt k).sval : ℝ) / 2^D := ⟨_, rfl⟩
  have hr' : ∀ k, |c k - (m k + f k)| ≤ ρ := fun k => by rw [hc]; exact hr k
  have hb : ∀ k, |((pt k).sval : ℝ)| ≤ 2^900 * 2^D := fun k => by
    have k1 := (abs_le_pair m k).trans hmB
    have k2 := (abs_le_pair f k).trans hF
    have k3 := abs_add_le (c k - (m k + f k)) (m k + f k)
    rw [sub_add_cancel] at k3
    have k4 := abs_add_le (m k) (f k)
    have k5 : |c k| ≤ 2^900 := by
      refine le_trans ?_ hbig
      have := hr' k
      clear hbig
      linarith
    rw [hc, abs_div, abs_of_pos (show (0:ℝ) < 2^D by positivity), div_le_iff₀ (by positivity)] at k5
    exact k5
  clear hbig
  refine Ok.mono (decodeF_l2 hL h1 hn hQ hD pt hpt hb) fun z hz i => ?_
  rw [← hc] at hz
  have hss : Real.sqrt 2 ^ n * Real.sqrt 2 ^ (n+1) ≤ 2^(n+1) := by
    rw [pow_succ, ← mul_assoc, ← mul_pow, Real.mul_self_sqrt (by norm_num), pow_succ]
    exact mul_le_mul_of_nonneg_left (sqrt2_le.trans (by norm_num)) (by positivity)
  have hcl : l2 (pairC n c) ≤ B + F + Real.sqrt 2 ^ (n+1) * ρ := by
    have a1 := pair_add (fun k => m k + f k) (fun k => c k - (m k + f k))
    simp only [add_sub_cancel] at a1
    have a2 := pair_add m f
    have a3 := pair_scale (n := n) (a := fun k => c k - (m k + f k)) (b := fun _ => 0) (c := 0) (e := ρ) le_rfl hρ fun k => by
      rw [zero_mul, zero_add]; exact hr' k
    rw [zero_mul, zero_add] at a3
    linarith
  obtain ⟨s1, s2⟩ := sqrt2_pow hn
  have d1 : ‖(⟨z.1 i, z.2 i⟩ : ℂ) - slotOf c i‖ ≤ Real.sqrt 2 ^ n * ((28 * n + 8) * uF * l2 (pairC n c) + 2^40 * etaF) :=
    (le_l2 (toC (n := 2^n) z.1 z.2 - fun i : Fin (2^n) => slotOf c i) i).trans hz
  have d2 : ‖slotOf c i - slotOf (fun k => m k + f k) i‖ ≤ 2^(n+1) * ρ := by
    have := slotOf_sub_le (m := c) (m' := fun k => m k + f k) hr' i
    push_cast at this
    exact this
  have d3 : ‖slotOf (fun k => m k + f k) i - slotOf m i‖ ≤ Real.sqrt 2 ^ n * F := by
    rw [← slotOf_sub]
    have e : (fun k => m k + f k - m k) = f := funext fun k => by ring
    rw [e]
    refine (le_l2 (fun i : Fin (2^n) => slotOf f i) i).trans ?_
    rw [slots_l2]
    exact mul_le_mul_of_nonneg_left hF (by positivity)
  have d4 := norm_add₃_le (a := (⟨z.1 i, z.2 i⟩ : ℂ) - slotOf c i) (b := slotOf c i - slotOf (fun k => m k + f k) i)
    (c := slotOf (fun k => m k + f k) i - slotOf m i)
  rw [sub_add_sub_cancel, sub_add_sub_cancel] at d4
  have d5 : Real.sqrt 2 ^ n * ((28 * n + 8) * uF * l2 (pairC n c)) ≤ (28 * n + 8) * uF * (Real.sqrt 2 ^ n * (B + F) + 2^(n+1) * ρ) := by
    rw [mul_left_comm]
    refine mul_le_mul_of_nonneg_left ?_ (by positivity)
    refine (mul_le_mul_of_nonneg_left hcl (by positivity)).trans ?_
    rw [mul_add, ← mul_assoc]
    exact add_le_add le_rfl (mul_le_mul_of_nonneg_right hss hρ)
  have d6 : Real.sqrt 2 ^ n * (2^40 * etaF) ≤ 2^60 * etaF := by
    refine (mul_le_mul_of_nonneg_right s2 (by positivity)).trans ?_
    rw [← mul_assoc]
    exact mul_le_mul_of_nonneg_right (by norm_num) hη
  rw [mul_add] at d1
  linarith

theorem out_arith {n : Nat} (hn : n ≤ 26) {B F ρ u ρ1 : ℝ} (hB : 0 ≤ B) (hu : 0 ≤ u) (hu2 : u ≤ 1/10^9) (hu3 : 1000 * u ≤ 1/2^41) {η : ℝ} (hη : 0 ≤ η)
    (hρ : 0 ≤ ρ) (hF : F ≤ (28 * n + 6) * u * B + 2^106 * η) (hρ1 : ρ1 = 2^(n+1) * ρ) :
    (ρ1 + Real.sqrt 2 ^ n * F) + (28 * n + 8) * u * (Real.sqrt 2 ^ n * (B + F) + ρ1) + 2^60 * η ≤
      ρ1 * (1 + 1/2^40) + Real.sqrt 2 ^ n * ((56 * n + 15) * u * B) + 2^121 * η := by
  have hn' : (n:ℝ) ≤ 26 := by exact_mod_cast hn
  have hn0 : (0:ℝ) ≤ n := Nat.cast_nonneg _
  obtain ⟨s1, s2⟩ := sqrt2_pow hn
  have hρ10 : 0 ≤ ρ1 := by rw [hρ1]; positivity
  have huB : 0 ≤ u * B := mul_nonneg hu hB
  have hc : (28 * n + 8) * u ≤ 1000 * u := mul_le_mul_of_nonneg_right (by linarith) hu
  have hc0 : 0 ≤ (28 * n + 8) * u := by positivity
  have k1 : (28 * n + 8) * u * ρ1 ≤ 1/2^41 * ρ1 := mul_le_mul_of_nonneg_right (hc.trans hu3) hρ10
  have k2 : (28 * n + 8) * u * F ≤ 1/10^3 * (u * B) + 2^106 * η := by
    have a0 : (28 * n + 6) * u * B ≤ 734 * (u * B) := by
      rw [mul_assoc]
      exact mul_le_mul_of_nonneg_right (by linarith) huB
    have a1 : (28 * n + 8) * u * F ≤ (28 * n + 8) * u * (734 * (u * B) + 2^106 * η) :=
      mul_le_mul_of_nonneg_left (by linarith) hc0
    have a2 : (28 * n + 8) * u * (734 * (u * B) + 2^106 * η) ≤ 1/2^41 * (734 * (u * B) + 2^106 * η) :=
      mul_le_mul_of_nonneg_right (hc.trans hu3) (by positivity)
    linarith
  have k3 : F + (28 * n + 8) * u * (B + F) ≤ (56 * n + 15) * u * B + 2^107 * η := by
    have e1 : (28 * n + 8) * u * (B + F) = (28 * n + 8) * u * F + (28 * (n * (u * B)) + 8 * (u * B)) := by ring
    have e2 : (28 * n + 6) * u * B = 28 * (n * (u * B)) + 6 * (u * B) := by ring
    have e3 : (56 * n + 15) * u * B = 56 * (n * (u * B)) + 15 * (u * B) := by ring
    rw [e1, e3]
    rw [e2] at hF
    linarith
  have k4 := mul_le_mul_of_nonneg_left k3 (show 0 ≤ Real.sqrt 2 ^ n by linarith)
  have k5 : Real.sqrt 2 ^ n * (2^107 * η) ≤ 2^13 * (2^107 * η) := mul_le_mul_of_nonneg_right s2 (by positivity)
  rw [mul_add, mul_add] at k4
  have e4 : (28 * n + 8) * u * (Real.sqrt 2 ^ n * (B + F) + ρ1) = Real.sqrt 2 ^ n * ((28 * n + 8) * u * (B + F)) + (28 * n + 8) * u * ρ1 := by ring
  rw [e4]
  linarith

theorem toNat_scale {D : Nat} (hD : D < 64) : (((BitVec.ofNat 64 (2^D)).toNat : ℕ) : ℝ) = 2^D := by
  rw [BitVec.toNat_ofNat, Nat.mod_eq_of_lt (Nat.pow_lt_pow_right (by norm_num) hD)]; push_cast; rfl

theorem scale_ne_zero {D : Nat} (hD : D < 64) : BitVec.ofNat 64 (2^D) ≠ 0 := by
  intro h
  have h1 := toNat_scale hD
  rw [h] at h1
  have : (0:ℝ) < 2^D := by positivity
  simp at h1
  linarith

theorem code_size (hn : n ≤ 26) {D : Nat} {z : CVec (n+1)} {B : ℝ} (hz : ∀ i : Fin (2^n), ‖(⟨z.1 i, z.2 i⟩ : ℂ)‖ ≤ B)
    {m y : Fin (2^(n+1)) → ℝ} (hm : ∀ i : Fin (2^n), slotOf m i = ⟨z.1 i, z.2 i⟩)
    (hl : l2 (pairC n fun k => y k - m k * 2^D) ≤ (28 * n + 6) * uF * (B * 2^D) + 2^106 * etaF)
    {k : Fin (2^(n+1))} {s : ℝ} (hs : |s - y k| ≤ 1/2) : |s| ≤ B * 2^D * (1 + 1/2^40) + 2 := by
  have hu := uF_pos.le
  have hn' : (n:ℝ) ≤ 26 := by exact_mod_cast hn
  have hB0 : 0 ≤ B := (norm_nonneg _).trans (hz ⟨0, Nat.two_pow_pos n⟩)
  have hmB : l2 (pairC n m) ≤ B := by
    rw [l2_pairC]
    exact coeff_norm fun i => by rw [show slotOf m i = _ from hm i]; exact hz i
  have htiny : 2^106 * etaF ≤ 1/2^900 := tiny_le' (mul_le_mul_of_nonneg_right (by norm_num) etaF_pos.le)
  have htiny2 : (1:ℝ)/2^900 ≤ 1/2^20 := one_div_le_one_div_of_le (by positivity) (pow_le_pow_right₀ (by norm_num) (by norm_num))
  have htiny3 := htiny.trans htiny2
  clear htiny htiny2
  have hu40 : 1000 * uF ≤ 1/2^41 := by rw [uF_eq]; norm_num
  have hp : (0:ℝ) < 2^D := by positivity
  have k1 := (abs_le_pair (fun k => y k - m k * 2^D) k).trans hl
  have k2 : |m k * 2^D| ≤ B * 2^D := by
    rw [abs_mul, abs_of_pos hp]
    exact mul_le_mul_of_nonneg_right ((abs_le_pair m k).trans hmB) hp.le
  have k3 := abs_add_le (y k - m k * 2^D) (m k * 2^D)
  rw [sub_add_cancel] at k3
  have k4 := abs_add_le (s - y k) (y k)
  rw [sub_add_cancel] at k4
  have hK0 : 0 ≤ B * 2^D := by positivity
  have k5 : (28 * n + 6) * uF * (B * 2^D) ≤ 1/2^41 * (B * 2^D) := by
    refine mul_le_mul_of_nonneg_right (le_trans ?_ hu40) hK0
    exact mul_le_mul_of_nonneg_right (by linarith) hu
  generalize B * 2^D = K at *
  linarith

set_option maxHeartbeats 1000000 in
theorem code_out (hL : L.Accurate) (h1 : 1 ≤ n) (hn : n ≤ 26) (hQ : Q ≤ 2^29) {D : Nat} (hD : D ≤ 2^30)
    {z : CVec (n+1)} {B : ℝ} (hz : ∀ i : Fin (2^n), ‖(⟨z.1 i, z.2 i⟩ : ℂ)‖ ≤ B)
    (hw : B * 2^D * (1 + 1/2^40) + 2 ≤ 2^64) {m y : Fin (2^(n+1)) → ℝ} (hm : ∀ i : Fin (2^n), slotOf m i = ⟨z.1 i, z.2 i⟩)
    (hl : l2 (pairC n fun k => y k - m k * 2^D) ≤ (28 * n + 6) * uF * (B * 2^D) + 2^106 * etaF)
    (pt : R_Q Q (2^(n+1))) (hpt : ∀ k, (pt k).Canonical) {E : ℝ} (hE : ∀ k, |((pt k).sval : ℝ) - y k| ≤ E) (hE2 : E ≤ 2^60) :
    Ok (decode_logF (LOGN := n+1) L pt (D : Int)) fun z' => ∀ i : Fin (2^n),
      ‖(⟨z'.1 i, z'.2 i⟩ : ℂ) - ⟨z.1 i, z.2 i⟩‖ ≤
        2 * E * 2^n / 2^D * (1 + 1/2^40) + Real.sqrt 2 ^ n * ((56 * n + 15) * uF * B) + 1/2^900 := by
  have hu := uF_pos.le
  have hu2 := uF_le
  have hη := etaF_pos.le
  have hη2 := etaF_le
  have hn' : (n:ℝ) ≤ 26 := by exact_mod_cast hn
  have hB0 : 0 ≤ B := (norm_nonneg _).trans (hz ⟨0, Nat.two_pow_pos n⟩)
  have hE0 : 0 ≤ E := (abs_nonneg _).trans (hE ⟨0, Nat.two_pow_pos _⟩)
  have hp : (1:ℝ) ≤ 2^D := one_le_pow₀ (by norm_num)
  have hp0 : (0:ℝ) < 2^D := by positivity
  have hi : (1:ℝ) / 2^D ≤ 1 := by rw [div_le_one hp0]; exact hp
  have hi0 : (0:ℝ) ≤ 1 / 2^D := by positivity
  have hu40 : 1000 * uF ≤ 1/2^41 := by rw [uF_eq]; norm_num
  have hF : l2 (pairC n fun k => 1 / 2^D * (y k - m k * 2^D)) ≤ (28 * n + 6) * uF * B + 2^106 * etaF := by
    rw [pair_smul hi0]
    refine (mul_le_mul_of_nonneg_left hl hi0).trans ?_
    have e : 1 / 2^D * ((28 * n + 6) * uF * (B * 2^D) + 2^106 * etaF) = (28 * n + 6) * uF * B + 1 / 2^D * (2^106 * etaF) := by
      field_simp
    rw [e]
    exact add_le_add le_rfl (mul_le_of_le_one_left (mul_nonneg (by norm_num) hη) hi)
  have htiny : 2^106 * etaF ≤ 1/2^900 := tiny_le' (mul_le_mul_of_nonneg_right (by norm_num) hη)
  have htiny2 : (1:ℝ)/2^900 ≤ 1/2^20 := one_div_le_one_div_of_le (by positivity) (pow_le_pow_right₀ (by norm_num) (by norm_num))
  have htiny3 := htiny.trans htiny2
  clear htiny htiny2
  have hρ : ∀ k, |((pt k).sval : ℝ) / 2^D - (m k + 1 / 2^D * (y k - m k * 2^D))| ≤ E / 2^D := fun k => by
    have e : ((pt k).sval : ℝ) / 2^D - (m k + 1 / 2^D * (y k - m k * 2^D)) = ((pt k).sval - y k) / 2^D := by
      have := hp0.ne'
      generalize (2:ℝ)^D = p at *
      field_simp
      ring
    rw [e, abs_div, abs_of_pos hp0]
    exact div_le_div_of_nonneg_right (hE k) hp0.le
  have hE3 : E / 2^D ≤ E := by rw [div_le_iff₀ hp0]; nlinarith
  have hρ0 : 0 ≤ E / 2^D := by positivity
  have hbig : B + ((28 * n + 6) * uF * B + 2^106 * etaF) + E / 2^D ≤ 2^900 := by
    have b1 : B ≤ B * 2^D := by nlinarith
    have b2 : (28 * n + 6) * uF * B ≤ 1/2^41 * B := by
      refine mul_le_mul_of_nonneg_right (le_trans ?_ hu40) hB0
      exact mul_le_mul_of_nonneg_right (by linarith) hu
    have b3 : B + ((28 * n + 6) * uF * B + 2^106 * etaF) + E / 2^D ≤ 2^66 := by
      generalize B * 2^D = K at *
      linarith
    exact b3.trans (pow_le_pow_right₀ (by norm_num) (by norm_num))
  refine Ok.mono (decodeF_out hL h1 hn hQ hD pt hpt hF (fun i => by rw [show slotOf m i = _ from hm i]; exact hz i) hρ hbig) fun z' h i => ?_
  clear hbig
  have hi2 := h i
  rw [show slotOf m i = _ from hm i] at hi2
  refine hi2.trans ((out_arith hn hB0 hu hu2 hu40 hη hρ0 le_rfl rfl).trans ?_)
  refine add_le_add (add_le_add (le_of_eq ?_) le_rfl) (tiny_le' (mul_le_mul_of_nonneg_right (by norm_num) hη))
  rw [pow_succ]
  ring

end

end EvalRound

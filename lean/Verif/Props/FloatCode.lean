import Verif.Proofs.FloatDecode

/-!
# C73: encoding and decoding in binary64

`encodeF` and `decode_logF` are `encode` and `decode_log` of endecode.h with every operation rounded, see `Verif/Model/Float.lean`.
-/

namespace EvalRound
open Finset Z_Q

section
variable {LOGN LOGQ : Nat} [NeZero LOGQ] {L : Libm}

/-- C73: `encode` in binary64. The integers are those nearest to numbers `y`, which differ from the exact coefficients times `Delta` by at most
`(28·(LOGN-1)+6)·2^-53·B·Delta` in the Euclidean norm. -/
theorem C73_encode (hL : L.Accurate) (h1 : 2 ≤ LOGN) (h2 : LOGN ≤ 27) (z : CVec LOGN) (Delta : W) (hD : Delta ≠ 0) (B : ℝ)
    (hz : ∀ i : Fin (2^(LOGN-1)), ‖(⟨z.1 i, z.2 i⟩ : ℂ)‖ ≤ B)
    (hw : B * Delta.toNat * (1 + 1/2^40) + 2 ≤ 2^64) (hq : B * Delta.toNat * (1 + 1/2^40) + 2 ≤ 2^(LOGQ-1)) :
    Ok (encodeF L LOGQ z Delta) fun pt => ∃ m y : Fin (2^LOGN) → ℝ, (∀ i : Fin (2^(LOGN-1)), slotOf m i = ⟨z.1 i, z.2 i⟩) ∧
      (∀ k, (pt k).Canonical ∧ |((pt k).sval : ℝ) - y k| ≤ 1/2) ∧
      Real.sqrt (∑ k, (y k - m k * Delta.toNat)^2) ≤ (28 * (LOGN - 1) + 6) / 2^53 * (B * Delta.toNat) + 1/2^900 := by
  obtain ⟨n, rfl⟩ : ∃ n, LOGN = n + 1 := ⟨LOGN - 1, by omega⟩
  refine Ok.mono (encodeF_l2 (n := n) hL (by omega) (by omega) z Delta hD hz hw hq) fun pt ⟨m, y, hm, hy, hl⟩ => ⟨m, y, hm, hy, ?_⟩
  rw [l2_pairC] at hl
  refine hl.trans (add_le_add (le_of_eq ?_) (tiny_le' (mul_le_mul_of_nonneg_right (by norm_num) etaF_pos.le)))
  rw [uF_eq]
  push_cast
  ring

/-- C73: every coefficient that `encode` returns. -/
theorem C73_encode_coeff (hL : L.Accurate) (h1 : 2 ≤ LOGN) (h2 : LOGN ≤ 27) (z : CVec LOGN) (Delta : W) (hD : Delta ≠ 0) (B : ℝ)
    (hz : ∀ i : Fin (2^(LOGN-1)), ‖(⟨z.1 i, z.2 i⟩ : ℂ)‖ ≤ B)
    (hw : B * Delta.toNat * (1 + 1/2^40) + 2 ≤ 2^64) (hq : B * Delta.toNat * (1 + 1/2^40) + 2 ≤ 2^(LOGQ-1)) :
    Ok (encodeF L LOGQ z Delta) fun pt => ∃ m : Fin (2^LOGN) → ℝ, (∀ i : Fin (2^(LOGN-1)), slotOf m i = ⟨z.1 i, z.2 i⟩) ∧
      ∀ k, (pt k).Canonical ∧
        |((pt k).sval : ℝ) - m k * Delta.toNat| ≤ 1/2 + (28 * (LOGN - 1) + 6) / 2^53 * (B * Delta.toNat) + 1/2^900 := by
  refine Ok.mono (C73_encode hL h1 h2 z Delta hD B hz hw hq) fun pt ⟨m, y, hm, hy, hl⟩ => ⟨m, hm, fun k => ⟨(hy k).1, ?_⟩⟩
  have k1 : |y k - m k * Delta.toNat| ≤ Real.sqrt (∑ k, (y k - m k * Delta.toNat)^2) :=
    Real.abs_le_sqrt (single_le_sum (f := fun k => (y k - m k * (Delta.toNat : ℝ))^2) (fun _ _ => sq_nonneg _) (mem_univ k))
  have k2 := abs_add_le ((pt k).sval - y k) (y k - m k * Delta.toNat)
  rw [sub_add_sub_cancel] at k2
  have k3 := (hy k).2
  generalize (1:ℝ)/2^900 = T at *
  linarith

/-- C73: `decode_log` in binary64. -/
theorem C73_decode (hL : L.Accurate) (h1 : 2 ≤ LOGN) (h2 : LOGN ≤ 27) (hQ : LOGQ ≤ 2^29) (LOGDELTA : Nat) (hD : LOGDELTA ≤ 2^30)
    (pt : R_Q LOGQ (2^LOGN)) (hpt : pt.Canonical) (hb : ∀ k, |((pt k).sval : ℝ)| ≤ 2^900 * 2^LOGDELTA) :
    Ok (decode_logF L pt (LOGDELTA : Int)) fun z =>
      Real.sqrt (∑ i, ‖(⟨z.1 i, z.2 i⟩ : ℂ) - slotOf (fun k => ((pt k).sval : ℝ) / 2^LOGDELTA) i‖^2) ≤
      (28 * (LOGN - 1) + 8) / 2^53 *
        Real.sqrt (∑ i : Fin (2^(LOGN-1)), ‖slotOf (fun k => ((pt k).sval : ℝ) / 2^LOGDELTA) i‖^2) + 1/2^900 := by
  obtain ⟨n, rfl⟩ : ∃ n, LOGN = n + 1 := ⟨LOGN - 1, by omega⟩
  have hn : n ≤ 26 := by omega
  refine Ok.mono (decodeF_l2 (n := n) hL (by omega) hn hQ hD pt hpt hb) fun z hz => ?_
  refine hz.trans ?_
  have e := slots_l2 (n := n) (fun k => ((pt k).sval : ℝ) / 2^LOGDELTA)
  have e2 : Real.sqrt (∑ i : Fin (2^n), ‖slotOf (fun k => ((pt k).sval : ℝ) / 2^LOGDELTA) i‖^2) =
    Real.sqrt 2 ^ n * l2 (pairC n fun k => ((pt k).sval : ℝ) / 2^LOGDELTA) := e
  show _ ≤ (28 * (((n+1 : ℕ) : ℝ) - 1) + 8) / 2^53 * Real.sqrt (∑ i : Fin (2^n), ‖slotOf (fun k => ((pt k).sval : ℝ) / 2^LOGDELTA) i‖^2) + _
  rw [e2, mul_add]
  refine add_le_add (le_of_eq ?_) (tiny_le' ?_)
  · rw [uF_eq]; push_cast; ring
  · refine (mul_le_mul_of_nonneg_right (sqrt2_pow hn).2 (mul_nonneg (by norm_num) etaF_pos.le)).trans ?_
    rw [← mul_assoc]
    exact mul_le_mul_of_nonneg_right (by norm_num) etaF_pos.le

/-- C73: `decode` in binary64, for coefficients up to `2^900`. -/
theorem C73_decode_plain (hL : L.Accurate) (h1 : 2 ≤ LOGN) (h2 : LOGN ≤ 27) (Delta : W) (hD : Delta ≠ 0)
    (pt : R_Q LOGQ (2^LOGN)) (hpt : pt.Canonical) (hb : ∀ k, |((pt k).sval : ℝ)| ≤ 2^900) :
    Ok (decodeF L pt Delta) fun z =>
      Real.sqrt (∑ i, ‖(⟨z.1 i, z.2 i⟩ : ℂ) - slotOf (fun k => ((pt k).sval : ℝ) / Delta.toNat) i‖^2) ≤
      (28 * (LOGN - 1) + 8) / 2^53 *
        Real.sqrt (∑ i : Fin (2^(LOGN-1)), ‖slotOf (fun k => ((pt k).sval : ℝ) / Delta.toNat) i‖^2) + 1/2^900 := by
  obtain ⟨n, rfl⟩ : ∃ n, LOGN = n + 1 := ⟨LOGN - 1, by omega⟩
  have hn : n ≤ 26 := by omega
  have hΔ1 : (1:ℝ) ≤ Delta.toNat := by
    have : Delta.toNat ≠ 0 := fun h => hD (BitVec.eq_of_toNat_eq (by simpa using h))
    exact_mod_cast Nat.pos_of_ne_zero this
  unfold decodeF
  refine Ok.bind (tabM_spec (P := fun i (m : ℝ) => ∀ h : i < 2^(n+1), |m - ((pt ⟨i, h⟩).sval : ℝ) / Delta.toNat| ≤
    7 * uF * |((pt ⟨i, h⟩).sval : ℝ) / Delta.toNat| + 2^60 * etaF) fun i hi => ?_) fun m hm => ?_
  · rw [rd_of_lt _ hi, pure_bind]
    exact Ok.mono (decodeCoeffF_spec (hpt _) hD ((hb _).trans (pow_le_pow_right₀ (by norm_num) (by norm_num)))) fun m hm _ => hm
  refine Ok.mono (fftF_of_coeff (n := n) (c := fun k => ((pt k).sval : ℝ) / Delta.toNat) hL (by omega) hn (fun k => ?_)
    (fun k => hm k k.isLt)) fun z hz => ?_
  · rw [abs_div, abs_of_pos (show (0:ℝ) < Delta.toNat by linarith)]
    exact (div_le_self (abs_nonneg _) hΔ1).trans (hb k)
  refine hz.trans ?_
  have e2 : Real.sqrt (∑ i : Fin (2^n), ‖slotOf (fun k => ((pt k).sval : ℝ) / Delta.toNat) i‖^2) =
    Real.sqrt 2 ^ n * l2 (pairC n fun k => ((pt k).sval : ℝ) / Delta.toNat) := slots_l2 (n := n) _
  show _ ≤ (28 * (((n+1 : ℕ) : ℝ) - 1) + 8) / 2^53 * Real.sqrt (∑ i : Fin (2^n), ‖slotOf (fun k => ((pt k).sval : ℝ) / Delta.toNat) i‖^2) + _
  rw [e2, mul_add]
  refine add_le_add (le_of_eq ?_) (tiny_le' ?_)
  · rw [uF_eq]; push_cast; ring
  · refine (mul_le_mul_of_nonneg_right (sqrt2_pow hn).2 (mul_nonneg (by norm_num) etaF_pos.le)).trans ?_
    rw [← mul_assoc]
    exact mul_le_mul_of_nonneg_right (by norm_num) etaF_pos.le

/-- C73: `decode` overflows on a coefficient of `2^1024` or more, whatever the scale; `decode_log` does not. -/
theorem C73_decode_overflow (x : Z_Q LOGQ) (hx : x.Canonical) (hb : 2^1024 ≤ |x.sval|) (Delta : W) : decodeCoeffF Delta x = ub :=
  decodeCoeffF_ub hx Delta hb

/-- C73: encoding and decoding in binary64 at the scale `2^LOGDELTA` returns the slots up to the rounding to integers, `2^(LOGN-1)/2^LOGDELTA`,
and a number of units of rounding that grows as `LOGN·2^(LOGN/2)`. -/
theorem C73_round_trip (hL : L.Accurate) (h1 : 2 ≤ LOGN) (h2 : LOGN ≤ 27) (hQ : LOGQ ≤ 2^29) (LOGDELTA : Nat) (hD : LOGDELTA < 64)
    (z : CVec LOGN) (B : ℝ) (hz : ∀ i : Fin (2^(LOGN-1)), ‖(⟨z.1 i, z.2 i⟩ : ℂ)‖ ≤ B)
    (hw : B * 2^LOGDELTA * (1 + 1/2^40) + 2 ≤ 2^64) (hq : B * 2^LOGDELTA * (1 + 1/2^40) + 2 ≤ 2^(LOGQ-1)) :
    Ok (do
      let pt ← encodeF L LOGQ z (BitVec.ofNat 64 (2^LOGDELTA))
      decode_logF L pt LOGDELTA) fun z' => ∀ i : Fin (2^(LOGN-1)),
        ‖(⟨z'.1 i, z'.2 i⟩ : ℂ) - ⟨z.1 i, z.2 i⟩‖ ≤
          2^(LOGN-1) / 2^LOGDELTA * (1 + 1/2^40) + Real.sqrt 2 ^ (LOGN-1) * ((56 * (LOGN - 1) + 15) / 2^53 * B) + 1/2^900 := by
  obtain ⟨n, rfl⟩ : ∃ n, LOGN = n + 1 := ⟨LOGN - 1, by omega⟩
  have hδ : (((BitVec.ofNat 64 (2^LOGDELTA)).toNat : ℕ) : ℝ) = 2^LOGDELTA := toNat_scale hD
  have hne : BitVec.ofNat 64 (2^LOGDELTA) ≠ 0 := scale_ne_zero hD
  refine Ok.bind (encodeF_l2 (n := n) hL (by omega) (by omega) z _ hne hz (by rw [hδ]; exact hw) (by rw [hδ]; exact hq))
    fun pt ⟨m, y, hm, hy, hl⟩ => ?_
  rw [hδ] at hl
  refine Ok.mono (code_out (n := n) hL (by omega) (by omega) hQ (by omega) hz hw hm hl pt (fun k => (hy k).1) (E := 1/2) (fun k => (hy k).2)
    (by norm_num)) fun z' h i => ?_
  refine (h i).trans (le_of_eq ?_)
  show _ = 2^n / 2^LOGDELTA * (1 + 1/2^40) + Real.sqrt 2 ^ n * ((56 * (((n+1 : ℕ) : ℝ) - 1) + 15) / 2^53 * B) + 1/2^900
  rw [uF_eq]
  push_cast
  ring

/-- C73: with encryption and decryption in between. -/
theorem C73_fresh (hL : L.Accurate) (R : Nat) (h1 : 2 ≤ LOGN) (h2 : LOGN ≤ 27) (hQ : LOGQ ≤ 2^29) (LOGDELTA : Nat) (hD : LOGDELTA < 64)
    (z : CVec LOGN) (B : ℝ) (hz : ∀ i : Fin (2^(LOGN-1)), ‖(⟨z.1 i, z.2 i⟩ : ℂ)‖ ≤ B)
    (hw : B * 2^LOGDELTA * (1 + 1/2^40) + 2 ≤ 2^64) (hq : B * 2^LOGDELTA * (1 + 1/2^40) + 11 ≤ 2^(LOGQ-1))
    (s : Fin (2^LOGN) → Int) (hs : Ternary s) (ct0 : R_Q_square LOGQ (2^LOGN)) (ω : Rng) :
    Ok (do
      let pt ← encodeF L LOGQ z (BitVec.ofNat 64 (2^LOGDELTA))
      let r ← enc R pt s ct0 ω
      let pt ← dec r.1 s
      decode_logF L pt LOGDELTA) fun z' => ∀ i : Fin (2^(LOGN-1)),
        ‖(⟨z'.1 i, z'.2 i⟩ : ℂ) - ⟨z.1 i, z.2 i⟩‖ ≤
          17 * 2^(LOGN-1) / 2^LOGDELTA * (1 + 1/2^40) + Real.sqrt 2 ^ (LOGN-1) * ((56 * (LOGN - 1) + 15) / 2^53 * B) + 1/2^900 := by
  obtain ⟨n, rfl⟩ : ∃ n, LOGN = n + 1 := ⟨LOGN - 1, by omega⟩
  have hN : 2^(n+1) ≤ 2^30 := Nat.pow_le_pow_right (by norm_num) (by omega)
  have hδ : (((BitVec.ofNat 64 (2^LOGDELTA)).toNat : ℕ) : ℝ) = 2^LOGDELTA := toNat_scale hD
  have hne : BitVec.ofNat 64 (2^LOGDELTA) ≠ 0 := scale_ne_zero hD
  refine Ok.bind (encodeF_l2 (n := n) hL (by omega) (by omega) z _ hne hz (by rw [hδ]; exact hw) (by rw [hδ]; linarith))
    fun pt ⟨m, y, hm, hy, hl⟩ => ?_
  rw [hδ] at hl
  refine Ok.bind (enc_spec R hN hs pt ct0 ω) fun r ⟨hr, e, he, hp⟩ => ?_
  refine Ok.bind (dec_spec hN hs r.1) fun pt' ⟨hpc, hp'⟩ => ?_
  have hsz : ∀ k, |((pt k).sval : ℝ)| ≤ B * 2^LOGDELTA * (1 + 1/2^40) + 2 := fun k => code_size (by omega) hz hm hl (hy k).2
  have hsv : ∀ k, (pt' k).sval = (pt k).sval + e k := by
    intro k
    have a1 : |(pt k).sval + e k| < 2^(LOGQ-1) := by
      have b1 := hsz k
      have b2 : |(e k : ℝ)| ≤ 8 := by exact_mod_cast he k
      have b3 := abs_add_le ((pt k).sval : ℝ) (e k)
      have b4 : |((pt k).sval : ℝ) + e k| < 2^(LOGQ-1) := by linarith
      exact_mod_cast b4
    have a2 := abs_lt.1 a1
    refine sval_eq_of_cls ?_ a2.1.le a2.2
    have a3 : R_Q.cls pt' = red LOGQ (R_Q.sval pt + e) := by rw [hp', hp, cls_red_sval, red_add]
    exact congrFun a3 k
  refine Ok.mono (code_out (n := n) hL (by omega) (by omega) hQ (by omega) hz hw hm hl pt' hpc (E := 17/2) (fun k => ?_)
    (by norm_num)) fun z' h i => ?_
  · rw [hsv k]
    have b1 := (hy k).2
    have b2 : |(e k : ℝ)| ≤ 8 := by exact_mod_cast he k
    have b3 := abs_add_le ((pt k).sval - y k) (e k : ℝ)
    push_cast
    rw [show ((pt k).sval : ℝ) + e k - y k = (pt k).sval - y k + e k by ring]
    linarith
  refine (h i).trans (le_of_eq ?_)
  show _ = 17 * 2^n / 2^LOGDELTA * (1 + 1/2^40) + Real.sqrt 2 ^ n * ((56 * (((n+1 : ℕ) : ℝ) - 1) + 15) / 2^53 * B) + 1/2^900
  rw [uF_eq]
  push_cast
  ring

/-- C73: the bound 1/2 of exact arithmetic does not survive. A `Delta` of more than 53 bits is rounded before the product, so the coefficient 1
becomes an integer other than `Delta`. -/
theorem C73_delta_rounded (hQ : 55 ≤ LOGQ) :
    Ok (encodeCoeffF LOGQ (BitVec.ofNat 64 (2^53 + 1)) 1) fun p => p.Canonical ∧ p.sval = 2^53 := by
  have hf : fl ((2^53 + 1 : ℕ) : ℝ) = pure (2^53) := by
    have hlog : Int.log 2 |((2^53 + 1 : ℕ) : ℝ)| = 53 := by
      rw [abs_of_nonneg (Nat.cast_nonneg _), Int.log_natCast]
      have : Nat.log 2 (2^53 + 1) = 53 := by rw [Nat.log_eq_iff] <;> norm_num
      rw [this]
      rfl
    have hu : ulpExp ((2^53 + 1 : ℕ) : ℝ) = 1 := by
      unfold ulpExp
      rw [hlog]
      norm_num
    have hr : rnd ((2^53 + 1 : ℕ) : ℝ) = 2^53 := by
      unfold rnd
      rw [hu]
      have hfl : ⌊((2^53 + 1 : ℕ) : ℝ) / 2^(1:ℤ)⌋ = 2^52 := by
        rw [Int.floor_eq_iff]
        norm_num
      have : roundEven (((2^53 + 1 : ℕ) : ℝ) / 2^(1:ℤ)) = 2^52 := by
        unfold roundEven
        rw [hfl]
        norm_num
      rw [this]
      norm_num
    unfold fl
    rw [hr, if_pos]
    rw [abs_of_pos (by norm_num)]
    exact pow_lt_pow_right₀ (by norm_num) (by norm_num)
  have ht : (BitVec.ofNat 64 (2^53 + 1)).toNat = 2^53 + 1 := rfl
  have hf2 : fl (|(1:ℝ)| * 2^53) = pure (2^53) := by
    have := fl_exact (x := 2^53) (k := 1) (e := 53) (by norm_num) (by norm_num) (by norm_num) (by norm_num)
    rw [abs_one, one_mul]
    exact this
  have hc : cround ((2:ℝ)^53) = 2^53 := by
    have : ⌊(2:ℝ)^53 + 1/2⌋ = 2^53 := by
      rw [Int.floor_eq_iff]
      norm_num
    unfold cround
    rw [if_pos (by norm_num), this]
  unfold encodeCoeffF
  rw [ht, hf, pure_bind, hf2, pure_bind, hc]
  refine Ok.mono (signedW_spec (v := 2^53) (by norm_num) (by norm_num) ((1:ℝ) < 0)) fun p hp => ?_
  have h55 : (2:ℤ)^53 < 2^(LOGQ-1) := pow_lt_pow_right₀ (by norm_num) (by omega)
  have := hp h55
  rw [if_neg (by norm_num)] at this
  exact this

/-! ### The hypotheses are met -/

/-- The shape of the drivers: `LOGN = 17`, `LOGQ = 1200`, scale `2^50`, slots of modulus at most 1. Every slot comes back within `2^-29`. -/
example (R : Nat) (z : CVec 17) (hz : ∀ i : Fin (2^16), ‖(⟨z.1 i, z.2 i⟩ : ℂ)‖ ≤ 1) (s : Fin (2^17) → Int) (hs : Ternary s)
    (ct0 : R_Q_square 1200 (2^17)) (ω : Rng) :
    Ok (do
      let pt ← encodeF exactLibm 1200 z (BitVec.ofNat 64 (2^50))
      let r ← enc R pt s ct0 ω
      let pt ← dec r.1 s
      decode_logF exactLibm pt (50 : ℕ)) fun z' => ∀ i : Fin (2^16), ‖(⟨z'.1 i, z'.2 i⟩ : ℂ) - ⟨z.1 i, z.2 i⟩‖ ≤ 1/2^29 := by
  refine Ok.mono (C73_fresh exactLibm_accurate R (by norm_num) (by norm_num) (by norm_num) 50 (by norm_num) z 1 hz (by norm_num)
    ?_ s hs ct0 ω) fun z' h i => (h i).trans ?_
  · exact le_trans (b := (2:ℝ)^60) (by norm_num) (pow_le_pow_right₀ (by norm_num) (by norm_num))
  · have h2 : (1:ℝ)/2^900 ≤ 1/2^60 := one_div_le_one_div_of_le (by positivity) (pow_le_pow_right₀ (by norm_num) (by norm_num))
    have h3 : Real.sqrt 2 ^ 16 = 2^8 := by rw [show 16 = 2 * 8 by norm_num, pow_mul, Real.sq_sqrt (by norm_num)]
    refine (add_le_add le_rfl h2).trans ?_
    show 17 * 2^16 / 2^50 * (1 + 1/2^40) + Real.sqrt 2 ^ 16 * ((56 * (((17:ℕ):ℝ) - 1) + 15) / 2^53 * 1) + 1/2^60 ≤ 1/2^29
    rw [h3]
    norm_num

/-- a coefficient that `decode` cannot take and `decode_log` can, at a scale of `2^200` -/
example : ∃ x : Z_Q 1200, x.Canonical ∧ 2^1024 ≤ |x.sval| ∧ |(x.sval : ℝ)| ≤ 2^900 * 2^200 := by
  obtain ⟨x, hc, hx⟩ := exists_val (Q := 1200) (v := 2^1030) (Nat.pow_lt_pow_right (by norm_num) (by norm_num))
  have hs : x.sval = 2^1030 := by
    rw [sval_canonical hc, hx, if_neg (not_le.2 (Nat.pow_lt_pow_right (by norm_num) (by norm_num)))]
    push_cast
    rfl
  refine ⟨x, hc, ?_, ?_⟩
  · rw [hs, abs_of_pos (by positivity)]
    exact pow_le_pow_right₀ (by norm_num) (by norm_num)
  · rw [hs]
    push_cast
    rw [abs_of_pos (by positivity), ← pow_add]
    exact pow_le_pow_right₀ (by norm_num) (by norm_num)

/-- the messages and keys exist -/
example : Ternary (fun _ : Fin (2^17) => (1 : Int)) ∧ ‖(⟨0, 1⟩ : ℂ)‖ ≤ 1 := by
  refine ⟨fun k => by simp, ?_⟩
  have : (⟨0, 1⟩ : ℂ) = Complex.I := rfl
  rw [this, Complex.norm_I]

end

end EvalRound

import Verif.Model.FloatDriver
import Verif.Props.Driver
import Verif.Props.FloatMat
import Verif.Props.Ieee
import Verif.Proofs.FloatDecode

/-!
# The drivers in binary64: the numbers printed and the test message
-/

namespace EvalRound
open Z_Q Finset

/-! ## maxima -/

theorem forUp_maxF {n : Nat} {f : Nat → ℝ → M ℝ} {a : Fin n → ℝ} (ha : ∀ i, 0 ≤ a i) {c η : ℝ} (hc : 0 ≤ c) (hη : 0 ≤ η)
    (hf : ∀ i (h : i < n) m, 0 ≤ m → Ok (f i m) fun r => ∃ x, 0 ≤ x ∧ r = max m x ∧ |x - a ⟨i, h⟩| ≤ c * a ⟨i, h⟩ + η)
    {A : ℝ} (hA : ∀ i, a i ≤ A) (hA0 : 0 < n → ∃ i, A = a i) (hA1 : n = 0 → A = 0) :
    Ok (forUp 0 n f 0) fun m => |m - A| ≤ c * A + η := by
  have hA0' : 0 ≤ A := by
    rcases Nat.eq_zero_or_pos n with h | h
    · rw [hA1 h]
    · obtain ⟨i, hi⟩ := hA0 h
      rw [hi]; exact ha i
  have hcA : 0 ≤ c * A := mul_nonneg hc hA0'
  refine Ok.mono (forUp_inv (Nat.zero_le _)
    (fun k m => 0 ≤ m ∧ m ≤ A + (c * A + η) ∧ ∀ j : Fin n, j.val < k → a j - (c * a j + η) ≤ m)
    ⟨le_refl _, by linarith, fun j hj => by omega⟩ fun i m _ hi ⟨h0, h1, h2⟩ => ?_) fun m ⟨h0, h1, h2⟩ => ?_
  · refine Ok.mono (hf i hi m h0) fun r ⟨x, hx0, hr, hx⟩ => ?_
    rw [hr]
    have hx' := abs_le.1 hx
    have hAi := hA ⟨i, hi⟩
    have hci := mul_le_mul_of_nonneg_left hAi hc
    refine ⟨h0.trans (le_max_left _ _), max_le h1 (by linarith [hx'.2]), fun j hj => ?_⟩
    by_cases e : j.val = i
    · have : j = ⟨i, hi⟩ := Fin.ext e
      rw [this]
      exact le_trans (by linarith [hx'.1]) (le_max_right _ _)
    · exact (h2 j (by omega)).trans (le_max_left _ _)
  · rw [abs_le]
    refine ⟨?_, by linarith⟩
    rcases Nat.eq_zero_or_pos n with h | h
    · rw [hA1 h] at hcA ⊢
      linarith
    · obtain ⟨i, hi⟩ := hA0 h
      have := h2 i i.isLt
      rw [hi]; linarith

/-! ## the sup norm of the error -/

theorem toDoubleF_abs {LT : Nat} [NeZero LT] (x : Z_Q LT) : ∃ r, toDoubleF x = pure r ∧
    fl (((if (copy x).is_bigger_than_halfQ then negate (copy x) else copy x).data (bot LT)).toNat : ℝ) = pure |r| ∧
    |(|r|) - ((if (copy x).is_bigger_than_halfQ then negate (copy x) else copy x).data (bot LT)).toNat| ≤
      1.0001 * uF * ((if (copy x).is_bigger_than_halfQ then negate (copy x) else copy x).data (bot LT)).toNat := by
  unfold toDoubleF
  dsimp only
  obtain ⟨r, e, h0, h⟩ := fl_word ((if (copy x).is_bigger_than_halfQ then negate (copy x) else copy x).data (bot LT))
  rw [e, pure_bind]
  have hr : |r| = r := abs_of_nonneg h0
  generalize (copy x).is_bigger_than_halfQ = b at *
  cases b
  · exact ⟨r, rfl, by rw [hr], by rw [hr]; exact h⟩
  · refine ⟨-r, ?_, by rw [abs_neg, hr], by rw [abs_neg, hr]; exact h⟩
    have := C74_neg (C74_exact (C74_representable e))
    rw [if_pos rfl, mul_neg_one, this]

theorem divDeltaF_near {v w : ℝ} (hw0 : 0 ≤ w) (hw1 : w ≤ 2^64) (hv0 : 0 ≤ v) (hv : |v - w| ≤ 1.0001 * uF * w) {Delta : W} (hD : Delta ≠ 0) :
    Ok (divDeltaF v Delta) fun r => 0 ≤ r ∧ |r - w / Delta.toNat| ≤ 4 * uF * (w / Delta.toNat) + etaF := by
  have hu := uF_pos
  have hu2 := uF_le
  have hΔ1 : (1:ℝ) ≤ Delta.toNat := by
    have : Delta.toNat ≠ 0 := fun h => hD (BitVec.eq_of_toNat_eq (by simpa using h))
    exact_mod_cast Nat.pos_of_ne_zero this
  unfold divDeltaF
  refine Ok.bind (fl_word Delta) fun d ⟨_, hd⟩ => ?_
  generalize (Delta.toNat : ℝ) = Δ at *
  obtain ⟨a, ha⟩ : ∃ a, a = w / Δ := ⟨_, rfl⟩
  have hΔ0 : 0 < Δ := by linarith
  have hw : w = a * Δ := by rw [ha]; field_simp
  have ha0 : 0 ≤ a := by rw [ha]; positivity
  rw [← ha]
  have hd' := abs_le.1 hd
  have hv' := abs_le.1 hv
  have huΔ : 0 ≤ uF * Δ := by positivity
  have hd1 : (1 - 1.0001 * uF) * Δ ≤ d := by linarith [hd'.1]
  have hd2 : d ≤ (1 + 1.0001 * uF) * Δ := by linarith [hd'.2]
  have hdpos : 0 < d := lt_of_lt_of_le (mul_pos (by linarith) hΔ0) hd1
  rw [if_neg hdpos.ne']
  have k1 : v / d ≤ a * (1 + 2.1 * uF) := by
    rw [div_le_iff₀ hdpos]
    have e1 : a * (1 + 2.1 * uF) * ((1 - 1.0001 * uF) * Δ) ≤ a * (1 + 2.1 * uF) * d := mul_le_mul_of_nonneg_left hd1 (by positivity)
    have e2 : v ≤ a * Δ * (1 + 1.0001 * uF) := by rw [hw] at hv'; linarith [hv'.2]
    have e3 : a * Δ * (1 + 1.0001 * uF) ≤ a * Δ * ((1 + 2.1 * uF) * (1 - 1.0001 * uF)) := by
      refine mul_le_mul_of_nonneg_left ?_ (by positivity)
      nlinarith
    linarith
  have k2 : a * (1 - 2.1 * uF) ≤ v / d := by
    rw [le_div_iff₀ hdpos]
    have e1 : a * (1 - 2.1 * uF) * d ≤ a * (1 - 2.1 * uF) * ((1 + 1.0001 * uF) * Δ) :=
      mul_le_mul_of_nonneg_left hd2 (mul_nonneg ha0 (by linarith))
    have e2 : a * Δ * (1 - 1.0001 * uF) ≤ v := by rw [hw] at hv'; linarith [hv'.1]
    have e3 : a * Δ * ((1 - 2.1 * uF) * (1 + 1.0001 * uF)) ≤ a * Δ * (1 - 1.0001 * uF) := by
      refine mul_le_mul_of_nonneg_left ?_ (by positivity)
      nlinarith
    linarith
  have ha64 : a ≤ 2^64 := by
    rw [ha]
    exact (div_le_self hw0 hΔ1).trans hw1
  have hau : 0 ≤ a * uF := by positivity
  have hau2 : a * uF ≤ a * (1/10^9) := mul_le_mul_of_nonneg_left hu2 ha0
  have hq : v / d ≤ 2^65 := by
    refine k1.trans ?_
    norm_num at ha64 ⊢
    linarith
  refine Ok.mono (fl_near0 (div_nonneg hv0 hdpos.le) (big_le (a := 65) (by norm_num) hq)) fun r ⟨hr0, hr⟩ => ⟨hr0, ?_⟩
  have k3 := mul_le_mul_of_nonneg_left k1 hu.le
  have k4 : uF * (a * (1 + 2.1 * uF)) ≤ 1.1 * (a * uF) := by
    have : a * uF * (2.1 * uF) ≤ a * uF * 0.1 := mul_le_mul_of_nonneg_left (by linarith) hau
    linarith
  have hr' := abs_le.1 hr
  rw [abs_le]
  constructor <;> linarith [hr'.1, hr'.2]

/-- `2^53+1` is halfway between two numbers of binary64 -/
theorem fl_odd53 : fl ((2^53 + 1 : ℕ) : ℝ) = pure (2^53) := by
  have hlog : Int.log 2 |((2^53 + 1 : ℕ) : ℝ)| = 53 := by
    rw [abs_of_nonneg (Nat.cast_nonneg _), Int.log_natCast]
    have : Nat.log 2 (2^53 + 1) = 53 := by rw [Nat.log_eq_iff] <;> norm_num
    rw [this]
    rfl
  have hu : ulpExp ((2^53 + 1 : ℕ) : ℝ) = 1 := by
    unfold ulpExp
    rw [hlog]
    norm_num
  have hr : rnd ((2^53 + 1 : ℕ) : ℝ) = 2^53 := by
    unfold rnd
    rw [hu]
    have hfl : ⌊((2^53 + 1 : ℕ) : ℝ) / 2^(1:ℤ)⌋ = 2^52 := by
      rw [Int.floor_eq_iff]
      norm_num
    have : roundEven (((2^53 + 1 : ℕ) : ℝ) / 2^(1:ℤ)) = 2^52 := by
      unfold roundEven
      rw [hfl]
      norm_num
    rw [this]
    norm_num
  unfold fl
  rw [hr, if_pos]
  rw [abs_of_pos (by norm_num)]
  exact pow_lt_pow_right₀ (by norm_num) (by norm_num)

/-! ## the test message -/

theorem sqrt2_bounds : (1.414:ℝ) ≤ Real.sqrt 2 ∧ Real.sqrt 2 ≤ 1.415 :=
  ⟨Real.le_sqrt_of_sq_le (by norm_num), Real.sqrt_le_iff.2 ⟨by norm_num, by norm_num⟩⟩

/-- the slots of the exact test message -/
theorem test_message_norm' (LOGN : Nat) (i : Fin (2^(LOGN-1))) :
    ‖(⟨(set_test_message LOGN).1 i, (set_test_message LOGN).2 i⟩ : ℂ)‖ ≤ 0.8 := by
  have h3 : Real.sqrt 2 * Real.sqrt 2 = 2 := Real.mul_self_sqrt (by norm_num)
  rw [Complex.norm_def, Complex.normSq_mk, Real.sqrt_le_left (by norm_num)]
  unfold set_test_message
  simp only []
  generalize (i.val : ℝ) / (2^(LOGN-1) : Nat) * Real.pi = x
  have h4 := Real.sin_sq_add_cos_sq x
  have : Real.cos x / Real.sqrt 2 * (Real.cos x / Real.sqrt 2) + Real.sin x / Real.sqrt 2 * (Real.sin x / Real.sqrt 2) =
      (Real.sin x^2 + Real.cos x^2) / (Real.sqrt 2 * Real.sqrt 2) := by ring
  rw [this, h4, h3]; norm_num

theorem quot_sqrt2 {c c' s : ℝ} (hc : |c| ≤ 1) (hc' : |c' - c| ≤ 7 * uF) (hs : |s - Real.sqrt 2| ≤ 1.42 * uF) :
    Ok (fl (c' / s)) fun r => |r - c / Real.sqrt 2| ≤ 8 * uF := by
  have hu := uF_pos
  have hu2 := uF_le
  have hη := etaF_le_uF
  obtain ⟨t1, t2⟩ := sqrt2_bounds
  have hs' := abs_le.1 hs
  have hs1 : 1.413 ≤ s := by linarith [hs'.1]
  have hspos : 0 < s := by linarith
  have ht : 0 < Real.sqrt 2 := by linarith
  have k1 : |c' / s - c / Real.sqrt 2| ≤ 6.1 * uF := by
    have e : c' / s - c / Real.sqrt 2 = ((c' - c) + c / Real.sqrt 2 * (Real.sqrt 2 - s)) / s := by
      field_simp; ring
    rw [e, abs_div, abs_of_pos hspos, div_le_iff₀ hspos]
    have e1 : |c / Real.sqrt 2| ≤ 1 := by
      rw [abs_div, abs_of_pos ht, div_le_one ht]; linarith
    have e2 : |c / Real.sqrt 2 * (Real.sqrt 2 - s)| ≤ 1 * (1.42 * uF) := by
      rw [abs_mul]
      exact mul_le_mul e1 (by rw [abs_sub_comm]; exact hs) (abs_nonneg _) (by norm_num)
    have e3 := abs_add_le (c' - c) (c / Real.sqrt 2 * (Real.sqrt 2 - s))
    have e4 : 6.1 * uF * 1.413 ≤ 6.1 * uF * s := mul_le_mul_of_nonneg_left hs1 (by positivity)
    linarith
  have e1 : |c / Real.sqrt 2| ≤ 0.71 := by
    rw [abs_div, abs_of_pos ht, div_le_iff₀ ht]; linarith
  have k2 : |c' / s| ≤ 1 := by
    have := abs_add_le (c' / s - c / Real.sqrt 2) (c / Real.sqrt 2)
    rw [sub_add_cancel] at this
    linarith
  refine Ok.mono (fl_near (big_le (a := 0) (by norm_num) (by rw [pow_zero]; exact k2))) fun r hr => ?_
  have k3 := mul_le_mul_of_nonneg_left k2 hu.le
  have k4 := abs_add_le (r - c' / s) (c' / s - c / Real.sqrt 2)
  rw [sub_add_sub_cancel] at k4
  linarith

theorem test_angle {LOGN : Nat} (hn : LOGN ≤ 27) {i : Nat} (hi : i < 2^(LOGN-1)) :
    Ok (fl ((i:ℝ) / (2^(LOGN-1) : Nat)) >>= fun q => fl (q * PI64)) fun x =>
      |x| ≤ 7 ∧ |x - (i:ℝ) / (2^(LOGN-1) : Nat) * Real.pi| ≤ 5 * uF := by
  have hu := uF_pos
  have hu2 := uF_le
  have hη := etaF_le_uF
  have hi' : i < 2^53 := lt_of_lt_of_le hi (Nat.pow_le_pow_right (by norm_num) (by omega))
  have e : fl ((i:ℝ) / (2^(LOGN-1) : Nat)) = pure ((i:ℝ) / (2^(LOGN-1) : Nat)) := by
    refine fl_exact (k := i) (e := -((LOGN-1 : ℕ) : ℤ)) ?_ (by omega) (by omega) ?_
    · rw [abs_of_nonneg (by positivity)]; exact_mod_cast hi'
    · rw [zpow_neg, zpow_natCast]; push_cast; rw [div_eq_mul_inv]
  rw [e, pure_bind]
  have hq0 : (0:ℝ) ≤ (i:ℝ) / (2^(LOGN-1) : Nat) := by positivity
  have hq1 : (i:ℝ) / (2^(LOGN-1) : Nat) ≤ 1 := by
    rw [div_le_one (by positivity)]; exact_mod_cast hi.le
  generalize (i:ℝ) / (2^(LOGN-1) : Nat) = q at *
  have hp := PI64_err
  have hp' := abs_le.1 hp
  have g1 := Real.pi_gt_three
  have g2 := Real.pi_lt_d2
  have hP0 : 0 ≤ PI64 := by linarith [hp'.1]
  have hP1 : PI64 ≤ 3.16 := by linarith [hp'.2]
  have k1 : q * PI64 ≤ 3.16 := (mul_le_of_le_one_left hP0 hq1).trans hP1
  have k0 : 0 ≤ q * PI64 := mul_nonneg hq0 hP0
  refine Ok.mono (fl_near0 k0 (big_le (a := 2) (by norm_num) (by linarith))) fun x ⟨hx0, hx⟩ => ?_
  have k2 : |q * PI64 - q * Real.pi| ≤ 1.104 * uF := by
    rw [← mul_sub, abs_mul, abs_of_nonneg hq0]
    exact (mul_le_of_le_one_left (abs_nonneg _) hq1).trans hp
  have k3 := abs_add_le (x - q * PI64) (q * PI64 - q * Real.pi)
  rw [sub_add_sub_cancel] at k3
  have k4 := mul_le_mul_of_nonneg_left k1 hu.le
  have hx' := abs_le.1 hx
  refine ⟨?_, by linarith⟩
  rw [abs_of_nonneg hx0]
  linarith [hx'.2]

theorem test_messageF_near {L : Libm} (hL : L.Accurate) {LOGN : Nat} (hn : LOGN ≤ 27) :
    Ok (set_test_messageF L LOGN) fun z => ∀ i : Fin (2^(LOGN-1)),
      |z.1 i - (set_test_message LOGN).1 i| ≤ 8 * uF ∧ |z.2 i - (set_test_message LOGN).2 i| ≤ 8 * uF := by
  have hu := uF_pos
  have hη := etaF_le_uF
  unfold set_test_messageF set_test_message
  refine Ok.bind (tabM_spec (P := fun i (p : ℝ × ℝ) => |p.1 - Real.cos ((i : ℝ) / (2^(LOGN-1) : Nat) * Real.pi) / Real.sqrt 2| ≤ 8 * uF ∧
      |p.2 - Real.sin ((i : ℝ) / (2^(LOGN-1) : Nat) * Real.pi) / Real.sqrt 2| ≤ 8 * uF) fun i hi => ?_)
    fun t ht => Ok.pure fun i => ht i
  obtain ⟨x, ex, hx7, hx⟩ := test_angle hn hi
  obtain ⟨q, eq, ex⟩ := bind_eq_pure ex
  rw [eq, pure_bind, ex, pure_bind]
  generalize (i : ℝ) / (2^(LOGN-1) : Nat) * Real.pi = y at *
  obtain ⟨c1, c2⟩ := hL x hx7
  have hl : (1:ℝ)/2^52 = 2 * uF := by rw [uF_eq]; norm_num
  rw [hl] at c1 c2
  obtain ⟨t1, t2⟩ := sqrt2_bounds
  refine Ok.bind (fl_near0 (x := Real.sqrt 2) (by linarith) (big_le (a := 1) (by norm_num) (by linarith))) fun s ⟨_, hs⟩ => ?_
  have hs' : |s - Real.sqrt 2| ≤ 1.42 * uF := by
    have := mul_le_mul_of_nonneg_left t2 hu.le
    linarith
  have d1 : |L.cos x - Real.cos y| ≤ 7 * uF := by
    have e1 := abs_add_le (L.cos x - Real.cos x) (Real.cos x - Real.cos y)
    rw [sub_add_sub_cancel] at e1
    have e2 := Real.abs_cos_sub_cos_le x y
    linarith
  have d2 : |L.sin x - Real.sin y| ≤ 7 * uF := by
    have e1 := abs_add_le (L.sin x - Real.sin x) (Real.sin x - Real.sin y)
    rw [sub_add_sub_cancel] at e1
    have e2 := Real.abs_sin_sub_sin_le x y
    linarith
  refine Ok.bind (quot_sqrt2 (Real.abs_cos_le_one y) d1 hs') fun a ha => ?_
  refine Ok.bind (quot_sqrt2 (Real.abs_sin_le_one y) d2 hs') fun b hb => Ok.pure ⟨ha, hb⟩

end EvalRound

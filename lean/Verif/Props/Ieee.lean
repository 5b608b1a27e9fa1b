import Verif.Proofs.Ieee
import Verif.Proofs.FloatTable

/-!
# C74: the rounding of the binary64 model is that of IEEE 754

`fl x` is the result of an operation of `double` whose exact result is `x`. `Binary64` is the set of finite numbers of the format.
-/

namespace EvalRound

/-- C74: the result is a number of the format. -/
theorem C74_representable {x r : ℝ} (h : fl x = pure r) : Binary64 r := by
  obtain ⟨rfl, h2⟩ := fl_eq h
  exact rnd_binary64 h2

/-- C74: no number of the format is nearer. -/
theorem C74_nearest {x r : ℝ} (h : fl x = pure r) {y : ℝ} (hy : Binary64 y) : |r - x| ≤ |y - x| := by
  obtain ⟨rfl, _⟩ := fl_eq h
  obtain ⟨m, e, h1, h2, _, h4⟩ := hy
  exact rnd_nearest h1 h2 h4

/-- C74: between two nearest numbers the even one is taken. The last bit of a number counts the distance to the other. -/
theorem C74_even {x r : ℝ} (h : fl x = pure r) {y : ℝ} (hy : Binary64 y) (hne : y ≠ r) (ht : |y - x| = |r - x|) :
    ∃ k : ℤ, r = 2 * k * |y - r| := by
  obtain ⟨rfl, _⟩ := fl_eq h
  obtain ⟨m, e, h1, h2, _, h4⟩ := hy
  exact rnd_tie h1 h2 h4 hne ht

/-- C74: numbers of the format are results that need no rounding. -/
theorem C74_exact {x : ℝ} (h : Binary64 x) : fl x = pure x := by
  unfold fl
  rw [h.rnd, if_pos h.lt]

/-- C74: an operation overflows exactly from half a unit above the largest number on. -/
theorem C74_overflow (x : ℝ) : fl x = ub ↔ 2^1024 - 2^970 ≤ |x| := by
  have hub : fl x = ub ↔ 2^1024 ≤ |rnd x| := by
    unfold fl
    split
    · rename_i g
      refine ⟨fun h => ?_, fun h => absurd g (not_lt.2 h)⟩
      cases h
    · rename_i g
      exact ⟨fun _ => not_lt.1 g, fun _ => rfl⟩
  rw [hub]
  have key : ∀ x : ℝ, 0 ≤ x → (2^1024 ≤ |rnd x| ↔ 2^1024 - 2^970 ≤ x) := by
    intro x hx
    have h0 : 0 ≤ rnd x := by
      have := rnd_nearest (x := x) (y := 0) (m := 0) (e := 0) (by norm_num) (by norm_num) (by norm_num)
      rw [zero_sub, abs_neg, abs_of_nonneg hx] at this
      have := (abs_le.1 this).1
      linarith
    rw [abs_of_nonneg h0]
    have hT : (2:ℝ)^1024 = 2^54 * 2^970 := by rw [← pow_add]
    have hz : (2:ℝ)^(971:ℤ) = 2 * 2^970 := by
      rw [show (971:ℤ) = ((970 + 1 : ℕ) : ℤ) by norm_num, zpow_natCast, pow_succ]; ring
    have hz2 : (2:ℝ)^(972:ℤ) = 4 * 2^970 := by
      rw [show (972:ℤ) = ((970 + 2 : ℕ) : ℤ) by norm_num, zpow_natCast, pow_add]; ring
    have n1 := rnd_nearest (x := x) (y := (2^54 - 2) * 2^970) (m := 2^53 - 1) (e := 971) (by norm_num) (by norm_num)
      (by rw [hz]; push_cast; ring)
    have n2 := rnd_nearest (x := x) (y := 2^54 * 2^970) (m := 2^52) (e := 972) (by norm_num) (by norm_num)
      (by rw [hz2]; push_cast; ring)
    have n3 := rnd_tie (x := x) (y := 2^54 * 2^970) (m := 2^52) (e := 972) (by norm_num) (by norm_num)
      (by rw [hz2]; push_cast; ring)
    have hpos : (0:ℝ) < 2^970 := by positivity
    -- the largest number of the format
    have hle : rnd x < 2^54 * 2^970 → rnd x ≤ (2^54 - 2) * 2^970 := by
      intro hc
      have hb : |rnd x| < 2^1024 := by rw [abs_of_nonneg h0, hT]; exact hc
      obtain ⟨m, e, hm, he, he2, hme⟩ := rnd_binary64 hb
      rw [hme]
      have g1 : (m:ℝ) ≤ 2^53 - 1 := by
        have : m ≤ 2^53 - 1 := by have := (abs_lt.1 hm).2; omega
        exact_mod_cast this
      have g2 : (2:ℝ)^e ≤ 2 * 2^970 := by rw [← hz]; exact zpow_le_zpow_right₀ (by norm_num) he2
      calc (m:ℝ) * 2^e ≤ (2^53 - 1) * 2^e := mul_le_mul_of_nonneg_right g1 (by positivity)
        _ ≤ (2^53 - 1) * (2 * 2^970) := mul_le_mul_of_nonneg_left g2 (by norm_num)
        _ = _ := by ring
    rw [hT]
    clear hT hz hz2 hub
    generalize (2:ℝ)^970 = T at *
    generalize rnd x = r at *
    constructor
    · intro h
      by_contra hc
      have hc := not_le.1 hc
      rw [abs_of_nonneg (a := r - x) (by linarith)] at n1
      rcases le_or_gt ((2^54 - 2) * T) x with g | g
      · rw [abs_of_nonpos (by linarith)] at n1
        linarith
      · rw [abs_of_pos (by linarith)] at n1
        linarith
    · intro h
      by_contra hc
      have hc := not_le.1 hc
      have hle := hle hc
      rw [abs_of_nonpos (a := r - x) (by linarith)] at n2
      rcases le_or_gt (2^54 * T) x with g | g
      · rw [abs_of_nonpos (by linarith)] at n2
        linarith
      · have g' : |2^54 * T - x| = 2^54 * T - x := abs_of_pos (by linarith)
        rw [g'] at n2
        have hxe : x = 2^54 * T - T := by linarith
        have hre : r = (2^54 - 2) * T := by linarith
        obtain ⟨j, hj⟩ := n3 (by rw [hre]; intro h; linarith) (by
          rw [g', abs_of_nonpos (a := r - x) (by linarith), hre]; linarith)
        rw [hre, show (2:ℝ)^54 * T - (2^54 - 2) * T = 2 * T by ring, abs_of_pos (by linarith)] at hj
        have hj2 : ((2:ℝ)^54 - 2) = 4 * j := by
          have : ((2:ℝ)^54 - 2) * T = (4 * j) * T := by linarith
          exact mul_right_cancel₀ hpos.ne' this
        have hj3 : (2:ℤ)^54 - 2 = 4 * j := by exact_mod_cast hj2
        omega
  rcases le_total 0 x with hx | hx
  · rw [key x hx, abs_of_nonneg hx]
  · have := key (-x) (by linarith)
    rw [rnd_neg, abs_neg] at this
    rw [this, abs_of_nonpos hx]

/-- C74: rounding keeps the order. -/
theorem C74_mono {x y a b : ℝ} (hx : fl x = pure a) (hy : fl y = pure b) (h : x ≤ y) : a ≤ b := by
  by_contra hc
  have hc := not_le.1 hc
  have h1 := C74_nearest hx (C74_representable hy)
  have h2 := C74_nearest hy (C74_representable hx)
  have h3 : x ≥ (a + b) / 2 := by
    by_contra g
    have g := not_le.1 g
    rw [abs_of_pos (by linarith)] at h1
    rcases abs_cases (b - x) with ⟨e, _⟩ | ⟨e, _⟩ <;> rw [e] at h1 <;> linarith
  have h4 : y ≤ (a + b) / 2 := by
    by_contra g
    have g := not_le.1 g
    rw [abs_of_neg (a := b - y) (by linarith)] at h2
    rcases abs_cases (a - y) with ⟨e, _⟩ | ⟨e, _⟩ <;> rw [e] at h2 <;> linarith
  have e : x = y := by linarith
  rw [e, hy] at hx
  have := pure_inj hx
  linarith

/-- C74: rounding commutes with the sign. -/
theorem C74_neg {x r : ℝ} (h : fl x = pure r) : fl (-x) = pure (-r) := by
  obtain ⟨rfl, h2⟩ := fl_eq h
  unfold fl
  rw [rnd_neg, abs_neg, if_pos h2]

/-- C74: the conversion of an integer of at most 53 bits is exact. -/
theorem C74_word {w : Nat} (h : w ≤ 2^53) : fl (w : ℝ) = pure (w : ℝ) := by
  rcases lt_or_eq_of_le h with h | rfl
  · refine C74_exact ⟨w, 0, ?_, by norm_num, by norm_num, by norm_num⟩
    rw [abs_of_nonneg (by positivity)]
    exact_mod_cast h
  · exact C74_exact ⟨1, 53, by norm_num, by norm_num, by norm_num, by norm_num⟩

/-- C74: the macro `PI` is the number of the format nearest to π. -/
theorem C74_pi : Binary64 PI64 ∧ ∀ y, Binary64 y → |PI64 - Real.pi| ≤ |y - Real.pi| := by
  refine ⟨⟨884279719003555, -48, by norm_num, by norm_num, by norm_num, ?_⟩, fun y ⟨m, e, h1, h2, _, h4⟩ => ?_⟩
  · rw [PI64_eq, zpow_neg]
    norm_num
  · have hr : rnd Real.pi = PI64 := by
      have h3 := Real.pi_gt_three
      have h4 := Real.pi_lt_four
      have hl : Int.log 2 |Real.pi| = 1 := by
        rw [abs_of_pos Real.pi_pos]
        apply le_antisymm
        · have := (Int.lt_zpow_iff_log_lt (b := 2) (R := ℝ) (by norm_num) Real.pi_pos (x := 2)).1 (by norm_num; linarith)
          omega
        · exact (Int.zpow_le_iff_le_log (b := 2) (R := ℝ) (by norm_num) Real.pi_pos).1 (by norm_num; linarith)
      have hu : ulpExp Real.pi = -51 := by unfold ulpExp; rw [hl]; norm_num
      have hk : roundEven (Real.pi / 2^(-51:ℤ)) = 7074237752028440 := by
        have e1 := PI64_err
        rw [PI64_eq, uF_eq] at e1
        have e2 : Real.pi / 2^(-51:ℤ) = Real.pi * 2^51 := by rw [zpow_neg, div_inv_eq_mul]; norm_num
        rw [e2]
        have e3 : |(7074237752028440:ℝ) - Real.pi * 2^51| ≤ 0.276 := by
          have : (7074237752028440:ℝ) - Real.pi * 2^51 = (884279719003555 / 2^48 - Real.pi) * 2^51 := by ring
          rw [this, abs_mul, abs_of_pos (by norm_num : (0:ℝ) < 2^51)]
          calc _ ≤ 1.104 * (1/2^53) * 2^51 := mul_le_mul_of_nonneg_right e1 (by norm_num)
            _ ≤ _ := by norm_num
        have e4 := roundEven_err (Real.pi * 2^51)
        have e5 := roundEven_nearest (Real.pi * 2^51) 7074237752028440
        rw [show ((7074237752028440 : ℤ) : ℝ) = 7074237752028440 by norm_num] at e5
        have e6 := abs_sub_le (roundEven (Real.pi * 2^51) : ℝ) (Real.pi * 2^51) 7074237752028440
        rw [abs_sub_comm (Real.pi * 2^51)] at e6
        have e7 : |((roundEven (Real.pi * 2^51) : ℤ) : ℝ) - 7074237752028440| < 1 :=
          lt_of_le_of_lt (e6.trans (add_le_add (e5.trans e3) e3)) (by norm_num)
        have e8 : |roundEven (Real.pi * 2^51) - 7074237752028440| < 1 := by exact_mod_cast e7
        have := Int.abs_lt_one_iff.1 e8
        omega
      unfold rnd
      rw [hu, hk, PI64_eq, zpow_neg]
      norm_num
    have := rnd_nearest (x := Real.pi) h1 h2 h4
    rwa [hr] at this

/-! ### The hypotheses are met -/

/-- a tie: `2^53 + 1` lies between `2^53` and `2^53 + 2` -/
example : ∃ r y : ℝ, fl (2^53 + 1) = pure r ∧ Binary64 y ∧ y ≠ r ∧ |y - (2^53 + 1)| = |r - (2^53 + 1)| := by
  have b1 : Binary64 (2^53) := ⟨1, 53, by norm_num, by norm_num, by norm_num, by norm_num⟩
  have b2 : Binary64 (2^53 + 2) := ⟨2^52 + 1, 1, by norm_num, by norm_num, by norm_num, by norm_num⟩
  have hno : fl (2^53 + 1) ≠ ub := by
    rw [Ne, C74_overflow, not_le, abs_of_pos (by norm_num)]
    have : (2:ℝ)^1023 + 2^1023 = 2^1024 := by rw [← two_mul, ← pow_succ']
    have h2 : (2:ℝ)^970 ≤ 2^1023 := pow_le_pow_right₀ (by norm_num) (by norm_num)
    have h3 : (2:ℝ)^54 ≤ 2^1023 := pow_le_pow_right₀ (by norm_num) (by norm_num)
    have h4 : (2:ℝ)^53 + 1 < 2^54 := by norm_num
    generalize (2:ℝ)^1023 = T at *
    generalize (2:ℝ)^970 = U at *
    generalize (2:ℝ)^1024 = V at *
    linarith
  obtain ⟨r, hr⟩ : ∃ r, fl (2^53 + 1) = pure r := by
    unfold fl at hno ⊢
    split
    · exact ⟨_, rfl⟩
    · rename_i g
      exact absurd (if_neg g) hno
  have d1 := C74_nearest hr b1
  rw [show |(2:ℝ)^53 - (2^53 + 1)| = 1 by norm_num] at d1
  obtain ⟨m, e, hm, he, _, hx⟩ := C74_representable hr
  have hne : |r - (2^53 + 1)| = 1 := by
    refine le_antisymm d1 ?_
    by_contra hc
    have hc := not_le.1 hc
    have h1 := abs_lt.1 hc
    -- between the two there is no number of 53 bits
    have g1 : (2:ℝ)^53 < r := by linarith [h1.1]
    have g2 : r < 2^53 + 2 := by linarith [h1.2]
    rw [hx] at g1 g2
    have hp : (0:ℝ) < 2^e := by positivity
    have hm1 : (m:ℝ) < 2^53 := by exact_mod_cast (abs_lt.1 hm).2
    have he1 : 1 ≤ e := by
      by_contra hlt
      have : (2:ℝ)^e ≤ 1 := zpow_le_one_of_nonpos₀ (by norm_num) (by omega)
      have hm0 : (0:ℝ) ≤ m := by
        by_contra hneg
        have := mul_neg_of_neg_of_pos (not_le.1 hneg) hp
        linarith
      nlinarith
    obtain ⟨k, rfl⟩ : ∃ k : ℕ, e = (k:ℤ) + 1 := ⟨(e - 1).toNat, by omega⟩
    rw [zpow_add_one₀ (by norm_num), zpow_natCast] at g1 g2
    have g3 : (2:ℤ)^52 < m * 2^k := by
      have : (2:ℝ)^52 < (m:ℝ) * 2^k := by linarith
      exact_mod_cast this
    have g4 : m * 2^k < (2:ℤ)^52 + 1 := by
      have : (m:ℝ) * 2^k < 2^52 + 1 := by linarith
      exact_mod_cast this
    omega
  by_cases h : r = 2^53
  · exact ⟨r, _, hr, b2, by rw [h]; norm_num, by rw [hne]; norm_num⟩
  · exact ⟨r, _, hr, b1, fun g => h g.symm, by rw [hne]; norm_num⟩

end EvalRound

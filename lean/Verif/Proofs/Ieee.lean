import Verif.Spec.Float
import Verif.Proofs.Float

/-! # Rounding to nearest, ties to even -/

namespace EvalRound

theorem ulpExp_ge (x : ℝ) : -1074 ≤ ulpExp x := le_max_right _ _

/-- 53 bits are enough -/
theorem ulpExp_lt {x : ℝ} (hx : x ≠ 0) : |x| < 2^53 * 2^ulpExp x := by
  have hx' : 0 < |x| := abs_pos.2 hx
  have h1 : |x| < (2:ℝ)^(Int.log 2 |x| + 1) := by
    have := Int.lt_zpow_succ_log_self (b := 2) (by norm_num) |x|
    exact_mod_cast this
  refine h1.trans_le ?_
  rw [← zpow_natCast, ← zpow_add₀ (by norm_num)]
  refine zpow_le_zpow_right₀ (by norm_num) ?_
  have := le_max_left (Int.log 2 |x| - 52) (-1074)
  unfold ulpExp
  push_cast
  linarith

/-- all 53 bits are needed, or the exponent is the smallest -/
theorem le_ulpExp {x : ℝ} (hx : x ≠ 0) : ulpExp x = -1074 ∨ 2^52 * 2^ulpExp x ≤ |x| := by
  have hx' : 0 < |x| := abs_pos.2 hx
  unfold ulpExp
  rcases max_cases (Int.log 2 |x| - 52) (-1074) with ⟨e, _⟩ | ⟨e, _⟩ <;> rw [e]
  · right
    have h2 : (2:ℝ)^(Int.log 2 |x|) ≤ |x| := by
      have := Int.zpow_log_le_self (b := 2) (by norm_num) hx'
      exact_mod_cast this
    rw [← zpow_natCast, ← zpow_add₀ (by norm_num)]
    push_cast
    rw [add_sub_cancel]
    exact h2
  · left; rfl

/-- no integer is nearer -/
theorem roundEven_nearest (x : ℝ) (k : ℤ) : |(roundEven x : ℝ) - x| ≤ |(k : ℝ) - x| := by
  have h := roundEven_err x
  by_cases hk : k = roundEven x
  · rw [hk]
  · have h1 : (1:ℝ) ≤ |(k : ℝ) - roundEven x| := by
      have : (1:ℤ) ≤ |k - roundEven x| := Int.one_le_abs (sub_ne_zero.2 hk)
      exact_mod_cast this
    have h2 := abs_sub_le (k : ℝ) x (roundEven x)
    rw [abs_sub_comm x] at h2
    linarith

/-- an integer as near as the rounding: the rounding is even -/
theorem roundEven_even {x : ℝ} {k : ℤ} (hk : k ≠ roundEven x) (h : |(k : ℝ) - x| = |(roundEven x : ℝ) - x|) :
    ∃ j : ℤ, roundEven x = 2 * j := by
  have h0 := roundEven_err x
  have h1 : (1:ℝ) ≤ |(k : ℝ) - roundEven x| := by
    have : (1:ℤ) ≤ |k - roundEven x| := Int.one_le_abs (sub_ne_zero.2 hk)
    exact_mod_cast this
  have h2 := abs_sub_le (k : ℝ) x (roundEven x)
  rw [abs_sub_comm x, h] at h2
  have h3 : |(roundEven x : ℝ) - x| = 1/2 := le_antisymm h0 (by linarith)
  have f1 := Int.floor_le x
  have f2 := Int.lt_floor_add_one x
  unfold roundEven at h3 ⊢
  split at h3
  · rename_i g
    rw [abs_of_nonpos (by linarith)] at h3
    linarith
  · split at h3
    · rename_i g
      push_cast at h3
      rw [abs_of_pos (by linarith)] at h3
      linarith
    · rename_i g g'
      rw [if_neg g, if_neg g']
      split
      · exact ⟨⌊x⌋ / 2, by omega⟩
      · exact ⟨(⌊x⌋ + 1) / 2, by omega⟩

theorem roundEven_neg (x : ℝ) : roundEven (-x) = - roundEven x := by
  by_cases hx : x = ⌊x⌋
  · rw [hx, ← Int.cast_neg, roundEven_int, roundEven_int]
  have h1 : ⌊-x⌋ = -⌊x⌋ - 1 := by
    have f1 := Int.floor_le x
    have f2 := Int.lt_floor_add_one x
    have f3 := lt_of_le_of_ne f1 (Ne.symm hx)
    rw [Int.floor_eq_iff]
    push_cast
    constructor <;> linarith
  unfold roundEven
  rw [h1]
  push_cast
  split_ifs <;> first | omega | (exfalso; linarith)

theorem ulpExp_neg (x : ℝ) : ulpExp (-x) = ulpExp x := by unfold ulpExp; rw [abs_neg]

theorem rnd_neg (x : ℝ) : rnd (-x) = - rnd x := by
  unfold rnd
  rw [ulpExp_neg, neg_div, roundEven_neg]
  push_cast
  ring

theorem fl_eq {x r : ℝ} (h : fl x = pure r) : r = rnd x ∧ |rnd x| < 2^1024 := by
  unfold fl at h
  split at h
  · rename_i g
    exact ⟨(pure_inj h).symm, g⟩
  · exact absurd h (by intro h'; cases h')

/-- the significand has at most 53 bits, or is `2^53` -/
theorem rnd_sig {x : ℝ} (hx : x ≠ 0) : |roundEven (x / 2^ulpExp x)| ≤ 2^53 := by
  have hp : (0:ℝ) < 2^ulpExp x := by positivity
  have h1 : |x / 2^ulpExp x| < 2^53 := by
    rw [abs_div, abs_of_pos hp, div_lt_iff₀ hp]
    exact ulpExp_lt hx
  have h2 := roundEven_err (x / 2^ulpExp x)
  have h3 := abs_sub_abs_le_abs_sub (roundEven (x / 2^ulpExp x) : ℝ) (x / 2^ulpExp x)
  have h4 : |((roundEven (x / 2^ulpExp x) : ℤ) : ℝ)| < 2^53 + 1 := by linarith
  have h5 : |roundEven (x / 2^ulpExp x)| < 2^53 + 1 := by exact_mod_cast h4
  omega

/-- and at least 53, or the exponent is the smallest -/
theorem sig_rnd {x : ℝ} (hx : x ≠ 0) : ulpExp x = -1074 ∨ 2^52 ≤ |roundEven (x / 2^ulpExp x)| := by
  refine (le_ulpExp hx).imp id fun h => ?_
  have hp : (0:ℝ) < 2^ulpExp x := by positivity
  have h1 : 2^52 ≤ |x / 2^ulpExp x| := by
    rw [abs_div, abs_of_pos hp, le_div_iff₀ hp]
    exact h
  have h2 := roundEven_err (x / 2^ulpExp x)
  have h3 := abs_sub_abs_le_abs_sub (x / 2^ulpExp x) (roundEven (x / 2^ulpExp x) : ℝ)
  rw [abs_sub_comm] at h3
  have h4 : (2:ℝ)^52 - 1 < |((roundEven (x / 2^ulpExp x) : ℤ) : ℝ)| := by linarith
  have h5 : (2:ℤ)^52 - 1 < |roundEven (x / 2^ulpExp x)| := by exact_mod_cast h4
  omega

theorem zpow_lt_1024 {e : ℤ} {c : ℕ} (h : (2:ℝ)^c * 2^e < 2^1024) : e < 1024 - c := by
  have h1 : (2:ℝ)^((c:ℤ) + e) < 2^((1024:ℕ):ℤ) := by
    rw [zpow_add₀ (by norm_num), zpow_natCast, zpow_natCast]
    exact h
  have := (zpow_lt_zpow_iff_right₀ (by norm_num)).1 h1
  push_cast at this
  linarith

theorem rnd_binary64 {x : ℝ} (hx : |rnd x| < 2^1024) : Binary64 (rnd x) := by
  rcases eq_or_ne x 0 with rfl | h0
  · exact ⟨0, 0, by norm_num, by norm_num, by norm_num, by rw [rnd_zero]; norm_num⟩
  have hp : (0:ℝ) < 2^ulpExp x := by positivity
  have hs := rnd_sig h0
  have habs : |rnd x| = |((roundEven (x / 2^ulpExp x) : ℤ) : ℝ)| * 2^ulpExp x := by
    unfold rnd
    rw [abs_mul, abs_of_pos hp]
  rw [habs] at hx
  rcases lt_or_eq_of_le hs with h1 | h1
  · refine ⟨roundEven (x / 2^ulpExp x), ulpExp x, h1, ulpExp_ge x, ?_, rfl⟩
    rcases sig_rnd h0 with h2 | h2
    · rw [h2]; norm_num
    · have h3 : (2:ℝ)^52 ≤ |((roundEven (x / 2^ulpExp x) : ℤ) : ℝ)| := by exact_mod_cast h2
      have h4 := (mul_le_mul_of_nonneg_right h3 hp.le).trans_lt hx
      have := zpow_lt_1024 h4
      push_cast at this
      omega
  · have h3 : |((roundEven (x / 2^ulpExp x) : ℤ) : ℝ)| = 2^53 := by exact_mod_cast h1
    rw [h3] at hx
    have h4 := zpow_lt_1024 hx
    push_cast at h4
    have h5 : ∃ m : ℤ, |m| = 2^52 ∧ roundEven (x / 2^ulpExp x) = 2 * m := by
      rcases abs_cases (roundEven (x / 2^ulpExp x)) with ⟨g, _⟩ | ⟨g, _⟩
      · exact ⟨2^52, by norm_num, by rw [← g, h1]; norm_num⟩
      · refine ⟨-2^52, by norm_num, ?_⟩
        rw [g] at h1
        omega
    obtain ⟨m, hm, hm2⟩ := h5
    refine ⟨m, ulpExp x + 1, by rw [hm]; norm_num, by have := ulpExp_ge x; omega, by omega, ?_⟩
    unfold rnd
    rw [hm2, zpow_add_one₀ (by norm_num)]
    push_cast
    ring

/-- no number of binary64 is nearer, not even with a larger exponent -/
theorem rnd_nearest {x y : ℝ} {m e : ℤ} (hm : |m| < 2^53) (he : -1074 ≤ e) (hy : y = m * 2^e) : |rnd x - x| ≤ |y - x| := by
  rcases eq_or_ne x 0 with rfl | h0
  · rw [rnd_zero, sub_zero, abs_zero]; exact abs_nonneg _
  have hp : (0:ℝ) < 2^ulpExp x := by positivity
  have key : ∀ k : ℤ, |rnd x - x| ≤ |k * 2^ulpExp x - x| := by
    intro k
    have e1 : ∀ j : ℤ, (j : ℝ) * 2^ulpExp x - x = (j - x / 2^ulpExp x) * 2^ulpExp x := fun j => by field_simp
    unfold rnd
    rw [e1, e1, abs_mul, abs_mul]
    exact mul_le_mul_of_nonneg_right (roundEven_nearest _ k) (abs_nonneg _)
  rcases le_or_gt (ulpExp x) e with h1 | h1
  · have e1 : y = ((m * 2^(e - ulpExp x).toNat : ℤ) : ℝ) * 2^ulpExp x := by
      push_cast
      rw [← zpow_natCast (2:ℝ), Int.toNat_of_nonneg (by omega), zpow_sub₀ (by norm_num), hy]
      field_simp
    rw [e1]
    exact key _
  · rcases le_ulpExp h0 with h2 | h2
    · omega
    have h3 : |y| ≤ 2^52 * 2^ulpExp x := by
      rw [hy, abs_mul, abs_of_pos (show (0:ℝ) < 2^e by positivity)]
      have g1 : |(m:ℝ)| ≤ 2^53 := by exact_mod_cast hm.le
      have g2 : (2:ℝ)^(e+1) ≤ 2^ulpExp x := zpow_le_zpow_right₀ (by norm_num) h1
      rw [zpow_add_one₀ (by norm_num)] at g2
      calc |(m:ℝ)| * 2^e ≤ 2^53 * 2^e := mul_le_mul_of_nonneg_right g1 (by positivity)
        _ = 2^52 * (2^e * 2) := by ring
        _ ≤ _ := mul_le_mul_of_nonneg_left g2 (by positivity)
    have h4 : |rnd x - x| ≤ |x| - 2^52 * 2^ulpExp x := by
      rcases le_or_gt 0 x with hs | hs
      · have := key (2^52)
        rw [show ((2^52 : ℤ) : ℝ) = 2^52 by norm_num] at this
        rw [abs_of_nonneg hs] at h2 ⊢
        rwa [abs_of_nonpos (a := 2^52 * 2^ulpExp x - x) (by linarith), neg_sub] at this
      · have := key (-2^52)
        rw [show ((-2^52 : ℤ) : ℝ) = -2^52 by norm_num] at this
        rw [abs_of_neg hs] at h2 ⊢
        rw [abs_of_nonneg (a := -2^52 * 2^ulpExp x - x) (by linarith)] at this
        linarith
    have h5 := abs_sub_abs_le_abs_sub x y
    rw [abs_sub_comm x y] at h5
    linarith

/-- two nearest numbers: the rounding is an even multiple of their distance -/
theorem rnd_tie {x y : ℝ} {m e : ℤ} (hm : |m| < 2^53) (he : -1074 ≤ e) (hy : y = m * 2^e) (hne : y ≠ rnd x)
    (h : |y - x| = |rnd x - x|) : ∃ j : ℤ, rnd x = 2 * j * |y - rnd x| := by
  rcases eq_or_ne x 0 with rfl | h0
  · exact ⟨0, by rw [rnd_zero]; norm_num⟩
  have hp : (0:ℝ) < 2^ulpExp x := by positivity
  -- the other number is the mirror image of the rounding, so it is a multiple of the unit as well
  have hb : |rnd x - x| ≤ 1/2 * 2^ulpExp x := by
    unfold rnd
    have e1 : (roundEven (x / 2^ulpExp x) : ℝ) * 2^ulpExp x - x = ((roundEven (x / 2^ulpExp x) : ℝ) - x / 2^ulpExp x) * 2^ulpExp x := by
      field_simp
    rw [e1, abs_mul, abs_of_pos hp]
    exact mul_le_mul_of_nonneg_right (roundEven_err _) hp.le
  have key : ∃ k : ℤ, y = k * 2^ulpExp x := by
    rcases le_or_gt (ulpExp x) e with h1 | h1
    · refine ⟨m * 2^(e - ulpExp x).toNat, ?_⟩
      push_cast
      rw [← zpow_natCast (2:ℝ), Int.toNat_of_nonneg (by omega), zpow_sub₀ (by norm_num), hy]
      field_simp
    · have hsq := sq_eq_sq_iff_abs_eq_abs (y - x) (rnd x - x) |>.2 h
      have hmir : y = 2 * x - rnd x := by
        have : (y - rnd x) * (y + rnd x - 2 * x) = 0 := by linear_combination hsq
        rcases mul_eq_zero.1 this with g | g
        · exact absurd (sub_eq_zero.1 g) hne
        · linarith
      -- the exact value is at least `2^52` units, the other number less, the rounding at least as much: half a unit apart at most
      rcases le_ulpExp h0 with h2 | h2
      · omega
      have hxy : |y| < 2^52 * 2^ulpExp x := by
        rw [hy, abs_mul, abs_of_pos (show (0:ℝ) < 2^e by positivity)]
        have g1 : |(m:ℝ)| < 2^53 := by exact_mod_cast hm
        have g2 : (2:ℝ)^(e+1) ≤ 2^ulpExp x := zpow_le_zpow_right₀ (by norm_num) h1
        rw [zpow_add_one₀ (by norm_num)] at g2
        calc |(m:ℝ)| * 2^e < 2^53 * 2^e := mul_lt_mul_of_pos_right g1 (by positivity)
          _ = 2^52 * (2^e * 2) := by ring
          _ ≤ _ := mul_le_mul_of_nonneg_left g2 (by positivity)
      have h4 : |rnd x - x| ≤ |x| - 2^52 * 2^ulpExp x := by
        rcases le_or_gt 0 x with hs | hs
        · have := rnd_nearest (x := x) (y := 2^52 * 2^ulpExp x) (m := 2^52) (e := ulpExp x) (by norm_num) (ulpExp_ge x) (by norm_num)
          rw [abs_of_nonneg hs] at h2 ⊢
          rwa [abs_of_nonpos (a := 2^52 * 2^ulpExp x - x) (by linarith), neg_sub] at this
        · have := rnd_nearest (x := x) (y := -2^52 * 2^ulpExp x) (m := -2^52) (e := ulpExp x) (by norm_num) (ulpExp_ge x) (by norm_num)
          rw [abs_of_neg hs] at h2 ⊢
          rw [abs_of_nonneg (a := -2^52 * 2^ulpExp x - x) (by linarith)] at this
          linarith
      have h5 := abs_sub_abs_le_abs_sub x y
      rw [abs_sub_comm x y] at h5
      linarith
  obtain ⟨k, hk⟩ := key
  have hk' : k ≠ roundEven (x / 2^ulpExp x) := by
    rintro rfl
    exact hne hk
  have e1 : ∀ j : ℤ, |(j : ℝ) * 2^ulpExp x - x| = |j - x / 2^ulpExp x| * 2^ulpExp x := fun j => by
    have : (j : ℝ) * 2^ulpExp x - x = (j - x / 2^ulpExp x) * 2^ulpExp x := by field_simp
    rw [this, abs_mul, abs_of_pos hp]
  have h6 : |(k : ℝ) - x / 2^ulpExp x| = |(roundEven (x / 2^ulpExp x) : ℝ) - x / 2^ulpExp x| := by
    have g : |(k : ℝ) * 2^ulpExp x - x| = |(roundEven (x / 2^ulpExp x) : ℝ) * 2^ulpExp x - x| := by rw [← hk]; exact h
    rw [e1, e1] at g
    exact mul_right_cancel₀ hp.ne' g
  obtain ⟨j, hj⟩ := roundEven_even hk' h6
  -- the two integers are one apart
  have h7 : |(k : ℝ) - roundEven (x / 2^ulpExp x)| = 1 := by
    have g1 : (1:ℤ) ≤ |k - roundEven (x / 2^ulpExp x)| := Int.one_le_abs (sub_ne_zero.2 hk')
    have g2 := abs_sub_le (k : ℝ) (x / 2^ulpExp x) (roundEven (x / 2^ulpExp x))
    rw [abs_sub_comm (x / 2^ulpExp x), h6] at g2
    have g3 := roundEven_err (x / 2^ulpExp x)
    have g4 : (1:ℝ) ≤ |(k:ℝ) - roundEven (x / 2^ulpExp x)| := by exact_mod_cast g1
    linarith
  refine ⟨j, ?_⟩
  have h8 : |y - rnd x| = 2^ulpExp x := by
    have : y - rnd x = ((k : ℝ) - roundEven (x / 2^ulpExp x)) * 2^ulpExp x := by
      rw [hk]; unfold rnd; ring
    rw [this, abs_mul, h7, abs_of_pos hp, one_mul]
  rw [h8]
  unfold rnd
  rw [hj]
  push_cast
  ring

theorem Binary64.rnd {x : ℝ} (h : Binary64 x) : rnd x = x := by
  obtain ⟨m, e, h1, h2, _, h4⟩ := h
  exact rnd_exact h1 h2 h4

theorem Binary64.lt {x : ℝ} (h : Binary64 x) : |x| < 2^1024 := by
  obtain ⟨m, e, h1, _, h3, h4⟩ := h
  rw [h4, abs_mul, abs_of_pos (show (0:ℝ) < 2^e by positivity)]
  have g1 : |(m:ℝ)| < 2^53 := by exact_mod_cast h1
  have g2 : (2:ℝ)^e ≤ 2^971 := by
    rw [← zpow_natCast]
    exact zpow_le_zpow_right₀ (by norm_num) h3
  calc |(m:ℝ)| * 2^e < 2^53 * 2^e := mul_lt_mul_of_pos_right g1 (by positivity)
    _ ≤ 2^53 * 2^971 := mul_le_mul_of_nonneg_left g2 (by positivity)
    _ = 2^1024 := by rw [← pow_add]

end EvalRound

import Verif.Model.Float
import Mathlib.Tactic.Linarith
import Mathlib.Tactic.Positivity

/-! # Rounding to binary64 -/

namespace EvalRound

theorem roundEven_err (x : ℝ) : |(roundEven x : ℝ) - x| ≤ 1/2 := by
  unfold roundEven
  have h1 := Int.floor_le x
  have h2 := Int.lt_floor_add_one x
  rw [abs_le]
  split
  · constructor <;> linarith
  · split
    · push_cast; constructor <;> linarith
    · split
      · constructor <;> linarith
      · push_cast; constructor <;> linarith

theorem roundEven_int (k : ℤ) : roundEven k = k := by
  unfold roundEven
  simp

theorem rnd_zero : rnd 0 = 0 := by
  unfold rnd
  rw [zero_div, show roundEven 0 = 0 by simpa using roundEven_int 0]
  simp

/-- half a unit in the last place, or half the smallest number -/
theorem rnd_err (x : ℝ) : |rnd x - x| ≤ 1/2^53 * |x| + 1/2^1075 := by
  rcases eq_or_ne x 0 with rfl | hx
  · rw [rnd_zero, sub_zero, abs_zero, mul_zero, zero_add]
    positivity
  have hp : (0:ℝ) < 2^ulpExp x := by positivity
  have h1 : |rnd x - x| ≤ 1/2 * 2^ulpExp x := by
    unfold rnd
    have e : (roundEven (x / 2^ulpExp x) : ℝ) * 2^ulpExp x - x = ((roundEven (x / 2^ulpExp x) : ℝ) - x / 2^ulpExp x) * 2^ulpExp x := by
      field_simp
    rw [e, abs_mul, abs_of_pos hp]
    exact mul_le_mul_of_nonneg_right (roundEven_err _) hp.le
  refine h1.trans ?_
  have hx' : 0 < |x| := abs_pos.2 hx
  unfold ulpExp
  rcases max_cases (Int.log 2 |x| - 52) (-1074) with ⟨e, _⟩ | ⟨e, _⟩ <;> rw [e]
  · have h2 : (2:ℝ)^(Int.log 2 |x|) ≤ |x| := by
      have := Int.zpow_log_le_self (b := 2) (by norm_num) hx'
      exact_mod_cast this
    rw [zpow_sub₀ (by norm_num)]
    have e3 : (2:ℝ)^(52:ℤ) = 2^52 := zpow_natCast 2 52
    rw [e3]
    have : (0:ℝ) ≤ 1/2^1075 := by positivity
    have h4 : 1/2 * ((2:ℝ)^(Int.log 2 |x|) / 2^52) = 1/2^53 * 2^(Int.log 2 |x|) := by ring
    rw [h4]
    have : 1/2^53 * (2:ℝ)^(Int.log 2 |x|) ≤ 1/2^53 * |x| := mul_le_mul_of_nonneg_left h2 (by positivity)
    linarith
  · rw [zpow_neg, show (2:ℝ)^(1074:ℤ) = 2^1074 from zpow_natCast 2 1074, pow_succ 2 1074]
    have : 0 ≤ 1/2^53 * |x| := by positivity
    have e : (1:ℝ)/2 * (2^1074)⁻¹ = 1 / (2^1074 * 2) := by field_simp
    rw [e]
    linarith

/-- numbers of 53 bits are their own rounding -/
theorem rnd_exact {x : ℝ} {k e : ℤ} (hk : |k| < 2^53) (he : -1074 ≤ e) (hx : x = k * 2^e) : rnd x = x := by
  rcases eq_or_ne x 0 with rfl | hx0
  · exact rnd_zero
  have hx' : 0 < |x| := abs_pos.2 hx0
  have hu : ulpExp x ≤ e := by
    unfold ulpExp
    refine max_le ?_ he
    have h1 : |x| < ((2:ℕ):ℝ)^(53 + e) := by
      rw [hx, abs_mul, abs_of_pos (show (0:ℝ) < 2^e by positivity)]
      push_cast
      rw [zpow_add₀ (by norm_num)]
      have : |(k:ℝ)| < 2^(53:ℤ) := by exact_mod_cast hk
      exact mul_lt_mul_of_pos_right this (by positivity)
    have := (Int.lt_zpow_iff_log_lt (by norm_num) hx').1 h1
    omega
  unfold rnd
  have e1 : x / 2^ulpExp x = ((k * 2^(e - ulpExp x).toNat : ℤ) : ℝ) := by
    push_cast
    rw [← zpow_natCast (2:ℝ), Int.toNat_of_nonneg (by omega), zpow_sub₀ (by norm_num), ← mul_div_assoc, ← hx]
  rw [e1, roundEven_int, ← e1]
  field_simp

/-- an operation whose result is far from the largest number -/
theorem fl_ok {x : ℝ} (hx : |x| ≤ 2^1020) : Ok (fl x) fun r => |r - x| ≤ 1/2^53 * |x| + 1/2^1075 := by
  have h := rnd_err x
  unfold fl
  rw [if_pos]
  · exact Ok.pure h
  · have h1 : |rnd x| ≤ |rnd x - x| + |x| := by
      calc |rnd x| = |(rnd x - x) + x| := by ring_nf
        _ ≤ _ := abs_add_le _ _
    have h2 : (1:ℝ)/2^1075 ≤ 1 := by
      rw [div_le_one (by positivity)]; exact one_le_pow₀ (by norm_num)
    have h3 : (1:ℝ)/2^53 * |x| ≤ |x| := by
      have := abs_nonneg x
      have h4 : (1:ℝ)/2^53 ≤ 1 := by norm_num
      nlinarith
    have h5 : (2:ℝ)^1024 = 16 * 2^1020 := by rw [show 1024 = 4 + 1020 by norm_num, pow_add]; norm_num
    have h6 : (1:ℝ) ≤ 2^1020 := one_le_pow₀ (by norm_num)
    rw [h5]
    clear h5
    generalize (2:ℝ)^1020 = T at *
    generalize (1:ℝ)/2^53 * |x| = y at *
    generalize (1:ℝ)/2^1075 = e at *
    linarith

theorem fl_exact {x : ℝ} {k e : ℤ} (hk : |k| < 2^53) (he : -1074 ≤ e) (he2 : e ≤ 960) (hx : x = k * 2^e) : fl x = pure x := by
  have h := rnd_exact hk he hx
  unfold fl
  rw [h, if_pos]
  rw [hx, abs_mul, abs_of_pos (show (0:ℝ) < 2^e by positivity)]
  have h1 : |(k:ℝ)| < 2^53 := by exact_mod_cast hk
  have h2 : (2:ℝ)^e ≤ 2^960 := by
    rw [← zpow_natCast]
    exact zpow_le_zpow_right₀ (by norm_num) he2
  calc |(k:ℝ)| * 2^e ≤ 2^53 * 2^960 := by gcongr
    _ = 2^1013 := by rw [← pow_add]
    _ < 2^1024 := pow_lt_pow_right₀ (by norm_num) (by norm_num)

end EvalRound

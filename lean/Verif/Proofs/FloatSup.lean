import Verif.Model.FloatSup
import Verif.Proofs.FloatSerial
import Verif.Proofs.FloatSimple
import Verif.Props.Sup
import Verif.Props.Ieee

/-!
# Lemmas on the sum of squares and the maximum of integers in binary64
-/

namespace EvalRound
open Z_Q Finset

/-- division of two approximations -/
theorem Ra.divRa {X k x Y l y : ℝ} (hx : Ra X k 0 x) (hy : Ra Y l 0 y) (hX : 0 ≤ X) (hY : 0 < Y) (hk0 : 0 ≤ k) (hl0 : 0 ≤ l) (hk : k ≤ 2^20)
    (hl : l ≤ 2^20) : 0 < y ∧ Ra (X / Y) (k + l + 0.01) 0 (x / y) := by
  unfold Ra at *
  rw [add_zero] at *
  have hu := uF_pos
  have hku : k * uF ≤ 1/2^33 := (mul_le_mul_of_nonneg_right hk hu.le).trans (by rw [uF_eq]; norm_num)
  have hlu : l * uF ≤ 1/2^33 := (mul_le_mul_of_nonneg_right hl hu.le).trans (by rw [uF_eq]; norm_num)
  obtain ⟨a, ha⟩ : ∃ a, a = k * uF := ⟨_, rfl⟩
  obtain ⟨b, hb⟩ : ∃ b, b = l * uF := ⟨_, rfl⟩
  have ha0 : 0 ≤ a := by rw [ha]; positivity
  have hb0 : 0 ≤ b := by rw [hb]; positivity
  rw [← ha] at hx hku
  rw [← hb] at hy hlu
  have hbY : b * Y ≤ 1/2^33 * Y := mul_le_mul_of_nonneg_right hlu hY.le
  have hyl : Y * (1 - b) ≤ y := by have := (abs_le.1 hy).1; linarith
  have hy0 : 0 < y := by
    have := (abs_le.1 hy).1
    linarith
  refine ⟨hy0, ?_⟩
  have e : x / y - X / Y = (Y * (x - X) - X * (y - Y)) / (y * Y) := by field_simp; ring
  have hnum : |Y * (x - X) - X * (y - Y)| ≤ (a + b) * (X * Y) := by
    refine (abs_sub _ _).trans ?_
    rw [abs_mul, abs_mul, abs_of_pos hY, abs_of_nonneg hX]
    have h1 := mul_le_mul_of_nonneg_left hx hY.le
    have h2 := mul_le_mul_of_nonneg_left hy hX
    linarith
  rw [e, abs_div, abs_of_pos (mul_pos hy0 hY), div_le_iff₀ (mul_pos hy0 hY)]
  refine hnum.trans ?_
  have h3 : (k + l + 0.01) * uF * (X / Y) * (y * Y) = (a + b + 0.01 * uF) * (X * y) := by rw [ha, hb]; field_simp
  rw [h3]
  have h4 : X * (Y * (1 - b)) ≤ X * y := mul_le_mul_of_nonneg_left hyl hX
  have h5 : (a + b) ≤ (a + b + 0.01 * uF) * (1 - b) := by
    have h6 : (a + b) * b ≤ (2 * (1/2^33)) * (2^20 * uF) := mul_le_mul (by linarith) (by rw [hb]; exact mul_le_mul_of_nonneg_right hl hu.le) hb0 (by norm_num)
    have h7 : 0.01 * uF * b ≤ 0.01 * uF * (1/2^33) := mul_le_mul_of_nonneg_left hlu (by positivity)
    nlinarith
  have h8 := mul_le_mul_of_nonneg_right h5 (mul_nonneg hX hY.le)
  have h9 := mul_le_mul_of_nonneg_left h4 (show 0 ≤ a + b + 0.01 * uF by positivity)
  nlinarith

/-- rounding a number that is not tiny -/
theorem Ra.fl1 {X k x : ℝ} (h : Ra X k 0 x) (hX0 : 1/2^20 ≤ X) (hX : X ≤ 2^500) (hk0 : 0 ≤ k) (hk : k ≤ 2^20) : Ok (EvalRound.fl x) (Ra X (k + 1.02) 0) := by
  have hX00 : 0 ≤ X := le_trans (by norm_num) hX0
  refine Ok.mono (h.fl hX00 hX hk0 hk le_rfl (by norm_num)) fun r hr => ?_
  unfold Ra at *
  refine hr.trans ?_
  have h1 : etaF ≤ 1/2^900 := tiny_le' (by
    have := etaF_pos
    have h2 : (1:ℝ) ≤ 2^170 := one_le_pow₀ (by norm_num)
    have := mul_le_mul_of_nonneg_right h2 etaF_pos.le
    linarith)
  have h2 : (1:ℝ)/2^900 ≤ 1/2^100 := one_div_le_one_div_of_le (by positivity) (pow_le_pow_right₀ (by norm_num) (by norm_num))
  have h3 : (1:ℝ)/2^100 ≤ 0.01 * uF * X := by
    refine le_trans ?_ (mul_le_mul_of_nonneg_left hX0 (mul_nonneg (by norm_num) uF_pos.le))
    rw [uF_eq]
    norm_num
  have e : (k + 1.02) * uF * X = (k + 1.01) * uF * X + 0.01 * uF * X := by ring
  rw [e]
  linarith

/-- natural numbers up to `2^53` are exact -/
theorem fl_nat {a : Nat} (h : a < 2^53) : fl (a : ℝ) = pure (a : ℝ) :=
  C74_exact ⟨a, 0, by rw [Nat.abs_cast]; exact_mod_cast h, by norm_num, by norm_num, by simp⟩

variable {LOGQ N : Nat} [NeZero LOGQ]

/-- the loop -/
theorem supLoopF_ok (hN : N ≤ 2^20) (pt : R_Q LOGQ N) (hc : R_Q.Canonical pt) (hb : ∀ k, (R_Q.sval pt k).natAbs < 2^52) :
    Ok (supLoopF pt) fun p => |p.1 - ∑ k, ((R_Q.sval pt k : ℤ) : ℝ)^2| ≤ (3.01 + 1.01 * N) * uF * (∑ k, ((R_Q.sval pt k : ℤ) : ℝ)^2) + 7 * N * etaF ∧
      ((∀ k, R_Q.sval pt k = 0) → p.1 = 0) ∧ (∀ k, |((R_Q.sval pt k : ℤ) : ℝ)| ≤ p.2) ∧
      (0 < N → ∃ k, p.2 = |((R_Q.sval pt k : ℤ) : ℝ)|) := by
  obtain ⟨a, ha⟩ : ∃ a : Fin N → Nat, a = fun k => (R_Q.sval pt k).natAbs := ⟨_, rfl⟩
  have hab : ∀ k, a k < 2^52 := fun k => by rw [ha]; exact hb k
  have haR : ∀ k, (a k : ℝ) = |((R_Q.sval pt k : ℤ) : ℝ)| := fun k => by rw [ha]; exact natAbs_real _
  have hval : ∀ k, (((if (copy (pt k)).is_bigger_than_halfQ then negate (copy (pt k)) else copy (pt k)).data (bot LOGQ)).toNat) = a k := by
    intro k
    have h64 : (pt k).sval.natAbs < 2^64 := lt_trans (hb k) (by norm_num)
    rw [← natAbs_toDoubleInt, toDoubleInt_spec (hc k), Nat.mod_eq_of_lt h64, Int.sign_mul_natAbs, ha]
    rfl
  obtain ⟨t, ht⟩ : ∃ t : Nat → ℝ, t = fun j => if h : j < N then (a ⟨j, h⟩ : ℝ) * a ⟨j, h⟩ else 0 := ⟨_, rfl⟩
  have ht0 : ∀ j, 0 ≤ t j := by
    intro j
    rw [ht]
    dsimp only
    split
    · exact mul_self_nonneg _
    · exact le_rfl
  have h1 : ∑ j ∈ range N, t j = ∑ k, ((R_Q.sval pt k : ℤ) : ℝ)^2 := by
    rw [ht, ← Fin.sum_univ_eq_sum_range (fun j => if h : j < N then (a ⟨j, h⟩ : ℝ) * a ⟨j, h⟩ else 0)]
    exact sum_congr rfl fun j _ => by rw [dif_pos j.isLt, haR, abs_mul_abs_self, pow_two]
  have h2 : ∑ j ∈ range N, |t j| = ∑ k, ((R_Q.sval pt k : ℤ) : ℝ)^2 := by
    rw [← h1]
    exact sum_congr rfl fun j _ => abs_of_nonneg (ht0 j)
  have hB : ∑ j ∈ range N, |t j| ≤ 2^1000 := by
    have h3 : ∀ j ∈ range N, |t j| ≤ 2^104 := fun j hj => by
      rw [abs_of_nonneg (ht0 j), ht]
      dsimp only
      rw [dif_pos (mem_range.1 hj)]
      have h4 : (a ⟨j, mem_range.1 hj⟩ : ℝ) ≤ 2^52 := by exact_mod_cast (hab ⟨j, mem_range.1 hj⟩).le
      calc _ ≤ (2:ℝ)^52 * 2^52 := mul_self_le_mul_self (Nat.cast_nonneg _) h4
        _ = 2^104 := by norm_num
    refine (sum_le_card_nsmul _ _ _ h3).trans ?_
    rw [card_range, nsmul_eq_mul]
    have hN' : (N:ℝ) ≤ 2^20 := by exact_mod_cast hN
    calc (N:ℝ) * 2^104 ≤ 2^20 * 2^104 := mul_le_mul_of_nonneg_right hN' (by norm_num)
      _ = 2^124 := by norm_num
      _ ≤ 2^1000 := pow_le_pow_right₀ (by norm_num) (by norm_num)
  unfold supLoopF
  refine Ok.mono (forUp_inv (Nat.zero_le N) (fun j (p : ℝ × ℝ) => SumInv t j p.1 ∧ ((∀ k, a k = 0) → p.1 = 0) ∧ 0 ≤ p.2 ∧
    (∀ k : Fin N, k.val < j → (a k : ℝ) ≤ p.2) ∧ ((∃ k, p.2 = (a k : ℝ)) ∨ p.2 = 0)) ⟨SumInv.zero t, fun _ => rfl, le_rfl, fun k hk => by omega, Or.inr rfl⟩ ?_) ?_
  · rintro j ⟨s, mx⟩ - hj ⟨hs, hz, hm0, hall, hex⟩
    rw [rd_of_lt pt hj, pure_bind]
    simp only [hval]
    rw [fl_nat (lt_trans (hab _) (by norm_num)), pure_bind]
    have htj : t j = (a ⟨j, hj⟩ : ℝ) * a ⟨j, hj⟩ := by rw [ht]; dsimp only; rw [dif_pos hj]
    obtain ⟨r, er, hr⟩ := SumInv.step (t := t) (k := j) (by omega)
      ((sum_le_sum_of_subset_of_nonneg (range_mono hj) fun _ _ _ => abs_nonneg _).trans hB) hs
    rw [htj] at er
    obtain ⟨q, eq, es⟩ := bind_eq_pure er
    rw [eq, pure_bind, es, pure_bind]
    refine Ok.pure ⟨hr, fun h0 => ?_, ?_, ?_, ?_⟩
    · have h3 := h0 ⟨j, hj⟩
      rw [h3, Nat.cast_zero, mul_zero, fl_zero] at eq
      have h4 := pure_inj eq
      have h5 := hz h0
      dsimp only at h5
      rw [← h4, h5, add_zero, fl_zero] at es
      exact (pure_inj es).symm
    · dsimp only
      rw [ite_max]
      exact le_max_of_le_left hm0
    · intro k hk
      dsimp only
      rw [ite_max]
      rcases Nat.lt_succ_iff_lt_or_eq.1 hk with h | h
      · exact le_max_of_le_left (hall k h)
      · refine le_max_of_le_right (le_of_eq ?_)
        congr 2
        exact Fin.ext h
    · dsimp only
      split
      · exact Or.inl ⟨_, rfl⟩
      · exact hex
  · rintro ⟨s, mx⟩ ⟨hs, hz, hm0, hall, hex⟩
    refine ⟨?_, fun h => hz fun k => ?_, fun k => ?_, fun hN0 => ?_⟩
    · unfold SumInv at hs
      rw [h1, h2, ← mul_assoc] at hs
      exact hs
    · rw [ha]
      dsimp only
      rw [h k]
      rfl
    · rw [← haR]
      exact hall k k.isLt
    · rcases hex with ⟨k, hk⟩ | h
      · exact ⟨k, by rw [← haR]; exact hk⟩
      · refine ⟨⟨0, hN0⟩, ?_⟩
        have := hall ⟨0, hN0⟩ hN0
        dsimp only at h this
        rw [← haR, h]
        rw [h] at this
        exact le_antisymm (Nat.cast_nonneg _) this

end EvalRound

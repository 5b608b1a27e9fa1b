import Verif.Model.Util
import Verif.Spec.Bits
import Mathlib.Data.Nat.Bitwise
import Mathlib.Tactic.Ring
import Mathlib.Tactic.IntervalCases
import Mathlib.Algebra.Order.Ring.Nat
import Mathlib.Data.Nat.Log
import Mathlib.Tactic.Positivity

/-! # Lemmas about util.h -/

namespace EvalRound

theorem bitRev_lt (d x : Nat) : bitRev d x < 2^d := by
  induction d generalizing x with
  | zero => simp [bitRev]
  | succ d ih =>
    have := ih (x/2)
    rw [bitRev, pow_succ]
    rcases Nat.mod_two_eq_zero_or_one x with h | h <;> rw [h] <;> omega

theorem bitRev_testBit (d x i : Nat) :
    (bitRev d x).testBit i = (decide (i < d) && x.testBit (d - 1 - i)) := by
  induction d generalizing x i with
  | zero => simp [bitRev]
  | succ d ih =>
    rw [bitRev, Nat.mul_comm, Nat.testBit_two_pow_mul_add _ (bitRev_lt d _)]
    by_cases h : i < d
    · rw [if_pos h, ih]
      have e : d + 1 - 1 - i = (d - 1 - i) + 1 := by omega
      rw [e, Nat.testBit_succ]
      simp [h, show i < d + 1 by omega]
    · rw [if_neg h]
      by_cases h2 : i = d
      · subst h2
        simp [Nat.testBit_zero]
      · have h3 : ¬ i < d + 1 := by omega
        simp only [h3, decide_false, Bool.false_and]
        apply Nat.testBit_lt_two_pow
        have : 2^1 ≤ 2^(i-d) := Nat.pow_le_pow_right (by norm_num) (by omega)
        have := Nat.mod_lt x (show 0 < 2 by norm_num)
        omega

theorem bitRev_bitRev {d x : Nat} (h : x < 2^d) : bitRev d (bitRev d x) = x := by
  apply Nat.eq_of_testBit_eq
  intro i
  rw [bitRev_testBit, bitRev_testBit]
  by_cases hi : i < d
  · have : d - 1 - (d - 1 - i) = i := by omega
    rw [this]
    simp [hi, show d - 1 - i < d by omega]
  · simp only [hi, decide_false, Bool.false_and]
    symm
    apply Nat.testBit_lt_two_pow
    exact lt_of_lt_of_le h (Nat.pow_le_pow_right (by norm_num) (by omega))

theorem bitRev_double (d x : Nat) : bitRev (d+1) (2*x) = bitRev d x := by
  rw [bitRev]; simp

theorem bitRev_double_add_one (d x : Nat) : bitRev (d+1) (2*x+1) = 2^d + bitRev d x := by
  rw [bitRev, show (2*x+1)%2 = 1 by omega, show (2*x+1)/2 = x by omega, Nat.one_mul]

theorem bitRev_succ_lt {d x : Nat} (h : x < 2^d) : bitRev (d+1) x = 2 * bitRev d x := by
  induction d generalizing x with
  | zero => have : x = 0 := by simpa using h
            subst this; simp [bitRev]
  | succ d ih =>
    rw [bitRev, ih (show x/2 < 2^d by rw [pow_succ] at h; omega)]
    conv_rhs => rw [bitRev]
    ring

theorem bitRev_add_pow {d x : Nat} (h : x < 2^d) : bitRev (d+1) (2^d + x) = 2 * bitRev d x + 1 := by
  induction d generalizing x with
  | zero => have : x = 0 := by simpa using h
            subst this; simp [bitRev]
  | succ d ih =>
    have e : (2^(d+1) + x) / 2 = 2^d + x/2 := by rw [pow_succ]; omega
    have e2 : (2^(d+1) + x) % 2 = x % 2 := by rw [pow_succ]; omega
    rw [bitRev, e, e2, ih (show x/2 < 2^d by rw [pow_succ] at h; omega)]
    conv_rhs => rw [bitRev]
    ring

theorem bitReverse32_getLsbD (x : BitVec 32) (i : Nat) (hi : i < 32) :
    (bitReverse32 x).getLsbD i = x.getLsbD (31 - i) := by
  unfold bitReverse32
  interval_cases i <;> simp

theorem bitReverse32_toNat (x : BitVec 32) : (bitReverse32 x).toNat = bitRev 32 x.toNat := by
  apply Nat.eq_of_testBit_eq
  intro i
  rw [bitRev_testBit]
  by_cases hi : i < 32
  · have := bitReverse32_getLsbD x i hi
    rw [BitVec.getLsbD, BitVec.getLsbD] at this
    rw [this]; simp [hi]
  · simp only [hi, decide_false, Bool.false_and]
    apply Nat.testBit_lt_two_pow
    exact lt_of_lt_of_le (bitReverse32 x).isLt (Nat.pow_le_pow_right (by norm_num) (by omega))

theorem bitRev_shift (d k x : Nat) : bitRev (d + k) x / 2^k = bitRev d x := by
  apply Nat.eq_of_testBit_eq
  intro i
  rw [Nat.testBit_div_two_pow, bitRev_testBit, bitRev_testBit]
  by_cases hi : i < d
  · simp [hi, show i + k < d + k by omega, show d + k - 1 - (i + k) = d - 1 - i by omega]
  · simp [hi]

theorem bitReverse_spec (x : BitVec 32) {d : Nat} (h1 : 1 ≤ d) (h2 : d ≤ 32) :
    Ok (bitReverse x d) fun y => y.toNat = bitRev d x.toNat := by
  unfold bitReverse
  rw [if_pos ⟨h1, h2⟩]
  apply Ok.pure
  rw [BitVec.toNat_ushiftRight, bitReverse32_toNat, Nat.shiftRight_eq_div_pow]
  have := bitRev_shift d (32 - d) x.toNat
  rwa [show d + (32 - d) = 32 by omega] at this

theorem logInt_spec {N : Nat} (h : N ≤ 2^30) :
    Ok (logInt N) fun k => N ≤ 2^k ∧ (k = 0 ∨ 2^(k-1) < N) := by
  unfold logInt
  refine Ok.bind (P := fun s : Nat × Nat => N ≤ 2^s.1 ∧ (s.1 = 0 ∨ 2^(s.1-1) < N)) ?_ fun s hs => Ok.pure hs
  refine Ok.mono (whileM_inv (P := fun s : Nat × Nat => s.2 = 2^s.1 ∧ (s.1 = 0 ∨ 2^(s.1-1) < N))
    (μ := fun s => N - s.2) ?_ (s := (0,1)) (by simp)) ?_
  · rintro ⟨i, n⟩ ⟨h1, h2⟩ hc
    simp only [decide_eq_true_eq] at *
    subst h1
    have : 2^i * 2 ≤ INT_MAX := by unfold INT_MAX; omega
    rw [if_pos this]
    apply Ok.pure
    have : 0 < 2^i := by positivity
    refine ⟨⟨(pow_succ 2 i).symm, Or.inr (by simpa using hc)⟩, by simp only; omega⟩
  · rintro ⟨i, n⟩ ⟨⟨h1, h2⟩, h3⟩
    simp only [decide_eq_false_iff_not] at *
    exact ⟨by omega, h2⟩

theorem logInt_pow {k : Nat} (h : k ≤ 30) : logInt (2^k) = pure k := by
  obtain ⟨r, hr, h1, h2⟩ := logInt_spec (N := 2^k) (Nat.pow_le_pow_right (by norm_num) h)
  rw [hr]
  have a1 : k ≤ r := (Nat.pow_le_pow_iff_right (by norm_num)).1 h1
  rcases h2 with h2 | h2
  · rw [show r = k by omega]
  · have := (Nat.pow_lt_pow_iff_right (by norm_num)).1 h2
    rw [show r = k by omega]

end EvalRound

import Verif.Proofs.FloatDriver

/-! # C09: the conversion of `Z_Q` to `double` in binary64 -/

namespace EvalRound
open Z_Q

variable {L : Nat} [NeZero L]

/-- C09: `operator double` with the rounding of the conversion from `uint64_t`: the number that the low limb of the magnitude and the sign
make, rounded once. -/
theorem C09_double_rounded (x : Z_Q L) (hx : x.Canonical) :
    toDoubleF x = fl ((x.sval.sign * (x.sval.natAbs % 2^64 : Nat) : Int) : ℝ) := by
  rw [← toDoubleInt_spec hx]
  unfold toDoubleF toDoubleInt
  dsimp only
  obtain ⟨r, e, h0, h⟩ := fl_word ((if (copy x).is_bigger_than_halfQ then negate (copy x) else copy x).data (bot L))
  rw [e, pure_bind]
  generalize (copy x).is_bigger_than_halfQ = b at *
  cases b
  · simpa using e.symm
  · rw [if_pos rfl, if_pos rfl]
    rw [if_pos rfl] at e
    have h1 := C74_neg e
    rw [mul_neg_one, C74_exact (C74_representable h1)]
    rw [← h1]
    congr 1
    rw [if_pos rfl]
    push_cast
    ring

/-- C09: a value of at most 53 bits is converted without any error. -/
theorem C09_double_exact (x : Z_Q L) (hx : x.Canonical) (h : x.sval.natAbs ≤ 2^53) : toDoubleF x = pure (x.sval : ℝ) := by
  rw [C09_double_rounded x hx, Nat.mod_eq_of_lt (h.trans_lt (by norm_num)), Int.sign_mul_natAbs]
  have hw := C74_word h
  obtain ⟨w, hw'⟩ : ∃ w, w = x.sval.natAbs := ⟨_, rfl⟩
  rw [← hw'] at hw
  rcases Int.natAbs_eq x.sval with e | e <;> rw [e, ← hw']
  · exact_mod_cast hw
  · have := C74_neg hw
    push_cast
    exact this

/-- C09: `2^53 + 1` is not: it becomes `2^53`, and its negative `-2^53`. -/
theorem C09_double_inexact (x : Z_Q L) (hx : x.Canonical) :
    (x.sval = 2^53 + 1 → toDoubleF x = pure (2^53)) ∧ (x.sval = -(2^53 + 1) → toDoubleF x = pure (-2^53)) := by
  have h := fl_odd53
  constructor <;> intro e <;> rw [C09_double_rounded x hx, e]
  · have : ((2^53 + 1 : Int).sign * ((2^53 + 1 : Int).natAbs % 2^64 : Nat) : Int) = 2^53 + 1 := by decide
    rw [this]
    exact_mod_cast h
  · have : ((-(2^53 + 1) : Int).sign * ((-(2^53 + 1) : Int).natAbs % 2^64 : Nat) : Int) = -(2^53 + 1) := by decide
    rw [this]
    have := C74_neg h
    push_cast at this ⊢
    exact this

-- canonical values of each kind: 5, -5 and 2^53 + 1 modulo 2^120
example : (Z_Q.ofNat 120 5).Canonical ∧ (Z_Q.ofNat 120 5).sval.natAbs ≤ 2^53 ∧
    (negate (Z_Q.ofNat 120 5)).Canonical ∧ (negate (Z_Q.ofNat 120 5)).sval = -5 ∧
    (Z_Q.ofNat 120 (2^53+1)).Canonical ∧ (Z_Q.ofNat 120 (2^53+1)).sval = 2^53 + 1 := by
  unfold Canonical
  decide +kernel

end EvalRound

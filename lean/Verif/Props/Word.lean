import Verif.Proofs.Word

/-! # C01, C02, C03: word arithmetic -/

namespace EvalRound

/-- C01: the schoolbook product of Z_Q.h is the exact 128-bit product. -/
theorem C01_mul (a b : W) :
    (mul a b).1.toNat + 2^64 * (mul a b).2.toNat = a.toNat * b.toNat := mul_spec a b

/-- C01: so is the one of mod.h. -/
theorem C01_mul_ (a b : W) :
    (mul_ a b).1.toNat + 2^64 * (mul_ a b).2.toNat = a.toNat * b.toNat := mulu_spec a b

/-- C01: the assembly branch of mod.h computes the same two words. -/
theorem C01_mul_asm (a b : W) : (mul_lo_asm a b, mul_hi_asm a b) = mul_ a b := by
  have h1 := mulu_spec a b
  have h2 := W_lt (mul_ a b).1
  have h3 := W_lt (mul_ a b).2
  have e1 : mul_lo_asm a b = (mul_ a b).1 := by
    apply BitVec.eq_of_toNat_eq
    simp only [mul_lo_asm, mulInstr, BitVec.toNat_ofNat, ← h1]; omega
  have e2 : mul_hi_asm a b = (mul_ a b).2 := by
    apply BitVec.eq_of_toNat_eq
    simp only [mul_hi_asm, mulInstr, BitVec.toNat_ofNat, ← h1]; omega
  rw [e1, e2]

-- a case where every partial sum carries
example : mul 0xFFFFFFFFFFFFFFFF 0xFFFFFFFFFFFFFFFF = (1, 0xFFFFFFFFFFFFFFFE) := by decide

/-- C02: `mod` is the residue of the 128-bit number. -/
theorem C02_mod (al ah q : W) (hq : q ≠ 0) :
    Ok (mod al ah q) fun r => r.toNat = (ah.toNat * 2^64 + al.toNat) % q.toNat :=
  ⟨_, mod_spec al ah q hq, ofNat_mod_toNat _ _ hq⟩

/-- C02: `add_mod` is exact also when the 64-bit sum wraps. -/
theorem C02_add_mod (a b q : W) (hq : q ≠ 0) :
    Ok (add_mod a b q) fun r => r.toNat = (a.toNat + b.toNat) % q.toNat :=
  ⟨_, add_mod_spec a b q hq, ofNat_mod_toNat _ _ hq⟩

/-- C02: `sub_mod` is the non-negative residue of the integer difference. -/
theorem C02_sub_mod (a b q : W) (hq : q ≠ 0) :
    Ok (sub_mod a b q) fun r => (r.toNat : Int) = ((a.toNat : Int) - b.toNat) % q.toNat := by
  refine ⟨_, sub_mod_spec a b q hq, ?_⟩
  show ((BitVec.ofNat 64 _).toNat : Int) = _
  rw [ofNat_mod_toNat _ _ hq]
  have hq0 : 0 < q.toNat := Nat.pos_of_ne_zero
    fun h => hq (BitVec.eq_of_toNat_eq (by simpa using h))
  have := Nat.mod_lt b.toNat hq0
  push_cast [Nat.cast_sub this.le]
  have e : (a.toNat : Int) + (q.toNat - b.toNat % q.toNat)
      = (a.toNat - b.toNat) + q.toNat * (1 + b.toNat / q.toNat) := by
    have := Int.emod_add_mul_ediv (b.toNat : Int) q.toNat
    linarith [mul_add (q.toNat : Int) 1 (b.toNat / q.toNat)]
  rw [e, Int.add_mul_emod_self_left]

/-- C02: `mul_mod` is the residue of the exact product. -/
theorem C02_mul_mod (a b q : W) (hq : q ≠ 0) :
    Ok (mul_mod a b q) fun r => r.toNat = (a.toNat * b.toNat) % q.toNat :=
  ⟨_, mul_mod_spec a b q hq, ofNat_mod_toNat _ _ hq⟩

/-- C02: a zero modulus is a division by zero in all four functions. -/
theorem C02_zero_modulus (a b : W) :
    mod a b 0 = ub ∧ add_mod a b 0 = ub ∧ sub_mod a b 0 = ub ∧ mul_mod a b 0 = ub :=
  ⟨mod_zero a b, by unfold add_mod; exact mod_zero _ _, by simp [sub_mod], by unfold mul_mod; exact mod_zero _ _⟩

/-- C02: the assembly branch of `mod` never traps for a nonzero modulus and returns the same
residue. -/
theorem C02_mod_asm (al ah q : W) (hq : q ≠ 0) : mod_asm al ah q = mod al ah q :=
  mod_asm_eq al ah q hq

-- the hypothesis holds for a modulus of the library, with operands whose sum wraps
example : ((1152921504606584833 : W) ≠ 0) ∧
    (0xFFFFFFFFFFFFFFFF + 0xFFFFFFFFFFFFFFFF : W) < 0xFFFFFFFFFFFFFFFF := by decide

/-- C03: `pow_mod` is the residue of the exact power, for every 64-bit exponent. -/
theorem C03_pow_mod (a n q : W) (hq : 1 < q.toNat) :
    Ok (pow_mod a n q) fun r => r.toNat = a.toNat ^ n.toNat % q.toNat := by
  refine ⟨_, pow_mod_spec a n q hq, ofNat_mod_toNat _ _ ?_⟩
  rintro rfl; simp at hq

/-- C03: modulo 1 the result of the zeroth power is not reduced (the code returns 1), which is
why C03 asks for `q > 1`. -/
theorem C03_pow_mod_one (a : W) : pow_mod a 0 1 = pure 1 ∧ (1 : W).toNat ≠ a.toNat ^ 0 % 1 := by
  refine ⟨pow_mod_zero _ _, ?_⟩
  simp

/-- C03: `inv_mod` is the inverse modulo a prime. -/
theorem C03_inv_mod (a q : W) (hp : q.toNat.Prime) (ha : ¬ q.toNat ∣ a.toNat) :
    Ok (inv_mod a q) fun r => r.toNat < q.toNat ∧ a.toNat * r.toNat % q.toNat = 1 :=
  inv_mod_spec a q hp ha

-- the hypotheses hold for a = 10, q = 7 (a not reduced)
example : (7 : W).toNat.Prime ∧ ¬ (7 : W).toNat ∣ (10 : W).toNat := by
  constructor
  · show Nat.Prime 7; decide
  · decide

end EvalRound

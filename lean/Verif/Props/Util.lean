import Verif.Proofs.Util
import Mathlib.Algebra.BigOperators.Fin
import Mathlib.Data.Int.CardIntervalMod
import Mathlib.Data.Fintype.Card
import Mathlib.Data.Fintype.Pi
import Mathlib.Data.BitVec

/-! # C18, C41: bit reversal and random words -/

namespace EvalRound

/-- C18: `bitReverse32` moves bit `31-i` to bit `i`. -/
theorem C18_bitReverse32 (x : BitVec 32) (i : Nat) (hi : i < 32) :
    (bitReverse32 x).getLsbD i = x.getLsbD (31 - i) := bitReverse32_getLsbD x i hi

/-- C18: `bitReverse(x,d)` for `1 ≤ d ≤ 32`: bit `i` of the result is bit `d-1-i` of `x` for
`i < d`, and the bits from `d` on are zero. -/
theorem C18_bitReverse (x : BitVec 32) (d : Nat) (h1 : 1 ≤ d) (h2 : d ≤ 32) :
    Ok (bitReverse x d) fun y => ∀ i, y.getLsbD i = (decide (i < d) && x.getLsbD (d - 1 - i)) := by
  refine Ok.mono (bitReverse_spec x h1 h2) fun y hy i => ?_
  rw [BitVec.getLsbD, hy, bitRev_testBit, BitVec.getLsbD]

/-- C18: on `[0,2^d)` it is an involution. -/
theorem C18_involution (x : BitVec 32) (d : Nat) (h1 : 1 ≤ d) (h2 : d ≤ 32) (hx : x.toNat < 2^d) :
    (bitReverse x d >>= fun y => bitReverse y d) = pure x := by
  obtain ⟨y, e1, hy⟩ := bitReverse_spec x h1 h2
  obtain ⟨z, e2, hz⟩ := bitReverse_spec y h1 h2
  rw [e1, pure_bind, e2]
  rw [hy, bitRev_bitRev hx] at hz
  rw [BitVec.eq_of_toNat_eq hz]

/-- C18: it maps `[0,2^d)` to itself, so (being an involution) it permutes it. -/
theorem C18_range (x : BitVec 32) (d : Nat) (h1 : 1 ≤ d) (h2 : d ≤ 32) :
    Ok (bitReverse x d) fun y => y.toNat < 2^d :=
  Ok.mono (bitReverse_spec x h1 h2) fun y hy => by rw [hy]; exact bitRev_lt d _

/-- C18: no digits, or more than 32, is an undefined shift. -/
theorem C18_ub (x : BitVec 32) (d : Nat) (h : d = 0 ∨ 32 < d) : bitReverse x d = ub := by
  unfold bitReverse
  rw [if_neg (by omega)]

-- 6 = 110b reversed in four digits is 0110b
example : bitReverse 6 4 = pure 6 ∧ bitReverse 3 4 = pure 12 ∧ (3 : BitVec 32).toNat < 2^4 := by
  refine ⟨?_, ?_, by decide⟩ <;> rfl

/-- the stream that starts with the five values of `t` -/
def streamOf {b : Nat} (t : Fin 5 → Fin b) : Rng := fun n => if h : n < 5 then (t ⟨n, h⟩).val else 0

/-- `rand_uint64` as a polynomial in its five draws -/
theorem rand_uint64_val (RMAX : Nat) (ω : Rng) :
    (rand_uint64 RMAX ω).1.toNat =
      (ω 4 + ω 3 * (RMAX+1) + ω 2 * (RMAX+1)^2 + ω 1 * (RMAX+1)^3 + ω 0 * (RMAX+1)^4) % 2^64 := by
  have h : (rand_uint64 RMAX ω).1 = BitVec.ofNat 64
      (ω 4 + ω 3 * (RMAX+1) + ω 2 * (RMAX+1)^2 + ω 1 * (RMAX+1)^3 + ω 0 * (RMAX+1)^4) := by
    simp only [rand_uint64, forFin, Rng.next]
    simp only [BitVec.ofNat_add, BitVec.ofNat_mul, pow_succ, pow_zero]
    generalize BitVec.ofNat 64 RMAX = r
    simp only [show (BitVec.ofNat 64 1) = (1 : BitVec 64) from rfl]
    ring
  rw [h, BitVec.toNat_ofNat]

/-- C41: `rand_uint64` consumes exactly five values and depends on nothing else. -/
theorem C41_five (RMAX : Nat) (ω ω' : Rng) (h : ∀ n, n < 5 → ω n = ω' n) :
    (rand_uint64 RMAX ω).2 = ω.drop 5 ∧ (rand_uint64 RMAX ω).1 = (rand_uint64 RMAX ω').1 := by
  constructor
  · funext n
    simp only [rand_uint64, forFin, Rng.next, Rng.drop]
    congr 1; omega
  · apply BitVec.eq_of_toNat_eq
    rw [rand_uint64_val, rand_uint64_val]
    simp [h]

/-- C41: if `RAND_MAX+1 = 2^k` with `k ≥ 13`, every 64-bit word comes from exactly `2^(5k-64)` of
the `2^(5k)` possible draws. -/
theorem C41_uniform (RMAX k : Nat) (hR : RMAX + 1 = 2^k) (hk : 13 ≤ k) (w : W) :
    (Finset.univ.filter fun t : Fin 5 → Fin (RMAX+1) =>
      (rand_uint64 RMAX (streamOf t)).1 = w).card = 2^(5*k - 64) := by
  have e5 : (RMAX+1)^5 = 2^(5*k) := by rw [hR, ← pow_mul, Nat.mul_comm]
  -- the five draws, last one first, are the digits of a number below (RMAX+1)^5
  let E : (Fin 5 → Fin (RMAX+1)) ≃ Fin ((RMAX+1)^5) :=
    (Equiv.arrowCongr Fin.revPerm (Equiv.refl _)).trans finFunctionFinEquiv
  have hE : ∀ t, (rand_uint64 RMAX (streamOf t)).1.toNat = (E t).val % 2^64 := by
    intro t
    rw [rand_uint64_val]
    congr 1
    show _ = (finFunctionFinEquiv _).val
    rw [finFunctionFinEquiv_apply, Fin.sum_univ_five]
    simp [streamOf, Equiv.arrowCongr, Fin.rev]
  have h1 : (Finset.univ.filter fun t : Fin 5 → Fin (RMAX+1) =>
      (rand_uint64 RMAX (streamOf t)).1 = w).card =
      (Finset.univ.filter fun n : Fin ((RMAX+1)^5) => n.val % 2^64 = w.toNat).card := by
    apply Finset.card_bij (fun t _ => E t)
    · intro t ht
      simp only [Finset.mem_filter, Finset.mem_univ, true_and] at *
      rw [← hE, ht]
    · intro a _ b _ h; exact E.injective h
    · intro n hn
      simp only [Finset.mem_filter, Finset.mem_univ, true_and] at *
      refine ⟨E.symm n, ?_, by simp⟩
      apply BitVec.eq_of_toNat_eq
      rw [hE, Equiv.apply_symm_apply, hn]
  rw [h1, e5]
  have h2 : (Finset.univ.filter fun n : Fin (2^(5*k)) => n.val % 2^64 = w.toNat).card =
      Nat.count (· ≡ w.toNat [MOD 2^64]) (2^(5*k)) := by
    rw [Nat.count_eq_card_filter_range]
    apply Finset.card_bij (fun n _ => n.val)
    · intro n hn
      simp only [Finset.mem_filter, Finset.mem_univ, true_and, Finset.mem_range] at *
      refine ⟨n.isLt, ?_⟩
      rw [Nat.ModEq, hn, Nat.mod_eq_of_lt w.isLt]
    · intro a _ b _ h; exact Fin.ext h
    · intro n hn
      simp only [Finset.mem_filter, Finset.mem_univ, true_and, Finset.mem_range] at *
      rw [Nat.ModEq, Nat.mod_eq_of_lt w.isLt] at hn
      exact ⟨⟨n, hn.1⟩, hn.2, rfl⟩
  rw [h2, Nat.count_modEq_card _ (by positivity)]
  have e : 2^(5*k) = 2^64 * 2^(5*k-64) := by rw [← pow_add]; congr 1; omega
  rw [e, Nat.mul_div_cancel_left _ (by positivity), Nat.mul_mod_right]
  simp

-- glibc: RAND_MAX = 2^31-1
example : (2147483647 : Nat) + 1 = 2^31 ∧ 13 ≤ 31 := by norm_num

end EvalRound

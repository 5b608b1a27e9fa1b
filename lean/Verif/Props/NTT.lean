import Verif.Proofs.NTT
import Mathlib.Tactic.NormNum.Prime

/-! # C11 - C13: prime factors, primitive roots, number-theoretic transform -/

namespace EvalRound
open Finset

/-- C11: `findPrimeFactors(n)` terminates and returns exactly the prime divisors of `n`, for every
`n` but 0. From `(2^32-1)^2` on `i*i` may wrap before the loop ends. The divisors tried are still correct, and the loop ends at
the latest at `lastTrial`, whose square is `2^64-7` modulo `2^64`. -/
theorem C11_findPrimeFactors (n : W) (h0 : n ≠ 0) :
    Ok (findPrimeFactors n) fun s => ∀ p : W, p ∈ s ↔ p.toNat.Prime ∧ p.toNat ∣ n.toNat :=
  findPrimeFactors_spec h0

/-- C11: `findPrimeFactors(0)` never returns. -/
theorem C11_findPrimeFactors_zero : findPrimeFactors 0 = diverge := findPrimeFactors_zero

/-- C11: `findPrimitiveRoot(p)` terminates for every odd prime `p` and returns a
generator of the multiplicative group modulo `p`. -/
theorem C11_findPrimitiveRoot (p : W) (hp : p.toNat.Prime) (h2 : p.toNat ≠ 2) :
    Ok (findPrimitiveRoot p) fun r => 2 ≤ r.toNat ∧ r.toNat < p.toNat ∧
      ∀ x : ZMod p.toNat, x ≠ 0 → ∃ n : Nat, (r.toNat : ZMod p.toNat)^n = x := by
  have : Fact p.toNat.Prime := ⟨hp⟩
  refine Ok.mono (findPrimitiveRoot_spec hp h2) fun r hr => ⟨hr.1, ?_, ?_⟩
  · have := hp.two_le
    omega
  · intro x hx
    obtain ⟨h2r, hle, hord⟩ := hr
    have hr0 : (r.toNat : ZMod p.toNat) ≠ 0 := by
      intro h
      rw [ZMod.natCast_eq_zero_iff] at h
      have := Nat.le_of_dvd (by omega) h
      have := hp.two_le
      omega
    let u : (ZMod p.toNat)ˣ := Units.mk0 _ hr0
    have hu : orderOf u = p.toNat - 1 := by
      rw [← orderOf_units]; exact hord
    have hall : ∀ y : (ZMod p.toNat)ˣ, y ∈ Submonoid.powers u := by
      intro y
      have htop : Subgroup.zpowers u = ⊤ := Subgroup.eq_top_of_card_eq _ (by
        rw [Nat.card_zpowers, hu, Nat.card_eq_fintype_card, ZMod.card_units])
      rw [mem_powers_iff_mem_zpowers, htop]
      trivial
    obtain ⟨n, hn⟩ := hall (Units.mk0 x hx)
    refine ⟨n, ?_⟩
    have := congrArg Units.val hn
    simpa [u] using this

/-- C11: for `p = 2` the search fails and returns 0, which is not a generator. -/
theorem C11_findPrimitiveRoot_two : findPrimitiveRoot 2 = pure 0 := by
  unfold findPrimitiveRoot
  obtain ⟨s, hs, -⟩ := findPrimeFactors_spec (n := (2:W) - 1) (by decide)
  simp only [hs, pure_bind]
  rw [whileM_false (by decide), pure_bind]
  rfl

-- 65537 is an odd prime
example : (65537 : W).toNat.Prime ∧ (65537 : W).toNat ≠ 2 := by
  have : (65537 : W).toNat = 65537 := rfl
  rw [this]; norm_num

/-- C12, C13: the constructor `NTT<2^k>(q)` succeeds for a prime `q ≡ 1 mod 2N`; there is a
primitive `2N`-th root of unity `psi` such that `ntt` leaves in `a[i]` the value (reduced) of the
input polynomial at `psi^(2*bitrev(i)+1)`, for every array of 64-bit words. -/
theorem C12_ntt (k : Nat) (hk1 : 1 ≤ k) (hk : k ≤ 29) (q : W) (hp : q.toNat.Prime)
    (hdvd : 2^(k+1) ∣ q.toNat - 1) :
    Ok (NTT.new (2^k) q) fun T => ∃ psi : ZMod q.toNat, orderOf psi = 2 * 2^k ∧
      ∀ a : Fin (2^k) → W, Ok (T.ntt a) fun b => ∀ i : Fin (2^k), (b i).toNat < q.toNat ∧
        ((b i).toNat : ZMod q.toNat) =
          ∑ j : Fin (2^k), ((a j).toNat : ZMod q.toNat) * (psi^(2 * bitRev k i + 1))^(j : Nat) := by
  refine Ok.mono (NTT_new_spec hp hdvd hk1 hk) ?_
  rintro T ⟨rfl, psi, ipsi, H, hord⟩
  refine ⟨psi, hord, fun a => ?_⟩
  refine Ok.mono (ntt_spec H hk1 a) fun b hb i => ?_
  have h := hb i i.isLt
  rw [dig_fin] at h
  refine ⟨h.1, ?_⟩
  have h2 := h.2
  unfold res at h2
  rw [dig_fin] at h2
  rw [h2, fwdN_value H.hpsi _ i.isLt, pev, sum_range]
  apply sum_congr rfl
  intro j _
  rw [dig_fin]

/-- C12: with `N = 1` the constructor shifts by 32: undefined. -/
theorem C12_N1 (q : W) (hp : q.toNat.Prime) (h2 : q.toNat ≠ 2) :
    NTT.new 1 q = ub := by
  have hq1 : 1 < q.toNat := hp.one_lt
  unfold NTT.new
  have : logInt 1 = pure 0 := logInt_pow (k := 0) (by omega)
  rw [this, pure_bind]
  obtain ⟨g, hg, -⟩ := findPrimitiveRoot_spec hp h2
  rw [hg, pure_bind, if_neg (by decide), pow_mod_spec _ _ _ hq1, pure_bind]
  obtain ⟨t, ht, -⟩ := powTable_spec (N := 1) hq1 (by norm_num)
    (BitVec.ofNat 64 (g.toNat ^ ((q - 1) / BitVec.ofNat 64 (2 * 1)).toNat % q.toNat))
  rw [ht, pure_bind]
  rfl

/-- C13: `ntt` followed by `intt` returns every `a[j]` reduced modulo `q`. -/
theorem C13_intt_ntt (k : Nat) (hk1 : 1 ≤ k) (hk : k ≤ 29) (q : W) (hp : q.toNat.Prime)
    (hdvd : 2^(k+1) ∣ q.toNat - 1) :
    Ok (NTT.new (2^k) q) fun T => ∀ a : Fin (2^k) → W,
      Ok (T.ntt a >>= T.intt) fun c => ∀ j : Fin (2^k), (c j).toNat = (a j).toNat % q.toNat := by
  refine Ok.mono (NTT_new_spec hp hdvd hk1 hk) ?_
  rintro T ⟨rfl, psi, ipsi, H, hord⟩ a
  refine Ok.bind (ntt_spec H hk1 a) fun b hb => ?_
  refine Ok.mono (intt_ntt_spec H (res T.q a) b (fun x hx => (hb x hx).2)) fun c hc j => ?_
  have h := hc j j.isLt
  unfold res at h
  rw [dig_fin, dig_fin] at h
  have := (ZMod.natCast_eq_natCast_iff' _ _ _).1 h.2
  rwa [Nat.mod_eq_of_lt h.1] at this

-- q = 97, N = 16: 2^5 divides 96
example : (97 : W).toNat.Prime ∧ 2^(4+1) ∣ (97 : W).toNat - 1 := by
  have : (97 : W).toNat = 97 := rfl
  rw [this]; norm_num

end EvalRound

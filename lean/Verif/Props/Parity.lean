import Verif.Proofs.Parity

/-!
# C107: what a ciphertext shows without the key

The ring `Z/2^Q[X]/(X^N+1)` has a map to `Z/2`: the sum of the coefficients modulo 2. It takes the product with the
key to the product with the parity of the weight of the key, which is no secret. So the parity of the sum of the
coefficients of what a ciphertext decrypts to can be read from the ciphertext. It is hidden by the noise alone.
-/

set_option linter.unusedSectionVars false

namespace EvalRound
open Finset Z_Q

section
variable {LOGQ N : Nat} [NeZero LOGQ]

/-- C107: the parity of the sum of the coefficients of the decryption depends on the key only through the parity of its weight. -/
theorem C107_parity (hN : N ≤ 2^30) (ct : R_Q_square LOGQ N) (s : Fin N → Int) (hs : ∀ k, s k = -1 ∨ s k = 0 ∨ s k = 1) :
    Ok (dec ct s) fun m => (∑ i, (m i).sval) % 2 =
      (∑ i, (ct.1 i).sval + ((univ.filter fun k => s k ≠ 0).card : Int) * ∑ i, (ct.2 i).sval) % 2 := by
  refine Ok.mono (dec_spec hN hs ct) fun m hm => ?_
  have h := phase_parity ct hm.2
  rw [ternary_sum hs] at h
  have h2 := (ZMod.intCast_eq_intCast_iff' (∑ i, (m i).sval)
    (∑ i, (ct.1 i).sval + ((univ.filter fun k => s k ≠ 0).card : Int) * ∑ i, (ct.2 i).sval) 2).1 (by
      rw [h]; unfold weight; push_cast; rfl)
  exact_mod_cast h2

/-- what `enc` puts into the first component, in terms of its draws -/
theorem enc_first {R : Nat} (hN : N ≤ 2^30) (t : Fin N → Fin (nlimb LOGQ) → Fin 5 → Fin (R+1)) (u : Fin N → Fin 2 → Fin (R+1)) (ρ : Rng)
    (pt : R_Q LOGQ N) (s : Fin N → Int) (hs : ∀ k, s k = -1 ∨ s k = 0 ∨ s k = 1) (ct0 : R_Q_square LOGQ N) :
    Ok (enc R pt s ct0 (maskStream t (noiseStream u ρ))) fun r => r.1.Canonical ∧
      r.1.2 = (encMask R ct0.2 (maskStream t ρ)).1 ∧
      R_Q.cls r.1.1 = R_Q.cls pt + (red LOGQ fun i => noiseVal (u i 0) (u i 1)) - negconv (red LOGQ s) (R_Q.cls r.1.2) := by
  obtain ⟨n1, n2⟩ := encNoise_stream (LOGQ := LOGQ) u ρ
  unfold enc
  rw [encMask_stream, encMask_stream]
  refine Ok.bind (convS_spec hN s _) fun p ⟨_, h⟩ => Ok.pure ⟨⟨R_Q.canonical_sub _ _, fun i => canonical_remove_clutter _⟩, rfl, ?_⟩
  rw [Ternary.tern hs] at h
  rw [R_Q.cls_sub, h, R_Q.copy_eq, R_Q.cls_add]
  congr 1
  rw [add_comm]
  congr 1
  exact funext n2

open Classical in
/-- C107: how well the noise hides that parity. For a key of even weight, of all values of the draws of one encryption, those
whose first component has a coefficient sum of the parity of the plaintext exceed the others by exactly
`(draws of the mask) · (b·(b/9 + (b mod 9) mod 2))^N`, `b = RAND_MAX+1`, that is by a fraction of about `9^-N` of all draws. -/
theorem C107_advantage {R : Nat} (hN : N ≤ 2^30) (pt : R_Q LOGQ N) (s : Fin N → Int) (hs : ∀ k, s k = -1 ∨ s k = 0 ∨ s k = 1)
    (heven : (univ.filter fun k => s k ≠ 0).card % 2 = 0) (ct0 : R_Q_square LOGQ N) (ρ : Rng) :
    ((univ.filter fun p : (Fin N → Fin (nlimb LOGQ) → Fin 5 → Fin (R+1)) × (Fin N → Fin 2 → Fin (R+1)) =>
      Ok (enc R pt s ct0 (maskStream p.1 (noiseStream p.2 ρ))) fun r => (∑ i, (r.1.1 i).sval) % 2 = (∑ i, (pt i).sval) % 2).card : Int) -
    (univ.filter fun p : (Fin N → Fin (nlimb LOGQ) → Fin 5 → Fin (R+1)) × (Fin N → Fin 2 → Fin (R+1)) =>
      Ok (enc R pt s ct0 (maskStream p.1 (noiseStream p.2 ρ))) fun r => (∑ i, (r.1.1 i).sval) % 2 ≠ (∑ i, (pt i).sval) % 2).card =
      ((R+1)^(5 * nlimb LOGQ * N) : Nat) * ((R+1 : Nat) * ((R+1 : Nat) / 9 + (R+1 : Nat) % 9 % 2))^N := by
  have key : ∀ p : (Fin N → Fin (nlimb LOGQ) → Fin 5 → Fin (R+1)) × (Fin N → Fin 2 → Fin (R+1)),
      Ok (enc R pt s ct0 (maskStream p.1 (noiseStream p.2 ρ))) fun r =>
        ((∑ i, (r.1.1 i).sval) % 2 = (∑ i, (pt i).sval) % 2 ↔ (∑ i, noiseVal (p.2 i 0) (p.2 i 1)) % 2 = 0) := fun p => by
    refine Ok.mono (enc_first hN p.1 p.2 ρ pt s hs ct0) fun r ⟨_, _, h⟩ => ?_
    have h1 : ∀ i, ((r.1.1 i).sval : ZMod 2) = ((pt i).sval : ZMod 2) + ((noiseVal (p.2 i 0) (p.2 i 1) : Int) : ZMod 2) -
        negconv (fun j => ((s j : Int) : ZMod 2)) (fun j => ((r.1.2 j).sval : ZMod 2)) i := fun i => by
      have h1 := congrArg (mod2 LOGQ) (congrFun h i)
      rw [Pi.sub_apply, Pi.add_apply, map_sub, map_add] at h1
      have h2 := congrFun (negconv_map' (mod2 LOGQ) (red LOGQ s) (R_Q.cls r.1.2)) i
      rw [h2] at h1
      unfold R_Q.cls red at h1
      simp only [mod2_cls, map_intCast] at h1
      exact h1
    have h2 : ((∑ i, (r.1.1 i).sval : Int) : ZMod 2) = ((∑ i, (pt i).sval + ∑ i, noiseVal (p.2 i 0) (p.2 i 1) : Int) : ZMod 2) := by
      have hw := ternary_sum (N := N) hs
      have hw0 : ((weight s : Nat) : ZMod 2) = 0 := (ZMod.natCast_eq_zero_iff _ _).2 (Nat.dvd_of_mod_eq_zero heven)
      rw [hw0] at hw
      push_cast at hw ⊢
      rw [sum_congr rfl fun i _ => h1 i, sum_sub_distrib, sum_add_distrib, sum_negconv_mod2, hw, zero_mul, sub_zero]
    have h3 := (ZMod.intCast_eq_intCast_iff' _ _ 2).1 h2
    omega
  have e1 : (univ.filter fun p : (Fin N → Fin (nlimb LOGQ) → Fin 5 → Fin (R+1)) × (Fin N → Fin 2 → Fin (R+1)) =>
      Ok (enc R pt s ct0 (maskStream p.1 (noiseStream p.2 ρ))) fun r => (∑ i, (r.1.1 i).sval) % 2 = (∑ i, (pt i).sval) % 2) =
      univ ×ˢ univ.filter fun u : Fin N → Fin 2 → Fin (R+1) => (∑ i, noiseVal (u i 0) (u i 1)) % 2 = 0 := by
    ext p
    obtain ⟨r, hr, h⟩ := key p
    simp only [mem_univ, true_and, mem_filter, mem_product]
    constructor
    · rintro ⟨r', hr', h'⟩
      obtain rfl := pure_inj (hr.symm.trans hr')
      exact h.1 h'
    · exact fun h' => ⟨r, hr, h.2 h'⟩
  have e2 : (univ.filter fun p : (Fin N → Fin (nlimb LOGQ) → Fin 5 → Fin (R+1)) × (Fin N → Fin 2 → Fin (R+1)) =>
      Ok (enc R pt s ct0 (maskStream p.1 (noiseStream p.2 ρ))) fun r => (∑ i, (r.1.1 i).sval) % 2 ≠ (∑ i, (pt i).sval) % 2) =
      univ ×ˢ univ.filter fun u : Fin N → Fin 2 → Fin (R+1) => ¬ (∑ i, noiseVal (u i 0) (u i 1)) % 2 = 0 := by
    ext p
    obtain ⟨r, hr, h⟩ := key p
    simp only [mem_univ, true_and, mem_filter, mem_product]
    constructor
    · rintro ⟨r', hr', h'⟩
      obtain rfl := pure_inj (hr.symm.trans hr')
      exact fun h2 => h' (h.2 h2)
    · exact fun h' => ⟨r, hr, fun h2 => h' (h.1 h2)⟩
  rw [e1, e2, card_product, card_product]
  have hc : (univ : Finset (Fin N → Fin (nlimb LOGQ) → Fin 5 → Fin (R+1))).card = (R+1)^(5 * nlimb LOGQ * N) := by
    rw [card_univ]
    simp only [Fintype.card_pi, Fintype.card_fin, prod_const, card_univ]
    rw [← pow_mul, ← pow_mul, Nat.mul_assoc]
  rw [hc]
  have h := noise_parity_count N (R+1)
  rw [← h]
  push_cast
  ring

end

section
variable {LOGQ j : Nat} [NeZero LOGQ]

open Classical in
/-- C107: with a key of odd weight there is nothing to read from the first component: for every noise and every plaintext each canonical polynomial
comes from the same number of draws of the mask. -/
theorem C107_odd (RAND_MAX k : Nat) (hR : RAND_MAX + 1 = 2^k) (hk : 13 ≤ k) (hN : 2^j ≤ 2^30) (pt : R_Q LOGQ (2^j)) (s : Fin (2^j) → Int)
    (hs : ∀ k, s k = -1 ∨ s k = 0 ∨ s k = 1) (hodd : (univ.filter fun k => s k ≠ 0).card % 2 = 1)
    (ct0 : R_Q_square LOGQ (2^j)) (u : Fin (2^j) → Fin 2 → Fin (RAND_MAX+1)) (ρ : Rng) (b : R_Q LOGQ (2^j)) (hb : ∀ i, (b i).Canonical) :
    (univ.filter fun t : Fin (2^j) → Fin (nlimb LOGQ) → Fin 5 → Fin (RAND_MAX+1) =>
      Ok (enc RAND_MAX pt s ct0 (maskStream t (noiseStream u ρ))) fun r => r.1.1 = b).card =
      (2^((5*k-64) * nlimb LOGQ + (64 * nlimb LOGQ - LOGQ)))^(2^j) := by
  have hsum : (∑ k, s k) % 2 = 1 := by
    have h := ternary_sum hs
    have h2 := (ZMod.intCast_eq_intCast_iff' (∑ k, s k) (weight s : Int) 2).1 (by rw [h]; norm_cast)
    have h3 : weight s % 2 = 1 := hodd
    have h4 : ((weight s : Nat) : Int) % 2 = 1 := by omega
    exact_mod_cast h2.trans h4
  obtain ⟨v, hv⟩ := (negconv_bij (LOGQ := LOGQ) hsum).2 (R_Q.cls pt + (red LOGQ fun i => noiseVal (u i 0) (u i 1)) - R_Q.cls b)
  obtain ⟨a, ha, hav⟩ := exists_canonical_cls v
  rw [← C54_mask_uniform RAND_MAX k hR hk ct0.2 ρ a ha]
  congr 1
  refine filter_congr fun t _ => ?_
  obtain ⟨r, hr, h1, h2, h3⟩ := enc_first hN t u ρ pt s hs ct0
  rw [← h2]
  constructor
  · rintro ⟨r', hr', h'⟩
    obtain rfl := pure_inj (hr.symm.trans hr')
    refine R_Q.ext_cls h1.2 ha ((negconv_bij (LOGQ := LOGQ) hsum).1 ?_)
    simp only [hav] at hv ⊢
    rw [hv, ← h', h3]
    abel
  · intro h'
    refine ⟨r, hr, R_Q.ext_cls h1.1 hb ?_⟩
    simp only at hv
    rw [h3, h', hav, hv]
    abel

open Classical in
/-- C107: decryption with a wrong key. If the weights of the two keys have different parities the result is uniform: for
every noise and every plaintext each canonical polynomial comes from the same number of draws of the mask. (If the parities agree, the parity
of the sum is the right one by `C107_parity`.) -/
theorem C107_wrong_key (RAND_MAX k : Nat) (hR : RAND_MAX + 1 = 2^k) (hk : 13 ≤ k) (hN : 2^j ≤ 2^30) (pt : R_Q LOGQ (2^j)) (s s' : Fin (2^j) → Int)
    (hs : ∀ k, s k = -1 ∨ s k = 0 ∨ s k = 1) (hs' : ∀ k, s' k = -1 ∨ s' k = 0 ∨ s' k = 1)
    (hodd : ((univ.filter fun k => s k ≠ 0).card + (univ.filter fun k => s' k ≠ 0).card) % 2 = 1)
    (ct0 : R_Q_square LOGQ (2^j)) (u : Fin (2^j) → Fin 2 → Fin (RAND_MAX+1)) (ρ : Rng) (b : R_Q LOGQ (2^j)) (hb : ∀ i, (b i).Canonical) :
    (univ.filter fun t : Fin (2^j) → Fin (nlimb LOGQ) → Fin 5 → Fin (RAND_MAX+1) =>
      Ok (enc RAND_MAX pt s ct0 (maskStream t (noiseStream u ρ))) fun r => dec r.1 s' = pure b).card =
      (2^((5*k-64) * nlimb LOGQ + (64 * nlimb LOGQ - LOGQ)))^(2^j) := by
  have hsum : (∑ k, (s' k - s k)) % 2 = 1 := by
    have h := ternary_sum hs
    have h' := ternary_sum hs'
    have h2 := (ZMod.intCast_eq_intCast_iff' (∑ k, s k) (weight s : Int) 2).1 (by rw [h]; norm_cast)
    have h2' := (ZMod.intCast_eq_intCast_iff' (∑ k, s' k) (weight s' : Int) 2).1 (by rw [h']; norm_cast)
    have h3 : (weight s + weight s') % 2 = 1 := hodd
    rw [sum_sub_distrib]
    omega
  have hlin : ∀ a : Fin (2^j) → ZMod (2^LOGQ), negconv (red LOGQ fun k => s' k - s k) a = negconv (red LOGQ s') a - negconv (red LOGQ s) a := fun a => by
    have e : (red LOGQ fun k => s' k - s k) = red LOGQ s' + -red LOGQ s := by
      funext i; simp [red, sub_eq_add_neg]
    rw [e, add_negconv, neg_negconv, sub_eq_add_neg]
  obtain ⟨v, hv⟩ := (negconv_bij (LOGQ := LOGQ) hsum).2 (R_Q.cls b - (R_Q.cls pt + (red LOGQ fun i => noiseVal (u i 0) (u i 1))))
  obtain ⟨a, ha, hav⟩ := exists_canonical_cls v
  rw [← C54_mask_uniform RAND_MAX k hR hk ct0.2 ρ a ha]
  congr 1
  refine filter_congr fun t _ => ?_
  obtain ⟨r, hr, h1, h2, h3⟩ := enc_first hN t u ρ pt s hs ct0
  obtain ⟨m, hm, hmc, hmp⟩ := dec_spec hN hs' r.1
  rw [phase_eq, h3] at hmp
  rw [← h2]
  constructor
  · rintro ⟨r', hr', h'⟩
    obtain rfl := pure_inj (hr.symm.trans hr')
    obtain rfl := pure_inj (hm.symm.trans h')
    refine R_Q.ext_cls h1.2 ha ((negconv_bij (LOGQ := LOGQ) hsum).1 ?_)
    simp only [hav] at hv ⊢
    rw [hv, hlin, hmp]
    abel
  · intro h'
    refine ⟨r, hr, hm.trans (congrArg pure (R_Q.ext_cls hmc hb ?_))⟩
    simp only [hlin] at hv
    rw [hmp, h', hav]
    have hv' := eq_add_of_sub_eq hv
    rw [hv']
    abel

/-! ## cases that meet the hypotheses -/

/-- a key of weight two and what the theorems say of it: the sum of the first component has the parity of the decryption -/
example (ct : R_Q_square 100 4) : Ok (dec ct ![1, 0, -1, 0]) fun m => (∑ i, (m i).sval) % 2 = (∑ i, (ct.1 i).sval) % 2 := by
  have hw : (univ.filter fun k : Fin 4 => (![1, 0, -1, 0] : Fin 4 → Int) k ≠ 0).card = 2 := by decide
  refine Ok.mono (C107_parity (by norm_num) ct ![1, 0, -1, 0] (by decide)) fun m h => ?_
  rw [hw] at h
  omega

open Classical in
/-- the numbers for `RAND_MAX = 2^15 - 1` and four coefficients: 3640/32768 is about 1/9 -/
example (pt : R_Q 100 4) (ct0 : R_Q_square 100 4) (ρ : Rng) :
    ((univ.filter fun p : (Fin 4 → Fin (nlimb 100) → Fin 5 → Fin (32767+1)) × (Fin 4 → Fin 2 → Fin (32767+1)) =>
      Ok (enc 32767 pt ![1, 0, -1, 0] ct0 (maskStream p.1 (noiseStream p.2 ρ))) fun r => (∑ i, (r.1.1 i).sval) % 2 = (∑ i, (pt i).sval) % 2).card : Int) -
    (univ.filter fun p : (Fin 4 → Fin (nlimb 100) → Fin 5 → Fin (32767+1)) × (Fin 4 → Fin 2 → Fin (32767+1)) =>
      Ok (enc 32767 pt ![1, 0, -1, 0] ct0 (maskStream p.1 (noiseStream p.2 ρ))) fun r => (∑ i, (r.1.1 i).sval) % 2 ≠ (∑ i, (pt i).sval) % 2).card =
      (32768^40 : Nat) * (32768 * 3640)^4 := by
  rw [C107_advantage (by norm_num) pt _ (by decide) (by decide) ct0 ρ]
  norm_num [nlimb]

open Classical in
/-- a key of weight three -/
example (pt b : R_Q 100 (2^2)) (hb : ∀ i, (b i).Canonical) (ct0 : R_Q_square 100 (2^2)) (u : Fin (2^2) → Fin 2 → Fin (32767+1)) (ρ : Rng) :
    (univ.filter fun t : Fin (2^2) → Fin (nlimb 100) → Fin 5 → Fin (32767+1) =>
      Ok (enc 32767 pt ![1, 0, -1, 1] ct0 (maskStream t (noiseStream u ρ))) fun r => r.1.1 = b).card = (2^(11 * 2 + 28))^4 := by
  rw [C107_odd 32767 15 (by norm_num) (by norm_num) (by norm_num) pt ![1, 0, -1, 1] (by decide) (by decide) ct0 u ρ b hb]
  norm_num [nlimb]

open Classical in
/-- encryption with a key of weight two, decryption with one of weight three -/
example (pt b : R_Q 100 (2^2)) (hb : ∀ i, (b i).Canonical) (ct0 : R_Q_square 100 (2^2)) (u : Fin (2^2) → Fin 2 → Fin (32767+1)) (ρ : Rng) :
    (univ.filter fun t : Fin (2^2) → Fin (nlimb 100) → Fin 5 → Fin (32767+1) =>
      Ok (enc 32767 pt ![1, 0, -1, 0] ct0 (maskStream t (noiseStream u ρ))) fun r => dec r.1 ![1, 0, -1, 1] = pure b).card = (2^(11 * 2 + 28))^4 := by
  rw [C107_wrong_key 32767 15 (by norm_num) (by norm_num) (by norm_num) pt ![1, 0, -1, 0] ![1, 0, -1, 1] (by decide) (by decide) (by decide) ct0 u ρ b hb]
  norm_num [nlimb]

end

end EvalRound

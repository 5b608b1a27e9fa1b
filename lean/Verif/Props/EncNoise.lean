import Verif.Proofs.NoiseProb

/-! # C98: the distribution of a fresh ciphertext -/

set_option linter.unusedSectionVars false

namespace EvalRound
open Finset Z_Q

variable {LOGQ N : Nat} [NeZero LOGQ]

/-- the stream that starts with the draws `u`, two for each coefficient, and goes on with `ρ` -/
def noiseStream {b : Nat} (u : Fin N → Fin 2 → Fin b) (ρ : Rng) : Rng := fun n =>
  if h : n < 2 * N then (u ⟨n / 2, Nat.div_lt_of_lt_mul h⟩ ⟨n % 2, Nat.mod_lt _ (by norm_num)⟩).val else ρ (n - 2 * N)

theorem encNoise_stream {b : Nat} (u : Fin N → Fin 2 → Fin b) (ρ : Rng) :
    (encNoise (noiseStream u ρ) : R_Q LOGQ N × Rng).2 = ρ ∧
    ∀ i, ((encNoise (noiseStream u ρ) : R_Q LOGQ N × Rng).1 i).cls = (noiseVal (u i 0) (u i 1) : ZMod (2^LOGQ)) := by
  rw [encNoise_eq]
  refine ⟨funext fun n => ?_, fun i => ?_⟩
  · simp only [Rng.drop, noiseStream]
    rw [dif_neg (by omega)]
    congr 1; omega
  · have h0 : noiseStream u ρ (2 * i) = (u i 0).val := by
      unfold noiseStream
      rw [dif_pos (by omega)]
      have e1 : (⟨2 * i.val / 2, by omega⟩ : Fin N) = i := Fin.ext (by simp)
      have e2 : (⟨2 * i.val % 2, by omega⟩ : Fin 2) = 0 := Fin.ext (by simp)
      rw [e1, e2]
    have h1 : noiseStream u ρ (2 * i + 1) = (u i 1).val := by
      unfold noiseStream
      rw [dif_pos (by omega)]
      have e1 : (⟨(2 * i.val + 1) / 2, by omega⟩ : Fin N) = i := Fin.ext (by simp; omega)
      have e2 : (⟨(2 * i.val + 1) % 2, by omega⟩ : Fin 2) = 1 := Fin.ext (by simp)
      rw [e1, e2]
    have hw : (BitVec.ofNat 64 ((u i 0).val % 9)).toNat = (u i 0).val % 9 := by
      rw [BitVec.toNat_ofNat]; omega
    simp only [h0, h1]
    unfold noiseVal
    split_ifs with h
    · rw [cls_negate, cls_ofW, hw, Int.cast_neg, Int.cast_natCast]
    · rw [cls_ofW, hw, Int.cast_natCast]

/-- C98: what `enc` makes of its draws: of the `5·l·N` values `t` the mask, of the `2·N` values `u`
that follow the noise `±(u_i0 % 9)`, and it takes no other value from the generator. -/
theorem C98_enc {R : Nat} (hN : N ≤ 2^30) (t : Fin N → Fin (nlimb LOGQ) → Fin 5 → Fin (R+1)) (u : Fin N → Fin 2 → Fin (R+1)) (ρ : Rng)
    (pt : R_Q LOGQ N) (s : Fin N → Int) (hs : ∀ k, s k = -1 ∨ s k = 0 ∨ s k = 1) (ct0 : R_Q_square LOGQ N) :
    Ok (enc R pt s ct0 (maskStream t (noiseStream u ρ))) fun r => r.2 = ρ ∧
      (∀ i, r.1.2 i = remove_clutter ⟨fun j => (rand_uint64 R (streamOf (t i j))).1⟩) ∧
      Ok (dec r.1 s) fun m => ∀ i, (m i).Canonical ∧ (m i).cls = (pt i).cls + (noiseVal (u i 0) (u i 1) : ZMod (2^LOGQ)) := by
  obtain ⟨n1, n2⟩ := encNoise_stream (LOGQ := LOGQ) u ρ
  unfold enc
  rw [encMask_stream]
  refine Ok.bind (convS_spec hN s _) fun p ⟨_, h⟩ => Ok.pure ⟨n1, fun _ => rfl, ?_⟩
  refine Ok.mono (dec_spec hN hs _) fun m hm' i => ⟨hm'.1 i, ?_⟩
  have hm := hm'.2
  rw [Ternary.tern hs] at h
  rw [phase_eq, R_Q.cls_sub, h, R_Q.copy_eq, R_Q.cls_add, sub_add_cancel] at hm
  have hmi := congrFun hm i
  show R_Q.cls m i = _
  rw [hmi, Pi.add_apply]
  show ((encNoise (noiseStream u ρ) : R_Q LOGQ N × Rng).1 i).cls + (pt i).cls = _
  rw [n2, add_comm]

open Classical in
/-- C98: the exact distribution of a fresh ciphertext. With `RAND_MAX+1 = 2^k` and `k ≥ 13`, of all
values `(t,u)` of the draws of one encryption the number that gives the mask `a` and the noise `e` is
a constant times a product over the coefficients of `e` alone. So the mask is uniform, the noise
coefficients are independent of it and of each other, and a coefficient is 0 twice as often as it is
`r` or `-r` for a given `r` in 1,…,8 (up to the rounding of `2^k/9`). -/
theorem C98_distribution (RAND_MAX k : Nat) (hR : RAND_MAX + 1 = 2^k) (hk : 13 ≤ k) (hN : N ≤ 2^30) (hQ : 5 ≤ LOGQ)
    (pt : R_Q LOGQ N) (s : Fin N → Int) (hs : ∀ k, s k = -1 ∨ s k = 0 ∨ s k = 1) (ct0 : R_Q_square LOGQ N) (ρ : Rng)
    (a : R_Q LOGQ N) (ha : ∀ i, (a i).Canonical) (e : Fin N → Int) (he : ∀ i, |e i| ≤ 8) :
    (univ.filter fun p : (Fin N → Fin (nlimb LOGQ) → Fin 5 → Fin (RAND_MAX+1)) × (Fin N → Fin 2 → Fin (RAND_MAX+1)) =>
      Ok (enc RAND_MAX pt s ct0 (maskStream p.1 (noiseStream p.2 ρ))) fun r => r.1.2 = a ∧
        Ok (dec r.1 s) fun m => ∀ i, (m i).cls = (pt i).cls + (e i : ZMod (2^LOGQ))).card =
      (2^((5*k-64) * nlimb LOGQ + (64 * nlimb LOGQ - LOGQ)))^N *
        ∏ i, if e i = 0 then 2^k * ((2^k+8)/9) else 2^(k-1) * ((2^k+8-(e i).natAbs)/9) := by
  -- the set is a product
  have h1 : (univ.filter fun p : (Fin N → Fin (nlimb LOGQ) → Fin 5 → Fin (RAND_MAX+1)) × (Fin N → Fin 2 → Fin (RAND_MAX+1)) =>
      Ok (enc RAND_MAX pt s ct0 (maskStream p.1 (noiseStream p.2 ρ))) fun r => r.1.2 = a ∧
        Ok (dec r.1 s) fun m => ∀ i, (m i).cls = (pt i).cls + (e i : ZMod (2^LOGQ))) =
      (univ.filter fun t : Fin N → Fin (nlimb LOGQ) → Fin 5 → Fin (RAND_MAX+1) => (encMask RAND_MAX a (maskStream t ρ)).1 = a) ×ˢ
        Fintype.piFinset fun i => univ.filter fun v : Fin 2 → Fin (RAND_MAX+1) => noiseVal (v 0) (v 1) = e i := by
    ext p
    simp only [mem_filter, mem_univ, true_and, mem_product, Fintype.mem_piFinset, encMask_stream]
    obtain ⟨r, hr, r1, r2, m, hm, hm2⟩ := C98_enc hN p.1 p.2 ρ pt s hs ct0
    constructor
    · rintro ⟨r', hr', a1, m', hm', hm3⟩
      have er : r = r' := pure_inj (hr.symm.trans hr')
      subst er
      have em : m = m' := pure_inj (hm.symm.trans hm')
      subst em
      refine ⟨?_, fun i => ?_⟩
      · rw [← a1]; exact (funext r2).symm
      · have h3 := add_left_cancel ((hm2 i).2.symm.trans (hm3 i))
        have h4 := (ZMod.intCast_eq_intCast_iff _ _ _).1 h3
        have h5 := abs_le.1 (noiseVal_abs (p.2 i 0) (p.2 i 1))
        have h6 := abs_le.1 (he i)
        obtain ⟨c, hc⟩ := h4.dvd
        have h7 : (32:ℤ) ≤ ((2^LOGQ : ℕ) : ℤ) := by
          exact_mod_cast (Nat.pow_le_pow_right (by norm_num) hQ : 2^5 ≤ 2^LOGQ)
        generalize ((2^LOGQ : ℕ) : ℤ) = q at *
        have hc0 : c = 0 := by
          by_contra hne
          rcases lt_or_gt_of_ne hne with h | h
          · have : q * c ≤ q * (-1) := mul_le_mul_of_nonneg_left (by omega) (by omega)
            omega
          · have : q * 1 ≤ q * c := mul_le_mul_of_nonneg_left (by omega) (by omega)
            omega
        rw [hc0] at hc
        omega
    · rintro ⟨b1, b2⟩
      refine ⟨r, hr, ?_, m, hm, fun i => ?_⟩
      · rw [← b1]; exact funext r2
      · rw [(hm2 i).2, b2 i]
  rw [h1, card_product, C54_mask_uniform RAND_MAX k hR hk a ρ a ha, Fintype.card_piFinset]
  congr 1
  refine prod_congr rfl fun i _ => ?_
  have hk2 : RAND_MAX + 1 = 2 * 2^(k-1) := by rw [hR, ← pow_succ']; congr 1; omega
  have h2 := count_noise (2^(k-1)) (e i) (he i)
  rw [← hk2] at h2
  rw [h2]
  unfold ways
  rw [← hk2, hR]

open Classical in
/-- C98: the noise of a fresh ciphertext in the slots. For a plaintext that the noise cannot carry
over the modulus, all but a fraction `2N·exp(-3T²/(136N))` of the draws of `enc` give a ciphertext
whose decryption differs from the plaintext by less than `T` in every slot. (The worst case is only bounded by
`8N`.) -/
theorem C98_slots (RAND_MAX : Nat) (hR : 2 ∣ RAND_MAX + 1) (hN : N ≤ 2^30) (hN0 : 0 < N) (h2 : 2 ∣ N)
    (pt : R_Q LOGQ N) (hpt : ∀ i, -2^(LOGQ-1) + 8 ≤ (pt i).sval ∧ (pt i).sval + 8 < 2^(LOGQ-1))
    (s : Fin N → Int) (hs : ∀ k, s k = -1 ∨ s k = 0 ∨ s k = 1) (ct0 : R_Q_square LOGQ N) (ρ : Rng) {T : ℝ} (hT : 0 ≤ T) :
    ((univ.filter fun p : (Fin N → Fin (nlimb LOGQ) → Fin 5 → Fin (RAND_MAX+1)) × (Fin N → Fin 2 → Fin (RAND_MAX+1)) =>
      ¬ Ok (enc RAND_MAX pt s ct0 (maskStream p.1 (noiseStream p.2 ρ))) fun r => Ok (dec r.1 s) fun m =>
        ∀ i < N/2, ‖slotOf (fun k => ((m k).sval : ℝ)) i - slotOf (fun k => ((pt k).sval : ℝ)) i‖ < T).card : ℝ) ≤
      2*N * Real.exp (-(3*T^2 / (136*N))) *
        Fintype.card ((Fin N → Fin (nlimb LOGQ) → Fin 5 → Fin (RAND_MAX+1)) × (Fin N → Fin 2 → Fin (RAND_MAX+1))) := by
  have hsub : (univ.filter fun p : (Fin N → Fin (nlimb LOGQ) → Fin 5 → Fin (RAND_MAX+1)) × (Fin N → Fin 2 → Fin (RAND_MAX+1)) =>
      ¬ Ok (enc RAND_MAX pt s ct0 (maskStream p.1 (noiseStream p.2 ρ))) fun r => Ok (dec r.1 s) fun m =>
        ∀ i < N/2, ‖slotOf (fun k => ((m k).sval : ℝ)) i - slotOf (fun k => ((pt k).sval : ℝ)) i‖ < T) ⊆
      univ ×ˢ univ.filter fun u : Fin N → Fin 2 → Fin (RAND_MAX+1) =>
        ∃ i < N/2, T ≤ ‖slotOf (fun k => (noiseVal (u k 0) (u k 1) : ℝ)) i‖ := by
    intro p hp
    simp only [mem_filter, mem_univ, true_and, mem_product] at hp ⊢
    by_contra hc
    push Not at hc
    refine hp (Ok.mono (C98_enc hN p.1 p.2 ρ pt s hs ct0) fun r hr => Ok.mono hr.2.2 fun m hm i hi => ?_)
    have hv : ∀ k, (m k).sval = (pt k).sval + noiseVal (p.2 k 0) (p.2 k 1) := fun k => by
      have h8 := abs_le.1 (noiseVal_abs (p.2 k 0) (p.2 k 1))
      have hb := hpt k
      refine sval_eq_of_cls ?_ (by omega) (by omega)
      rw [(hm k).2, Int.cast_add, sval_cls]
    have hd : slotOf (fun k => ((m k).sval : ℝ)) i - slotOf (fun k => ((pt k).sval : ℝ)) i =
        slotOf (fun k => (noiseVal (p.2 k 0) (p.2 k 1) : ℝ)) i := by
      unfold slotOf
      rw [← sum_sub_distrib]
      refine sum_congr rfl fun k _ => ?_
      simp only [hv k]
      push_cast
      ring
    rw [hd]
    exact hc i hi
  refine (Nat.cast_le.2 (card_le_card hsub)).trans ?_
  rw [card_product, card_univ, Fintype.card_prod, Nat.cast_mul, Nat.cast_mul]
  refine (mul_le_mul_of_nonneg_left (slots_tail hR hN0 h2 hT) (Nat.cast_nonneg _)).trans (le_of_eq ?_)
  ring

/-- the weights of the noise values: zero is drawn twice as often as any other value, up to rounding -/
theorem C98_zero_twice (k : Nat) (hk : 1 ≤ k) (e : Int) (he : |e| ≤ 8) :
    2 * (2^(k-1) * ((2^k+8-e.natAbs)/9)) ≤ 2^k * ((2^k+8)/9) ∧
      2^k * ((2^k+8)/9) ≤ 2 * (2^(k-1) * ((2^k+8-e.natAbs)/9)) + 2^k := by
  have h : (2:ℕ)^k = 2 * 2^(k-1) := by rw [← pow_succ']; congr 1; omega
  rw [abs_le] at he
  rw [← mul_assoc, ← h]
  generalize (2:ℕ)^k = q at *
  constructor
  · exact Nat.mul_le_mul_left _ (by omega)
  · calc q * ((q+8)/9) ≤ q * ((q+8-e.natAbs)/9 + 1) := Nat.mul_le_mul_left _ (by omega)
      _ = _ := by ring

-- glibc at the largest ring of the experiments: but for a fraction 2^-200 of the draws every slot of
-- the noise is below 2^15 (the worst case is 2^20); a plaintext, a mask and a noise that meet the
-- hypotheses
example : (2147483647 : Nat) + 1 = 2^31 ∧ 2 ∣ 2147483647 + 1 ∧ (2^17 : Nat) ≤ 2^30 ∧ 2 ∣ 2^17 ∧
    2*((2^17 : ℕ) : ℝ) * Real.exp (-(3*((2:ℝ)^15)^2 / (136*((2^17 : ℕ) : ℝ)))) ≤ 1/2^200 ∧
    (-2^(100-1) + 8 ≤ (Z_Q.ofNat 100 (2^98 + 12345)).sval ∧ (Z_Q.ofNat 100 (2^98 + 12345)).sval + 8 < 2^(100-1)) ∧
    (Z_Q.ofNat 100 (2^99 + 12345)).Canonical ∧ |(-7 : Int)| ≤ 8 := by
  refine ⟨by norm_num, by norm_num, by norm_num, by norm_num, ?_, ?_, ?_, by norm_num⟩
  · have h1 : Real.exp (-(3*((2:ℝ)^15)^2 / (136*((2^17 : ℕ) : ℝ)))) ≤ Real.exp (-180) :=
      Real.exp_le_exp.2 (by norm_num)
    have h2 : (2:ℝ)^180 ≤ Real.exp 180 / 2^40 := by
      rw [show (180:ℝ) = ((180:ℕ):ℝ) * 1 by norm_num, Real.exp_nat_mul]
      have h3 : (2.7:ℝ) ≤ Real.exp 1 := by have := Real.exp_one_gt_d9; linarith
      rw [le_div_iff₀ (by positivity)]
      refine le_trans ?_ (pow_le_pow_left₀ (by norm_num) h3 180)
      norm_num
    rw [Real.exp_neg 180] at h1
    have h4 : (2:ℝ)^220 ≤ Real.exp 180 := by
      rw [le_div_iff₀ (by positivity)] at h2
      exact le_trans (by norm_num) h2
    have h5 : (Real.exp 180)⁻¹ ≤ ((2:ℝ)^220)⁻¹ := inv_anti₀ (by positivity) h4
    refine (mul_le_mul_of_nonneg_left (h1.trans h5) (by positivity)).trans ?_
    norm_num
  · have h : (Z_Q.ofNat 100 (2^98 + 12345)).sval = 2^98 + 12345 := by
      refine sval_eq_of_cls ?_ (by norm_num) (by norm_num)
      rw [Z_Q.cls, Z_Q.val_ofNat_of_lt (by norm_num)]
      norm_num
    rw [h]
    norm_num
  · unfold Z_Q.Canonical; rw [Z_Q.val_ofNat_of_lt (by norm_num)]; norm_num

end EvalRound

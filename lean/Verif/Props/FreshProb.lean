import Verif.Proofs.FloatDecode
import Verif.Proofs.LinTransSlots
import Verif.Props.EncNoise
import Verif.Props.Float

/-! # C101: encode, encrypt, decrypt, decode in binary64, over the draws of the encryption -/

set_option linter.unusedSectionVars false

namespace EvalRound
open Finset Z_Q

variable {LOGN LOGQ : Nat} [NeZero LOGQ] {L : Libm}

/-- one choice of the draws: the noise enters the result through its slots -/
theorem fresh_out (hL : L.Accurate) {R : Nat} (h1 : 2 ≤ LOGN) (h2 : LOGN ≤ 27) (hQ : LOGQ ≤ 2^29) (LOGDELTA : Nat) (hD : LOGDELTA < 64)
    (z : CVec LOGN) (B : ℝ) (hz : ∀ i : Fin (2^(LOGN-1)), ‖(⟨z.1 i, z.2 i⟩ : ℂ)‖ ≤ B) {T : ℝ}
    (hw : (B * 2^LOGDELTA + T) * (1 + 1/2^40) + 2 ≤ 2^64) (hq : B * 2^LOGDELTA * (1 + 1/2^40) + 11 ≤ 2^(LOGQ-1))
    (s : Fin (2^LOGN) → Int) (hs : ∀ k, s k = -1 ∨ s k = 0 ∨ s k = 1) (ct0 : R_Q_square LOGQ (2^LOGN)) (ρ : Rng)
    (t : Fin (2^LOGN) → Fin (nlimb LOGQ) → Fin 5 → Fin (R+1)) (u : Fin (2^LOGN) → Fin 2 → Fin (R+1))
    (hT : ∀ i < 2^LOGN/2, ‖slotOf (fun k => (noiseVal (u k 0) (u k 1) : ℝ)) i‖ < T) :
    Ok (do
      let pt ← encodeF L LOGQ z (BitVec.ofNat 64 (2^LOGDELTA))
      let r ← enc R pt s ct0 (maskStream t (noiseStream u ρ))
      let pt ← dec r.1 s
      decode_logF L pt LOGDELTA) fun z' => ∀ i : Fin (2^(LOGN-1)),
        ‖(⟨z'.1 i, z'.2 i⟩ : ℂ) - ⟨z.1 i, z.2 i⟩‖ ≤ (2^(LOGN-1) * (1 + 1/2^40) + T) / 2^LOGDELTA +
          Real.sqrt 2 ^ (LOGN-1) * ((56 * (LOGN - 1) + 15) / 2^53 * (B + T / 2^LOGDELTA)) + 1/2^900 := by
  obtain ⟨n, rfl⟩ : ∃ n, LOGN = n + 1 := ⟨LOGN - 1, by omega⟩
  have hN : 2^(n+1) ≤ 2^30 := Nat.pow_le_pow_right (by norm_num) (by omega)
  have hδ : (((BitVec.ofNat 64 (2^LOGDELTA)).toNat : ℕ) : ℝ) = 2^LOGDELTA := toNat_scale hD
  have hne : BitVec.ofNat 64 (2^LOGDELTA) ≠ 0 := scale_ne_zero hD
  have hp0 : (0:ℝ) < 2^LOGDELTA := by positivity
  have hhalf : 2^(n+1)/2 = 2^n := by rw [pow_succ]; omega
  have hT' : ∀ i : Fin (2^n), ‖slotOf (fun k => (noiseVal (u k 0) (u k 1) : ℝ)) i‖ < T := fun i => hT i (by rw [hhalf]; exact i.isLt)
  have hT0 : 0 ≤ T := (norm_nonneg _).trans (hT' ⟨0, Nat.two_pow_pos n⟩).le
  have hw0 : B * 2^LOGDELTA * (1 + 1/2^40) + 2 ≤ 2^64 := by
    have : B * 2^LOGDELTA * (1 + 1/2^40) ≤ (B * 2^LOGDELTA + T) * (1 + 1/2^40) := mul_le_mul_of_nonneg_right (by linarith) (by norm_num)
    linarith
  refine Ok.bind (encodeF_l2 (n := n) hL (by omega) (by omega) z _ hne hz (by rw [hδ]; exact hw0) (by rw [hδ]; linarith))
    fun pt ⟨m, y, hm, hy, hl⟩ => ?_
  rw [hδ] at hl
  refine Ok.bind (C98_enc hN t u ρ pt s hs ct0) fun r ⟨_, _, hr⟩ => ?_
  refine Ok.bind hr fun pt' hp => ?_
  obtain ⟨e, he⟩ : ∃ e : Fin (2^(n+1)) → Int, e = fun k => noiseVal (u k 0) (u k 1) := ⟨_, rfl⟩
  have he8 : ∀ k, |(e k : ℝ)| ≤ 8 := fun k => by rw [he]; exact_mod_cast noiseVal_abs (u k 0) (u k 1)
  have hsz : ∀ k, |((pt k).sval : ℝ)| ≤ B * 2^LOGDELTA * (1 + 1/2^40) + 2 := fun k => code_size (by omega) hz hm hl (hy k).2
  have hsv : ∀ k, (pt' k).sval = (pt k).sval + e k := by
    intro k
    have a1 : |(pt k).sval + e k| < 2^(LOGQ-1) := by
      have b1 := hsz k
      have b2 := he8 k
      have b3 := abs_add_le ((pt k).sval : ℝ) (e k)
      have b4 : |((pt k).sval : ℝ) + e k| < 2^(LOGQ-1) := by linarith
      exact_mod_cast b4
    have a2 := abs_lt.1 a1
    refine sval_eq_of_cls ?_ a2.1.le a2.2
    rw [(hp k).2, Int.cast_add, sval_cls, he]
  -- the message with the noise
  have hse : ∀ i : Fin (2^n), ‖slotOf (fun k => (e k : ℝ)) i‖ ≤ T := fun i => by rw [he]; exact (hT' i).le
  obtain ⟨z1, hz1⟩ : ∃ z1 : CVec (n+1), z1 = (fun i => z.1 i + (slotOf (fun k => (e k : ℝ)) i * (1 / 2^LOGDELTA : ℝ)).re,
    fun i => z.2 i + (slotOf (fun k => (e k : ℝ)) i * (1 / 2^LOGDELTA : ℝ)).im) := ⟨_, rfl⟩
  have hz1' : ∀ i : Fin (2^n), (⟨z1.1 i, z1.2 i⟩ : ℂ) = ⟨z.1 i, z.2 i⟩ + slotOf (fun k => (e k : ℝ)) i * (1 / 2^LOGDELTA : ℝ) := fun i => by
    rw [hz1]
    apply Complex.ext <;> simp
  have hd : ∀ i : Fin (2^n), ‖slotOf (fun k => (e k : ℝ)) i * (1 / 2^LOGDELTA : ℝ)‖ ≤ T / 2^LOGDELTA := fun i => by
    rw [norm_mul, Complex.norm_real, Real.norm_eq_abs, abs_of_pos (by positivity : (0:ℝ) < 1/2^LOGDELTA), mul_one_div]
    exact div_le_div_of_nonneg_right (hse i) hp0.le
  have hB1 : ∀ i : Fin (2^n), ‖(⟨z1.1 i, z1.2 i⟩ : ℂ)‖ ≤ B + T / 2^LOGDELTA := fun i => by
    rw [hz1' i]
    exact (norm_add_le _ _).trans (add_le_add (hz i) (hd i))
  have hm1 : ∀ i : Fin (2^n), slotOf (fun k => m k + (e k : ℝ) * (1 / 2^LOGDELTA)) i = ⟨z1.1 i, z1.2 i⟩ := fun i => by
    rw [slotOf_add, slotOf_smul, hm i, hz1' i]
  have hl1 : l2 (pairC n fun k => (y k + e k) - (m k + (e k : ℝ) * (1 / 2^LOGDELTA)) * 2^LOGDELTA) ≤
      (28 * n + 6) * uF * ((B + T / 2^LOGDELTA) * 2^LOGDELTA) + 2^106 * etaF := by
    have e1 : (fun k => (y k + e k) - (m k + (e k : ℝ) * (1 / 2^LOGDELTA)) * 2^LOGDELTA) = fun k => y k - m k * 2^LOGDELTA := by
      funext k
      have := hp0.ne'
      generalize (2:ℝ)^LOGDELTA = p at *
      field_simp
      ring
    rw [e1]
    refine hl.trans (add_le_add (mul_le_mul_of_nonneg_left (mul_le_mul_of_nonneg_right ?_ hp0.le) ?_) le_rfl)
    · have : 0 ≤ T / 2^LOGDELTA := by positivity
      linarith
    · have := uF_pos.le; positivity
  have hw1 : (B + T / 2^LOGDELTA) * 2^LOGDELTA * (1 + 1/2^40) + 2 ≤ 2^64 := by
    rw [add_mul, div_mul_cancel₀ _ hp0.ne']; exact hw
  refine Ok.mono (code_out (n := n) hL (by omega) (by omega) hQ (by omega) hB1 hw1 hm1 hl1 pt' (fun k => (hp k).1) (E := 1/2) (fun k => ?_)
    (by norm_num)) fun z' h i => ?_
  · rw [hsv k]
    push_cast
    rw [add_sub_add_right_eq_sub]
    exact (hy k).2
  have k1 := h i
  rw [hz1' i] at k1
  have k2 := norm_add_le ((⟨z'.1 i, z'.2 i⟩ : ℂ) - (⟨z.1 i, z.2 i⟩ + slotOf (fun k => (e k : ℝ)) i * (1 / 2^LOGDELTA : ℝ)))
    (slotOf (fun k => (e k : ℝ)) i * (1 / 2^LOGDELTA : ℝ))
  rw [show (⟨z'.1 i, z'.2 i⟩ : ℂ) - (⟨z.1 i, z.2 i⟩ + slotOf (fun k => (e k : ℝ)) i * (1 / 2^LOGDELTA : ℝ)) +
    slotOf (fun k => (e k : ℝ)) i * (1 / 2^LOGDELTA : ℝ) = (⟨z'.1 i, z'.2 i⟩ : ℂ) - ⟨z.1 i, z.2 i⟩ by ring] at k2
  refine k2.trans ((add_le_add k1 (hd i)).trans (le_of_eq ?_))
  show _ = (2^n * (1 + 1/2^40) + T) / 2^LOGDELTA + Real.sqrt 2 ^ n * ((56 * (((n+1 : ℕ) : ℝ) - 1) + 15) / 2^53 * (B + T / 2^LOGDELTA)) + 1/2^900
  rw [uF_eq]
  push_cast
  generalize (1:ℝ)/2^900 = c
  ring

open Classical in
/-- C101: encode, encrypt, decrypt, decode in binary64. All but a fraction `2N·exp(-3T²/(136N))` of the draws of the encryption
return every slot up to `(N/2·(1+2^-40) + T)/Delta` and the rounding errors of the transforms. (In the worst case, C73, the first term
is `17·N/2/Delta`.) -/
theorem C101_fresh (hL : L.Accurate) (R : Nat) (hR : 2 ∣ R + 1) (h1 : 2 ≤ LOGN) (h2 : LOGN ≤ 27) (hQ : LOGQ ≤ 2^29)
    (LOGDELTA : Nat) (hD : LOGDELTA < 64)
    (z : CVec LOGN) (B : ℝ) (hz : ∀ i : Fin (2^(LOGN-1)), ‖(⟨z.1 i, z.2 i⟩ : ℂ)‖ ≤ B) {T : ℝ} (hT : 0 ≤ T)
    (hw : (B * 2^LOGDELTA + T) * (1 + 1/2^40) + 2 ≤ 2^64) (hq : B * 2^LOGDELTA * (1 + 1/2^40) + 11 ≤ 2^(LOGQ-1))
    (s : Fin (2^LOGN) → Int) (hs : ∀ k, s k = -1 ∨ s k = 0 ∨ s k = 1) (ct0 : R_Q_square LOGQ (2^LOGN)) (ρ : Rng) :
    ((univ.filter fun p : (Fin (2^LOGN) → Fin (nlimb LOGQ) → Fin 5 → Fin (R+1)) × (Fin (2^LOGN) → Fin 2 → Fin (R+1)) =>
      ¬ Ok (do
        let pt ← encodeF L LOGQ z (BitVec.ofNat 64 (2^LOGDELTA))
        let r ← enc R pt s ct0 (maskStream p.1 (noiseStream p.2 ρ))
        let pt ← dec r.1 s
        decode_logF L pt LOGDELTA) fun z' => ∀ i : Fin (2^(LOGN-1)),
          ‖(⟨z'.1 i, z'.2 i⟩ : ℂ) - ⟨z.1 i, z.2 i⟩‖ ≤ (2^(LOGN-1) * (1 + 1/2^40) + T) / 2^LOGDELTA +
            Real.sqrt 2 ^ (LOGN-1) * ((56 * (LOGN - 1) + 15) / 2^53 * (B + T / 2^LOGDELTA)) + 1/2^900).card : ℝ) ≤
      2 * 2^LOGN * Real.exp (-(3*T^2 / (136*2^LOGN))) *
        Fintype.card ((Fin (2^LOGN) → Fin (nlimb LOGQ) → Fin 5 → Fin (R+1)) × (Fin (2^LOGN) → Fin 2 → Fin (R+1))) := by
  refine le_trans (Nat.cast_le.2 (card_le_card (t := univ ×ˢ univ.filter fun u : Fin (2^LOGN) → Fin 2 → Fin (R+1) =>
        ∃ i < 2^LOGN/2, T ≤ ‖slotOf (fun k => (noiseVal (u k 0) (u k 1) : ℝ)) i‖) fun p hp => ?_)) ?_
  · simp only [mem_filter, mem_univ, true_and, mem_product] at hp ⊢
    by_contra hc
    push Not at hc
    exact hp (fresh_out hL h1 h2 hQ LOGDELTA hD z B hz hw hq s hs ct0 ρ p.1 p.2 hc)
  · rw [card_product, card_univ, Fintype.card_prod, Nat.cast_mul, Nat.cast_mul]
    have h := slots_tail (N := 2^LOGN) (b := R+1) hR (Nat.two_pow_pos _) (dvd_pow_self 2 (by omega)) hT
    refine (mul_le_mul_of_nonneg_left h (Nat.cast_nonneg _)).trans (le_of_eq ?_)
    push_cast
    ring

open Classical in
/-- The shape of the drivers: `LOGN = 17`, `LOGQ = 1200`, scale `2^50`, slots of modulus at most 1. But for a fraction `2^-200` of the draws
every slot comes back within `2^-33`. (In the worst case within `2^-29`, C73.) -/
example (R LOGN : Nat) (hR : R = 2147483647) (hN : LOGN = 17) (z : CVec LOGN) (hz : ∀ i : Fin (2^(LOGN-1)), ‖(⟨z.1 i, z.2 i⟩ : ℂ)‖ ≤ 1) (s : Fin (2^LOGN) → Int)
    (hs : ∀ k, s k = -1 ∨ s k = 0 ∨ s k = 1) (ct0 : R_Q_square 1200 (2^LOGN)) (ρ : Rng) :
    ((univ.filter fun p : (Fin (2^LOGN) → Fin (nlimb 1200) → Fin 5 → Fin (R+1)) × (Fin (2^LOGN) → Fin 2 → Fin (R+1)) =>
      ¬ Ok (do
        let pt ← encodeF exactLibm 1200 z (BitVec.ofNat 64 (2^50))
        let r ← enc R pt s ct0 (maskStream p.1 (noiseStream p.2 ρ))
        let pt ← dec r.1 s
        decode_logF exactLibm pt (50 : ℕ)) fun z' => ∀ i : Fin (2^(LOGN-1)), ‖(⟨z'.1 i, z'.2 i⟩ : ℂ) - ⟨z.1 i, z.2 i⟩‖ ≤ 1/2^33).card : ℝ) ≤
      1/2^200 * Fintype.card ((Fin (2^LOGN) → Fin (nlimb 1200) → Fin 5 → Fin (R+1)) × (Fin (2^LOGN) → Fin 2 → Fin (R+1))) := by
  have h := C101_fresh (LOGN := LOGN) (LOGQ := 1200) exactLibm_accurate R (by rw [hR]; norm_num) (by omega) (by omega) (by norm_num) 50 (by norm_num)
    z 1 hz (T := 2^15) (by norm_num) (by norm_num)
    (le_trans (b := (2:ℝ)^60) (by norm_num) (pow_le_pow_right₀ (by norm_num) (by norm_num))) s hs ct0 ρ
  refine le_trans ?_ (h.trans (mul_le_mul_of_nonneg_right ?_ (Nat.cast_nonneg _)))
  · refine Nat.cast_le.2 (card_le_card fun t ht => ?_)
    refine mem_filter.2 ⟨mem_univ _, fun hok => (mem_filter.1 ht).2 (Ok.mono hok fun m hm i => (hm i).trans ?_)⟩
    have h2 : (1:ℝ)/2^900 ≤ 1/2^60 := one_div_le_one_div_of_le (by positivity) (pow_le_pow_right₀ (by norm_num) (by norm_num))
    have h3 : Real.sqrt 2 ^ 16 = 2^8 := by rw [show 16 = 2 * 8 by norm_num, pow_mul, Real.sq_sqrt (by norm_num)]
    refine (add_le_add le_rfl h2).trans ?_
    rw [hN]
    show (2^16 * (1 + 1/2^40) + 2^15) / 2^50 + Real.sqrt 2 ^ 16 * ((56 * (((17:ℕ):ℝ) - 1) + 15) / 2^53 * (1 + 2^15 / 2^50)) + 1/2^60 ≤ 1/2^33
    rw [h3]
    norm_num
  · rw [hN]
    have h1 : Real.exp (-(3*((2:ℝ)^15)^2 / (136*2^17))) ≤ Real.exp (-180) :=
      Real.exp_le_exp.2 (by norm_num)
    rw [Real.exp_neg 180] at h1
    have h4 : (2:ℝ)^220 ≤ Real.exp 180 := by
      rw [show (180:ℝ) = ((180:ℕ):ℝ) * 1 by norm_num, Real.exp_nat_mul]
      have h3 : (2.7:ℝ) ≤ Real.exp 1 := by have := Real.exp_one_gt_d9; linarith
      refine le_trans ?_ (pow_le_pow_left₀ (by norm_num) h3 180)
      norm_num
    have h5 : (Real.exp 180)⁻¹ ≤ ((2:ℝ)^220)⁻¹ := inv_anti₀ (by positivity) h4
    refine (mul_le_mul_of_nonneg_left (h1.trans h5) (by positivity)).trans ?_
    norm_num

end EvalRound

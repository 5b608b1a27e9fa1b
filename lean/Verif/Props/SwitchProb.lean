import Verif.Proofs.SwitchProb

/-! # C99: the error of key switching for all but a few of the draws of the key -/

set_option linter.unusedSectionVars false

namespace EvalRound
open Finset Z_Q

variable {LOGQ : Nat} [NeZero LOGQ]

open Classical in
/-- C99: `ks` with a key that `swkgen` drew after the ciphertext was fixed. For every `T`, all but a
fraction `2N·exp(-3T²/(136N))` of the draws give an error below `T + (h+1)/2` in every coefficient. -/
theorem C99_ks (RAND_MAX : Nat) (hR : 2 ∣ RAND_MAX + 1) (k : Nat) (hk1 : 1 ≤ k) (hk : k ≤ 17)
    (hQ : 2 * LOGQ ≤ 60 ∨ 65 ≤ 2 * LOGQ ∧ 2 * LOGQ ≤ 3051) (s_fr s_to : Fin (2^k) → Int)
    (hf : ∀ i, -2^31 < s_fr i ∧ s_fr i < 2^31) (hs : ∀ k, s_to k = -1 ∨ s_to k = 0 ∨ s_to k = 1)
    (swk0 : R_Q_square (2 * LOGQ) (2^k)) (ct : R_Q_square LOGQ (2^k)) (hct : ct.Canonical) (ρ : Rng) {T : ℝ} (hT : 0 ≤ T) :
    ((univ.filter fun p : (Fin (2^k) → Fin (nlimb (2 * LOGQ)) → Fin 5 → Fin (RAND_MAX+1)) × (Fin (2^k) → Fin 2 → Fin (RAND_MAX+1)) =>
      ¬ Ok (do let r ← swkgen RAND_MAX s_fr s_to swk0 (maskStream p.1 (noiseStream p.2 ρ))
               let ct' ← ks r.1 ct
               dec ct' s_to) fun m => ∀ i, ∃ e : Int, 2 * |(e : ℝ)| < 2*T + ((univ.filter fun k => s_to k ≠ 0).card + 1) ∧
        (m i).cls = (ct.1 i).cls + negconv (fun j => (s_fr j : ZMod (2^LOGQ))) (fun j => (ct.2 j).cls) i + e).card : ℝ) ≤
      2*(2^k : ℕ) * Real.exp (-(3*T^2 / (136*(2^k : ℕ)))) *
        Fintype.card ((Fin (2^k) → Fin (nlimb (2 * LOGQ)) → Fin 5 → Fin (RAND_MAX+1)) × (Fin (2^k) → Fin 2 → Fin (RAND_MAX+1))) := by
  have hN : 2^k ≤ 2^30 := Nat.pow_le_pow_right (by norm_num) (by omega)
  refine draws_tail hR (by positivity) (fun j => ((ct.2 j).val : Int)) (C := 2^LOGQ) (by positivity) (fun i => ?_) hT _ fun p hp => ?_
  · have := hct.2 i
    unfold Canonical at this
    rw [abs_of_nonneg (by positivity)]
    exact_mod_cast this.le
  refine Ok.bind (swkgen_stream hN hf hs swk0 p.1 p.2 ρ) fun r ⟨hr, _, hph⟩ => ?_
  refine Ok.bind (ks_err hQ hk1 hk hr hph hct) fun y ⟨_, E, hE, hyp⟩ => ?_
  refine Ok.mono (dec_spec hN hs y) fun m ⟨hm, h2⟩ i => ⟨E i, err_scale ?_ (hp i), ?_⟩
  · have h3 := hE i
    have h4 := Ternary.sum_abs hs
    unfold weight at h4
    rw [h4] at h3
    exact h3
  · exact (congrFun h2 i).trans (congrFun hyp i)

open Classical in
/-- C99: `Mul` with an evaluation key drawn after the two ciphertexts were fixed: all but a fraction
`2N·exp(-3T²/(34N))` of the draws give the product up to `T + (h+1)/2`. -/
theorem C99_Mul (RAND_MAX : Nat) (hR : 2 ∣ RAND_MAX + 1) (k : Nat) (hk1 : 1 ≤ k) (hk : k ≤ 17)
    (hQ : LOGQ ≤ 60 ∨ 65 ≤ LOGQ) (hQ2 : 2 * LOGQ ≤ 60 ∨ 65 ≤ 2 * LOGQ ∧ 2 * LOGQ ≤ 3051)
    (s : Fin (2^k) → Int) (hs : ∀ k, s k = -1 ∨ s k = 0 ∨ s k = 1)
    (evk0 : R_Q_square (2 * LOGQ) (2^k)) (ct1 ct2 ct3 : R_Q_square LOGQ (2^k))
    (h1 : ct1.Canonical) (h2 : ct2.Canonical) (ρ : Rng) {T : ℝ} (hT : 0 ≤ T) :
    ((univ.filter fun p : (Fin (2^k) → Fin (nlimb (2 * LOGQ)) → Fin 5 → Fin (RAND_MAX+1)) × (Fin (2^k) → Fin 2 → Fin (RAND_MAX+1)) =>
      ¬ Ok (do let ss ← convI s s
               let r ← swkgen RAND_MAX ss s evk0 (maskStream p.1 (noiseStream p.2 ρ))
               let ct3 ← Mul ct1 ct2 r.1 ct3
               let m3 ← dec ct3 s
               let m1 ← dec ct1 s
               let m2 ← dec ct2 s
               pure (m1, m2, m3)) fun q => ∀ i, ∃ e : Int, 2 * |(e : ℝ)| < 2*T + ((univ.filter fun k => s k ≠ 0).card + 1) ∧
        (q.2.2 i).cls = negconv (fun j => (q.1 j).cls) (fun j => (q.2.1 j).cls) i + e).card : ℝ) ≤
      2*(2^k : ℕ) * Real.exp (-(3*T^2 / (34*(2^k : ℕ)))) *
        Fintype.card ((Fin (2^k) → Fin (nlimb (2 * LOGQ)) → Fin 5 → Fin (RAND_MAX+1)) × (Fin (2^k) → Fin 2 → Fin (RAND_MAX+1))) := by
  have hN : 2^k ≤ 2^30 := Nat.pow_le_pow_right (by norm_num) (by omega)
  have hN17 : 2^k ≤ 2^17 := Nat.pow_le_pow_right (by norm_num) (by omega)
  have ht : Ternary s := hs
  have hb : ∀ i, -2^31 < negconv s s i ∧ negconv s s i < 2^31 := by
    intro i
    have h3 := negconv_abs_le' s s (A := 1) (B := 1) ht.abs_le (by norm_num) ht.abs_le i
    have h4 : ((2^k : Nat) : Int) ≤ 2^17 := by exact_mod_cast hN17
    have h5 := abs_le.1 h3
    constructor <;> omega
  obtain ⟨c, hc, hMul⟩ := Mul_err (by unfold ConvLOGQ; omega) hQ2 hk1 hk h1 h2
  have e34 : 3*T^2 / (34*((2^k : ℕ):ℝ)) = 3*(2*T)^2 / (136*((2^k : ℕ):ℝ)) := by
    rw [div_eq_div_iff (by positivity) (by positivity)]
    ring
  rw [e34]
  refine draws_tail hR (by positivity) c (C := 2^(LOGQ-1)) (by positivity) (fun i => ?_) (by linarith) _ fun p hp => ?_
  · exact_mod_cast hc i
  rw [convI_spec hN s s ht.abs_le ht.abs_le, pure_bind]
  refine Ok.bind (swkgen_stream hN hb ht evk0 p.1 p.2 ρ) fun r ⟨hr, _, hph⟩ => ?_
  refine Ok.bind (hMul hr (red_negconv s s) hph ct3) fun y ⟨_, E, hE, hyp⟩ => ?_
  refine Ok.bind (dec_spec hN ht y) fun m3 ⟨hm3, e3⟩ => ?_
  refine Ok.bind (dec_spec hN ht ct1) fun m1 ⟨_, e1⟩ => ?_
  refine Ok.bind (dec_spec hN ht ct2) fun m2 ⟨_, e2⟩ => Ok.pure fun i => ⟨E i, err_scale (L := LOGQ) ?_ ((hp i).trans_le (le_of_eq ?_)), ?_⟩
  · have h3 := hE i
    have h4 := Ternary.sum_abs ht
    unfold weight at h4
    rw [h4] at h3
    exact h3
  · have e2 : (2:ℝ)^LOGQ = 2 * 2^(LOGQ-1) := by exact_mod_cast two_mul_half LOGQ
    rw [e2]
    ring
  · have := congrFun (e3.trans hyp) i
    rw [← e1, ← e2] at this
    exact this

open Classical in
/-- C99: `rot_ct` with a key drawn after the ciphertext was fixed. -/
theorem C99_rot_ct (RAND_MAX : Nat) (hR : 2 ∣ RAND_MAX + 1) (k : Nat) (hk1 : 1 ≤ k) (hk : k ≤ 17)
    (hQ : 2 * LOGQ ≤ 60 ∨ 65 ≤ 2 * LOGQ ∧ 2 * LOGQ ≤ 3051) (r : Nat)
    (s s0 : Fin (2^k) → Int) (hs : ∀ k, s k = -1 ∨ s k = 0 ∨ s k = 1)
    (rkey0 : R_Q_square (2 * LOGQ) (2^k)) (ct ct0 : R_Q_square LOGQ (2^k)) (hct : ct.Canonical) (ρ : Rng) {T : ℝ} (hT : 0 ≤ T) :
    ((univ.filter fun p : (Fin (2^k) → Fin (nlimb (2 * LOGQ)) → Fin 5 → Fin (RAND_MAX+1)) × (Fin (2^k) → Fin 2 → Fin (RAND_MAX+1)) =>
      ¬ Ok (do let s_rot ← rotI s s0 r
               let rkey ← swkgen RAND_MAX s_rot s rkey0 (maskStream p.1 (noiseStream p.2 ρ))
               let ct' ← rot_ct ct r rkey.1 ct0
               let m' ← dec ct' s
               let m ← dec ct s
               pure (m', m)) fun q => ∀ i, ∃ e : Int, 2 * |(e : ℝ)| < 2*T + ((univ.filter fun k => s k ≠ 0).card + 1) ∧
        (q.1 i).cls = autom (5^r) (fun j => (q.2 j).cls) i + e).card : ℝ) ≤
      2*(2^k : ℕ) * Real.exp (-(3*T^2 / (136*(2^k : ℕ)))) *
        Fintype.card ((Fin (2^k) → Fin (nlimb (2 * LOGQ)) → Fin 5 → Fin (RAND_MAX+1)) × (Fin (2^k) → Fin 2 → Fin (RAND_MAX+1))) := by
  have hN : 2^k ≤ 2^30 := Nat.pow_le_pow_right (by norm_num) (by omega)
  have hg := fun (j j' : Fin (2^k)) e => pos_inj_of_coprime (five_pow_coprime k r) j j' e
  have hs' : Ternary s := hs
  obtain ⟨c, hc, hrot⟩ := rot_ct_err hQ hk1 hk r hct ct0
  refine draws_tail hR (by positivity) c (C := 2^LOGQ) (by positivity) (fun i => ?_) hT _ fun p hp => ?_
  · exact_mod_cast hc i
  rw [C25_rot_key k (by omega) r s s0 (fun i => by rcases hs i with h | h | h <;> omega), pure_bind]
  refine Ok.bind (swkgen_stream hN (fun i => ?_) hs' rkey0 p.1 p.2 ρ) fun rk ⟨hr, _, hph⟩ => ?_
  · have := abs_le.1 (autom_abs hg hs'.abs_le i); omega
  refine Ok.bind (hrot hr hph) fun y ⟨_, E, hE, hyp⟩ => ?_
  refine Ok.bind (dec_spec hN hs' y) fun m' ⟨hm', e'⟩ => ?_
  refine Ok.bind (dec_spec hN hs' ct) fun m ⟨_, e1⟩ => Ok.pure fun i => ⟨E i, err_scale ?_ (hp i), ?_⟩
  · have h3 := hE i
    have h4 := hs'.sum_abs
    unfold weight at h4
    rw [h4] at h3
    exact h3
  · have := congrFun (e'.trans hyp) i
    rw [← e1] at this
    exact this

open Classical in
/-- C99: `conj` with a key drawn after the ciphertext was fixed. -/
theorem C99_conj_ct (RAND_MAX : Nat) (hR : 2 ∣ RAND_MAX + 1) (k : Nat) (hk1 : 1 ≤ k) (hk : k ≤ 17)
    (hQ : 2 * LOGQ ≤ 60 ∨ 65 ≤ 2 * LOGQ ∧ 2 * LOGQ ≤ 3051)
    (s s0 : Fin (2^k) → Int) (hs : ∀ k, s k = -1 ∨ s k = 0 ∨ s k = 1)
    (ckey0 : R_Q_square (2 * LOGQ) (2^k)) (ct ct0 : R_Q_square LOGQ (2^k)) (hct : ct.Canonical) (ρ : Rng) {T : ℝ} (hT : 0 ≤ T) :
    ((univ.filter fun p : (Fin (2^k) → Fin (nlimb (2 * LOGQ)) → Fin 5 → Fin (RAND_MAX+1)) × (Fin (2^k) → Fin 2 → Fin (RAND_MAX+1)) =>
      ¬ Ok (do let s_conj ← conjI s s0
               let ckey ← swkgen RAND_MAX s_conj s ckey0 (maskStream p.1 (noiseStream p.2 ρ))
               let ct' ← conj_ct ct ckey.1 ct0
               let m' ← dec ct' s
               let m ← dec ct s
               pure (m', m)) fun q => ∀ i, ∃ e : Int, 2 * |(e : ℝ)| < 2*T + ((univ.filter fun k => s k ≠ 0).card + 1) ∧
        (q.1 i).cls = autom (2 * 2^k - 1) (fun j => (q.2 j).cls) i + e).card : ℝ) ≤
      2*(2^k : ℕ) * Real.exp (-(3*T^2 / (136*(2^k : ℕ)))) *
        Fintype.card ((Fin (2^k) → Fin (nlimb (2 * LOGQ)) → Fin 5 → Fin (RAND_MAX+1)) × (Fin (2^k) → Fin 2 → Fin (RAND_MAX+1))) := by
  have hN : 2^k ≤ 2^30 := Nat.pow_le_pow_right (by norm_num) (by omega)
  have hs' : Ternary s := hs
  obtain ⟨c, hc, hconj⟩ := conj_ct_err hQ hk1 hk hct ct0
  refine draws_tail hR (by positivity) c (C := 2^LOGQ) (by positivity) (fun i => ?_) hT _ fun p hp => ?_
  · exact_mod_cast hc i
  rw [conjI_spec Nat.one_le_two_pow s s0 (fun i => by rcases hs i with h | h | h <;> omega), pure_bind]
  refine Ok.bind (swkgen_stream hN (fun i => ?_) hs' ckey0 p.1 p.2 ρ) fun rk ⟨hr, _, hph⟩ => ?_
  · have := abs_le.1 (autom_abs (conj_pos Nat.one_le_two_pow) hs'.abs_le i); omega
  refine Ok.bind (hconj hr hph) fun y ⟨_, E, hE, hyp⟩ => ?_
  refine Ok.bind (dec_spec hN hs' y) fun m' ⟨hm', e'⟩ => ?_
  refine Ok.bind (dec_spec hN hs' ct) fun m ⟨_, e1⟩ => Ok.pure fun i => ⟨E i, err_scale ?_ (hp i), ?_⟩
  · have h3 := hE i
    have h4 := hs'.sum_abs
    unfold weight at h4
    rw [h4] at h3
    exact h3
  · have := congrFun (e'.trans hyp) i
    rw [← e1] at this
    exact this

-- the modulus and the ring of the bootstrapping experiments with glibc's RAND_MAX, a ternary key and a canonical
-- ciphertext; with T = 2^15 the excluded fraction is below 2^-200, while the worst case of C21 is 2^20
example : 2 ∣ 2147483647 + 1 ∧ 1 ≤ 17 ∧ 17 ≤ 17 ∧ (2 * 1200 ≤ 60 ∨ 65 ≤ 2 * 1200 ∧ 2 * 1200 ≤ 3051) ∧
    (∀ i : Fin 4, (![1, 0, -1, 0] : Fin 4 → Int) i = -1 ∨ (![1, 0, -1, 0] : Fin 4 → Int) i = 0 ∨ (![1, 0, -1, 0] : Fin 4 → Int) i = 1) ∧
    (R_Q_square.Canonical ((fun _ => Z_Q.ofNat 100 (2^99 + 12345), fun _ => Z_Q.ofNat 100 (2^99 + 6789)) : R_Q_square 100 4)) ∧
    2*((2^17 : ℕ) : ℝ) * Real.exp (-(3*((2:ℝ)^15)^2 / (136*((2^17 : ℕ) : ℝ)))) ≤ 1/2^200 := by
  refine ⟨by norm_num, by norm_num, by norm_num, by norm_num, by decide, ⟨fun i => ?_, fun i => ?_⟩, ?_⟩
  · unfold Z_Q.Canonical; rw [Z_Q.val_ofNat_of_lt (by norm_num)]; norm_num
  · unfold Z_Q.Canonical; rw [Z_Q.val_ofNat_of_lt (by norm_num)]; norm_num
  · have h1 : Real.exp (-(3*((2:ℝ)^15)^2 / (136*((2^17 : ℕ) : ℝ)))) ≤ Real.exp (-180) :=
      Real.exp_le_exp.2 (by norm_num)
    rw [Real.exp_neg 180] at h1
    have h4 : (2:ℝ)^220 ≤ Real.exp 180 := by
      rw [show (180:ℝ) = ((180:ℕ):ℝ) * 1 by norm_num, Real.exp_nat_mul]
      have h3 : (2.7:ℝ) ≤ Real.exp 1 := by have := Real.exp_one_gt_d9; linarith
      refine le_trans ?_ (pow_le_pow_left₀ (by norm_num) h3 180)
      norm_num
    have h5 : (Real.exp 180)⁻¹ ≤ ((2:ℝ)^220)⁻¹ := inv_anti₀ (by positivity) h4
    refine (mul_le_mul_of_nonneg_left (h1.trans h5) (by positivity)).trans ?_
    norm_num

end EvalRound

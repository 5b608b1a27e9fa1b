import Verif.Proofs.Measure
import Verif.Props.Sup
import Verif.Model.HomTests

/-!
# Encoding with encryption, and decryption with decoding, at any modulus and scale
-/

namespace EvalRound
open Z_Q

variable {n Q : Nat} [NeZero Q]

theorem decode_log_slot' {LOGN D : Nat} (h1 : 2 ≤ LOGN) (h2 : LOGN ≤ 27) (hQ : Q ≤ 2^29) (hD : D ≤ 2^30)
    {pt : R_Q Q (2^LOGN)} (hpt : pt.Canonical) :
    Ok (decode_log pt (D : ℕ)) fun z => ∀ i : Fin (2^(LOGN-1)),
      (⟨z.1 i, z.2 i⟩ : ℂ) = slotOf (fun k => ((pt k).sval : ℝ) / 2^D) i := by
  have hD' : ((D : ℕ) : ℤ) ≤ 2^30 := by exact_mod_cast hD
  unfold decode_log
  refine Ok.bind (tabM_spec (P := fun i (x : ℝ) => ∀ h : i < 2^LOGN, x = ((pt ⟨i, h⟩).sval : ℝ) / 2^D) fun i hi => ?_)
    fun m hm => ?_
  · rw [rd_of_lt _ hi, pure_bind, decodeLogCoeff_spec (hpt _) hQ (by omega) hD', zpow_natCast]
    exact Ok.pure fun _ => rfl
  · rw [show m = fun k => ((pt k).sval : ℝ) / 2^D from funext fun k => hm k k.isLt]
    exact C28_fft h1 h2 _

/-- decoding a plaintext with known coefficients -/
theorem decode_near (hn1 : 1 ≤ n) (hn : n ≤ 26) (hQ : Q ≤ 2^29) {D : Nat} (hD : D ≤ 2^30)
    {pt : R_Q Q (2^(n+1))} (hpt : pt.Canonical) {w : Fin (2^(n+1)) → Int} (hw : R_Q.cls pt = red Q w)
    {x : Fin (2^n) → ℂ} {ε X : ℝ} (hx : ∀ i, ‖slots n w i - x i‖ ≤ ε) (hX : ∀ i, ‖x i‖ ≤ X) (hq : X + ε < 2^(Q-1)) :
    Ok (decode_log (LOGN := n+1) pt (D : ℕ)) fun z => ∀ i : Fin (2^n), ‖(⟨z.1 i, z.2 i⟩ : ℂ) - x i / 2^D‖ ≤ ε / 2^D := by
  have hwk : ∀ k, |(w k : ℝ)| ≤ X + ε := coeff_le_slots hn1 hn (m := fun k => (w k : ℝ)) fun i => by
    have h1 := hx i
    have h2 := hX i
    have h3 := norm_sub_norm_le (slots n w i) (x i)
    show ‖slots n w i‖ ≤ _
    linarith
  have hs : ∀ k, (pt k).sval = w k := by
    intro k
    have h2 : |(w k : ℝ)| < 2^(Q-1) := lt_of_le_of_lt (hwk k) hq
    have h3 : |w k| < 2^(Q-1) := by exact_mod_cast h2
    have h4 := abs_lt.1 h3
    exact sval_eq_of_cls (congrFun hw k) h4.1.le h4.2
  refine Ok.mono (decode_log_slot' (LOGN := n+1) (by omega) (by omega) hQ hD hpt) fun z hz i => ?_
  have e : slotOf (fun k => ((pt k).sval : ℝ) / 2^D) i = slots n w i / 2^D := by
    unfold slots slotOf
    rw [div_eq_mul_inv, Finset.sum_mul]
    refine Finset.sum_congr rfl fun k _ => ?_
    dsimp only; rw [hs k]; push_cast; ring
  have h1 := hz i
  rw [h1, e, ← sub_div, norm_div, norm_pow, Complex.norm_ofNat]
  exact div_le_div_of_nonneg_right (hx i) (by positivity)

/-- decryption and decoding of a ciphertext with known slots -/
theorem near_out (hn1 : 1 ≤ n) (hn : n ≤ 26) (hQ : Q ≤ 2^29) {D : Nat} (hD : D ≤ 2^30) {s : Fin (2^(n+1)) → Int} (hs : Ternary s)
    {c : R_Q_square Q (2^(n+1))} {x : Fin (2^n) → ℂ} {ε X : ℝ} (hc : Near s c x ε) (hX : ∀ i, ‖x i‖ ≤ X)
    (hq : X + ε < 2^(Q-1)) :
    Ok (dec c s >>= fun pt => decode_log (LOGN := n+1) pt (D : ℕ)) fun z => ∀ i : Fin (2^n),
      ‖(⟨z.1 i, z.2 i⟩ : ℂ) - x i / 2^D‖ ≤ ε / 2^D := by
  obtain ⟨_, w, hw, hx⟩ := hc
  have hN : 2^(n+1) ≤ 2^30 := Nat.pow_le_pow_right (by norm_num) (by omega)
  refine Ok.bind (dec_spec hN hs c) fun pt ⟨hpc, hp⟩ => ?_
  exact decode_near hn1 hn hQ hD hpc (hp.trans hw) hx hX hq

/-- the slots of an encoded message -/
theorem encode_slots_near (hn1 : 1 ≤ n) (hn : n ≤ 26) {D : Nat} (hD : D < 64) {z : CVec (n+1)} {B : ℝ}
    (hz : ∀ i : Fin (2^n), ‖(⟨z.1 i, z.2 i⟩ : ℂ)‖ ≤ B) (hw : B * 2^D + 1/2 < 2^64) (hq : B * 2^D + 1/2 < 2^(Q-1)) :
    Ok (encode Q z (BitVec.ofNat 64 (2^D))) fun pt => pt.Canonical ∧ ∀ i : Fin (2^n),
      ‖slots n (fun k => (pt k).sval) i - 2^D * ⟨z.1 i, z.2 i⟩‖ ≤ 2^n := by
  have hδ : (((BitVec.ofNat 64 (2^D)).toNat : ℕ) : ℝ) = 2^D := by
    rw [BitVec.toNat_ofNat, Nat.mod_eq_of_lt (Nat.pow_lt_pow_right (by norm_num) hD)]; push_cast; rfl
  refine Ok.mono (C29_encode (LOGN := n+1) (by omega) (by omega) z _ B hz (by rw [hδ]; exact hw) (by rw [hδ]; exact hq))
    fun pt ⟨m, hm, hpt⟩ => ⟨fun k => (hpt k).1, fun i => ?_⟩
  rw [hδ] at hpt
  have h1 := slotOf_smul m (2^D) i
  have h2 := slotOf_sub_le (m := fun k => ((pt k).sval : ℝ)) (m' := fun k => m k * 2^D) (fun k => (hpt k).2) i
  have h3 : slotOf m i = ⟨z.1 i, z.2 i⟩ := hm i
  rw [h1, h3] at h2
  unfold slots
  rw [mul_comm]
  push_cast at h2
  refine h2.trans (le_of_eq ?_)
  rw [pow_succ]; ring

/-- encoding and encryption -/
theorem fresh_near (R : Nat) (hn1 : 1 ≤ n) (hn : n ≤ 26) {D : Nat} (hD : D < 64) {z : CVec (n+1)} {B : ℝ}
    (hz : ∀ i : Fin (2^n), ‖(⟨z.1 i, z.2 i⟩ : ℂ)‖ ≤ B) (hw : B * 2^D + 1/2 < 2^64) (hq : B * 2^D + 1/2 < 2^(Q-1))
    {s : Fin (2^(n+1)) → Int} (hs : Ternary s) (ct0 : R_Q_square Q (2^(n+1))) (ω : Rng) :
    ∃ pt r, encode Q z (BitVec.ofNat 64 (2^D)) = pure pt ∧ pt.Canonical ∧
      (∀ i : Fin (2^n), ‖slots n (fun k => (pt k).sval) i - 2^D * ⟨z.1 i, z.2 i⟩‖ ≤ 2^n) ∧
      enc R pt s ct0 ω = pure r ∧ Near s r.1 (fun i => 2^D * ⟨z.1 i, z.2 i⟩) (17 * 2^n) ∧
      Near s r.1 (slots n fun k => (pt k).sval) (16 * 2^n) := by
  have hN : 2^(n+1) ≤ 2^30 := Nat.pow_le_pow_right (by norm_num) (by omega)
  obtain ⟨pt, ept, hc, hpt⟩ := encode_slots_near (Q := Q) hn1 hn hD hz hw hq
  obtain ⟨r, er, hr, e, he, hp⟩ := enc_spec R hN hs pt ct0 ω
  have hph : R_Q_square.phase s r.1 = red Q (R_Q.sval pt + e) := by rw [hp, cls_red_sval, red_add]
  have h2 : ∀ i, ‖slots n e i‖ ≤ 16 * 2^n := fun i => by
    refine (norm_slots_le (ε := 8) (fun k => by exact_mod_cast he k) i).trans (le_of_eq ?_)
    rw [pow_succ]; ring
  refine ⟨pt, r, ept, hc, hpt, er, ⟨hr, _, hph, fun i => ?_⟩, ⟨hr, _, hph, fun i => ?_⟩⟩
  · rw [slots_add, add_sub_right_comm]
    refine (norm_add_le _ _).trans ((add_le_add (hpt i) (h2 i)).trans (le_of_eq ?_))
    ring
  · rw [slots_add]
    refine (le_of_eq ?_).trans (h2 i)
    congr 1
    show slots n (R_Q.sval pt) i + slots n e i - slots n (R_Q.sval pt) i = _
    ring

/-- every coefficient is at most the mean of the absolute values of the slots -/
theorem coeff_le_mean (hn1 : 1 ≤ n) (hn : n ≤ 26) (m : Fin (2^(n+1)) → ℝ) (k : Fin (2^(n+1))) :
    |m k| ≤ (∑ i : Fin (2^n), ‖slotOf m i‖) / 2^n := by
  obtain ⟨m', -, h1⟩ := ifft_spec (n := n) (by omega) (by omega)
    (fun i => (slotOf m i).re, fun i => (slotOf m i).im) (fun _ => 0)
  have hs : ∀ i : Fin (2^n), slotOf m' i = slotOf m i := by
    intro i
    rw [← fftMat_slot, h1]
    simp only [bitRev_bitRev (Fin.isLt _)]
    rw [Matrix.mulVec_mulVec, Matrix.mul_smul, fftMat_adj (le_refl n), smul_smul,
      inv_mul_cancel₀ (pow_ne_zero n two_ne_zero), one_smul, Matrix.one_mulVec]
    rfl
  have e : m' = m := slotOf_inj hs
  subst e
  have key : ∀ p : Fin (2^n), ‖pairC n m' p‖ ≤ (∑ i : Fin (2^n), ‖slotOf m' i‖) / 2^n := by
    intro p
    rw [h1]
    simp only [Matrix.smul_mulVec, Pi.smul_apply, smul_eq_mul, norm_mul, norm_inv, norm_pow, Complex.norm_ofNat]
    rw [inv_mul_le_iff₀ (by positivity), mul_div_cancel₀ _ (by positivity), Matrix.mulVec, dotProduct]
    refine (norm_sum_le _ _).trans (Finset.sum_le_sum fun i _ => ?_)
    rw [Matrix.conjTranspose_apply, fftMat_apply, norm_mul, norm_star, norm_zeta_pow, one_mul]
    exact le_rfl
  have hp : 2^(n+1) = 2^n + 2^n := by ring
  have hk := k.isLt
  by_cases hlt : k.val < 2^n
  · exact (Complex.abs_re_le_norm (pairC n m' ⟨k, hlt⟩)).trans (key _)
  · have h4 := (Complex.abs_im_le_norm (pairC n m' ⟨k.val - 2^n, by omega⟩)).trans (key _)
    simp only [pairC, show k.val - 2^n + 2^n = k.val by omega] at h4
    exact h4

/-- `encode`, with the hypothesis on the coefficients instead of the slots -/
theorem encode_coeff (hn1 : 1 ≤ n) (hn : n ≤ 26) {D : Nat} (hD : D < 64) {z : CVec (n+1)} {B : ℝ}
    (hb : ∀ m : Fin (2^(n+1)) → ℝ, (∀ i : Fin (2^n), slotOf m i = ⟨z.1 i, z.2 i⟩) → ∀ k, |m k| ≤ B)
    (hw : B * 2^D + 1/2 < 2^64) (hq : B * 2^D + 1/2 < 2^(Q-1)) :
    Ok (encode Q z (BitVec.ofNat 64 (2^D))) fun pt => pt.Canonical ∧ ∃ m : Fin (2^(n+1)) → ℝ,
      (∀ i : Fin (2^n), slotOf m i = ⟨z.1 i, z.2 i⟩) ∧ ∀ k, |((pt k).sval : ℝ) - m k * 2^D| ≤ 1/2 := by
  have hδ : (((BitVec.ofNat 64 (2^D)).toNat : ℕ) : ℝ) = 2^D := by
    rw [BitVec.toNat_ofNat, Nat.mod_eq_of_lt (Nat.pow_lt_pow_right (by norm_num) hD)]; push_cast; rfl
  unfold encode
  refine Ok.bind (ifft_slot (LOGN := n+1) (by omega) (by omega) z _) fun m ⟨hs, _⟩ => ?_
  have hmB := hb m hs
  refine Ok.mono (tabM_spec (P := fun i p => ∀ h : i < 2^(n+1), p.Canonical ∧ |(p.sval : ℝ) - m ⟨i, h⟩ * 2^D| ≤ 1/2)
    fun i hi => ?_) fun pt hpt => ⟨fun k => (hpt k k.isLt).1, m, hs, fun k => (hpt k k.isLt).2⟩
  rw [rd_of_lt _ hi, pure_bind]
  have h0 : (0:ℝ) ≤ ((BitVec.ofNat 64 (2^D)).toNat : ℕ) := Nat.cast_nonneg _
  refine Ok.mono (encodeCoeff_spec (scaled_bound h0 (hmB _) (by rw [hδ]; exact hw))) fun p hp _ => ?_
  obtain ⟨c, e⟩ := hp.2 (scaled_bound h0 (hmB _) (by rw [hδ]; exact hq))
  exact ⟨c, by rw [e, hδ]; exact cround_err _⟩

/-- encoding and encryption, by coefficients -/
theorem fresh_coeff (R : Nat) (hn1 : 1 ≤ n) (hn : n ≤ 26) {D : Nat} (hD : D < 64) {z : CVec (n+1)} {B : ℝ}
    (hb : ∀ m : Fin (2^(n+1)) → ℝ, (∀ i : Fin (2^n), slotOf m i = ⟨z.1 i, z.2 i⟩) → ∀ k, |m k| ≤ B)
    (hw : B * 2^D + 1/2 < 2^64) (hq : B * 2^D + 1/2 < 2^(Q-1))
    {s : Fin (2^(n+1)) → Int} (hs : Ternary s) (ct0 : R_Q_square Q (2^(n+1))) (ω : Rng) :
    ∃ pt r, ∃ (m : Fin (2^(n+1)) → ℝ) (e : Fin (2^(n+1)) → Int), encode Q z (BitVec.ofNat 64 (2^D)) = pure pt ∧ pt.Canonical ∧
      (∀ i : Fin (2^n), slotOf m i = ⟨z.1 i, z.2 i⟩) ∧ (∀ k, |m k| ≤ B) ∧ (∀ k, |((pt k).sval : ℝ) - m k * 2^D| ≤ 1/2) ∧
      enc R pt s ct0 ω = pure r ∧ r.1.Canonical ∧ (∀ k, |e k| ≤ 8) ∧
      R_Q_square.phase s r.1 = red Q (R_Q.sval pt + e) ∧
      (∀ i, ‖slots n (R_Q.sval pt + e) i - 2^D * ⟨z.1 i, z.2 i⟩‖ ≤ 17 * 2^n) := by
  have hN : 2^(n+1) ≤ 2^30 := Nat.pow_le_pow_right (by norm_num) (by omega)
  obtain ⟨pt, ept, hc, m, hm, hpt⟩ := encode_coeff (Q := Q) hn1 hn hD hb hw hq
  obtain ⟨r, er, hr, e, he, hp⟩ := enc_spec R hN hs pt ct0 ω
  refine ⟨pt, r, m, e, ept, hc, hm, hb m hm, hpt, er, hr, he, by rw [hp, cls_red_sval, red_add], fun i => ?_⟩
  have h2 : ‖slots n e i‖ ≤ 16 * 2^n := by
    refine (norm_slots_le (ε := 8) (fun k => by exact_mod_cast he k) i).trans (le_of_eq ?_)
    rw [pow_succ]; ring
  have h1 := slotOf_smul m (2^D) i
  have h3 := slotOf_sub_le (m := fun k => ((pt k).sval : ℝ)) (m' := fun k => m k * 2^D) hpt i
  rw [h1, hm i] at h3
  push_cast at h3
  have h4 : ‖slots n (R_Q.sval pt) i - 2^D * ⟨z.1 i, z.2 i⟩‖ ≤ 2^n := by
    rw [mul_comm]
    refine h3.trans (le_of_eq ?_)
    rw [pow_succ]; ring
  rw [slots_add, add_sub_right_comm]
  refine (norm_add_le _ _).trans ((add_le_add h4 h2).trans (le_of_eq ?_))
  ring

/-- limb 0 with the sign is the number when it fits -/
theorem lowDouble_spec {x : Z_Q Q} (hx : x.Canonical) (h : |x.sval| < 2^64) : lowDouble x = x.sval := by
  have e : lowDouble x = (toDoubleInt x : ℝ) := by
    unfold lowDouble toDoubleInt
    dsimp only
    split <;> push_cast <;> ring
  rw [e, toDoubleInt_spec hx]
  have h1 : x.sval.natAbs < 2^64 := by rw [Int.abs_eq_natAbs] at h; exact_mod_cast h
  rw [Nat.mod_eq_of_lt h1, Int.sign_mul_natAbs]

theorem mul_norm {a b c d : ℝ} : (⟨a * c - b * d, a * d + b * c⟩ : ℂ) = ⟨a, b⟩ * ⟨c, d⟩ := by
  apply Complex.ext <;> simp

end EvalRound

import Verif.Proofs.Fresh

/-!
# C63: the programs conv_test and ctxt_conv_test
-/

namespace EvalRound
open Z_Q Finset

variable {n LOGQ : Nat} [NeZero LOGQ]

theorem unit_scaled {D : Nat} (hD : D < 63) : (1:ℝ) * 2^D + 1/2 < 2^64 := by
  have : (2:ℝ)^D ≤ 2^62 := pow_le_pow_right₀ (by norm_num) (by omega)
  norm_num at this ⊢; linarith

theorem unit_scaled_q {D Q : Nat} (hQ : D + 2 ≤ Q) : (1:ℝ) * 2^D + 1/2 < 2^(Q-1) := by
  have h1 : (2:ℝ)^(D+1) ≤ 2^(Q-1) := pow_le_pow_right₀ (by norm_num) (by omega)
  have h2 : (1:ℝ) ≤ 2^D := one_le_pow₀ (by norm_num)
  rw [pow_succ] at h1; linarith

theorem shl1_eq {D : Nat} (h : D < 64) : shl1 D = pure (BitVec.ofNat 64 (2^D)) := if_pos h

/-- C63: `conv_test` prints the product of the two messages twice, up to the error of the encodings. -/
theorem C63_conv_test (hQ : LOGQ ≤ 60 ∨ 65 ≤ LOGQ ∧ LOGQ ≤ 3051) (hn1 : 1 ≤ n) (hn : n ≤ 16) (LOGDELTA : Nat) (hD : LOGDELTA < 63)
    (hnD : n ≤ LOGDELTA) (hDQ : 2 * LOGDELTA + 4 ≤ LOGQ) (ρ : RealRng) (hρ : ∀ j, |ρ j| ≤ 1 / Real.sqrt 2) :
    Ok (convTest LOGDELTA LOGQ (n+1) ρ) fun o => ∀ i : Fin (2^n),
      (⟨o.1.1 i, o.1.2 i⟩ : ℂ) = ⟨ρ i, ρ (2^n + i)⟩ * ⟨ρ (2^(n+1) + i), ρ (2^(n+1) + (2^n + i))⟩ ∧
      ‖(⟨o.2.1 i, o.2.2 i⟩ : ℂ) - ⟨o.1.1 i, o.1.2 i⟩‖ ≤ (2 * 2^LOGDELTA * 2^n + 2^(2*n)) / 2^(LOGDELTA * 2) := by
  have ha : ∀ i : Fin (2^n), ‖(⟨(set_random_message (n+1) ρ).1.1 i, (set_random_message (n+1) ρ).1.2 i⟩ : ℂ)‖ ≤ 1 :=
    random_message_norm (n+1) hρ
  have hb : ∀ i : Fin (2^n), ‖(⟨(set_random_message (n+1) (set_random_message (n+1) ρ).2).1.1 i,
      (set_random_message (n+1) (set_random_message (n+1) ρ).2).1.2 i⟩ : ℂ)‖ ≤ 1 :=
    random_message_norm (n+1) (fun j => hρ _)
  unfold convTest
  simp only []
  have ea : ∀ i : Fin (2^n), (⟨(set_random_message (n+1) ρ).1.1 i, (set_random_message (n+1) ρ).1.2 i⟩ : ℂ) =
    ⟨ρ i, ρ (2^n + i)⟩ := fun _ => rfl
  have eb : ∀ i : Fin (2^n), (⟨(set_random_message (n+1) (set_random_message (n+1) ρ).2).1.1 i,
      (set_random_message (n+1) (set_random_message (n+1) ρ).2).1.2 i⟩ : ℂ) =
      ⟨ρ (2^(n+1) + i), ρ (2^(n+1) + (2^n + i))⟩ := fun _ => rfl
  generalize (set_random_message (n+1) (set_random_message (n+1) ρ).2).1 = b at *
  generalize (set_random_message (n+1) ρ).1 = a at *
  rw [shl1_eq (by omega), pure_bind]
  refine Ok.bind (encode_slots_near (Q := LOGQ) hn1 (by omega) (by omega) ha (unit_scaled hD) (unit_scaled_q (by omega)))
    fun pa ⟨hpa, hsa⟩ => ?_
  refine Ok.bind (encode_slots_near (Q := LOGQ) hn1 (by omega) (by omega) hb (unit_scaled hD) (unit_scaled_q (by omega)))
    fun pb ⟨hpb, hsb⟩ => ?_
  refine Ok.bind (conv_spec (k := n+1) hQ (by omega) (by omega) hpa hpb) fun pc ⟨hpc, hc⟩ => ?_
  have hw : R_Q.cls pc = red LOGQ (negconv (R_Q.sval pa) (R_Q.sval pb)) := by
    rw [hc, red_negconv, ← cls_red_sval, ← cls_red_sval]
  have hΔ : (0:ℝ) < 2^LOGDELTA := by positivity
  have h2n : (2:ℝ)^n ≤ 2^LOGDELTA := pow_le_pow_right₀ (by norm_num) hnD
  have hx : ∀ i, ‖slots n (negconv (R_Q.sval pa) (R_Q.sval pb)) i -
      2^LOGDELTA * ⟨a.1 i, a.2 i⟩ * (2^LOGDELTA * ⟨b.1 i, b.2 i⟩)‖ ≤ 2 * 2^LOGDELTA * 2^n + 2^(2*n) := by
    intro i
    have h1 := hsa i
    have h2 := hsb i
    have h3 := ha i
    have h4 := hb i
    rw [slots_negconv]
    change ‖slots n (R_Q.sval pa) i - _‖ ≤ _ at h1
    change ‖slots n (R_Q.sval pb) i - _‖ ≤ _ at h2
    generalize slots n (R_Q.sval pa) i = A at *
    generalize slots n (R_Q.sval pb) i = B at *
    generalize (⟨a.1 i, a.2 i⟩ : ℂ) = x at *
    generalize (⟨b.1 i, b.2 i⟩ : ℂ) = y at *
    have e : A * B - 2^LOGDELTA * x * (2^LOGDELTA * y) = (A - 2^LOGDELTA * x) * (B - 2^LOGDELTA * y) +
      (2^LOGDELTA * x) * (B - 2^LOGDELTA * y) + (A - 2^LOGDELTA * x) * (2^LOGDELTA * y) := by ring
    have hX : ‖(2:ℂ)^LOGDELTA * x‖ ≤ 2^LOGDELTA := by
      rw [norm_mul, norm_pow, Complex.norm_ofNat]; nlinarith
    have hY : ‖(2:ℂ)^LOGDELTA * y‖ ≤ 2^LOGDELTA := by
      rw [norm_mul, norm_pow, Complex.norm_ofNat]; nlinarith
    rw [e]
    refine (norm_add₃_le).trans ?_
    rw [norm_mul (A - _) (B - _), norm_mul (2^LOGDELTA * x) (B - _), norm_mul (A - _) (2^LOGDELTA * y)]
    have g1 := mul_le_mul h1 h2 (norm_nonneg _) (by positivity)
    have g2 := mul_le_mul hX h2 (norm_nonneg _) (by positivity)
    have g3 := mul_le_mul h1 hY (norm_nonneg _) (by positivity)
    refine (add_le_add (add_le_add g1 g2) g3).trans (le_of_eq ?_)
    rw [show 2*n = n+n by ring, pow_add]; ring
  have hX : ∀ i : Fin (2^n), ‖(2:ℂ)^LOGDELTA * ⟨a.1 i, a.2 i⟩ * (2^LOGDELTA * ⟨b.1 i, b.2 i⟩)‖ ≤ 2^LOGDELTA * 2^LOGDELTA := by
    intro i
    have h3 := ha i
    have h4 := hb i
    rw [norm_mul, norm_mul, norm_mul, norm_pow, Complex.norm_ofNat]
    exact mul_le_mul (mul_le_of_le_one_right hΔ.le h3) (mul_le_of_le_one_right hΔ.le h4) (by positivity) (by positivity)
  refine Ok.bind (decode_near (D := LOGDELTA * 2) hn1 (by omega) (by omega) (by omega) hpc hw hx hX ?_)
    fun z hz => Ok.pure fun i => ?_
  · have h1 : (2:ℝ)^(2*LOGDELTA+3) ≤ 2^(LOGQ-1) := pow_le_pow_right₀ (by norm_num) (by omega)
    have h2 : (2:ℝ)^(2*LOGDELTA+3) = 8 * (2^LOGDELTA * 2^LOGDELTA) := by
      rw [pow_add, show 2*LOGDELTA = LOGDELTA + LOGDELTA by ring, pow_add]; norm_num; ring
    have h3 : (2:ℝ)^(2*n) = 2^n * 2^n := by rw [show 2*n = n+n by ring, pow_add]
    have h4 : (0:ℝ) < 2^n := by positivity
    rw [h2] at h1
    rw [h3]
    nlinarith [mul_le_mul h2n h2n h4.le hΔ.le, mul_le_mul_of_nonneg_left h2n hΔ.le, mul_pos hΔ hΔ]
  · have h := hz i
    have e : (⟨(Msg.mul a b).1 i, (Msg.mul a b).2 i⟩ : ℂ) = ⟨a.1 i, a.2 i⟩ * ⟨b.1 i, b.2 i⟩ := mul_norm
    refine ⟨e.trans (by rw [ea, eb]), ?_⟩
    show ‖_ - (⟨(Msg.mul a b).1 i, (Msg.mul a b).2 i⟩ : ℂ)‖ ≤ _
    rw [e]
    convert h using 3
    have : (2:ℂ)^LOGDELTA ≠ 0 := pow_ne_zero _ two_ne_zero
    rw [mul_comm LOGDELTA 2, two_mul, pow_add]
    field_simp

/-- C63: `ctxt_conv_test` prints the square of the message twice, up to the error of encoding, encryption and multiplication. -/
theorem C63_ctxt_conv_test (R : Nat) (h1 : 65 ≤ LOGQ) (h2 : LOGQ ≤ 1525) (hn1 : 1 ≤ n) (hn : n ≤ 16)
    (LOGDELTA : Nat) (hD : LOGDELTA < 63) (hnD : n + 6 ≤ LOGDELTA) (hDQ : 2 * LOGDELTA + 4 ≤ LOGQ)
    (H : Int) (hH : H ≤ (2^(n+1) : Nat)) (evk0 : R_Q_square (2 * LOGQ) (2^(n+1))) (ct0 ct_sq0 : R_Q_square LOGQ (2^(n+1)))
    (ρ : RealRng) (hρ : ∀ j, |ρ j| ≤ 1 / Real.sqrt 2) (ω : Rng)
    (hω : ∀ (j : Fin (2^(n+1))) (l : Nat), ∃ m, l ≤ m ∧ ω m % 2^(n+1) = j) :
    Ok (ctxtConvTest R LOGDELTA H evk0 ct0 ct_sq0 ρ ω) fun o => ∀ i : Fin (2^n),
      (⟨o.1.1 i, o.1.2 i⟩ : ℂ) = ⟨ρ i, ρ (2^n + i)⟩ ^ 2 ∧
      ‖(⟨o.2.1 i, o.2.2 i⟩ : ℂ) - ⟨o.1.1 i, o.1.2 i⟩‖ ≤ (34 * 2^LOGDELTA * 2^n + (17 * 2^n)^2 +
        2^(n+1) * (4 * 2^(n+1) + (H.toNat + 1) / 2)) / 2^(2 * LOGDELTA) := by
  have hN : 2^(n+1) ≤ 2^17 := Nat.pow_le_pow_right (by norm_num) (by omega)
  have ha : ∀ i : Fin (2^n), ‖(⟨(set_random_message (n+1) ρ).1.1 i, (set_random_message (n+1) ρ).1.2 i⟩ : ℂ)‖ ≤ 1 :=
    random_message_norm (n+1) hρ
  have ea : ∀ i : Fin (2^n), (⟨(set_random_message (n+1) ρ).1.1 i, (set_random_message (n+1) ρ).1.2 i⟩ : ℂ) =
    ⟨ρ i, ρ (2^n + i)⟩ := fun _ => rfl
  unfold ctxtConvTest
  simp only []
  generalize (set_random_message (n+1) ρ).1 = a at *
  refine Ok.bind (C19_keygen_returns H hH ω hω) fun k ⟨hs, hw⟩ => ?_
  have hs' : Ternary k.1 := hs
  rw [convI_spec (by omega) k.1 k.1 hs'.abs_le hs'.abs_le, pure_bind]
  refine Ok.bind (swk_evk R hn hs' evk0 _) fun evk hev => ?_
  rw [shl1_eq (by omega), pure_bind]
  obtain ⟨pt, ct, ept, -, -, ect, hct, -⟩ := fresh_near (Q := LOGQ) R hn1 (by omega) (by omega) ha (unit_scaled hD)
    (unit_scaled_q (by omega)) hs' ct0 evk.2
  rw [ept, pure_bind, ect, pure_bind]
  have hΔ : (0:ℝ) < 2^LOGDELTA := by positivity
  have hX : ∀ i : Fin (2^n), ‖(2:ℂ)^LOGDELTA * ⟨a.1 i, a.2 i⟩‖ ≤ 2^LOGDELTA := by
    intro i
    rw [norm_mul, norm_pow, Complex.norm_ofNat]
    exact mul_le_of_le_one_right hΔ.le (ha i)
  refine Ok.bind (Near.mul (Or.inr (by omega)) (Or.inr (by omega)) hn hs' hev hct hct hX hX ct_sq0) fun c hc => ?_
  have hX2 : ∀ i : Fin (2^n), ‖(2:ℂ)^LOGDELTA * ⟨a.1 i, a.2 i⟩ * (2^LOGDELTA * ⟨a.1 i, a.2 i⟩)‖ ≤ 2^LOGDELTA * 2^LOGDELTA := by
    intro i
    rw [norm_mul]
    exact mul_le_mul (hX i) (hX i) (norm_nonneg _) hΔ.le
  have hwt : weight k.1 = H.toNat := hw
  rw [hwt] at hc
  have hE : (2:ℝ)^LOGDELTA * (17 * 2^n) + 2^LOGDELTA * (17 * 2^n) + 17 * 2^n * (17 * 2^n) + mulErr n H.toNat =
      34 * 2^LOGDELTA * 2^n + (17 * 2^n)^2 + 2^(n+1) * (4 * 2^(n+1) + (H.toNat + 1) / 2) := by
    unfold mulErr; ring
  rw [hE] at hc
  have hout := near_out (D := 2 * LOGDELTA) hn1 (by omega) (by omega) (by omega) hs' hc hX2 (by
    have h1 : (2:ℝ)^(2*LOGDELTA+3) ≤ 2^(LOGQ-1) := pow_le_pow_right₀ (by norm_num) (by omega)
    have h2 : (2:ℝ)^(2*LOGDELTA+3) = 8 * (2^LOGDELTA * 2^LOGDELTA) := by
      rw [pow_add, show 2*LOGDELTA = LOGDELTA + LOGDELTA by ring, pow_add]; norm_num; ring
    have h4 : (0:ℝ) < 2^n := by positivity
    have h5 : (64:ℝ) * 2^n ≤ 2^LOGDELTA := by
      have : (2:ℝ)^(n+6) ≤ 2^LOGDELTA := pow_le_pow_right₀ (by norm_num) hnD
      rw [pow_add] at this; norm_num at this; linarith
    have h6 : ((H.toNat : ℕ) : ℝ) ≤ 2 * 2^n := by
      have : H.toNat ≤ 2^(n+1) := Int.toNat_le.2 hH
      have : ((H.toNat : ℕ) : ℝ) ≤ ((2^(n+1) : ℕ) : ℝ) := by exact_mod_cast this
      rw [pow_succ] at this; push_cast at this; linarith
    have h7 : (1:ℝ) ≤ 2^n := one_le_pow₀ (by norm_num)
    rw [h2] at h1
    rw [pow_succ (2:ℝ) n]
    generalize (2:ℝ)^LOGDELTA = Δ at *
    generalize (2:ℝ)^n = N at *
    generalize ((H.toNat : ℕ) : ℝ) = h at *
    nlinarith [mul_le_mul h5 h5 (by positivity) hΔ.le, mul_le_mul_of_nonneg_left h5 hΔ.le, mul_pos hΔ hΔ,
      mul_le_mul_of_nonneg_left h6 h4.le, mul_le_mul_of_nonneg_left h7 h4.le])
  obtain ⟨z, ez, hz⟩ := hout
  obtain ⟨p, ep, ez⟩ := bind_eq_pure ez
  rw [ep, pure_bind, ez, pure_bind]
  refine Ok.pure fun i => ?_
  have h := hz i
  have e : (⟨(Msg.mul a a).1 i, (Msg.mul a a).2 i⟩ : ℂ) = ⟨a.1 i, a.2 i⟩ * ⟨a.1 i, a.2 i⟩ := mul_norm
  refine ⟨e.trans (by rw [ea, sq]), ?_⟩
  show ‖_ - (⟨(Msg.mul a a).1 i, (Msg.mul a a).2 i⟩ : ℂ)‖ ≤ _
  rw [e]
  convert h using 3
  have : (2:ℂ)^LOGDELTA ≠ 0 := pow_ne_zero _ two_ne_zero
  rw [two_mul, pow_add]
  field_simp

/-- C63 is not vacuous: the parameters of test.h, all random numbers of the message 1/2, the stream 0, 1, 2, … for the key and
the encryption: the products printed differ by less than `2^-36`. -/
example (evk0 : R_Q_square (2 * 1450) (2^(8+1))) (ct0 ct_sq0 : R_Q_square 1450 (2^(8+1))) :
    Ok (convTest 50 1450 (8+1) (fun _ => 1/2)) (fun o => ∀ i : Fin (2^8),
      ‖(⟨o.2.1 i, o.2.2 i⟩ : ℂ) - ⟨o.1.1 i, o.1.2 i⟩‖ ≤ 1 / 2^40) ∧
    Ok (ctxtConvTest (2^31-1) 50 128 evk0 ct0 ct_sq0 (fun _ => 1/2) (fun j => j)) (fun o => ∀ i : Fin (2^8),
      (⟨o.1.1 i, o.1.2 i⟩ : ℂ) = ⟨1/2, 1/2⟩ ^ 2 ∧ ‖(⟨o.2.1 i, o.2.2 i⟩ : ℂ) - ⟨o.1.1 i, o.1.2 i⟩‖ ≤ 1 / 2^36) := by
  have hρ : ∀ _ : Nat, |(1:ℝ)/2| ≤ 1 / Real.sqrt 2 := fun _ => by
    rw [abs_of_pos (by norm_num)]
    exact one_div_le_one_div_of_le (Real.sqrt_pos.2 (by norm_num)) ((Real.sqrt_le_left (by norm_num)).2 (by norm_num))
  constructor
  · refine Ok.mono (C63_conv_test (n := 8) (LOGQ := 1450) (by norm_num) (by norm_num) (by norm_num) 50 (by norm_num) (by norm_num)
      (by norm_num) (fun _ => 1/2) hρ) fun o ho i => ((ho i).2).trans ?_
    norm_num
  · refine Ok.mono (C63_ctxt_conv_test (n := 8) (LOGQ := 1450) (2^31-1) (by norm_num) (by norm_num) (by norm_num) (by norm_num) 50
      (by norm_num) (by norm_num) (by norm_num) 128 (by norm_num) evk0 ct0 ct_sq0 (fun _ => 1/2) hρ (fun j => j)
      (fun j l => ⟨2^(8+1) * l + j, by omega, by have := j.isLt; omega⟩)) fun o ho i => ⟨(ho i).1, ((ho i).2).trans ?_⟩
    rw [show Int.toNat 128 = 128 from rfl]
    norm_num

end EvalRound

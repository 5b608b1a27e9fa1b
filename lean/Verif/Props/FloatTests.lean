import Verif.Proofs.FloatTests
import Verif.Proofs.FloatBootNum
import Verif.Proofs.FloatBoot
import Verif.Props.FloatMessage

/-!
# C87: the programs conv_test, ctxt_conv_test, coeffToSlot_test and evalMod_test in binary64
-/

namespace EvalRound
open Z_Q Finset

variable {n LOGQ : Nat} [NeZero LOGQ] {L : LibmP}

theorem tiny_mul : (3:ℝ)/2^53 * (1 * 1) + 1/2^1072 ≤ 1/2^51 := by
  have h : (1:ℝ)/2^1072 ≤ 1/2^53 := one_div_le_one_div_of_le (by positivity) (pow_le_pow_right₀ (by norm_num) (by norm_num))
  generalize (1:ℝ)/2^1072 = y at *
  norm_num at *; linarith

theorem small_800 {x : ℝ} (h : x ≤ 2^200) (D : Nat) : x ≤ 2^800 * 2^D := by
  have h1 : (1:ℝ) ≤ 2^D := one_le_pow₀ (by norm_num)
  have h2 : (2:ℝ)^200 ≤ 2^800 := pow_le_pow_right₀ (by norm_num) (by norm_num)
  exact (h.trans h2).trans (le_mul_of_one_le_right (by positivity) h1)

theorem one_800 : (1:ℝ) ≤ 2^800 := one_le_pow₀ (by norm_num)

/-- the product of two messages of size at most 1 -/
theorem unit_mulF {a b : CVec (n+1)} (ha : ∀ i : Fin (2^n), ‖(⟨a.1 i, a.2 i⟩ : ℂ)‖ ≤ 1) (hb : ∀ i : Fin (2^n), ‖(⟨b.1 i, b.2 i⟩ : ℂ)‖ ≤ 1) :
    Ok (MsgF.mul a b) fun r => ∀ i : Fin (2^n), ‖(⟨r.1 i, r.2 i⟩ : ℂ) - ⟨a.1 i, a.2 i⟩ * ⟨b.1 i, b.2 i⟩‖ ≤ 1/2^51 := by
  have h1 : ∀ i : Fin (2^n), ‖(⟨a.1 i, a.2 i⟩ : ℂ)‖ * ‖(⟨b.1 i, b.2 i⟩ : ℂ)‖ ≤ 1 * 1 := fun i =>
    mul_le_mul (ha i) (hb i) (norm_nonneg _) (by norm_num)
  refine Ok.mono (C84_mul a b fun i => (h1 i).trans (by rw [one_mul]; exact one_le_pow₀ (by norm_num))) fun r hr i => (hr i).trans ?_
  refine le_trans (add_le_add (mul_le_mul_of_nonneg_left (h1 i) (by positivity)) le_rfl) tiny_mul

/-- C87: `conv_test` in binary64 prints the product of the two messages twice: the product of the messages is off by at most `2^-51`,
the decoded product of the plaintexts by the error `T` of the two encodings and the error of the decoding. -/
theorem C87_conv_test (hL : L.Accurate) (hQ : LOGQ ≤ 60 ∨ 65 ≤ LOGQ ∧ LOGQ ≤ 3051) (hn1 : 1 ≤ n) (hn : n ≤ 16) (LOGDELTA : Nat) (hD : LOGDELTA < 63)
    (hDQ : LOGDELTA + 3 ≤ LOGQ) (ρ : RealRng) (hρ : ∀ j, |ρ j| ≤ 1 / Real.sqrt 2)
    (T E : ℝ) (hT : T = encTol n (2^LOGDELTA)) (hE : E = 2 * 2^LOGDELTA * T + T^2) (hq : 2^(LOGDELTA * 2) + E < 2^(LOGQ-1)) :
    Ok (convTestF L LOGDELTA LOGQ (n+1) ρ) fun o => ∀ i : Fin (2^n),
      ‖(⟨o.1.1 i, o.1.2 i⟩ : ℂ) - ⟨ρ i, ρ (2^n + i)⟩ * ⟨ρ (2^(n+1) + i), ρ (2^(n+1) + (2^n + i))⟩‖ ≤ 1/2^51 ∧
      ‖(⟨o.2.1 i, o.2.2 i⟩ : ℂ) - ⟨ρ i, ρ (2^n + i)⟩ * ⟨ρ (2^(n+1) + i), ρ (2^(n+1) + (2^n + i))⟩‖ ≤
        E / 2^(LOGDELTA * 2) + decTol n (1 + E / 2^(LOGDELTA * 2)) := by
  have ha : ∀ i : Fin (2^n), ‖(⟨(set_random_message (n+1) ρ).1.1 i, (set_random_message (n+1) ρ).1.2 i⟩ : ℂ)‖ ≤ 1 :=
    random_message_norm (n+1) hρ
  have hb : ∀ i : Fin (2^n), ‖(⟨(set_random_message (n+1) (set_random_message (n+1) ρ).2).1.1 i,
      (set_random_message (n+1) (set_random_message (n+1) ρ).2).1.2 i⟩ : ℂ)‖ ≤ 1 :=
    random_message_norm (n+1) (fun j => hρ _)
  unfold convTestF
  simp only []
  have ea : ∀ i : Fin (2^n), (⟨(set_random_message (n+1) ρ).1.1 i, (set_random_message (n+1) ρ).1.2 i⟩ : ℂ) =
    ⟨ρ i, ρ (2^n + i)⟩ := fun _ => rfl
  have eb : ∀ i : Fin (2^n), (⟨(set_random_message (n+1) (set_random_message (n+1) ρ).2).1.1 i,
      (set_random_message (n+1) (set_random_message (n+1) ρ).2).1.2 i⟩ : ℂ) =
      ⟨ρ (2^(n+1) + i), ρ (2^(n+1) + (2^n + i))⟩ := fun _ => rfl
  generalize (set_random_message (n+1) (set_random_message (n+1) ρ).2).1 = b at *
  generalize (set_random_message (n+1) ρ).1 = a at *
  rw [shl1_eq (by omega), pure_bind]
  have hΔ : (0:ℝ) < 2^LOGDELTA := by positivity
  have hδ := toNat_scale (D := LOGDELTA) (by omega)
  have hδ' : (((BitVec.ofNat 64 (2^LOGDELTA)).toNat : ℕ) : ℂ) = 2^LOGDELTA := by
    have : ((((BitVec.ofNat 64 (2^LOGDELTA)).toNat : ℕ) : ℝ) : ℂ) = ((2^LOGDELTA : ℝ) : ℂ) := by rw [hδ]
    push_cast at this; exact this
  have henc : ∀ z : CVec (n+1), (∀ i : Fin (2^n), ‖(⟨z.1 i, z.2 i⟩ : ℂ)‖ ≤ 1) →
      Ok (encodeF L.toLibm LOGQ z (BitVec.ofNat 64 (2^LOGDELTA))) fun pt => R_Q.Canonical pt ∧
      ∀ i : Fin (2^n), ‖slots n (R_Q.sval pt) i - 2^LOGDELTA * ⟨z.1 i, z.2 i⟩‖ ≤ T := by
    intro z hz
    have h1 := unit_hw hD
    have h2 := unit_hq hDQ
    have := encodeF_slots (Q := LOGQ) hL.1 hn1 (by omega) z (BitVec.ofNat 64 (2^LOGDELTA)) (scale_ne_zero (by omega)) (B := 1) hz
      (by rw [hδ]; linarith) (by rw [hδ]; linarith)
    rw [hδ', hδ, one_mul, ← hT] at this
    exact this
  refine Ok.bind (henc a ha) fun pa ⟨hpa, hsa⟩ => ?_
  refine Ok.bind (henc b hb) fun pb ⟨hpb, hsb⟩ => ?_
  refine Ok.bind (unit_mulF ha hb) fun c hc => ?_
  refine Ok.bind (conv_spec (k := n+1) hQ (by omega) (by omega) hpa hpb) fun pc ⟨hpc, hcc⟩ => ?_
  have hw : R_Q.cls pc = red LOGQ (negconv (R_Q.sval pa) (R_Q.sval pb)) := by
    rw [hcc, red_negconv, ← cls_red_sval, ← cls_red_sval]
  have h2D : (2:ℂ)^(LOGDELTA * 2) = 2^LOGDELTA * 2^LOGDELTA := by rw [mul_two, pow_add]
  have hx : ∀ i, ‖slots n (negconv (R_Q.sval pa) (R_Q.sval pb)) i - 2^(LOGDELTA * 2) * (⟨a.1 i, a.2 i⟩ * ⟨b.1 i, b.2 i⟩)‖ ≤ E := by
    intro i
    rw [slots_negconv, h2D, mul_mul_mul_comm]
    have hu : ∀ x : ℂ, ‖x‖ ≤ 1 → ‖(2:ℂ)^LOGDELTA * x‖ ≤ 2^LOGDELTA := fun x hx => by
      rw [norm_mul, norm_pow, Complex.norm_ofNat]
      exact mul_le_of_le_one_right hΔ.le hx
    refine (mul_near (hsa i) (hsb i) (hu _ (ha i)) (hu _ (hb i))).trans (le_of_eq ?_)
    rw [hE]; ring
  have hX : ∀ i : Fin (2^n), ‖(⟨a.1 i, a.2 i⟩ : ℂ) * ⟨b.1 i, b.2 i⟩‖ ≤ 1 := by
    intro i
    rw [norm_mul]
    exact mul_le_one₀ (ha i) (norm_nonneg _) (hb i)
  have hT36 : T ≤ 2^36 := by rw [hT]; have := encTol_unit hn hD; rwa [one_mul] at this
  have hT0 : 0 ≤ T := by rw [hT]; exact encTol_nonneg (by positivity)
  have hE200 : E ≤ 2^200 := by
    have h3 : (2:ℝ)^LOGDELTA ≤ 2^62 := pow_le_pow_right₀ (by norm_num) (by omega)
    rw [hE]
    have : 2 * 2^LOGDELTA * T + T^2 ≤ 2 * 2^62 * 2^36 + (2^36)^2 := by gcongr
    exact this.trans (by norm_num)
  refine Ok.bind (decode_nearS (D := LOGDELTA * 2) hL.1 hn1 (by omega) (by omega) (by omega) hpc hw hx hX (by rw [mul_one]; exact hq) one_800
    (small_800 hE200 _)) fun z hz => Ok.pure fun i => ?_
  dsimp only
  rw [← ea, ← eb]
  exact ⟨hc i, hz i⟩

/-- C87: `ctxt_conv_test` in binary64 prints the square of the message twice: from the message up to `2^-51`, and from the
ciphertext up to the error `T` of encoding and encryption, the error of the multiplication and that of the decoding. -/
theorem C87_ctxt_conv_test (hL : L.Accurate) (R : Nat) (h1 : 65 ≤ LOGQ) (h2 : LOGQ ≤ 1525) (hn1 : 1 ≤ n) (hn : n ≤ 16)
    (LOGDELTA : Nat) (hD : LOGDELTA < 63) (hDQ : LOGDELTA + 3 ≤ LOGQ)
    (H : Int) (hH : H ≤ (2^(n+1) : Nat)) (evk0 : R_Q_square (2 * LOGQ) (2^(n+1))) (ct0 ct_sq0 : R_Q_square LOGQ (2^(n+1)))
    (ρ : RealRng) (hρ : ∀ j, |ρ j| ≤ 1 / Real.sqrt 2) (ω : Rng)
    (hω : ∀ (j : Fin (2^(n+1))) (l : Nat), ∃ m, l ≤ m ∧ ω m % 2^(n+1) = j)
    (T E : ℝ) (hT : T = encTol n (2^LOGDELTA) + 16 * 2^n)
    (hE : E = 2 * 2^LOGDELTA * T + T^2 + 2^(n+1) * (4 * 2^(n+1) + (H.toNat + 1) / 2)) (hq : 2^(2 * LOGDELTA) + E < 2^(LOGQ-1)) :
    Ok (ctxtConvTestF L R LOGDELTA H evk0 ct0 ct_sq0 ρ ω) fun o => ∀ i : Fin (2^n),
      ‖(⟨o.1.1 i, o.1.2 i⟩ : ℂ) - ⟨ρ i, ρ (2^n + i)⟩ ^ 2‖ ≤ 1/2^51 ∧
      ‖(⟨o.2.1 i, o.2.2 i⟩ : ℂ) - ⟨ρ i, ρ (2^n + i)⟩ ^ 2‖ ≤ E / 2^(2 * LOGDELTA) + decTol n (1 + E / 2^(2 * LOGDELTA)) := by
  have hN : 2^(n+1) ≤ 2^17 := Nat.pow_le_pow_right (by norm_num) (by omega)
  have ha : ∀ i : Fin (2^n), ‖(⟨(set_random_message (n+1) ρ).1.1 i, (set_random_message (n+1) ρ).1.2 i⟩ : ℂ)‖ ≤ 1 :=
    random_message_norm (n+1) hρ
  have ea : ∀ i : Fin (2^n), (⟨(set_random_message (n+1) ρ).1.1 i, (set_random_message (n+1) ρ).1.2 i⟩ : ℂ) =
    ⟨ρ i, ρ (2^n + i)⟩ := fun _ => rfl
  unfold ctxtConvTestF
  simp only []
  generalize (set_random_message (n+1) ρ).1 = a at *
  refine Ok.bind (unit_mulF ha ha) fun q hqq => ?_
  refine Ok.bind (C19_keygen_returns H hH ω hω) fun k ⟨hs, hw⟩ => ?_
  have hs' : Ternary k.1 := hs
  rw [convI_spec (by omega) k.1 k.1 hs'.abs_le hs'.abs_le, pure_bind]
  refine Ok.bind (swk_evk R hn hs' evk0 _) fun evk hev => ?_
  rw [shl1_eq (by omega), pure_bind]
  obtain ⟨pt, ct, m, e, ept, -, -, -, -, ect, hctc, -, hph, hsl⟩ := fresh_coeffF (Q := LOGQ) hL.1 R hn1 (by omega) (D := LOGDELTA) (by omega)
    (z := a) (B := 1) (C := 1) ha (fun m hm => coeff_le_slots hn1 (by omega) (fun i => by rw [hm i]; exact ha i)) le_rfl
    (unit_hB hD) (unit_hw hD) (unit_hq (by omega)) hs' ct0 evk.2
  rw [one_mul, ← hT] at hsl
  have hct : Near k.1 ct.1 (fun i : Fin (2^n) => 2^LOGDELTA * (⟨a.1 i, a.2 i⟩ : ℂ)) T := ⟨hctc, _, hph, hsl⟩
  rw [ept, pure_bind, ect, pure_bind]
  have hΔ : (0:ℝ) < 2^LOGDELTA := by positivity
  have hX : ∀ i : Fin (2^n), ‖(2:ℂ)^LOGDELTA * ⟨a.1 i, a.2 i⟩‖ ≤ 2^LOGDELTA := by
    intro i
    rw [norm_mul, norm_pow, Complex.norm_ofNat]
    exact mul_le_of_le_one_right hΔ.le (ha i)
  refine Ok.bind (Near.mul (Or.inr (by omega)) (Or.inr (by omega)) hn hs' hev hct hct hX hX ct_sq0) fun c hc => ?_
  have hwt : weight k.1 = H.toNat := hw
  have hc2 : Near k.1 c (fun i : Fin (2^n) => 2^(2 * LOGDELTA) * ((⟨a.1 i, a.2 i⟩ : ℂ) ^ 2)) E := by
    refine hc.mono (fun i => ?_) (le_of_eq ?_)
    · rw [two_mul, pow_add]; ring
    · rw [hwt, hE]; unfold mulErr; ring
  have hX2 : ∀ i : Fin (2^n), ‖(⟨a.1 i, a.2 i⟩ : ℂ) ^ 2‖ ≤ 1 := fun i => by
    rw [norm_pow]; exact pow_le_one₀ (norm_nonneg _) (ha i)
  have hT40 : T ≤ 2^37 := by
    have := encTol_unit hn hD
    rw [one_mul] at this
    have h3 : (2:ℝ)^n ≤ 2^16 := pow_le_pow_right₀ (by norm_num) hn
    rw [hT]; generalize (2:ℝ)^n = t at *
    generalize encTol n (2^LOGDELTA) = v at *
    norm_num at *; linarith
  have hT0 : 0 ≤ T := by
    rw [hT]
    have := encTol_nonneg (n := n) (b := (2:ℝ)^LOGDELTA) (by positivity)
    positivity
  have hE200 : E ≤ 2^200 := by
    have h3 : (2:ℝ)^LOGDELTA ≤ 2^62 := pow_le_pow_right₀ (by norm_num) (by omega)
    have h4 : (2:ℝ)^(n+1) ≤ 2^17 := pow_le_pow_right₀ (by norm_num) (by omega)
    have h6 : ((H.toNat : ℕ) : ℝ) ≤ 2^17 := by
      have : H.toNat ≤ 2^17 := (Int.toNat_le.2 hH).trans hN
      exact_mod_cast this
    rw [hE]
    have : 2 * 2^LOGDELTA * T + T^2 + 2^(n+1) * (4 * 2^(n+1) + ((H.toNat : ℕ) + 1) / 2) ≤
      2 * 2^62 * 2^37 + (2^37)^2 + 2^17 * (4 * 2^17 + ((2:ℝ)^17 + 1) / 2) := by gcongr
    exact this.trans (by norm_num)
  obtain ⟨z, ez, hz⟩ := near_outS (D := 2 * LOGDELTA) hL.1 hn1 (by omega) (by omega) (by omega) hs' hc2 hX2 (by rw [mul_one]; exact hq)
    one_800 (small_800 hE200 _)
  obtain ⟨p, ep, ez⟩ := bind_eq_pure ez
  rw [ep, pure_bind, ez, pure_bind]
  refine Ok.pure fun i => ?_
  dsimp only
  have h3 := hqq i
  rw [← sq] at h3
  rw [← ea]
  exact ⟨h3, hz i⟩

theorem real_lt_64 {x : ℝ} (h : |x| ≤ 1) {D : Nat} (hD : D < 63) {p : ℤ} {T : ℝ} (hp : |(p:ℝ) - x * 2^D| ≤ T) (hT : T ≤ 2^20) : |p| < 2^64 := by
  have h3 : (2:ℝ)^D ≤ 2^62 := pow_le_pow_right₀ (by norm_num) (by omega)
  have hΔ : (0:ℝ) < 2^D := by positivity
  have g3 := abs_sub_abs_le_abs_sub (p : ℝ) (x * 2^D)
  rw [abs_mul, abs_of_pos hΔ] at g3
  have g4 : |x| * 2^D ≤ 1 * 2^D := mul_le_mul_of_nonneg_right h hΔ.le
  have g5 : |(p:ℝ)| < 2^64 := by
    generalize (2:ℝ)^D = t at *
    norm_num at *; linarith
  exact_mod_cast g5

/-- the error of a coefficient of an encoded message of size at most 1 -/
theorem coeffTol_le (hn : n ≤ 16) {D : Nat} (hD : D < 63) :
    (1:ℝ)/2 + (28 * n + 6) * (1 * 2^D) / 2^53 + 1/2^900 ≤ 1 + (28 * n + 6) * 2^D / 2^53 ∧
    (1:ℝ)/2 + (28 * n + 6) * (1 * 2^D) / 2^53 + 1/2^900 ≤ 2^20 := by
  have h4 : (n:ℝ) ≤ 16 := by exact_mod_cast hn
  have h3 : (2:ℝ)^D ≤ 2^62 := pow_le_pow_right₀ (by norm_num) (by omega)
  have h5 : (1:ℝ)/2^900 ≤ 1/2 := by
    refine one_div_le_one_div_of_le (by norm_num) ?_
    exact le_trans (by norm_num) (pow_le_pow_right₀ (by norm_num) (by norm_num) : (2:ℝ)^1 ≤ 2^900)
  have h6 : (28 * n + 6) * (1 * (2:ℝ)^D) / 2^53 ≤ (28 * 16 + 6) * (1 * 2^62) / 2^53 := by gcongr
  generalize (1:ℝ)/2^900 = y at *
  rw [one_mul] at *
  constructor
  · linarith
  · norm_num at *; linarith

theorem slots_le {a : ℂ} (ha : ‖a‖ ≤ 1) {D : Nat} {x : ℂ} {T : ℝ} (h : ‖x - 2^D * a‖ ≤ T) : ‖x‖ ≤ 2^D + T := by
  have g1 := norm_sub_norm_le x (2^D * a)
  have g3 : ‖(2:ℂ)^D * a‖ ≤ 2^D := by
    rw [norm_mul, norm_pow, Complex.norm_ofNat]
    exact mul_le_of_le_one_right (by positivity) ha
  linarith

theorem Z_small (hn : n ≤ 16) {D : Nat} (hD : D < 63) : (2^D + (encTol n (1 * 2^D) + 16 * 2^n)) / 2^D ≤ (2:ℝ)^800 := by
  have h := encTol_unit hn hD
  have h1 : (1:ℝ) ≤ 2^D := one_le_pow₀ (by norm_num)
  have h3 : (2:ℝ)^n ≤ 2^16 := pow_le_pow_right₀ (by norm_num) hn
  refine le_trans ?_ (pow_le_pow_right₀ (by norm_num) (by norm_num) : (2:ℝ)^40 ≤ 2^800)
  rw [div_le_iff₀ (by positivity)]
  generalize encTol n (1 * 2^D) = v at *
  generalize (2:ℝ)^n = u at *
  generalize (2:ℝ)^D = t at *
  norm_num at *; linarith

theorem big_800 {x c : ℝ} (h : x ≤ 2^200 * c) (hc : 0 < c) {D : Nat} : x ≤ 2^800 * (2^D * c) := by
  have h1 : (1:ℝ) ≤ 2^D := one_le_pow₀ (by norm_num)
  have h2 : (2:ℝ)^200 ≤ 2^800 := pow_le_pow_right₀ (by norm_num) (by norm_num)
  refine h.trans ((mul_le_mul_of_nonneg_right h2 hc.le).trans (mul_le_mul_of_nonneg_left ?_ (by positivity)))
  exact le_mul_of_one_le_left hc.le h1

theorem scale_pow {D L' k : Nat} : (2:ℝ)^(D + k * L') = 2^D * (2^L')^k := by rw [pow_add, mul_comm k, pow_mul]
theorem scale_powC {D L' k : Nat} : (2:ℂ)^(D + k * L') = 2^D * (2^L')^k := by rw [pow_add, mul_comm k, pow_mul]

set_option maxHeartbeats 1000000 in
/-- C87: `CoeffToSlot_test` in binary64 prints the coefficients `m` of the message twice in bit reversed order: the ones decrypted from
the results of CoeffToSlot and the ones read from the plaintext. `Z` bounds the slots of the ciphertext. -/
theorem C87_CoeffToSlot_test (hLib : L.Accurate) (R LOGDELTA LDt : Nat) (hD : LOGDELTA < 63) (hL : LDt < 63) (hQ : GoodQ LOGQ) (hLQ : LDt + 2 < LOGQ)
    (hDQ : LOGDELTA + 3 ≤ LOGQ) (hn1 : 1 ≤ n) (hn : n ≤ 16) (G : Nat) (hG1 : 1 ≤ G) (hG : G ≤ 4) (hnG : n % G = 0)
    (H : Int) (hH : H ≤ (2^(n+1) : Nat)) (ct0 : R_Q_square LOGQ (2^(n+1)))
    (ρ : RealRng) (hρ : ∀ j, |ρ j| ≤ 1 / Real.sqrt 2) (ω : Rng)
    (hω : ∀ (j : Fin (2^(n+1))) (l : Nat), ∃ m, l ≤ m ∧ ω m % 2^(n+1) = j)
    (Z E C : ℝ) (hZ : Z = 2^LOGDELTA + (encTol n (1 * 2^LOGDELTA) + 16 * 2^n))
    (hE : E = 2 * grpErrF n H.toNat G 1 ((1/2)^G) (2^LDt) Z + ksErr n H.toNat) (hC : C = (2^LDt)^(n/G))
    (hq : C * Z + E < 2^(LOGQ-1)) (hb : E ≤ 2^200 * C) :
    Ok (CoeffToSlot_testF (LOGN := n+1) L R LOGDELTA H LDt G ct0 ρ ω) fun o => ∃ m : Fin (2^(n+1)) → ℝ,
      (∀ i : Fin (2^n), slotOf m i = ⟨ρ i, ρ (2^n + i)⟩) ∧
      ∀ (i : Fin (2^n)) (h0 : bitRev n i < 2^(n+1)) (h1 : bitRev n i + 2^n < 2^(n+1)),
        |o.2.1 i - m ⟨_, h0⟩| ≤ 1 / 2^LOGDELTA + (28 * n + 2^10) / 2^53 ∧ |o.2.2 i - m ⟨_, h1⟩| ≤ 1 / 2^LOGDELTA + (28 * n + 2^10) / 2^53 ∧
        |o.1.1 i - m ⟨_, h0⟩| ≤ (9 + E / C) / 2^LOGDELTA + (28 * n + 6) / 2^53 + decTol n (Z / 2^LOGDELTA + E / (2^LOGDELTA * C)) ∧
        |o.1.2 i - m ⟨_, h1⟩| ≤ (9 + E / C) / 2^LOGDELTA + (28 * n + 6) / 2^53 + decTol n (Z / 2^LOGDELTA + E / (2^LOGDELTA * C)) := by
  have hLQ29 : LOGQ ≤ 2^29 := by rcases hQ.one with h | h <;> omega
  have ha : ∀ i : Fin (2^n), ‖(⟨(set_random_message (n+1) ρ).1.1 i, (set_random_message (n+1) ρ).1.2 i⟩ : ℂ)‖ ≤ 1 :=
    random_message_norm (n+1) hρ
  have ea : ∀ i : Fin (2^n), (⟨(set_random_message (n+1) ρ).1.1 i, (set_random_message (n+1) ρ).1.2 i⟩ : ℂ) =
    ⟨ρ i, ρ (2^n + i)⟩ := fun _ => rfl
  unfold CoeffToSlot_testF
  dsimp only
  generalize (set_random_message (n+1) ρ).1 = a at *
  refine Ok.bind (C19_keygen_returns H hH ω hω) fun k ⟨hs, hw⟩ => ?_
  have hs' : Ternary k.1 := hs
  have hwt : weight k.1 = H.toNat := hw
  rw [shl1_eq (by omega), pure_bind]
  obtain ⟨pt, r, m, e, ept, hpc, hm, hmB, hpt, er, hrc, he, hph, hsl⟩ := fresh_coeffF (Q := LOGQ) hLib.1 R hn1 (by omega) (D := LOGDELTA)
    (by omega) (z := a) (B := 1) (C := 1) ha
    (fun m hm => coeff_le_slots hn1 (by omega) (fun i => by rw [hm i]; exact ha i)) le_rfl
    (unit_hB hD) (unit_hw hD) (unit_hq (by omega)) hs' ct0 k.2
  rw [ept, pure_bind, er, pure_bind]
  have hΔ : (0:ℝ) < 2^LOGDELTA := by positivity
  have hC0 : (0:ℝ) < C := by rw [hC]; positivity
  have hZs : ∀ i, ‖slots n (R_Q.sval pt + e) i‖ ≤ Z := fun i => by rw [hZ]; exact slots_le (ha i) (hsl i)
  have hco : ∀ k, |(((R_Q.sval pt + e) k : ℤ) : ℝ)| ≤ Z :=
    coeff_le_slots hn1 (by omega) (m := fun k => (((R_Q.sval pt + e) k : ℤ) : ℝ)) hZs
  have key : Ok (CoeffToSlotF (LOGN := n+1) L R LDt G r.1 k.1 r.2) _ :=
    Ok.bind (ctsTableF_spec hLib hn1 (by omega)) fun U hU =>
      ctsWithF_slots hLib.1 R LDt (by omega) hQ.one hQ.two hn1 hn hs' hU hG1 hG hnG hLQ hrc hph r.2
  refine Ok.bind key fun c ⟨hc0, hc1, w0, w1, hp0, hp1, hcts⟩ => ?_
  have hcts' := hcts Z hZs
  rw [hwt, ← hE] at hcts'
  have hsc : ∀ y : ℝ, (2:ℂ)^(LOGDELTA + n/G * LDt) * ((y / 2^LOGDELTA : ℝ) : ℂ) = ((2:ℂ)^LDt)^(n/G) * (y : ℂ) := by
    intro y
    have h3 : (2:ℂ)^LOGDELTA ≠ 0 := pow_ne_zero _ two_ne_zero
    rw [scale_powC]; push_cast; field_simp
  have n0 : Near k.1 c.1.1 (fun i => 2^(LOGDELTA + n/G * LDt) * (((((R_Q.sval pt + e) (loIdx i) : ℤ) : ℝ) / 2^LOGDELTA : ℝ) : ℂ)) E :=
    ⟨hc0, w0, hp0, fun i => by beta_reduce; rw [hsc]; exact (hcts' i).1⟩
  have n1 : Near k.1 c.1.2 (fun i => 2^(LOGDELTA + n/G * LDt) * (((((R_Q.sval pt + e) (hiIdx i) : ℤ) : ℝ) / 2^LOGDELTA : ℝ) : ℂ)) E :=
    ⟨hc1, w1, hp1, fun i => by beta_reduce; rw [hsc]; exact (hcts' i).2⟩
  have hDD : LOGDELTA + n/G * LDt ≤ 2^30 := by
    have : n/G ≤ 16 := (Nat.div_le_self _ _).trans hn
    nlinarith
  have hX : ∀ j : Fin (2^n) → Fin (2^(n+1)), ∀ i : Fin (2^n),
      ‖(((((R_Q.sval pt + e) (j i) : ℤ) : ℝ) / 2^LOGDELTA : ℝ) : ℂ)‖ ≤ Z / 2^LOGDELTA := by
    intro j i
    rw [Complex.norm_real, Real.norm_eq_abs, abs_div, abs_of_pos hΔ]
    exact div_le_div_of_nonneg_right (hco _) hΔ.le
  have hq2 : 2^(LOGDELTA + n/G * LDt) * (Z / 2^LOGDELTA) + E < 2^(LOGQ-1) := by
    rw [scale_pow, ← hC]
    have : 2^LOGDELTA * C * (Z / 2^LOGDELTA) = C * Z := by field_simp
    rw [this]; exact hq
  have hZ8 : Z / 2^LOGDELTA ≤ 2^800 := by rw [hZ]; exact Z_small hn hD
  have hE8 : E ≤ 2^800 * 2^(LOGDELTA + n/G * LDt) := by rw [scale_pow, ← hC]; exact big_800 hb hC0
  obtain ⟨z0, ez0, hz0⟩ := near_outS (D := LOGDELTA + n/G * LDt) hLib.1 hn1 (by omega) hLQ29 hDD hs' n0 (hX loIdx) hq2 hZ8 hE8
  obtain ⟨z1, ez1, hz1⟩ := near_outS (D := LOGDELTA + n/G * LDt) hLib.1 hn1 (by omega) hLQ29 hDD hs' n1 (hX hiIdx) hq2 hZ8 hE8
  rw [scale_pow, ← hC] at hz0 hz1
  obtain ⟨p0, ep0, ez0⟩ := bind_eq_pure ez0
  obtain ⟨p1, ep1, ez1⟩ := bind_eq_pure ez1
  rw [ep0, pure_bind, show decode_logF L.toLibm p0 (((LOGDELTA + (n+1-1)/G * LDt : ℕ)) : ℤ) = pure z0 from ez0, pure_bind,
    ep1, pure_bind, show decode_logF L.toLibm p1 (((LOGDELTA + (n+1-1)/G * LDt : ℕ)) : ℤ) = pure z1 from ez1, pure_bind]
  obtain ⟨ct1, ct2⟩ := coeffTol_le hn hD
  have hb64 : ∀ k, |(pt k).sval| < 2^64 := fun k => real_lt_64 (hmB k) hD (hpt k) ct2
  refine Ok.bind (ctsExactF_spec hn1 (by omega) (scale_ne_zero (D := LOGDELTA) (by omega)) hpc hb64) fun x hx =>
    Ok.pure ⟨m, fun i => by rw [hm i, ea i], ?_⟩
  rw [toNat_scale (by omega : LOGDELTA < 64)] at hx
  intro i h0 h1
  have hd : ∀ j, |((pt j).sval : ℝ) / 2^LOGDELTA - m j| ≤ 1 / 2^LOGDELTA + (28 * n + 6) / 2^53 := by
    intro j
    have e1 : ((pt j).sval : ℝ) / 2^LOGDELTA - m j = ((pt j).sval - m j * 2^LOGDELTA) / 2^LOGDELTA := by field_simp
    rw [e1, abs_div, abs_of_pos hΔ, div_le_iff₀ hΔ]
    refine ((hpt j).trans ct1).trans (le_of_eq ?_)
    field_simp
  have hx' : ∀ (v : ℝ) (j), |v - (pt j).sval / 2^LOGDELTA| ≤ 4 * uF * (|((pt j).sval : ℝ)| / 2^LOGDELTA) + etaF →
      |v - m j| ≤ 1 / 2^LOGDELTA + (28 * n + 2^10) / 2^53 := by
    intro v j hv
    have g1 := hd j
    have g2 := abs_sub_le v (((pt j).sval : ℝ) / 2^LOGDELTA) (m j)
    have g3 := abs_sub_abs_le_abs_sub (((pt j).sval : ℝ) / 2^LOGDELTA) (m j)
    rw [abs_div, abs_of_pos hΔ] at g3
    have g4 := hmB j
    have g5 : (1:ℝ) / 2^LOGDELTA ≤ 1 := by rw [div_le_one hΔ]; exact one_le_pow₀ (by norm_num)
    have g6 : ((28 * n + 6) / 2^53 : ℝ) ≤ 1 := by
      have h4 : (n:ℝ) ≤ 16 := by exact_mod_cast hn
      rw [div_le_one (by positivity)]; norm_num; linarith
    have hη : etaF ≤ 1/2^53 := by
      rw [etaF_eq]
      exact one_div_le_one_div_of_le (by positivity) (pow_le_pow_right₀ (by norm_num) (by norm_num))
    have g7 : 4 * uF * (|((pt j).sval : ℝ)| / 2^LOGDELTA) ≤ 4 * uF * 3 :=
      mul_le_mul_of_nonneg_left (by linarith) (by have := uF_pos; positivity)
    rw [uF_eq] at hv g7
    have g8 : ((28 * n + 2^10) / 2^53 : ℝ) = (28 * n + 6) / 2^53 + 1018 / 2^53 := by ring
    rw [g8]
    have g9 : (4 * (1/2^53) * 3 + 1/2^53 : ℝ) ≤ 1018 / 2^53 := by norm_num
    linarith
  have hr : ∀ (z : CVec (n+1)) (j : Fin (2^n) → Fin (2^(n+1))), ‖(⟨z.1 i, z.2 i⟩ : ℂ) -
      (((((R_Q.sval pt + e) (j i) : ℤ) : ℝ) / 2^LOGDELTA : ℝ) : ℂ)‖ ≤ E / (2^LOGDELTA * C) + decTol n (Z / 2^LOGDELTA + E / (2^LOGDELTA * C)) →
      |z.1 i - m (j i)| ≤ (9 + E / C) / 2^LOGDELTA + (28 * n + 6) / 2^53 + decTol n (Z / 2^LOGDELTA + E / (2^LOGDELTA * C)) := by
    intro z j hz
    have g1 := (Complex.abs_re_le_norm _).trans hz
    rw [Complex.sub_re, Complex.ofReal_re] at g1
    have g2 : |((e (j i) : ℤ) : ℝ)| ≤ 8 := by exact_mod_cast he (j i)
    have e1 : (((R_Q.sval pt + e) (j i) : ℤ) : ℝ) / 2^LOGDELTA - m (j i) =
        (((pt (j i)).sval : ℝ) / 2^LOGDELTA - m (j i)) + (e (j i) : ℝ) / 2^LOGDELTA := by
      show (((pt (j i)).sval + e (j i) : ℤ) : ℝ) / 2^LOGDELTA - m (j i) = _
      push_cast; ring
    have g3 := abs_add_le (((pt (j i)).sval : ℝ) / 2^LOGDELTA - m (j i)) ((e (j i) : ℝ) / 2^LOGDELTA)
    rw [← e1, abs_div ((e (j i) : ℝ)), abs_of_pos hΔ] at g3
    have g4 : |((e (j i) : ℤ) : ℝ)| / 2^LOGDELTA ≤ 8 / 2^LOGDELTA := div_le_div_of_nonneg_right g2 hΔ.le
    have g6 := hd (j i)
    have g7 := abs_sub_le (z.1 i) ((((R_Q.sval pt + e) (j i) : ℤ) : ℝ) / 2^LOGDELTA) (m (j i))
    have g5 : E / (2^LOGDELTA * C) = E / C / 2^LOGDELTA := by rw [div_div, mul_comm]
    have g8 : (9:ℝ) / 2^LOGDELTA = 1 / 2^LOGDELTA + 8 / 2^LOGDELTA := by rw [← add_div]; norm_num
    generalize decTol n (Z / 2^LOGDELTA + E / (2^LOGDELTA * C)) = dt at *
    rw [g5] at g1
    rw [add_div, g8]
    change |z.1 i - _| ≤ _ at g1
    linarith
  obtain ⟨x0, x1⟩ := hx i
  exact ⟨hx' _ _ x0, hx' _ _ x1, hr z0 loIdx (hz0 i), hr z1 hiIdx (hz1 i)⟩

set_option maxHeartbeats 1000000 in
/-- C87: `CoeffToSlot_SlotToCoeff_test` in binary64 prints the message and what is left of it after encryption, CoeffToSlot, SlotToCoeff
and decryption. `Z` bounds the slots of the ciphertext, `E` and `F` are the errors of the two maps. -/
theorem C87_CoeffToSlot_SlotToCoeff_test (hLib : L.Accurate) (R LOGDELTA LDt LDb : Nat) (hD : LOGDELTA < 63) (hL : LDt < 63) (hLb : LDb < 63)
    (hQ : GoodQ LOGQ) (hLQ : LDt + 2 < LOGQ) (hLbQ : LDb + 2 < LOGQ)
    (hDQ : LOGDELTA + 3 ≤ LOGQ) (hn1 : 1 ≤ n) (hn : n ≤ 16) (G : Nat) (hG1 : 1 ≤ G) (hG : G ≤ 4) (hnG : n % G = 0)
    (H : Int) (hH : H ≤ (2^(n+1) : Nat)) (ct0 : R_Q_square LOGQ (2^(n+1)))
    (ρ : RealRng) (hρ : ∀ j, |ρ j| ≤ 1 / Real.sqrt 2) (ω : Rng)
    (hω : ∀ (j : Fin (2^(n+1))) (l : Nat), ∃ m, l ≤ m ∧ ω m % 2^(n+1) = j)
    (T Z E F C : ℝ) (hT : T = encTol n (1 * 2^LOGDELTA) + 16 * 2^n) (hZ : Z = 2^LOGDELTA + T)
    (hE : E = 2 * grpErrF n H.toNat G 1 ((1/2)^G) (2^LDt) Z + ksErr n H.toNat)
    (hF : F = 2 * grpErrF n H.toNat G 2 1 (2^LDb) ((2^LDt)^(n/G) * Z + E) + (2^LDb)^(n/G) * (2 * E))
    (hC : C = (2^LDb)^(n/G) * (2^LDt)^(n/G))
    (hq : C * Z + 2^(n+1) * F < 2^(LOGQ-1)) (hb : 2^(n+1) * F ≤ 2^200 * C) :
    Ok (CoeffToSlot_SlotToCoeff_testF (LOGN := n+1) L R LOGDELTA H LDt LDb G ct0 ρ ω) fun o => ∀ i : Fin (2^n),
      (⟨o.1.1 i, o.1.2 i⟩ : ℂ) = ⟨ρ i, ρ (2^n + i)⟩ ∧
      ‖(⟨o.2.1 i, o.2.2 i⟩ : ℂ) - ⟨o.1.1 i, o.1.2 i⟩‖ ≤
        (T + 2^(n+1) * F / C) / 2^LOGDELTA + decTol n (Z / 2^LOGDELTA + 2^(n+1) * F / (2^LOGDELTA * C)) := by
  have hLQ29 : LOGQ ≤ 2^29 := by rcases hQ.one with h | h <;> omega
  have ha : ∀ i : Fin (2^n), ‖(⟨(set_random_message (n+1) ρ).1.1 i, (set_random_message (n+1) ρ).1.2 i⟩ : ℂ)‖ ≤ 1 :=
    random_message_norm (n+1) hρ
  have ea : ∀ i : Fin (2^n), (⟨(set_random_message (n+1) ρ).1.1 i, (set_random_message (n+1) ρ).1.2 i⟩ : ℂ) =
    ⟨ρ i, ρ (2^n + i)⟩ := fun _ => rfl
  unfold CoeffToSlot_SlotToCoeff_testF
  dsimp only
  generalize (set_random_message (n+1) ρ).1 = a at *
  refine Ok.bind (C19_keygen_returns H hH ω hω) fun k ⟨hs, hw⟩ => ?_
  have hs' : Ternary k.1 := hs
  have hwt : weight k.1 = H.toNat := hw
  rw [shl1_eq (by omega), pure_bind]
  obtain ⟨pt, r, m, e, ept, hpc, hm, hmB, hpt, er, hrc, he, hph, hsl⟩ := fresh_coeffF (Q := LOGQ) hLib.1 R hn1 (by omega) (D := LOGDELTA)
    (by omega) (z := a) (B := 1) (C := 1) ha
    (fun m hm => coeff_le_slots hn1 (by omega) (fun i => by rw [hm i]; exact ha i)) le_rfl
    (unit_hB hD) (unit_hw hD) (unit_hq (by omega)) hs' ct0 k.2
  rw [ept, pure_bind, er, pure_bind]
  rw [← hT] at hsl
  generalize R_Q.sval pt + e = w at *
  have hΔ : (0:ℝ) < 2^LOGDELTA := by positivity
  have hCt : (0:ℝ) < (2^LDt)^(n/G) := by positivity
  have hC0 : (0:ℝ) < C := by rw [hC]; positivity
  have hZs : ∀ i, ‖slots n w i‖ ≤ Z := fun i => by rw [hZ]; exact slots_le (ha i) (hsl i)
  have hco : ∀ k, |((w k : ℤ) : ℝ)| ≤ Z := coeff_le_slots hn1 (by omega) (m := fun k => ((w k : ℤ) : ℝ)) hZs
  have key : Ok (CoeffToSlotF (LOGN := n+1) L R LDt G r.1 k.1 r.2) _ :=
    Ok.bind (ctsTableF_spec hLib hn1 (by omega)) fun U hU =>
      ctsWithF_slots hLib.1 R LDt (by omega) hQ.one hQ.two hn1 hn hs' hU hG1 hG hnG hLQ hrc hph r.2
  refine Ok.bind key fun c ⟨hc0, hc1, w0, w1, hp0, hp1, hcts⟩ => ?_
  have hcts' := hcts Z hZs
  rw [hwt, ← hE] at hcts'
  have key2 : Ok (SlotToCoeffF (LOGN := n+1) L.toLibm R LDb G c.1.1 c.1.2 k.1 c.2) _ :=
    Ok.bind (stcTableF_spec hLib.1 (by omega)) fun T hT =>
      stcWithF_coeff hLib.1 R LDb (by omega) hQ.one hQ.two hn1 hn hs' hT.1 hT.2 hG1 hG hnG hLbQ hc0 hc1
        hp0 hp1 c.2
  refine Ok.bind key2 fun d ⟨hd, v, hpv, hstc⟩ => ?_
  have hsz : ∀ {x : ℂ} {y : ℝ}, |y| ≤ Z → ‖x - (2^LDt)^(n/G) * (y:ℂ)‖ ≤ E → ‖x‖ ≤ (2^LDt)^(n/G) * Z + E := by
    intro x y hy hx
    have g1 := norm_sub_norm_le x ((2^LDt)^(n/G) * (y:ℂ))
    rw [norm_mul, norm_pow, norm_pow, Complex.norm_ofNat, Complex.norm_real, Real.norm_eq_abs] at g1
    have g2 := mul_le_mul_of_nonneg_left hy hCt.le
    linarith
  have hv := hstc (fun k => (2^LDt)^(n/G) * (w k : ℝ)) ((2^LDt)^(n/G) * Z + E) E
    (fun i => hsz (hco (loIdx i)) (hcts' i).1) (fun i => hsz (hco (hiIdx i)) (hcts' i).2)
    (fun i => by
      refine le_trans (le_of_eq ?_) (hcts' i).1
      simp only [brvPair, pairC]; push_cast; rfl)
    (fun i => by
      refine le_trans (le_of_eq ?_) (hcts' i).2
      simp only [brvPair, pairC]; push_cast; rfl)
  rw [hwt, ← hF] at hv
  have hsc : ∀ x : ℂ, (2:ℂ)^(LOGDELTA + n/G * LDt + n/G * LDb) * (x / 2^LOGDELTA) = (2^LDb)^(n/G) * (2^LDt)^(n/G) * x := by
    intro x
    have h3 : (2:ℂ)^LOGDELTA ≠ 0 := pow_ne_zero _ two_ne_zero
    rw [scale_powC, scale_powC]; field_simp
  have hx : ∀ i, ‖slots n v i - 2^(LOGDELTA + n/G * LDt + n/G * LDb) * (slots n w i / 2^LOGDELTA)‖ ≤ 2^(n+1) * F := by
    intro i
    rw [hsc]
    have g1 := slotOf_smul (fun k => (w k : ℝ)) ((2^LDb)^(n/G) * (2^LDt)^(n/G)) i
    have g2 := slotOf_sub_le (m := fun k => (v k : ℝ)) (m' := fun k => (w k : ℝ) * ((2^LDb)^(n/G) * (2^LDt)^(n/G))) (ε := F)
      (fun k => by
        refine le_trans (le_of_eq ?_) (hv k)
        congr 1; ring) i
    rw [g1] at g2
    refine le_trans (le_of_eq ?_) (g2.trans (le_of_eq ?_))
    · unfold slots; push_cast; congr 1; ring
    · push_cast; ring
  have hX : ∀ i, ‖slots n w i / 2^LOGDELTA‖ ≤ Z / 2^LOGDELTA := by
    intro i
    rw [norm_div, norm_pow, Complex.norm_ofNat]
    exact div_le_div_of_nonneg_right (hZs i) hΔ.le
  have hDD : LOGDELTA + n/G * LDt + n/G * LDb ≤ 2^30 := by
    have : n/G ≤ 16 := (Nat.div_le_self _ _).trans hn
    nlinarith
  have hsR : (2:ℝ)^(LOGDELTA + n/G * LDt + n/G * LDb) = 2^LOGDELTA * C := by rw [scale_pow, scale_pow, hC]; ring
  have hq2 : 2^(LOGDELTA + n/G * LDt + n/G * LDb) * (Z / 2^LOGDELTA) + 2^(n+1) * F < 2^(LOGQ-1) := by
    rw [hsR]
    have : 2^LOGDELTA * C * (Z / 2^LOGDELTA) = C * Z := by field_simp
    rw [this]; exact hq
  have hZ8 : Z / 2^LOGDELTA ≤ 2^800 := by rw [hZ, hT]; exact Z_small hn hD
  have hE8 : 2^(n+1) * F ≤ 2^800 * 2^(LOGDELTA + n/G * LDt + n/G * LDb) := by rw [hsR]; exact big_800 hb hC0
  obtain ⟨z1, ez1, hz1⟩ := near_outS (D := LOGDELTA + n/G * LDt + n/G * LDb) hLib.1 hn1 (by omega) hLQ29 hDD hs' ⟨hd, v, hpv, hx⟩ hX hq2 hZ8 hE8
  rw [hsR] at hz1
  obtain ⟨p1, ep1, ez1⟩ := bind_eq_pure ez1
  rw [ep1, pure_bind, show decode_logF L.toLibm p1 (((LOGDELTA + (n+1-1)/G * LDt + (n+1-1)/G * LDb : ℕ)) : ℤ) = pure z1 from ez1, pure_bind]
  refine Ok.pure fun i => ⟨ea i, ?_⟩
  have g1 := hz1 i
  have g2 := hsl i
  dsimp only
  have g3 : ‖slots n w i / 2^LOGDELTA - (⟨a.1 i, a.2 i⟩ : ℂ)‖ ≤ T / 2^LOGDELTA := by
    have h3 : (2:ℂ)^LOGDELTA ≠ 0 := pow_ne_zero _ two_ne_zero
    have e3 : slots n w i / 2^LOGDELTA - (⟨a.1 i, a.2 i⟩ : ℂ) = (slots n w i - 2^LOGDELTA * ⟨a.1 i, a.2 i⟩) / 2^LOGDELTA := by
      field_simp
    rw [e3, norm_div, norm_pow, Complex.norm_ofNat]
    exact div_le_div_of_nonneg_right g2 hΔ.le
  have g4 := norm_sub_le_norm_sub_add_norm_sub (⟨z1.1 i, z1.2 i⟩ : ℂ) (slots n w i / 2^LOGDELTA) ⟨a.1 i, a.2 i⟩
  have g5 : 2^(n+1) * F / (2^LOGDELTA * C) = 2^(n+1) * F / C / 2^LOGDELTA := by rw [div_div, mul_comm C]
  generalize decTol n (Z / 2^LOGDELTA + 2^(n+1) * F / (2^LOGDELTA * C)) = dt at *
  rw [g5] at g1
  rw [add_div]
  linarith

section
variable {Q0 Q1 Q2 Q3 Q4 Q5 Q6 Q7 Q8 Q9 Q10 Q11 Q12 : Nat} [NeZero Q0] [NeZero Q1] [NeZero Q2] [NeZero Q3] [NeZero Q4]
  [NeZero Q5] [NeZero Q6] [NeZero Q7] [NeZero Q8] [NeZero Q9] [NeZero Q10] [NeZero Q11] [NeZero Q12]

set_option maxHeartbeats 1000000 in
/-- C87: `EvalMod_test` in binary64 prints the message `0.0001 + i%24`, rounded, and, in every slot, `0.0001` up to the error `E` of
EvalMod and that of decoding. `ε` is the error of the message, of its encoding and of the encryption. -/
theorem C87_EvalMod_test (hL : L.Accurate) (R : Nat) (hn1 : 1 ≤ n) (hn : n ≤ 16) (hC : EvalModChain 60 Q0 Q1 Q2 Q3 Q4 Q5 Q6 Q7 Q8 Q9 Q10 Q11 Q12)
    (hlo : 65 ≤ Q12) (hhi : Q1 ≤ 1525) (H : Int) (hH : H ≤ (2^(n+1) : Nat)) (ct0 : R_Q_square Q0 (2^(n+1)))
    (ω : Rng) (hω : ∀ (j : Fin (2^(n+1))) (l : Nat), ∃ m, l ≤ m ∧ ω m % 2^(n+1) = j)
    (ε E : ℝ) (hε : ε = encTol n (24 * 2^60) + 16 * 2^n + 2^12)
    (hE : E = evalModErrF n H.toNat (2^60) 24 ε + 2^60 * (117 / 10^20)) (hE2 : E ≤ 2^63) :
    Ok (EvalMod_testF (LOGN := n+1) L R 60 H 24 Q1 Q2 Q3 Q4 Q5 Q6 Q7 Q8 Q9 Q10 Q11 Q12 ct0 ω) fun o => ∀ i : Fin (2^n),
      |o.1.1 i - (1/10000 + ((i.val % 24 : Nat) : ℝ))| ≤ 1/2^48 ∧ o.1.2 i = 0 ∧
      ‖(⟨o.2.1 i, o.2.2 i⟩ : ℂ) - 1/10000‖ ≤ E / 2^60 + decTol n (1 + E / 2^60) := by
  have hC' := hC
  obtain ⟨_, _, _, _, _, _, _, _, _, _, _, _⟩ := hC'
  unfold EvalMod_testF
  refine Ok.bind (C19_keygen_returns H hH ω hω) fun k ⟨hs, hw⟩ => ?_
  have hs' : Ternary k.1 := hs
  have hwt : weight k.1 = H.toNat := hw
  refine Ok.bind (set_evalmod_messageF_spec n) fun z hz => ?_
  rw [shl1_eq (by norm_num), pure_bind]
  have h64 : (2:ℝ)^64 ≤ 2^(Q12-1) := pow_le_pow_right₀ (by norm_num) (by omega)
  have h64' : (2:ℝ)^64 ≤ 2^(Q0-1) := pow_le_pow_right₀ (by norm_num) (by omega)
  have hr24 : ∀ i : Fin (2^n), (0:ℝ) ≤ ((i.val % 24 : Nat) : ℝ) ∧ ((i.val % 24 : Nat) : ℝ) ≤ 23 := fun i => by
    refine ⟨Nat.cast_nonneg _, ?_⟩
    have : i.val % 24 ≤ 23 := by omega
    exact_mod_cast this
  have hzC : ∀ i : Fin (2^n), ‖(⟨z.1 i, z.2 i⟩ : ℂ) - ((1/10000 + ((i.val % 24 : Nat) : ℝ) : ℝ) : ℂ)‖ ≤ 1/2^48 := by
    intro i
    have e : (⟨z.1 i, z.2 i⟩ : ℂ) - ((1/10000 + ((i.val % 24 : Nat) : ℝ) : ℝ) : ℂ) = ((z.1 i - (1/10000 + ((i.val % 24 : Nat) : ℝ)) : ℝ) : ℂ) := by
      apply Complex.ext <;> simp [(hz i).2]
    rw [e, Complex.norm_real]
    exact (hz i).1
  have hzN : ∀ i : Fin (2^n), ‖(⟨z.1 i, z.2 i⟩ : ℂ)‖ ≤ (1/10000 + ((i.val % 24 : Nat) : ℝ)) + 1/2^48 := by
    intro i
    have g := norm_sub_norm_le (⟨z.1 i, z.2 i⟩ : ℂ) ((1/10000 + ((i.val % 24 : Nat) : ℝ) : ℝ) : ℂ)
    rw [Complex.norm_real, Real.norm_of_nonneg (by positivity)] at g
    have := hzC i
    linarith
  have hz24 : ∀ i : Fin (2^n), ‖(⟨z.1 i, z.2 i⟩ : ℂ)‖ ≤ 24 := fun i => by
    have h1 := hzN i
    have h2 := (hr24 i).2
    norm_num at h1 ⊢; linarith
  have hmean : (∑ i : Fin (2^n), ‖(⟨z.1 i, z.2 i⟩ : ℂ)‖) / 2^n ≤ 1151/100 := by
    have hp : (0:ℝ) < 2^n := by positivity
    have h1 := evalmod_mean n
    rw [div_le_iff₀ hp] at h1 ⊢
    have h2 : ∑ i : Fin (2^n), ‖(⟨z.1 i, z.2 i⟩ : ℂ)‖ ≤
        ∑ i : Fin (2^n), (‖(⟨(set_evalmod_message (n+1)).1 i, (set_evalmod_message (n+1)).2 i⟩ : ℂ)‖ + 1/2^48) := by
      refine sum_le_sum fun i _ => ?_
      have e : (⟨(set_evalmod_message (n+1)).1 i, (set_evalmod_message (n+1)).2 i⟩ : ℂ) =
        ((1/10000 + ((i.val % 24 : Nat) : ℝ) : ℝ) : ℂ) := rfl
      rw [e, Complex.norm_real, Real.norm_of_nonneg (by positivity)]
      exact hzN i
    rw [sum_add_distrib, sum_const, card_univ, Fintype.card_fin, nsmul_eq_mul] at h2
    push_cast at h2
    have h3 : (2:ℝ)^n * (1/2^48) ≤ 2^n * (1/1000) := mul_le_mul_of_nonneg_left (by norm_num) hp.le
    linarith
  obtain ⟨pt, r, m, e, ept, hpc, hm, hmB, hpt, er, hrc, he, hph, hsl⟩ := fresh_coeffF (Q := Q0) (n := n) hL.1 R (by omega)
    (by omega) (D := 60) (by norm_num) (z := z) (B := 24) (C := 1151/100) hz24
    (fun m hm k => by
      refine (coeff_le_mean (by omega) (by omega) m k).trans ?_
      rw [sum_congr rfl fun i _ => congrArg norm (hm i)]
      exact hmean) (by norm_num) (by norm_num) (by norm_num)
    (le_trans (by norm_num) h64') hs' ct0 k.2
  rw [ept, pure_bind, er, pure_bind]
  have hnear : Near k.1 r.1 (fun i : Fin (2^n) => ((2^60 * (1/10000 + ((i.val % 24 : Nat) : ℝ)) : ℝ) : ℂ)) ε := by
    refine ⟨hrc, _, hph, fun i => ?_⟩
    have g1 := hsl i
    have g2 := norm_sub_le_norm_sub_add_norm_sub (slots n (R_Q.sval pt + e) i) (2^60 * ⟨z.1 i, z.2 i⟩)
      ((2^60 * (1/10000 + ((i.val % 24 : Nat) : ℝ)) : ℝ) : ℂ)
    have g3 : ‖(2:ℂ)^60 * ⟨z.1 i, z.2 i⟩ - ((2^60 * (1/10000 + ((i.val % 24 : Nat) : ℝ)) : ℝ) : ℂ)‖ ≤ 2^12 := by
      rw [Complex.ofReal_mul, Complex.ofReal_pow, Complex.ofReal_ofNat, ← mul_sub, norm_mul, norm_pow, Complex.norm_ofNat]
      refine (mul_le_mul_of_nonneg_left (hzC i) (by positivity)).trans ?_
      norm_num
    rw [hε]
    exact g2.trans (add_le_add g1 g3)
  refine Ok.bind (evalModF_reduce R (by norm_num) hn hC (by omega) hhi hs' (I := fun i => ((i.val % 24 : Nat) : ℤ)) (η := 2^60/10000) hnear
    (fun i => ?_) (fun i => ?_) r.2) fun c hc => ?_
  · obtain ⟨h1, h2⟩ := hr24 i
    constructor <;> linarith
  · rw [Int.cast_natCast]
    have e : (2:ℝ)^60 * (1/10000 + ((i.val % 24 : Nat) : ℝ)) - 2^60 * ((i.val % 24 : Nat) : ℝ) = 2^60/10000 := by ring
    rw [e, abs_of_pos (by positivity)]
  have herr : evalModErrF n (weight k.1) (2^60) 24 ε + 2^60 * (117 * (2^60/10000/2^60)^5) ≤ E := by
    rw [hwt, hE]
    exact add_le_add le_rfl (by norm_num)
  have hc2 : Near k.1 c.1 (fun _ : Fin (2^n) => 2^60 * (1/10000 : ℂ)) E := by
    refine hc.mono (fun i => ?_) herr
    rw [Int.cast_natCast]
    push_cast; ring
  obtain ⟨z1, ez1, hz1⟩ := near_outS (D := 60) (Y := 1) hL.1 (by omega) (by omega) (by omega) (by norm_num) hs' hc2 (fun i => by
    rw [norm_div, norm_one]; norm_num) (by
    refine lt_of_lt_of_le ?_ h64
    norm_num at hE2 ⊢
    linarith) one_800 (small_800 (hE2.trans (by norm_num)) _)
  obtain ⟨p1, ep1, ez1⟩ := bind_eq_pure ez1
  rw [ep1, pure_bind, ez1, pure_bind]
  exact Ok.pure fun i => ⟨(hz i).1, (hz i).2, hz1 i⟩

end

set_option exponentiation.threshold 2000 in
set_option maxRecDepth 4000 in
set_option maxHeartbeats 1000000 in
/-- C87 at the parameters of test.h, for every random message and every key: the two products printed by
conv_test and the two squares printed by ctxt_conv_test agree up to `2^-30`, the coefficients up to `2^-20`, CoeffToSlot and SlotToCoeff
give back the message up to `2^-10`, and EvalMod `0.0001` up to `2^-23`. -/
theorem C87_parameters (hL : L.Accurate) (R : Nat) (evk0 : R_Q_square (2 * 1450) (2^(8+1))) (ct0 ct1 : R_Q_square 1450 (2^(8+1))) (ρ : RealRng)
    (hρ : ∀ j, |ρ j| ≤ 1 / Real.sqrt 2) (ω : Rng)
    (hω : ∀ (j : Fin (2^(8+1))) (l : Nat), ∃ m, l ≤ m ∧ ω m % 2^(8+1) = j) :
    Ok (convTestF L 50 1450 (8+1) ρ) (fun o => ∀ i : Fin (2^8), ‖(⟨o.1.1 i, o.1.2 i⟩ : ℂ) - ⟨o.2.1 i, o.2.2 i⟩‖ ≤ 1 / 2^30) ∧
    Ok (ctxtConvTestF L R 50 128 evk0 ct0 ct1 ρ ω) (fun o => ∀ i : Fin (2^8), ‖(⟨o.1.1 i, o.1.2 i⟩ : ℂ) - ⟨o.2.1 i, o.2.2 i⟩‖ ≤ 1 / 2^30) ∧
    Ok (CoeffToSlot_testF (LOGN := 8+1) L R 50 128 60 2 ct0 ρ ω) (fun o => ∀ i : Fin (2^8),
      |o.1.1 i - o.2.1 i| ≤ 1 / 2^20 ∧ |o.1.2 i - o.2.2 i| ≤ 1 / 2^20) ∧
    Ok (CoeffToSlot_SlotToCoeff_testF (LOGN := 8+1) L R 50 128 60 60 2 ct0 ρ ω) (fun o =>
      ∀ i : Fin (2^8), (⟨o.1.1 i, o.1.2 i⟩ : ℂ) = ⟨ρ i, ρ (2^8 + i)⟩ ∧
        ‖(⟨o.2.1 i, o.2.2 i⟩ : ℂ) - ⟨o.1.1 i, o.1.2 i⟩‖ ≤ 1 / 2^10) ∧
    Ok (EvalMod_testF (LOGN := 8+1) L R 60 128 24 1390 1330 1270 1210 1150 1090 1030 970 910 850 790 730 ct0 ω) (fun o =>
      ∀ i : Fin (2^8), ‖(⟨o.2.1 i, o.2.2 i⟩ : ℂ) - 1/10000‖ ≤ 1 / 2^23) := by
  have hQ : GoodQ 1450 := Or.inr (Or.inl (by norm_num))
  have h128 : Int.toNat 128 = 128 := rfl
  have h1449 : ((2:ℝ)^200)^4 ≤ 2^(1450-1) := by rw [← pow_mul]; exact pow_le_pow_right₀ (by norm_num) (by norm_num)
  have tri : ∀ {x y m : ℂ} {a b c : ℝ}, ‖x - m‖ ≤ a → ‖y - m‖ ≤ b → a + b ≤ c → ‖x - y‖ ≤ c := fun h1 h2 h3 =>
    ((norm_sub_le_norm_sub_add_norm_sub _ _ _).trans (add_le_add h1 (by rw [norm_sub_rev]; exact h2))).trans h3
  have triR : ∀ {x y m : ℝ} {a b c : ℝ}, |y - m| ≤ b → |x - m| ≤ a → a + b ≤ c → |x - y| ≤ c := fun h2 h1 h3 =>
    ((abs_sub_le _ _ _).trans (add_le_add h1 (by rw [abs_sub_comm]; exact h2))).trans h3
  refine ⟨?_, ?_, ?_, ?_, ?_⟩
  · refine Ok.mono (C87_conv_test (n := 8) (LOGQ := 1450) hL (Or.inr (by norm_num)) (by norm_num) (by norm_num) 50 (by norm_num) (by norm_num)
      ρ hρ _ _ rfl rfl ?_) fun o ho i => tri (ho i).1 (ho i).2 ?_
    · refine lt_of_lt_of_le ?_ h1449
      norm_num [encTol, sqrt2_pow8]
    · norm_num [encTol, decTol, sqrt2_pow8]
  · refine Ok.mono (C87_ctxt_conv_test (n := 8) (LOGQ := 1450) hL R (by norm_num) (by norm_num) (by norm_num) (by norm_num) 50 (by norm_num) (by norm_num)
      128 (by norm_num) evk0 ct0 ct1 ρ hρ ω hω _ _ rfl rfl ?_) fun o ho i => tri (ho i).1 (ho i).2 ?_
    · refine lt_of_lt_of_le ?_ h1449
      rw [h128]; norm_num [encTol, sqrt2_pow8]
    · rw [h128]; norm_num [encTol, decTol, sqrt2_pow8]
  · refine Ok.mono (C87_CoeffToSlot_test (n := 8) (LOGQ := 1450) hL R 50 60 (by norm_num) (by norm_num) hQ
      (by norm_num) (by norm_num) (by norm_num) (by norm_num) 2 (by norm_num) (by norm_num) (by norm_num) 128 (by norm_num)
      ct0 _ hρ _ hω _ _ _ rfl rfl rfl ?_ ?_) ?_
    · refine lt_of_lt_of_le ?_ h1449
      rw [h128]; norm_num [grpErrF, ltSizeF, ltErrF, encTol, matUlp, ksErr, sqrt2_pow8]
    · rw [h128]; norm_num [grpErrF, ltSizeF, ltErrF, encTol, matUlp, ksErr, sqrt2_pow8]
    · rintro o ⟨m, -, hm⟩ i
      have hb := bitRev_lt 8 i
      obtain ⟨h2, h3, h0, h1⟩ := hm i (by omega) (by omega)
      refine ⟨triR h2 h0 ?_, triR h3 h1 ?_⟩ <;> rw [h128] <;>
        norm_num [grpErrF, ltSizeF, ltErrF, encTol, matUlp, ksErr, sqrt2_pow8, decTol]
  · refine Ok.mono (C87_CoeffToSlot_SlotToCoeff_test (n := 8) (LOGQ := 1450) hL R 50 60 60 (by norm_num) (by norm_num)
      (by norm_num) hQ (by norm_num) (by norm_num) (by norm_num) (by norm_num) (by norm_num) 2 (by norm_num)
      (by norm_num) (by norm_num) 128 (by norm_num) ct0 _ hρ _ hω _ _ _ _ _ rfl rfl rfl rfl rfl ?_ ?_) fun o ho i => ⟨(ho i).1, (ho i).2.trans ?_⟩
    · refine lt_of_lt_of_le ?_ h1449
      rw [h128]; norm_num [grpErrF, ltSizeF, ltErrF, encTol, matUlp, ksErr, sqrt2_pow8]
    · rw [h128]; norm_num [grpErrF, ltSizeF, ltErrF, encTol, matUlp, ksErr, sqrt2_pow8]
    · rw [h128]; norm_num [grpErrF, ltSizeF, ltErrF, encTol, matUlp, ksErr, sqrt2_pow8, decTol]
  · have hE : evalModErrF 8 128 (2^60) 24 (encTol 8 (24 * 2^60) + 16 * 2^8 + 2^12) ≤ 130276 * 510000 := by
      refine evalModErrF_lin (by norm_num) (by norm_num) (by norm_num [rsErr]) (by norm_num [mulErr]) ?_ ?_
      · norm_num [encTol, sqrt2_pow8]
      · norm_num [startErr, rsErr, encTol, sqrt2_pow8]
    refine Ok.mono (C87_EvalMod_test (n := 8) hL R (by norm_num) (by norm_num) (by unfold EvalModChain; norm_num) (by norm_num)
      (by norm_num) 128 (by norm_num) ct0 ω hω _ _ rfl rfl ?_) fun o ho i => ((ho i).2.2).trans ?_
    · rw [h128]
      refine (add_le_add hE le_rfl).trans (by norm_num)
    · rw [h128]
      generalize evalModErrF 8 128 (2^60) 24 (encTol 8 (24 * 2^60) + 16 * 2^8 + 2^12) = v at *
      have h1 : (v + 2^60 * (117 / 10^20)) / 2^60 ≤ (130276 * 510000 + 2^60 * (117 / 10^20)) / 2^60 := by gcongr
      refine (add_le_add h1 (decTol_mono (add_le_add le_rfl h1))).trans ?_
      norm_num [decTol, sqrt2_pow8]

/-- C87 is not vacuous: correctly rounded library functions, all random numbers of the message 1/2, the stream 0, 1, 2, … for the key
and the encryption. -/
example : exactLibmP.Accurate ∧ (∀ _ : Nat, |(1:ℝ)/2| ≤ 1 / Real.sqrt 2) ∧
    ∀ (j : Fin (2^(8+1))) (l : Nat), ∃ m, l ≤ m ∧ (id : Rng) m % 2^(8+1) = j := by
  refine ⟨exactLibmP_accurate, fun _ => ?_, fun j l => ⟨2^(8+1) * l + j, by omega, by have := j.isLt; simp only [id]; omega⟩⟩
  rw [abs_of_pos (by norm_num)]
  exact one_div_le_one_div_of_le (Real.sqrt_pos.2 (by norm_num)) ((Real.sqrt_le_left (by norm_num)).2 (by norm_num))

end EvalRound

import Verif.Model.FloatTests
import Verif.Spec.FloatTests
import Verif.Proofs.FloatDriver
import Verif.Proofs.FloatStC
import Verif.Props.ModTest

/-!
# The unit-test programs in binary64: fresh ciphertexts, decoded results, printed coefficients
-/

namespace EvalRound
open Z_Q Finset

variable {n Q : Nat} [NeZero Q] {L : Libm}

theorem decTol_nonneg {x : ℝ} (h : 0 ≤ x) : 0 ≤ decTol n x := by unfold decTol; positivity

theorem decTol_mono {x y : ℝ} (h : x ≤ y) : decTol n x ≤ decTol n y := by unfold decTol; gcongr

/-- encoding in binary64 and encrypting -/
theorem fresh_coeffF (hL : L.Accurate) (R : Nat) (hn1 : 1 ≤ n) (hn : n ≤ 26) {D : Nat} (hD : D < 64) {z : CVec (n+1)} {B C : ℝ}
    (hz : ∀ i : Fin (2^n), ‖(⟨z.1 i, z.2 i⟩ : ℂ)‖ ≤ B)
    (hb : ∀ m : Fin (2^(n+1)) → ℝ, (∀ i : Fin (2^n), slotOf m i = ⟨z.1 i, z.2 i⟩) → ∀ k, |m k| ≤ C) (hCB : C ≤ B)
    (hB : B * 2^D ≤ 2^100) (hw : C * 2^D + B * 2^D / 2^40 + 2 ≤ 2^64) (hq : C * 2^D + B * 2^D / 2^40 + 2 ≤ 2^(Q-1))
    {s : Fin (2^(n+1)) → Int} (hs : Ternary s) (ct0 : R_Q_square Q (2^(n+1))) (ω : Rng) :
    ∃ pt r, ∃ (m : Fin (2^(n+1)) → ℝ) (e : Fin (2^(n+1)) → Int), encodeF L Q z (BitVec.ofNat 64 (2^D)) = pure pt ∧ pt.Canonical ∧
      (∀ i : Fin (2^n), slotOf m i = ⟨z.1 i, z.2 i⟩) ∧ (∀ k, |m k| ≤ C) ∧
      (∀ k, |((pt k).sval : ℝ) - m k * 2^D| ≤ 1/2 + (28 * n + 6) * (B * 2^D) / 2^53 + 1/2^900) ∧
      enc R pt s ct0 ω = pure r ∧ r.1.Canonical ∧ (∀ k, |e k| ≤ 8) ∧
      R_Q_square.phase s r.1 = red Q (R_Q.sval pt + e) ∧
      (∀ i, ‖slots n (R_Q.sval pt + e) i - 2^D * ⟨z.1 i, z.2 i⟩‖ ≤ encTol n (B * 2^D) + 16 * 2^n) := by
  have hN : 2^(n+1) ≤ 2^30 := Nat.pow_le_pow_right (by norm_num) (by omega)
  have hδ := toNat_scale hD
  obtain ⟨pt, ept, hc, hsl, m, hm, hpt⟩ := encodeF_slotsc (Q := Q) hL hn1 hn z (BitVec.ofNat 64 (2^D)) (scale_ne_zero hD) hz hb hCB
    (by rw [hδ]; exact hB) (by rw [hδ]; exact hw) (by rw [hδ]; exact hq)
  rw [hδ] at hpt
  have hδ' : (((BitVec.ofNat 64 (2^D)).toNat : ℕ) : ℂ) = 2^D := by
    have : ((((BitVec.ofNat 64 (2^D)).toNat : ℕ) : ℝ) : ℂ) = ((2^D : ℝ) : ℂ) := by rw [hδ]
    push_cast at this; exact this
  rw [hδ, hδ'] at hsl
  obtain ⟨r, er, hr, e, he, hp⟩ := enc_spec R hN hs pt ct0 ω
  have hph : R_Q_square.phase s r.1 = red Q (R_Q.sval pt + e) := by rw [hp, cls_red_sval, red_add]
  have h2 : ∀ i, ‖slots n e i‖ ≤ 16 * 2^n := fun i => by
    refine (norm_slots_le (ε := 8) (fun k => by exact_mod_cast he k) i).trans (le_of_eq ?_)
    rw [pow_succ]; ring
  refine ⟨pt, r, m, e, ept, hc, hm, hb m hm, hpt, er, hr, he, hph, fun i => ?_⟩
  rw [slots_add, add_sub_right_comm]
  exact (norm_add_le _ _).trans (add_le_add (hsl i) (h2 i))

/-- decoding in binary64 -/
theorem decode_nearF (hL : L.Accurate) (hn1 : 1 ≤ n) (hn : n ≤ 26) (hQ : Q ≤ 2^29) {D : Nat} (hD : D ≤ 2^30)
    {pt : R_Q Q (2^(n+1))} (hpt : pt.Canonical) {w : Fin (2^(n+1)) → Int} (hw : R_Q.cls pt = red Q w)
    {x : Fin (2^n) → ℂ} {ε X : ℝ} (hx : ∀ i, ‖slots n w i - x i‖ ≤ ε) (hX : ∀ i, ‖x i‖ ≤ X) (hq : X + ε < 2^(Q-1))
    (hF : X + ε ≤ 2^900 * 2^D) :
    Ok (decode_logF (LOGN := n+1) L pt (D : ℕ)) fun z => ∀ i : Fin (2^n),
      ‖(⟨z.1 i, z.2 i⟩ : ℂ) - x i / 2^D‖ ≤ ε / 2^D + decTol n ((X + ε) / 2^D) := by
  have hsl : ∀ i : Fin (2^n), ‖slotOf (fun k => (w k : ℝ)) i‖ ≤ X + ε := fun i => by
    have h1 := hx i
    have h2 := hX i
    have h3 := norm_sub_norm_le (slots n w i) (x i)
    show ‖slots n w i‖ ≤ _
    linarith
  have hwk : ∀ k, |(w k : ℝ)| ≤ X + ε := coeff_le_slots hn1 hn (m := fun k => (w k : ℝ)) hsl
  have hs : ∀ k, (pt k).sval = w k := by
    intro k
    have h1 : |(w k : ℝ)| < 2^(Q-1) := (hwk k).trans_lt hq
    have h2 : |w k| < 2^(Q-1) := by exact_mod_cast h1
    have h3 := abs_lt.1 h2
    exact sval_eq_of_cls (congrFun hw k) h3.1.le h3.2
  have hΔ : (0:ℝ) < 2^D := by positivity
  refine Ok.mono (decodeF_l2 hL hn1 hn hQ hD pt hpt fun k => by rw [hs k]; exact (hwk k).trans hF) fun z hz i => ?_
  have e1 : (fun k => ((pt k).sval : ℝ) / 2^D) = fun k => (w k : ℝ) * (1/2^D) := by funext k; rw [hs k]; ring
  rw [e1] at hz
  have hsl2 : ∀ i : Fin (2^n), ‖slotOf (fun k => (w k : ℝ) * (1/2^D)) i‖ ≤ (X + ε) / 2^D := fun i => by
    rw [slotOf_smul, norm_mul, Complex.norm_real, Real.norm_eq_abs, abs_of_pos (by positivity), mul_one_div]
    exact div_le_div_of_nonneg_right (hsl i) hΔ.le
  have h1 := le_l2 (toC (n := 2^n) z.1 z.2 - fun i : Fin (2^n) => slotOf (fun k => (w k : ℝ) * (1/2^D)) i) i
  have h2 : l2 (pairC n fun k => (w k : ℝ) * (1/2^D)) ≤ (X + ε) / 2^D := by rw [l2_pairC]; exact coeff_norm hsl2
  have h3 : ‖(⟨z.1 i, z.2 i⟩ : ℂ) - slotOf (fun k => (w k : ℝ) * (1/2^D)) i‖ ≤ decTol n ((X + ε) / 2^D) := by
    refine (h1.trans hz).trans ?_
    have hu := uF_pos.le
    have a1 : Real.sqrt 2 ^ n * (2^40 * etaF) ≤ 1/2^900 := by
      refine tiny_le' ?_
      have h5 : Real.sqrt 2 ^ n ≤ 2^26 := by
        have h6 : Real.sqrt 2 ≤ 2 := by rw [Real.sqrt_le_left (by norm_num)]; norm_num
        exact (pow_le_pow_left₀ (Real.sqrt_nonneg 2) h6 n).trans (pow_le_pow_right₀ (by norm_num) hn)
      have h7 := etaF_pos.le
      calc Real.sqrt 2 ^ n * (2^40 * etaF) ≤ 2^26 * (2^40 * etaF) := mul_le_mul_of_nonneg_right h5 (by positivity)
        _ = 2^66 * etaF := by ring
        _ ≤ 2^170 * etaF := mul_le_mul_of_nonneg_right (pow_le_pow_right₀ (by norm_num) (by norm_num)) h7
    have a2 : Real.sqrt 2 ^ n * ((28 * n + 8) * uF * l2 (pairC n fun k => (w k : ℝ) * (1/2^D))) ≤
        Real.sqrt 2 ^ n * ((28 * n + 8) * uF * ((X + ε) / 2^D)) := by gcongr
    rw [mul_add]
    refine (add_le_add a2 a1).trans (le_of_eq ?_)
    unfold decTol
    rw [uF_eq]; ring
  have h4 : ‖slotOf (fun k => (w k : ℝ) * (1/2^D)) i - x i / 2^D‖ ≤ ε / 2^D := by
    have e2 : slotOf (fun k => (w k : ℝ) * (1/2^D)) i - x i / 2^D = (slots n w i - x i) / 2^D := by
      rw [slotOf_smul]; push_cast; unfold slots; ring
    rw [e2, norm_div, norm_pow, Complex.norm_ofNat]
    exact div_le_div_of_nonneg_right (hx i) hΔ.le
  have h5 := norm_sub_le_norm_sub_add_norm_sub (⟨z.1 i, z.2 i⟩ : ℂ) (slotOf (fun k => (w k : ℝ) * (1/2^D)) i) (x i / 2^D)
  linarith

theorem near_outF (hL : L.Accurate) (hn1 : 1 ≤ n) (hn : n ≤ 26) (hQ : Q ≤ 2^29) {D : Nat} (hD : D ≤ 2^30) {s : Fin (2^(n+1)) → Int} (hs : Ternary s)
    {c : R_Q_square Q (2^(n+1))} {x : Fin (2^n) → ℂ} {ε X : ℝ} (hc : Near s c x ε) (hX : ∀ i, ‖x i‖ ≤ X)
    (hq : X + ε < 2^(Q-1)) (hF : X + ε ≤ 2^900 * 2^D) :
    Ok (dec c s >>= fun pt => decode_logF (LOGN := n+1) L pt (D : ℕ)) fun z => ∀ i : Fin (2^n),
      ‖(⟨z.1 i, z.2 i⟩ : ℂ) - x i / 2^D‖ ≤ ε / 2^D + decTol n ((X + ε) / 2^D) := by
  obtain ⟨_, w, hw, hx⟩ := hc
  have hN : 2^(n+1) ≤ 2^30 := Nat.pow_le_pow_right (by norm_num) (by omega)
  refine Ok.bind (dec_spec hN hs c) fun pt ⟨hpc, hp⟩ => ?_
  exact decode_nearF hL hn1 hn hQ hD hpc (hp.trans hw) hx hX hq hF

theorem scale_split {D : Nat} {Y ε : ℝ} : (2^D * Y + ε) / 2^D = Y + ε / 2^D := by
  have : (2:ℝ)^D ≠ 0 := by positivity
  field_simp

theorem scale_big {D : Nat} {Y ε : ℝ} (hY : Y ≤ 2^800) (hε : ε ≤ 2^800 * 2^D) : 2^D * Y + ε ≤ 2^900 * 2^D := by
  have h : (0:ℝ) < 2^D := by positivity
  have h1 := mul_le_mul_of_nonneg_left hY h.le
  have h2 : (2:ℝ)^900 = 2^800 * 2^100 := by rw [← pow_add]
  have h3 : (2:ℝ) * 2^800 ≤ 2^100 * 2^800 := mul_le_mul_of_nonneg_right (by norm_num) (by positivity)
  have h4 := mul_le_mul_of_nonneg_right h3 h.le
  rw [h2]
  clear h2 h3
  generalize (2:ℝ)^800 = a at *
  generalize (2:ℝ)^D = t at *
  linarith

/-- decoding of slots that are a multiple of the scaling factor -/
theorem decode_nearS (hL : L.Accurate) (hn1 : 1 ≤ n) (hn : n ≤ 26) (hQ : Q ≤ 2^29) {D : Nat} (hD : D ≤ 2^30)
    {pt : R_Q Q (2^(n+1))} (hpt : pt.Canonical) {w : Fin (2^(n+1)) → Int} (hw : R_Q.cls pt = red Q w)
    {y : Fin (2^n) → ℂ} {ε Y : ℝ} (hx : ∀ i, ‖slots n w i - 2^D * y i‖ ≤ ε) (hX : ∀ i, ‖y i‖ ≤ Y) (hq : 2^D * Y + ε < 2^(Q-1))
    (hY : Y ≤ 2^800) (hε : ε ≤ 2^800 * 2^D) :
    Ok (decode_logF (LOGN := n+1) L pt (D : ℕ)) fun z => ∀ i : Fin (2^n),
      ‖(⟨z.1 i, z.2 i⟩ : ℂ) - y i‖ ≤ ε / 2^D + decTol n (Y + ε / 2^D) := by
  have h2 : (2:ℂ)^D ≠ 0 := pow_ne_zero _ two_ne_zero
  refine Ok.mono (decode_nearF hL hn1 hn hQ hD hpt hw (x := fun i => 2^D * y i) hx (X := 2^D * Y) (fun i => ?_) hq (scale_big hY hε)) fun z hz i => ?_
  · rw [norm_mul, norm_pow, Complex.norm_ofNat]
    exact mul_le_mul_of_nonneg_left (hX i) (by positivity)
  · have h := hz i
    rw [scale_split, mul_div_cancel_left₀ _ h2] at h
    exact h

theorem near_outS (hL : L.Accurate) (hn1 : 1 ≤ n) (hn : n ≤ 26) (hQ : Q ≤ 2^29) {D : Nat} (hD : D ≤ 2^30) {s : Fin (2^(n+1)) → Int} (hs : Ternary s)
    {c : R_Q_square Q (2^(n+1))} {y : Fin (2^n) → ℂ} {ε Y : ℝ} (hc : Near s c (fun i => 2^D * y i) ε) (hX : ∀ i, ‖y i‖ ≤ Y)
    (hq : 2^D * Y + ε < 2^(Q-1)) (hY : Y ≤ 2^800) (hε : ε ≤ 2^800 * 2^D) :
    Ok (dec c s >>= fun pt => decode_logF (LOGN := n+1) L pt (D : ℕ)) fun z => ∀ i : Fin (2^n),
      ‖(⟨z.1 i, z.2 i⟩ : ℂ) - y i‖ ≤ ε / 2^D + decTol n (Y + ε / 2^D) := by
  obtain ⟨_, w, hw, hx⟩ := hc
  have hN : 2^(n+1) ≤ 2^30 := Nat.pow_le_pow_right (by norm_num) (by omega)
  refine Ok.bind (dec_spec hN hs c) fun pt ⟨hpc, hp⟩ => ?_
  exact decode_nearS hL hn1 hn hQ hD hpc (hp.trans hw) hx hX hq hY hε

/-- the product of two approximate slots -/
theorem mul_near {A B x y : ℂ} {X Y T S : ℝ} (hA : ‖A - x‖ ≤ T) (hB : ‖B - y‖ ≤ S) (hx : ‖x‖ ≤ X) (hy : ‖y‖ ≤ Y) :
    ‖A * B - x * y‖ ≤ X * S + T * Y + T * S := by
  have e : A * B - x * y = (A - x) * (B - y) + x * (B - y) + (A - x) * y := by ring
  have hT : 0 ≤ T := (norm_nonneg _).trans hA
  have hX : 0 ≤ X := (norm_nonneg _).trans hx
  rw [e]
  refine (norm_add₃_le).trans ?_
  rw [norm_mul, norm_mul, norm_mul]
  have g1 := mul_le_mul hA hB (norm_nonneg _) hT
  have g2 := mul_le_mul hx hB (norm_nonneg _) hX
  have g3 := mul_le_mul hA hy (norm_nonneg _) hT
  linarith

theorem unit_hw {D : Nat} (hD : D < 63) : (1:ℝ) * 2^D + 1 * 2^D / 2^40 + 2 ≤ 2^64 := by
  have : (2:ℝ)^D ≤ 2^62 := pow_le_pow_right₀ (by norm_num) (by omega)
  generalize (2:ℝ)^D = t at *
  norm_num at *; linarith

theorem unit_hq {D Q : Nat} (hQ : D + 3 ≤ Q) : (1:ℝ) * 2^D + 1 * 2^D / 2^40 + 2 ≤ 2^(Q-1) := by
  have h1 : (2:ℝ)^(D+2) ≤ 2^(Q-1) := pow_le_pow_right₀ (by norm_num) (by omega)
  have h2 : (1:ℝ) ≤ 2^D := one_le_pow₀ (by norm_num)
  rw [pow_add] at h1
  generalize (2:ℝ)^D = t at *
  generalize (2:ℝ)^(Q-1) = q at *
  norm_num at *; linarith

theorem unit_hB {D : Nat} (hD : D < 63) : (1:ℝ) * 2^D ≤ 2^100 := by
  rw [one_mul]; exact pow_le_pow_right₀ (by norm_num) (by omega)

theorem sqrt2_le_pow (n : Nat) : Real.sqrt 2 ^ n ≤ 2^n :=
  pow_le_pow_left₀ (Real.sqrt_nonneg _) (by rw [Real.sqrt_le_left (by norm_num)]; norm_num) n

theorem encTol_unit (hn : n ≤ 16) {D : Nat} (hD : D < 63) : encTol n (1 * 2^D) ≤ 2^36 := by
  have h1 : Real.sqrt 2 ^ n ≤ 2^16 := (sqrt2_le_pow n).trans (pow_le_pow_right₀ (by norm_num) hn)
  have h2 : (2:ℝ)^n ≤ 2^16 := pow_le_pow_right₀ (by norm_num) hn
  have h3 : (2:ℝ)^D ≤ 2^62 := pow_le_pow_right₀ (by norm_num) (by omega)
  have h4 : (n:ℝ) ≤ 16 := by exact_mod_cast hn
  have h5 : (1:ℝ)/2^900 ≤ 1 := by rw [div_le_one (by positivity)]; exact one_le_pow₀ (by norm_num)
  have h6 : Real.sqrt 2 ^ n * ((28 * n + 6) * (1 * 2^D) / 2^53) ≤ 2^16 * ((28 * 16 + 6) * (1 * 2^62) / 2^53) := by gcongr
  unfold encTol
  generalize (1:ℝ)/2^900 = y at *
  norm_num at *; linarith

/-! ## the coefficients read from the plaintext -/

theorem divDeltaF_neg {r a : ℝ} {Delta : W} (h : divDeltaF r Delta = pure a) : divDeltaF (-r) Delta = pure (-a) := by
  unfold divDeltaF at *
  obtain ⟨d, ed, h⟩ := bind_eq_pure h
  rw [ed, pure_bind]
  split at h
  · cases h
  · rename_i h0
    rw [if_neg h0, neg_div]
    exact C74_neg h

theorem lowDoubleF_spec {Delta : W} (hD : Delta ≠ 0) {x : Z_Q Q} (hx : x.Canonical) (h : |x.sval| < 2^64) :
    Ok (lowDoubleF Delta x) fun r => |r - x.sval / Delta.toNat| ≤ 4 * uF * (|(x.sval : ℝ)| / Delta.toNat) + etaF := by
  have hl := lowDouble_spec hx h
  unfold lowDouble at hl
  unfold lowDoubleF
  dsimp only at hl ⊢
  obtain ⟨r, e, h0, hr⟩ := fl_word ((if (copy x).is_bigger_than_halfQ then negate (copy x) else copy x).data (bot Q))
  have hb : (((if (copy x).is_bigger_than_halfQ then negate (copy x) else copy x).data (bot Q)).toNat : ℝ) ≤ 2^64 := by
    exact_mod_cast (BitVec.isLt _).le
  have hb0 : (0:ℝ) ≤ (((if (copy x).is_bigger_than_halfQ then negate (copy x) else copy x).data (bot Q)).toNat : ℝ) := Nat.cast_nonneg _
  rw [e, pure_bind]
  obtain ⟨a, ea, ha0, ha⟩ := divDeltaF_near hb0 hb h0 hr hD
  generalize (((if (copy x).is_bigger_than_halfQ then negate (copy x) else copy x).data (bot Q)).toNat : ℝ) = v at *
  generalize (copy x).is_bigger_than_halfQ = b at *
  cases b
  · simp only [Bool.false_eq_true, if_false, pure_bind] at hl ⊢
    refine ⟨a, ea, ?_⟩
    rw [← hl, abs_of_nonneg hb0]
    exact ha
  · simp only [if_true, mul_neg_one] at hl ⊢
    rw [C74_neg (C74_exact (C74_representable e)), pure_bind]
    refine ⟨-a, divDeltaF_neg ea, ?_⟩
    beta_reduce
    rw [← hl, abs_neg, abs_of_nonneg hb0, neg_div, neg_sub_neg, abs_sub_comm]
    exact ha

theorem ctsExactF_spec (hn1 : 1 ≤ n) (hn : n ≤ 26) {Delta : W} (hD : Delta ≠ 0) {pt : R_Q Q (2^(n+1))} (hc : pt.Canonical)
    (hb : ∀ k, |(pt k).sval| < 2^64) :
    Ok (ctsExactF (LOGN := n+1) Delta pt) fun o => ∀ i : Fin (2^n),
      |o.1 i - (pt (loIdx i)).sval / Delta.toNat| ≤ 4 * uF * (|((pt (loIdx i)).sval : ℝ)| / Delta.toNat) + etaF ∧
      |o.2 i - (pt (hiIdx i)).sval / Delta.toNat| ≤ 4 * uF * (|((pt (hiIdx i)).sval : ℝ)| / Delta.toNat) + etaF := by
  unfold ctsExactF
  refine Ok.bind (tabM_spec (P := fun i (r : ℝ × ℝ) => ∀ h : i < 2^n,
    |r.1 - (pt (loIdx ⟨i, h⟩)).sval / Delta.toNat| ≤ 4 * uF * (|((pt (loIdx ⟨i, h⟩)).sval : ℝ)| / Delta.toNat) + etaF ∧
    |r.2 - (pt (hiIdx ⟨i, h⟩)).sval / Delta.toNat| ≤ 4 * uF * (|((pt (hiIdx ⟨i, h⟩)).sval : ℝ)| / Delta.toNat) + etaF)
    fun i hi => ?_) fun r hr => Ok.pure fun i => hr i i.isLt
  have hi' : i < 2^n := hi
  refine Ok.bind (brv_ok (n := n) hn1 (by omega) hi') fun k hk => ?_
  have hb1 := bitRev_lt n i
  have hp : 2^(n+1) = 2^n + 2^n := by rw [pow_succ]; ring
  have hh : 2^(n+1) / 2 = 2^n := by rw [hp]; omega
  rw [rd_of_lt pt (by rw [hk]; omega), pure_bind, rd_of_lt pt (by rw [hk, hh]; omega), pure_bind]
  refine Ok.bind (lowDoubleF_spec hD (hc _) (hb _)) fun a ha => ?_
  refine Ok.bind (lowDoubleF_spec hD (hc _) (hb _)) fun b hb2 => Ok.pure fun h => ?_
  dsimp only
  have e0 : (⟨k.toNat, by rw [hk]; omega⟩ : Fin (2^(n+1))) = loIdx ⟨i, h⟩ := Fin.ext hk
  have e1 : (⟨k.toNat + 2^(n+1)/2, by rw [hk, hh]; omega⟩ : Fin (2^(n+1))) = hiIdx ⟨i, h⟩ :=
    Fin.ext (by show k.toNat + 2^(n+1)/2 = bitRev n i + 2^n; rw [hk, hh])
  rw [e0] at ha
  rw [e1] at hb2
  exact ⟨ha, hb2⟩

/-! ## the message of evalMod_test -/

theorem set_evalmod_messageF_spec (n : Nat) : Ok (set_evalmod_messageF (n+1)) fun z => ∀ i : Fin (2^n),
    |z.1 i - (1/10000 + ((i.val % 24 : Nat) : ℝ))| ≤ 1/2^48 ∧ z.2 i = 0 := by
  unfold set_evalmod_messageF
  have hu : uF = 1/2^53 := uF_eq
  have hη : etaF ≤ 1/2^60 := by
    rw [etaF_eq]
    exact one_div_le_one_div_of_le (by positivity) (pow_le_pow_right₀ (by norm_num) (by norm_num))
  have hbig : (100:ℝ) ≤ 2^1020 := le_trans (by norm_num : (100:ℝ) ≤ 2^7) (pow_le_pow_right₀ (by norm_num) (by norm_num))
  refine Ok.bind (fl_near (x := 1/10000) (by rw [abs_of_pos (by norm_num)]; exact le_trans (by norm_num) hbig)) fun c hc => ?_
  rw [hu, abs_of_pos (by norm_num : (0:ℝ) < 1/10000)] at hc
  have hc' := abs_le.1 hc
  refine Ok.bind (tabM_spec (P := fun i (v : ℝ) => |v - (1/10000 + ((i % 24 : Nat) : ℝ))| ≤ 1/2^48) fun i hi => ?_) fun r hr =>
    Ok.pure fun i => ⟨hr i, rfl⟩
  have h0 : (0:ℝ) ≤ ((i % 24 : Nat) : ℝ) := Nat.cast_nonneg _
  have h1 : ((i % 24 : Nat) : ℝ) ≤ 23 := by
    have : i % 24 ≤ 23 := by omega
    exact_mod_cast this
  generalize ((i % 24 : Nat) : ℝ) = t at *
  have hpos : 0 ≤ c + t := by norm_num at hc' hη; linarith [hc'.1]
  have hle : c + t ≤ 24 := by norm_num at hc' hη; linarith [hc'.2]
  refine Ok.mono (fl_near (x := c + t) (by rw [abs_of_nonneg hpos]; exact (hle.trans (by norm_num)).trans hbig)) fun v hv => ?_
  have hv' : |v - (c + t)| ≤ 1/2^53 * 24 + 1/2^60 := by
    refine hv.trans ?_
    rw [abs_of_nonneg hpos, hu]
    exact add_le_add (mul_le_mul_of_nonneg_left hle (by positivity)) hη
  have hv2 := abs_le.1 hv'
  rw [abs_le]
  norm_num at hv2 hc' hη ⊢
  constructor <;> linarith [hv2.1, hv2.2, hc'.1, hc'.2]

end EvalRound

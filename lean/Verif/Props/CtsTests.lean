import Verif.Proofs.Fresh
import Verif.Props.HomTests

/-!
# C64, C65: the programs coeffToSlot_test and matmul_test
-/

namespace EvalRound
open Z_Q Finset

variable {n LOGQ : Nat} [NeZero LOGQ]

theorem ctsExact_spec (hn1 : 1 ≤ n) (hn : n ≤ 26) {D : Nat} (hD : D < 64) {pt : R_Q LOGQ (2^(n+1))} (hc : pt.Canonical)
    (hb : ∀ k, |(pt k).sval| < 2^64) :
    Ok (ctsExact (LOGN := n+1) (BitVec.ofNat 64 (2^D)) pt) fun o => ∀ i : Fin (2^n),
      o.1 i = ((pt (loIdx i)).sval : ℝ) / 2^D ∧ o.2 i = ((pt (hiIdx i)).sval : ℝ) / 2^D := by
  have hδ : (((BitVec.ofNat 64 (2^D)).toNat : ℕ) : ℝ) = 2^D := by
    rw [BitVec.toNat_ofNat, Nat.mod_eq_of_lt (Nat.pow_lt_pow_right (by norm_num) hD)]; push_cast; rfl
  unfold ctsExact
  refine Ok.bind (tabM_spec (P := fun i (r : ℝ × ℝ) => ∀ h : i < 2^n, r.1 = ((pt (loIdx ⟨i, h⟩)).sval : ℝ) / 2^D ∧
    r.2 = ((pt (hiIdx ⟨i, h⟩)).sval : ℝ) / 2^D) fun i hi => ?_) fun r hr => Ok.pure fun i => hr i i.isLt
  have hi' : i < 2^n := hi
  refine Ok.bind (brv_ok (n := n) hn1 (by omega) hi') fun k hk => ?_
  have hb1 := bitRev_lt n i
  have hp : 2^(n+1) = 2^n + 2^n := by rw [pow_succ]; ring
  have hh : 2^(n+1) / 2 = 2^n := by rw [hp]; omega
  rw [rd_of_lt pt (by rw [hk]; omega), pure_bind, rd_of_lt pt (by rw [hk, hh]; omega), pure_bind]
  refine Ok.pure fun h => ?_
  dsimp only
  have e0 : (⟨k.toNat, by rw [hk]; omega⟩ : Fin (2^(n+1))) = loIdx ⟨i, h⟩ := Fin.ext hk
  have e1 : (⟨k.toNat + 2^(n+1)/2, by rw [hk, hh]; omega⟩ : Fin (2^(n+1))) = hiIdx ⟨i, h⟩ :=
    Fin.ext (by show k.toNat + 2^(n+1)/2 = bitRev n i + 2^n; rw [hk, hh])
  rw [e0, e1, lowDouble_spec (hc _) (hb _), lowDouble_spec (hc _) (hb _), hδ]
  exact ⟨rfl, rfl⟩

set_option maxHeartbeats 1000000 in
/-- C65: `CoeffToSlot_test` prints the coefficients of the message twice in bit reversed order: read from the plaintext,
and decrypted from the results of CoeffToSlot. `Z` bounds the slots of the ciphertext. -/
theorem C65_CoeffToSlot_test (R LOGDELTA LDt : Nat) (hD : LOGDELTA < 63) (hL : LDt < 63) (hQ : GoodQ LOGQ) (hLQ : LDt + 1 < LOGQ)
    (hDQ : LOGDELTA + 2 ≤ LOGQ) (hn1 : 1 ≤ n) (hn : n ≤ 16) (G : Nat) (hG1 : 1 ≤ G) (hG : G ≤ 4) (hnG : n % G = 0)
    (H : Int) (hH : H ≤ (2^(n+1) : Nat)) (ct0 : R_Q_square LOGQ (2^(n+1)))
    (ρ : RealRng) (hρ : ∀ j, |ρ j| ≤ 1 / Real.sqrt 2) (ω : Rng)
    (hω : ∀ (j : Fin (2^(n+1))) (l : Nat), ∃ m, l ≤ m ∧ ω m % 2^(n+1) = j)
    (Z E : ℝ) (hZ : Z = 2^LOGDELTA + 17 * 2^n) (hE : E = 2 * grpErr n H.toNat G 1 (2^LDt) Z + ksErr n H.toNat)
    (hq : (2^LDt)^(n/G) * Z + E < 2^(LOGQ-1)) :
    Ok (CoeffToSlot_test (LOGN := n+1) R LOGDELTA H LDt G ct0 ρ ω) fun o => ∃ m : Fin (2^(n+1)) → ℝ,
      (∀ i : Fin (2^n), slotOf m i = ⟨ρ i, ρ (2^n + i)⟩) ∧
      ∀ (i : Fin (2^n)) (h0 : bitRev n i < 2^(n+1)) (h1 : bitRev n i + 2^n < 2^(n+1)),
        |o.2.1 i - m ⟨_, h0⟩| ≤ 1 / (2 * 2^LOGDELTA) ∧ |o.2.2 i - m ⟨_, h1⟩| ≤ 1 / (2 * 2^LOGDELTA) ∧
        |o.1.1 i - o.2.1 i| ≤ (8 + E / (2^LDt)^(n/G)) / 2^LOGDELTA ∧
        |o.1.2 i - o.2.2 i| ≤ (8 + E / (2^LDt)^(n/G)) / 2^LOGDELTA := by
  have hLQ29 : LOGQ ≤ 2^29 := by rcases hQ.one with h | h <;> omega
  have ha : ∀ i : Fin (2^n), ‖(⟨(set_random_message (n+1) ρ).1.1 i, (set_random_message (n+1) ρ).1.2 i⟩ : ℂ)‖ ≤ 1 :=
    random_message_norm (n+1) hρ
  have ea : ∀ i : Fin (2^n), (⟨(set_random_message (n+1) ρ).1.1 i, (set_random_message (n+1) ρ).1.2 i⟩ : ℂ) =
    ⟨ρ i, ρ (2^n + i)⟩ := fun _ => rfl
  unfold CoeffToSlot_test
  dsimp only
  generalize (set_random_message (n+1) ρ).1 = a at *
  refine Ok.bind (C19_keygen_returns H hH ω hω) fun k ⟨hs, hw⟩ => ?_
  have hs' : Ternary k.1 := hs
  have hwt : weight k.1 = H.toNat := hw
  rw [shl1_eq (by omega), pure_bind]
  obtain ⟨pt, r, m, e, ept, hpc, hm, hmB, hpt, er, hrc, he, hph, hsl⟩ := fresh_coeff (Q := LOGQ) R hn1 (by omega) (D := LOGDELTA)
    (by omega) (z := a) (B := 1)
    (fun m hm => coeff_le_slots hn1 (by omega) (fun i => by rw [hm i]; exact ha i)) (unit_scaled hD)
    (unit_scaled_q (by omega)) hs' ct0 k.2
  rw [ept, pure_bind, er, pure_bind]
  have hΔ : (0:ℝ) < 2^LOGDELTA := by positivity
  have hC : (0:ℝ) < (2^LDt)^(n/G) := by positivity
  have hZs : ∀ i, ‖slots n (R_Q.sval pt + e) i‖ ≤ Z := by
    intro i
    have g1 := norm_sub_norm_le (slots n (R_Q.sval pt + e) i) (2^LOGDELTA * ⟨a.1 i, a.2 i⟩)
    have g2 := hsl i
    have g3 : ‖(2:ℂ)^LOGDELTA * ⟨a.1 i, a.2 i⟩‖ ≤ 2^LOGDELTA := by
      rw [norm_mul, norm_pow, Complex.norm_ofNat]
      exact mul_le_of_le_one_right hΔ.le (ha i)
    rw [hZ]; linarith
  have hco : ∀ k, |(((R_Q.sval pt + e) k : ℤ) : ℝ)| ≤ Z :=
    coeff_le_slots hn1 (by omega) (m := fun k => (((R_Q.sval pt + e) k : ℤ) : ℝ)) hZs
  have key : Ok (CoeffToSlot (LOGN := n+1) R LDt G r.1 k.1 r.2) _ :=
    Ok.bind (ctsTable_spec (by omega)) fun U hU =>
      ctsWith_slots R LDt (by omega) hQ.one hQ.two hn1 hn hs' hU hG1 hG hnG (two_pow_hw hL) (two_pow_hq hLQ) hrc hph r.2
  refine Ok.bind key fun c ⟨hc0, hc1, w0, w1, hp0, hp1, hcts⟩ => ?_
  have hcts' := hcts Z hZs
  rw [hwt, ← hE] at hcts'
  have hX : ∀ j : Fin (2^n) → Fin (2^(n+1)), ∀ i : Fin (2^n),
      ‖((2:ℂ)^LDt)^(n/G) * ((((R_Q.sval pt + e) (j i) : ℤ) : ℝ) : ℂ)‖ ≤ (2^LDt)^(n/G) * Z := by
    intro j i
    rw [norm_mul, norm_pow, norm_pow, Complex.norm_ofNat, Complex.norm_real, Real.norm_eq_abs]
    exact mul_le_mul_of_nonneg_left (hco _) hC.le
  have n0 : Near k.1 c.1.1 (fun i => ((2:ℂ)^LDt)^(n/G) * ((((R_Q.sval pt + e) (loIdx i) : ℤ) : ℝ) : ℂ)) E :=
    ⟨hc0, w0, hp0, fun i => (hcts' i).1⟩
  have n1 : Near k.1 c.1.2 (fun i => ((2:ℂ)^LDt)^(n/G) * ((((R_Q.sval pt + e) (hiIdx i) : ℤ) : ℝ) : ℂ)) E :=
    ⟨hc1, w1, hp1, fun i => (hcts' i).2⟩
  have hDD : LOGDELTA + n/G * LDt ≤ 2^30 := by
    have : n/G ≤ 16 := (Nat.div_le_self _ _).trans hn
    nlinarith
  obtain ⟨z0, ez0, hz0⟩ := near_out (D := LOGDELTA + n/G * LDt) hn1 (by omega) hLQ29 hDD hs' n0 (hX loIdx) hq
  obtain ⟨z1, ez1, hz1⟩ := near_out (D := LOGDELTA + n/G * LDt) hn1 (by omega) hLQ29 hDD hs' n1 (hX hiIdx) hq
  obtain ⟨p0, ep0, ez0⟩ := bind_eq_pure ez0
  obtain ⟨p1, ep1, ez1⟩ := bind_eq_pure ez1
  rw [ep0, pure_bind, show decode_log p0 (((LOGDELTA + (n+1-1)/G * LDt : ℕ)) : ℤ) = pure z0 from ez0, pure_bind,
    ep1, pure_bind, show decode_log p1 (((LOGDELTA + (n+1-1)/G * LDt : ℕ)) : ℤ) = pure z1 from ez1, pure_bind]
  have hb64 : ∀ k, |(pt k).sval| < 2^64 := by
    intro k
    have g1 := hpt k
    have g2 := hmB k
    have g3 := abs_sub_abs_le_abs_sub (((pt k).sval : ℤ) : ℝ) (m k * 2^LOGDELTA)
    rw [abs_mul, abs_of_pos hΔ] at g3
    have g4 := unit_scaled hD
    have g5 : |(((pt k).sval : ℤ) : ℝ)| < 2^64 := by
      have : |m k| * 2^LOGDELTA ≤ 1 * 2^LOGDELTA := mul_le_mul_of_nonneg_right g2 hΔ.le
      linarith
    exact_mod_cast g5
  refine Ok.bind (ctsExact_spec hn1 (by omega) (by omega) hpc hb64) fun x hx => Ok.pure ⟨m, fun i => by rw [hm i, ea i], ?_⟩
  intro i h0 h1
  have hd : ∀ j, |((pt j).sval : ℝ) / 2^LOGDELTA - m j| ≤ 1 / (2 * 2^LOGDELTA) := by
    intro j
    have e1 : ((pt j).sval : ℝ) / 2^LOGDELTA - m j = ((pt j).sval - m j * 2^LOGDELTA) / 2^LOGDELTA := by field_simp
    rw [e1, abs_div, abs_of_pos hΔ, div_le_iff₀ hΔ]
    refine (hpt j).trans (le_of_eq ?_)
    field_simp
  have hr : ∀ (z : CVec (n+1)) (j : Fin (2^n) → Fin (2^(n+1))), ‖(⟨z.1 i, z.2 i⟩ : ℂ) -
      ((2:ℂ)^LDt)^(n/G) * ((((R_Q.sval pt + e) (j i) : ℤ) : ℝ) : ℂ) / 2^(LOGDELTA + n/G * LDt)‖ ≤ E / 2^(LOGDELTA + n/G * LDt) →
      |z.1 i - ((pt (j i)).sval : ℝ) / 2^LOGDELTA| ≤ (8 + E / (2^LDt)^(n/G)) / 2^LOGDELTA := by
    intro z j hz
    have e1 : ((2:ℂ)^LDt)^(n/G) * ((((R_Q.sval pt + e) (j i) : ℤ) : ℝ) : ℂ) / 2^(LOGDELTA + n/G * LDt) =
        (((((pt (j i)).sval : ℝ) + (e (j i) : ℝ)) / 2^LOGDELTA : ℝ) : ℂ) := by
      have h2 : (2:ℂ)^LDt ≠ 0 := pow_ne_zero _ two_ne_zero
      have h3 : (2:ℂ)^LOGDELTA ≠ 0 := pow_ne_zero _ two_ne_zero
      rw [pow_add (2:ℂ) LOGDELTA, mul_comm (n/G), pow_mul (2:ℂ) LDt]
      show _ * (((((pt (j i)).sval + e (j i) : ℤ)) : ℝ) : ℂ) / _ = _
      push_cast
      field_simp
    rw [e1] at hz
    have g1 := (Complex.abs_re_le_norm _).trans hz
    rw [Complex.sub_re, Complex.ofReal_re] at g1
    have g2 : |((e (j i) : ℤ) : ℝ)| ≤ 8 := by exact_mod_cast he (j i)
    have g3 : |z.1 i - ((pt (j i)).sval : ℝ) / 2^LOGDELTA| ≤
        |z.1 i - (((pt (j i)).sval : ℝ) + (e (j i) : ℝ)) / 2^LOGDELTA| + |(e (j i) : ℝ) / 2^LOGDELTA| := by
      refine le_trans (le_of_eq ?_) (abs_add_le _ _)
      congr 1; ring
    rw [abs_div, abs_of_pos hΔ] at g3
    have g4 : |((e (j i) : ℤ) : ℝ)| / 2^LOGDELTA ≤ 8 / 2^LOGDELTA := div_le_div_of_nonneg_right g2 hΔ.le
    have g5 : E / 2^(LOGDELTA + n/G * LDt) = E / (2^LDt)^(n/G) / 2^LOGDELTA := by
      rw [pow_add (2:ℝ) LOGDELTA, mul_comm (n/G), pow_mul (2:ℝ) LDt, div_div, mul_comm]
    rw [g5] at g1
    rw [add_div]
    linarith
  obtain ⟨x0, x1⟩ := hx i
  dsimp only
  rw [x0, x1]
  exact ⟨hd _, hd _, hr z0 loIdx (hz0 i), hr z1 hiIdx (hz1 i)⟩

set_option maxHeartbeats 1000000 in
/-- C65: `CoeffToSlot_SlotToCoeff_test` prints the message and what is left of it after encryption, CoeffToSlot, SlotToCoeff and
decryption. `Z` bounds the slots of the ciphertext, `E` and `F` are the errors of the two maps. -/
theorem C65_CoeffToSlot_SlotToCoeff_test (R LOGDELTA LDt LDb : Nat) (hD : LOGDELTA < 63) (hL : LDt < 63) (hLb : LDb < 63)
    (hQ : GoodQ LOGQ) (hLQ : LDt + 1 < LOGQ) (hLbQ : LDb + 1 < LOGQ)
    (hDQ : LOGDELTA + 2 ≤ LOGQ) (hn1 : 1 ≤ n) (hn : n ≤ 16) (G : Nat) (hG1 : 1 ≤ G) (hG : G ≤ 4) (hnG : n % G = 0)
    (H : Int) (hH : H ≤ (2^(n+1) : Nat)) (ct0 : R_Q_square LOGQ (2^(n+1)))
    (ρ : RealRng) (hρ : ∀ j, |ρ j| ≤ 1 / Real.sqrt 2) (ω : Rng)
    (hω : ∀ (j : Fin (2^(n+1))) (l : Nat), ∃ m, l ≤ m ∧ ω m % 2^(n+1) = j)
    (Z E F : ℝ) (hZ : Z = 2^LOGDELTA + 17 * 2^n) (hE : E = 2 * grpErr n H.toNat G 1 (2^LDt) Z + ksErr n H.toNat)
    (hF : F = 2 * grpErr n H.toNat G 2 (2^LDb) ((2^LDt)^(n/G) * Z + E) + (2^LDb)^(n/G) * (2 * E))
    (hq : (2^LDb)^(n/G) * (2^LDt)^(n/G) * Z + 2^(n+1) * F < 2^(LOGQ-1)) :
    Ok (CoeffToSlot_SlotToCoeff_test (LOGN := n+1) R LOGDELTA H LDt LDb G ct0 ρ ω) fun o => ∀ i : Fin (2^n),
      (⟨o.1.1 i, o.1.2 i⟩ : ℂ) = ⟨ρ i, ρ (2^n + i)⟩ ∧
      ‖(⟨o.2.1 i, o.2.2 i⟩ : ℂ) - ⟨o.1.1 i, o.1.2 i⟩‖ ≤
        (17 * 2^n + 2^(n+1) * F / ((2^LDb)^(n/G) * (2^LDt)^(n/G))) / 2^LOGDELTA := by
  have hLQ29 : LOGQ ≤ 2^29 := by rcases hQ.one with h | h <;> omega
  have ha : ∀ i : Fin (2^n), ‖(⟨(set_random_message (n+1) ρ).1.1 i, (set_random_message (n+1) ρ).1.2 i⟩ : ℂ)‖ ≤ 1 :=
    random_message_norm (n+1) hρ
  have ea : ∀ i : Fin (2^n), (⟨(set_random_message (n+1) ρ).1.1 i, (set_random_message (n+1) ρ).1.2 i⟩ : ℂ) =
    ⟨ρ i, ρ (2^n + i)⟩ := fun _ => rfl
  unfold CoeffToSlot_SlotToCoeff_test
  dsimp only
  generalize (set_random_message (n+1) ρ).1 = a at *
  refine Ok.bind (C19_keygen_returns H hH ω hω) fun k ⟨hs, hw⟩ => ?_
  have hs' : Ternary k.1 := hs
  have hwt : weight k.1 = H.toNat := hw
  rw [shl1_eq (by omega), pure_bind]
  obtain ⟨pt, r, m, e, ept, hpc, hm, hmB, hpt, er, hrc, he, hph, hsl⟩ := fresh_coeff (Q := LOGQ) R hn1 (by omega) (D := LOGDELTA)
    (by omega) (z := a) (B := 1)
    (fun m hm => coeff_le_slots hn1 (by omega) (fun i => by rw [hm i]; exact ha i)) (unit_scaled hD)
    (unit_scaled_q (by omega)) hs' ct0 k.2
  rw [ept, pure_bind, er, pure_bind]
  generalize R_Q.sval pt + e = w at *
  have hΔ : (0:ℝ) < 2^LOGDELTA := by positivity
  have hC : (0:ℝ) < (2^LDt)^(n/G) := by positivity
  have hB : (0:ℝ) < (2^LDb)^(n/G) := by positivity
  have hZs : ∀ i, ‖slots n w i‖ ≤ Z := by
    intro i
    have g1 := norm_sub_norm_le (slots n w i) (2^LOGDELTA * ⟨a.1 i, a.2 i⟩)
    have g2 := hsl i
    have g3 : ‖(2:ℂ)^LOGDELTA * ⟨a.1 i, a.2 i⟩‖ ≤ 2^LOGDELTA := by
      rw [norm_mul, norm_pow, Complex.norm_ofNat]
      exact mul_le_of_le_one_right hΔ.le (ha i)
    rw [hZ]; linarith
  have hco : ∀ k, |((w k : ℤ) : ℝ)| ≤ Z := coeff_le_slots hn1 (by omega) (m := fun k => ((w k : ℤ) : ℝ)) hZs
  have key : Ok (CoeffToSlot (LOGN := n+1) R LDt G r.1 k.1 r.2) _ :=
    Ok.bind (ctsTable_spec (by omega)) fun U hU =>
      ctsWith_slots R LDt (by omega) hQ.one hQ.two hn1 hn hs' hU hG1 hG hnG (two_pow_hw hL) (two_pow_hq hLQ) hrc hph r.2
  refine Ok.bind key fun c ⟨hc0, hc1, w0, w1, hp0, hp1, hcts⟩ => ?_
  have hcts' := hcts Z hZs
  rw [hwt, ← hE] at hcts'
  have key2 : Ok (SlotToCoeff (LOGN := n+1) R LDb G c.1.1 c.1.2 k.1 c.2) _ :=
    Ok.bind (stcTable_spec (by omega)) fun T hT =>
      stcWith_coeff R LDb (by omega) hQ.one hQ.two hn1 hn hs' hT.1 hT.2 hG1 hG hnG (two_pow_hw hLb) (two_pow_hq hLbQ) hc0 hc1
        hp0 hp1 c.2
  refine Ok.bind key2 fun d ⟨hd, v, hpv, hstc⟩ => ?_
  have hsz : ∀ {x : ℂ} {y : ℝ}, |y| ≤ Z → ‖x - (2^LDt)^(n/G) * (y:ℂ)‖ ≤ E → ‖x‖ ≤ (2^LDt)^(n/G) * Z + E := by
    intro x y hy hx
    have g1 := norm_sub_norm_le x ((2^LDt)^(n/G) * (y:ℂ))
    rw [norm_mul, norm_pow, norm_pow, Complex.norm_ofNat, Complex.norm_real, Real.norm_eq_abs] at g1
    have g2 := mul_le_mul_of_nonneg_left hy hC.le
    linarith
  have hv := hstc (fun k => (2^LDt)^(n/G) * (w k : ℝ)) ((2^LDt)^(n/G) * Z + E) E
    (fun i => hsz (hco (loIdx i)) (hcts' i).1) (fun i => hsz (hco (hiIdx i)) (hcts' i).2)
    (fun i => by
      refine le_trans (le_of_eq ?_) (hcts' i).1
      simp only [brvPair, pairC]; push_cast; rfl)
    (fun i => by
      refine le_trans (le_of_eq ?_) (hcts' i).2
      simp only [brvPair, pairC]; push_cast; rfl)
  rw [hwt, ← hF] at hv
  have hx : ∀ i, ‖slots n v i - (2^LDb)^(n/G) * (2^LDt)^(n/G) * slots n w i‖ ≤ 2^(n+1) * F := by
    intro i
    have g1 := slotOf_smul (fun k => (w k : ℝ)) ((2^LDb)^(n/G) * (2^LDt)^(n/G)) i
    have g2 := slotOf_sub_le (m := fun k => (v k : ℝ)) (m' := fun k => (w k : ℝ) * ((2^LDb)^(n/G) * (2^LDt)^(n/G))) (ε := F)
      (fun k => by
        refine le_trans (le_of_eq ?_) (hv k)
        congr 1; ring) i
    rw [g1] at g2
    refine le_trans (le_of_eq ?_) (g2.trans (le_of_eq ?_))
    · unfold slots; push_cast; congr 1; ring
    · push_cast; ring
  have hX : ∀ i, ‖((2:ℂ)^LDb)^(n/G) * (2^LDt)^(n/G) * slots n w i‖ ≤ (2^LDb)^(n/G) * (2^LDt)^(n/G) * Z := by
    intro i
    rw [norm_mul, norm_mul, norm_pow, norm_pow, norm_pow, norm_pow, Complex.norm_ofNat]
    exact mul_le_mul_of_nonneg_left (hZs i) (mul_pos hB hC).le
  have hDD : LOGDELTA + n/G * LDt + n/G * LDb ≤ 2^30 := by
    have : n/G ≤ 16 := (Nat.div_le_self _ _).trans hn
    nlinarith
  obtain ⟨z1, ez1, hz1⟩ := near_out (D := LOGDELTA + n/G * LDt + n/G * LDb) hn1 (by omega) hLQ29 hDD hs' ⟨hd, v, hpv, hx⟩ hX hq
  obtain ⟨p1, ep1, ez1⟩ := bind_eq_pure ez1
  rw [ep1, pure_bind, show decode_log p1 (((LOGDELTA + (n+1-1)/G * LDt + (n+1-1)/G * LDb : ℕ)) : ℤ) = pure z1 from ez1, pure_bind]
  refine Ok.pure fun i => ⟨ea i, ?_⟩
  have g1 := hz1 i
  have g2 := hsl i
  dsimp only
  have e1 : ((2:ℂ)^LDb)^(n/G) * (2^LDt)^(n/G) * slots n w i / 2^(LOGDELTA + n/G * LDt + n/G * LDb) = slots n w i / 2^LOGDELTA := by
    have h2 : (2:ℂ)^LDt ≠ 0 := pow_ne_zero _ two_ne_zero
    have h3 : (2:ℂ)^LOGDELTA ≠ 0 := pow_ne_zero _ two_ne_zero
    have h4 : (2:ℂ)^LDb ≠ 0 := pow_ne_zero _ two_ne_zero
    rw [pow_add (2:ℂ) (LOGDELTA + _), pow_add (2:ℂ) LOGDELTA, mul_comm (n/G) LDt, mul_comm (n/G) LDb, pow_mul (2:ℂ) LDt,
      pow_mul (2:ℂ) LDb]
    field_simp
  have e2 : 2^(n+1) * F / 2^(LOGDELTA + n/G * LDt + n/G * LDb) =
      2^(n+1) * F / ((2^LDb)^(n/G) * (2^LDt)^(n/G)) / 2^LOGDELTA := by
    rw [pow_add (2:ℝ) (LOGDELTA + _), pow_add (2:ℝ) LOGDELTA, mul_comm (n/G) LDt, mul_comm (n/G) LDb, pow_mul (2:ℝ) LDt,
      pow_mul (2:ℝ) LDb, div_div]
    congr 1; ring
  rw [e1, e2] at g1
  have g3 : ‖slots n w i / 2^LOGDELTA - (⟨a.1 i, a.2 i⟩ : ℂ)‖ ≤ 17 * 2^n / 2^LOGDELTA := by
    have h3 : (2:ℂ)^LOGDELTA ≠ 0 := pow_ne_zero _ two_ne_zero
    have e3 : slots n w i / 2^LOGDELTA - (⟨a.1 i, a.2 i⟩ : ℂ) = (slots n w i - 2^LOGDELTA * ⟨a.1 i, a.2 i⟩) / 2^LOGDELTA := by
      field_simp
    rw [e3, norm_div, norm_pow, Complex.norm_ofNat]
    exact div_le_div_of_nonneg_right g2 hΔ.le
  have g4 := norm_sub_le_norm_sub_add_norm_sub (⟨z1.1 i, z1.2 i⟩ : ℂ) (slots n w i / 2^LOGDELTA) ⟨a.1 i, a.2 i⟩
  rw [add_div]
  linarith

/-- C65 at the parameters of test.h: the coefficients printed by the first program differ by at most `2^-24`, and the second
returns the message up to `2^-14`, for every random message and every key. -/
theorem C65_parameters (R : Nat) (ct0 : R_Q_square 1450 (2^(8+1))) (ρ : RealRng) (hρ : ∀ j, |ρ j| ≤ 1 / Real.sqrt 2) (ω : Rng)
    (hω : ∀ (j : Fin (2^(8+1))) (l : Nat), ∃ m, l ≤ m ∧ ω m % 2^(8+1) = j) :
    Ok (CoeffToSlot_test (LOGN := 8+1) R 50 128 60 2 ct0 ρ ω) (fun o => ∀ i : Fin (2^8),
      |o.1.1 i - o.2.1 i| ≤ 1 / 2^24 ∧ |o.1.2 i - o.2.2 i| ≤ 1 / 2^24) ∧
    Ok (CoeffToSlot_SlotToCoeff_test (LOGN := 8+1) R 50 128 60 60 2 ct0 ρ ω) (fun o =>
      ∀ i : Fin (2^8), (⟨o.1.1 i, o.1.2 i⟩ : ℂ) = ⟨ρ i, ρ (2^8 + i)⟩ ∧
        ‖(⟨o.2.1 i, o.2.2 i⟩ : ℂ) - ⟨o.1.1 i, o.1.2 i⟩‖ ≤ 1 / 2^14) := by
  have hQ : GoodQ 1450 := Or.inr (Or.inl (by norm_num))
  have h128 : Int.toNat 128 = 128 := rfl
  have h1449 : ((2:ℝ)^200)^4 ≤ 2^(1450-1) := by rw [← pow_mul]; exact pow_le_pow_right₀ (by norm_num) (by norm_num)
  constructor
  · refine Ok.mono (C65_CoeffToSlot_test (n := 8) (LOGQ := 1450) R 50 60 (by norm_num) (by norm_num) hQ
      (by norm_num) (by norm_num) (by norm_num) (by norm_num) 2 (by norm_num) (by norm_num) (by norm_num) 128 (by norm_num)
      ct0 _ hρ _ hω _ _ rfl rfl ?_) ?_
    · refine lt_of_lt_of_le ?_ h1449
      rw [h128]; norm_num [grpErr, ltSize, ltErr, ksErr]
    · rintro o ⟨m, -, hm⟩ i
      have hb := bitRev_lt 8 i
      obtain ⟨-, -, h0, h1⟩ := hm i (by omega) (by omega)
      refine ⟨h0.trans ?_, h1.trans ?_⟩ <;> rw [h128] <;> norm_num [grpErr, ltSize, ltErr, ksErr]
  · refine Ok.mono (C65_CoeffToSlot_SlotToCoeff_test (n := 8) (LOGQ := 1450) R 50 60 60 (by norm_num) (by norm_num)
      (by norm_num) hQ (by norm_num) (by norm_num) (by norm_num) (by norm_num) (by norm_num) 2 (by norm_num)
      (by norm_num) (by norm_num) 128 (by norm_num) ct0 _ hρ _ hω _ _ _ rfl rfl rfl ?_) fun o ho i => ⟨(ho i).1, (ho i).2.trans ?_⟩
    · refine lt_of_lt_of_le ?_ h1449
      rw [h128]; norm_num [grpErr, ltSize, ltErr, ksErr]
    · rw [h128]; norm_num [grpErr, ltSize, ltErr, ksErr]

/-- C65 is not vacuous: all random numbers of the message 1/2, the stream 0, 1, 2, … for the key and the encryption. -/
example : (∀ _ : Nat, |(1:ℝ)/2| ≤ 1 / Real.sqrt 2) ∧
    ∀ (j : Fin (2^(8+1))) (l : Nat), ∃ m, l ≤ m ∧ (id : Rng) m % 2^(8+1) = j := by
  refine ⟨fun _ => ?_, fun j l => ⟨2^(8+1) * l + j, by omega, by have := j.isLt; simp only [id]; omega⟩⟩
  rw [abs_of_pos (by norm_num)]
  exact one_div_le_one_div_of_le (Real.sqrt_pos.2 (by norm_num)) ((Real.sqrt_le_left (by norm_num)).2 (by norm_num))

end EvalRound

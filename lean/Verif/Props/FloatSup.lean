import Verif.Proofs.FloatSup

/-!
# C95: `check_sup_norm_bound` of section4/example_sup_norm.cpp in binary64
-/

namespace EvalRound
open Z_Q Finset

/-- `x` is the largest absolute value of the `p k`, divided by the root of their mean square. -/
def SupRatio {N : Nat} (p : Fin N → ℤ) (x : ℝ) : Prop :=
  ∃ k0, (∀ k, |p k| ≤ |p k0|) ∧ x = |(p k0 : ℝ)| / Real.sqrt ((∑ k, (p k : ℝ)^2) / N)

variable {n LOGQ : Nat} [NeZero LOGQ] {L : Libm}

/-- the ratio in binary64 -/
theorem ratioF_ok (hn : n ≤ 18) {S A s : ℝ} (hS1 : 1 ≤ S) (hS2 : S ≤ 2^1000) (hA1 : 1 ≤ A) (hA2 : A ≤ 2^60) (hSA : S ≤ 2^(n+1) * A^2)
    (hs : |s - S| ≤ (3.01 + 1.01 * (2^(n+1) : Nat)) * uF * S + 7 * (2^(n+1) : Nat) * etaF) :
    ∃ r sN d x, fl (Real.sqrt s) = pure r ∧ fl (Real.sqrt ((2^(n+1) : Nat) : ℝ)) = pure sN ∧ sN ≠ 0 ∧ fl (r / sN) = pure d ∧ d ≠ 0 ∧
      fl (A / d) = pure x ∧ |r - Real.sqrt S| ≤ (1.1 * 2^(n+1) + 5) / 2^53 * Real.sqrt S ∧
      |x - A / Real.sqrt (S / 2^(n+1))| ≤ (1.1 * 2^(n+1) + 8) / 2^53 * (A / Real.sqrt (S / 2^(n+1))) := by
  have hu := uF_pos
  have hN20 : 2^(n+1) ≤ 2^20 := Nat.pow_le_pow_right (by norm_num) (by omega)
  obtain ⟨N, hN⟩ : ∃ N : Nat, N = 2^(n+1) := ⟨_, rfl⟩
  have hNr : ((2:ℝ)^(n+1)) = N := by rw [hN]; push_cast; rfl
  rw [← hN] at hN20 hs ⊢
  rw [hNr] at hSA ⊢
  have hN0 : (1:ℝ) ≤ N := by rw [← hNr]; exact one_le_pow₀ (by norm_num)
  have hN1 : (N:ℝ) ≤ 2^19 := by rw [← hNr]; exact pow_le_pow_right₀ (by norm_num) (by omega)
  have hsS1 : 1 ≤ Real.sqrt S := by rw [Real.one_le_sqrt]; exact hS1
  have hsN1 : 1 ≤ Real.sqrt N := by rw [Real.one_le_sqrt]; exact hN0
  have hsN2 : Real.sqrt N ≤ 2^10 := by rw [Real.sqrt_le_left (by norm_num)]; exact hN1.trans (by norm_num)
  have hsS2 : Real.sqrt S ≤ 2^500 := by rw [Real.sqrt_le_left (by positivity), ← pow_mul]; exact hS2
  obtain ⟨r, er, hr0, hr⟩ := fl_sqrt_near (by linarith) hS2 (mul_nonneg (by positivity) hu.le) (kappa_le hN20) (mul_nonneg (by positivity) etaF_pos.le)
    (sqrt_tiny hN20) hs
  have hrR : Ra (Real.sqrt S) (1.01 * N + 4.03) 0 r := by
    unfold Ra
    refine hr.trans ?_
    have h1 : 1.01 * Real.sqrt (7 * N * etaF) + etaF ≤ 1/2^100 := by
      have h2 := sqrt_tiny hN20
      have h3 : (1:ℝ)/2^520 ≤ 1/2^102 := one_div_le_one_div_of_le (by positivity) (pow_le_pow_right₀ (by norm_num) (by norm_num))
      have h4 : etaF ≤ 1/2^102 := by
        rw [etaF_eq]
        exact one_div_le_one_div_of_le (by positivity) (pow_le_pow_right₀ (by norm_num) (by norm_num))
      linarith
    have h5 : (1:ℝ)/2^100 ≤ 0.01 * uF * Real.sqrt S := by
      refine le_trans ?_ (mul_le_mul_of_nonneg_left hsS1 (mul_nonneg (by norm_num) hu.le))
      rw [uF_eq]
      norm_num
    have e : (1.01 * N + 4.03) * uF * Real.sqrt S + 0 = ((3.01 + 1.01 * N) * uF + 1.01 * uF) * Real.sqrt S + 0.01 * uF * Real.sqrt S := by ring
    rw [e]
    linarith
  obtain ⟨sN, esN, hsN⟩ := (Ra.self (Real.sqrt N)).fl1 (le_trans (by norm_num) hsN1) (hsN2.trans (pow_le_pow_right₀ (by norm_num) (by norm_num)))
    le_rfl (by norm_num)
  have hsp : 0 < Real.sqrt N := by linarith
  obtain ⟨hsN0, hq⟩ := hrR.divRa hsN (by linarith) hsp (by positivity) (by norm_num) (by linarith) (by norm_num)
  have hD1 : (1:ℝ)/2^20 ≤ Real.sqrt S / Real.sqrt N := by
    rw [div_le_div_iff₀ (by norm_num) hsp]
    linarith
  have hD2 : Real.sqrt S / Real.sqrt N ≤ 2^500 := (div_le_self (by linarith) hsN1).trans hsS2
  obtain ⟨d, ed, hd⟩ := hq.fl1 hD1 hD2 (by positivity) (by linarith)
  have hDp : 0 < Real.sqrt S / Real.sqrt N := lt_of_lt_of_le (by norm_num) hD1
  obtain ⟨hd0, hx⟩ := (Ra.self A).divRa hd (by linarith) hDp le_rfl (by positivity) (by norm_num) (by linarith)
  have hX1 : (1:ℝ)/2^20 ≤ A / (Real.sqrt S / Real.sqrt N) := by
    refine le_trans (by norm_num : (1:ℝ)/2^20 ≤ 1) ?_
    rw [one_le_div hDp, div_le_iff₀ hsp]
    refine Real.sqrt_le_iff.2 ⟨by positivity, ?_⟩
    rw [mul_pow, Real.sq_sqrt (by linarith), mul_comm]
    exact hSA
  have hX2 : A / (Real.sqrt S / Real.sqrt N) ≤ 2^500 := by
    rw [div_div_eq_mul_div]
    refine (div_le_self (by positivity) hsS1).trans ?_
    calc A * Real.sqrt N ≤ 2^60 * 2^10 := mul_le_mul hA2 hsN2 hsp.le (by norm_num)
      _ ≤ 2^500 := by rw [← pow_add]; exact pow_le_pow_right₀ (by norm_num) (by norm_num)
  obtain ⟨x, ex, hxr⟩ := hx.fl1 hX1 hX2 (by positivity) (by linarith)
  rw [Real.sqrt_div (by linarith)]
  refine ⟨r, sN, d, x, er, esN, hsN0.ne', ed, hd0.ne', ex, ?_, ?_⟩
  · have h1 := hrR.mono (by linarith) (show 1.01 * (N:ℝ) + 4.03 ≤ 1.1 * N + 5 by linarith) le_rfl
    unfold Ra at h1
    rw [add_zero, uF_eq] at h1
    refine h1.trans (le_of_eq ?_)
    ring
  · have h1 := hxr.mono (by positivity) (show 0 + (1.01 * (N:ℝ) + 4.03 + (0 + 1.02) + 0.01 + 1.02) + 0.01 + 1.02 ≤ 1.1 * N + 8 by linarith) le_rfl
    unfold Ra at h1
    rw [add_zero, uF_eq] at h1
    refine h1.trans (le_of_eq ?_)
    ring

set_option maxHeartbeats 400000 in
/-- C95: one round of `check_sup_norm_bound` in binary64. `p` are the encoded coefficients. The sup norm is exact, the Euclidean norm and the ratio
are near the exact ones, and the ratio is not a number exactly when all coefficients are zero. -/
theorem C95_round (hL : L.Accurate) (hn1 : 1 ≤ n) (hn : n ≤ 16) (hq : 53 ≤ LOGQ) (z : CVec (n+1)) (hz : ∀ i : Fin (2^n), ‖(⟨z.1 i, z.2 i⟩ : ℂ)‖ ≤ 1) :
    Ok (supNormRoundF L LOGQ z (BitVec.ofNat 64 (2^50))) fun o => ∃ (m y : Fin (2^(n+1)) → ℝ) (p : Fin (2^(n+1)) → ℤ),
      (∀ i : Fin (2^n), slotOf m i = ⟨z.1 i, z.2 i⟩) ∧ Real.sqrt (∑ k, (y k - 2^50 * m k)^2) ≤ (28 * n + 7) / 8 ∧ (∀ k, |(p k : ℝ) - y k| ≤ 1/2) ∧
      |o.1 - Real.sqrt (∑ k, (p k : ℝ)^2)| ≤ (1.1 * 2^(n+1) + 5) / 2^53 * Real.sqrt (∑ k, (p k : ℝ)^2) ∧
      (∀ k, |(p k : ℝ)| ≤ o.2.1) ∧ (∃ k, o.2.1 = |(p k : ℝ)|) ∧
      ((∀ k, p k = 0) → o.2.2 = none) ∧
      ((∃ k, p k ≠ 0) → ∃ x t, o.2.2 = some x ∧ SupRatio p t ∧ |x - t| ≤ (1.1 * 2^(n+1) + 8) / 2^53 * t) := by
  have hn0 : (0:ℝ) ≤ n := Nat.cast_nonneg _
  have hn' : (n:ℝ) ≤ 16 := by exact_mod_cast hn
  unfold supNormRoundF
  refine Ok.bind (encode_diagF (LOGQ := LOGQ) hL hn1 hn hq z fun i => (hz i).trans (by norm_num)) fun pt ⟨hc, m, y, hm, hy, hpy, _⟩ => ?_
  have hmk : ∀ k, |m k| ≤ 1 := coeff_le_slots hn1 (by omega) fun i => by rw [hm i]; exact hz i
  have hyk : ∀ k, |y k - 2^50 * m k| ≤ 58 := fun k => by
    have h1 : (y k - 2^50 * m k)^2 ≤ ∑ k, (y k - 2^50 * m k)^2 := single_le_sum (f := fun k => (y k - 2^50 * m k)^2) (fun _ _ => sq_nonneg _) (mem_univ k)
    exact (Real.abs_le_sqrt h1).trans (hy.trans (by linarith))
  have hpk : ∀ k, |((R_Q.sval pt k : ℤ) : ℝ)| ≤ 2^51 := fun k => by
    have h1 := abs_le.1 (hmk k)
    have h2 := abs_le.1 (hyk k)
    have h3 := abs_le.1 (hpy k)
    rw [abs_le]
    constructor <;> linarith
  have hb : ∀ k, (R_Q.sval pt k).natAbs < 2^52 := fun k => by
    have h1 := hpk k
    rw [← natAbs_real] at h1
    have h2 : (R_Q.sval pt k).natAbs ≤ 2^51 := by exact_mod_cast h1
    omega
  have hN20 : 2^(n+1) ≤ 2^20 := Nat.pow_le_pow_right (by norm_num) (by omega)
  refine Ok.bind (supLoopF_ok hN20 pt hc hb) fun P ⟨hs, hs0, hA, hex⟩ => ?_
  obtain ⟨k0, hk0⟩ := hex (Nat.two_pow_pos _)
  obtain ⟨s, A⟩ := P
  obtain ⟨p, hp⟩ : ∃ p, p = R_Q.sval pt := ⟨_, rfl⟩
  dsimp only at hs hs0 hA hk0
  rw [← hp] at hs hs0 hA hk0 hpy hpk
  dsimp only
  obtain ⟨S, hS⟩ : ∃ S : ℝ, S = ∑ k, (p k : ℝ)^2 := ⟨_, rfl⟩
  rw [← hS] at hs
  by_cases hall : ∀ k, p k = 0
  · have hA0 : A = 0 := by rw [hk0, hall]; simp
    have hS0 : S = 0 := by rw [hS]; exact sum_eq_zero fun k _ => by rw [hall k]; simp
    rw [hs0 hall, Real.sqrt_zero, fl_zero, pure_bind]
    have hN0 : (1:ℝ) ≤ ((2^(n+1) : Nat) : ℝ) := by exact_mod_cast Nat.one_le_two_pow
    have hN1 : ((2^(n+1) : Nat) : ℝ) ≤ 2^20 := by exact_mod_cast hN20
    have hsN1 : 1 ≤ Real.sqrt ((2^(n+1) : Nat) : ℝ) := by rw [Real.one_le_sqrt]; exact hN0
    have hsN2 : Real.sqrt ((2^(n+1) : Nat) : ℝ) ≤ 2^10 := by rw [Real.sqrt_le_left (by norm_num)]; exact hN1.trans (by norm_num)
    obtain ⟨sN, esN, hsN⟩ := (Ra.self (Real.sqrt ((2^(n+1) : Nat) : ℝ))).fl1 (le_trans (by norm_num) hsN1)
      (hsN2.trans (pow_le_pow_right₀ (by norm_num) (by norm_num))) le_rfl (by norm_num)
    obtain ⟨hsN0, -⟩ := (Ra.self (0:ℝ)).divRa hsN le_rfl (by linarith) le_rfl (by norm_num) (by norm_num) (by norm_num)
    rw [esN, pure_bind, if_neg hsN0.ne', zero_div, fl_zero, pure_bind, if_pos rfl, if_pos hA0]
    refine Ok.pure ⟨m, y, p, hm, hy, hpy, ?_, hA, ⟨k0, hk0⟩, fun _ => rfl, fun ⟨k, hk⟩ => absurd (hall k) hk⟩
    dsimp only
    rw [← hS, hS0]
    simp
  · obtain ⟨k1, hk1⟩ : ∃ k, p k ≠ 0 := by push_neg at hall; exact hall
    have hSk : ∀ k, (p k : ℝ)^2 ≤ S := fun k => by
      rw [hS]
      exact single_le_sum (f := fun k => (p k : ℝ)^2) (fun _ _ => sq_nonneg _) (mem_univ k)
    have hi1 : (1:ℝ) ≤ |(p k1 : ℝ)| := by
      have := Int.one_le_abs hk1
      exact_mod_cast this
    have hS1 : 1 ≤ S := by
      refine le_trans ?_ (hSk k1)
      rw [← sq_abs]
      exact one_le_pow₀ hi1
    have hA1 : 1 ≤ A := hi1.trans (hA k1)
    have hA51 : A ≤ 2^51 := by rw [hk0]; exact hpk k0
    have hSA : S ≤ 2^(n+1) * A^2 := by
      rw [hS]
      refine (sum_le_card_nsmul _ _ (A^2) fun k _ => ?_).trans (le_of_eq ?_)
      · rw [← sq_abs]
        exact pow_le_pow_left₀ (abs_nonneg _) (hA k) 2
      · rw [card_univ, Fintype.card_fin, nsmul_eq_mul]
        push_cast
        rfl
    have hS2 : S ≤ 2^1000 := by
      refine hSA.trans ?_
      calc (2:ℝ)^(n+1) * A^2 ≤ 2^17 * (2^51)^2 := mul_le_mul (pow_le_pow_right₀ (by norm_num) (by omega)) (pow_le_pow_left₀ (by linarith) hA51 2) (by positivity) (by norm_num)
        _ = 2^119 := by norm_num
        _ ≤ 2^1000 := pow_le_pow_right₀ (by norm_num) (by norm_num)
    obtain ⟨r, sN, d, x, er, esN, hsN, ed, hd, ex, hr, hx⟩ := ratioF_ok (n := n) (by omega) hS1 hS2 hA1 (hA51.trans (by norm_num)) hSA hs
    rw [er, pure_bind, esN, pure_bind, if_neg hsN, ed, pure_bind, if_neg hd, ex, pure_bind]
    refine Ok.pure ⟨m, y, p, hm, hy, hpy, ?_, hA, ⟨k0, hk0⟩, fun h => absurd (h k1) hk1, fun _ => ⟨x, _, rfl, ⟨k0, fun k => ?_, rfl⟩, ?_⟩⟩
    · rw [← hS]
      exact hr
    · have := hA k
      rw [hk0] at this
      exact_mod_cast this
    · rw [← hS, ← hk0]
      push_cast
      exact hx

theorem SupRatio.bounds {N : Nat} {p : Fin N → ℤ} {t : ℝ} (h : SupRatio p t) : 0 ≤ t ∧ t ≤ Real.sqrt N ∧ ((∀ k, p k = 0) → t = 0) := by
  obtain ⟨k0, -, rfl⟩ := h
  refine ⟨by positivity, ?_, fun h => by rw [h k0]; simp⟩
  have hS0 : 0 ≤ ∑ k, (p k : ℝ)^2 := sum_nonneg fun _ _ => sq_nonneg _
  have hN : (0:ℝ) < N := by exact_mod_cast k0.pos
  rcases hS0.eq_or_lt with h0 | hpos
  · rw [← h0, zero_div, Real.sqrt_zero, div_zero]; exact Real.sqrt_nonneg _
  · rw [div_le_iff₀ (Real.sqrt_pos.2 (div_pos hpos hN)), ← Real.sqrt_mul hN.le, mul_div_cancel₀ _ hN.ne']
    refine Real.le_sqrt_of_sq_le ?_
    rw [sq_abs]
    exact single_le_sum (f := fun k => (p k : ℝ)^2) (fun _ _ => sq_nonneg _) (mem_univ k0)

/-- some coefficient is the largest -/
theorem SupRatio.exists {N : Nat} (hN : 0 < N) (p : Fin N → ℤ) : ∃ t, SupRatio p t := by
  haveI : Nonempty (Fin N) := ⟨⟨0, hN⟩⟩
  obtain ⟨k0, hk0⟩ := Finite.exists_max fun k => |p k|
  exact ⟨_, k0, hk0, rfl⟩

/-- C95: `check_sup_norm_bound` in binary64 reports the largest ratio `t j` of all its rounds, up to `(1.1N+8)/2^53` of itself, and rounds that up
to an integer. -/
theorem C95_check (hL : L.Accurate) (hn1 : 1 ≤ n) (hn : n ≤ 16) (hq : 53 ≤ LOGQ) (rounds : Nat) {ρ : RealRng} (hρ : ∀ j, |ρ j| ≤ 1 / Real.sqrt 2) :
    Ok (checkSupNormF L LOGQ (n+1) rounds ρ) fun r => ∃ (m y : Nat → Fin (2^(n+1)) → ℝ) (p : Nat → Fin (2^(n+1)) → ℤ) (t : Nat → ℝ),
      (∀ j, (∀ i : Fin (2^n), slotOf (m j) i = ⟨ρ (2^(n+1) * j + i), ρ (2^(n+1) * j + (2^n + i))⟩) ∧
        Real.sqrt (∑ k, (y j k - 2^50 * m j k)^2) ≤ (28 * n + 7) / 8 ∧ (∀ k, |(p j k : ℝ) - y j k| ≤ 1/2) ∧ SupRatio (p j) (t j)) ∧
      (∀ j < rounds, t j * (1 - (1.1 * 2^(n+1) + 8) / 2^53) ≤ r.1) ∧
      (0 < rounds → ∃ j < rounds, r.1 ≤ t j * (1 + (1.1 * 2^(n+1) + 8) / 2^53)) ∧ r.2 = (⌈r.1⌉ : ℝ) := by
  have hz : ∀ t, ∀ i : Fin (2^n), ‖(⟨(set_random_message (n+1) (fun j => ρ (2^(n+1) * t + j))).1.1 i,
      (set_random_message (n+1) (fun j => ρ (2^(n+1) * t + j))).1.2 i⟩ : ℂ)‖ ≤ 1 :=
    fun t => random_message_norm (n+1) (ρ := fun j => ρ (2^(n+1) * t + j)) fun j => hρ _
  have hround := fun j => C95_round (LOGQ := LOGQ) hL hn1 hn hq (set_random_message (n+1) (fun i => ρ (2^(n+1) * j + i))).1 (hz j)
  choose o ho m y p hm hy hpy _ _ _ hnone hsome using hround
  obtain ⟨κ, hκ⟩ : ∃ κ : ℝ, κ = (1.1 * 2^(n+1) + 8) / 2^53 := ⟨_, rfl⟩
  have hκ0 : 0 ≤ κ := by rw [hκ]; positivity
  have hκ1 : κ ≤ 1 := by
    rw [hκ]
    have : (2:ℝ)^(n+1) ≤ 2^17 := pow_le_pow_right₀ (by norm_num) (by omega)
    linarith
  rw [← hκ] at hsome ⊢
  have ht : ∀ j, ∃ t, SupRatio (p j) t ∧ (((o j).2.2 = none ∧ t = 0) ∨ ∃ x, (o j).2.2 = some x ∧ |x - t| ≤ κ * t) := by
    intro j
    by_cases h : ∀ k, p j k = 0
    · obtain ⟨t, ht⟩ := SupRatio.exists (Nat.two_pow_pos (n+1)) (p j)
      exact ⟨t, ht, Or.inl ⟨hnone j h, ht.bounds.2.2 h⟩⟩
    · push_neg at h
      obtain ⟨x, t, hx, ht, hxt⟩ := hsome j h
      exact ⟨t, ht, Or.inr ⟨x, hx, hxt⟩⟩
  choose t hst hxt using ht
  have ht0 : ∀ j, 0 ≤ t j := fun j => (hst j).bounds.1
  have ht1 : ∀ j, 0 ≤ t j * (1 + κ) := fun j => mul_nonneg (ht0 j) (by linarith)
  unfold checkSupNormF
  rw [shl1_eq (by norm_num), pure_bind]
  refine Ok.bind (forUp_inv (Nat.zero_le _) (P := fun j (q : ℝ × RealRng) => q.2 = (fun i => ρ (2^(n+1) * j + i)) ∧ 0 ≤ q.1 ∧ (j = 0 → q.1 = 0) ∧
    (∀ i < j, t i * (1 - κ) ≤ q.1) ∧ (0 < j → ∃ i < j, q.1 ≤ t i * (1 + κ))) ?_ ?_) fun r hr => ?_
  · refine ⟨?_, le_rfl, fun _ => rfl, fun t' h => by omega, fun h => by omega⟩
    funext j; simp
  · rintro j ⟨q, ρ'⟩ - - ⟨rfl, hq0, hq00, hall, hex⟩
    dsimp only at hq0 hq00 hall hex ⊢
    rw [ho j, pure_bind]
    have hstream : (set_random_message (n+1) (fun i => ρ (2^(n+1) * j + i))).2 = fun i => ρ (2^(n+1) * (j+1) + i) := by
      funext i
      show ρ (2^(n+1) * j + (2^(n+1) + i)) = _
      congr 1; ring
    have hcase : (q ≤ t j * (1 + κ)) ∨ (0 < j ∧ ∃ i < j, q ≤ t i * (1 + κ)) := by
      rcases Nat.eq_zero_or_pos j with h | h
      · exact Or.inl (by rw [hq00 h]; exact ht1 j)
      · exact Or.inr ⟨h, hex h⟩
    rcases hxt j with ⟨hn, h0⟩ | ⟨x, hx, hxt⟩
    · rw [hn]
      refine Ok.pure ⟨hstream, hq0, fun h => by omega, fun i hi => ?_, fun _ => ?_⟩
      · rcases Nat.lt_succ_iff_lt_or_eq.1 hi with h | rfl
        · exact hall i h
        · rw [h0, zero_mul]; exact hq0
      · rcases hcase with h | ⟨_, i, hi, h⟩
        · exact ⟨j, by omega, h⟩
        · exact ⟨i, by omega, h⟩
    · rw [hx]
      have hx1 := abs_le.1 hxt
      refine Ok.pure ⟨hstream, ?_, fun h => by omega, fun i hi => ?_, fun _ => ?_⟩
      · dsimp only
        rw [ite_max]
        exact le_max_of_le_left hq0
      · dsimp only
        rw [ite_max]
        rcases Nat.lt_succ_iff_lt_or_eq.1 hi with h | rfl
        · exact le_max_of_le_left (hall i h)
        · refine le_max_of_le_right ?_
          linarith [hx1.1]
      · dsimp only
        rw [ite_max]
        have hxj : x ≤ t j * (1 + κ) := by linarith [hx1.2]
        rcases hcase with h | ⟨_, i, hi, h⟩
        · exact ⟨j, by omega, max_le h hxj⟩
        · rcases le_total q x with h' | h'
          · exact ⟨j, by omega, by rw [max_eq_right h']; exact hxj⟩
          · exact ⟨i, by omega, by rw [max_eq_left h']; exact h⟩
  · exact Ok.pure ⟨m, y, p, t, fun j => ⟨hm j, hy j, hpy j, hst j⟩, hr.2.2.2.1, hr.2.2.2.2, rfl⟩

/-- C95: `C2 = 5` is no bound in binary64 either: there are messages, of those that `set_random_message` may draw, for which the reported
`C2_empirical` is at least 6, whatever the number of rounds and the library functions. -/
theorem C95_exceeds (hL : L.Accurate) (hn4 : 4 ≤ n) (hn : n ≤ 16) (hq : 53 ≤ LOGQ) :
    ∃ ρ : RealRng, (∀ j, |ρ j| ≤ 1 / Real.sqrt 2) ∧ ∀ rounds, 0 < rounds →
      Ok (checkSupNormF L LOGQ (n+1) rounds ρ) fun r => Real.sqrt (2^(n+1)) * (1 - 1/2^30) ≤ r.1 ∧ 5 < r.1 ∧ 6 ≤ r.2 := by
  have hn0 : (0:ℝ) ≤ n := Nat.cast_nonneg _
  have hn' : (n:ℝ) ≤ 16 := by exact_mod_cast hn
  have hh : (1/2 : ℝ) ≤ 1 / Real.sqrt 2 := by
    rw [div_le_div_iff₀ (by norm_num) (Real.sqrt_pos.2 (by norm_num)), one_mul, one_mul, Real.sqrt_le_left (by norm_num)]
    norm_num
  have hρ : ∀ j, |(fun j => if j % 2^(n+1) < 2^n then (1/2 : ℝ) else 0) j| ≤ 1 / Real.sqrt 2 := by
    intro j
    dsimp only
    split
    · rw [abs_of_pos (by norm_num)]; exact hh
    · rw [abs_zero]; positivity
  refine ⟨fun j => if j % 2^(n+1) < 2^n then 1/2 else 0, hρ, fun rounds hr => ?_⟩
  refine Ok.mono (C95_check (LOGQ := LOGQ) hL (by omega) hn hq rounds hρ) ?_
  rintro r ⟨m, y, p, t, h, hle, -, hc⟩
  obtain ⟨hm, hy, hpy, k0, hk0, ht⟩ := h 0
  have hr1 := hle 0 hr
  have hmc : m 0 = fun k => if k.val = 0 then 1/2 else 0 := by
    refine slotOf_inj fun i => ?_
    have e2 : 2^(n+1) = 2^n * 2 := pow_succ _ _
    rw [hm i, slotOf_const (Nat.two_pow_pos _), mul_zero, zero_add, zero_add, Nat.mod_eq_of_lt (by have := i.isLt; omega), if_pos i.isLt,
      Nat.mod_eq_of_lt (by have := i.isLt; omega), if_neg (by omega)]
    rfl
  have hyk : ∀ k, |y 0 k - 2^50 * m 0 k| ≤ 58 := fun k => by
    have h1 : (y 0 k - 2^50 * m 0 k)^2 ≤ ∑ k, (y 0 k - 2^50 * m 0 k)^2 :=
      single_le_sum (f := fun k => (y 0 k - 2^50 * m 0 k)^2) (fun _ _ => sq_nonneg _) (mem_univ k)
    exact (Real.abs_le_sqrt h1).trans (hy.trans (by linarith))
  obtain ⟨z0, hz0⟩ : ∃ z0 : Fin (2^(n+1)), z0.val = 0 := ⟨⟨0, Nat.two_pow_pos _⟩, rfl⟩
  have hp0 : (2:ℝ)^48 ≤ p 0 z0 := by
    have h1 := hyk z0
    rw [hmc] at h1
    dsimp only at h1
    rw [if_pos hz0] at h1
    have h2 := (abs_le.1 h1).1
    have h3 := (abs_le.1 (hpy z0)).1
    linarith
  have hpk : ∀ k, k ≠ z0 → (p 0 k : ℝ)^2 ≤ 2^12 := by
    intro k hk
    have h1 := hyk k
    rw [hmc] at h1
    dsimp only at h1
    rw [if_neg (fun h => hk (Fin.ext (h.trans hz0.symm))), mul_zero, sub_zero] at h1
    have h2 := abs_le.1 h1
    have h3 := abs_le.1 (hpy k)
    have h4 : |(p 0 k : ℝ)| ≤ 2^6 := by rw [abs_le]; constructor <;> linarith
    rw [← sq_abs]
    calc |(p 0 k : ℝ)|^2 ≤ (2^6)^2 := pow_le_pow_left₀ (abs_nonneg _) h4 2
      _ = 2^12 := by norm_num
  obtain ⟨A, hA⟩ : ∃ A : ℝ, A = |(p 0 k0 : ℝ)| := ⟨_, rfl⟩
  have hA1 : (p 0 z0 : ℝ) ≤ A := by
    rw [hA]
    have : |(p 0 z0 : ℝ)| ≤ |(p 0 k0 : ℝ)| := by exact_mod_cast hk0 z0
    exact (le_abs_self _).trans this
  have hA48 : (2:ℝ)^48 ≤ A := hp0.trans hA1
  obtain ⟨S, hS⟩ : ∃ S : ℝ, S = ∑ k, (p 0 k : ℝ)^2 := ⟨_, rfl⟩
  have hSle : S ≤ A^2 * (1 + 1/2^60) := by
    rw [hS, ← add_sum_erase _ _ (mem_univ z0)]
    have h1 : (p 0 z0 : ℝ)^2 ≤ A^2 := pow_le_pow_left₀ (le_trans (by norm_num) hp0) hA1 2
    have h2 : ∑ k ∈ univ.erase z0, (p 0 k : ℝ)^2 ≤ 2^29 := by
      refine (sum_le_card_nsmul _ _ (2^12) fun k hk => hpk k (mem_erase.1 hk).1).trans ?_
      have h3 : (univ.erase z0).card ≤ 2^17 := by
        refine (card_le_card (erase_subset _ _)).trans ?_
        rw [card_univ, Fintype.card_fin]
        exact Nat.pow_le_pow_right (by norm_num) (by omega)
      rw [nsmul_eq_mul]
      have h4 : ((univ.erase z0).card : ℝ) ≤ 2^17 := by exact_mod_cast h3
      calc ((univ.erase z0).card : ℝ) * 2^12 ≤ 2^17 * 2^12 := mul_le_mul_of_nonneg_right h4 (by norm_num)
        _ = 2^29 := by norm_num
    have h5 : ((2:ℝ)^48)^2 ≤ A^2 := pow_le_pow_left₀ (by norm_num) hA48 2
    have h6 : (2:ℝ)^29 ≤ A^2 * (1/2^60) := by
      refine le_trans ?_ (mul_le_mul_of_nonneg_right h5 (by norm_num))
      norm_num
    linarith
  have hApos : 0 < A := lt_of_lt_of_le (by norm_num) hA48
  have hNr : ((2^(n+1) : ℕ) : ℝ) = 2^(n+1) := by push_cast; rfl
  have hN0 : (0:ℝ) < 2^(n+1) := by positivity
  have hS0 : 0 < S := by
    rw [hS]
    refine lt_of_lt_of_le (b := (p 0 z0 : ℝ)^2) ?_ (single_le_sum (f := fun k => (p 0 k : ℝ)^2) (fun _ _ => sq_nonneg _) (mem_univ z0))
    have : (0:ℝ) < p 0 z0 := lt_of_lt_of_le (by norm_num) hp0
    positivity
  have htl : Real.sqrt (2^(n+1)) * (1 - 1/2^40) ≤ t 0 := by
    rw [ht, ← hA, ← hS, hNr, Real.sqrt_div hS0.le, div_div_eq_mul_div, le_div_iff₀ (Real.sqrt_pos.2 hS0), mul_comm A, mul_assoc]
    refine mul_le_mul_of_nonneg_left ?_ (Real.sqrt_nonneg _)
    have h1 : Real.sqrt S ≤ A * (1 + 1/2^60) := by
      refine Real.sqrt_le_iff.2 ⟨by positivity, hSle.trans ?_⟩
      rw [mul_pow]
      refine mul_le_mul_of_nonneg_left ?_ (by positivity)
      norm_num
    have h2 : (1 - 1/2^40 : ℝ) * Real.sqrt S ≤ (1 - 1/2^40) * (A * (1 + 1/2^60)) := mul_le_mul_of_nonneg_left h1 (by norm_num)
    refine h2.trans ?_
    have h3 : (1 - 1/2^40 : ℝ) * (A * (1 + 1/2^60)) = A * ((1 - 1/2^40) * (1 + 1/2^60)) := by ring
    rw [h3]
    refine le_trans (mul_le_mul_of_nonneg_left (?_ : _ ≤ (1:ℝ)) hApos.le) (mul_one A).le
    norm_num
  have hs32 : (5.6:ℝ) ≤ Real.sqrt (2^(n+1)) := by
    refine Real.le_sqrt_of_sq_le ?_
    have : (2:ℝ)^5 ≤ 2^(n+1) := pow_le_pow_right₀ (by norm_num) (by omega)
    linarith
  have hκ : (1.1 * (2:ℝ)^(n+1) + 8) / 2^53 ≤ 1/2^32 := by
    have : (2:ℝ)^(n+1) ≤ 2^17 := pow_le_pow_right₀ (by norm_num) (by omega)
    linarith
  obtain ⟨s, hs⟩ : ∃ s, s = Real.sqrt (2^(n+1)) := ⟨_, rfl⟩
  rw [← hs] at htl hs32 ⊢
  have hlow : s * (1 - 1/2^30) ≤ r.1 := by
    refine le_trans ?_ hr1
    refine le_trans ?_ (mul_le_mul_of_nonneg_right htl (by linarith))
    rw [mul_assoc]
    refine mul_le_mul_of_nonneg_left ?_ (by linarith)
    refine le_trans ?_ (mul_le_mul_of_nonneg_left (sub_le_sub_left hκ 1) (by norm_num))
    norm_num
  have h5 : 5 < r.1 := by
    refine lt_of_lt_of_le ?_ hlow
    refine lt_of_lt_of_le ?_ (mul_le_mul_of_nonneg_right hs32 (by norm_num))
    norm_num
  refine ⟨hlow, h5, ?_⟩
  rw [hc]
  have h6 : (5:ℤ) < ⌈r.1⌉ := Int.lt_ceil.2 (by exact_mod_cast h5)
  exact_mod_cast (show (6:ℤ) ≤ ⌈r.1⌉ by omega)

/-- The driver's own parameters: LOGN = 9, 13 and 17, LOGQ = 1450, 100 rounds, numbers 1/2, with correctly rounded library functions. -/
example (n : Nat) (hn : n = 8 ∨ n = 12 ∨ n = 16) : Ok (checkSupNormF exactLibm 1450 (n+1) 100 fun _ => 1/2) fun r => r.2 = (⌈r.1⌉ : ℝ) :=
  Ok.mono (C95_check exactLibm_accurate (by omega) (by omega) (by norm_num) 100 fun _ => by
    rw [abs_of_pos (by norm_num), div_le_div_iff₀ (by norm_num) (Real.sqrt_pos.2 (by norm_num)), one_mul, one_mul,
      Real.sqrt_le_left (by norm_num)]
    norm_num) fun _ ⟨_, _, _, _, _, _, _, h⟩ => h

end EvalRound

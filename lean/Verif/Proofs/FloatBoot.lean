import Verif.Proofs.Boot
import Verif.Proofs.FloatStC
import Verif.Proofs.FloatEvalMod

/-! # Bootstrapping in binary64 -/

namespace EvalRound
open Z_Q Finset SparseDiagonal

variable {LOGQ n : Nat} [NeZero LOGQ]

/-! ## CoeffToSlot and rescaling -/

theorem ctsF_near {L : LibmP} (hLib : L.Accurate) (R LD : Nat) (hL : LD < 63) (hQ : GoodQ LOGQ) (hLQ : LD + 2 < LOGQ) (hn1 : 1 ≤ n) (hn : n ≤ 16)
    {s : Fin (2^(n+1)) → Int} (hs : Ternary s) {G : Nat} (hG1 : 1 ≤ G) (hG : G ≤ 4) (hD : n % G = 0)
    {ct : R_Q_square LOGQ (2^(n+1))} (hct : ct.Canonical) {m : Fin (2^(n+1)) → Int}
    (hm : R_Q_square.phase s ct = red LOGQ m) {Z : ℝ} (hZ : ∀ i, ‖slots n m i‖ ≤ Z)
    {Q0 : Nat} [NeZero Q0] (hQ0 : LOGQ = Q0 + n/G * LD) (ω : Rng) :
    Ok (do
      let r ← CoeffToSlotF (LOGN := n+1) L R LD G ct s ω
      let c0 : R_Q_square Q0 (2^(n+1)) ← RS r.1.1 R_Q_square.setzero
      let c1 : R_Q_square Q0 (2^(n+1)) ← RS r.1.2 R_Q_square.setzero
      pure (c0, c1, r.2)) fun p => ∃ a : Fin (2^(n+1)) → ℝ,
        (∀ k, |a k - m k| ≤ ctsErrF n (weight s) G (2^LD) Z) ∧
        Near s p.1 (fun i => (a (loIdx i) : ℂ)) (ctsNoise n (weight s) G (2^LD)) ∧
        Near s p.2.1 (fun i => (a (hiIdx i) : ℂ)) (ctsNoise n (weight s) G (2^LD)) := by
  have key : Ok (CoeffToSlotF (LOGN := n+1) L R LD G ct s ω) _ :=
    Ok.bind (ctsTableF_spec hLib hn1 (by omega)) fun U hU =>
      ctsWithF_real hLib.1 R LD hL hQ.one hQ.two hn1 hn hs hU hG1 hG hD hLQ hct hm ω
  refine Ok.bind key fun r ⟨hr0, hr1, w0, w1, hp0, hp1, a0, a1, h0, h1, he⟩ => ?_
  have n0 : Near s r.1.1 (fun i => (a0 i : ℂ)) (ksErr n (weight s)) := ⟨hr0, w0, hp0, h0⟩
  have n1 : Near s r.1.2 (fun i => (a1 i : ℂ)) (ksErr n (weight s)) := ⟨hr1, w1, hp1, h1⟩
  refine Ok.bind (n0.rs (show Q0 ≤ LOGQ by omega) hs R_Q_square.setzero) fun c0 hc0 => ?_
  refine Ok.bind (n1.rs (show Q0 ≤ LOGQ by omega) hs R_Q_square.setzero) fun c1 hc1 => Ok.pure ?_
  have hsub : LOGQ - Q0 = LD * (n/G) := by rw [hQ0, Nat.add_sub_cancel_left, mul_comm]
  rw [hsub, pow_mul, pow_mul] at hc0 hc1
  have hC : (0:ℝ) < (2^LD)^(n/G) := by positivity
  have hc : ∀ {x b : ℝ} {e : ℝ}, |x - (2^LD)^(n/G) * b| ≤ e → |x / (2^LD)^(n/G) - b| ≤ e / (2^LD)^(n/G) := by
    intro x b e hx
    have e1 : x / (2^LD)^(n/G) - b = (x - (2^LD)^(n/G) * b) / (2^LD)^(n/G) := by field_simp
    rw [e1, abs_div, abs_of_pos hC]
    exact div_le_div_of_nonneg_right hx hC.le
  refine ⟨unPair n fun i => ⟨a0 i / (2^LD)^(n/G), a1 i / (2^LD)^(n/G)⟩, ?_, ?_, ?_⟩
  · refine lo_hi (fun i => ?_) (fun i => ?_)
    · rw [unPair_lo]; exact hc (he Z hZ i).1
    · rw [unPair_hi]; exact hc (he Z hZ i).2
  · refine hc0.mono (fun i => ?_) le_rfl
    rw [unPair_lo]; push_cast; rfl
  · refine hc1.mono (fun i => ?_) le_rfl
    rw [unPair_hi]; push_cast; rfl

/-! ## SlotToCoeff and rescaling -/

theorem stcF_coeff {L : Libm} (hLib : L.Accurate) (R LD : Nat) (hL : LD < 63) (hQ : GoodQ LOGQ) (hLQ : LD + 2 < LOGQ) (hn1 : 1 ≤ n) (hn : n ≤ 16)
    {s : Fin (2^(n+1)) → Int} (hs : Ternary s) {G : Nat} (hG1 : 1 ≤ G) (hG : G ≤ 4) (hD : n % G = 0)
    {c0 c1 : R_Q_square LOGQ (2^(n+1))} {f : Fin (2^(n+1)) → ℝ} {ε X : ℝ}
    (h0 : Near s c0 (fun i => (f (loIdx i) : ℂ)) ε) (h1 : Near s c1 (fun i => (f (hiIdx i) : ℂ)) ε)
    (hX : ∀ k, |f k| ≤ X) {QS : Nat} [NeZero QS] (hQS : LOGQ = QS + n/G * LD) (ω : Rng) :
    Ok (do
      let r ← SlotToCoeffF (LOGN := n+1) L R LD G c0 c1 s ω
      let c : R_Q_square QS (2^(n+1)) ← RS r.1 R_Q_square.setzero
      pure (c, r.2)) fun p => p.1.Canonical ∧ ∃ w : Fin (2^(n+1)) → Int, R_Q_square.phase s p.1 = red QS w ∧
        ∀ k, |(w k : ℝ) - f k| ≤ stcErrF n (weight s) G (2^LD) (X + ε) + 2 * ε := by
  obtain ⟨hc0, w0, hp0, he0⟩ := h0
  obtain ⟨hc1, w1, hp1, he1⟩ := h1
  have key : Ok (SlotToCoeffF (LOGN := n+1) L R LD G c0 c1 s ω) _ :=
    Ok.bind (stcTableF_spec hLib (by omega)) fun T hT =>
      stcWithF_coeff hLib R LD hL hQ.one hQ.two hn1 hn hs hT.1 hT.2 hG1 hG hD hLQ hc0 hc1
        hp0 hp1 ω
  refine Ok.bind key fun r ⟨hr, w, hp, he⟩ => ?_
  refine Ok.bind (rs_coeff (show QS ≤ LOGQ by omega) hs hr hp R_Q_square.setzero) fun c ⟨hc, v, hv, hve⟩ =>
    Ok.pure ⟨hc, v, hv, fun k => ?_⟩
  have hsub : LOGQ - QS = LD * (n/G) := by rw [hQS, Nat.add_sub_cancel_left, mul_comm]
  rw [hsub, pow_mul] at hve
  have hC : (0:ℝ) < (2^LD)^(n/G) := by positivity
  have hsz : ∀ {x : ℂ} {y : ℝ}, ‖x - (y:ℂ)‖ ≤ ε → |y| ≤ X → ‖x‖ ≤ X + ε := by
    intro x y g1 g2
    have g3 := norm_sub_norm_le x (y:ℂ)
    rw [Complex.norm_real, Real.norm_eq_abs] at g3
    linarith
  have h2 := he f (X + ε) ε (fun i => hsz (he0 i) (hX _)) (fun i => hsz (he1 i) (hX _)) he0 he1 k
  have h3 : |(w k : ℝ) / (2^LD)^(n/G) - f k| ≤ 2 * grpErrF n (weight s) G 2 1 (2^LD) (X + ε) / (2^LD)^(n/G) + 2 * ε := by
    have e1 : (w k : ℝ) / (2^LD)^(n/G) - f k = ((w k : ℝ) - (2^LD)^(n/G) * f k) / (2^LD)^(n/G) := by field_simp
    rw [e1, abs_div, abs_of_pos hC]
    refine (div_le_div_of_nonneg_right h2 hC.le).trans (le_of_eq ?_)
    field_simp
  have h4 := abs_sub_le (v k : ℝ) ((w k : ℝ) / (2^LD)^(n/G)) (f k)
  have h5 := hve k
  unfold stcErrF
  linarith

/-! ## EvalMod -/

section
variable {Q0 Q1 Q2 Q3 Q4 Q5 Q6 Q7 Q8 Q9 Q10 Q11 Q12 : Nat} [NeZero Q0] [NeZero Q1] [NeZero Q2] [NeZero Q3] [NeZero Q4] [NeZero Q5] [NeZero Q6]
  [NeZero Q7] [NeZero Q8] [NeZero Q9] [NeZero Q10] [NeZero Q11] [NeZero Q12]

theorem evalModF_reduce (R : Nat) {LD : Nat} (hD : LD < 62) (hn : n ≤ 16)
    (hC : EvalModChain LD Q0 Q1 Q2 Q3 Q4 Q5 Q6 Q7 Q8 Q9 Q10 Q11 Q12)
    (hlo : 65 ≤ Q11) (hhi : Q1 ≤ 1525) {s : Fin (2^(n+1)) → Int} (hs : Ternary s)
    {ct : R_Q_square Q0 (2^(n+1))} {a : Fin (2^n) → ℝ} {I : Fin (2^n) → ℤ} {ε η : ℝ}
    (hct : Near s ct (fun i => (a i : ℂ)) ε)
    (hy : ∀ i, -95/4 * 2^LD ≤ a i ∧ a i ≤ 97/4 * 2^LD) (hη : ∀ i, |a i - 2^LD * I i| ≤ η) (ω : Rng) :
    Ok (EvalModKeyF R LD 24 Q1 Q2 Q3 Q4 Q5 Q6 Q7 Q8 Q9 Q10 Q11 Q12 ct s ω) fun p =>
      Near s p.1 (fun i => ((a i - 2^LD * I i : ℝ) : ℂ))
        (evalModErrF n (weight s) (2^LD) 24 ε + 2^LD * (117 * (η / 2^LD)^5)) := by
  have hp : (0:ℝ) < 2^LD := by positivity
  have hb : ∀ i, |(4 * (a i / 2^LD) - 1) / (4 * ((24 : ℤ) : ℝ))| ≤ 1 := by
    intro i
    obtain ⟨h1, h2⟩ := hy i
    have g1 : -95/4 ≤ a i / 2^LD := by rw [le_div_iff₀ hp]; exact h1
    have g2 : a i / 2^LD ≤ 97/4 := by rw [div_le_iff₀ hp]; exact h2
    push_cast
    rw [abs_le]
    constructor
    · rw [le_div_iff₀ (by norm_num)]; linarith
    · rw [div_le_iff₀ (by norm_num)]; linarith
  have hct' : Near s ct (fun i => 2^LD * ((a i / 2^LD : ℝ) : ℂ)) ε := by
    refine hct.mono (fun i => ?_) le_rfl
    push_cast
    field_simp
  refine Ok.mono (EvalModKeyF_near R hD hn hC hlo hhi hs (K := 24) (by norm_num) (by norm_num) hct' hb ω) fun p hp' => ?_
  obtain ⟨g1, w, g2, g3⟩ := hp'
  refine ⟨g1, w, g2, fun i => ?_⟩
  have h1 := g3 i
  dsimp only at h1 ⊢
  set e : ℝ := a i / 2^LD - I i with he
  have e1 : Real.cos (12 * Real.pi * (4 * (a i / 2^LD) - 1) / ((24 : ℤ) : ℝ)) = Real.sin (2 * Real.pi * e) := by
    have : 12 * Real.pi * (4 * (a i / 2^LD) - 1) / ((24 : ℤ) : ℝ) = (2 * Real.pi * e - Real.pi / 2) + I i * (2 * Real.pi) := by
      rw [he]; push_cast; ring
    rw [this, Real.cos_add_int_mul_two_pi, Real.cos_sub_pi_div_two]
  rw [e1] at h1
  have h2 := asin3_sin e
  have e2 : ((a i - 2^LD * I i : ℝ) : ℂ) = 2^LD * (e : ℂ) := by
    rw [he]; push_cast; field_simp
  rw [e2]
  have h3 : ‖(2:ℂ)^LD * ((asin3 (Real.sin (2 * Real.pi * e)) : ℝ) : ℂ) - 2^LD * (e : ℂ)‖ ≤
      2^LD * (3/40 * (2 * Real.pi)^4 * |e|^5) := by
    rw [← mul_sub, norm_mul, norm_pow, Complex.norm_ofNat, ← Complex.ofReal_sub, Complex.norm_real]
    exact mul_le_mul_of_nonneg_left h2 (by positivity)
  have h4 := norm_sub_le_norm_sub_add_norm_sub (slots n w i)
    ((2:ℂ)^LD * ((asin3 (Real.sin (2 * Real.pi * e)) : ℝ) : ℂ)) (2^LD * (e : ℂ))
  have h5 : |e| ≤ η / 2^LD := by
    have e3 : e = (a i - 2^LD * I i) / 2^LD := by rw [he]; field_simp
    rw [e3, abs_div, abs_of_pos hp]
    exact div_le_div_of_nonneg_right (hη i) hp.le
  have h6 : 3/40 * (2 * Real.pi)^4 * |e|^5 ≤ 117 * (η / 2^LD)^5 := by
    have g1 := Real.pi_lt_d4
    have g2 : (2 * Real.pi)^4 ≤ (2 * 3.1416)^4 := by gcongr
    have g3 : 3/40 * (2 * Real.pi)^4 ≤ 117 := by
      calc 3/40 * (2 * Real.pi)^4 ≤ 3/40 * (2 * 3.1416)^4 := by gcongr
        _ ≤ 117 := by norm_num
    exact mul_le_mul g3 (pow_le_pow_left₀ (abs_nonneg _) h5 5) (by positivity) (by norm_num)
  have h7 := mul_le_mul_of_nonneg_left h6 hp.le
  push_cast at h1
  linarith

/-! ## the whole pipeline -/

variable {QT : Nat} [NeZero QT]

theorem bootToEvalModF_near {L : LibmP} (hLib : L.Accurate) (R LDc : Nat) {LD : Nat} [NeZero LD] (hLc : LDc < 63) (hLQ : LDc + 2 < QT) (hQT : GoodQ QT)
    (hD : LD < 62) (hn1 : 1 ≤ n) (hn : n ≤ 16) {G : Nat} (hG1 : 1 ≤ G) (hG : G ≤ 4) (hG' : n % G = 0)
    (hQ0 : QT = Q0 + n/G * LDc)
    (hC : EvalModChain LD Q0 Q1 Q2 Q3 Q4 Q5 Q6 Q7 Q8 Q9 Q10 Q11 Q12)
    (hlo : 65 ≤ Q11) (hhi : Q1 ≤ 1525) {s : Fin (2^(n+1)) → Int} (hs : Ternary s)
    {ct : R_Q_square LD (2^(n+1))} {m I : Fin (2^(n+1)) → Int}
    (hm : R_Q_square.phase s (mod_raise QT ct) = red QT fun k => m k + 2^LD * I k)
    {Z B : ℝ} (hZ : ∀ i, ‖slots n (fun k => m k + 2^LD * I k) i‖ ≤ Z) (hB : ∀ k, |(m k : ℝ)| ≤ B)
    (hr : ∀ k, -95/4 * 2^LD + ctsErrF n (weight s) G (2^LDc) Z ≤ ((m k + 2^LD * I k : ℤ) : ℝ) ∧
      ((m k + 2^LD * I k : ℤ) : ℝ) ≤ 97/4 * 2^LD - ctsErrF n (weight s) G (2^LDc) Z) (ω : Rng) :
    Ok (bootToEvalModF (LOGN := n+1) L R LDc LD G 24 QT Q0 Q1 Q2 Q3 Q4 Q5 Q6 Q7 Q8 Q9 Q10 Q11 Q12 ct s ω) fun b =>
      b.ct_modraise = mod_raise QT ct ∧ ∃ e : Fin (2^(n+1)) → ℝ,
        (∀ k, |e k - m k| ≤ ctsErrF n (weight s) G (2^LDc) Z) ∧
        Near s b.ct_ctsrs0 (fun i => ((e (loIdx i) + 2^LD * I (loIdx i) : ℝ) : ℂ)) (ctsNoise n (weight s) G (2^LDc)) ∧
        Near s b.ct_ctsrs1 (fun i => ((e (hiIdx i) + 2^LD * I (hiIdx i) : ℝ) : ℂ)) (ctsNoise n (weight s) G (2^LDc)) ∧
        Near s b.ct_evalmod0 (fun i => (e (loIdx i) : ℂ)) (modErrF n (weight s) G (2^LDc) (2^LD) Z B) ∧
        Near s b.ct_evalmod1 (fun i => (e (hiIdx i) : ℂ)) (modErrF n (weight s) G (2^LDc) (2^LD) Z B) := by
  have hcan : (mod_raise QT ct).Canonical := ⟨fun i => canonical_resize _, fun i => canonical_resize _⟩
  obtain ⟨⟨c0, c1, ω1⟩, hrun, a, ha, n0, n1⟩ := ctsF_near hLib R LDc hLc hQT hLQ hn1 hn hs hG1 hG hG' hcan hm hZ (Q0 := Q0) hQ0 ω
  simp only [] at n0 n1
  unfold bootToEvalModF
  obtain ⟨r, e1, hrun⟩ := bind_eq_pure hrun
  obtain ⟨c0', e2, hrun⟩ := bind_eq_pure hrun
  obtain ⟨c1', e3, hrun⟩ := bind_eq_pure hrun
  have hinj := pure_inj hrun
  simp only [Prod.mk.injEq] at hinj
  obtain ⟨rfl, rfl, rfl⟩ := hinj
  simp only []
  rw [e1, pure_bind, e2, pure_bind, e3, pure_bind]
  have hy : ∀ k, -95/4 * 2^LD ≤ a k ∧ a k ≤ 97/4 * 2^LD := by
    intro k
    have h1 := abs_le.1 (ha k)
    have h2 := hr k
    constructor <;> linarith [h1.1, h1.2, h2.1, h2.2]
  have hη : ∀ k, |a k - 2^LD * I k - m k| ≤ ctsErrF n (weight s) G (2^LDc) Z := by
    intro k
    have := ha k
    push_cast at this
    have e : a k - 2^LD * I k - m k = a k - (m k + 2^LD * I k) := by ring
    rw [e]; exact this
  have hη' : ∀ k, |a k - 2^LD * I k| ≤ B + ctsErrF n (weight s) G (2^LDc) Z := by
    intro k
    have h1 := hη k
    have h2 := hB k
    have h3 := abs_sub_abs_le_abs_sub (a k - 2^LD * I k) (m k : ℝ)
    linarith
  refine Ok.bind (evalModF_reduce R hD hn hC hlo hhi hs (I := fun i => I (loIdx i)) n0 (fun i => hy _) (fun i => hη' _) r.2) fun p0 h0 => ?_
  refine Ok.bind (evalModF_reduce R hD hn hC hlo hhi hs (I := fun i => I (hiIdx i)) n1 (fun i => hy _) (fun i => hη' _) p0.2) fun p1 h1 => ?_
  refine Ok.pure ⟨rfl, fun k => a k - 2^LD * I k, hη, ?_, ?_, h0, h1⟩
  · exact n0.mono (fun i => by push_cast; ring) le_rfl
  · exact n1.mono (fun i => by push_cast; ring) le_rfl

theorem bootConvTailF_coeff {L : Libm} (hLib : L.Accurate) (R LDs : Nat) {LD : Nat} (hLs : LDs < 63) (hLQ : LDs + 2 < Q12) (hQ : GoodQ Q12)
    (hn1 : 1 ≤ n) (hn : n ≤ 16) {G : Nat} (hG1 : 1 ≤ G) (hG : G ≤ 4) (hG' : n % G = 0)
    {QS : Nat} [NeZero QS] (hQS : Q12 = QS + n/G * LDs) {s : Fin (2^(n+1)) → Int} (hs : Ternary s)
    {b : BootState (n+1) QT Q0 Q12} {m : Fin (2^(n+1)) → Int} {C Z B : ℝ} (hB : ∀ k, |(m k : ℝ)| ≤ B)
    {e : Fin (2^(n+1)) → ℝ} (he : ∀ k, |e k - m k| ≤ ctsErrF n (weight s) G C Z)
    (h0 : Near s b.ct_evalmod0 (fun i => (e (loIdx i) : ℂ)) (modErrF n (weight s) G C (2^LD) Z B))
    (h1 : Near s b.ct_evalmod1 (fun i => (e (hiIdx i) : ℂ)) (modErrF n (weight s) G C (2^LD) Z B)) :
    Ok (bootConvTailF L R LDs G QS b s) fun p => p.1.Canonical ∧ ∃ w : Fin (2^(n+1)) → Int,
      R_Q_square.phase s p.1 = red QS w ∧
        ∀ k, |(w k : ℝ) - m k| ≤ convErrF n (weight s) G C (2^LD) (2^LDs) Z B := by
  have hX : ∀ k, |e k| ≤ B + ctsErrF n (weight s) G C Z := by
    intro k
    have g1 := he k
    have g2 := hB k
    have g3 := abs_sub_abs_le_abs_sub (e k) (m k : ℝ)
    linarith
  unfold bootConvTailF
  refine Ok.mono (stcF_coeff hLib R LDs hLs hQ hLQ hn1 hn hs hG1 hG hG' h0 h1 hX (QS := QS) hQS b.ω) fun p ⟨hp, w, hw, hk⟩ =>
    ⟨hp, w, hw, fun k => ?_⟩
  have g1 := hk k
  have g2 := he k
  have g3 := abs_sub_le (w k : ℝ) (e k) (m k)
  unfold convErrF
  linarith

theorem bootPropTailF_coeff {L : Libm} (hLib : L.Accurate) (R LDs : Nat) {LD : Nat} (hLs : LDs < 63) (hLQ : LDs + 2 < Q12) (hQ : GoodQ Q12)
    (hn1 : 1 ≤ n) (hn : n ≤ 16) {G : Nat} (hG1 : 1 ≤ G) (hG : G ≤ 4) (hG' : n % G = 0)
    {QS : Nat} [NeZero QS] (hQS : Q12 = QS + n/G * LDs) (hQ12 : Q12 ≤ Q0) (hQT : QS ≤ QT)
    {s : Fin (2^(n+1)) → Int} (hs : Ternary s)
    {b : BootState (n+1) QT Q0 Q12} {m I : Fin (2^(n+1)) → Int} {C Z B : ℝ}
    (hI : ∀ k, |(I k : ℝ)| ≤ 25) (hbc : b.ct_modraise.Canonical)
    (hm : R_Q_square.phase s b.ct_modraise = red QT fun k => m k + 2^LD * I k)
    {e : Fin (2^(n+1)) → ℝ}
    (c0 : Near s b.ct_ctsrs0 (fun i => ((e (loIdx i) + 2^LD * I (loIdx i) : ℝ) : ℂ)) (ctsNoise n (weight s) G C))
    (c1 : Near s b.ct_ctsrs1 (fun i => ((e (hiIdx i) + 2^LD * I (hiIdx i) : ℝ) : ℂ)) (ctsNoise n (weight s) G C))
    (h0 : Near s b.ct_evalmod0 (fun i => (e (loIdx i) : ℂ)) (modErrF n (weight s) G C (2^LD) Z B))
    (h1 : Near s b.ct_evalmod1 (fun i => (e (hiIdx i) : ℂ)) (modErrF n (weight s) G C (2^LD) Z B)) :
    Ok (bootPropTailF L R LDs G QS b s) fun p => p.1.Canonical ∧ ∃ w : Fin (2^(n+1)) → Int,
      R_Q_square.phase s p.1 = red QS w ∧
        ∀ k, |(w k : ℝ) - m k| ≤ propErrF n (weight s) G C (2^LD) (2^LDs) Z B := by
  have d0 := ((c0.resize hQ12).sub h0).mono (y := fun i => ((2^LD * I (loIdx i) : ℝ) : ℂ)) (fun i => by push_cast; ring) le_rfl
  have d1 := ((c1.resize hQ12).sub h1).mono (y := fun i => ((2^LD * I (hiIdx i) : ℝ) : ℂ)) (fun i => by push_cast; ring) le_rfl
  have hX : ∀ k, |(2:ℝ)^LD * I k| ≤ 25 * 2^LD := by
    intro k
    rw [abs_mul, abs_of_nonneg (a := (2:ℝ)^LD) (by positivity), mul_comm]
    exact mul_le_mul_of_nonneg_right (hI k) (by positivity)
  unfold bootPropTailF
  obtain ⟨⟨c, ω'⟩, hrun, hc, w, hw, hk⟩ := stcF_coeff hLib R LDs hLs hQ hLQ hn1 hn hs hG1 hG hG' (f := fun k => 2^LD * (I k : ℝ)) d0 d1 hX (QS := QS) hQS b.ω
  obtain ⟨r, e1, hrun⟩ := bind_eq_pure hrun
  obtain ⟨c', e2, hrun⟩ := bind_eq_pure hrun
  have hinj := pure_inj hrun
  simp only [Prod.mk.injEq] at hinj
  obtain ⟨rfl, rfl⟩ := hinj
  simp only [] at hw
  simp only []
  rw [e1, pure_bind, e2, pure_bind]
  obtain ⟨g1, g2⟩ := resize_phase (LT := QS) hQT hbc hm
  refine Ok.pure ⟨⟨R_Q.canonical_sub _ _, R_Q.canonical_sub _ _⟩, (fun k => m k + 2^LD * I k) - w, ?_, fun k => ?_⟩
  · simp only []; rw [phase_sub, g2, hw, red_sub]
  · have h5 := hk k
    rw [abs_sub_comm] at h5
    simp only [Pi.sub_apply]
    push_cast
    have e3 : (m k : ℝ) + 2^LD * I k - w k - m k = 2^LD * I k - w k := by ring
    rw [e3]
    unfold propErrF
    exact h5

end
end EvalRound

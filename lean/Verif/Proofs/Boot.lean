import Verif.Spec.Boot
import Verif.Model.Boot
import Verif.Proofs.EvalMod

/-! # Bootstrapping -/

namespace EvalRound
open Z_Q Finset

variable {LOGQ n : Nat} [NeZero LOGQ]

/-! ## more on `Near` -/

theorem Near.sub {s : Fin (2^(n+1)) → Int} {c d : R_Q_square LOGQ (2^(n+1))} {x y : Fin (2^n) → ℂ} {ε δ : ℝ}
    (hc : Near s c x ε) (hd : Near s d y δ) : Near s (R_Q_square.sub c d) (fun i => x i - y i) (ε + δ) := by
  obtain ⟨_, w, h2, h3⟩ := hc
  obtain ⟨_, v, g2, g3⟩ := hd
  refine ⟨⟨R_Q.canonical_sub c.1 d.1, R_Q.canonical_sub c.2 d.2⟩, w - v, ?_, fun i => ?_⟩
  · rw [phase_sub, h2, g2, red_sub]
  · rw [slots_sub]
    have e : slots n w i - slots n v i - (x i - y i) = (slots n w i - x i) - (slots n v i - y i) := by ring
    rw [e]
    exact (norm_sub_le _ _).trans (add_le_add (h3 i) (g3 i))

/-- reducing to a smaller modulus keeps the message -/
theorem resize_phase {N LF LT : Nat} [NeZero LF] [NeZero LT] (hl : LT ≤ LF) {c : R_Q_square LF N} (hc : c.Canonical)
    {s w : Fin N → Int} (hw : R_Q_square.phase s c = red LF w) :
    (R_Q_square.resize LT c).Canonical ∧ R_Q_square.phase s (R_Q_square.resize LT c) = red LT w := by
  refine ⟨⟨fun i => canonical_resize _, fun i => canonical_resize _⟩, ?_⟩
  have h1 : R_Q.cls (R_Q_square.resize LT c).1 = red LT (R_Q.sval c.1) := funext fun i => cls_resize (hc.1 i)
  have h2 : R_Q.cls (R_Q_square.resize LT c).2 = red LT (R_Q.sval c.2) := funext fun i => cls_resize (hc.2 i)
  rw [phase_eq, h1, h2, ← red_negconv, ← red_add]
  rw [phase_eq, cls_red_sval, cls_red_sval, ← red_negconv, ← red_add] at hw
  funext i
  have := congrFun hw i
  simp only [red] at this ⊢
  rw [ZMod.intCast_eq_intCast_iff_dvd_sub] at this ⊢
  refine dvd_trans ?_ this
  push_cast
  exact pow_dvd_pow _ hl

theorem Near.resize {LF LT : Nat} [NeZero LF] [NeZero LT] (hl : LT ≤ LF) {s : Fin (2^(n+1)) → Int}
    {c : R_Q_square LF (2^(n+1))} {x : Fin (2^n) → ℂ} {ε : ℝ} (hc : Near s c x ε) :
    Near s (R_Q_square.resize LT c) x ε := by
  obtain ⟨h1, w, h2, h3⟩ := hc
  exact ⟨(resize_phase hl h1 h2).1, w, (resize_phase hl h1 h2).2, h3⟩

/-- rescaling, coefficient by coefficient -/
theorem rs_coeff {LF LT : Nat} [NeZero LF] [NeZero LT] (hl : LT ≤ LF) {s : Fin (2^(n+1)) → Int} (hs : Ternary s)
    {c : R_Q_square LF (2^(n+1))} (h1 : c.Canonical) {w : Fin (2^(n+1)) → Int} (h2 : R_Q_square.phase s c = red LF w)
    (ct0 : R_Q_square LT (2^(n+1))) :
    Ok (RS c ct0) fun y => y.Canonical ∧ ∃ v : Fin (2^(n+1)) → Int, R_Q_square.phase s y = red LT v ∧
      ∀ k, |(v k : ℝ) - w k / 2^(LF-LT)| ≤ ((weight s : ℝ) + 1) / 2 := by
  refine Ok.mono (RS_phase hl c h1 ct0 s) fun y ⟨hy, hp⟩ => ⟨hy, ?_⟩
  obtain ⟨m, hm⟩ := red_surj (R_Q_square.phase s y)
  obtain ⟨E, hE, hmE⟩ := hp m hm
  rw [h2, ← red_add] at hmE
  have hd : ∀ k, ∃ t : Int, (2:Int)^(LF-LT) * m k = w k + E k + 2^LF * t := by
    intro k
    have := congrFun hmE k
    simp only [red] at this
    rw [ZMod.intCast_eq_intCast_iff_dvd_sub] at this
    obtain ⟨t, ht⟩ := this
    refine ⟨-t, ?_⟩
    simp only [Pi.smul_apply, smul_eq_mul, Pi.add_apply] at ht
    push_cast at ht
    linarith
  choose t ht using hd
  have e2 : (2:Int)^LF = 2^(LF-LT) * 2^LT := by rw [← pow_add]; congr 1; omega
  refine ⟨fun k => m k - 2^LT * t k, ?_, fun k => ?_⟩
  · rw [← hm]
    funext k
    have h0 : ((2:ZMod (2^LT))^LT) = 0 := by
      have := ZMod.natCast_self (2^LT)
      push_cast at this
      exact this
    simp only [red]
    push_cast
    rw [h0]; ring
  · have h4 : (2:Int)^(LF-LT) * (m k - 2^LT * t k) = w k + E k := by
      have := ht k
      rw [e2] at this
      linarith
    have h5 : (2:ℝ)^(LF-LT) * ((m k - 2^LT * t k : ℤ) : ℝ) = w k + E k := by exact_mod_cast h4
    have hpos : (0:ℝ) < 2^(LF-LT) := by positivity
    have e5 : ((m k - 2^LT * t k : ℤ) : ℝ) - w k / 2^(LF-LT) = E k / 2^(LF-LT) := by
      field_simp
      linarith
    rw [e5, abs_div, abs_of_pos hpos, div_le_iff₀ hpos]
    have h6 := hE k
    rw [hs.sum_abs] at h6
    have h7 : (2 * |(E k : ℝ)|) ≤ 2^(LF-LT) * ((weight s : ℝ) + 1) := by exact_mod_cast h6
    linarith

/-! ## the two halves in bit reversed order -/

/-- the coefficient in slot `i` of the first ciphertext -/
def loIdx (i : Fin (2^n)) : Fin (2^(n+1)) :=
  ⟨bitRev n i, by have := bitRev_lt n i.val; rw [pow_succ]; omega⟩

/-- the coefficient in slot `i` of the second ciphertext -/
def hiIdx (i : Fin (2^n)) : Fin (2^(n+1)) :=
  ⟨bitRev n i + 2^n, by have := bitRev_lt n i.val; rw [pow_succ]; omega⟩

theorem lo_hi {P : Fin (2^(n+1)) → Prop} (h0 : ∀ i : Fin (2^n), P (loIdx i)) (h1 : ∀ i : Fin (2^n), P (hiIdx i))
    (k : Fin (2^(n+1))) : P k := by
  by_cases hk : k.val < 2^n
  · have e : k = loIdx ⟨bitRev n k, bitRev_lt n k⟩ := Fin.ext (bitRev_bitRev hk).symm
    rw [e]; exact h0 _
  · have hp : 2^(n+1) = 2^n + 2^n := by rw [pow_succ]; ring
    have hk2 : k.val - 2^n < 2^n := by have := k.isLt; omega
    have e : k = hiIdx ⟨bitRev n (k - 2^n), bitRev_lt n _⟩ :=
      Fin.ext (show k.val = bitRev n (bitRev n (k - 2^n)) + 2^n by rw [bitRev_bitRev hk2]; omega)
    rw [e]; exact h1 _

theorem unPair_lo (x : Fin (2^n) → ℂ) (i : Fin (2^n)) : unPair n x (loIdx i) = (x i).re :=
  congrArg Complex.re (congrFun (brvPair_unPair x) i)

theorem unPair_hi (x : Fin (2^n) → ℂ) (i : Fin (2^n)) : unPair n x (hiIdx i) = (x i).im :=
  congrArg Complex.im (congrFun (brvPair_unPair x) i)

/-! ## CoeffToSlot and rescaling -/

theorem cts_near (R LD : Nat) (hL : LD < 63) (hQ : GoodQ LOGQ) (hLQ : LD + 1 < LOGQ) (hn1 : 1 ≤ n) (hn : n ≤ 16)
    {s : Fin (2^(n+1)) → Int} (hs : Ternary s) {G : Nat} (hG1 : 1 ≤ G) (hG : G ≤ 4) (hD : n % G = 0)
    {ct : R_Q_square LOGQ (2^(n+1))} (hct : ct.Canonical) {m : Fin (2^(n+1)) → Int}
    (hm : R_Q_square.phase s ct = red LOGQ m) {Z : ℝ} (hZ : ∀ i, ‖slots n m i‖ ≤ Z)
    {Q0 : Nat} [NeZero Q0] (hQ0 : LOGQ = Q0 + n/G * LD) (ω : Rng) :
    Ok (do
      let r ← CoeffToSlot (LOGN := n+1) R LD G ct s ω
      let c0 : R_Q_square Q0 (2^(n+1)) ← RS r.1.1 R_Q_square.setzero
      let c1 : R_Q_square Q0 (2^(n+1)) ← RS r.1.2 R_Q_square.setzero
      pure (c0, c1, r.2)) fun p => ∃ a : Fin (2^(n+1)) → ℝ,
        (∀ k, |a k - m k| ≤ ctsErr n (weight s) G (2^LD) Z) ∧
        Near s p.1 (fun i => (a (loIdx i) : ℂ)) (ctsNoise n (weight s) G (2^LD)) ∧
        Near s p.2.1 (fun i => (a (hiIdx i) : ℂ)) (ctsNoise n (weight s) G (2^LD)) := by
  have key : Ok (CoeffToSlot (LOGN := n+1) R LD G ct s ω) _ :=
    Ok.bind (ctsTable_spec (by omega)) fun U hU =>
      ctsWith_real R LD (by omega) hQ.one hQ.two hn1 hn hs hU hG1 hG hD (two_pow_hw hL) (two_pow_hq hLQ) hct hm ω
  refine Ok.bind key fun r ⟨hr0, hr1, w0, w1, hp0, hp1, a0, a1, h0, h1, he⟩ => ?_
  have n0 : Near s r.1.1 (fun i => (a0 i : ℂ)) (ksErr n (weight s)) := ⟨hr0, w0, hp0, h0⟩
  have n1 : Near s r.1.2 (fun i => (a1 i : ℂ)) (ksErr n (weight s)) := ⟨hr1, w1, hp1, h1⟩
  refine Ok.bind (n0.rs (show Q0 ≤ LOGQ by omega) hs R_Q_square.setzero) fun c0 hc0 => ?_
  refine Ok.bind (n1.rs (show Q0 ≤ LOGQ by omega) hs R_Q_square.setzero) fun c1 hc1 => Ok.pure ?_
  have hsub : LOGQ - Q0 = LD * (n/G) := by rw [hQ0, Nat.add_sub_cancel_left, mul_comm]
  rw [hsub, pow_mul, pow_mul] at hc0 hc1
  have hC : (0:ℝ) < (2^LD)^(n/G) := by positivity
  have hc : ∀ {x b : ℝ} {e : ℝ}, |x - (2^LD)^(n/G) * b| ≤ e → |x / (2^LD)^(n/G) - b| ≤ e / (2^LD)^(n/G) := by
    intro x b e hx
    have e1 : x / (2^LD)^(n/G) - b = (x - (2^LD)^(n/G) * b) / (2^LD)^(n/G) := by field_simp
    rw [e1, abs_div, abs_of_pos hC]
    exact div_le_div_of_nonneg_right hx hC.le
  refine ⟨unPair n fun i => ⟨a0 i / (2^LD)^(n/G), a1 i / (2^LD)^(n/G)⟩, ?_, ?_, ?_⟩
  · refine lo_hi (fun i => ?_) (fun i => ?_)
    · rw [unPair_lo]; exact hc (he Z hZ i).1
    · rw [unPair_hi]; exact hc (he Z hZ i).2
  · refine hc0.mono (fun i => ?_) le_rfl
    rw [unPair_lo]; push_cast; rfl
  · refine hc1.mono (fun i => ?_) le_rfl
    rw [unPair_hi]; push_cast; rfl

/-! ## SlotToCoeff and rescaling -/

theorem stc_coeff (R LD : Nat) (hL : LD < 63) (hQ : GoodQ LOGQ) (hLQ : LD + 1 < LOGQ) (hn1 : 1 ≤ n) (hn : n ≤ 16)
    {s : Fin (2^(n+1)) → Int} (hs : Ternary s) {G : Nat} (hG1 : 1 ≤ G) (hG : G ≤ 4) (hD : n % G = 0)
    {c0 c1 : R_Q_square LOGQ (2^(n+1))} {f : Fin (2^(n+1)) → ℝ} {ε X : ℝ}
    (h0 : Near s c0 (fun i => (f (loIdx i) : ℂ)) ε) (h1 : Near s c1 (fun i => (f (hiIdx i) : ℂ)) ε)
    (hX : ∀ k, |f k| ≤ X) {QS : Nat} [NeZero QS] (hQS : LOGQ = QS + n/G * LD) (ω : Rng) :
    Ok (do
      let r ← SlotToCoeff (LOGN := n+1) R LD G c0 c1 s ω
      let c : R_Q_square QS (2^(n+1)) ← RS r.1 R_Q_square.setzero
      pure (c, r.2)) fun p => p.1.Canonical ∧ ∃ w : Fin (2^(n+1)) → Int, R_Q_square.phase s p.1 = red QS w ∧
        ∀ k, |(w k : ℝ) - f k| ≤ stcErr n (weight s) G (2^LD) (X + ε) + 2 * ε := by
  obtain ⟨hc0, w0, hp0, he0⟩ := h0
  obtain ⟨hc1, w1, hp1, he1⟩ := h1
  have key : Ok (SlotToCoeff (LOGN := n+1) R LD G c0 c1 s ω) _ :=
    Ok.bind (stcTable_spec (by omega)) fun T hT =>
      stcWith_coeff R LD (by omega) hQ.one hQ.two hn1 hn hs hT.1 hT.2 hG1 hG hD (two_pow_hw hL) (two_pow_hq hLQ) hc0 hc1
        hp0 hp1 ω
  refine Ok.bind key fun r ⟨hr, w, hp, he⟩ => ?_
  refine Ok.bind (rs_coeff (show QS ≤ LOGQ by omega) hs hr hp R_Q_square.setzero) fun c ⟨hc, v, hv, hve⟩ =>
    Ok.pure ⟨hc, v, hv, fun k => ?_⟩
  have hsub : LOGQ - QS = LD * (n/G) := by rw [hQS, Nat.add_sub_cancel_left, mul_comm]
  rw [hsub, pow_mul] at hve
  have hC : (0:ℝ) < (2^LD)^(n/G) := by positivity
  have hsz : ∀ {x : ℂ} {y : ℝ}, ‖x - (y:ℂ)‖ ≤ ε → |y| ≤ X → ‖x‖ ≤ X + ε := by
    intro x y g1 g2
    have g3 := norm_sub_norm_le x (y:ℂ)
    rw [Complex.norm_real, Real.norm_eq_abs] at g3
    linarith
  have h2 := he f (X + ε) ε (fun i => hsz (he0 i) (hX _)) (fun i => hsz (he1 i) (hX _)) he0 he1 k
  have h3 : |(w k : ℝ) / (2^LD)^(n/G) - f k| ≤ 2 * grpErr n (weight s) G 2 (2^LD) (X + ε) / (2^LD)^(n/G) + 2 * ε := by
    have e1 : (w k : ℝ) / (2^LD)^(n/G) - f k = ((w k : ℝ) - (2^LD)^(n/G) * f k) / (2^LD)^(n/G) := by field_simp
    rw [e1, abs_div, abs_of_pos hC]
    refine (div_le_div_of_nonneg_right h2 hC.le).trans (le_of_eq ?_)
    field_simp
  have h4 := abs_sub_le (v k : ℝ) ((w k : ℝ) / (2^LD)^(n/G)) (f k)
  have h5 := hve k
  unfold stcErr
  linarith

/-! ## EvalMod -/

section
variable {Q0 Q1 Q2 Q3 Q4 Q5 Q6 Q7 Q8 Q9 Q10 Q11 Q12 : Nat} [NeZero Q0] [NeZero Q1] [NeZero Q2] [NeZero Q3] [NeZero Q4] [NeZero Q5] [NeZero Q6]
  [NeZero Q7] [NeZero Q8] [NeZero Q9] [NeZero Q10] [NeZero Q11] [NeZero Q12]

theorem evalMod_reduce (R : Nat) {LD : Nat} (hD : LD < 62) (hn : n ≤ 16)
    (hC : EvalModChain LD Q0 Q1 Q2 Q3 Q4 Q5 Q6 Q7 Q8 Q9 Q10 Q11 Q12)
    (hlo : 65 ≤ Q11) (hhi : Q1 ≤ 1525) {s : Fin (2^(n+1)) → Int} (hs : Ternary s)
    {ct : R_Q_square Q0 (2^(n+1))} {a : Fin (2^n) → ℝ} {I : Fin (2^n) → ℤ} {ε η : ℝ}
    (hct : Near s ct (fun i => (a i : ℂ)) ε)
    (hy : ∀ i, -95/4 * 2^LD ≤ a i ∧ a i ≤ 97/4 * 2^LD) (hη : ∀ i, |a i - 2^LD * I i| ≤ η) (ω : Rng) :
    Ok (EvalModKey R LD 24 Q1 Q2 Q3 Q4 Q5 Q6 Q7 Q8 Q9 Q10 Q11 Q12 ct s ω) fun p =>
      Near s p.1 (fun i => ((a i - 2^LD * I i : ℝ) : ℂ))
        (evalModErr n (weight s) (2^LD) 24 ε + 2^LD * (117 * (η / 2^LD)^5)) := by
  have hp : (0:ℝ) < 2^LD := by positivity
  have hb : ∀ i, |(4 * (a i / 2^LD) - 1) / (4 * ((24 : ℤ) : ℝ))| ≤ 1 := by
    intro i
    obtain ⟨h1, h2⟩ := hy i
    have g1 : -95/4 ≤ a i / 2^LD := by rw [le_div_iff₀ hp]; exact h1
    have g2 : a i / 2^LD ≤ 97/4 := by rw [div_le_iff₀ hp]; exact h2
    push_cast
    rw [abs_le]
    constructor
    · rw [le_div_iff₀ (by norm_num)]; linarith
    · rw [div_le_iff₀ (by norm_num)]; linarith
  have hct' : Near s ct (fun i => 2^LD * ((a i / 2^LD : ℝ) : ℂ)) ε := by
    refine hct.mono (fun i => ?_) le_rfl
    push_cast
    field_simp
  refine Ok.mono (EvalModKey_near R hD hn hC hlo hhi hs (K := 24) (by norm_num) (by norm_num) hct' hb ω) fun p hp' => ?_
  obtain ⟨g1, w, g2, g3⟩ := hp'
  refine ⟨g1, w, g2, fun i => ?_⟩
  have h1 := g3 i
  dsimp only at h1 ⊢
  set e : ℝ := a i / 2^LD - I i with he
  have e1 : Real.cos (12 * Real.pi * (4 * (a i / 2^LD) - 1) / ((24 : ℤ) : ℝ)) = Real.sin (2 * Real.pi * e) := by
    have : 12 * Real.pi * (4 * (a i / 2^LD) - 1) / ((24 : ℤ) : ℝ) = (2 * Real.pi * e - Real.pi / 2) + I i * (2 * Real.pi) := by
      rw [he]; push_cast; ring
    rw [this, Real.cos_add_int_mul_two_pi, Real.cos_sub_pi_div_two]
  rw [e1] at h1
  have h2 := asin3_sin e
  have e2 : ((a i - 2^LD * I i : ℝ) : ℂ) = 2^LD * (e : ℂ) := by
    rw [he]; push_cast; field_simp
  rw [e2]
  have h3 : ‖(2:ℂ)^LD * ((asin3 (Real.sin (2 * Real.pi * e)) : ℝ) : ℂ) - 2^LD * (e : ℂ)‖ ≤
      2^LD * (3/40 * (2 * Real.pi)^4 * |e|^5) := by
    rw [← mul_sub, norm_mul, norm_pow, Complex.norm_ofNat, ← Complex.ofReal_sub, Complex.norm_real]
    exact mul_le_mul_of_nonneg_left h2 (by positivity)
  have h4 := norm_sub_le_norm_sub_add_norm_sub (slots n w i)
    ((2:ℂ)^LD * ((asin3 (Real.sin (2 * Real.pi * e)) : ℝ) : ℂ)) (2^LD * (e : ℂ))
  have h5 : |e| ≤ η / 2^LD := by
    have e3 : e = (a i - 2^LD * I i) / 2^LD := by rw [he]; field_simp
    rw [e3, abs_div, abs_of_pos hp]
    exact div_le_div_of_nonneg_right (hη i) hp.le
  have h6 : 3/40 * (2 * Real.pi)^4 * |e|^5 ≤ 117 * (η / 2^LD)^5 := by
    have g1 := Real.pi_lt_d4
    have g2 : (2 * Real.pi)^4 ≤ (2 * 3.1416)^4 := by gcongr
    have g3 : 3/40 * (2 * Real.pi)^4 ≤ 117 := by
      calc 3/40 * (2 * Real.pi)^4 ≤ 3/40 * (2 * 3.1416)^4 := by gcongr
        _ ≤ 117 := by norm_num
    exact mul_le_mul g3 (pow_le_pow_left₀ (abs_nonneg _) h5 5) (by positivity) (by norm_num)
  have h7 := mul_le_mul_of_nonneg_left h6 hp.le
  push_cast at h1
  linarith

/-! ## the whole pipeline -/

variable {QT : Nat} [NeZero QT]

theorem bootToEvalMod_near (R LDc : Nat) {LD : Nat} [NeZero LD] (hLc : LDc < 63) (hLQ : LDc + 1 < QT) (hQT : GoodQ QT)
    (hD : LD < 62) (hn1 : 1 ≤ n) (hn : n ≤ 16) {G : Nat} (hG1 : 1 ≤ G) (hG : G ≤ 4) (hG' : n % G = 0)
    (hQ0 : QT = Q0 + n/G * LDc)
    (hC : EvalModChain LD Q0 Q1 Q2 Q3 Q4 Q5 Q6 Q7 Q8 Q9 Q10 Q11 Q12)
    (hlo : 65 ≤ Q11) (hhi : Q1 ≤ 1525) {s : Fin (2^(n+1)) → Int} (hs : Ternary s)
    {ct : R_Q_square LD (2^(n+1))} {m I : Fin (2^(n+1)) → Int}
    (hm : R_Q_square.phase s (mod_raise QT ct) = red QT fun k => m k + 2^LD * I k)
    {Z B : ℝ} (hZ : ∀ i, ‖slots n (fun k => m k + 2^LD * I k) i‖ ≤ Z) (hB : ∀ k, |(m k : ℝ)| ≤ B)
    (hr : ∀ k, -95/4 * 2^LD + ctsErr n (weight s) G (2^LDc) Z ≤ ((m k + 2^LD * I k : ℤ) : ℝ) ∧
      ((m k + 2^LD * I k : ℤ) : ℝ) ≤ 97/4 * 2^LD - ctsErr n (weight s) G (2^LDc) Z) (ω : Rng) :
    Ok (bootToEvalMod (LOGN := n+1) R LDc LD G 24 QT Q0 Q1 Q2 Q3 Q4 Q5 Q6 Q7 Q8 Q9 Q10 Q11 Q12 ct s ω) fun b =>
      b.ct_modraise = mod_raise QT ct ∧ ∃ e : Fin (2^(n+1)) → ℝ,
        (∀ k, |e k - m k| ≤ ctsErr n (weight s) G (2^LDc) Z) ∧
        Near s b.ct_ctsrs0 (fun i => ((e (loIdx i) + 2^LD * I (loIdx i) : ℝ) : ℂ)) (ctsNoise n (weight s) G (2^LDc)) ∧
        Near s b.ct_ctsrs1 (fun i => ((e (hiIdx i) + 2^LD * I (hiIdx i) : ℝ) : ℂ)) (ctsNoise n (weight s) G (2^LDc)) ∧
        Near s b.ct_evalmod0 (fun i => (e (loIdx i) : ℂ)) (modErr n (weight s) G (2^LDc) (2^LD) Z B) ∧
        Near s b.ct_evalmod1 (fun i => (e (hiIdx i) : ℂ)) (modErr n (weight s) G (2^LDc) (2^LD) Z B) := by
  have hcan : (mod_raise QT ct).Canonical := ⟨fun i => canonical_resize _, fun i => canonical_resize _⟩
  obtain ⟨⟨c0, c1, ω1⟩, hrun, a, ha, n0, n1⟩ := cts_near R LDc hLc hQT hLQ hn1 hn hs hG1 hG hG' hcan hm hZ (Q0 := Q0) hQ0 ω
  simp only [] at n0 n1
  unfold bootToEvalMod
  obtain ⟨r, e1, hrun⟩ := bind_eq_pure hrun
  obtain ⟨c0', e2, hrun⟩ := bind_eq_pure hrun
  obtain ⟨c1', e3, hrun⟩ := bind_eq_pure hrun
  have hinj := pure_inj hrun
  simp only [Prod.mk.injEq] at hinj
  obtain ⟨rfl, rfl, rfl⟩ := hinj
  simp only []
  rw [e1, pure_bind, e2, pure_bind, e3, pure_bind]
  have hy : ∀ k, -95/4 * 2^LD ≤ a k ∧ a k ≤ 97/4 * 2^LD := by
    intro k
    have h1 := abs_le.1 (ha k)
    have h2 := hr k
    constructor <;> linarith [h1.1, h1.2, h2.1, h2.2]
  have hη : ∀ k, |a k - 2^LD * I k - m k| ≤ ctsErr n (weight s) G (2^LDc) Z := by
    intro k
    have := ha k
    push_cast at this
    have e : a k - 2^LD * I k - m k = a k - (m k + 2^LD * I k) := by ring
    rw [e]; exact this
  have hη' : ∀ k, |a k - 2^LD * I k| ≤ B + ctsErr n (weight s) G (2^LDc) Z := by
    intro k
    have h1 := hη k
    have h2 := hB k
    have h3 := abs_sub_abs_le_abs_sub (a k - 2^LD * I k) (m k : ℝ)
    linarith
  refine Ok.bind (evalMod_reduce R hD hn hC hlo hhi hs (I := fun i => I (loIdx i)) n0 (fun i => hy _) (fun i => hη' _) r.2) fun p0 h0 => ?_
  refine Ok.bind (evalMod_reduce R hD hn hC hlo hhi hs (I := fun i => I (hiIdx i)) n1 (fun i => hy _) (fun i => hη' _) p0.2) fun p1 h1 => ?_
  refine Ok.pure ⟨rfl, fun k => a k - 2^LD * I k, hη, ?_, ?_, h0, h1⟩
  · exact n0.mono (fun i => by push_cast; ring) le_rfl
  · exact n1.mono (fun i => by push_cast; ring) le_rfl

theorem bootConvTail_coeff (R LDs : Nat) {LD : Nat} (hLs : LDs < 63) (hLQ : LDs + 1 < Q12) (hQ : GoodQ Q12)
    (hn1 : 1 ≤ n) (hn : n ≤ 16) {G : Nat} (hG1 : 1 ≤ G) (hG : G ≤ 4) (hG' : n % G = 0)
    {QS : Nat} [NeZero QS] (hQS : Q12 = QS + n/G * LDs) {s : Fin (2^(n+1)) → Int} (hs : Ternary s)
    {b : BootState (n+1) QT Q0 Q12} {m : Fin (2^(n+1)) → Int} {C Z B : ℝ} (hB : ∀ k, |(m k : ℝ)| ≤ B)
    {e : Fin (2^(n+1)) → ℝ} (he : ∀ k, |e k - m k| ≤ ctsErr n (weight s) G C Z)
    (h0 : Near s b.ct_evalmod0 (fun i => (e (loIdx i) : ℂ)) (modErr n (weight s) G C (2^LD) Z B))
    (h1 : Near s b.ct_evalmod1 (fun i => (e (hiIdx i) : ℂ)) (modErr n (weight s) G C (2^LD) Z B)) :
    Ok (bootConvTail R LDs G QS b s) fun p => p.1.Canonical ∧ ∃ w : Fin (2^(n+1)) → Int,
      R_Q_square.phase s p.1 = red QS w ∧
        ∀ k, |(w k : ℝ) - m k| ≤ convErr n (weight s) G C (2^LD) (2^LDs) Z B := by
  have hX : ∀ k, |e k| ≤ B + ctsErr n (weight s) G C Z := by
    intro k
    have g1 := he k
    have g2 := hB k
    have g3 := abs_sub_abs_le_abs_sub (e k) (m k : ℝ)
    linarith
  unfold bootConvTail
  refine Ok.mono (stc_coeff R LDs hLs hQ hLQ hn1 hn hs hG1 hG hG' h0 h1 hX (QS := QS) hQS b.ω) fun p ⟨hp, w, hw, hk⟩ =>
    ⟨hp, w, hw, fun k => ?_⟩
  have g1 := hk k
  have g2 := he k
  have g3 := abs_sub_le (w k : ℝ) (e k) (m k)
  unfold convErr
  linarith

theorem bootPropTail_coeff (R LDs : Nat) {LD : Nat} (hLs : LDs < 63) (hLQ : LDs + 1 < Q12) (hQ : GoodQ Q12)
    (hn1 : 1 ≤ n) (hn : n ≤ 16) {G : Nat} (hG1 : 1 ≤ G) (hG : G ≤ 4) (hG' : n % G = 0)
    {QS : Nat} [NeZero QS] (hQS : Q12 = QS + n/G * LDs) (hQ12 : Q12 ≤ Q0) (hQT : QS ≤ QT)
    {s : Fin (2^(n+1)) → Int} (hs : Ternary s)
    {b : BootState (n+1) QT Q0 Q12} {m I : Fin (2^(n+1)) → Int} {C Z B : ℝ}
    (hI : ∀ k, |(I k : ℝ)| ≤ 25) (hbc : b.ct_modraise.Canonical)
    (hm : R_Q_square.phase s b.ct_modraise = red QT fun k => m k + 2^LD * I k)
    {e : Fin (2^(n+1)) → ℝ}
    (c0 : Near s b.ct_ctsrs0 (fun i => ((e (loIdx i) + 2^LD * I (loIdx i) : ℝ) : ℂ)) (ctsNoise n (weight s) G C))
    (c1 : Near s b.ct_ctsrs1 (fun i => ((e (hiIdx i) + 2^LD * I (hiIdx i) : ℝ) : ℂ)) (ctsNoise n (weight s) G C))
    (h0 : Near s b.ct_evalmod0 (fun i => (e (loIdx i) : ℂ)) (modErr n (weight s) G C (2^LD) Z B))
    (h1 : Near s b.ct_evalmod1 (fun i => (e (hiIdx i) : ℂ)) (modErr n (weight s) G C (2^LD) Z B)) :
    Ok (bootPropTail R LDs G QS b s) fun p => p.1.Canonical ∧ ∃ w : Fin (2^(n+1)) → Int,
      R_Q_square.phase s p.1 = red QS w ∧
        ∀ k, |(w k : ℝ) - m k| ≤ propErr n (weight s) G C (2^LD) (2^LDs) Z B := by
  have d0 := ((c0.resize hQ12).sub h0).mono (y := fun i => ((2^LD * I (loIdx i) : ℝ) : ℂ)) (fun i => by push_cast; ring) le_rfl
  have d1 := ((c1.resize hQ12).sub h1).mono (y := fun i => ((2^LD * I (hiIdx i) : ℝ) : ℂ)) (fun i => by push_cast; ring) le_rfl
  have hX : ∀ k, |(2:ℝ)^LD * I k| ≤ 25 * 2^LD := by
    intro k
    rw [abs_mul, abs_of_nonneg (a := (2:ℝ)^LD) (by positivity), mul_comm]
    exact mul_le_mul_of_nonneg_right (hI k) (by positivity)
  unfold bootPropTail
  obtain ⟨⟨c, ω'⟩, hrun, hc, w, hw, hk⟩ := stc_coeff R LDs hLs hQ hLQ hn1 hn hs hG1 hG hG' (f := fun k => 2^LD * (I k : ℝ)) d0 d1 hX (QS := QS) hQS b.ω
  obtain ⟨r, e1, hrun⟩ := bind_eq_pure hrun
  obtain ⟨c', e2, hrun⟩ := bind_eq_pure hrun
  have hinj := pure_inj hrun
  simp only [Prod.mk.injEq] at hinj
  obtain ⟨rfl, rfl⟩ := hinj
  simp only [] at hw
  simp only []
  rw [e1, pure_bind, e2, pure_bind]
  obtain ⟨g1, g2⟩ := resize_phase (LT := QS) hQT hbc hm
  refine Ok.pure ⟨⟨R_Q.canonical_sub _ _, R_Q.canonical_sub _ _⟩, (fun k => m k + 2^LD * I k) - w, ?_, fun k => ?_⟩
  · simp only []; rw [phase_sub, g2, hw, red_sub]
  · have h5 := hk k
    rw [abs_sub_comm] at h5
    simp only [Pi.sub_apply]
    push_cast
    have e3 : (m k : ℝ) + 2^LD * I k - w k - m k = 2^LD * I k - w k := by ring
    rw [e3]
    unfold propErr
    exact h5

end
end EvalRound

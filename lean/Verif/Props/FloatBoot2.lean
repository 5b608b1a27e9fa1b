import Verif.Proofs.FloatBoot2
import Verif.Proofs.FloatBootNum2
import Verif.Props.Boot
import Verif.Props.FloatBoot

/-!
# C80: the L2 bounds of bootstrapping in binary64

The errors of C78 are bounds slot by slot, which lose a factor `2^(n/2)` in each of the two transforms. Here the sum of the
squares of the slots is followed instead.
-/

namespace EvalRound
open Z_Q Finset

variable {n : Nat}

variable {LOGQ : Nat} [NeZero LOGQ]

/-- C80: `CoeffToSlot`, all doubles rounded to binary64, puts the coefficients of the plaintext, in bit reversed order and scaled by
`2^LOGDELTA` once per group of matrices, into the slots of its two results. -/
theorem C80_CoeffToSlot {L : LibmP} (hLib : L.Accurate) (RAND_MAX LOGDELTA : Nat) (hL : LOGDELTA < 63) (hQ : GoodQ LOGQ) (hLQ : LOGDELTA + 2 < LOGQ)
    (hn1 : 1 ≤ n) (hn : n ≤ 16) (s : Fin (2^(n+1)) → Int) (hs : ∀ k, s k = -1 ∨ s k = 0 ∨ s k = 1)
    (G : Nat) (hG1 : 1 ≤ G) (hG : G ≤ 4) (hD : n % G = 0)
    (ct : R_Q_square LOGQ (2^(n+1))) (hct : ct.Canonical) (ω : Rng) :
    Ok (do
      let m ← dec ct s
      let r ← CoeffToSlotF (LOGN := n+1) L RAND_MAX LOGDELTA G ct s ω
      let m0 ← dec r.1.1 s
      let m1 ← dec r.1.2 s
      pure (m, m0, m1)) fun p => ∀ Z e : ℝ, 0 ≤ Z → ∑ i, ‖slots n (fun k => (p.1 k).sval) i‖^2 ≤ Z^2 →
        e = 2 * grpErr2 n (univ.filter fun k => s k ≠ 0).card G (Real.sqrt 2 / 2) ((1/2)^G) (2^LOGDELTA) Z +
          ksErr n (univ.filter fun k => s k ≠ 0).card →
        (∀ k, (2^LOGDELTA)^(n/G) * |((p.1 k).sval : ℝ)| + e < 2^(LOGQ-1)) →
        ∀ (i : Fin (2^n)) (h0 : bitRev n i < 2^(n+1)) (h1 : bitRev n i + 2^n < 2^(n+1)),
          ‖slots n (fun k => (p.2.1 k).sval) i - (2^LOGDELTA)^(n/G) * ((p.1 ⟨_, h0⟩).sval : ℂ)‖ ≤ e ∧
          ‖slots n (fun k => (p.2.2 k).sval) i - (2^LOGDELTA)^(n/G) * ((p.1 ⟨_, h1⟩).sval : ℂ)‖ ≤ e := by
  have hN : 2^(n+1) ≤ 2^30 := Nat.pow_le_pow_right (by norm_num) (by omega)
  have hs' : Ternary s := hs
  refine Ok.bind (dec_spec hN hs' ct) fun m ⟨_, hm⟩ => ?_
  rw [cls_red_sval] at hm
  have key : Ok (CoeffToSlotF (LOGN := n+1) L RAND_MAX LOGDELTA G ct s ω) _ :=
    Ok.bind (ctsTableF_spec hLib hn1 (by omega)) fun U hU =>
      ctsWithF_real2 hLib.1 RAND_MAX LOGDELTA hL hQ.one hQ.two hn1 hn hs' hU hG1 hG hD hLQ hct hm.symm ω
  refine Ok.bind key fun r ⟨_, _, w0, w1, hp0, hp1, a0, a1, hv0, hv1, he⟩ => ?_
  refine Ok.bind (dec_lift hn1 hn hs' hp0) fun m0 ⟨_, hm0⟩ => ?_
  refine Ok.bind (dec_lift hn1 hn hs' hp1) fun m1 ⟨_, hm1⟩ => Ok.pure fun Z e hZ0 hZ hee hsmall i h0 h1 => ?_
  have hee' : e = 2 * grpErr2 n (weight s) G (Real.sqrt 2 / 2) ((1/2)^G) (2^LOGDELTA) Z + ksErr n (weight s) := hee
  have he' := he Z (l2_le_of_sq hZ0 hZ)
  obtain ⟨k0, hk0⟩ : ∃ k0, ∀ k, |((m k).sval : ℝ)| ≤ |((m k0).sval : ℝ)| :=
    Finite.exists_max fun k => |((m k).sval : ℝ)|
  have hsize : ∀ (w : Fin (2^(n+1)) → Int) (f a : Fin (2^n) → ℝ), (∀ i, |f i| ≤ |((m k0).sval : ℝ)|) →
      (∀ i, ‖slots n w i - (a i : ℂ)‖ ≤ ksErr n (weight s)) →
      (∀ i, |a i - (2^LOGDELTA)^(n/G) * f i| ≤ 2 * grpErr2 n (weight s) G (Real.sqrt 2 / 2) ((1/2)^G) (2^LOGDELTA) Z) →
      (∀ i, ‖slots n w i - (2^LOGDELTA)^(n/G) * (f i : ℂ)‖ ≤ e) ∧
      ∀ i, ‖slots n w i‖ ≤ (2^LOGDELTA)^(n/G) * |((m k0).sval : ℝ)| + e := by
    intro w f a hf hw ha
    have hA : ∀ i, ‖slots n w i - (2^LOGDELTA)^(n/G) * (f i : ℂ)‖ ≤ e := by
      intro i
      have g1 := norm_add_le (slots n w i - (a i : ℂ)) ((a i : ℂ) - (2^LOGDELTA)^(n/G) * (f i : ℂ))
      rw [sub_add_sub_cancel] at g1
      have g2 : ‖(a i : ℂ) - (2^LOGDELTA)^(n/G) * (f i : ℂ)‖ = |a i - (2^LOGDELTA)^(n/G) * f i| := by
        rw [← Real.norm_eq_abs, ← Complex.norm_real]; push_cast; rfl
      rw [g2] at g1
      have g3 := hw i
      have g4 := ha i
      linarith
    refine ⟨hA, fun i => ?_⟩
    have g1 := norm_sub_norm_le (slots n w i) ((2^LOGDELTA)^(n/G) * (f i : ℂ))
    rw [norm_mul, norm_pow, norm_pow, Complex.norm_ofNat, Complex.norm_real, Real.norm_eq_abs] at g1
    have g2 := mul_le_mul_of_nonneg_left (hf i) (show (0:ℝ) ≤ (2^LOGDELTA)^(n/G) by positivity)
    have g3 := hA i
    linarith
  obtain ⟨q0, z0⟩ := hsize w0 (fun i => (brvPair n (fun k => ((m k).sval : ℝ)) i).re) a0 (fun i => hk0 _) hv0 fun i => (he' i).1
  obtain ⟨q1, z1⟩ := hsize w1 (fun i => (brvPair n (fun k => ((m k).sval : ℝ)) i).im) a1 (fun i => hk0 _) hv1 fun i => (he' i).2
  have e0 := hm0 _ z0 (hsmall k0)
  have e1 := hm1 _ z1 (hsmall k0)
  simp only []
  rw [e0, e1]
  have t0 := q0 i
  have t1 := q1 i
  simp only [brvPair, pairC, R_Q.sval, Complex.ofReal_intCast] at t0 t1
  exact ⟨t0, t1⟩

/-- C80: `SlotToCoeff`, all doubles rounded to binary64, takes two ciphertexts whose slots are, up to `ε`, the two halves of the real vector
`m` in bit reversed order, to one that holds `m` scaled by `2^LOGDELTA` once per group. -/
theorem C80_SlotToCoeff {L : Libm} (hLib : L.Accurate) (RAND_MAX LOGDELTA : Nat) (hL : LOGDELTA < 63) (hQ : GoodQ LOGQ) (hLQ : LOGDELTA + 2 < LOGQ)
    (hn1 : 1 ≤ n) (hn : n ≤ 16) (s : Fin (2^(n+1)) → Int) (hs : ∀ k, s k = -1 ∨ s k = 0 ∨ s k = 1)
    (G : Nat) (hG1 : 1 ≤ G) (hG : G ≤ 4) (hD : n % G = 0)
    (ct0 ct1 : R_Q_square LOGQ (2^(n+1))) (hct0 : ct0.Canonical) (hct1 : ct1.Canonical) (ω : Rng) :
    Ok (do
      let m0 ← dec ct0 s
      let m1 ← dec ct1 s
      let r ← SlotToCoeffF (LOGN := n+1) L RAND_MAX LOGDELTA G ct0 ct1 s ω
      let m' ← dec r.1 s
      pure (m0, m1, m')) fun p => ∀ (m : Fin (2^(n+1)) → ℝ) (Z ε e : ℝ),
        0 ≤ Z →
        ∑ i, ‖slots n (fun k => (p.1 k).sval) i‖^2 ≤ Z^2 → ∑ i, ‖slots n (fun k => (p.2.1 k).sval) i‖^2 ≤ Z^2 →
        (∀ (i : Fin (2^n)) (h0 : bitRev n i < 2^(n+1)) (h1 : bitRev n i + 2^n < 2^(n+1)),
          ‖slots n (fun k => (p.1 k).sval) i - (m ⟨_, h0⟩ : ℂ)‖ ≤ ε ∧
          ‖slots n (fun k => (p.2.1 k).sval) i - (m ⟨_, h1⟩ : ℂ)‖ ≤ ε) →
        e = 2 * grpErr2 n (univ.filter fun k => s k ≠ 0).card G (Real.sqrt 2) 1 (2^LOGDELTA) Z / Real.sqrt 2 ^ n + (2^LOGDELTA)^(n/G) * (2 * ε) →
        (∀ k, (2^LOGDELTA)^(n/G) * |m k| + e < 2^(LOGQ-1)) →
        ∀ k, |((p.2.2 k).sval : ℝ) - (2^LOGDELTA)^(n/G) * m k| ≤ e := by
  have hN : 2^(n+1) ≤ 2^30 := Nat.pow_le_pow_right (by norm_num) (by omega)
  have hs' : Ternary s := hs
  refine Ok.bind (dec_spec hN hs' ct0) fun m0 ⟨_, hm0⟩ => ?_
  refine Ok.bind (dec_spec hN hs' ct1) fun m1 ⟨_, hm1⟩ => ?_
  rw [cls_red_sval] at hm0 hm1
  have key : Ok (SlotToCoeffF (LOGN := n+1) L RAND_MAX LOGDELTA G ct0 ct1 s ω) _ :=
    Ok.bind (stcTableF_spec hLib (by omega)) fun T hT =>
      stcWithF_coeff2 hLib RAND_MAX LOGDELTA hL hQ.one hQ.two hn1 hn hs' hT.1 hT.2 hG1 hG hD hLQ hct0 hct1
        hm0.symm hm1.symm ω
  refine Ok.bind key fun r ⟨_, w, hp, he⟩ => ?_
  refine Ok.bind (dec_spec hN hs' r.1) fun m' ⟨_, hm'⟩ => Ok.pure fun m Z ε e hZ hZ0 hZ1 hε hee hsmall => ?_
  have hp2 : 2^(n+1) = 2^n + 2^n := by rw [pow_succ]; ring
  have hcoef : ∀ k, |(w k : ℝ) - (2^LOGDELTA)^(n/G) * m k| ≤ e := by
    rw [hee]
    refine he m Z ε (l2_le_of_sq hZ hZ0) (l2_le_of_sq hZ hZ1) (fun i => ?_) (fun i => ?_)
    · have hb := bitRev_lt n i.val
      exact (hε i (by omega) (by omega)).1
    · have hb := bitRev_lt n i.val
      exact (hε i (by omega) (by omega)).2
  intro k
  have e1 : (m' k).sval = w k := by
    have h1 := hcoef k
    have h2 := hsmall k
    have h3 := abs_sub_abs_le_abs_sub (w k : ℝ) ((2^LOGDELTA)^(n/G) * m k)
    rw [abs_mul, abs_of_nonneg (a := ((2:ℝ)^LOGDELTA)^(n/G)) (by positivity)] at h3
    have h4 : |(w k : ℝ)| < 2^(LOGQ-1) := by linarith
    have h5 : |w k| < 2^(LOGQ-1) := by exact_mod_cast h4
    have h6 := abs_lt.1 h5
    exact sval_eq_of_cls (congrFun (hm'.trans hp) k) h6.1.le h6.2
  simp only []
  rw [e1]
  exact hcoef k

set_option exponentiation.threshold 2000 in
/-- The hypotheses of the two theorems hold for `N = 32`, four factors in two groups, a 400 bit modulus, scaling factor `2^50`,
coefficients up to `2^58` and slots whose squares sum to at most `2^124`, and the errors are smaller than those of C76. -/
example : exactLibmP.Accurate ∧ GoodQ 400 ∧ 4 % 2 = 0 ∧
    ((2:ℝ)^50)^(4/2) * 2^58 + (2 * grpErr2 4 16 2 (Real.sqrt 2 / 2) ((1/2)^2) (2^50) (2^62) + ksErr 4 16) < 2^(400-1) ∧
    ((2:ℝ)^50)^(4/2) * 2^58 + (2 * grpErr2 4 16 2 (Real.sqrt 2) 1 (2^50) (2^62) / Real.sqrt 2 ^ 4 + ((2:ℝ)^50)^(4/2) * (2 * 1000)) < 2^(400-1) ∧
    2 * grpErr2 4 16 2 (Real.sqrt 2 / 2) ((1/2)^2) (2^50) (2^62) + ksErr 4 16 < 2^122 := by
  have h1 := sqrt2_le20
  have h0 := Real.sqrt_nonneg 2
  refine ⟨exactLibmP_accurate, by unfold GoodQ; omega, by norm_num, ?_, ?_, ?_⟩ <;>
  norm_num [grpErr2, ksErr, ltSize2, ltErr2, encTol, matUlp, sqrt2_pow4, div_pow] <;> nlinarith

section
variable {LOGq QT Q0 Q1 Q2 Q3 Q4 Q5 Q6 Q7 Q8 Q9 Q10 Q11 Q12 QS : Nat} [NeZero LOGq] [NeZero QT] [NeZero Q0] [NeZero Q1] [NeZero Q2] [NeZero Q3]
  [NeZero Q4] [NeZero Q5] [NeZero Q6] [NeZero Q7] [NeZero Q8] [NeZero Q9] [NeZero Q10] [NeZero Q11] [NeZero Q12] [NeZero QS]

/-- C80: the conventional bootstrapping, all doubles rounded to binary64, of a ciphertext with modulus `2^LOGq` returns a ciphertext with modulus
`2^QS` of the same message, up to `convErr2`. `M` is the message of the raised ciphertext, which must be in the range
of EvalMod. -/
theorem C80_conventional {L : LibmP} (hLib : L.Accurate) (R LDcts LDstc G : Nat) (hLc : LDcts < 63) (hLs : LDstc < 63) (hq : LOGq < 62)
    (hn1 : 1 ≤ n) (hn : n ≤ 16) (hG1 : 1 ≤ G) (hG : G ≤ 4) (hG' : n % G = 0)
    (hQT : GoodQ QT) (hQ12 : GoodQ Q12) (hQ0 : QT = Q0 + n/G * LDcts)
    (hC : EvalModChain LOGq Q0 Q1 Q2 Q3 Q4 Q5 Q6 Q7 Q8 Q9 Q10 Q11 Q12) (hQS : Q12 = QS + n/G * LDstc)
    (hlo : 65 ≤ Q11) (hhi : Q1 ≤ 1525) (hl1 : LDcts + 2 < QT) (hl2 : LDstc + 2 < Q12)
    (s : Fin (2^(n+1)) → Int) (hs : ∀ k, s k = -1 ∨ s k = 0 ∨ s k = 1)
    (ct : R_Q_square LOGq (2^(n+1))) (hct : ct.Canonical) (m : R_Q LOGq (2^(n+1))) (hm : dec ct s = pure m)
    (M : R_Q QT (2^(n+1))) (hM : dec (mod_raise QT ct) s = pure M) (Z B : ℝ)
    (hZ0 : 0 ≤ Z) (hZ : ∑ i, ‖slots n (fun k => (M k).sval) i‖^2 ≤ Z^2) (hB : ∀ k, |((m k).sval : ℝ)| ≤ B)
    (hr : ∀ k, -95/4 * 2^LOGq + ctsErr2 n (univ.filter fun k => s k ≠ 0).card G (2^LDcts) Z ≤ ((M k).sval : ℝ) ∧
      ((M k).sval : ℝ) ≤ 97/4 * 2^LOGq - ctsErr2 n (univ.filter fun k => s k ≠ 0).card G (2^LDcts) Z)
    (hw : B + convErr2 n (univ.filter fun k => s k ≠ 0).card G (2^LDcts) (2^LOGq) (2^LDstc) Z B < 2^(QS-1)) (ω : Rng) :
    Ok (do
      let p ← bootConvF (LOGN := n+1) L R LDcts LOGq LDstc G 24 QT Q0 Q1 Q2 Q3 Q4 Q5 Q6 Q7 Q8 Q9 Q10 Q11 Q12 QS ct s ω
      dec p.1 s) fun m' => ∀ k, |((m' k).sval : ℝ) - (m k).sval| ≤
        convErr2 n (univ.filter fun k => s k ≠ 0).card G (2^LDcts) (2^LOGq) (2^LDstc) Z B := by
  have hs' : Ternary s := hs
  have hN : 2^(n+1) ≤ 2^30 := Nat.pow_le_pow_right (by norm_num) (by omega)
  have hl : LOGq ≤ QT := by
    unfold EvalModChain at hC; rw [hQ0]; omega
  obtain ⟨hp, I, hI⟩ := mod_raise_diff hN hl hs' hct hm hM
  have eM : (fun k => (M k).sval) = fun k => (m k).sval + 2^LOGq * I k := funext hI
  have hp' : R_Q_square.phase s (mod_raise QT ct) = red QT fun k => (m k).sval + 2^LOGq * I k := hp.trans (congrArg _ eM)
  rw [eM] at hZ
  have hZ' := l2_le_of_sq hZ0 hZ
  obtain ⟨b, hb, -, e, he, -, -, h0, h1⟩ := bootToEvalModF_near2 hLib R LDcts hLc hl1 hQT hq hn1 hn hG1 hG hG' hQ0 hC hlo hhi hs' hp'
    (Z := Z) (B := B) hZ' hB (fun k => by rw [← hI k]; exact hr k) ω
  obtain ⟨p, hp1, _, w, hw1, hw2⟩ := bootConvTailF_coeff2 hLib.1 R LDstc hLs hl2 hQ12 hn1 hn hG1 hG hG' (QS := QS) hQS hs' hB he h0 h1
  unfold bootConvF
  rw [hb, pure_bind, hp1, pure_bind]
  exact dec_close hN hs' hw1 hB hw2 hw

/-- C80: the proposed bootstrapping, all doubles rounded to binary64, of a ciphertext with modulus `2^LOGq` returns a ciphertext with modulus
`2^QS` of the same message, up to `propErr2`. -/
theorem C80_proposed {L : LibmP} (hLib : L.Accurate) (R LDcts LDstc G : Nat) (hLc : LDcts < 63) (hLs : LDstc < 63) (hq : LOGq < 62)
    (hn1 : 1 ≤ n) (hn : n ≤ 16) (hG1 : 1 ≤ G) (hG : G ≤ 4) (hG' : n % G = 0)
    (hQT : GoodQ QT) (hQ12 : GoodQ Q12) (hQ0 : QT = Q0 + n/G * LDcts)
    (hC : EvalModChain LOGq Q0 Q1 Q2 Q3 Q4 Q5 Q6 Q7 Q8 Q9 Q10 Q11 Q12) (hQS : Q12 = QS + n/G * LDstc)
    (hlo : 65 ≤ Q11) (hhi : Q1 ≤ 1525) (hl1 : LDcts + 2 < QT) (hl2 : LDstc + 2 < Q12)
    (s : Fin (2^(n+1)) → Int) (hs : ∀ k, s k = -1 ∨ s k = 0 ∨ s k = 1)
    (ct : R_Q_square LOGq (2^(n+1))) (hct : ct.Canonical) (m : R_Q LOGq (2^(n+1))) (hm : dec ct s = pure m)
    (M : R_Q QT (2^(n+1))) (hM : dec (mod_raise QT ct) s = pure M) (Z B : ℝ)
    (hZ0 : 0 ≤ Z) (hZ : ∑ i, ‖slots n (fun k => (M k).sval) i‖^2 ≤ Z^2) (hB : ∀ k, |((m k).sval : ℝ)| ≤ B)
    (hr : ∀ k, -95/4 * 2^LOGq + ctsErr2 n (univ.filter fun k => s k ≠ 0).card G (2^LDcts) Z ≤ ((M k).sval : ℝ) ∧
      ((M k).sval : ℝ) ≤ 97/4 * 2^LOGq - ctsErr2 n (univ.filter fun k => s k ≠ 0).card G (2^LDcts) Z)
    (hw : B + propErr2 n (univ.filter fun k => s k ≠ 0).card G (2^LDcts) (2^LOGq) (2^LDstc) Z B < 2^(QS-1)) (ω : Rng) :
    Ok (do
      let p ← bootPropF (LOGN := n+1) L R LDcts LOGq LDstc G 24 QT Q0 Q1 Q2 Q3 Q4 Q5 Q6 Q7 Q8 Q9 Q10 Q11 Q12 QS ct s ω
      dec p.1 s) fun m' => ∀ k, |((m' k).sval : ℝ) - (m k).sval| ≤
        propErr2 n (univ.filter fun k => s k ≠ 0).card G (2^LDcts) (2^LOGq) (2^LDstc) Z B := by
  have hs' : Ternary s := hs
  have hN : 2^(n+1) ≤ 2^30 := Nat.pow_le_pow_right (by norm_num) (by omega)
  have hC' := hC
  unfold EvalModChain at hC'
  have hl : LOGq ≤ QT := by rw [hQ0]; omega
  obtain ⟨hp, I, hI⟩ := mod_raise_diff hN hl hs' hct hm hM
  have eM : (fun k => (M k).sval) = fun k => (m k).sval + 2^LOGq * I k := funext hI
  have hp' : R_Q_square.phase s (mod_raise QT ct) = red QT fun k => (m k).sval + 2^LOGq * I k := hp.trans (congrArg _ eM)
  rw [eM] at hZ
  have hZ' := l2_le_of_sq hZ0 hZ
  obtain ⟨b, hb, hb1, e, he, c0, c1, h0, h1⟩ := bootToEvalModF_near2 hLib R LDcts hLc hl1 hQT hq hn1 hn hG1 hG hG' hQ0 hC hlo hhi hs' hp'
    (Z := Z) (B := B) hZ' hB (fun k => by rw [← hI k]; exact hr k) ω
  have hI25 : ∀ k, |(I k : ℝ)| ≤ 25 := by
    intro k
    have a0 := (abs_nonneg _).trans (he k)
    obtain ⟨a1, a2⟩ := hr k
    have a3 : |((m k).sval : ℝ)| ≤ 2^(LOGq-1) := by exact_mod_cast abs_sval_le (m k)
    have a4 : (2:ℝ)^LOGq = 2 * 2^(LOGq-1) := by exact_mod_cast two_mul_half LOGq
    have a5 : ((M k).sval : ℝ) = (m k).sval + 2^LOGq * I k := by exact_mod_cast hI k
    have a6 := abs_le.1 a3
    have a7 : (0:ℝ) < 2^LOGq := by positivity
    unfold weight at a0
    rw [abs_le]
    constructor
    · by_contra hcon
      push Not at hcon
      have := mul_lt_mul_of_pos_left hcon a7
      linarith [a6.1, a6.2]
    · by_contra hcon
      push Not at hcon
      have := mul_lt_mul_of_pos_left hcon a7
      linarith [a6.1, a6.2]
  obtain ⟨p, hp1, _, w, hw1, hw2⟩ := bootPropTailF_coeff2 hLib.1 R LDstc hLs hl2 hQ12 hn1 hn hG1 hG hG' (QS := QS) hQS (by omega) (by omega) hs' hI25
    (by rw [hb1]; exact ⟨fun i => canonical_resize _, fun i => canonical_resize _⟩) (by rw [hb1]; exact hp') c0 c1 h0 h1
  unfold bootPropF
  rw [hb, pure_bind, hp1, pure_bind]
  exact dec_close hN hs' hw1 hB hw2 hw

/-- C80 with the parameters of the drivers with `LOGDELTA_cts = 60` (`LOGN` 9, 13 or 17, `LOGDELTA_stc = 50`, at most 128
non-zero coefficients in the key): a message up to `2^51` is recovered up to `2^35`, `2^41` or `2^47`. -/
theorem C80_conventional_drivers {L : LibmP} (hLib : L.Accurate) (R : Nat) {G b b' : Nat} (hp : BootParam2 n G b b')
    (hQ0 : QT = Q0 + n/G * 60) (hC : EvalModChain 60 Q0 Q1 Q2 Q3 Q4 Q5 Q6 Q7 Q8 Q9 Q10 Q11 Q12) (hQS : Q12 = QS + n/G * 50)
    (hlo : 65 ≤ QS) (hhi : QT ≤ 1525)
    (s : Fin (2^(n+1)) → Int) (hs : ∀ k, s k = -1 ∨ s k = 0 ∨ s k = 1) (hh : (univ.filter fun k => s k ≠ 0).card ≤ 128)
    (ct : R_Q_square 60 (2^(n+1))) (hct : ct.Canonical) (m : R_Q 60 (2^(n+1))) (hm : dec ct s = pure m)
    (M : R_Q QT (2^(n+1))) (hM : dec (mod_raise QT ct) s = pure M) (hB : ∀ k, |(m k).sval| ≤ 2^51)
    (hr : ∀ k, -237 * 2^60 ≤ 10 * (M k).sval ∧ 10 * (M k).sval ≤ 242 * 2^60) (ω : Rng) :
    Ok (do
      let p ← bootConvF (LOGN := n+1) L R 60 60 50 G 24 QT Q0 Q1 Q2 Q3 Q4 Q5 Q6 Q7 Q8 Q9 Q10 Q11 Q12 QS ct s ω
      dec p.1 s) fun m' => ∀ k, |(m' k).sval - (m k).sval| ≤ 2^b := by
  have hn : 8 ≤ n ∧ n ≤ 16 ∧ 1 ≤ G ∧ G ≤ 4 ∧ n % G = 0 ∧ n/G = 4 ∧ b ≤ 47 := by
    rcases hp with ⟨rfl, rfl, rfl, rfl⟩ | ⟨rfl, rfl, rfl, rfl⟩ | ⟨rfl, rfl, rfl, rfl⟩ <;> norm_num
  obtain ⟨hn8, hn16, hG1, hG4, hG, hd, hb⟩ := hn
  have hC' := hC
  unfold EvalModChain at hC'
  have hc := ctsErr2_num hp hh
  have he := convErr2_num hp hh
  have hr' : ∀ k, -237/10 * 2^60 ≤ ((M k).sval : ℝ) ∧ ((M k).sval : ℝ) ≤ 242/10 * 2^60 := by
    intro k
    obtain ⟨h1, h2⟩ := hr k
    have h1' : (-237 * 2^60 : ℝ) ≤ 10 * (M k).sval := by exact_mod_cast h1
    have h2' : (10 : ℝ) * (M k).sval ≤ 242 * 2^60 := by exact_mod_cast h2
    constructor <;> linarith
  have hB' : ∀ k, |((m k).sval : ℝ)| ≤ 2^51 := fun k => by exact_mod_cast hB k
  have hb57 : (2:ℝ)^b ≤ 2^47 := pow_le_pow_right₀ (by norm_num) hb
  have hS : (2:ℝ)^64 ≤ 2^(QS-1) := pow_le_pow_right₀ (by norm_num) (by omega)
  refine Ok.mono (C80_conventional hLib (LOGq := 60) R 60 50 G (by norm_num) (by norm_num) (by norm_num) (by omega) hn16 hG1 hG4 hG
    (Or.inr (Or.inl ⟨by omega, by omega⟩)) (Or.inr (Or.inl ⟨by omega, by omega⟩)) hQ0 hC hQS (by omega) (by omega) (by omega)
    (by omega) s hs ct hct m hm M hM (Real.sqrt 2 * 2^n * (25 * 2^60)) (2^51) (by positivity)
      (sq_le_of_l2 (l2_slots_le fun k => ?_)) hB' (fun k => ?_) ?_ ω)
    fun m' hm' k => ?_
  · rw [abs_le]
    have := hr' k
    constructor <;> linarith
  · have := hr' k
    norm_num at this hc ⊢
    constructor <;> linarith
  · refine lt_of_le_of_lt (add_le_add_right he _) (lt_of_lt_of_le ?_ hS)
    exact lt_of_le_of_lt (add_le_add_right hb57 _) (by norm_num)
  · have := (hm' k).trans he
    exact_mod_cast this

/-- C80 with the parameters of the drivers with `LOGDELTA_cts = 60` (`LOGN` 9, 13 or 17, `LOGDELTA_stc = 60`, at most 128
non-zero coefficients in the key): a message up to `2^51` is recovered up to `2^35`, `2^40` or `2^45`. -/
theorem C80_proposed_drivers {L : LibmP} (hLib : L.Accurate) (R : Nat) {G b b' : Nat} (hp : BootParam2 n G b b')
    (hQ0 : QT = Q0 + n/G * 60) (hC : EvalModChain 60 Q0 Q1 Q2 Q3 Q4 Q5 Q6 Q7 Q8 Q9 Q10 Q11 Q12) (hQS : Q12 = QS + n/G * 60)
    (hlo : 65 ≤ QS) (hhi : QT ≤ 1525)
    (s : Fin (2^(n+1)) → Int) (hs : ∀ k, s k = -1 ∨ s k = 0 ∨ s k = 1) (hh : (univ.filter fun k => s k ≠ 0).card ≤ 128)
    (ct : R_Q_square 60 (2^(n+1))) (hct : ct.Canonical) (m : R_Q 60 (2^(n+1))) (hm : dec ct s = pure m)
    (M : R_Q QT (2^(n+1))) (hM : dec (mod_raise QT ct) s = pure M) (hB : ∀ k, |(m k).sval| ≤ 2^51)
    (hr : ∀ k, -237 * 2^60 ≤ 10 * (M k).sval ∧ 10 * (M k).sval ≤ 242 * 2^60) (ω : Rng) :
    Ok (do
      let p ← bootPropF (LOGN := n+1) L R 60 60 60 G 24 QT Q0 Q1 Q2 Q3 Q4 Q5 Q6 Q7 Q8 Q9 Q10 Q11 Q12 QS ct s ω
      dec p.1 s) fun m' => ∀ k, |(m' k).sval - (m k).sval| ≤ 2^b' := by
  have hn : 8 ≤ n ∧ n ≤ 16 ∧ 1 ≤ G ∧ G ≤ 4 ∧ n % G = 0 ∧ n/G = 4 ∧ b' ≤ 45 := by
    rcases hp with ⟨rfl, rfl, rfl, rfl⟩ | ⟨rfl, rfl, rfl, rfl⟩ | ⟨rfl, rfl, rfl, rfl⟩ <;> norm_num
  obtain ⟨hn8, hn16, hG1, hG4, hG, hd, hb⟩ := hn
  have hC' := hC
  unfold EvalModChain at hC'
  have hc := ctsErr2_num hp hh
  have he := propErr2_num hp hh
  have hr' : ∀ k, -237/10 * 2^60 ≤ ((M k).sval : ℝ) ∧ ((M k).sval : ℝ) ≤ 242/10 * 2^60 := by
    intro k
    obtain ⟨h1, h2⟩ := hr k
    have h1' : (-237 * 2^60 : ℝ) ≤ 10 * (M k).sval := by exact_mod_cast h1
    have h2' : (10 : ℝ) * (M k).sval ≤ 242 * 2^60 := by exact_mod_cast h2
    constructor <;> linarith
  have hB' : ∀ k, |((m k).sval : ℝ)| ≤ 2^51 := fun k => by exact_mod_cast hB k
  have hb57 : (2:ℝ)^b' ≤ 2^45 := pow_le_pow_right₀ (by norm_num) hb
  have hS : (2:ℝ)^64 ≤ 2^(QS-1) := pow_le_pow_right₀ (by norm_num) (by omega)
  refine Ok.mono (C80_proposed hLib (LOGq := 60) R 60 60 G (by norm_num) (by norm_num) (by norm_num) (by omega) hn16 hG1 hG4 hG
    (Or.inr (Or.inl ⟨by omega, by omega⟩)) (Or.inr (Or.inl ⟨by omega, by omega⟩)) hQ0 hC hQS (by omega) (by omega) (by omega)
    (by omega) s hs ct hct m hm M hM (Real.sqrt 2 * 2^n * (25 * 2^60)) (2^51) (by positivity)
      (sq_le_of_l2 (l2_slots_le fun k => ?_)) hB' (fun k => ?_) ?_ ω)
    fun m' hm' k => ?_
  · rw [abs_le]
    have := hr' k
    constructor <;> linarith
  · have := hr' k
    norm_num at this hc ⊢
    constructor <;> linarith
  · refine lt_of_le_of_lt (add_le_add_right he _) (lt_of_lt_of_le ?_ hS)
    exact lt_of_le_of_lt (add_le_add_right hb57 _) (by norm_num)
  · have := (hm' k).trans he
    exact_mod_cast this

/-- C80 without a hypothesis on the raised ciphertext: a key with at most 45 non-zero coefficients. -/
theorem C80_conventional_sparse {L : LibmP} (hLib : L.Accurate) (R : Nat) {G b b' : Nat} (hp : BootParam2 n G b b')
    (hQ0 : QT = Q0 + n/G * 60) (hC : EvalModChain 60 Q0 Q1 Q2 Q3 Q4 Q5 Q6 Q7 Q8 Q9 Q10 Q11 Q12) (hQS : Q12 = QS + n/G * 50)
    (hlo : 65 ≤ QS) (hhi : QT ≤ 1525)
    (s : Fin (2^(n+1)) → Int) (hs : ∀ k, s k = -1 ∨ s k = 0 ∨ s k = 1) (hh : (univ.filter fun k => s k ≠ 0).card ≤ 45)
    (ct : R_Q_square 60 (2^(n+1))) (hct : ct.Canonical) (m : R_Q 60 (2^(n+1))) (hm : dec ct s = pure m)
    (hB : ∀ k, |(m k).sval| ≤ 2^51) (ω : Rng) :
    Ok (do
      let p ← bootConvF (LOGN := n+1) L R 60 60 50 G 24 QT Q0 Q1 Q2 Q3 Q4 Q5 Q6 Q7 Q8 Q9 Q10 Q11 Q12 QS ct s ω
      dec p.1 s) fun m' => ∀ k, |(m' k).sval - (m k).sval| ≤ 2^b := by
  have hn : n ≤ 16 := by rcases hp with ⟨rfl, rfl, rfl, rfl⟩ | ⟨rfl, rfl, rfl, rfl⟩ | ⟨rfl, rfl, rfl, rfl⟩ <;> norm_num
  have hN : 2^(n+1) ≤ 2^30 := Nat.pow_le_pow_right (by norm_num) (by omega)
  have hq : 66 ≤ QT := by unfold EvalModChain at hC; omega
  obtain ⟨M, hM, hr⟩ := raised_range hN hq hs hh hct hm hB
  exact C80_conventional_drivers hLib R hp hQ0 hC hQS hlo hhi s hs (by omega) ct hct m hm M hM hB hr ω

/-- C80 without a hypothesis on the raised ciphertext: a key with at most 45 non-zero coefficients. -/
theorem C80_proposed_sparse {L : LibmP} (hLib : L.Accurate) (R : Nat) {G b b' : Nat} (hp : BootParam2 n G b b')
    (hQ0 : QT = Q0 + n/G * 60) (hC : EvalModChain 60 Q0 Q1 Q2 Q3 Q4 Q5 Q6 Q7 Q8 Q9 Q10 Q11 Q12) (hQS : Q12 = QS + n/G * 60)
    (hlo : 65 ≤ QS) (hhi : QT ≤ 1525)
    (s : Fin (2^(n+1)) → Int) (hs : ∀ k, s k = -1 ∨ s k = 0 ∨ s k = 1) (hh : (univ.filter fun k => s k ≠ 0).card ≤ 45)
    (ct : R_Q_square 60 (2^(n+1))) (hct : ct.Canonical) (m : R_Q 60 (2^(n+1))) (hm : dec ct s = pure m)
    (hB : ∀ k, |(m k).sval| ≤ 2^51) (ω : Rng) :
    Ok (do
      let p ← bootPropF (LOGN := n+1) L R 60 60 60 G 24 QT Q0 Q1 Q2 Q3 Q4 Q5 Q6 Q7 Q8 Q9 Q10 Q11 Q12 QS ct s ω
      dec p.1 s) fun m' => ∀ k, |(m' k).sval - (m k).sval| ≤ 2^b' := by
  have hn : n ≤ 16 := by rcases hp with ⟨rfl, rfl, rfl, rfl⟩ | ⟨rfl, rfl, rfl, rfl⟩ | ⟨rfl, rfl, rfl, rfl⟩ <;> norm_num
  have hN : 2^(n+1) ≤ 2^30 := Nat.pow_le_pow_right (by norm_num) (by omega)
  have hq : 66 ≤ QT := by unfold EvalModChain at hC; omega
  obtain ⟨M, hM, hr⟩ := raised_range hN hq hs hh hct hm hB
  exact C80_proposed_drivers hLib R hp hQ0 hC hQS hlo hhi s hs (by omega) ct hct m hm M hM hB hr ω

end

/-! ## a concrete case -/

/-- C80 is not vacuous, with the functions of the exact reals for the mathematical library: 512 coefficients, a ciphertext whose two components have constant coefficient
`2^59-1` and `2^59-2^49`. Its message is `-2^49-1`, that of the raised ciphertext `2^60-2^49-1`. -/
example (ω : Rng) : Ok (do
      let p ← bootConvF (LOGN := 8+1) exactLibmP 7 60 60 50 2 24 1450 1210 1150 1090 1030 970 910 850 790 730 670 610 550 490 290
        (bootPoly (BitVec.ofNat 64 (2^59-1)), bootPoly (BitVec.ofNat 64 (2^59-2^49))) bootKey ω
      dec p.1 bootKey) (fun m' => ∀ k, |(m' k).sval - (-2^49-1) * (if k.val = 0 then 1 else 0)| ≤ 2^35) ∧
    Ok (do
      let p ← bootPropF (LOGN := 8+1) exactLibmP 7 60 60 60 2 24 1450 1210 1150 1090 1030 970 910 850 790 730 670 610 550 490 250
        (bootPoly (BitVec.ofNat 64 (2^59-1)), bootPoly (BitVec.ofNat 64 (2^59-2^49))) bootKey ω
      dec p.1 bootKey) (fun m' => ∀ k, |(m' k).sval - (-2^49-1) * (if k.val = 0 then 1 else 0)| ≤ 2^35) := by
  have e0 : (BitVec.ofNat 64 (2^59-1)).toNat = 2^59-1 := rfl
  have e1 : (BitVec.ofNat 64 (2^59-2^49)).toNat = 2^59-2^49 := rfl
  have l0 : (BitVec.ofNat 64 (2^59-1)).toNat < 2^59 := by rw [e0]; norm_num
  have l1 : (BitVec.ofNat 64 (2^59-2^49)).toNat < 2^59 := by rw [e1]; norm_num
  have c0 := bootPoly_sval l0
  have c1 := bootPoly_sval l1
  have k0 := bootPoly_canonical l0
  have k1 := bootPoly_canonical l1
  rw [e0] at c0
  rw [e1] at c1
  generalize bootPoly (BitVec.ofNat 64 (2^59-1)) = p0 at *
  generalize bootPoly (BitVec.ofNat 64 (2^59-2^49)) = p1 at *
  have hph : R_Q_square.phase bootKey (p0, p1) = red 60 fun k => (-2^49-1) * if k.val = 0 then 1 else 0 := by
    rw [bootKey_phase ((cls_red_sval p0).trans (by rw [c0])) ((cls_red_sval p1).trans (by rw [c1]))]
    funext k
    simp only [red]
    rw [ZMod.intCast_eq_intCast_iff_dvd_sub]
    split_ifs <;> norm_num
  have hpM := bootKey_raise (QT := 1450) k0 k1 c0 c1
  rw [show (((2^59-1 : ℕ) : ℤ) + ((2^59-2^49 : ℕ) : ℤ)) = 2^60-2^49-1 by norm_num] at hpM
  obtain ⟨m, hm, em⟩ := boot_dec (by norm_num [abs_of_neg]) hph
  have hbig : |(2^60-2^49-1 : ℤ)| < 2^(1450-1) :=
    lt_of_lt_of_le (b := 2^60) (by norm_num) (pow_le_pow_right₀ (by norm_num) (by norm_num))
  obtain ⟨M, hM, eM⟩ := boot_dec hbig hpM
  have hp : BootParam2 8 2 35 35 := Or.inl ⟨rfl, rfl, rfl, rfl⟩
  have hch : EvalModChain 60 1210 1150 1090 1030 970 910 850 790 730 670 610 550 490 := by unfold EvalModChain; norm_num
  have hcan : R_Q_square.Canonical (p0, p1) := ⟨k0, k1⟩
  have hB : ∀ k, |(m k).sval| ≤ 2^51 := fun k => by rw [em k]; split_ifs <;> norm_num [abs_of_neg]
  have hr : ∀ k, -237 * 2^60 ≤ 10 * (M k).sval ∧ 10 * (M k).sval ≤ 242 * 2^60 := fun k => by
    rw [eM k]; split_ifs <;> norm_num
  constructor
  · refine Ok.mono (C80_conventional_drivers exactLibmP_accurate (QT := 1450) (QS := 290) 7 hp (by norm_num) hch (by norm_num) (by norm_num) (by norm_num)
      bootKey bootKey_tern (by rw [bootKey_card]; norm_num) _ hcan m hm M hM hB hr ω) fun m' h k => ?_
    have := h k
    rwa [em k] at this
  · refine Ok.mono (C80_proposed_drivers exactLibmP_accurate (QT := 1450) (QS := 250) 7 hp (by norm_num) hch (by norm_num) (by norm_num) (by norm_num)
      bootKey bootKey_tern (by rw [bootKey_card]; norm_num) _ hcan m hm M hM hB hr ω) fun m' h k => ?_
    have := h k
    rwa [em k] at this

end EvalRound

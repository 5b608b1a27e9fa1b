import Verif.Proofs.FloatStC
import Verif.Props.FloatMat
import Verif.Props.CtS

/-!
# C76: CoeffToSlot and SlotToCoeff on ciphertexts in binary64
-/

namespace EvalRound
open Z_Q Finset SparseDiagonal

variable {LOGQ n : Nat} [NeZero LOGQ]

/-- C76: `CoeffToSlot`, all doubles rounded to binary64, puts the coefficients of the plaintext, in bit reversed order and scaled by
`2^LOGDELTA` once per group of matrices, into the slots of its two results. -/
theorem C76_CoeffToSlot {L : LibmP} (hLib : L.Accurate) (RAND_MAX LOGDELTA : Nat) (hL : LOGDELTA < 63) (hQ : GoodQ LOGQ) (hLQ : LOGDELTA + 2 < LOGQ)
    (hn1 : 1 ≤ n) (hn : n ≤ 16) (s : Fin (2^(n+1)) → Int) (hs : ∀ k, s k = -1 ∨ s k = 0 ∨ s k = 1)
    (G : Nat) (hG1 : 1 ≤ G) (hG : G ≤ 4) (hD : n % G = 0)
    (ct : R_Q_square LOGQ (2^(n+1))) (hct : ct.Canonical) (ω : Rng) :
    Ok (do
      let m ← dec ct s
      let r ← CoeffToSlotF (LOGN := n+1) L RAND_MAX LOGDELTA G ct s ω
      let m0 ← dec r.1.1 s
      let m1 ← dec r.1.2 s
      pure (m, m0, m1)) fun p => ∀ Z e : ℝ, (∀ i, ‖slots n (fun k => (p.1 k).sval) i‖ ≤ Z) →
        e = 2 * grpErrF n (univ.filter fun k => s k ≠ 0).card G 1 ((1/2)^G) (2^LOGDELTA) Z +
          ksErr n (univ.filter fun k => s k ≠ 0).card →
        (2^LOGDELTA)^(n/G) * Z + e < 2^(LOGQ-1) →
        ∀ (i : Fin (2^n)) (h0 : bitRev n i < 2^(n+1)) (h1 : bitRev n i + 2^n < 2^(n+1)),
          ‖slots n (fun k => (p.2.1 k).sval) i - (2^LOGDELTA)^(n/G) * ((p.1 ⟨_, h0⟩).sval : ℂ)‖ ≤ e ∧
          ‖slots n (fun k => (p.2.2 k).sval) i - (2^LOGDELTA)^(n/G) * ((p.1 ⟨_, h1⟩).sval : ℂ)‖ ≤ e := by
  have hN : 2^(n+1) ≤ 2^30 := Nat.pow_le_pow_right (by norm_num) (by omega)
  have hs' : Ternary s := hs
  refine Ok.bind (dec_spec hN hs' ct) fun m ⟨_, hm⟩ => ?_
  rw [cls_red_sval] at hm
  have key : Ok (CoeffToSlotF (LOGN := n+1) L RAND_MAX LOGDELTA G ct s ω) _ :=
    Ok.bind (ctsTableF_spec hLib hn1 (by omega)) fun U hU =>
      ctsWithF_slots hLib.1 RAND_MAX LOGDELTA hL hQ.one hQ.two hn1 hn hs' hU hG1 hG hD hLQ hct hm.symm ω
  refine Ok.bind key fun r ⟨_, _, w0, w1, hp0, hp1, he⟩ => ?_
  refine Ok.bind (dec_lift hn1 hn hs' hp0) fun m0 ⟨_, hm0⟩ => ?_
  refine Ok.bind (dec_lift hn1 hn hs' hp1) fun m1 ⟨_, hm1⟩ => Ok.pure fun Z e hZ hee hsmall i h0 h1 => ?_
  have hee' : e = 2 * grpErrF n (weight s) G 1 ((1/2)^G) (2^LOGDELTA) Z + ksErr n (weight s) := hee
  have he' := he Z hZ
  rw [← hee'] at he'
  have hcoef : ∀ k, |((m k).sval : ℝ)| ≤ Z := coeff_le_slots hn1 (by omega) hZ
  have hsize : ∀ (w : Fin (2^(n+1)) → Int) (f : Fin (2^n) → ℝ), (∀ i, |f i| ≤ Z) →
      (∀ i, ‖slots n w i - (2^LOGDELTA)^(n/G) * (f i : ℂ)‖ ≤ e) → ∀ i, ‖slots n w i‖ ≤ (2^LOGDELTA)^(n/G) * Z + e := by
    intro w f hf hw i
    have g1 := norm_sub_norm_le (slots n w i) ((2^LOGDELTA)^(n/G) * (f i : ℂ))
    rw [norm_mul, norm_pow, norm_pow, Complex.norm_ofNat, Complex.norm_real, Real.norm_eq_abs] at g1
    have g2 := mul_le_mul_of_nonneg_left (hf i) (show (0:ℝ) ≤ (2^LOGDELTA)^(n/G) by positivity)
    have g3 := hw i
    linarith
  have e0 := hm0 _ (hsize w0 (fun i => (brvPair n (fun k => ((m k).sval : ℝ)) i).re) (fun i => hcoef _)
    fun i => (he' i).1) hsmall
  have e1 := hm1 _ (hsize w1 (fun i => (brvPair n (fun k => ((m k).sval : ℝ)) i).im) (fun i => hcoef _)
    fun i => (he' i).2) hsmall
  simp only []
  rw [e0, e1]
  have := he' i
  simp only [brvPair, pairC, R_Q.sval, Complex.ofReal_intCast] at this
  exact this

/-- C76: `SlotToCoeff`, all doubles rounded to binary64, takes two ciphertexts whose slots are, up to `ε`, the two halves of the real vector
`m` in bit reversed order, to one that holds `m` scaled by `2^LOGDELTA` once per group. -/
theorem C76_SlotToCoeff {L : Libm} (hLib : L.Accurate) (RAND_MAX LOGDELTA : Nat) (hL : LOGDELTA < 63) (hQ : GoodQ LOGQ) (hLQ : LOGDELTA + 2 < LOGQ)
    (hn1 : 1 ≤ n) (hn : n ≤ 16) (s : Fin (2^(n+1)) → Int) (hs : ∀ k, s k = -1 ∨ s k = 0 ∨ s k = 1)
    (G : Nat) (hG1 : 1 ≤ G) (hG : G ≤ 4) (hD : n % G = 0)
    (ct0 ct1 : R_Q_square LOGQ (2^(n+1))) (hct0 : ct0.Canonical) (hct1 : ct1.Canonical) (ω : Rng) :
    Ok (do
      let m0 ← dec ct0 s
      let m1 ← dec ct1 s
      let r ← SlotToCoeffF (LOGN := n+1) L RAND_MAX LOGDELTA G ct0 ct1 s ω
      let m' ← dec r.1 s
      pure (m0, m1, m')) fun p => ∀ (m : Fin (2^(n+1)) → ℝ) (Z ε e : ℝ),
        (∀ i, ‖slots n (fun k => (p.1 k).sval) i‖ ≤ Z) → (∀ i, ‖slots n (fun k => (p.2.1 k).sval) i‖ ≤ Z) →
        (∀ (i : Fin (2^n)) (h0 : bitRev n i < 2^(n+1)) (h1 : bitRev n i + 2^n < 2^(n+1)),
          ‖slots n (fun k => (p.1 k).sval) i - (m ⟨_, h0⟩ : ℂ)‖ ≤ ε ∧
          ‖slots n (fun k => (p.2.1 k).sval) i - (m ⟨_, h1⟩ : ℂ)‖ ≤ ε) →
        e = 2 * grpErrF n (univ.filter fun k => s k ≠ 0).card G 2 1 (2^LOGDELTA) Z + (2^LOGDELTA)^(n/G) * (2 * ε) →
        (∀ k, (2^LOGDELTA)^(n/G) * |m k| + e < 2^(LOGQ-1)) →
        ∀ k, |((p.2.2 k).sval : ℝ) - (2^LOGDELTA)^(n/G) * m k| ≤ e := by
  have hN : 2^(n+1) ≤ 2^30 := Nat.pow_le_pow_right (by norm_num) (by omega)
  have hs' : Ternary s := hs
  refine Ok.bind (dec_spec hN hs' ct0) fun m0 ⟨_, hm0⟩ => ?_
  refine Ok.bind (dec_spec hN hs' ct1) fun m1 ⟨_, hm1⟩ => ?_
  rw [cls_red_sval] at hm0 hm1
  have key : Ok (SlotToCoeffF (LOGN := n+1) L RAND_MAX LOGDELTA G ct0 ct1 s ω) _ :=
    Ok.bind (stcTableF_spec hLib (by omega)) fun T hT =>
      stcWithF_coeff hLib RAND_MAX LOGDELTA hL hQ.one hQ.two hn1 hn hs' hT.1 hT.2 hG1 hG hD hLQ hct0 hct1
        hm0.symm hm1.symm ω
  refine Ok.bind key fun r ⟨_, w, hp, he⟩ => ?_
  refine Ok.bind (dec_spec hN hs' r.1) fun m' ⟨_, hm'⟩ => Ok.pure fun m Z ε e hZ0 hZ1 hε hee hsmall => ?_
  have hp2 : 2^(n+1) = 2^n + 2^n := by rw [pow_succ]; ring
  have hcoef : ∀ k, |(w k : ℝ) - (2^LOGDELTA)^(n/G) * m k| ≤ e := by
    rw [hee]
    refine he m Z ε hZ0 hZ1 (fun i => ?_) (fun i => ?_)
    · have hb := bitRev_lt n i.val
      exact (hε i (by omega) (by omega)).1
    · have hb := bitRev_lt n i.val
      exact (hε i (by omega) (by omega)).2
  intro k
  have e1 : (m' k).sval = w k := by
    have h1 := hcoef k
    have h2 := hsmall k
    have h3 := abs_sub_abs_le_abs_sub (w k : ℝ) ((2^LOGDELTA)^(n/G) * m k)
    rw [abs_mul, abs_of_nonneg (a := ((2:ℝ)^LOGDELTA)^(n/G)) (by positivity)] at h3
    have h4 : |(w k : ℝ)| < 2^(LOGQ-1) := by linarith
    have h5 : |w k| < 2^(LOGQ-1) := by exact_mod_cast h4
    have h6 := abs_lt.1 h5
    exact sval_eq_of_cls (congrFun (hm'.trans hp) k) h6.1.le h6.2
  simp only []
  rw [e1]
  exact hcoef k

theorem sqrt2_pow4 : (Real.sqrt 2)^4 = 4 := by
  rw [show (4:Nat) = 2 * 2 from rfl, pow_mul, Real.sq_sqrt (by norm_num)]; norm_num

set_option exponentiation.threshold 2000 in
/-- The hypotheses of C76 hold for `N = 32`, four factors in two groups, a 400 bit modulus,
scaling factor `2^50`, and slots up to `2^60`, with the functions of the exact reals for the mathematical library. -/
example : exactLibmP.Accurate ∧ GoodQ 400 ∧ 4 % 2 = 0 ∧
    ((2:ℝ)^50)^(4/2) * 2^60 + (2 * grpErrF 4 16 2 1 ((1/2)^2) (2^50) (2^60) + ksErr 4 16) < 2^(400-1) ∧
    ((2:ℝ)^50)^(4/2) * 2^60 + (2 * grpErrF 4 16 2 2 1 (2^50) (2^60) + ((2:ℝ)^50)^(4/2) * (2 * 1000)) < 2^(400-1) := by
  refine ⟨exactLibmP_accurate, by unfold GoodQ; omega, by norm_num, ?_, ?_⟩ <;>
  norm_num [grpErrF, ksErr, ltSizeF, ltErrF, encTol, matUlp, sqrt2_pow4]

set_option exponentiation.threshold 2000 in
/-- How small the error is there: for slots up to `2^60` the results are up to `2^160`. The error is below `2^122`, and with exact
arithmetic the bound is not below `2^117`. -/
example : 2 * grpErrF 4 16 2 1 ((1/2)^2) (2^50) (2^60) + ksErr 4 16 < 2^122 ∧ 2^117 < 2 * grpErr 4 16 2 1 (2^50) (2^60) + ksErr 4 16 := by
  norm_num [grpErrF, ksErr, ltSizeF, ltErrF, encTol, matUlp, sqrt2_pow4, grpErr, ltSize, ltErr]

end EvalRound

import Verif.Proofs.PtMvp
import Verif.Props.LinTrans

/-!
# C46, C47: CoeffToSlot and SlotToCoeff on ciphertexts, matrix products on plaintexts
-/

namespace EvalRound
open Z_Q Finset SparseDiagonal

variable {LOGQ n S : Nat} [NeZero LOGQ]

/-! ## C46 -/

/-- C46: `CoeffToSlot` puts the coefficients of the plaintext, in bit reversed order and scaled by
`2^LOGDELTA` once per group of matrices, into the slots of its two results. -/
theorem C46_CoeffToSlot (RAND_MAX LOGDELTA : Nat) (hL : LOGDELTA < 63) (hQ : GoodQ LOGQ) (hLQ : LOGDELTA + 1 < LOGQ)
    (hn1 : 1 ≤ n) (hn : n ≤ 16) (s : Fin (2^(n+1)) → Int) (hs : ∀ k, s k = -1 ∨ s k = 0 ∨ s k = 1)
    (G : Nat) (hG1 : 1 ≤ G) (hG : G ≤ 4) (hD : n % G = 0)
    (ct : R_Q_square LOGQ (2^(n+1))) (hct : ct.Canonical) (ω : Rng) :
    Ok (do
      let m ← dec ct s
      let r ← CoeffToSlot (LOGN := n+1) RAND_MAX LOGDELTA G ct s ω
      let m0 ← dec r.1.1 s
      let m1 ← dec r.1.2 s
      pure (m, m0, m1)) fun p => ∀ Z e : ℝ, (∀ i, ‖slots n (fun k => (p.1 k).sval) i‖ ≤ Z) →
        e = 2 * grpErr n (univ.filter fun k => s k ≠ 0).card G 1 (2^LOGDELTA) Z +
          ksErr n (univ.filter fun k => s k ≠ 0).card →
        (2^LOGDELTA)^(n/G) * Z + e < 2^(LOGQ-1) →
        ∀ (i : Fin (2^n)) (h0 : bitRev n i < 2^(n+1)) (h1 : bitRev n i + 2^n < 2^(n+1)),
          ‖slots n (fun k => (p.2.1 k).sval) i - (2^LOGDELTA)^(n/G) * ((p.1 ⟨_, h0⟩).sval : ℂ)‖ ≤ e ∧
          ‖slots n (fun k => (p.2.2 k).sval) i - (2^LOGDELTA)^(n/G) * ((p.1 ⟨_, h1⟩).sval : ℂ)‖ ≤ e := by
  have hN : 2^(n+1) ≤ 2^30 := Nat.pow_le_pow_right (by norm_num) (by omega)
  have hs' : Ternary s := hs
  have hw := two_pow_hw hL
  have hq := two_pow_hq hLQ
  refine Ok.bind (dec_spec hN hs' ct) fun m ⟨_, hm⟩ => ?_
  rw [cls_red_sval] at hm
  have key : Ok (CoeffToSlot (LOGN := n+1) RAND_MAX LOGDELTA G ct s ω) _ :=
    Ok.bind (ctsTable_spec (by omega)) fun U hU =>
      ctsWith_slots RAND_MAX LOGDELTA (by omega) hQ.one hQ.two hn1 hn hs' hU hG1 hG hD hw hq hct hm.symm ω
  refine Ok.bind key fun r ⟨_, _, w0, w1, hp0, hp1, he⟩ => ?_
  refine Ok.bind (dec_lift hn1 hn hs' hp0) fun m0 ⟨_, hm0⟩ => ?_
  refine Ok.bind (dec_lift hn1 hn hs' hp1) fun m1 ⟨_, hm1⟩ => Ok.pure fun Z e hZ hee hsmall i h0 h1 => ?_
  have hee' : e = 2 * grpErr n (weight s) G 1 (2^LOGDELTA) Z + ksErr n (weight s) := hee
  have he' := he Z hZ
  rw [← hee'] at he'
  have hcoef : ∀ k, |((m k).sval : ℝ)| ≤ Z := coeff_le_slots hn1 (by omega) hZ
  have hsize : ∀ (w : Fin (2^(n+1)) → Int) (f : Fin (2^n) → ℝ), (∀ i, |f i| ≤ Z) →
      (∀ i, ‖slots n w i - (2^LOGDELTA)^(n/G) * (f i : ℂ)‖ ≤ e) → ∀ i, ‖slots n w i‖ ≤ (2^LOGDELTA)^(n/G) * Z + e := by
    intro w f hf hw i
    have g1 := norm_sub_norm_le (slots n w i) ((2^LOGDELTA)^(n/G) * (f i : ℂ))
    rw [norm_mul, norm_pow, norm_pow, Complex.norm_ofNat, Complex.norm_real, Real.norm_eq_abs] at g1
    have g2 := mul_le_mul_of_nonneg_left (hf i) (show (0:ℝ) ≤ (2^LOGDELTA)^(n/G) by positivity)
    have g3 := hw i
    linarith
  have e0 := hm0 _ (hsize w0 (fun i => (brvPair n (fun k => ((m k).sval : ℝ)) i).re) (fun i => hcoef _)
    fun i => (he' i).1) hsmall
  have e1 := hm1 _ (hsize w1 (fun i => (brvPair n (fun k => ((m k).sval : ℝ)) i).im) (fun i => hcoef _)
    fun i => (he' i).2) hsmall
  simp only []
  rw [e0, e1]
  have := he' i
  simp only [brvPair, pairC, R_Q.sval, Complex.ofReal_intCast] at this
  exact this

/-- C46: `SlotToCoeff` takes two ciphertexts whose slots are, up to `ε`, the two halves of the real vector
`m` in bit reversed order, to one that holds `m` scaled by `2^LOGDELTA` once per group. -/
theorem C46_SlotToCoeff (RAND_MAX LOGDELTA : Nat) (hL : LOGDELTA < 63) (hQ : GoodQ LOGQ) (hLQ : LOGDELTA + 1 < LOGQ)
    (hn1 : 1 ≤ n) (hn : n ≤ 16) (s : Fin (2^(n+1)) → Int) (hs : ∀ k, s k = -1 ∨ s k = 0 ∨ s k = 1)
    (G : Nat) (hG1 : 1 ≤ G) (hG : G ≤ 4) (hD : n % G = 0)
    (ct0 ct1 : R_Q_square LOGQ (2^(n+1))) (hct0 : ct0.Canonical) (hct1 : ct1.Canonical) (ω : Rng) :
    Ok (do
      let m0 ← dec ct0 s
      let m1 ← dec ct1 s
      let r ← SlotToCoeff (LOGN := n+1) RAND_MAX LOGDELTA G ct0 ct1 s ω
      let m' ← dec r.1 s
      pure (m0, m1, m')) fun p => ∀ (m : Fin (2^(n+1)) → ℝ) (Z ε e : ℝ),
        (∀ i, ‖slots n (fun k => (p.1 k).sval) i‖ ≤ Z) → (∀ i, ‖slots n (fun k => (p.2.1 k).sval) i‖ ≤ Z) →
        (∀ (i : Fin (2^n)) (h0 : bitRev n i < 2^(n+1)) (h1 : bitRev n i + 2^n < 2^(n+1)),
          ‖slots n (fun k => (p.1 k).sval) i - (m ⟨_, h0⟩ : ℂ)‖ ≤ ε ∧
          ‖slots n (fun k => (p.2.1 k).sval) i - (m ⟨_, h1⟩ : ℂ)‖ ≤ ε) →
        e = 2 * grpErr n (univ.filter fun k => s k ≠ 0).card G 2 (2^LOGDELTA) Z + (2^LOGDELTA)^(n/G) * (2 * ε) →
        (∀ k, (2^LOGDELTA)^(n/G) * |m k| + e < 2^(LOGQ-1)) →
        ∀ k, |((p.2.2 k).sval : ℝ) - (2^LOGDELTA)^(n/G) * m k| ≤ e := by
  have hN : 2^(n+1) ≤ 2^30 := Nat.pow_le_pow_right (by norm_num) (by omega)
  have hs' : Ternary s := hs
  have hw := two_pow_hw hL
  have hq := two_pow_hq hLQ
  refine Ok.bind (dec_spec hN hs' ct0) fun m0 ⟨_, hm0⟩ => ?_
  refine Ok.bind (dec_spec hN hs' ct1) fun m1 ⟨_, hm1⟩ => ?_
  rw [cls_red_sval] at hm0 hm1
  have key : Ok (SlotToCoeff (LOGN := n+1) RAND_MAX LOGDELTA G ct0 ct1 s ω) _ :=
    Ok.bind (stcTable_spec (by omega)) fun T hT =>
      stcWith_coeff RAND_MAX LOGDELTA (by omega) hQ.one hQ.two hn1 hn hs' hT.1 hT.2 hG1 hG hD hw hq hct0 hct1
        hm0.symm hm1.symm ω
  refine Ok.bind key fun r ⟨_, w, hp, he⟩ => ?_
  refine Ok.bind (dec_spec hN hs' r.1) fun m' ⟨_, hm'⟩ => Ok.pure fun m Z ε e hZ0 hZ1 hε hee hsmall => ?_
  have hp2 : 2^(n+1) = 2^n + 2^n := by rw [pow_succ]; ring
  have hcoef : ∀ k, |(w k : ℝ) - (2^LOGDELTA)^(n/G) * m k| ≤ e := by
    rw [hee]
    refine he m Z ε hZ0 hZ1 (fun i => ?_) (fun i => ?_)
    · have hb := bitRev_lt n i.val
      exact (hε i (by omega) (by omega)).1
    · have hb := bitRev_lt n i.val
      exact (hε i (by omega) (by omega)).2
  intro k
  have e1 : (m' k).sval = w k := by
    have h1 := hcoef k
    have h2 := hsmall k
    have h3 := abs_sub_abs_le_abs_sub (w k : ℝ) ((2^LOGDELTA)^(n/G) * m k)
    rw [abs_mul, abs_of_nonneg (a := ((2:ℝ)^LOGDELTA)^(n/G)) (by positivity)] at h3
    have h4 : |(w k : ℝ)| < 2^(LOGQ-1) := by linarith
    have h5 : |w k| < 2^(LOGQ-1) := by exact_mod_cast h4
    have h6 := abs_lt.1 h5
    exact sval_eq_of_cls (congrFun (hm'.trans hp) k) h6.1.le h6.2
  simp only []
  rw [e1]
  exact hcoef k

set_option exponentiation.threshold 2000 in
/-- The hypotheses of C46 hold for `N = 16`, three factors in three groups or in one, a 400 bit modulus,
scaling factor `2^40`, and slots up to `2^60`. -/
example : GoodQ 400 ∧ 3 % 1 = 0 ∧ 3 % 3 = 0 ∧
    ((2:ℝ)^40)^(3/1) * 2^60 + (2 * grpErr 3 16 1 1 (2^40) (2^60) + ksErr 3 16) < 2^(400-1) ∧
    ((2:ℝ)^40)^(3/3) * 2^60 + (2 * grpErr 3 16 3 1 (2^40) (2^60) + ksErr 3 16) < 2^(400-1) ∧
    ((2:ℝ)^40)^(3/3) * 2^60 + (2 * grpErr 3 16 3 2 (2^40) (2^60) + ((2:ℝ)^40)^(3/3) * (2 * 1000)) < 2^(400-1) := by
  refine ⟨by unfold GoodQ; omega, by norm_num, by norm_num, ?_, ?_, ?_⟩ <;>
  norm_num [grpErr, ksErr, ltSize, ltErr]

/-- How small the error is there: for slots up to `2^60` the results are up to `2^180`, and the error is
below `2^148`. -/
example : 2 * grpErr 3 16 1 1 (2^40) (2^60) + ksErr 3 16 < 2^148 := by
  norm_num [grpErr, ksErr, ltSize, ltErr]

/-! ## C47 -/

/-- C47: the product of a matrix, given by `K` diagonals, and an encoded vector: the slots of the result
are `Delta` times the matrix-vector product, up to the rounding of the encoded diagonals. -/
theorem C47_matrix_vector_product (hQ : ConvLOGQ LOGQ) (hn1 : 1 ≤ n) (hn : n ≤ 16) {K : Nat}
    (pt : R_Q LOGQ (2^(n+1))) (hpt : ∀ k, (pt k).Canonical) (Z : ℝ) (hZ : ∀ i, ‖slots n (fun k => (pt k).sval) i‖ ≤ Z)
    (A : Fin K → CVec (n+1)) (Delta : W) (B : ℝ) (hB : ∀ k (i : Fin (2^n)), ‖(⟨(A k).1 i, (A k).2 i⟩ : ℂ)‖ ≤ B)
    (hw : B * Delta.toNat + 1/2 < 2^64) (hq : B * Delta.toNat + 1/2 < 2^(LOGQ-1))
    (hsmall : K * (Delta.toNat * (B * Z)) + K * (2^n * Z) < 2^(LOGQ-1)) :
    Ok (ptMvp (LOGN := n+1) pt A Delta) fun r => ∀ i : Fin (2^n), (∀ k, (r k).Canonical) ∧
      ‖slots n (fun k => (r k).sval) i - Delta.toNat * ∑ k : Fin K, (⟨(A k).1 i, (A k).2 i⟩ : ℂ) *
        slots n (fun k => (pt k).sval) ⟨(i.val + k.val) % 2^n, Nat.mod_lt _ (Nat.two_pow_pos n)⟩‖ ≤ K * (2^n * Z) := by
  have hZ0 : 0 ≤ Z := (norm_nonneg _).trans (hZ ⟨0, Nat.two_pow_pos n⟩)
  let term : Nat → Fin (2^n) → ℂ := fun k i => if h : k < K then (⟨(A ⟨k, h⟩).1 i, (A ⟨k, h⟩).2 i⟩ : ℂ) *
        slots n (R_Q.sval pt) (shift (k : Int) i) else 0
  unfold ptMvp
  have key := forUp_inv (Nat.zero_le K) (P := fun k acc => Holds (LOGQ := LOGQ) (n := n) acc
      (fun i => Delta.toNat * ∑ t ∈ range k, term t i) (k * (2^n * Z)))
      (s := R_Q.setzero) (body := fun k acc => do
        let a ← rd A k
        let pt_v ← encode LOGQ (LOGN := n+1) a Delta
        let pt_rot ← rotR pt R_Q.setzero k
        let pt_conv ← conv pt_v pt_rot
        pure (R_Q.add acc pt_conv)) ?_ ?_
  · refine Ok.mono key fun r hr i => ⟨hr.1, ?_⟩
    have e : ∀ i, ∑ t ∈ range K, term t i = ∑ k : Fin K, (⟨(A k).1 i, (A k).2 i⟩ : ℂ) *
        slots n (fun k => (pt k).sval) ⟨(i.val + k.val) % 2^n, Nat.mod_lt _ (Nat.two_pow_pos n)⟩ := by
      intro i
      rw [← Fin.sum_univ_eq_sum_range]
      refine sum_congr rfl fun k _ => ?_
      simp only [term]
      rw [dif_pos k.isLt]
      congr 1
    rw [← e i]
    refine hr.sval hn1 hn (X := K * (Delta.toNat * (B * Z))) (fun i => ?_) hsmall i
    rw [e i, norm_mul, Complex.norm_natCast, mul_left_comm]
    refine mul_le_mul_of_nonneg_left ((norm_sum_le _ _).trans ?_) (Nat.cast_nonneg _)
    refine (sum_le_sum (g := fun _ => B * Z) fun k _ => ?_).trans (le_of_eq (by simp))
    rw [norm_mul]
    exact mul_le_mul (hB k i) (hZ _) (norm_nonneg _) ((norm_nonneg _).trans (hB k i))
  · simp only [range_zero, sum_empty, mul_zero, Nat.cast_zero, zero_mul]
    exact Holds.zero
  · intro k acc _ hk hacc
    rw [rd_of_lt A hk, pure_bind]
    have := mvpStep hQ hn1 hn hpt hZ (A ⟨k, hk⟩) Delta (hB _) hw hq (o := (k : Int)) (by omega) hacc
    refine Ok.mono this fun r hr => ?_
    have e1 : (fun i => (Delta.toNat : ℂ) * ∑ t ∈ range (k+1), term t i) = fun i =>
        (Delta.toNat : ℂ) * (∑ t ∈ range k, term t i) + Delta.toNat * (⟨(A ⟨k, hk⟩).1 i, (A ⟨k, hk⟩).2 i⟩ *
          slots n (R_Q.sval pt) (shift (k : Int) i)) := by
      funext i
      rw [sum_range_succ, mul_add]
      congr 2
      simp only [term]
      rw [dif_pos hk]
    rw [e1]
    push_cast
    rw [add_mul, one_mul]
    exact hr

/-- C47: the sparse overload does the same for its three diagonals; the flags are not looked at. -/
theorem C47_matrix_vector_product_sparse (hQ : ConvLOGQ LOGQ) (hn1 : 1 ≤ n) (hn : n ≤ 16)
    (pt : R_Q LOGQ (2^(n+1))) (hpt : ∀ k, (pt k).Canonical) (Z : ℝ) (hZ : ∀ i, ‖slots n (fun k => (pt k).sval) i‖ ≤ Z)
    (A : SD2 (2^n) 3) (hoff : A.1.off = A.2.off) (hr : A.1.InRange)
    (Delta : W) (B : ℝ) (hB : ∀ k (i : Fin (2^n)), ‖(⟨A.1.vec k i, A.2.vec k i⟩ : ℂ)‖ ≤ B)
    (hw : B * Delta.toNat + 1/2 < 2^64) (hq : B * Delta.toNat + 1/2 < 2^(LOGQ-1))
    (hsmall : 3 * (Delta.toNat * (B * Z)) + 3 * (2^n * Z) < 2^(LOGQ-1)) :
    Ok (ptMvpSparse (LOGN := n+1) pt A Delta) fun r => ∀ i : Fin (2^n), (∀ k, (r k).Canonical) ∧
      ‖slots n (fun k => (r k).sval) i - Delta.toNat * (denC A.1 A.2).mulVec (slots n fun k => (pt k).sval) i‖ ≤
        3 * (2^n * Z) := by
  have hZ0 : 0 ≤ Z := (norm_nonneg _).trans (hZ ⟨0, Nat.two_pow_pos n⟩)
  let term : Nat → Fin (2^n) → ℂ := fun k i => if h : k < 3 then (⟨A.1.vec ⟨k, h⟩ i, A.2.vec ⟨k, h⟩ i⟩ : ℂ) *
        slots n (R_Q.sval pt) (shift (A.1.off ⟨k, h⟩) i) else 0
  unfold ptMvpSparse
  have key := forUp_inv (Nat.zero_le 3) (P := fun k acc => Holds (LOGQ := LOGQ) (n := n) acc
      (fun i => Delta.toNat * ∑ t ∈ range k, term t i) (k * (2^n * Z)))
      (s := R_Q.setzero) (body := fun k acc => do
        let offr ← rd A.1.off k
        let offi ← rd A.2.off k
        assertM (decide (offr = offi))
        let vr ← rd A.1.vec k
        let vi ← rd A.2.vec k
        let pt_v ← encode LOGQ (LOGN := n+1) (vr, vi) Delta
        let pt_rot ← rotR pt R_Q.setzero offr.toNat
        let pt_conv ← conv pt_v pt_rot
        pure (R_Q.add acc pt_conv)) ?_ ?_
  · refine Ok.mono key fun r hr' i => ⟨hr'.1, ?_⟩
    have e : ∀ i, ∑ t ∈ range 3, term t i = (denC A.1 A.2).mulVec (slots n fun k => (pt k).sval) i := by
      intro i
      rw [← Fin.sum_univ_eq_sum_range]
      have e2 : ∀ j, denC A.1 A.2 i j = ∑ t, if shift (A.1.off t) i = j then (⟨A.1.vec t i, A.2.vec t i⟩ : ℂ) else 0 :=
        fun j => denC_apply hoff i j
      rw [Matrix.mulVec, dotProduct]
      simp only [e2, sum_mul]
      rw [sum_comm]
      refine sum_congr rfl fun k _ => ?_
      simp only [ite_mul, zero_mul]
      rw [sum_ite_eq, if_pos (mem_univ _)]
      simp only [term]
      rw [dif_pos k.isLt]
      rfl
    rw [← e i]
    have h3 : ((3:ℕ):ℝ) = 3 := by norm_num
    simp only [h3] at hr'
    refine hr'.sval hn1 hn (X := 3 * (Delta.toNat * (B * Z))) (fun i => ?_) hsmall i
    rw [norm_mul, Complex.norm_natCast, mul_left_comm]
    refine mul_le_mul_of_nonneg_left ((norm_sum_le _ _).trans ?_) (Nat.cast_nonneg _)
    refine (sum_le_sum (g := fun _ => B * Z) fun k hk => ?_).trans (le_of_eq (by simp))
    simp only [term]
    rw [dif_pos (mem_range.1 hk), norm_mul]
    exact mul_le_mul (hB _ i) (hZ _) (norm_nonneg _) ((norm_nonneg _).trans (hB ⟨k, mem_range.1 hk⟩ i))
  · simp only [range_zero, sum_empty, mul_zero, Nat.cast_zero, zero_mul]
    exact Holds.zero
  · intro k acc _ hk hacc
    rw [rd_of_lt A.1.off hk, pure_bind, rd_of_lt A.2.off hk, pure_bind, decide_eq_true (congrFun hoff ⟨k, hk⟩),
      rd_of_lt A.1.vec hk, rd_of_lt A.2.vec hk]
    show Ok (do
      let pt_v ← encode LOGQ (LOGN := n+1) (A.1.vec ⟨k, hk⟩, A.2.vec ⟨k, hk⟩) Delta
      let pt_rot ← rotR pt R_Q.setzero (A.1.off ⟨k, hk⟩).toNat
      let pt_conv ← conv pt_v pt_rot
      pure (R_Q.add acc pt_conv)) _
    have := mvpStep hQ hn1 hn hpt hZ (A.1.vec ⟨k, hk⟩, A.2.vec ⟨k, hk⟩) Delta (hB _) hw hq (hr ⟨k, hk⟩).1 hacc
    refine Ok.mono this fun r hr => ?_
    have e1 : (fun i => (Delta.toNat : ℂ) * ∑ t ∈ range (k+1), term t i) = fun i =>
        (Delta.toNat : ℂ) * (∑ t ∈ range k, term t i) + Delta.toNat * (⟨A.1.vec ⟨k, hk⟩ i, A.2.vec ⟨k, hk⟩ i⟩ *
          slots n (R_Q.sval pt) (shift (A.1.off ⟨k, hk⟩) i)) := by
      funext i
      rw [sum_range_succ, mul_add]
      congr 2
      simp only [term]
      rw [dif_pos hk]
    rw [e1]
    push_cast
    rw [add_mul, one_mul]
    exact hr

/-- C47 with `exA` (entries up to 6), `Delta = 2^20`, a 100 bit modulus and slots up to `2^40`. -/
example : (∀ k (i : Fin (2^2)), ‖(⟨exA.vec k i, exZ.vec k i⟩ : ℂ)‖ ≤ 18) ∧ exA.InRange ∧
    (18:ℝ) * 2^20 + 1/2 < 2^64 ∧ 3 * ((2:ℝ)^20 * (18 * 2^40)) + 3 * (2^2 * 2^40) < 2^(100-1) :=
  ⟨exA_lt.entry, exA_inRange, by norm_num, by norm_num⟩

end EvalRound

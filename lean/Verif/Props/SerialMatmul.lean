import Verif.Props.SingleMatmul
import Verif.Props.LtTest
import Verif.Proofs.L2

/-!
# C69: the error of a sequence of matrix-vector products on plaintexts
-/

namespace EvalRound
open Z_Q Finset SparseDiagonal MeasureTheory

/-- The slots, divided by the scale, after `d` products with the matrices `U`, whose diagonals are encoded with rounding errors `e`
and scale `Δ`. -/
noncomputable def roundedSeq {n : Nat} (U : Fin n → Fac (n+1)) (Δ : ℝ) (z : Fin (2^n) → ℂ) (e : Fin n → Fin 3 → Fin (2^(n+1)) → ℝ) :
    Nat → Fin (2^n) → ℂ
  | 0 => z
  | d+1 => if hd : d < n then fun i => ∑ k : Fin 3,
      ((⟨(U ⟨d, hd⟩).1.vec k i, (U ⟨d, hd⟩).2.vec k i⟩ : ℂ) + slotOf (e ⟨d, hd⟩ k) i / Δ) *
        roundedSeq U Δ z e d (shift (N := 2^n) ((U ⟨d, hd⟩).1.off k) i) else 0

theorem roundedSeq_congr {n : Nat} {U : Fin n → Fac (n+1)} {Δ : ℝ} {z : Fin (2^n) → ℂ} {e e' : Fin n → Fin 3 → Fin (2^(n+1)) → ℝ}
    {d : Nat} (h : ∀ t : Fin n, t.val < d → e t = e' t) : roundedSeq U Δ z e d = roundedSeq U Δ z e' d := by
  induction d with
  | zero => rfl
  | succ d ih =>
    unfold roundedSeq
    rw [ih fun t ht => h t (by omega)]
    split
    · rename_i hd
      rw [h ⟨d, hd⟩ (Nat.lt_succ_self d)]
    · rfl

/-- the same with some rounding errors up to 1/2 -/
inductive RoundedSeq {n : Nat} (U : Fin n → Fac (n+1)) (Δ : ℝ) (z : Fin (2^n) → ℂ) : Nat → (Fin (2^n) → ℂ) → Prop
  | start : RoundedSeq U Δ z 0 z
  | step {d : Nat} {w : Fin (2^n) → ℂ} (hd : d < n) (e : Fin 3 → Fin (2^(n+1)) → ℝ) (he : ∀ k j, |e k j| ≤ 1/2) :
      RoundedSeq U Δ z d w → RoundedSeq U Δ z (d+1) (fun i => ∑ k : Fin 3,
        ((⟨(U ⟨d, hd⟩).1.vec k i, (U ⟨d, hd⟩).2.vec k i⟩ : ℂ) + slotOf (e k) i / Δ) * w (shift (N := 2^n) ((U ⟨d, hd⟩).1.off k) i))

theorem RoundedSeq.exists {n : Nat} {U : Fin n → Fac (n+1)} {Δ : ℝ} {z w : Fin (2^n) → ℂ} {d : Nat} (h : RoundedSeq U Δ z d w) :
    ∃ e : Fin n → Fin 3 → Fin (2^(n+1)) → ℝ, (∀ d k j, |e d k j| ≤ 1/2) ∧ w = roundedSeq U Δ z e d := by
  induction h with
  | start => exact ⟨fun _ _ _ => 0, fun _ _ _ => by norm_num, rfl⟩
  | @step d w hd e he _ ih =>
    obtain ⟨e', he', hw⟩ := ih
    refine ⟨Function.update e' ⟨d, hd⟩ e, fun t k j => ?_, ?_⟩
    · by_cases ht : t = ⟨d, hd⟩
      · rw [ht, Function.update_self]; exact he k j
      · rw [Function.update_of_ne ht]; exact he' t k j
    · rw [roundedSeq, dif_pos hd, Function.update_self, hw]
      have : roundedSeq U Δ z (Function.update e' ⟨d, hd⟩ e) d = roundedSeq U Δ z e' d :=
        roundedSeq_congr fun t ht => by rw [Function.update_of_ne (fun h => by rw [h] at ht; exact absurd ht (lt_irrefl d))]
      rw [this]

theorem mulVec_diag {H S : Nat} {A : SD2 H S} (hoff : A.1.off = A.2.off) (x : Fin H → ℂ) (i : Fin H) :
    (denC A.1 A.2).mulVec x i = ∑ k : Fin S, (⟨A.1.vec k i, A.2.vec k i⟩ : ℂ) * x (shift (A.1.off k) i) := by
  have e2 : ∀ j, denC A.1 A.2 i j = ∑ t, if shift (A.1.off t) i = j then (⟨A.1.vec t i, A.2.vec t i⟩ : ℂ) else 0 :=
    fun j => denC_apply hoff i j
  rw [Matrix.mulVec, dotProduct]
  simp only [e2, sum_mul]
  rw [sum_comm]
  refine sum_congr rfl fun k _ => ?_
  simp only [ite_mul, zero_mul]
  rw [sum_ite_eq, if_pos (mem_univ _)]

theorem IsAdj.iso {n d : Nat} (hd : d < n) {A : Fac (n+1)} (h : IsAdj n d A) :
    (denC (N := 2^n) A.1 A.2).conjTranspose * denC (N := 2^n) A.1 A.2 = ((2:ℝ) : ℂ) • 1 := by
  have e : denC (N := 2^n) A.1 A.2 = (bfly (2^n) (2^(n-1-d)) (ctw n (n-1-d))).conjTranspose := h.den
  rw [e, Matrix.conjTranspose_conjTranspose,
    bfly_mul_adj (Nat.two_pow_pos _) (dvd_pow_blk (by omega)) _ (fun i _ => ctw_star n (n-1-d) i)]
  push_cast
  rfl

theorem IsAdj.l2 {n d : Nat} (hd : d < n) {A : Fac (n+1)} (h : IsAdj n d A) (x : Fin (2^n) → ℂ) :
    l2 ((denC (N := 2^n) A.1 A.2).mulVec x) = Real.sqrt 2 * l2 x := by
  unfold EvalRound.l2
  rw [l2_mulVec (h.iso hd), Real.sqrt_mul (by norm_num)]

theorem RoundedSeq.bound {n : Nat} {U : Fin n → Fac (n+1)} (hU : ∀ d : Fin n, IsAdj n d (U d)) {Δ : ℝ} (hΔ : 0 < Δ)
    {z w : Fin (2^n) → ℂ} {d : Nat} (h : RoundedSeq U Δ z d w) :
    d ≤ n ∧ l2 w ≤ (Real.sqrt 2 + 3 * 2^n / Δ)^d * l2 z ∧
      l2 (w - (seqMat (mats (H := 2^n) U) d).mulVec z) ≤ ((Real.sqrt 2 + 3 * 2^n / Δ)^d - Real.sqrt 2 ^ d) * l2 z := by
  induction h with
  | start => simp [seqMat, l2_zero]
  | @step d w hd e he _ ih =>
    obtain ⟨_, ih1, ih2⟩ := ih
    have hA := hU ⟨d, hd⟩
    obtain ⟨E, hE⟩ : ∃ E : Fin (2^n) → ℂ, E = fun i : Fin (2^n) => ∑ k : Fin 3, slotOf (e k) i / Δ * w (shift (N := 2^n) ((U ⟨d, hd⟩).1.off k) i) :=
      ⟨_, rfl⟩
    have hw : (fun i : Fin (2^n) => ∑ k : Fin 3,
        ((⟨(U ⟨d, hd⟩).1.vec k i, (U ⟨d, hd⟩).2.vec k i⟩ : ℂ) + slotOf (e k) i / Δ) * w (shift (N := 2^n) ((U ⟨d, hd⟩).1.off k) i)) =
        (denC (N := 2^n) (U ⟨d, hd⟩).1 (U ⟨d, hd⟩).2).mulVec w + E := by
      funext i
      rw [Pi.add_apply, mulVec_diag hA.off, hE, ← sum_add_distrib]
      exact sum_congr rfl fun k _ => add_mul _ _ _
    have hEl : l2 E ≤ 3 * 2^n / Δ * l2 w := by
      have h1 : E = ∑ k : Fin 3, fun i : Fin (2^n) => slotOf (e k) i / Δ * w (shift (N := 2^n) ((U ⟨d, hd⟩).1.off k) i) := by
        rw [hE]; funext i; rw [Finset.sum_apply]
      rw [h1]
      refine (l2_sum_le _ _).trans ((sum_le_sum (g := fun _ => 2^n / Δ * l2 w) fun k _ => ?_).trans (le_of_eq ?_))
      · refine l2_mul_shift_le (s := fun i => slotOf (e k) i / Δ) (by positivity) (fun i => ?_) _
        rw [norm_div, Complex.norm_real, Real.norm_eq_abs, abs_of_pos hΔ]
        refine div_le_div_of_nonneg_right ((norm_slotOf_le (he k) i).trans (le_of_eq ?_)) hΔ.le
        push_cast
        rw [pow_succ (2:ℝ) n]
        ring
      · rw [sum_const, card_univ, Fintype.card_fin, nsmul_eq_mul]
        push_cast
        ring
    have hs2 : 0 ≤ Real.sqrt 2 := Real.sqrt_nonneg _
    have hc0 : 0 ≤ 3 * 2^n / Δ := by positivity
    rw [hw]
    refine ⟨hd, ?_, ?_⟩
    · refine (l2_add_le _ _).trans ?_
      rw [hA.l2 hd]
      have h3 : Real.sqrt 2 * l2 w + 3 * 2^n / Δ * l2 w ≤ (Real.sqrt 2 + 3 * 2^n / Δ) * ((Real.sqrt 2 + 3 * 2^n / Δ)^d * l2 z) := by
        rw [← add_mul]
        exact mul_le_mul_of_nonneg_left ih1 (by positivity)
      rw [pow_succ, mul_comm _ (Real.sqrt 2 + _), mul_assoc]
      linarith
    · have h4 : (denC (N := 2^n) (U ⟨d, hd⟩).1 (U ⟨d, hd⟩).2).mulVec w + E - (seqMat (mats (H := 2^n) U) (d+1)).mulVec z =
          (denC (N := 2^n) (U ⟨d, hd⟩).1 (U ⟨d, hd⟩).2).mulVec (w - (seqMat (mats (H := 2^n) U) d).mulVec z) + E := by
        rw [seqMat, mats_lt _ hd, ← Matrix.mulVec_mulVec, Matrix.mulVec_sub]
        abel
      rw [h4]
      refine (l2_add_le _ _).trans ?_
      rw [hA.l2 hd]
      have h5 := mul_le_mul_of_nonneg_left ih2 hs2
      have h6 := mul_le_mul_of_nonneg_left ih1 hc0
      rw [pow_succ, pow_succ]
      linarith

/-- the sparse product on plaintexts, exactly -/
theorem ptMvpSparse_exact {LOGQ n : Nat} [NeZero LOGQ] (hQ : ConvLOGQ LOGQ) (hn1 : 1 ≤ n) (hn : n ≤ 16)
    {pt : R_Q LOGQ (2^(n+1))} (hpt : R_Q.Canonical pt) (A : SD2 (2^n) 3) (hoff : A.1.off = A.2.off) (hr : A.1.InRange)
    (Delta : W) {B : ℝ} (hB : ∀ k (i : Fin (2^n)), ‖(⟨A.1.vec k i, A.2.vec k i⟩ : ℂ)‖ ≤ B)
    (hw : B * Delta.toNat + 1/2 < 2^64) (hq : B * Delta.toNat + 1/2 < 2^(LOGQ-1)) :
    Ok (ptMvpSparse (LOGN := n+1) pt A Delta) fun r => ∃ (m : Fin 3 → Fin (2^(n+1)) → ℝ) (v : Fin 3 → Fin (2^(n+1)) → Int),
      (∀ k (i : Fin (2^n)), slotOf (m k) i = ⟨A.1.vec k i, A.2.vec k i⟩) ∧ (∀ k j, |(v k j : ℝ) - m k j * Delta.toNat| ≤ 1/2) ∧
      Holds r (fun i => ∑ k : Fin 3, slots n (v k) i * slots n (R_Q.sval pt) (shift (A.1.off k) i)) 0 := by
  have henc : ∀ k, ∃ (p : R_Q LOGQ (2^(n+1))) (m : Fin (2^(n+1)) → ℝ),
      encode LOGQ (LOGN := n+1) (A.1.vec k, A.2.vec k) Delta = pure p ∧
      R_Q.Canonical p ∧ (∀ i : Fin (2^n), slotOf m i = ⟨A.1.vec k i, A.2.vec k i⟩) ∧
      ∀ j, |((R_Q.sval p j : ℤ) : ℝ) - m j * Delta.toNat| ≤ 1/2 := by
    intro k
    obtain ⟨p, e, m, hm, hp⟩ := C29_encode (LOGN := n+1) (by omega) (by omega) (A.1.vec k, A.2.vec k) Delta B (hB k) hw hq
    exact ⟨p, m, e, fun j => (hp j).1, hm, fun j => (hp j).2⟩
  choose p m he hc hm hp using henc
  let term : Nat → Fin (2^n) → ℂ := fun k i => if h : k < 3 then slots n (R_Q.sval (p ⟨k, h⟩)) i *
        slots n (R_Q.sval pt) (shift (A.1.off ⟨k, h⟩) i) else 0
  unfold ptMvpSparse
  have key := forUp_inv (Nat.zero_le 3) (P := fun k acc => Holds (LOGQ := LOGQ) (n := n) acc
      (fun i => ∑ t ∈ range k, term t i) 0)
      (s := R_Q.setzero) (body := fun k acc => do
        let offr ← rd A.1.off k
        let offi ← rd A.2.off k
        assertM (decide (offr = offi))
        let vr ← rd A.1.vec k
        let vi ← rd A.2.vec k
        let pt_v ← encode LOGQ (LOGN := n+1) (vr, vi) Delta
        let pt_rot ← rotR pt R_Q.setzero offr.toNat
        let pt_conv ← conv pt_v pt_rot
        pure (R_Q.add acc pt_conv)) ?_ ?_
  · refine Ok.mono key fun r hr => ⟨m, fun k => R_Q.sval (p k), hm, hp, ?_⟩
    have e : (fun i => ∑ t ∈ range 3, term t i) = fun i => ∑ k : Fin 3, slots n (R_Q.sval (p k)) i *
        slots n (R_Q.sval pt) (shift (A.1.off k) i) := by
      funext i
      rw [← Fin.sum_univ_eq_sum_range (fun t => term t i)]
      refine sum_congr rfl fun k _ => ?_
      simp only [term]
      rw [dif_pos k.isLt]
    rw [← e]
    exact hr
  · simp only [range_zero, sum_empty]
    exact Holds.zero
  · intro k acc _ hk hacc
    rw [rd_of_lt A.1.off hk, pure_bind, rd_of_lt A.2.off hk, pure_bind, decide_eq_true (congrFun hoff ⟨k, hk⟩),
      rd_of_lt A.1.vec hk, rd_of_lt A.2.vec hk]
    show Ok (do
      let pt_v ← encode LOGQ (LOGN := n+1) (A.1.vec ⟨k, hk⟩, A.2.vec ⟨k, hk⟩) Delta
      let pt_rot ← rotR pt R_Q.setzero (A.1.off ⟨k, hk⟩).toNat
      let pt_conv ← conv pt_v pt_rot
      pure (R_Q.add acc pt_conv)) _
    rw [he, pure_bind]
    obtain ⟨y, ey, hy, hyc⟩ := rotR_pow2 (k := n+1) (by omega) (A.1.off ⟨k, hk⟩).toNat hpt R_Q.setzero
    obtain ⟨c, ec, _, hcc⟩ := conv_spec (k := n+1) hQ (by omega) (by omega) (hc ⟨k, hk⟩) hy
    rw [ey, pure_bind, ec, pure_bind]
    obtain ⟨_, w, hwc, hws⟩ := hacc
    refine Ok.pure ⟨R_Q.canonical_add acc c,
      w + negconv (R_Q.sval (p ⟨k, hk⟩)) (autom (5^(A.1.off ⟨k, hk⟩).toNat) (R_Q.sval pt)), ?_, fun i => ?_⟩
    · rw [red_add, red_negconv, red_autom, ← hwc, ← cls_red_sval, ← cls_red_sval, ← hyc, ← hcc]
      exact R_Q.cls_add acc c
    · beta_reduce
      rw [slots_add, slots_negconv, slots_rot _ (hr ⟨k, hk⟩).1, sum_range_succ]
      have e1 : term k i = slots n (R_Q.sval (p ⟨k, hk⟩)) i * slots n (R_Q.sval pt) (shift (A.1.off ⟨k, hk⟩) i) := by
        simp only [term]
        rw [dif_pos hk]
      rw [e1, add_sub_add_right_eq_sub]
      exact hws i

/-- one product, in terms of the slots divided by the scale -/
theorem serialStep {LOGQ n : Nat} [NeZero LOGQ] (hQ : ConvLOGQ LOGQ) (hn1 : 1 ≤ n) (hn : n ≤ 16) {D : Nat} (hD : D < 63)
    (hDq : D + 3 < LOGQ) {U : Fin n → Fac (n+1)} (hU : ∀ d : Fin n, IsAdj n d (U d)) {z : Fin (2^n) → ℂ}
    (hq : (2^D : ℝ)^(n+1) * ((Real.sqrt 2 + 3 * 2^n / 2^D)^n * l2 z) < 2^(LOGQ-1)) {d : Nat} (hd : d < n) {pt : R_Q LOGQ (2^(n+1))}
    (h : R_Q.Canonical pt ∧ ∃ w, RoundedSeq U (2^D) z d w ∧ ∀ i, slots n (R_Q.sval pt) i = (2^D)^(d+1) * w i) :
    Ok (ptMvpSparse (LOGN := n+1) pt (U ⟨d, hd⟩) (BitVec.ofNat 64 (2^D))) fun r => R_Q.Canonical r ∧
      ∃ w, RoundedSeq U (2^D) z (d+1) w ∧ ∀ i, slots n (R_Q.sval r) i = (2^D)^(d+2) * w i := by
  have hδ : (((BitVec.ofNat 64 (2^D)).toNat : ℕ) : ℝ) = 2^D := by
    rw [BitVec.toNat_ofNat, Nat.mod_eq_of_lt (Nat.pow_lt_pow_right (by norm_num) (by omega))]; push_cast; rfl
  have hδ0 : (0:ℝ) < 2^D := by positivity
  have hδ1 : (1:ℝ) ≤ 2^D := one_le_pow₀ (by norm_num)
  have hw1 : (2:ℝ) * 2^D + 1/2 < 2^64 := by
    have : (2:ℝ)^D ≤ 2^62 := pow_le_pow_right₀ (by norm_num) (by omega)
    refine lt_of_le_of_lt (add_le_add_left (mul_le_mul_of_nonneg_left this (by norm_num)) _) (by norm_num)
  have hq1 : (2:ℝ) * 2^D + 1/2 < 2^(LOGQ-1) := by
    have : (2:ℝ)^(D + 2) ≤ 2^(LOGQ-1) := pow_le_pow_right₀ (by norm_num) (by omega)
    rw [pow_add (2:ℝ) D 2] at this
    linarith
  obtain ⟨hpt, w, hw, hs⟩ := h
  have hA := hU ⟨d, hd⟩
  refine Ok.mono (ptMvpSparse_exact hQ hn1 hn hpt (U ⟨d, hd⟩) hA.off hA.rng (BitVec.ofNat 64 (2^D)) hA.lt.entry
    (by rw [hδ]; exact hw1) (by rw [hδ]; exact hq1)) fun r ⟨m, v, hm, hv, hH⟩ => ⟨hH.1, ?_⟩
  rw [hδ] at hv
  obtain ⟨e, hee⟩ : ∃ e : Fin 3 → Fin (2^(n+1)) → ℝ, e = fun k j => v k j - m k j * 2^D := ⟨_, rfl⟩
  have he1 : ∀ k j, |e k j| ≤ 1/2 := fun k j => by rw [hee]; exact hv k j
  have hstep := RoundedSeq.step hd e he1 hw
  obtain ⟨w', hw'⟩ : ∃ w' : Fin (2^n) → ℂ, w' = fun i : Fin (2^n) => ∑ k : Fin 3,
        ((⟨(U ⟨d, hd⟩).1.vec k i, (U ⟨d, hd⟩).2.vec k i⟩ : ℂ) + slotOf (e k) i / (2^D : ℝ)) *
          w (shift (N := 2^n) ((U ⟨d, hd⟩).1.off k) i) := ⟨_, rfl⟩
  rw [← hw'] at hstep
  have hδc : (2:ℂ)^D ≠ 0 := pow_ne_zero _ two_ne_zero
  have hx : ∀ i : Fin (2^n), ∑ k : Fin 3, slots n (v k) i * slots n (R_Q.sval pt) (shift ((U ⟨d, hd⟩).1.off k) i) =
      (2^D)^(d+2) * w' i := by
    intro i
    rw [hw', mul_sum]
    refine sum_congr rfl fun k _ => ?_
    have h1 : slots n (v k) i = 2^D * ⟨(U ⟨d, hd⟩).1.vec k i, (U ⟨d, hd⟩).2.vec k i⟩ + slotOf (e k) i := by
      have h1 := slotOf_add (fun j => m k j * 2^D) (e k) i
      have h2 : (fun j => m k j * 2^D + e k j) = fun j => (v k j : ℝ) := by
        funext j; rw [hee]; ring
      rw [h2, slotOf_smul, hm] at h1
      push_cast at h1
      unfold slots
      rw [h1]
      ring
    rw [h1, hs, pow_succ _ (d+1)]
    push_cast
    field_simp
  refine ⟨w', hstep, fun i => ?_⟩
  have hb := (hstep.bound hU hδ0).2.1
  have hn2 : ‖(2:ℂ)^D‖ = 2^D := by rw [norm_pow]; norm_num
  have h2 := hH.sval hn1 hn (X := (2^D : ℝ)^(n+1) * ((Real.sqrt 2 + 3 * 2^n / 2^D)^n * l2 z)) (fun i => ?_) (by rw [add_zero]; exact hq) i
  · have h3 := sub_eq_zero.1 (norm_le_zero_iff.1 h2)
    rw [h3]
    exact hx i
  · have h3 : ∑ k : Fin 3, slots n (v k) i * slots n (R_Q.sval pt) (shift ((U ⟨d, hd⟩).1.off k) i) = _ := hx i
    beta_reduce
    rw [h3, norm_mul, norm_pow, hn2]
    have hs1 : 1 ≤ Real.sqrt 2 + 3 * 2^n / 2^D := by
      have : 1 ≤ Real.sqrt 2 := Real.one_le_sqrt.2 (by norm_num)
      have : (0:ℝ) ≤ 3 * 2^n / 2^D := by positivity
      linarith
    refine mul_le_mul (pow_le_pow_right₀ hδ1 (by omega)) ?_ (norm_nonneg _) (by positivity)
    refine (le_l2 w' i).trans (hb.trans ?_)
    exact mul_le_mul_of_nonneg_right (pow_le_pow_right₀ hs1 hd) (l2_nonneg _)

/-- C69: `measure_serial_matmul_error` returns. `z` is the rounded test message. It prints `expected`, √D times that as `bound`, and the
distance of the slots computed with rounded diagonals from the product of the matrices with `z`, which is at most
((√2+3N/(2Δ))^D - √2^D)‖z‖. -/
theorem C69_serial_matmul {LOGQ n : Nat} [NeZero LOGQ] (hQ : ConvLOGQ LOGQ) (hQ29 : LOGQ ≤ 2^29) (hn1 : 1 ≤ n) (hn : n ≤ 16)
    {LOGDELTA : Nat} (hD : LOGDELTA < 63) (hDq : LOGDELTA + 3 < LOGQ)
    (hq : (2 * 2^LOGDELTA + 3 * 2^n : ℝ)^n * (2^n * (2^LOGDELTA + 2^n)) < 2^(LOGQ-1)) (A0 : Fin n → Fac (n+1)) :
    Ok (measure_serial_matmul_error LOGDELTA LOGQ (n+1) A0) fun o => ∃ (z : Fin (2^n) → ℂ) (U : Fin n → Fac (n+1))
        (e : Fin n → Fin 3 → Fin (2^(n+1)) → ℝ),
      (∃ p : Fin (2^(n+1)) → Int, ∀ i : Fin (2^n), slotOf (fun k => (p k : ℝ)) i = 2^LOGDELTA * z i) ∧
      (∀ i : Fin (2^n), ‖z i - ⟨(set_test_message (n+1)).1 i, (set_test_message (n+1)).2 i⟩‖ ≤ 2^n / 2^LOGDELTA) ∧
      set_test_U0_matrix (n+1) A0 = pure U ∧ (∀ d k j, |e d k j| ≤ 1/2) ∧
      o.1 = Real.sqrt (3 * 2^(n+1) / 12) * l2 z / 2^LOGDELTA * Real.sqrt n * Real.sqrt 2 ^ (n-1) ∧
      o.2.1 = Real.sqrt n * o.1 ∧
      o.2.2 = l2 ((seqMat (mats (H := 2^n) U) n).mulVec z - roundedSeq U (2^LOGDELTA) z e n) ∧
      o.2.2 ≤ ((Real.sqrt 2 + 3 * 2^n / 2^LOGDELTA)^n - Real.sqrt 2 ^ n) * l2 z := by
  have hδ : (((BitVec.ofNat 64 (2^LOGDELTA)).toNat : ℕ) : ℝ) = 2^LOGDELTA := by
    rw [BitVec.toNat_ofNat, Nat.mod_eq_of_lt (Nat.pow_lt_pow_right (by norm_num) (by omega))]; push_cast; rfl
  have hδ0 : (0:ℝ) < 2^LOGDELTA := by positivity
  have hδ1 : (1:ℝ) ≤ 2^LOGDELTA := one_le_pow₀ (by norm_num)
  have hw1 : (2:ℝ)^LOGDELTA + 1 < 2^64 := by
    have : (2:ℝ)^LOGDELTA ≤ 2^63 := pow_le_pow_right₀ (by norm_num) (by omega)
    refine lt_of_le_of_lt (add_le_add_left this 1) (by norm_num)
  have hq1 : (2:ℝ)^LOGDELTA + 1 < 2^(LOGQ-1) := by
    have : (2:ℝ)^(LOGDELTA + 2) ≤ 2^(LOGQ-1) := pow_le_pow_right₀ (by norm_num) (by omega)
    rw [pow_add (2:ℝ) LOGDELTA 2] at this
    linarith
  unfold measure_serial_matmul_error
  rw [shl1_eq (by omega), pure_bind]
  obtain ⟨z, ez, p, hp, hpB, hzt⟩ := rounded_message (n := n) hn1 (by omega) (D := LOGDELTA) (by omega)
  obtain ⟨pt, ept, hpt, hsv⟩ := encode_exact (LOGQ := LOGQ) hn1 (by omega) (D := LOGDELTA) (by omega) hp hpB (by linarith) (by linarith)
  obtain ⟨zc, hzc⟩ : ∃ zc : Fin (2^n) → ℂ, zc = toC z.1 z.2 := ⟨_, rfl⟩
  have hzi : ∀ i, zc i = ⟨z.1 i, z.2 i⟩ := fun i => by rw [hzc]; rfl
  have hpz : ∀ i : Fin (2^n), slotOf (fun k => (p k : ℝ)) i = 2^LOGDELTA * zc i := by
    intro i
    rw [hzi, ← hp i]
    have := slotOf_smul (fun k => (p k : ℝ) / 2^LOGDELTA) (2^LOGDELTA) i
    simp only [div_mul_cancel₀ _ hδ0.ne'] at this
    rw [this]; push_cast; ring
  have hzB : ∀ i, ‖zc i‖ ≤ 1 + 2^n / 2^LOGDELTA := by
    intro i
    have h1 := hzt i
    rw [← hzi] at h1
    have h2 := test_message_norm (n+1) i
    have h3 := norm_sub_norm_le (zc i) ⟨(set_test_message (n+1)).1 i, (set_test_message (n+1)).2 i⟩
    linarith
  have hn16 : 2^n ≤ 2^16 := Nat.pow_le_pow_right (by norm_num) hn
  have hint : intM ((3 : ℤ) * (2^(n+1) : Nat)) = pure ((3 : ℤ) * (2^(n+1) : Nat)) := by
    have h0 : (0 : ℤ) ≤ (3 : ℤ) * (2^(n+1) : Nat) := by positivity
    have h3 : (3 : ℤ) * (2^(n+1) : Nat) < 2^31 := by
      have : 3 * 2^(n+1) < 2^31 := by rw [pow_succ]; omega
      exact_mod_cast this
    exact intM_ok (by linarith) (by linarith)
  have hq2 : ((2:ℝ)^LOGDELTA)^(n+1) * ((Real.sqrt 2 + 3 * 2^n / 2^LOGDELTA)^n * l2 zc) < 2^(LOGQ-1) := by
    refine lt_of_le_of_lt ?_ hq
    have h1 := l2_le hzB
    have h2 : Real.sqrt 2 ≤ 2 := Real.sqrt_le_iff.2 ⟨by norm_num, by norm_num⟩
    have h3 : ((2:ℝ)^LOGDELTA)^(n+1) * ((Real.sqrt 2 + 3 * 2^n / 2^LOGDELTA)^n * l2 zc) =
        ((Real.sqrt 2 + 3 * 2^n / 2^LOGDELTA) * 2^LOGDELTA)^n * (l2 zc * 2^LOGDELTA) := by
      rw [mul_pow, pow_succ]; ring
    rw [h3]
    refine mul_le_mul (pow_le_pow_left₀ (by positivity) ?_ n) ?_ (mul_nonneg (l2_nonneg _) hδ0.le) (by positivity)
    · rw [add_mul, div_mul_cancel₀ _ hδ0.ne']
      have := mul_le_mul_of_nonneg_right h2 hδ0.le
      linarith
    · refine (mul_le_mul_of_nonneg_right h1 hδ0.le).trans (le_of_eq ?_)
      push_cast
      rw [mul_assoc, add_mul, div_mul_cancel₀ _ hδ0.ne', one_mul]
  obtain ⟨U, eU, hU⟩ := set_test_U0_spec (n := n) (by omega) A0
  have h0n : 0 < n := hn1
  have hD1 : n + 1 - 1 = n := rfl
  rw [ez, pure_bind, hint, pure_bind, eU, pure_bind, rd_of_lt U h0n, pure_bind]
  have hmsg : ∀ {d : Nat} (hd : d < n) (t : CVec (n+1)), toC (n := 2^n) t.1 t.2 = (seqMat (mats (H := 2^n) U) d).mulVec zc →
      Ok (mvpMsg t.1 t.2 (U ⟨d, hd⟩).1 (U ⟨d, hd⟩).2) fun r =>
        toC (n := 2^n) r.1 r.2 = (seqMat (mats (H := 2^n) U) (d+1)).mulVec zc := by
    intro d hd t ht
    have hA := hU ⟨d, hd⟩
    refine Ok.mono (mvpMsg_spec (H := 2^n) (by omega) t.1 t.2 hA.rng (fun s _ => congrFun hA.off s) hA.flag.1 hA.flag.2) fun r hr => ?_
    rw [hr, ht, seqMat, mats_lt _ hd, ← Matrix.mulVec_mulVec]
  refine Ok.bind (hmsg h0n z (by rw [seqMat, Matrix.one_mulVec, hzc])) fun t1 ht1 => ?_
  refine Ok.bind (forUp_inv (P := fun d (t : CVec (n+1)) => toC (n := 2^n) t.1 t.2 = (seqMat (mats (H := 2^n) U) d).mulVec zc)
    (show 1 ≤ n from hn1) ht1 ?_) fun Uz hUz => ?_
  · intro d t _ hd ht
    have hd : d < n := hd
    rw [rd_of_lt U hd, pure_bind]
    exact hmsg hd t ht
  rw [ept, pure_bind]
  refine Ok.bind (serialStep hQ hn1 hn hD hDq hU hq2 h0n ⟨hpt, zc, RoundedSeq.start, fun i => ?_⟩) fun p1 hp1 => ?_
  · rw [hsv, zero_add, pow_one]; exact hpz i
  refine Ok.bind (forUp_inv (P := fun d (pt : R_Q LOGQ (2^(n+1))) => R_Q.Canonical pt ∧ ∃ w : Fin (2^n) → ℂ, RoundedSeq U (2^LOGDELTA) zc d w ∧
    ∀ i, slots n (R_Q.sval pt) i = (2^LOGDELTA)^(d+1) * w i) (show 1 ≤ n from hn1) hp1 ?_) fun r hr => ?_
  · intro d t _ hd ht
    have hd : d < n := hd
    rw [rd_of_lt U hd, pure_bind]
    exact serialStep hQ hn1 hn hD hDq hU hq2 hd ht
  obtain ⟨hrc, w, hw, hrs⟩ : R_Q.Canonical r ∧ ∃ w : Fin (2^n) → ℂ, RoundedSeq U (2^LOGDELTA) zc n w ∧
    ∀ i, slots n (R_Q.sval r) i = (2^LOGDELTA)^(n+1) * w i := hr
  have hle : LOGDELTA * (n + 1) ≤ 63 * 17 := Nat.mul_le_mul (by omega) (by omega)
  obtain ⟨Zt, eZ, hZt⟩ := decode_log_slot' (LOGN := n+1) (D := LOGDELTA * (n+1)) (by omega) (by omega) hQ29 (by omega) hrc
  have eZ' : decode_log (LOGN := n+1) r (LOGDELTA * (n + 1 - 1 + 1) : Nat) = pure Zt := eZ
  rw [eZ', pure_bind]
  have hterm : ∀ i : Fin (2^n), (⟨(Msg.sub Uz Zt).1 i, (Msg.sub Uz Zt).2 i⟩ : ℂ) =
      ((seqMat (mats (H := 2^n) U) n).mulVec zc - w) i := by
    intro i
    have h1 : (⟨(Msg.sub Uz Zt).1 i, (Msg.sub Uz Zt).2 i⟩ : ℂ) = toC (n := 2^n) Uz.1 Uz.2 i - ⟨Zt.1 i, Zt.2 i⟩ := rfl
    have h2 : (⟨Zt.1 i, Zt.2 i⟩ : ℂ) = slots n (R_Q.sval r) i / 2^(LOGDELTA * (n+1)) := by
      refine (hZt i).trans ?_
      have h3 := slotOf_smul (fun k => ((r k).sval : ℝ)) ((2^(LOGDELTA * (n+1)))⁻¹) i
      simp only [← div_eq_mul_inv] at h3
      rw [h3]
      push_cast
      rfl
    have hδc : ((2:ℂ)^LOGDELTA)^(n+1) ≠ 0 := pow_ne_zero _ (pow_ne_zero _ two_ne_zero)
    rw [h1, hUz, h2, hrs, Pi.sub_apply, pow_mul (2:ℂ) LOGDELTA (n+1), mul_div_cancel_left₀ _ hδc]
  have hmeas : Msg.norm (Msg.sub Uz Zt) = l2 ((seqMat (mats (H := 2^n) U) n).mulVec zc - w) := by
    rw [C45_norm]
    unfold l2
    exact congrArg Real.sqrt (sum_congr rfl fun i _ => by rw [← hterm i])
  have hnz : Msg.norm z = l2 zc := by
    rw [C45_norm]
    unfold l2
    exact congrArg Real.sqrt (sum_congr rfl fun i _ => by rw [hzi])
  obtain ⟨e, he, hwe⟩ := hw.exists
  refine Ok.pure ⟨zc, U, e, ⟨p, hpz⟩, fun i => by rw [hzi]; exact hzt i, rfl, he, ?_, rfl, by rw [← hwe]; exact hmeas, ?_⟩
  · show Real.sqrt _ * Msg.norm z / _ * _ * _ = _
    rw [hnz, hδ]
    push_cast
    rfl
  · show Msg.norm (Msg.sub Uz Zt) ≤ _
    rw [hmeas]
    refine le_of_eq_of_le ?_ (hw.bound hU hδ0).2.2
    unfold l2
    exact congrArg Real.sqrt (sum_congr rfl fun i _ => by rw [Pi.sub_apply, Pi.sub_apply, norm_sub_rev])

/-! ## the mean of the error -/

/-- the error of one product when the diagonals of `A` are off by `e` -/
noncomputable def diagErr {n : Nat} (A : Fac (n+1)) (e : Fin 3 → Fin (2^(n+1)) → ℝ) (x : Fin (2^n) → ℂ) : Fin (2^n) → ℂ := fun i =>
  ∑ k : Fin 3, slotOf (e k) i * x (shift (N := 2^n) (A.1.off k) i)

/-- the part of the error of `roundedSeq` that is linear in the rounding errors, times the scale -/
noncomputable def firstOrder {n : Nat} (U : Fin n → Fac (n+1)) (z : Fin (2^n) → ℂ) (e : Fin n → Fin 3 → Fin (2^(n+1)) → ℝ) :
    Nat → Fin (2^n) → ℂ
  | 0 => 0
  | d+1 => if hd : d < n then (mats (H := 2^n) U d).mulVec (firstOrder U z e d) +
      diagErr (U ⟨d, hd⟩) (e ⟨d, hd⟩) ((seqMat (mats (H := 2^n) U) d).mulVec z) else 0

theorem l2_diagErr {n : Nat} (A : Fac (n+1)) {e : Fin 3 → Fin (2^(n+1)) → ℝ} (he : ∀ k j, |e k j| ≤ 1/2) (x : Fin (2^n) → ℂ) :
    l2 (diagErr A e x) ≤ 3 * 2^n * l2 x := by
  have h1 : diagErr A e x = ∑ k : Fin 3, fun i : Fin (2^n) => slotOf (e k) i * x (shift (N := 2^n) (A.1.off k) i) := by
    funext i; rw [Finset.sum_apply]; rfl
  rw [h1]
  refine (l2_sum_le _ _).trans ((sum_le_sum (g := fun _ => 2^n * l2 x) fun k _ => ?_).trans (le_of_eq ?_))
  · refine l2_mul_shift_le (s := fun i => slotOf (e k) i) (by positivity) (fun i => ?_) _
    refine (norm_slotOf_le (he k) i).trans (le_of_eq ?_)
    push_cast
    rw [pow_succ (2:ℝ) n]
    ring
  · rw [sum_const, card_univ, Fintype.card_fin, nsmul_eq_mul]
    push_cast
    ring

theorem roundedSeq_rounded {n : Nat} {U : Fin n → Fac (n+1)} {Δ : ℝ} {z : Fin (2^n) → ℂ} {e : Fin n → Fin 3 → Fin (2^(n+1)) → ℝ}
    (he : ∀ d k j, |e d k j| ≤ 1/2) {d : Nat} (hd : d ≤ n) : RoundedSeq U Δ z d (roundedSeq U Δ z e d) := by
  induction d with
  | zero => exact RoundedSeq.start
  | succ d ih =>
    have hd' : d < n := hd
    rw [roundedSeq, dif_pos hd']
    exact RoundedSeq.step hd' (e ⟨d, hd'⟩) (he _) (ih (by omega))

theorem first_order {n : Nat} {U : Fin n → Fac (n+1)} (hU : ∀ d : Fin n, IsAdj n d (U d)) {Δ : ℝ} (hΔ : 0 < Δ)
    (z : Fin (2^n) → ℂ) {e : Fin n → Fin 3 → Fin (2^(n+1)) → ℝ} (he : ∀ d k j, |e d k j| ≤ 1/2) {d : Nat} (hd : d ≤ n) :
    l2 (roundedSeq U Δ z e d - (seqMat (mats (H := 2^n) U) d).mulVec z - (Δ : ℂ)⁻¹ • firstOrder U z e d) ≤
      ((Real.sqrt 2 + 3 * 2^n / Δ)^d - Real.sqrt 2 ^ d - d * (3 * 2^n / Δ) * Real.sqrt 2 ^ (d-1)) * l2 z := by
  induction d with
  | zero =>
    simp only [roundedSeq, seqMat, firstOrder, Matrix.one_mulVec, sub_self, smul_zero, l2_zero]
    simp
  | succ d ih =>
    have hd' : d < n := hd
    have ih := ih (by omega)
    have hA := hU ⟨d, hd'⟩
    have hb := ((roundedSeq_rounded (U := U) (Δ := Δ) (z := z) he (show d ≤ n by omega)).bound hU hΔ).2.2
    obtain ⟨w, hw⟩ : ∃ w, w = roundedSeq U Δ z e d := ⟨_, rfl⟩
    obtain ⟨y, hy⟩ : ∃ y, y = (seqMat (mats (H := 2^n) U) d).mulVec z := ⟨_, rfl⟩
    obtain ⟨F, hF⟩ : ∃ F, F = firstOrder U z e d := ⟨_, rfl⟩
    rw [← hw, ← hy] at hb ih
    rw [← hF] at ih
    have h1 : roundedSeq U Δ z e (d+1) = (mats (H := 2^n) U d).mulVec w + (Δ : ℂ)⁻¹ • diagErr (U ⟨d, hd'⟩) (e ⟨d, hd'⟩) w := by
      rw [roundedSeq, dif_pos hd', mats_lt _ hd', ← hw]
      funext i
      rw [Pi.add_apply, mulVec_diag hA.off, Pi.smul_apply, diagErr, smul_eq_mul, mul_sum, ← sum_add_distrib]
      refine sum_congr rfl fun k _ => ?_
      rw [add_mul, div_eq_inv_mul, mul_assoc]
    have h2 : firstOrder U z e (d+1) = (mats (H := 2^n) U d).mulVec F + diagErr (U ⟨d, hd'⟩) (e ⟨d, hd'⟩) y := by
      rw [firstOrder, dif_pos hd', ← hF, ← hy]
    have h3 : (seqMat (mats (H := 2^n) U) (d+1)).mulVec z = (mats (H := 2^n) U d).mulVec y := by
      rw [seqMat, ← Matrix.mulVec_mulVec, hy]
    have h4 : diagErr (U ⟨d, hd'⟩) (e ⟨d, hd'⟩) w - diagErr (U ⟨d, hd'⟩) (e ⟨d, hd'⟩) y = diagErr (U ⟨d, hd'⟩) (e ⟨d, hd'⟩) (w - y) := by
      funext i
      rw [Pi.sub_apply, diagErr, diagErr, diagErr, ← sum_sub_distrib]
      exact sum_congr rfl fun k _ => by rw [Pi.sub_apply]; ring
    have h5 : roundedSeq U Δ z e (d+1) - (seqMat (mats (H := 2^n) U) (d+1)).mulVec z - (Δ : ℂ)⁻¹ • firstOrder U z e (d+1) =
        (mats (H := 2^n) U d).mulVec (w - y - (Δ : ℂ)⁻¹ • F) + (Δ : ℂ)⁻¹ • diagErr (U ⟨d, hd'⟩) (e ⟨d, hd'⟩) (w - y) := by
      rw [h1, h2, h3, ← h4, Matrix.mulVec_sub, Matrix.mulVec_sub, Matrix.mulVec_smul, smul_add, smul_sub]
      abel
    rw [h5]
    refine (l2_add_le _ _).trans ?_
    rw [mats_lt _ hd', hA.l2 hd', l2_smul]
    have hn : ‖((Δ : ℂ))⁻¹‖ = Δ⁻¹ := by rw [norm_inv, Complex.norm_real, Real.norm_eq_abs, abs_of_pos hΔ]
    rw [hn]
    have h6 := mul_le_mul_of_nonneg_left ih (Real.sqrt_nonneg 2)
    have h7 := mul_le_mul_of_nonneg_left ((l2_diagErr (U ⟨d, hd'⟩) (he ⟨d, hd'⟩) (w - y)).trans
      (mul_le_mul_of_nonneg_left hb (by positivity))) (inv_nonneg.2 hΔ.le)
    have h8 : Real.sqrt 2 * (d * (3 * 2^n / Δ) * Real.sqrt 2 ^ (d-1)) = d * (3 * 2^n / Δ) * Real.sqrt 2 ^ d := by
      rcases d with _ | d
      · simp
      · rw [Nat.add_sub_cancel, pow_succ]; ring
    refine (add_le_add h6 h7).trans (le_of_eq ?_)
    rw [Nat.add_sub_cancel, pow_succ, pow_succ]
    push_cast
    have h9 : Real.sqrt 2 * (((Real.sqrt 2 + 3 * 2^n / Δ)^d - Real.sqrt 2 ^ d - d * (3 * 2^n / Δ) * Real.sqrt 2 ^ (d-1)) * l2 z) =
        Real.sqrt 2 * (((Real.sqrt 2 + 3 * 2^n / Δ)^d - Real.sqrt 2 ^ d) * l2 z) -
          Real.sqrt 2 * (d * (3 * 2^n / Δ) * Real.sqrt 2 ^ (d-1)) * l2 z := by ring
    rw [h9, h8]
    ring

/-- what the rounding error number `p` adds to `firstOrder` -/
noncomputable def foCoef {n : Nat} (U : Fin n → Fac (n+1)) (z : Fin (2^n) → ℂ) (p : Fin n × Fin 3 × Fin (2^(n+1))) :
    Nat → Fin (2^n) → ℂ
  | 0 => 0
  | d+1 => (mats (H := 2^n) U d).mulVec (foCoef U z p d) + if p.1.val = d then fun i : Fin (2^n) =>
      zeta (2^(n+1)) ^ (5^i.val * p.2.2.val) * (seqMat (mats (H := 2^n) U) d).mulVec z (shift (N := 2^n) ((U p.1).1.off p.2.1) i) else 0

theorem firstOrder_lin {n : Nat} (U : Fin n → Fac (n+1)) (z : Fin (2^n) → ℂ) (e : Fin n × Fin 3 × Fin (2^(n+1)) → ℝ) {d : Nat}
    (hd : d ≤ n) : firstOrder U z (fun d k j => e (d, k, j)) d = ∑ p, (e p : ℂ) • foCoef U z p d := by
  induction d with
  | zero => simp [firstOrder, foCoef]
  | succ d ih =>
    have hd' : d < n := hd
    rw [firstOrder, dif_pos hd', ih (by omega)]
    simp only [foCoef, smul_add, sum_add_distrib]
    congr 1
    · rw [Matrix.mulVec_sum]
      exact sum_congr rfl fun p _ => Matrix.mulVec_smul _ _ _
    · funext i
      rw [Finset.sum_apply, Fintype.sum_prod_type, sum_eq_single (⟨d, hd'⟩ : Fin n)]
      · rw [Fintype.sum_prod_type]
        unfold diagErr
        refine sum_congr rfl fun k _ => ?_
        rw [slotOf_zeta, sum_mul]
        refine sum_congr rfl fun j _ => ?_
        rw [if_pos rfl, Pi.smul_apply, smul_eq_mul, mul_assoc]
      · intro t _ ht
        refine sum_eq_zero fun q _ => ?_
        rw [if_neg (fun h => ht (Fin.ext h)), smul_zero, Pi.zero_apply]
      · intro h
        exact absurd (mem_univ _) h

theorem mats_sq {n : Nat} {U : Fin n → Fac (n+1)} (hU : ∀ d : Fin n, IsAdj n d (U d)) {d : Nat} (hd : d < n) (x : Fin (2^n) → ℂ) :
    ∑ i, ‖(mats (H := 2^n) U d).mulVec x i‖^2 = 2 * ∑ i, ‖x i‖^2 := by
  rw [mats_lt _ hd]
  exact l2_mulVec ((hU ⟨d, hd⟩).iso hd) x

theorem seqMat_sq {n : Nat} {U : Fin n → Fac (n+1)} (hU : ∀ d : Fin n, IsAdj n d (U d)) {d : Nat} (hd : d ≤ n) (x : Fin (2^n) → ℂ) :
    ∑ i, ‖(seqMat (mats (H := 2^n) U) d).mulVec x i‖^2 = 2^d * ∑ i, ‖x i‖^2 := by
  induction d with
  | zero => rw [seqMat, Matrix.one_mulVec]; simp
  | succ d ih =>
    rw [seqMat, ← Matrix.mulVec_mulVec, mats_sq hU hd, ih (by omega), pow_succ]
    ring

theorem foCoef_sq {n : Nat} {U : Fin n → Fac (n+1)} (hU : ∀ d : Fin n, IsAdj n d (U d)) (z : Fin (2^n) → ℂ)
    (p : Fin n × Fin 3 × Fin (2^(n+1))) {d : Nat} (hd : d ≤ n) :
    (d ≤ p.1.val → foCoef U z p d = 0) ∧ (p.1.val < d → ∑ i, ‖foCoef U z p d i‖^2 = 2^(d-1) * ∑ i, ‖z i‖^2) := by
  induction d with
  | zero => exact ⟨fun _ => rfl, fun h => absurd h (Nat.not_lt_zero _)⟩
  | succ d ih =>
    obtain ⟨ih1, ih2⟩ := ih (by omega)
    refine ⟨fun h => ?_, fun h => ?_⟩
    · rw [foCoef, ih1 (by omega), if_neg (by omega), Matrix.mulVec_zero, add_zero]
    · show ∑ i, ‖((mats (H := 2^n) U d).mulVec (foCoef U z p d) + if p.1.val = d then fun i : Fin (2^n) =>
        zeta (2^(n+1)) ^ (5^i.val * p.2.2.val) *
          (seqMat (mats (H := 2^n) U) d).mulVec z (shift (N := 2^n) ((U p.1).1.off p.2.1) i) else 0) i‖^2 = 2^d * _
      by_cases hpd : p.1.val = d
      · rw [if_pos hpd, ih1 hpd.ge, Matrix.mulVec_zero, zero_add]
        simp only [norm_mul, norm_zeta_pow, one_mul]
        rw [sum_shift (H := 2^n) _ fun i => ‖(seqMat (mats (H := 2^n) U) d).mulVec z i‖^2, seqMat_sq hU (by omega)]
      · rw [if_neg hpd, add_zero, mats_sq hU (by omega), ih2 (by omega)]
        obtain ⟨t, rfl⟩ : ∃ t, d = t + 1 := ⟨d - 1, by omega⟩
        rw [Nat.add_sub_cancel, pow_succ]
        ring

theorem first_order_mean {n : Nat} {U : Fin n → Fac (n+1)} (hU : ∀ d : Fin n, IsAdj n d (U d)) (z : Fin (2^n) → ℂ) :
    ∫ e in Set.univ.pi fun _ : Fin n × Fin 3 × Fin (2^(n+1)) => Set.Icc (-1/2 : ℝ) (1/2),
      ∑ i, ‖firstOrder U z (fun d k j => e (d, k, j)) n i‖^2 =
        (Real.sqrt (3 * 2^(n+1) / 12) * l2 z * Real.sqrt n * Real.sqrt 2 ^ (n-1))^2 := by
  show ∫ e in cube (Fin n × Fin 3 × Fin (2^(n+1))), _ = _
  have h : ∀ (e : Fin n × Fin 3 × Fin (2^(n+1)) → ℝ) (i : Fin (2^n)),
      firstOrder U z (fun d k j => e (d, k, j)) n i = ∑ p, foCoef U z p n i * (e p : ℂ) := by
    intro e i
    rw [firstOrder_lin U z e (le_refl n), Finset.sum_apply]
    exact sum_congr rfl fun p _ => by rw [Pi.smul_apply, smul_eq_mul, mul_comm]
  simp only [h]
  rw [integral_finsetSum _ fun i _ => cube_integrable (by fun_prop)]
  simp only [cube_linear_norm]
  rw [← mul_sum, sum_comm]
  have h2 : ∀ p : Fin n × Fin 3 × Fin (2^(n+1)), ∑ i, ‖foCoef U z p n i‖^2 = 2^(n-1) * ∑ i, ‖z i‖^2 :=
    fun p => (foCoef_sq hU z p (le_refl n)).2 p.1.isLt
  simp only [h2]
  rw [sum_const, card_univ, Fintype.card_prod, Fintype.card_prod, Fintype.card_fin, Fintype.card_fin, Fintype.card_fin, nsmul_eq_mul,
    mul_pow, mul_pow, mul_pow, l2_sq, Real.sq_sqrt (by positivity), Real.sq_sqrt (by positivity), ← pow_mul, mul_comm (n-1) 2, pow_mul,
    Real.sq_sqrt (by norm_num)]
  push_cast
  ring

theorem test_U0_adj {n : Nat} (hn : n ≤ 26) {A0 U : Fin n → Fac (n+1)} (h : set_test_U0_matrix (n+1) A0 = pure U) (d : Fin n) :
    IsAdj n d (U d) := by
  obtain ⟨U', e, hU'⟩ := set_test_U0_spec hn A0
  rw [pure_inj (h.symm.trans e)]
  exact hU' d

/-- C69: each of the matrices multiplies the norm by √2. -/
theorem C69_norm {n : Nat} (hn : n ≤ 26) {A0 U : Fin n → Fac (n+1)} (hU : set_test_U0_matrix (n+1) A0 = pure U) (d : Fin n)
    (x : Fin (2^n) → ℂ) : l2 ((denC (N := 2^n) (U d).1 (U d).2).mulVec x) = Real.sqrt 2 * l2 x :=
  (test_U0_adj hn hU d).l2 d.isLt x

/-- C69: the error that `measure_serial_matmul_error` measures is `firstOrder` over the scale, but for terms of second order. -/
theorem C69_first_order {n : Nat} (hn : n ≤ 26) {A0 U : Fin n → Fac (n+1)} (hU : set_test_U0_matrix (n+1) A0 = pure U) {Δ : ℝ}
    (hΔ : 0 < Δ) (z : Fin (2^n) → ℂ) {e : Fin n → Fin 3 → Fin (2^(n+1)) → ℝ} (he : ∀ d k j, |e d k j| ≤ 1/2) :
    l2 (roundedSeq U Δ z e n - (seqMat (mats (H := 2^n) U) n).mulVec z - (Δ : ℂ)⁻¹ • firstOrder U z e n) ≤
      ((Real.sqrt 2 + 3 * 2^n / Δ)^n - Real.sqrt 2 ^ n - n * (3 * 2^n / Δ) * Real.sqrt 2 ^ (n-1)) * l2 z :=
  first_order (test_U0_adj hn hU) hΔ z he le_rfl

/-- C69: the square of `expected` of `measure_serial_matmul_error` times the square of the scale is the mean of the square sum of the
first order error when the rounding errors of the diagonals are independent and uniform on [-1/2, 1/2]. -/
theorem C69_mean {n : Nat} (hn : n ≤ 26) {A0 U : Fin n → Fac (n+1)} (hU : set_test_U0_matrix (n+1) A0 = pure U) (z : Fin (2^n) → ℂ) :
    ∫ e in Set.univ.pi fun _ : Fin n × Fin 3 × Fin (2^(n+1)) => Set.Icc (-1/2 : ℝ) (1/2),
      ∑ i, ‖firstOrder U z (fun d k j => e (d, k, j)) n i‖^2 =
        (Real.sqrt (3 * 2^(n+1) / 12) * l2 z * Real.sqrt n * Real.sqrt 2 ^ (n-1))^2 :=
  first_order_mean (test_U0_adj hn hU) z

/-- The hypotheses hold for the parameters of section3.h at `LOGN = 15` and `LOGN = 16`. -/
example (n : Nat) (hn : n = 14 ∨ n = 15) (A0 : Fin n → Fac (n+1)) :
    Ok (measure_serial_matmul_error 50 1450 (n+1) A0) fun o => ∃ z : Fin (2^n) → ℂ,
      o.2.2 ≤ ((Real.sqrt 2 + 3 * 2^n / 2^50)^n - Real.sqrt 2 ^ n) * l2 z := by
  refine Ok.mono (C69_serial_matmul (LOGQ := 1450) (Or.inr (by norm_num)) (by norm_num) (by omega) (by omega) (by norm_num)
    (by norm_num) ?_ A0) fun o ⟨z, _, _, _, _, _, _, _, _, _, h⟩ => ⟨z, h⟩
  have h1449 : ((2:ℝ)^200)^7 ≤ 2^(1450-1) := by
    rw [← pow_mul]; exact pow_le_pow_right₀ (by norm_num) (by norm_num)
  refine lt_of_lt_of_le ?_ h1449
  have h2 : (2 * 2^50 + 3 * 2^n : ℝ) ≤ 2^52 := by
    rcases hn with rfl | rfl <;> norm_num
  have h3 : (2^n * (2^50 + 2^n) : ℝ) ≤ 2^70 := by
    rcases hn with rfl | rfl <;> norm_num
  have h4 : (2 * 2^50 + 3 * 2^n : ℝ)^n ≤ ((2:ℝ)^52)^15 :=
    (pow_le_pow_left₀ (by positivity) h2 n).trans (pow_le_pow_right₀ (by norm_num) (by omega))
  refine lt_of_le_of_lt (mul_le_mul h4 h3 (by positivity) (by positivity)) ?_
  rw [← pow_mul, ← pow_add, ← pow_mul]
  exact pow_lt_pow_right₀ (by norm_num) (by norm_num)

end EvalRound

import Verif.Proofs.FloatStC
import Verif.Spec.FloatL2

/-! # Linear transforms of ciphertexts in binary64, in the norm of the vector of slots -/

set_option linter.unusedSectionVars false

namespace EvalRound
open Z_Q Finset

/-! ## matrices -/

section
variable {H : Nat}

/-- `M` multiplies norms by at most `σ`. -/
def OpB (M : Matrix (Fin H) (Fin H) ℂ) (σ : ℝ) : Prop := ∀ x, l2 (M.mulVec x) ≤ σ * l2 x

theorem OpB.mul {M M' : Matrix (Fin H) (Fin H) ℂ} {σ σ' : ℝ} (hσ : 0 ≤ σ) (h : OpB M σ) (h' : OpB M' σ') : OpB (M * M') (σ * σ') := by
  intro x
  rw [← Matrix.mulVec_mulVec, mul_assoc]
  exact (h _).trans (mul_le_mul_of_nonneg_left (h' x) hσ)

theorem OpB.add {M M' : Matrix (Fin H) (Fin H) ℂ} {σ σ' : ℝ} (h : OpB M σ) (h' : OpB M' σ') : OpB (M + M') (σ + σ') := by
  intro x
  rw [Matrix.add_mulVec, add_mul]
  exact (l2_add_le _ _).trans (add_le_add (h x) (h' x))

theorem OpB.mono {M : Matrix (Fin H) (Fin H) ℂ} {σ σ' : ℝ} (h : OpB M σ) (hσ : σ ≤ σ') : OpB M σ' := fun x =>
  (h x).trans (mul_le_mul_of_nonneg_right hσ (l2_nonneg x))

theorem OpB.seq {Y : Nat → Matrix (Fin H) (Fin H) ℂ} {σ : ℝ} (hσ : 0 ≤ σ) {t : Nat} (h : ∀ i, i < t → OpB (Y i) σ) :
    OpB (seqMat Y t) (σ^t) := by
  induction t with
  | zero => intro x; rw [seqMat, Matrix.one_mulVec, pow_zero, one_mul]
  | succ t ih =>
    rw [seqMat, pow_succ']
    exact (h t (by omega)).mul hσ (ih fun i hi => h i (by omega))

theorem OpB.seq_near {X Y : Nat → Matrix (Fin H) (Fin H) ℂ} {σ δ : ℝ} (hσ : 0 ≤ σ) (hδ : 0 ≤ δ) {t : Nat}
    (h : ∀ i, i < t → OpB (X i - Y i) δ) (hY : ∀ i, i < t → OpB (Y i) σ) :
    OpB (seqMat X t - seqMat Y t) ((σ + δ)^t - σ^t) := by
  induction t with
  | zero => intro x; simp [seqMat, l2_zero]
  | succ t ih =>
    have i1 := ih (fun i hi => h i (by omega)) fun i hi => hY i (by omega)
    have hX : OpB (X t) (σ + δ) := by
      have := (hY t (by omega)).add (h t (by omega))
      rwa [add_sub_cancel] at this
    have k := (hX.mul (by linarith) i1).add ((h t (by omega)).mul hδ (OpB.seq (t := t) hσ fun i hi => hY i (by omega)))
    have e : X t * (seqMat X t - seqMat Y t) + (X t - Y t) * seqMat Y t = seqMat X (t+1) - seqMat Y (t+1) := by
      rw [seqMat, seqMat, Matrix.mul_sub, Matrix.sub_mul]; abel
    rw [e] at k
    refine k.mono (le_of_eq ?_)
    rw [pow_succ, pow_succ]
    ring

theorem l2_sup {n : Nat} {x : Fin (2^n) → ℂ} {B : ℝ} (hB : ∀ i, ‖x i‖ ≤ B) : l2 x ≤ Real.sqrt 2 ^ n * B := by
  have h0 : 0 ≤ B := (norm_nonneg _).trans (hB ⟨0, Nat.two_pow_pos n⟩)
  refine Real.sqrt_le_iff.2 ⟨by positivity, ?_⟩
  refine (sum_le_sum (g := fun _ => B^2) fun i _ => pow_le_pow_left₀ (norm_nonneg _) (hB i) 2).trans (le_of_eq ?_)
  rw [sum_const, card_univ, Fintype.card_fin, nsmul_eq_mul, mul_pow, ← pow_mul, mul_comm n 2, pow_mul, Real.sq_sqrt (by norm_num)]
  push_cast
  rfl

theorem RowNearC.op {n : Nat} {X Y : Matrix (Fin (2^n)) (Fin (2^n)) ℂ} {e : ℝ} (h : RowNearC X Y e) : OpB (X - Y) (Real.sqrt 2 ^ n * e) := by
  intro x
  have k := l2_sup (x := (X - Y).mulVec x) (B := e * l2 x) fun i => by
    rw [Matrix.sub_mulVec, Pi.sub_apply]
    exact h.mulVec (fun j => le_l2 x j) i
  rwa [← mul_assoc] at k

theorem OpB.near {X Y : Matrix (Fin H) (Fin H) ℂ} {σ δ : ℝ} (hY : OpB Y σ) (h : OpB (X - Y) δ) : OpB X (σ + δ) := by
  have := hY.add h
  rwa [add_sub_cancel] at this

end

theorem ctsR_op {n : Nat} (hn : 1 ≤ n) {d : Nat} (hd : d < n) : OpB (ctsR n d) (Real.sqrt 2 / 2) := by
  intro x
  unfold ctsR
  rw [Matrix.smul_mulVec, l2_smul, norm_ctsC, l2_of_iso (by norm_num) (ctw_iso' (by omega)), ← mul_assoc]
  refine mul_le_mul_of_nonneg_right ?_ (l2_nonneg x)
  have h1 := ctsC_le hn
  have h2 := mul_le_mul_of_nonneg_right h1 (Real.sqrt_nonneg 2)
  linarith

theorem stcR_op {n : Nat} {c : Nat → ℂ} (hc : ∀ d, ‖c d‖ = 1) {d : Nat} (hd : d < n) : OpB (stcR n c d) (Real.sqrt 2) := by
  intro x
  unfold stcR
  rw [Matrix.smul_mulVec, l2_smul, hc, one_mul, l2_of_iso (by norm_num) (ctw_iso hd)]

/-! ## one transform -/

variable {LOGQ n S D : Nat} [NeZero LOGQ]

/-- the norm of the slots of a small polynomial -/
theorem l2_slots_le {w : Fin (2^(n+1)) → Int} {ε : ℝ} (h : ∀ k, |(w k : ℝ)| ≤ ε) : l2 (slots n w) ≤ Real.sqrt 2 * 2^n * ε := by
  have h0 : 0 ≤ ε := (abs_nonneg _).trans (h ⟨0, Nat.two_pow_pos _⟩)
  have e := slots_l2 (n := n) fun k => (w k : ℝ)
  have e' : l2 (slots n w) = Real.sqrt 2 ^ n * l2 (pairC n fun k => (w k : ℝ)) := e
  rw [e']
  have k : l2 (pairC n fun k => (w k : ℝ)) ≤ Real.sqrt 2 ^ (n+1) * ε := by
    rw [← pair_const h0]
    exact pair_mono fun k => by rw [abs_of_nonneg h0]; exact h k
  refine (mul_le_mul_of_nonneg_left k (by positivity)).trans (le_of_eq ?_)
  have e2 : Real.sqrt 2 ^ n * Real.sqrt 2 ^ n = 2^n := by
    rw [← mul_pow, Real.mul_self_sqrt (by norm_num)]
  rw [pow_succ]
  linear_combination (Real.sqrt 2 * ε) * e2

theorem linTransF_l2 {L : Libm} (hLib : L.Accurate) (R LOGDELTA : Nat) (hD : LOGDELTA < 64) (h1 : ConvLOGQ LOGQ) (h2 : ConvLOGQ (2 * LOGQ))
    (hn1 : 1 ≤ n) (hn : n ≤ 16) {s : Fin (2^(n+1)) → Int} (hs : Ternary s)
    {A : SD2 (2^n) S} {ρ : ℝ} (hA : LTMat A ρ)
    {β : ℝ} (hβ : ∀ s i, ‖(⟨A.1.vec s i, A.2.vec s i⟩ : ℂ)‖ ≤ β) (hβ0 : 0 ≤ β)
    (hw : β * 2^LOGDELTA * (1 + 1/2^40) + 2 ≤ 2^64) (hq : β * 2^LOGDELTA * (1 + 1/2^40) + 2 ≤ 2^(LOGQ-1))
    {ct : R_Q_square LOGQ (2^(n+1))} (hct : ct.Canonical) {m : Fin (2^(n+1)) → Int}
    (hm : R_Q_square.phase s ct = red LOGQ m) (ω : Rng) :
    Ok (linTransF (LOGN := n+1) L R LOGDELTA A ct s ω) fun r => r.1.Canonical ∧ ∃ w : Fin (2^(n+1)) → Int,
      R_Q_square.phase s r.1 = red LOGQ w ∧
      ∀ Z : ℝ, l2 (slots n m) ≤ Z →
        l2 (slots n w - (2:ℂ)^LOGDELTA • (SparseDiagonal.denC A.1 A.2).mulVec (slots n m)) ≤
          ltErr2 n S (weight s) β (2^LOGDELTA) Z := by
  have hlt : 2^LOGDELTA < 2^64 := Nat.pow_lt_pow_right (by norm_num) hD
  have hv : (BitVec.ofNat 64 (2^LOGDELTA)).toNat = 2^LOGDELTA := by
    rw [BitVec.toNat_ofNat, Nat.mod_eq_of_lt hlt]
  have hvr : ((BitVec.ofNat 64 (2^LOGDELTA)).toNat : ℝ) = 2^LOGDELTA := by rw [hv]; push_cast; rfl
  have henc : ∀ t : Fin S, ∃ pt : R_Q LOGQ (2^(n+1)),
      encodeF L LOGQ (LOGN := n+1) (A.1.vec t, A.2.vec t) (BitVec.ofNat 64 (2^LOGDELTA)) = pure pt ∧ pt.Canonical ∧
      (∀ i, ‖slots n (R_Q.sval pt) i - 2^LOGDELTA * ⟨A.1.vec t i, A.2.vec t i⟩‖ ≤ encTol n (β * 2^LOGDELTA)) := by
    intro t
    have := encodeF_slots hLib (Q := LOGQ) hn1 (by omega) (A.1.vec t, A.2.vec t) (BitVec.ofNat 64 (2^LOGDELTA)) (scale_ne_zero hD)
      (B := β) (hβ t) (by rw [hvr]; exact hw) (by rw [hvr]; exact hq)
    obtain ⟨pt, e, h3, h4⟩ := this
    refine ⟨pt, e, h3, fun i => ?_⟩
    have := h4 i
    rw [hvr, hv] at this
    push_cast at this
    exact this
  choose pt hp1 hp2 hp3 using henc
  have hτ : 0 ≤ encTol n (β * 2^LOGDELTA) := encTol_nonneg (by positivity)
  unfold ltErr2
  set τ := encTol n (β * 2^LOGDELTA) with hτd
  have key := linTransF_spec' L (k := n+1) R LOGDELTA hD h1 h2 (by omega) (by omega) hs (A := A) hA.off (pt := pt)
    (fun t _ => ⟨hp1 t, hp2 t⟩) (p := fun t => R_Q.sval (pt t)) (fun t _ => cls_red_sval (pt t)) hct hm ω
  refine Ok.mono key ?_
  rintro r ⟨hr, F, hF, hph⟩
  set E : Fin (2^(n+1)) → Int := ∑ t, if Act A t then negconv (R_Q.sval (pt t)) (F t) else 0 with hEdef
  refine ⟨hr, ltSum A (fun t => R_Q.sval (pt t)) m + E, hph, fun Z hZ => ?_⟩
  have hsum : ∀ i, slots n (ltSum A (fun t => R_Q.sval (pt t)) m) i =
      ∑ t, if Act A t then slots n (R_Q.sval (pt t)) i * slots n m (shift (A.1.off t) i) else 0 := by
    intro i
    unfold ltSum
    rw [slots_sum]
    refine sum_congr rfl fun t _ => ?_
    split
    · rw [slots_negconv, slots_rot _ (hA.rng t).1]
    · unfold slots
      simp only [Pi.zero_apply, Int.cast_zero]
      exact slotOf_zero _
  have hsE : ∀ i, slots n E i = ∑ t, if Act A t then slots n (R_Q.sval (pt t)) i * slots n (F t) i else 0 := by
    intro i
    rw [hEdef, slots_sum]
    refine sum_congr rfl fun t _ => ?_
    split
    · rw [slots_negconv]
    · unfold slots
      simp only [Pi.zero_apply, Int.cast_zero]
      exact slotOf_zero _
  have hdiff : slots n (ltSum A (fun t => R_Q.sval (pt t)) m + E) - (2:ℂ)^LOGDELTA • (SparseDiagonal.denC A.1 A.2).mulVec (slots n m) =
      (∑ t, if Act A t then (fun i => (slots n (R_Q.sval (pt t)) i - 2^LOGDELTA * ⟨A.1.vec t i, A.2.vec t i⟩) *
        slots n m (shift (A.1.off t) i)) else 0) + ∑ t, if Act A t then (fun i => slots n (R_Q.sval (pt t)) i * slots n (F t) (shift 0 i)) else 0 := by
    funext i
    have hs0 : shift 0 i = i := shift_zero i
    simp only [Pi.add_apply, Pi.sub_apply, Pi.smul_apply, smul_eq_mul, Finset.sum_apply]
    rw [slots_add, denC_mulVec hA, hsum, hsE, mul_sum, add_sub_right_comm, ← sum_sub_distrib]
    congr 1
    · refine sum_congr rfl fun t _ => ?_
      split
      · ring
      · simp
    · refine sum_congr rfl fun t _ => ?_
      split
      · simp only [hs0]
      · simp
  rw [hdiff]
  have hZ0 : 0 ≤ Z := (l2_nonneg _).trans hZ
  have hb1 : l2 (∑ t, if Act A t then (fun i => (slots n (R_Q.sval (pt t)) i - 2^LOGDELTA * ⟨A.1.vec t i, A.2.vec t i⟩) *
        slots n m (shift (A.1.off t) i)) else 0) ≤ S * (τ * Z) := by
    refine (l2_sum_le _ _).trans ?_
    refine (sum_le_sum (g := fun _ : Fin S => τ * Z) fun t _ => ?_).trans (le_of_eq (by simp))
    split
    · exact (l2_mul_shift_le (x := slots n m) hτ (hp3 t) _).trans (mul_le_mul_of_nonneg_left hZ hτ)
    · rw [l2_zero]; positivity
  have hF' : ∀ t, l2 (slots n (F t)) ≤ Real.sqrt 2 * 2^n * (8 * 2^(n+1) + ((weight s : ℝ) + 1) / 2) := by
    intro t
    refine l2_slots_le fun k => ?_
    have h3 := hF t k
    have h4 : ((2 * |F t k| : ℤ) : ℝ) ≤ ((16 * 2^(n+1) + weight s + 1 : ℤ) : ℝ) := by exact_mod_cast h3
    push_cast at h4
    linarith
  have hp4 : ∀ t i, ‖slots n (R_Q.sval (pt t)) i‖ ≤ β * 2^LOGDELTA + τ := by
    intro t i
    have h3 := hp3 t i
    have h4 := norm_sub_norm_le (slots n (R_Q.sval (pt t)) i) (2^LOGDELTA * ⟨A.1.vec t i, A.2.vec t i⟩)
    rw [norm_mul, norm_pow, Complex.norm_ofNat] at h4
    have h5 := mul_le_mul_of_nonneg_left (hβ t i) (show (0:ℝ) ≤ 2^LOGDELTA by positivity)
    linarith
  have hb2 : l2 (∑ t, if Act A t then (fun i => slots n (R_Q.sval (pt t)) i * slots n (F t) (shift 0 i)) else 0) ≤
      S * ((β * 2^LOGDELTA + τ) * (Real.sqrt 2 * 2^n * (8 * 2^(n+1) + ((weight s : ℝ) + 1) / 2))) := by
    refine (l2_sum_le _ _).trans ?_
    refine (sum_le_sum (g := fun _ : Fin S => (β * 2^LOGDELTA + τ) *
      (Real.sqrt 2 * 2^n * (8 * 2^(n+1) + ((weight s : ℝ) + 1) / 2))) fun t _ => ?_).trans (le_of_eq (by simp))
    split
    · exact (l2_mul_shift_le (x := slots n (F t)) (by positivity) (hp4 t) _).trans (mul_le_mul_of_nonneg_left (hF' t) (by positivity))
    · rw [l2_zero]; positivity
  refine (l2_add_le _ _).trans ((add_le_add hb1 hb2).trans (le_of_eq ?_))
  ring

theorem ltErr2_nonneg {n S h : Nat} {β Δ Z : ℝ} (hβ : 0 ≤ β) (hΔ : 0 ≤ Δ) (hZ : 0 ≤ Z) : 0 ≤ ltErr2 n S h β Δ Z := by
  have := encTol_nonneg (n := n) (mul_nonneg hβ hΔ)
  unfold ltErr2; positivity

theorem ltSize2_nonneg {n S h : Nat} {σ β Δ Z : ℝ} (hσ : 0 ≤ σ) (hβ : 0 ≤ β) (hΔ : 0 ≤ Δ) (hZ : 0 ≤ Z) (d : Nat) :
    0 ≤ ltSize2 n S h σ β Δ Z d := by
  induction d with
  | zero => exact hZ
  | succ d ih => rw [ltSize2]; have := ltErr2_nonneg (n := n) (S := S) (h := h) hβ hΔ ih; positivity

/-! ## several transforms -/

theorem serialLTF_l2 {L : Libm} (hLib : L.Accurate) (R LOGDELTA : Nat) (hD : LOGDELTA < 64) (h1 : ConvLOGQ LOGQ) (h2 : ConvLOGQ (2 * LOGQ))
    (hn1 : 1 ≤ n) (hn : n ≤ 16) {s : Fin (2^(n+1)) → Int} (hs : Ternary s) {D : Nat}
    {A : Fin D → SD2 (2^n) S} {ρ : ℝ} (hA : ∀ d, LTMat (A d) ρ) {σ : ℝ} (hσ : 0 ≤ σ)
    (hop : ∀ d : Fin D, OpB (SparseDiagonal.denC (A d).1 (A d).2) σ)
    {β : ℝ} (hβ : ∀ d s i, ‖(⟨(A d).1.vec s i, (A d).2.vec s i⟩ : ℂ)‖ ≤ β) (hβ0 : 0 ≤ β)
    (hw : β * 2^LOGDELTA * (1 + 1/2^40) + 2 ≤ 2^64) (hq : β * 2^LOGDELTA * (1 + 1/2^40) + 2 ≤ 2^(LOGQ-1))
    {ct : R_Q_square LOGQ (2^(n+1))} (hct : ct.Canonical) {m : Fin (2^(n+1)) → Int}
    (hm : R_Q_square.phase s ct = red LOGQ m) (ω : Rng) :
    Ok (serialLTF (LOGN := n+1) L R LOGDELTA A ct s ω) fun r => r.1.Canonical ∧ ∃ w : Fin (2^(n+1)) → Int,
      R_Q_square.phase s r.1 = red LOGQ w ∧
      ∀ Z : ℝ, l2 (slots n m) ≤ Z →
        l2 (slots n w - ((2:ℂ)^LOGDELTA)^D • (seqMat (mats A) D).mulVec (slots n m)) ≤
          ltSize2 n S (weight s) σ β (2^LOGDELTA) Z D - (2^LOGDELTA * σ)^D * Z := by
  unfold serialLTF
  rw [R_Q_square.copy_eq]
  refine forUp_inv (Nat.zero_le D) (P := fun d (st : R_Q_square LOGQ (2^(n+1)) × Rng) => st.1.Canonical ∧
      ∃ w : Fin (2^(n+1)) → Int, R_Q_square.phase s st.1 = red LOGQ w ∧
      ∀ Z : ℝ, l2 (slots n m) ≤ Z →
        l2 (slots n w - ((2:ℂ)^LOGDELTA)^d • (seqMat (mats A) d).mulVec (slots n m)) ≤
          ltSize2 n S (weight s) σ β (2^LOGDELTA) Z d - (2^LOGDELTA * σ)^d * Z) ?_ ?_
  · refine ⟨hct, m, hm, fun Z hZ => ?_⟩
    rw [seqMat, Matrix.one_mulVec, ltSize2, pow_zero, pow_zero, one_mul, one_smul, sub_self, sub_self, l2_zero]
  · rintro d ⟨acc, ω'⟩ _ hd ⟨hacc, w, hph, hw'⟩
    simp only [] at hacc hph ⊢
    rw [rd_of_lt A hd, pure_bind, R_Q_square.copy_eq]
    refine Ok.mono (linTransF_l2 hLib R LOGDELTA hD h1 h2 hn1 hn hs (hA ⟨d, hd⟩) (hβ ⟨d, hd⟩) hβ0 hw hq hacc hph ω') ?_
    rintro r ⟨hr, w', hph', hw''⟩
    refine ⟨hr, w', hph', fun Z hZ => ?_⟩
    have hZ0 : 0 ≤ Z := (l2_nonneg _).trans hZ
    have hΔ : (0:ℝ) ≤ 2^LOGDELTA := by positivity
    have hΔn : ‖(2:ℂ)^LOGDELTA‖ = 2^LOGDELTA := by rw [norm_pow, Complex.norm_ofNat]
    have g1 := hw' Z hZ
    have hsz : l2 (slots n w) ≤ ltSize2 n S (weight s) σ β (2^LOGDELTA) Z d := by
      have g2 := l2_add_le (slots n w - ((2:ℂ)^LOGDELTA)^d • (seqMat (mats A) d).mulVec (slots n m))
        (((2:ℂ)^LOGDELTA)^d • (seqMat (mats A) d).mulVec (slots n m))
      rw [sub_add_cancel] at g2
      have g3 : OpB (seqMat (mats A) d) (σ^d) := OpB.seq hσ fun i hi => by
        rw [mats_lt A (by omega : i < D)]; exact hop _
      have g4 : l2 (((2:ℂ)^LOGDELTA)^d • (seqMat (mats A) d).mulVec (slots n m)) ≤ (2^LOGDELTA * σ)^d * Z := by
        rw [l2_smul, norm_pow, hΔn, mul_pow, mul_assoc]
        refine mul_le_mul_of_nonneg_left ((g3 _).trans (mul_le_mul_of_nonneg_left hZ (by positivity))) (by positivity)
      linarith
    have k1 := hw'' _ hsz
    have k2 : l2 ((2:ℂ)^LOGDELTA • (SparseDiagonal.denC (A ⟨d, hd⟩).1 (A ⟨d, hd⟩).2).mulVec (slots n w) -
        ((2:ℂ)^LOGDELTA)^(d+1) • (seqMat (mats A) (d+1)).mulVec (slots n m)) ≤
        2^LOGDELTA * (σ * (ltSize2 n S (weight s) σ β (2^LOGDELTA) Z d - (2^LOGDELTA * σ)^d * Z)) := by
      have e : (2:ℂ)^LOGDELTA • (SparseDiagonal.denC (A ⟨d, hd⟩).1 (A ⟨d, hd⟩).2).mulVec (slots n w) -
          ((2:ℂ)^LOGDELTA)^(d+1) • (seqMat (mats A) (d+1)).mulVec (slots n m) =
          (2:ℂ)^LOGDELTA • (SparseDiagonal.denC (A ⟨d, hd⟩).1 (A ⟨d, hd⟩).2).mulVec
            (slots n w - ((2:ℂ)^LOGDELTA)^d • (seqMat (mats A) d).mulVec (slots n m)) := by
        rw [seqMat, ← Matrix.mulVec_mulVec, mats_lt A hd, Matrix.mulVec_sub, Matrix.mulVec_smul, smul_sub, smul_smul, pow_succ']
      rw [e, l2_smul, hΔn]
      exact mul_le_mul_of_nonneg_left ((hop ⟨d, hd⟩ _).trans (mul_le_mul_of_nonneg_left g1 hσ)) hΔ
    have k3 := l2_add_le (slots n w' - (2:ℂ)^LOGDELTA • (SparseDiagonal.denC (A ⟨d, hd⟩).1 (A ⟨d, hd⟩).2).mulVec (slots n w))
      ((2:ℂ)^LOGDELTA • (SparseDiagonal.denC (A ⟨d, hd⟩).1 (A ⟨d, hd⟩).2).mulVec (slots n w) -
        ((2:ℂ)^LOGDELTA)^(d+1) • (seqMat (mats A) (d+1)).mulVec (slots n m))
    rw [sub_add_sub_cancel] at k3
    refine k3.trans ((add_le_add k1 k2).trans (le_of_eq ?_))
    rw [ltSize2]
    ring

/-- the groups together, from the bounds on each one -/
theorem serialLTF_near2 {L : Libm} (hLib : L.Accurate) (R LOGDELTA : Nat) (hD : LOGDELTA < 64) (h1 : ConvLOGQ LOGQ) (h2 : ConvLOGQ (2 * LOGQ))
    (hn1 : 1 ≤ n) (hn : n ≤ 16) {s : Fin (2^(n+1)) → Int} (hs : Ternary s) {T : Nat → Matrix (Fin (2^n)) (Fin (2^n)) ℂ}
    {G : Nat} {B : Fin D → SD2 (2^n) S} (hB : ∀ i : Fin D, GroupF T G i (B i))
    {ρ : ℝ} (hrow : ∀ i, i < D → ∀ p, ∑ q, ‖seqMat (fun j => T (G * i + j)) G p q‖ ≤ ρ)
    {σ : ℝ} (hσ : 0 ≤ σ) (hop : ∀ i, i < D → OpB (seqMat (fun j => T (G * i + j)) G) σ)
    {β : ℝ} (hβ0 : 0 ≤ β) (hβ : ∀ i, i < D → ∀ p q, ‖seqMat (fun j => T (G * i + j)) G p q‖ ≤ β)
    (hw : (β + matUlp G) * 2^LOGDELTA * (1 + 1/2^40) + 2 ≤ 2^64) (hq : (β + matUlp G) * 2^LOGDELTA * (1 + 1/2^40) + 2 ≤ 2^(LOGQ-1))
    {ct : R_Q_square LOGQ (2^(n+1))} (hct : ct.Canonical) {m : Fin (2^(n+1)) → Int}
    (hm : R_Q_square.phase s ct = red LOGQ m) (ω : Rng) :
    Ok (serialLTF (LOGN := n+1) L R LOGDELTA B ct s ω) fun r => r.1.Canonical ∧ ∃ w : Fin (2^(n+1)) → Int,
      R_Q_square.phase s r.1 = red LOGQ w ∧
      ∀ Z : ℝ, l2 (slots n m) ≤ Z →
        l2 (slots n w - ((2:ℂ)^LOGDELTA)^D • (seqMat T (G * D)).mulVec (slots n m)) ≤
          ltSize2 n S (weight s) (σ + Real.sqrt 2 ^ n * matUlp G) (β + matUlp G) (2^LOGDELTA) Z D - (2^LOGDELTA * σ)^D * Z := by
  have hδ := matUlp_nonneg G
  have hδ' : 0 ≤ Real.sqrt 2 ^ n * matUlp G := by positivity
  refine Ok.mono (serialLTF_l2 hLib R LOGDELTA hD h1 h2 hn1 hn hs (A := B) (ρ := ρ + matUlp G)
    (fun d => (hB d).1.lt fun p => (hB d).2.row_le (hrow d d.isLt) p) (σ := σ + Real.sqrt 2 ^ n * matUlp G) (by linarith)
    (fun d => (hop d d.isLt).near (hB d).2.op) (β := β + matUlp G)
    (fun d t i => ((hB d).1.entry t i).trans ((hB d).2.entry_le (hβ d d.isLt) _ _)) (by linarith) hw hq hct hm ω) ?_
  rintro r ⟨hr, w, hph, hW⟩
  refine ⟨hr, w, hph, fun Z hZ => ?_⟩
  have k1 := hW Z hZ
  have hΔn : ‖(2:ℂ)^LOGDELTA‖ = 2^LOGDELTA := by rw [norm_pow, Complex.norm_ofNat]
  have nr : OpB (seqMat (mats B) D - seqMat T (G * D)) ((σ + Real.sqrt 2 ^ n * matUlp G)^D - σ^D) := by
    have e := seqMat_group (A := T) (B := fun i => seqMat (fun j => T (G * i + j)) G) (g := G) (t := D) (fun _ _ => rfl)
    rw [← e]
    refine OpB.seq_near hσ hδ' (fun i hi => ?_) hop
    rw [mats_lt B hi]
    exact (hB ⟨i, hi⟩).2.op
  have hge : 0 ≤ (σ + Real.sqrt 2 ^ n * matUlp G)^D - σ^D := by
    have := pow_le_pow_left₀ hσ (show σ ≤ σ + Real.sqrt 2 ^ n * matUlp G by linarith) D
    linarith
  have k2 := (nr (slots n m)).trans (mul_le_mul_of_nonneg_left hZ hge)
  have e1 : slots n w - ((2:ℂ)^LOGDELTA)^D • (seqMat T (G * D)).mulVec (slots n m) =
      (slots n w - ((2:ℂ)^LOGDELTA)^D • (seqMat (mats B) D).mulVec (slots n m)) +
      ((2:ℂ)^LOGDELTA)^D • (seqMat (mats B) D - seqMat T (G * D)).mulVec (slots n m) := by
    rw [Matrix.sub_mulVec, smul_sub]; abel
  rw [e1]
  refine (l2_add_le _ _).trans ?_
  rw [l2_smul, norm_pow, hΔn]
  have k3 := mul_le_mul_of_nonneg_left k2 (show (0:ℝ) ≤ (2^LOGDELTA)^D by positivity)
  refine (add_le_add k1 k3).trans (le_of_eq ?_)
  rw [mul_pow, mul_pow]
  ring

/-- `grouped_serial_linear_transform` in binary64 -/
theorem groupedLTF_l2 {L : Libm} (hLib : L.Accurate) (R LOGDELTA : Nat) (hL : LOGDELTA < 64) (h1 : ConvLOGQ LOGQ) (h2 : ConvLOGQ (2 * LOGQ))
    (hn1 : 1 ≤ n) (hn : n ≤ 16) {s : Fin (2^(n+1)) → Int} (hs : Ternary s)
    {A : Fin D → SD2 (2^n) 3} {T : Nat → Matrix (Fin (2^n)) (Fin (2^n)) ℂ} (hA : NearFactors A T)
    {σ : ℝ} (hσ : 0 ≤ σ) (hop : ∀ d, d < D → OpB (T d) σ) {G : Nat} (hG1 : 1 ≤ G) (hG : G ≤ 4) (hD : D % G = 0)
    {β : ℝ} (hβ0 : 0 ≤ β) (hβ : ∀ i, i < D/G → ∀ p q, ‖seqMat (fun j => T (G * i + j)) G p q‖ ≤ β)
    (hw : (β + matUlp G) * 2^LOGDELTA * (1 + 1/2^40) + 2 ≤ 2^64) (hq : (β + matUlp G) * 2^LOGDELTA * (1 + 1/2^40) + 2 ≤ 2^(LOGQ-1))
    {ct : R_Q_square LOGQ (2^(n+1))} (hct : ct.Canonical) {m : Fin (2^(n+1)) → Int}
    (hm : R_Q_square.phase s ct = red LOGQ m) (ω : Rng) :
    Ok (groupedLTF (LOGN := n+1) L R LOGDELTA G A ct s ω) fun r => r.1.Canonical ∧ ∃ w : Fin (2^(n+1)) → Int,
      R_Q_square.phase s r.1 = red LOGQ w ∧
      ∀ Z : ℝ, l2 (slots n m) ≤ Z →
        l2 (slots n w - ((2:ℂ)^LOGDELTA)^(D/G) • (seqMat T D).mulVec (slots n m)) ≤
          ltSize2 n (3^G) (weight s) (σ^G + Real.sqrt 2 ^ n * matUlp G) (β + matUlp G) (2^LOGDELTA) Z (D/G) -
            (2^LOGDELTA * σ^G)^(D/G) * Z := by
  have hH : 2^n ≤ 2^30 := Nat.pow_le_pow_right (by norm_num) (by omega)
  have hH1 : 1 ≤ 2^n := Nat.one_le_two_pow
  have hrow' : ∀ i, i < D/G → ∀ p, ∑ q, ‖seqMat (fun j => T (G * i + j)) G p q‖ ≤ 2^G := fun i hi p =>
    row_seq zero_le_two (fun j hj => hA.row _ (div_idx hi hj)) p
  have hop' : ∀ i, i < D/G → OpB (seqMat (fun j => T (G * i + j)) G) (σ^G) := fun i hi =>
    OpB.seq hσ fun j hj => hop _ (div_idx hi hj)
  have hmul : G * (D/G) = D := Nat.mul_div_cancel' (Nat.dvd_of_mod_eq_zero hD)
  have hσG : 0 ≤ σ^G := pow_nonneg hσ G
  rw [show seqMat T D = seqMat T (G * (D/G)) by rw [hmul]]
  interval_cases G
  · show Ok (serialLTF L R LOGDELTA A ct s ω) _
    have k := serialLTF_near2 hLib R LOGDELTA hL h1 h2 hn1 hn hs (B := A) (D := D) (G := 1) (fun i => hA.one i)
      (fun i hi => hrow' i (by rw [Nat.div_one]; exact hi)) hσG (fun i hi => hop' i (by rw [Nat.div_one]; exact hi))
      hβ0 (fun i hi => hβ i (by rw [Nat.div_one]; exact hi)) hw hq hct hm ω
    simp only [Nat.div_one]
    exact k
  · show Ok (group2F A >>= _) _
    exact Ok.bind (group2F_spec hH hH1 hA hD) fun B hB =>
      serialLTF_near2 hLib R LOGDELTA hL h1 h2 hn1 hn hs hB hrow' hσG hop' hβ0 hβ hw hq hct hm ω
  · show Ok (group3F A >>= _) _
    exact Ok.bind (group3F_spec hH hH1 hA hD) fun B hB =>
      serialLTF_near2 hLib R LOGDELTA hL h1 h2 hn1 hn hs hB hrow' hσG hop' hβ0 hβ hw hq hct hm ω
  · show Ok (group4F A >>= _) _
    exact Ok.bind (group4F_spec hH hH1 hA hD) fun B hB =>
      serialLTF_near2 hLib R LOGDELTA hL h1 h2 hn1 hn hs hB hrow' hσG hop' hβ0 hβ hw hq hct hm ω

end EvalRound

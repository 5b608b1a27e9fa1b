import Verif.Proofs.FloatCtS
import Verif.Proofs.FloatEndecode

/-! # Linear transforms of ciphertexts in binary64 -/

set_option linter.unusedSectionVars false

namespace EvalRound
open Z_Q Finset

section
variable {LOGQ k S : Nat} [NeZero LOGQ]

/-- the error, one term for every diagonal -/
theorem linTransF_spec' (L : Libm) (R LOGDELTA : Nat) (hD : LOGDELTA < 64) (h1 : ConvLOGQ LOGQ) (h2 : ConvLOGQ (2 * LOGQ))
    (hk1 : 1 ≤ k) (hk : k ≤ 17) {s : Fin (2^k) → Int} (hs : Ternary s)
    {A : SD2 (2^(k-1)) S} (hoff : A.1.off = A.2.off) {pt : Fin S → R_Q LOGQ (2^k)}
    (hpt : ∀ t, Act A t → encodeF L LOGQ (LOGN := k) (A.1.vec t, A.2.vec t) (BitVec.ofNat 64 (2^LOGDELTA)) = pure (pt t) ∧
      (pt t).Canonical) {p : Fin S → Fin (2^k) → Int} (hp : ∀ t, Act A t → R_Q.cls (pt t) = red LOGQ (p t))
    {ct : R_Q_square LOGQ (2^k)} (hct : ct.Canonical) {m : Fin (2^k) → Int}
    (hm : R_Q_square.phase s ct = red LOGQ m) (ω : Rng) :
    Ok (linTransF L R LOGDELTA A ct s ω) fun r => r.1.Canonical ∧ ∃ F : Fin S → Fin (2^k) → Int,
      (∀ t i, 2 * |F t i| ≤ 16 * 2^k + weight s + 1) ∧
      R_Q_square.phase s r.1 = red LOGQ (ltSum A p m + ∑ t, if Act A t then negconv (p t) (F t) else 0) := by
  unfold linTransF
  have e2 : ltSum A p m = _ := sum_fin_range (S := S) (fun t =>
    if Act A t then negconv (p t) (autom (5^(A.1.off t).toNat) m) else 0)
  rw [e2]
  have key := forUp_inv (P := fun n (st : R_Q_square LOGQ (2^k) × Rng) => st.1.Canonical ∧ ∃ F : Nat → Fin (2^k) → Int,
      (∀ t i, 2 * |F t i| ≤ 16 * 2^k + weight s + 1) ∧
      R_Q_square.phase s st.1 = red LOGQ ((∑ n ∈ range n, if h : n < S then
        (if Act A ⟨n, h⟩ then negconv (p ⟨n, h⟩) (autom (5^(A.1.off ⟨n, h⟩).toNat) m) else 0) else 0) +
        ∑ n ∈ range n, if h : n < S then (if Act A ⟨n, h⟩ then negconv (p ⟨n, h⟩) (F n) else 0) else 0))
    (s := (R_Q_square.setzero, ω)) (body := fun n st => if h : n < S then ltStepF L R LOGDELTA A ct s ⟨n, h⟩ st else ub)
    (Nat.zero_le S) ?_ ?_
  · refine Ok.mono key fun r ⟨hr, F, hF, hph⟩ => ⟨hr, fun t => F t, fun t => hF t, ?_⟩
    rw [hph, sum_fin_range (S := S) (fun t => if Act A t then negconv (p t) (F t) else 0)]
  · refine ⟨⟨R_Q.canonical_setzero, R_Q.canonical_setzero⟩, fun _ => 0, fun t i => ?_, ?_⟩
    · simp only [Pi.zero_apply, abs_zero, mul_zero]; positivity
    rw [range_zero, sum_empty, sum_empty, add_zero, red_zero, phase_eq]
    show R_Q.cls (R_Q.setzero : R_Q LOGQ (2^k)) + negconv _ (R_Q.cls (R_Q.setzero : R_Q LOGQ (2^k))) = 0
    rw [R_Q.cls_setzero, zero_add]
    funext i
    unfold negconv
    simp
  · rintro n ⟨acc, ω⟩ _ hn ⟨hacc, F, hF, hph⟩
    simp only [] at hacc hph
    rw [dif_pos hn]
    unfold ltStepF
    rw [show decide (A.1.off ⟨n, hn⟩ = A.2.off ⟨n, hn⟩) = true by rw [hoff]; simp]
    rw [show assertM true = pure () from rfl, pure_bind]
    simp only [sum_range_succ, dif_pos hn]
    by_cases ha : Act A ⟨n, hn⟩
    · have hz : ¬ (A.1.zero ⟨n, hn⟩ && A.2.zero ⟨n, hn⟩) = true := by
        rw [Bool.and_eq_true]; exact ha
      rw [if_neg hz, if_pos ha]
      simp only [if_pos ha]
      unfold shl1
      rw [if_pos hD, pure_bind, (hpt _ ha).1, pure_bind]
      refine Ok.bind (ltRot_spec R h2 hk1 hk hs hct _ hm ω) fun r ⟨hr, E', hE', hph'⟩ => ?_
      refine Ok.bind (mulR_phase h1 hk1 hk hr (hpt _ ha).2 s) fun y ⟨hy, hyp⟩ => Ok.pure ⟨⟨R_Q.canonical_add _ _, R_Q.canonical_add _ _⟩, ?_⟩
      refine ⟨Function.update F n E', fun t i => ?_, ?_⟩
      · by_cases h : t = n
        · rw [h, Function.update_self]; exact hE' i
        · rw [Function.update_of_ne h]; exact hF t i
      · have e3 : (∑ x ∈ range n, if h : x < S then (if Act A ⟨x, h⟩ then negconv (p ⟨x, h⟩) (Function.update F n E' x) else 0) else 0) =
            ∑ x ∈ range n, if h : x < S then (if Act A ⟨x, h⟩ then negconv (p ⟨x, h⟩) (F x) else 0) else 0 :=
          sum_congr rfl fun x hx => by
            rw [Function.update_of_ne (by have := mem_range.1 hx; omega)]
        rw [e3, Function.update_self]
        simp only []
        rw [phase_add, hph, hyp, hph', hp _ ha, ← red_negconv, negconv_comm, negconv_add, ← red_add]
        congr 1
        abel
    · have hz : (A.1.zero ⟨n, hn⟩ && A.2.zero ⟨n, hn⟩) = true := by
        rw [Bool.and_eq_true]; exact not_not.1 ha
      rw [if_pos hz]
      simp only [if_neg ha, add_zero]
      exact Ok.pure ⟨hacc, F, hF, hph⟩

end

variable {LOGQ n S D : Nat} [NeZero LOGQ]

theorem encTol_nonneg {b : ℝ} (hb : 0 ≤ b) : 0 ≤ encTol n b := by unfold encTol; positivity

theorem encTol_mono {b b' : ℝ} (h : b ≤ b') : encTol n b ≤ encTol n b' := by
  unfold encTol; gcongr

/-- with a bound `C` for the coefficients that may be smaller than the bound for the slots -/
theorem encodeF_slotsc {L : Libm} (hL : L.Accurate) {Q : Nat} [NeZero Q] (h1 : 1 ≤ n) (hn : n ≤ 26) (z : CVec (n+1)) (Delta : W) (hD : Delta ≠ 0) {B C : ℝ}
    (hz : ∀ i : Fin (2^n), ‖(⟨z.1 i, z.2 i⟩ : ℂ)‖ ≤ B)
    (hC : ∀ m : Fin (2^(n+1)) → ℝ, (∀ i : Fin (2^n), slotOf m i = ⟨z.1 i, z.2 i⟩) → ∀ k, |m k| ≤ C) (hCB : C ≤ B)
    (hB : B * Delta.toNat ≤ 2^100)
    (hw : C * Delta.toNat + B * Delta.toNat / 2^40 + 2 ≤ 2^64) (hq : C * Delta.toNat + B * Delta.toNat / 2^40 + 2 ≤ 2^(Q-1)) :
    Ok (encodeF L Q z Delta) fun pt => R_Q.Canonical pt ∧
      (∀ i : Fin (2^n), ‖slots n (R_Q.sval pt) i - Delta.toNat * ⟨z.1 i, z.2 i⟩‖ ≤ encTol n (B * Delta.toNat)) ∧
      ∃ m : Fin (2^(n+1)) → ℝ, (∀ i : Fin (2^n), slotOf m i = ⟨z.1 i, z.2 i⟩) ∧
        ∀ k, |((pt k).sval : ℝ) - m k * Delta.toNat| ≤ 1/2 + (28 * n + 6) * (B * Delta.toNat) / 2^53 + 1/2^900 := by
  refine Ok.mono (encodeF_l2c hL h1 hn z Delta hD hz hC hCB hB hw hq) ?_
  rintro pt ⟨m, y, hm, hy, hl⟩
  have hu53 : (28 * n + 6) * uF * (B * Delta.toNat) = (28 * n + 6) * (B * Delta.toNat) / 2^53 := by rw [uF_eq]; ring
  refine ⟨fun k => (hy k).1, fun i => ?_, m, hm, fun k => ?_⟩
  rotate_left
  · have h3 := (abs_le_pair (fun k => y k - m k * Delta.toNat) k).trans hl
    have h4 : 2^106 * etaF ≤ 1/2^900 := tiny_le' (mul_le_mul_of_nonneg_right (by norm_num) etaF_pos.le)
    have h5 := (hy k).2
    have h6 := abs_sub_le ((pt k).sval : ℝ) (y k) (m k * Delta.toNat)
    beta_reduce at h3
    rw [hu53] at h3
    linarith
  have a1 : ‖slots n (R_Q.sval pt) i - slotOf y i‖ ≤ 2^n := by
    unfold slots
    refine (slotOf_sub_le (ε := 1/2) (fun k => (hy k).2) i).trans (le_of_eq ?_)
    push_cast; ring
  have a2 : slotOf y i - Delta.toNat * (⟨z.1 i, z.2 i⟩ : ℂ) = slotOf (fun k => y k - m k * Delta.toNat) i := by
    rw [← hm i, mul_comm, ← Complex.ofReal_natCast, ← slotOf_smul, ← slotOf_sub]
  have a3 : ‖slotOf (fun k => y k - m k * Delta.toNat) i‖ ≤ Real.sqrt 2 ^ n * ((28 * n + 6) * uF * (B * Delta.toNat) + 2^106 * etaF) := by
    have h3 := le_l2 (fun i : Fin (2^n) => slotOf (fun k => y k - m k * Delta.toNat) i) i
    rw [slots_l2] at h3
    exact h3.trans (mul_le_mul_of_nonneg_left hl (by positivity))
  have a4 : Real.sqrt 2 ^ n * (2^106 * etaF) ≤ 1/2^900 := by
    refine tiny_le' ?_
    have h5 : Real.sqrt 2 ^ n ≤ 2^26 := by
      have h6 : Real.sqrt 2 ≤ 2 := by rw [Real.sqrt_le_left (by norm_num)]; norm_num
      exact (pow_le_pow_left₀ (Real.sqrt_nonneg 2) h6 n).trans (pow_le_pow_right₀ (by norm_num) hn)
    have h7 : (2:ℝ)^170 = 2^26 * (2^38 * 2^106) := by norm_num
    rw [h7, mul_assoc, mul_assoc]
    refine mul_le_mul h5 ?_ (mul_nonneg (by positivity) etaF_pos.le) (by positivity)
    have := mul_nonneg (show (0:ℝ) ≤ 2^106 by positivity) etaF_pos.le
    have : 1 * (2^106 * etaF) ≤ 2^38 * (2^106 * etaF) := mul_le_mul_of_nonneg_right (by norm_num) this
    linarith
  have a5 : slots n (R_Q.sval pt) i - Delta.toNat * (⟨z.1 i, z.2 i⟩ : ℂ) =
      (slots n (R_Q.sval pt) i - slotOf y i) + (slotOf y i - Delta.toNat * (⟨z.1 i, z.2 i⟩ : ℂ)) := by ring
  rw [a5, a2]
  refine (norm_add_le _ _).trans ((add_le_add a1 a3).trans ?_)
  unfold encTol
  rw [hu53, mul_add]
  linarith

theorem encodeF_slots {L : Libm} (hL : L.Accurate) {Q : Nat} [NeZero Q] (h1 : 1 ≤ n) (hn : n ≤ 26) (z : CVec (n+1)) (Delta : W) (hD : Delta ≠ 0) {B : ℝ}
    (hz : ∀ i : Fin (2^n), ‖(⟨z.1 i, z.2 i⟩ : ℂ)‖ ≤ B)
    (hw : B * Delta.toNat * (1 + 1/2^40) + 2 ≤ 2^64) (hq : B * Delta.toNat * (1 + 1/2^40) + 2 ≤ 2^(Q-1)) :
    Ok (encodeF L Q z Delta) fun pt => R_Q.Canonical pt ∧
      ∀ i : Fin (2^n), ‖slots n (R_Q.sval pt) i - Delta.toNat * ⟨z.1 i, z.2 i⟩‖ ≤ encTol n (B * Delta.toNat) := by
  have hB0 : 0 ≤ B := (norm_nonneg _).trans (hz ⟨0, Nat.two_pow_pos n⟩)
  have hBΔ0 : 0 ≤ B * Delta.toNat := by positivity
  refine Ok.mono (encodeF_slotsc hL h1 hn z Delta hD hz
    (fun m hm => coeff_le_slots h1 hn fun i => by rw [hm i]; exact hz i) le_rfl ?_ (le_trans (le_of_eq ?_) hw) (le_trans (le_of_eq ?_) hq))
    fun pt h => ⟨h.1, h.2.1⟩
  · have : (2:ℝ)^64 ≤ 2^100 := pow_le_pow_right₀ (by norm_num) (by norm_num)
    linarith
  · ring
  · ring

/-- with a bound `β` for the entries that may be smaller than the bound for the rows -/
theorem linTransF_slots {L : Libm} (hLib : L.Accurate) (R LOGDELTA : Nat) (hD : LOGDELTA < 64) (h1 : ConvLOGQ LOGQ) (h2 : ConvLOGQ (2 * LOGQ))
    (hn1 : 1 ≤ n) (hn : n ≤ 16) {s : Fin (2^(n+1)) → Int} (hs : Ternary s)
    {A : SD2 (2^n) S} {ρ : ℝ} (hA : LTMat A ρ)
    {β : ℝ} (hβ : ∀ s i, ‖(⟨A.1.vec s i, A.2.vec s i⟩ : ℂ)‖ ≤ β) (hβ0 : 0 ≤ β)
    (hw : β * 2^LOGDELTA * (1 + 1/2^40) + 2 ≤ 2^64) (hq : β * 2^LOGDELTA * (1 + 1/2^40) + 2 ≤ 2^(LOGQ-1))
    {ct : R_Q_square LOGQ (2^(n+1))} (hct : ct.Canonical) {m : Fin (2^(n+1)) → Int}
    (hm : R_Q_square.phase s ct = red LOGQ m) (ω : Rng) :
    Ok (linTransF (LOGN := n+1) L R LOGDELTA A ct s ω) fun r => r.1.Canonical ∧ ∃ w : Fin (2^(n+1)) → Int,
      R_Q_square.phase s r.1 = red LOGQ w ∧
      ∀ Z : ℝ, (∀ i, ‖slots n m i‖ ≤ Z) → ∀ i,
        ‖slots n w i - 2^LOGDELTA * (SparseDiagonal.denC A.1 A.2).mulVec (slots n m) i‖ ≤
          ltErrF n S (weight s) β (2^LOGDELTA) Z := by
  have hlt : 2^LOGDELTA < 2^64 := Nat.pow_lt_pow_right (by norm_num) hD
  have hv : (BitVec.ofNat 64 (2^LOGDELTA)).toNat = 2^LOGDELTA := by
    rw [BitVec.toNat_ofNat, Nat.mod_eq_of_lt hlt]
  have hvr : ((BitVec.ofNat 64 (2^LOGDELTA)).toNat : ℝ) = 2^LOGDELTA := by rw [hv]; push_cast; rfl
  have henc : ∀ t : Fin S, ∃ pt : R_Q LOGQ (2^(n+1)),
      encodeF L LOGQ (LOGN := n+1) (A.1.vec t, A.2.vec t) (BitVec.ofNat 64 (2^LOGDELTA)) = pure pt ∧ pt.Canonical ∧
      (∀ i, ‖slots n (R_Q.sval pt) i - 2^LOGDELTA * ⟨A.1.vec t i, A.2.vec t i⟩‖ ≤ encTol n (β * 2^LOGDELTA)) := by
    intro t
    have := encodeF_slots hLib (Q := LOGQ) hn1 (by omega) (A.1.vec t, A.2.vec t) (BitVec.ofNat 64 (2^LOGDELTA)) (scale_ne_zero hD)
      (B := β) (hβ t) (by rw [hvr]; exact hw) (by rw [hvr]; exact hq)
    obtain ⟨pt, e, h3, h4⟩ := this
    refine ⟨pt, e, h3, fun i => ?_⟩
    have := h4 i
    rw [hvr, hv] at this
    push_cast at this
    exact this
  choose pt hp1 hp2 hp3 using henc
  have hτ : 0 ≤ encTol n (β * 2^LOGDELTA) := encTol_nonneg (by positivity)
  unfold ltErrF
  set τ := encTol n (β * 2^LOGDELTA) with hτd
  have key := linTransF_spec' L (k := n+1) R LOGDELTA hD h1 h2 (by omega) (by omega) hs (A := A) hA.off (pt := pt)
    (fun t _ => ⟨hp1 t, hp2 t⟩) (p := fun t => R_Q.sval (pt t)) (fun t _ => cls_red_sval (pt t)) hct hm ω
  refine Ok.mono key ?_
  rintro r ⟨hr, F, hF, hph⟩
  set E : Fin (2^(n+1)) → Int := ∑ t, if Act A t then negconv (R_Q.sval (pt t)) (F t) else 0 with hEdef
  refine ⟨hr, ltSum A (fun t => R_Q.sval (pt t)) m + E, hph, fun Z hZ i => ?_⟩
  rw [slots_add, denC_mulVec hA]
  have hsum : slots n (ltSum A (fun t => R_Q.sval (pt t)) m) i =
      ∑ t, if Act A t then slots n (R_Q.sval (pt t)) i * slots n m (shift (A.1.off t) i) else 0 := by
    unfold ltSum
    rw [slots_sum]
    refine sum_congr rfl fun t _ => ?_
    split
    · rw [slots_negconv, slots_rot _ (hA.rng t).1]
    · unfold slots
      simp only [Pi.zero_apply, Int.cast_zero]
      exact slotOf_zero _
  have hdiff : slots n (ltSum A (fun t => R_Q.sval (pt t)) m) i + slots n E i - 2^LOGDELTA *
      (∑ t, if Act A t then (⟨A.1.vec t i, A.2.vec t i⟩ : ℂ) * slots n m (shift (A.1.off t) i) else 0) =
      (∑ t, if Act A t then (slots n (R_Q.sval (pt t)) i - 2^LOGDELTA * ⟨A.1.vec t i, A.2.vec t i⟩) *
        slots n m (shift (A.1.off t) i) else 0) + slots n E i := by
    rw [hsum, mul_sum, add_sub_right_comm, ← sum_sub_distrib]
    congr 1
    refine sum_congr rfl fun t _ => ?_
    split
    · ring
    · ring
  rw [hdiff]
  have hZ0 : 0 ≤ Z := (norm_nonneg _).trans (hZ i)
  have hb1 : ‖∑ t, if Act A t then (slots n (R_Q.sval (pt t)) i - 2^LOGDELTA * ⟨A.1.vec t i, A.2.vec t i⟩) *
        slots n m (shift (A.1.off t) i) else 0‖ ≤ S * (τ * Z) := by
    refine (norm_sum_le _ _).trans ?_
    refine (sum_le_sum (g := fun _ : Fin S => τ * Z) fun t _ => ?_).trans (le_of_eq (by simp))
    split
    · rw [norm_mul]
      exact mul_le_mul (hp3 t i) (hZ _) (norm_nonneg _) (by positivity)
    · rw [norm_zero]; positivity
  have hsE : slots n E i = ∑ t, if Act A t then slots n (R_Q.sval (pt t)) i * slots n (F t) i else 0 := by
    rw [hEdef, slots_sum]
    refine sum_congr rfl fun t _ => ?_
    split
    · rw [slots_negconv]
    · unfold slots
      simp only [Pi.zero_apply, Int.cast_zero]
      exact slotOf_zero _
  have hF' : ∀ t, ‖slots n (F t) i‖ ≤ 2^(n+1) * (8 * 2^(n+1) + ((weight s : ℝ) + 1) / 2) := by
    intro t
    refine norm_slots_le (fun k => ?_) i
    have h3 := hF t k
    have h4 : ((2 * |F t k| : ℤ) : ℝ) ≤ ((16 * 2^(n+1) + weight s + 1 : ℤ) : ℝ) := by exact_mod_cast h3
    push_cast at h4
    linarith
  have hp4 : ∀ t, ‖slots n (R_Q.sval (pt t)) i‖ ≤ β * 2^LOGDELTA + τ := by
    intro t
    have h3 := hp3 t i
    have h4 := norm_sub_norm_le (slots n (R_Q.sval (pt t)) i) (2^LOGDELTA * ⟨A.1.vec t i, A.2.vec t i⟩)
    rw [norm_mul, norm_pow, Complex.norm_ofNat] at h4
    have h5 := mul_le_mul_of_nonneg_left (hβ t i) (show (0:ℝ) ≤ 2^LOGDELTA by positivity)
    linarith
  have hb2 : ‖slots n E i‖ ≤ S * ((β * 2^LOGDELTA + τ) * (2^(n+1) * (8 * 2^(n+1) + ((weight s : ℝ) + 1) / 2))) := by
    rw [hsE]
    refine (norm_sum_le _ _).trans ?_
    refine (sum_le_sum (g := fun _ : Fin S => (β * 2^LOGDELTA + τ) *
      (2^(n+1) * (8 * 2^(n+1) + ((weight s : ℝ) + 1) / 2))) fun t _ => ?_).trans (le_of_eq (by simp))
    split
    · rw [norm_mul]
      exact mul_le_mul (hp4 t) (hF' t) (norm_nonneg _) (by positivity)
    · rw [norm_zero]; positivity
  refine (norm_add_le _ _).trans ((add_le_add hb1 hb2).trans (le_of_eq ?_))
  ring

theorem ltErrF_nonneg {n S h : Nat} {β Δ Z : ℝ} (hβ : 0 ≤ β) (hΔ : 0 ≤ Δ) (hZ : 0 ≤ Z) : 0 ≤ ltErrF n S h β Δ Z := by
  have := encTol_nonneg (n := n) (mul_nonneg hβ hΔ)
  unfold ltErrF; positivity

theorem ltSizeF_nonneg {n S h : Nat} {ρ β Δ Z : ℝ} (hρ : 0 ≤ ρ) (hβ : 0 ≤ β) (hΔ : 0 ≤ Δ) (hZ : 0 ≤ Z) (d : Nat) :
    0 ≤ ltSizeF n S h ρ β Δ Z d := by
  induction d with
  | zero => exact hZ
  | succ d ih => rw [ltSizeF]; have := ltErrF_nonneg (n := n) (S := S) (h := h) hβ hΔ ih; positivity

/-- with a bound `β` for the entries that may be smaller than the bound for the rows -/
theorem serialLTF_slots {L : Libm} (hLib : L.Accurate) (R LOGDELTA : Nat) (hD : LOGDELTA < 64) (h1 : ConvLOGQ LOGQ) (h2 : ConvLOGQ (2 * LOGQ))
    (hn1 : 1 ≤ n) (hn : n ≤ 16) {s : Fin (2^(n+1)) → Int} (hs : Ternary s) {D : Nat}
    {A : Fin D → SD2 (2^n) S} {ρ : ℝ} (hA : ∀ d, LTMat (A d) ρ) (hρ : 0 ≤ ρ)
    {β : ℝ} (hβ : ∀ d s i, ‖(⟨(A d).1.vec s i, (A d).2.vec s i⟩ : ℂ)‖ ≤ β) (hβ0 : 0 ≤ β)
    (hw : β * 2^LOGDELTA * (1 + 1/2^40) + 2 ≤ 2^64) (hq : β * 2^LOGDELTA * (1 + 1/2^40) + 2 ≤ 2^(LOGQ-1))
    {ct : R_Q_square LOGQ (2^(n+1))} (hct : ct.Canonical) {m : Fin (2^(n+1)) → Int}
    (hm : R_Q_square.phase s ct = red LOGQ m) (ω : Rng) :
    Ok (serialLTF (LOGN := n+1) L R LOGDELTA A ct s ω) fun r => r.1.Canonical ∧ ∃ w : Fin (2^(n+1)) → Int,
      R_Q_square.phase s r.1 = red LOGQ w ∧
      ∀ Z : ℝ, (∀ i, ‖slots n m i‖ ≤ Z) → ∀ i,
        ‖slots n w i - (2^LOGDELTA)^D * (seqMat (mats A) D).mulVec (slots n m) i‖ ≤
          ltSizeF n S (weight s) ρ β (2^LOGDELTA) Z D - (2^LOGDELTA * ρ)^D * Z := by
  unfold serialLTF
  rw [R_Q_square.copy_eq]
  refine forUp_inv (Nat.zero_le D) (P := fun d (st : R_Q_square LOGQ (2^(n+1)) × Rng) => st.1.Canonical ∧
      ∃ w : Fin (2^(n+1)) → Int, R_Q_square.phase s st.1 = red LOGQ w ∧
      ∀ Z : ℝ, (∀ i, ‖slots n m i‖ ≤ Z) → ∀ i,
        ‖slots n w i - (2^LOGDELTA)^d * (seqMat (mats A) d).mulVec (slots n m) i‖ ≤
          ltSizeF n S (weight s) ρ β (2^LOGDELTA) Z d - (2^LOGDELTA * ρ)^d * Z) ?_ ?_
  · refine ⟨hct, m, hm, fun Z hZ i => ?_⟩
    rw [seqMat, Matrix.one_mulVec, ltSizeF, pow_zero, pow_zero, one_mul, one_mul, sub_self, sub_self, norm_zero]
  · rintro d ⟨acc, ω'⟩ _ hd ⟨hacc, w, hph, hw'⟩
    simp only [] at hacc hph ⊢
    rw [rd_of_lt A hd, pure_bind, R_Q_square.copy_eq]
    refine Ok.mono (linTransF_slots hLib R LOGDELTA hD h1 h2 hn1 hn hs (hA ⟨d, hd⟩) (hβ ⟨d, hd⟩) hβ0 hw hq hacc hph ω') ?_
    rintro r ⟨hr, w', hph', hw''⟩
    refine ⟨hr, w', hph', fun Z hZ i => ?_⟩
    have hZ0 : 0 ≤ Z := (norm_nonneg _).trans (hZ i)
    have hΔ : (0:ℝ) ≤ 2^LOGDELTA := by positivity
    have hΔn : ‖(2:ℂ)^LOGDELTA‖ = 2^LOGDELTA := by rw [norm_pow, Complex.norm_ofNat]
    have hsz : ∀ i, ‖slots n w i‖ ≤ ltSizeF n S (weight s) ρ β (2^LOGDELTA) Z d := by
      intro i
      have g1 := hw' Z hZ i
      have g2 := norm_sub_norm_le (slots n w i) ((2^LOGDELTA)^d * (seqMat (mats A) d).mulVec (slots n m) i)
      have g3 := seqMat_norm hρ hA hZ (by omega : d ≤ D) i
      have g4 : ‖((2:ℂ)^LOGDELTA)^d * (seqMat (mats A) d).mulVec (slots n m) i‖ ≤ (2^LOGDELTA * ρ)^d * Z := by
        rw [norm_mul, norm_pow, hΔn, mul_pow, mul_assoc]
        exact mul_le_mul_of_nonneg_left g3 (by positivity)
      linarith
    have k1 := hw'' _ hsz i
    have k2 : ‖(2:ℂ)^LOGDELTA * (SparseDiagonal.denC (A ⟨d, hd⟩).1 (A ⟨d, hd⟩).2).mulVec (slots n w) i -
        (2^LOGDELTA)^(d+1) * (seqMat (mats A) (d+1)).mulVec (slots n m) i‖ ≤
        2^LOGDELTA * (ρ * (ltSizeF n S (weight s) ρ β (2^LOGDELTA) Z d - (2^LOGDELTA * ρ)^d * Z)) := by
      have e : (2:ℂ)^LOGDELTA * (SparseDiagonal.denC (A ⟨d, hd⟩).1 (A ⟨d, hd⟩).2).mulVec (slots n w) i -
          (2^LOGDELTA)^(d+1) * (seqMat (mats A) (d+1)).mulVec (slots n m) i =
          2^LOGDELTA * (SparseDiagonal.denC (A ⟨d, hd⟩).1 (A ⟨d, hd⟩).2).mulVec
            (fun i => slots n w i - (2^LOGDELTA)^d * (seqMat (mats A) d).mulVec (slots n m) i) i := by
        rw [seqMat, ← Matrix.mulVec_mulVec, mats_lt A hd]
        have : (fun i => slots n w i - ((2:ℂ)^LOGDELTA)^d * (seqMat (mats A) d).mulVec (slots n m) i) =
            slots n w - (((2:ℂ)^LOGDELTA)^d) • (seqMat (mats A) d).mulVec (slots n m) := rfl
        rw [this, Matrix.mulVec_sub, Matrix.mulVec_smul]
        simp only [Pi.sub_apply, Pi.smul_apply, smul_eq_mul]
        ring
      rw [e, norm_mul, hΔn]
      refine mul_le_mul_of_nonneg_left (mulVec_norm (hA ⟨d, hd⟩).row ?_ (hw' Z hZ) i) hΔ
      exact (norm_nonneg _).trans (hw' Z hZ i)
    have k3 := norm_sub_le_norm_sub_add_norm_sub (slots n w' i)
      ((2:ℂ)^LOGDELTA * (SparseDiagonal.denC (A ⟨d, hd⟩).1 (A ⟨d, hd⟩).2).mulVec (slots n w) i)
      ((2^LOGDELTA)^(d+1) * (seqMat (mats A) (d+1)).mulVec (slots n m) i)
    refine k3.trans ((add_le_add k1 k2).trans (le_of_eq ?_))
    rw [ltSizeF]
    ring

/-! ## Groups -/

section
variable {H : Nat}

theorem row_seq {Y : Nat → Matrix (Fin H) (Fin H) ℂ} {ρ : ℝ} (hρ : 0 ≤ ρ) {t : Nat} (h : ∀ i, i < t → ∀ p, ∑ q, ‖Y i p q‖ ≤ ρ)
    (p : Fin H) : ∑ q, ‖seqMat Y t p q‖ ≤ ρ^t := by
  induction t generalizing p with
  | zero =>
    rw [seqMat, pow_zero]
    refine (sum_le_sum (g := fun j => if j = p then (1:ℝ) else 0) fun j _ => ?_).trans (le_of_eq (by simp))
    rw [Matrix.one_apply]
    by_cases hj : j = p
    · rw [if_pos hj, if_pos hj.symm, norm_one]
    · rw [if_neg hj, if_neg (Ne.symm hj), norm_zero]
  | succ t ih =>
    rw [seqMat, pow_succ']
    exact row_mul (pow_nonneg hρ t) (h t (by omega)) (fun p => ih (fun i hi => h i (by omega)) p) p

theorem seqMat_near {X Y : Nat → Matrix (Fin H) (Fin H) ℂ} {ρ δ : ℝ} (hρ : 0 ≤ ρ) (hδ : 0 ≤ δ) {t : Nat}
    (h : ∀ i, i < t → RowNearC (X i) (Y i) δ) (hY : ∀ i, i < t → ∀ p, ∑ q, ‖Y i p q‖ ≤ ρ) :
    RowNearC (seqMat X t) (seqMat Y t) ((ρ + δ)^t - ρ^t) := by
  induction t with
  | zero => intro p; simp [seqMat]
  | succ t ih =>
    rw [seqMat, seqMat]
    have k := (h t (by omega)).mul (ih (fun i hi => h i (by omega)) fun i hi => hY i (by omega)) (hY t (by omega))
      (row_seq hρ fun i hi => hY i (by omega)) (pow_nonneg hρ t)
      (by have := pow_le_pow_left₀ hρ (show ρ ≤ ρ + δ by linarith) t; linarith)
    refine k.mono (le_of_eq ?_)
    rw [pow_succ, pow_succ]
    ring

theorem RowNearC.mulVec {X Y : Matrix (Fin H) (Fin H) ℂ} {e : ℝ} (h : RowNearC X Y e) {z : Fin H → ℂ} {Z : ℝ} (hZ : ∀ i, ‖z i‖ ≤ Z) (i : Fin H) :
    ‖X.mulVec z i - Y.mulVec z i‖ ≤ e * Z := by
  have e1 : X.mulVec z i - Y.mulVec z i = (X - Y).mulVec z i := by rw [Matrix.sub_mulVec, Pi.sub_apply]
  rw [e1]
  exact mulVec_norm (fun i => h i) ((norm_nonneg _).trans (hZ i)) hZ i

end

/-- the groups together, from the bounds on each one -/
theorem serialLTF_near {L : Libm} (hLib : L.Accurate) (R LOGDELTA : Nat) (hD : LOGDELTA < 64) (h1 : ConvLOGQ LOGQ) (h2 : ConvLOGQ (2 * LOGQ))
    (hn1 : 1 ≤ n) (hn : n ≤ 16) {s : Fin (2^(n+1)) → Int} (hs : Ternary s) {T : Nat → Matrix (Fin (2^n)) (Fin (2^n)) ℂ}
    {G : Nat} {B : Fin D → SD2 (2^n) S} (hB : ∀ i : Fin D, GroupF T G i (B i))
    {ρ : ℝ} (hρ : 0 ≤ ρ) (hrow : ∀ i, i < D → ∀ p, ∑ q, ‖seqMat (fun j => T (G * i + j)) G p q‖ ≤ ρ)
    {β : ℝ} (hβ0 : 0 ≤ β) (hβ : ∀ i, i < D → ∀ p q, ‖seqMat (fun j => T (G * i + j)) G p q‖ ≤ β)
    (hw : (β + matUlp G) * 2^LOGDELTA * (1 + 1/2^40) + 2 ≤ 2^64) (hq : (β + matUlp G) * 2^LOGDELTA * (1 + 1/2^40) + 2 ≤ 2^(LOGQ-1))
    {ct : R_Q_square LOGQ (2^(n+1))} (hct : ct.Canonical) {m : Fin (2^(n+1)) → Int}
    (hm : R_Q_square.phase s ct = red LOGQ m) (ω : Rng) :
    Ok (serialLTF (LOGN := n+1) L R LOGDELTA B ct s ω) fun r => r.1.Canonical ∧ ∃ w : Fin (2^(n+1)) → Int,
      R_Q_square.phase s r.1 = red LOGQ w ∧
      ∀ Z : ℝ, (∀ i, ‖slots n m i‖ ≤ Z) → ∀ i,
        ‖slots n w i - (2^LOGDELTA)^D * (seqMat T (G * D)).mulVec (slots n m) i‖ ≤
          ltSizeF n S (weight s) (ρ + matUlp G) (β + matUlp G) (2^LOGDELTA) Z D - (2^LOGDELTA * ρ)^D * Z := by
  have hδ := matUlp_nonneg G
  refine Ok.mono (serialLTF_slots hLib R LOGDELTA hD h1 h2 hn1 hn hs (A := B) (ρ := ρ + matUlp G)
    (fun d => (hB d).1.lt fun p => (hB d).2.row_le (hrow d d.isLt) p) (by linarith) (β := β + matUlp G)
    (fun d t i => ((hB d).1.entry t i).trans ((hB d).2.entry_le (hβ d d.isLt) _ _)) (by linarith) hw hq hct hm ω) ?_
  rintro r ⟨hr, w, hph, hW⟩
  refine ⟨hr, w, hph, fun Z hZ i => ?_⟩
  have k1 := hW Z hZ i
  have hΔ : (0:ℝ) < 2^LOGDELTA := by positivity
  have hΔn : ‖(2:ℂ)^LOGDELTA‖ = 2^LOGDELTA := by rw [norm_pow, Complex.norm_ofNat]
  have nr : RowNearC (seqMat (mats B) D) (seqMat T (G * D)) ((ρ + matUlp G)^D - ρ^D) := by
    have e := seqMat_group (A := T) (B := fun i => seqMat (fun j => T (G * i + j)) G) (g := G) (t := D) (fun _ _ => rfl)
    rw [← e]
    refine seqMat_near hρ hδ (fun i hi => ?_) hrow
    rw [mats_lt B hi]
    exact (hB ⟨i, hi⟩).2
  have k2 := nr.mulVec hZ i
  have e1 : slots n w i - (2^LOGDELTA)^D * (seqMat T (G * D)).mulVec (slots n m) i =
      (slots n w i - (2^LOGDELTA)^D * (seqMat (mats B) D).mulVec (slots n m) i) +
      (2^LOGDELTA)^D * ((seqMat (mats B) D).mulVec (slots n m) i - (seqMat T (G * D)).mulVec (slots n m) i) := by ring
  rw [e1]
  refine (norm_add_le _ _).trans ?_
  rw [norm_mul, norm_pow, hΔn]
  have k3 := mul_le_mul_of_nonneg_left k2 (show (0:ℝ) ≤ (2^LOGDELTA)^D by positivity)
  refine (add_le_add k1 k3).trans (le_of_eq ?_)
  rw [mul_pow, mul_pow]
  ring

theorem NearFactors.one {A : Fin D → SD2 (2^n) 3} {T : Nat → Matrix (Fin (2^n)) (Fin (2^n)) ℂ} (h : NearFactors A T) (i : Fin D) :
    GroupF T 1 i (A i) := by
  refine ⟨h.prod i, ?_⟩
  rw [seqMat_one, one_mul, add_zero, matUlp_eq]
  exact (h.near i).mono (by have := uF_pos; linarith)

/-- `grouped_serial_linear_transform` in binary64 -/
theorem groupedLTF_slots {L : Libm} (hLib : L.Accurate) (R LOGDELTA : Nat) (hL : LOGDELTA < 64) (h1 : ConvLOGQ LOGQ) (h2 : ConvLOGQ (2 * LOGQ))
    (hn1 : 1 ≤ n) (hn : n ≤ 16) {s : Fin (2^(n+1)) → Int} (hs : Ternary s)
    {A : Fin D → SD2 (2^n) 3} {T : Nat → Matrix (Fin (2^n)) (Fin (2^n)) ℂ} (hA : NearFactors A T)
    {ρ : ℝ} (hρ : 0 ≤ ρ) (hrow : ∀ d, d < D → ∀ p, ∑ q, ‖T d p q‖ ≤ ρ) {G : Nat} (hG1 : 1 ≤ G) (hG : G ≤ 4) (hD : D % G = 0)
    {β : ℝ} (hβ0 : 0 ≤ β) (hβ : ∀ i, i < D/G → ∀ p q, ‖seqMat (fun j => T (G * i + j)) G p q‖ ≤ β)
    (hw : (β + matUlp G) * 2^LOGDELTA * (1 + 1/2^40) + 2 ≤ 2^64) (hq : (β + matUlp G) * 2^LOGDELTA * (1 + 1/2^40) + 2 ≤ 2^(LOGQ-1))
    {ct : R_Q_square LOGQ (2^(n+1))} (hct : ct.Canonical) {m : Fin (2^(n+1)) → Int}
    (hm : R_Q_square.phase s ct = red LOGQ m) (ω : Rng) :
    Ok (groupedLTF (LOGN := n+1) L R LOGDELTA G A ct s ω) fun r => r.1.Canonical ∧ ∃ w : Fin (2^(n+1)) → Int,
      R_Q_square.phase s r.1 = red LOGQ w ∧
      ∀ Z : ℝ, (∀ i, ‖slots n m i‖ ≤ Z) → ∀ i,
        ‖slots n w i - (2^LOGDELTA)^(D/G) * (seqMat T D).mulVec (slots n m) i‖ ≤
          ltSizeF n (3^G) (weight s) (ρ^G + matUlp G) (β + matUlp G) (2^LOGDELTA) Z (D/G) - (2^LOGDELTA * ρ^G)^(D/G) * Z := by
  have hH : 2^n ≤ 2^30 := Nat.pow_le_pow_right (by norm_num) (by omega)
  have hH1 : 1 ≤ 2^n := Nat.one_le_two_pow
  have hrow' : ∀ i, i < D/G → ∀ p, ∑ q, ‖seqMat (fun j => T (G * i + j)) G p q‖ ≤ ρ^G := fun i hi p =>
    row_seq hρ (fun j hj => hrow _ (div_idx hi hj)) p
  have hmul : G * (D/G) = D := Nat.mul_div_cancel' (Nat.dvd_of_mod_eq_zero hD)
  have hρG : 0 ≤ ρ^G := pow_nonneg hρ G
  rw [show seqMat T D = seqMat T (G * (D/G)) by rw [hmul]]
  interval_cases G
  · have hB : ∀ i : Fin (D/1), GroupF T 1 i (A (Fin.cast (Nat.div_one D) i)) := fun i => hA.one (Fin.cast (Nat.div_one D) i)
    show Ok (serialLTF L R LOGDELTA A ct s ω) _
    have k := serialLTF_near hLib R LOGDELTA hL h1 h2 hn1 hn hs (B := A) (D := D) (G := 1) (fun i => hA.one i) hρG
      (fun i hi => hrow' i (by rw [Nat.div_one]; exact hi)) hβ0 (fun i hi => hβ i (by rw [Nat.div_one]; exact hi)) hw hq hct hm ω
    simp only [Nat.div_one]
    exact k
  · show Ok (group2F A >>= _) _
    exact Ok.bind (group2F_spec hH hH1 hA hD) fun B hB =>
      serialLTF_near hLib R LOGDELTA hL h1 h2 hn1 hn hs hB hρG hrow' hβ0 hβ hw hq hct hm ω
  · show Ok (group3F A >>= _) _
    exact Ok.bind (group3F_spec hH hH1 hA hD) fun B hB =>
      serialLTF_near hLib R LOGDELTA hL h1 h2 hn1 hn hs hB hρG hrow' hβ0 hβ hw hq hct hm ω
  · show Ok (group4F A >>= _) _
    exact Ok.bind (group4F_spec hH hH1 hA hD) fun B hB =>
      serialLTF_near hLib R LOGDELTA hL h1 h2 hn1 hn hs hB hρG hrow' hβ0 hβ hw hq hct hm ω

end EvalRound

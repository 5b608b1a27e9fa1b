import Verif.Proofs.LinTrans
import Verif.Props.Endecode

/-! # Linear transforms on slots -/

set_option linter.unusedSectionVars false

namespace EvalRound
open Z_Q Finset

variable {LOGQ n S : Nat} [NeZero LOGQ]

theorem slotOf_add {N : Nat} (a b : Fin N → ℝ) (i : Nat) : slotOf (fun k => a k + b k) i = slotOf a i + slotOf b i := by
  unfold slotOf
  rw [← sum_add_distrib]
  exact sum_congr rfl fun k _ => by push_cast; ring

theorem slotOf_zero {N : Nat} (i : Nat) : slotOf (fun _ : Fin N => (0:ℝ)) i = 0 := by
  unfold slotOf
  exact sum_eq_zero fun k _ => by simp

theorem slotOf_sum {N : Nat} {ι : Type*} (s : Finset ι) (a : ι → Fin N → ℝ) (i : Nat) :
    slotOf (fun k => ∑ t ∈ s, a t k) i = ∑ t ∈ s, slotOf (a t) i := by
  unfold slotOf
  rw [sum_comm]
  exact sum_congr rfl fun k _ => by rw [Complex.ofReal_sum, sum_mul]

theorem norm_slotOf_le {N : Nat} {a : Fin N → ℝ} {ε : ℝ} (h : ∀ k, |a k| ≤ ε) (i : Nat) : ‖slotOf a i‖ ≤ N * ε := by
  have := slotOf_sub_le (m := a) (m' := fun _ => 0) (ε := ε) (fun k => by simpa using h k) i
  rwa [slotOf_zero, sub_zero] at this

theorem slots_mod (w : Fin (2^(n+1)) → Int) (i : Nat) :
    slotOf (fun k => (w k : ℝ)) i = slots n w ⟨i % 2^n, Nat.mod_lt _ (Nat.two_pow_pos n)⟩ := by
  unfold slots
  exact (slotOf_mod _ _).symm

theorem slots_shift (w : Fin (2^(n+1)) → Int) {o : Int} (ho : 0 ≤ o) (i : Fin (2^n)) :
    slotOf (fun k => (w k : ℝ)) (i + o.toNat) = slots n w (shift o i) := by
  rw [slots_mod]
  congr 1
  apply Fin.ext
  simp only [shift]
  have e : (i.val : Int) + o = ((i.val + o.toNat : ℕ) : Int) := by push_cast; omega
  rw [e, ← Int.natCast_mod, Int.toNat_natCast]

theorem slots_add (v w : Fin (2^(n+1)) → Int) (i : Fin (2^n)) : slots n (v + w) i = slots n v i + slots n w i := by
  unfold slots
  rw [← slotOf_add]
  congr 1
  funext k; push_cast [Pi.add_apply]; rfl

theorem slots_sum {ι : Type*} (s : Finset ι) (a : ι → Fin (2^(n+1)) → Int) (i : Fin (2^n)) :
    slots n (∑ t ∈ s, a t) i = ∑ t ∈ s, slots n (a t) i := by
  unfold slots
  rw [← slotOf_sum]
  congr 1
  funext k; rw [Finset.sum_apply]; push_cast; rfl

theorem slots_negconv (v w : Fin (2^(n+1)) → Int) (i : Fin (2^n)) : slots n (negconv v w) i = slots n v i * slots n w i := by
  unfold slots
  rw [← slotOf_negconv (Nat.two_pow_pos _)]
  congr 1
  funext k
  exact congrFun (negconv_map' (Int.castRingHom ℝ) v w) k

theorem slots_rot (w : Fin (2^(n+1)) → Int) {o : Int} (ho : 0 ≤ o) (i : Fin (2^n)) :
    slots n (autom (5^o.toNat) w) i = slots n w (shift o i) := by
  rw [← slots_shift w ho, ← slotOf_rot (Nat.two_pow_pos _)]
  unfold slots
  congr 1
  funext k
  exact autom_map (Int.castAddHom ℝ) _ w k

theorem norm_slots_le {w : Fin (2^(n+1)) → Int} {ε : ℝ} (h : ∀ k, |(w k : ℝ)| ≤ ε) (i : Fin (2^n)) :
    ‖slots n w i‖ ≤ 2^(n+1) * ε := by
  have := norm_slotOf_le (a := fun k => (w k : ℝ)) h i
  push_cast at this
  exact this

/-- the matrix-vector product in terms of the diagonals -/
theorem denC_mulVec {H : Nat} {A : SD2 H S} {ρ : ℝ} (hA : LTMat A ρ) (z : Fin H → ℂ) (i : Fin H) :
    (SparseDiagonal.denC A.1 A.2).mulVec z i =
      ∑ t, if Act A t then (⟨A.1.vec t i, A.2.vec t i⟩ : ℂ) * z (shift (A.1.off t) i) else 0 := by
  have h := sum_rowTerm (fun i => (z i).re) (fun i => (z i).im) A.1 A.2 i (fun s _ => congrFun hA.off s)
  have e : toC (fun i => (z i).re) (fun i => (z i).im) = z := rfl
  rw [e] at h
  rw [← h, ← Fin.sum_univ_eq_sum_range]
  refine sum_congr rfl fun t _ => ?_
  unfold rowTerm
  rw [dif_pos t.isLt, e]
  split
  · rfl
  · rename_i ht
    have ht := not_not.1 ht
    rw [hA.flag.1 t ht.1 i, hA.flag.2 t ht.2 i]
    show (0:ℂ) * _ = 0
    rw [zero_mul]

theorem slotOf_inj {m m' : Fin (2^(n+1)) → ℝ} (h : ∀ i : Fin (2^n), slotOf m i = slotOf m' i) : m = m' := by
  have e : (fftMat n n).mulVec (fun p => pairC n m ⟨bitRev n p, bitRev_lt n p⟩) =
      (fftMat n n).mulVec (fun p => pairC n m' ⟨bitRev n p, bitRev_lt n p⟩) := by
    funext i; rw [fftMat_slot, fftMat_slot, h]
  have hu : ((2^n : ℂ)⁻¹ • (fftMat n n).conjTranspose) * fftMat n n = 1 := by
    rw [mul_eq_one_comm, Matrix.mul_smul, fftMat_adj (le_refl n), smul_smul,
      inv_mul_cancel₀ (pow_ne_zero n two_ne_zero), one_smul]
  have e2 := congrArg (((2^n : ℂ)⁻¹ • (fftMat n n).conjTranspose).mulVec) e
  rw [Matrix.mulVec_mulVec, Matrix.mulVec_mulVec, hu, Matrix.one_mulVec, Matrix.one_mulVec] at e2
  refine pairC_inj (funext fun p => ?_)
  have := congrFun e2 ⟨bitRev n p, bitRev_lt n p⟩
  simp only [bitRev_bitRev p.isLt] at this
  exact this

/-- every coefficient is bounded by the largest slot -/
theorem coeff_le_slots (hn1 : 1 ≤ n) (hn : n ≤ 26) {m : Fin (2^(n+1)) → ℝ} {B : ℝ}
    (hB : ∀ i : Fin (2^n), ‖slotOf m i‖ ≤ B) (k : Fin (2^(n+1))) : |m k| ≤ B := by
  obtain ⟨m', _, h1, h2⟩ := ifft_slot (LOGN := n+1) (by omega) (by omega)
    (fun i => (slotOf m i).re, fun i => (slotOf m i).im) (fun _ => 0)
  have e : m' = m := slotOf_inj fun i => h1 i
  rw [← e]
  exact h2 B (fun i => hB i) k

theorem encode_slots (hn1 : 1 ≤ n) (hn : n ≤ 26) (z : CVec (n+1)) (Delta : W) {B : ℝ}
    (hz : ∀ i : Fin (2^n), ‖(⟨z.1 i, z.2 i⟩ : ℂ)‖ ≤ B)
    (hw : B * Delta.toNat + 1/2 < 2^64) (hq : B * Delta.toNat + 1/2 < 2^(LOGQ-1)) :
    Ok (encode LOGQ z Delta) fun pt => R_Q.Canonical pt ∧
      (∀ i : Fin (2^n), ‖slots n (R_Q.sval pt) i - Delta.toNat * ⟨z.1 i, z.2 i⟩‖ ≤ 2^n) ∧
      ∀ k, |((R_Q.sval pt k : ℤ) : ℝ)| ≤ B * Delta.toNat + 1/2 := by
  refine Ok.mono (C29_encode (LOGN := n+1) (by omega) (by omega) z Delta B hz hw hq) ?_
  rintro pt ⟨m, hs, hm⟩
  refine ⟨fun k => (hm k).1, fun i => ?_, fun k => ?_⟩
  · rw [← hs i, mul_comm, ← Complex.ofReal_natCast, ← slotOf_smul]
    refine (slotOf_sub_le (ε := 1/2) (fun k => (hm k).2) i).trans (le_of_eq ?_)
    push_cast; ring
  · have h1 := (hm k).2
    have h2 : |m k| ≤ B := coeff_le_slots hn1 hn (fun i => by rw [hs i]; exact hz i) k
    have h3 : |m k * Delta.toNat| ≤ B * Delta.toNat := by
      rw [abs_mul, abs_of_nonneg (a := (Delta.toNat : ℝ)) (Nat.cast_nonneg _)]
      exact mul_le_mul_of_nonneg_right h2 (Nat.cast_nonneg _)
    have h4 := abs_sub_abs_le_abs_sub (((pt k).sval : ℤ) : ℝ) (m k * Delta.toNat)
    show |(((pt k).sval : ℤ) : ℝ)| ≤ _
    linarith

/-- with a bound `β` for the entries that may be smaller than the bound for the rows -/
theorem linTrans_slots' (R LOGDELTA : Nat) (hD : LOGDELTA < 64) (h1 : ConvLOGQ LOGQ) (h2 : ConvLOGQ (2 * LOGQ))
    (hn1 : 1 ≤ n) (hn : n ≤ 16) {s : Fin (2^(n+1)) → Int} (hs : Ternary s)
    {A : SD2 (2^n) S} {ρ : ℝ} (hA : LTMat A ρ)
    {β : ℝ} (hβ : ∀ s i, ‖(⟨A.1.vec s i, A.2.vec s i⟩ : ℂ)‖ ≤ β) (hβ0 : 0 ≤ β)
    (hw : β * 2^LOGDELTA + 1/2 < 2^64) (hq : β * 2^LOGDELTA + 1/2 < 2^(LOGQ-1))
    {ct : R_Q_square LOGQ (2^(n+1))} (hct : ct.Canonical) {m : Fin (2^(n+1)) → Int}
    (hm : R_Q_square.phase s ct = red LOGQ m) (ω : Rng) :
    Ok (linTrans (LOGN := n+1) R LOGDELTA A ct s ω) fun r => r.1.Canonical ∧ ∃ w : Fin (2^(n+1)) → Int,
      R_Q_square.phase s r.1 = red LOGQ w ∧
      ∀ Z : ℝ, (∀ i, ‖slots n m i‖ ≤ Z) → ∀ i,
        ‖slots n w i - 2^LOGDELTA * (SparseDiagonal.denC A.1 A.2).mulVec (slots n m) i‖ ≤
          ltErr n S (weight s) β (2^LOGDELTA) Z := by
  have hlt : 2^LOGDELTA < 2^64 := Nat.pow_lt_pow_right (by norm_num) hD
  have hv : (BitVec.ofNat 64 (2^LOGDELTA)).toNat = 2^LOGDELTA := by
    rw [BitVec.toNat_ofNat, Nat.mod_eq_of_lt hlt]
  have hvr : ((BitVec.ofNat 64 (2^LOGDELTA)).toNat : ℝ) = 2^LOGDELTA := by rw [hv]; push_cast; rfl
  have henc : ∀ t : Fin S, ∃ pt : R_Q LOGQ (2^(n+1)),
      encode LOGQ (LOGN := n+1) (A.1.vec t, A.2.vec t) (BitVec.ofNat 64 (2^LOGDELTA)) = pure pt ∧ pt.Canonical ∧
      (∀ i, ‖slots n (R_Q.sval pt) i - 2^LOGDELTA * ⟨A.1.vec t i, A.2.vec t i⟩‖ ≤ 2^n) := by
    intro t
    have := encode_slots (LOGQ := LOGQ) hn1 (by omega) (A.1.vec t, A.2.vec t) (BitVec.ofNat 64 (2^LOGDELTA))
      (B := β) (hβ t) (by rw [hvr]; exact hw) (by rw [hvr]; exact hq)
    obtain ⟨pt, e, h3, h4, h5⟩ := this
    refine ⟨pt, e, h3, fun i => ?_⟩
    have := h4 i
    rw [hv] at this
    push_cast at this
    exact this
  choose pt hp1 hp2 hp3 using henc
  have key := linTrans_spec' (k := n+1) R LOGDELTA hD h1 h2 (by omega) (by omega) hs (A := A) hA.off (pt := pt)
    (fun t _ => ⟨hp1 t, hp2 t⟩) (p := fun t => R_Q.sval (pt t)) (fun t _ => cls_red_sval (pt t)) hct hm ω
  refine Ok.mono key ?_
  rintro r ⟨hr, F, hF, hph⟩
  set E : Fin (2^(n+1)) → Int := ∑ t, if Act A t then negconv (R_Q.sval (pt t)) (F t) else 0 with hEdef
  refine ⟨hr, ltSum A (fun t => R_Q.sval (pt t)) m + E, hph, fun Z hZ i => ?_⟩
  rw [slots_add, denC_mulVec hA]
  have hsum : slots n (ltSum A (fun t => R_Q.sval (pt t)) m) i =
      ∑ t, if Act A t then slots n (R_Q.sval (pt t)) i * slots n m (shift (A.1.off t) i) else 0 := by
    unfold ltSum
    rw [slots_sum]
    refine sum_congr rfl fun t _ => ?_
    split
    · rw [slots_negconv, slots_rot _ (hA.rng t).1]
    · unfold slots
      simp only [Pi.zero_apply, Int.cast_zero]
      exact slotOf_zero _
  have hdiff : slots n (ltSum A (fun t => R_Q.sval (pt t)) m) i + slots n E i - 2^LOGDELTA *
      (∑ t, if Act A t then (⟨A.1.vec t i, A.2.vec t i⟩ : ℂ) * slots n m (shift (A.1.off t) i) else 0) =
      (∑ t, if Act A t then (slots n (R_Q.sval (pt t)) i - 2^LOGDELTA * ⟨A.1.vec t i, A.2.vec t i⟩) *
        slots n m (shift (A.1.off t) i) else 0) + slots n E i := by
    rw [hsum, mul_sum, add_sub_right_comm, ← sum_sub_distrib]
    congr 1
    refine sum_congr rfl fun t _ => ?_
    split
    · ring
    · ring
  rw [hdiff]
  have hZ0 : 0 ≤ Z := (norm_nonneg _).trans (hZ i)
  have hb1 : ‖∑ t, if Act A t then (slots n (R_Q.sval (pt t)) i - 2^LOGDELTA * ⟨A.1.vec t i, A.2.vec t i⟩) *
        slots n m (shift (A.1.off t) i) else 0‖ ≤ S * (2^n * Z) := by
    refine (norm_sum_le _ _).trans ?_
    refine (sum_le_sum (g := fun _ : Fin S => 2^n * Z) fun t _ => ?_).trans (le_of_eq (by simp))
    split
    · rw [norm_mul]
      exact mul_le_mul (hp3 t i) (hZ _) (norm_nonneg _) (by positivity)
    · rw [norm_zero]; positivity
  have hsE : slots n E i = ∑ t, if Act A t then slots n (R_Q.sval (pt t)) i * slots n (F t) i else 0 := by
    rw [hEdef, slots_sum]
    refine sum_congr rfl fun t _ => ?_
    split
    · rw [slots_negconv]
    · unfold slots
      simp only [Pi.zero_apply, Int.cast_zero]
      exact slotOf_zero _
  have hF' : ∀ t, ‖slots n (F t) i‖ ≤ 2^(n+1) * (8 * 2^(n+1) + ((weight s : ℝ) + 1) / 2) := by
    intro t
    refine norm_slots_le (fun k => ?_) i
    have h3 := hF t k
    have h4 : ((2 * |F t k| : ℤ) : ℝ) ≤ ((16 * 2^(n+1) + weight s + 1 : ℤ) : ℝ) := by exact_mod_cast h3
    push_cast at h4
    linarith
  have hp4 : ∀ t, ‖slots n (R_Q.sval (pt t)) i‖ ≤ β * 2^LOGDELTA + 2^n := by
    intro t
    have h3 := hp3 t i
    have h4 := norm_sub_norm_le (slots n (R_Q.sval (pt t)) i) (2^LOGDELTA * ⟨A.1.vec t i, A.2.vec t i⟩)
    rw [norm_mul, norm_pow, Complex.norm_ofNat] at h4
    have h5 := mul_le_mul_of_nonneg_left (hβ t i) (show (0:ℝ) ≤ 2^LOGDELTA by positivity)
    linarith
  have hb2 : ‖slots n E i‖ ≤ S * ((β * 2^LOGDELTA + 2^n) * (2^(n+1) * (8 * 2^(n+1) + ((weight s : ℝ) + 1) / 2))) := by
    rw [hsE]
    refine (norm_sum_le _ _).trans ?_
    refine (sum_le_sum (g := fun _ : Fin S => (β * 2^LOGDELTA + 2^n) *
      (2^(n+1) * (8 * 2^(n+1) + ((weight s : ℝ) + 1) / 2))) fun t _ => ?_).trans (le_of_eq (by simp))
    split
    · rw [norm_mul]
      exact mul_le_mul (hp4 t) (hF' t) (norm_nonneg _) (by positivity)
    · rw [norm_zero]; positivity
  refine (norm_add_le _ _).trans ((add_le_add hb1 hb2).trans (le_of_eq ?_))
  unfold ltErr
  ring

theorem linTrans_slots (R LOGDELTA : Nat) (hD : LOGDELTA < 64) (h1 : ConvLOGQ LOGQ) (h2 : ConvLOGQ (2 * LOGQ))
    (hn1 : 1 ≤ n) (hn : n ≤ 16) {s : Fin (2^(n+1)) → Int} (hs : Ternary s)
    {A : SD2 (2^n) S} {ρ : ℝ} (hA : LTMat A ρ) (hρ : 0 ≤ ρ)
    (hw : ρ * 2^LOGDELTA + 1/2 < 2^64) (hq : ρ * 2^LOGDELTA + 1/2 < 2^(LOGQ-1))
    {ct : R_Q_square LOGQ (2^(n+1))} (hct : ct.Canonical) {m : Fin (2^(n+1)) → Int}
    (hm : R_Q_square.phase s ct = red LOGQ m) (ω : Rng) :
    Ok (linTrans (LOGN := n+1) R LOGDELTA A ct s ω) fun r => r.1.Canonical ∧ ∃ w : Fin (2^(n+1)) → Int,
      R_Q_square.phase s r.1 = red LOGQ w ∧
      ∀ Z : ℝ, (∀ i, ‖slots n m i‖ ≤ Z) → ∀ i,
        ‖slots n w i - 2^LOGDELTA * (SparseDiagonal.denC A.1 A.2).mulVec (slots n m) i‖ ≤
          ltErr n S (weight s) ρ (2^LOGDELTA) Z :=
  linTrans_slots' R LOGDELTA hD h1 h2 hn1 hn hs hA hA.entry hρ hw hq hct hm ω

theorem mulVec_norm {H : Nat} {M : Matrix (Fin H) (Fin H) ℂ} {ρ Z : ℝ} (hM : ∀ i, ∑ j, ‖M i j‖ ≤ ρ) (hZ0 : 0 ≤ Z)
    {x : Fin H → ℂ} (hx : ∀ i, ‖x i‖ ≤ Z) (i : Fin H) : ‖M.mulVec x i‖ ≤ ρ * Z := by
  rw [Matrix.mulVec, dotProduct]
  refine (norm_sum_le _ _).trans ?_
  refine (sum_le_sum (g := fun j => ‖M i j‖ * Z) fun j _ => ?_).trans ?_
  · rw [norm_mul]; exact mul_le_mul_of_nonneg_left (hx j) (norm_nonneg _)
  · rw [← sum_mul]; exact mul_le_mul_of_nonneg_right (hM i) hZ0

theorem mats_lt {H D : Nat} (A : Fin D → SD2 H S) {d : Nat} (h : d < D) :
    mats A d = SparseDiagonal.denC (A ⟨d, h⟩).1 (A ⟨d, h⟩).2 := dif_pos h

theorem seqMat_norm {H D : Nat} {A : Fin D → SD2 H S} {ρ Z : ℝ} (hρ : 0 ≤ ρ) (hA : ∀ d, LTMat (A d) ρ)
    {z : Fin H → ℂ} (hZ : ∀ i, ‖z i‖ ≤ Z) {d : Nat} (hd : d ≤ D) (i : Fin H) :
    ‖(seqMat (mats A) d).mulVec z i‖ ≤ ρ^d * Z := by
  induction d generalizing i with
  | zero => rw [seqMat, Matrix.one_mulVec, pow_zero, one_mul]; exact hZ i
  | succ d ih =>
    have hd' : d < D := hd
    have hZ0 : 0 ≤ Z := (norm_nonneg _).trans (hZ i)
    rw [seqMat, ← Matrix.mulVec_mulVec, mats_lt A hd', pow_succ', mul_assoc]
    exact mulVec_norm (hA ⟨d, hd'⟩).row (by positivity) (fun i => ih (by omega) i) i

theorem ltErr_nonneg {n S h : Nat} {ρ Δ Z : ℝ} (hρ : 0 ≤ ρ) (hΔ : 0 ≤ Δ) (hZ : 0 ≤ Z) : 0 ≤ ltErr n S h ρ Δ Z := by
  unfold ltErr; positivity

theorem ltSize_nonneg {n S h : Nat} {ρ β Δ Z : ℝ} (hρ : 0 ≤ ρ) (hβ : 0 ≤ β) (hΔ : 0 ≤ Δ) (hZ : 0 ≤ Z) (d : Nat) :
    0 ≤ ltSize n S h ρ β Δ Z d := by
  induction d with
  | zero => exact hZ
  | succ d ih => rw [ltSize]; have := ltErr_nonneg (n := n) (S := S) (h := h) hβ hΔ ih; positivity

/-- with a bound `β` for the entries that may be smaller than the bound for the rows -/
theorem serialLT_slots' (R LOGDELTA : Nat) (hD : LOGDELTA < 64) (h1 : ConvLOGQ LOGQ) (h2 : ConvLOGQ (2 * LOGQ))
    (hn1 : 1 ≤ n) (hn : n ≤ 16) {s : Fin (2^(n+1)) → Int} (hs : Ternary s) {D : Nat}
    {A : Fin D → SD2 (2^n) S} {ρ : ℝ} (hA : ∀ d, LTMat (A d) ρ) (hρ : 0 ≤ ρ)
    {β : ℝ} (hβ : ∀ d s i, ‖(⟨(A d).1.vec s i, (A d).2.vec s i⟩ : ℂ)‖ ≤ β) (hβ0 : 0 ≤ β)
    (hw : β * 2^LOGDELTA + 1/2 < 2^64) (hq : β * 2^LOGDELTA + 1/2 < 2^(LOGQ-1))
    {ct : R_Q_square LOGQ (2^(n+1))} (hct : ct.Canonical) {m : Fin (2^(n+1)) → Int}
    (hm : R_Q_square.phase s ct = red LOGQ m) (ω : Rng) :
    Ok (serialLT (LOGN := n+1) R LOGDELTA A ct s ω) fun r => r.1.Canonical ∧ ∃ w : Fin (2^(n+1)) → Int,
      R_Q_square.phase s r.1 = red LOGQ w ∧
      ∀ Z : ℝ, (∀ i, ‖slots n m i‖ ≤ Z) → ∀ i,
        ‖slots n w i - (2^LOGDELTA)^D * (seqMat (mats A) D).mulVec (slots n m) i‖ ≤
          ltSize n S (weight s) ρ β (2^LOGDELTA) Z D - (2^LOGDELTA * ρ)^D * Z := by
  unfold serialLT
  rw [R_Q_square.copy_eq]
  refine forUp_inv (Nat.zero_le D) (P := fun d (st : R_Q_square LOGQ (2^(n+1)) × Rng) => st.1.Canonical ∧
      ∃ w : Fin (2^(n+1)) → Int, R_Q_square.phase s st.1 = red LOGQ w ∧
      ∀ Z : ℝ, (∀ i, ‖slots n m i‖ ≤ Z) → ∀ i,
        ‖slots n w i - (2^LOGDELTA)^d * (seqMat (mats A) d).mulVec (slots n m) i‖ ≤
          ltSize n S (weight s) ρ β (2^LOGDELTA) Z d - (2^LOGDELTA * ρ)^d * Z) ?_ ?_
  · refine ⟨hct, m, hm, fun Z hZ i => ?_⟩
    rw [seqMat, Matrix.one_mulVec, ltSize, pow_zero, pow_zero, one_mul, one_mul, sub_self, sub_self, norm_zero]
  · rintro d ⟨acc, ω'⟩ _ hd ⟨hacc, w, hph, hw'⟩
    simp only [] at hacc hph ⊢
    rw [rd_of_lt A hd, pure_bind, R_Q_square.copy_eq]
    refine Ok.mono (linTrans_slots' R LOGDELTA hD h1 h2 hn1 hn hs (hA ⟨d, hd⟩) (hβ ⟨d, hd⟩) hβ0 hw hq hacc hph ω') ?_
    rintro r ⟨hr, w', hph', hw''⟩
    refine ⟨hr, w', hph', fun Z hZ i => ?_⟩
    have hZ0 : 0 ≤ Z := (norm_nonneg _).trans (hZ i)
    have hΔ : (0:ℝ) ≤ 2^LOGDELTA := by positivity
    have hΔn : ‖(2:ℂ)^LOGDELTA‖ = 2^LOGDELTA := by rw [norm_pow, Complex.norm_ofNat]
    have hsz : ∀ i, ‖slots n w i‖ ≤ ltSize n S (weight s) ρ β (2^LOGDELTA) Z d := by
      intro i
      have g1 := hw' Z hZ i
      have g2 := norm_sub_norm_le (slots n w i) ((2^LOGDELTA)^d * (seqMat (mats A) d).mulVec (slots n m) i)
      have g3 := seqMat_norm hρ hA hZ (by omega : d ≤ D) i
      have g4 : ‖((2:ℂ)^LOGDELTA)^d * (seqMat (mats A) d).mulVec (slots n m) i‖ ≤ (2^LOGDELTA * ρ)^d * Z := by
        rw [norm_mul, norm_pow, hΔn, mul_pow, mul_assoc]
        exact mul_le_mul_of_nonneg_left g3 (by positivity)
      linarith
    have k1 := hw'' _ hsz i
    have k2 : ‖(2:ℂ)^LOGDELTA * (SparseDiagonal.denC (A ⟨d, hd⟩).1 (A ⟨d, hd⟩).2).mulVec (slots n w) i -
        (2^LOGDELTA)^(d+1) * (seqMat (mats A) (d+1)).mulVec (slots n m) i‖ ≤
        2^LOGDELTA * (ρ * (ltSize n S (weight s) ρ β (2^LOGDELTA) Z d - (2^LOGDELTA * ρ)^d * Z)) := by
      have e : (2:ℂ)^LOGDELTA * (SparseDiagonal.denC (A ⟨d, hd⟩).1 (A ⟨d, hd⟩).2).mulVec (slots n w) i -
          (2^LOGDELTA)^(d+1) * (seqMat (mats A) (d+1)).mulVec (slots n m) i =
          2^LOGDELTA * (SparseDiagonal.denC (A ⟨d, hd⟩).1 (A ⟨d, hd⟩).2).mulVec
            (fun i => slots n w i - (2^LOGDELTA)^d * (seqMat (mats A) d).mulVec (slots n m) i) i := by
        rw [seqMat, ← Matrix.mulVec_mulVec, mats_lt A hd]
        have : (fun i => slots n w i - ((2:ℂ)^LOGDELTA)^d * (seqMat (mats A) d).mulVec (slots n m) i) =
            slots n w - (((2:ℂ)^LOGDELTA)^d) • (seqMat (mats A) d).mulVec (slots n m) := rfl
        rw [this, Matrix.mulVec_sub, Matrix.mulVec_smul]
        simp only [Pi.sub_apply, Pi.smul_apply, smul_eq_mul]
        ring
      rw [e, norm_mul, hΔn]
      refine mul_le_mul_of_nonneg_left (mulVec_norm (hA ⟨d, hd⟩).row ?_ (hw' Z hZ) i) hΔ
      exact (norm_nonneg _).trans (hw' Z hZ i)
    have k3 := norm_sub_le_norm_sub_add_norm_sub (slots n w' i)
      ((2:ℂ)^LOGDELTA * (SparseDiagonal.denC (A ⟨d, hd⟩).1 (A ⟨d, hd⟩).2).mulVec (slots n w) i)
      ((2^LOGDELTA)^(d+1) * (seqMat (mats A) (d+1)).mulVec (slots n m) i)
    refine k3.trans ((add_le_add k1 k2).trans (le_of_eq ?_))
    rw [ltSize]
    ring

theorem serialLT_slots (R LOGDELTA : Nat) (hD : LOGDELTA < 64) (h1 : ConvLOGQ LOGQ) (h2 : ConvLOGQ (2 * LOGQ))
    (hn1 : 1 ≤ n) (hn : n ≤ 16) {s : Fin (2^(n+1)) → Int} (hs : Ternary s) {D : Nat}
    {A : Fin D → SD2 (2^n) S} {ρ : ℝ} (hA : ∀ d, LTMat (A d) ρ) (hρ : 0 ≤ ρ)
    (hw : ρ * 2^LOGDELTA + 1/2 < 2^64) (hq : ρ * 2^LOGDELTA + 1/2 < 2^(LOGQ-1))
    {ct : R_Q_square LOGQ (2^(n+1))} (hct : ct.Canonical) {m : Fin (2^(n+1)) → Int}
    (hm : R_Q_square.phase s ct = red LOGQ m) (ω : Rng) :
    Ok (serialLT (LOGN := n+1) R LOGDELTA A ct s ω) fun r => r.1.Canonical ∧ ∃ w : Fin (2^(n+1)) → Int,
      R_Q_square.phase s r.1 = red LOGQ w ∧
      ∀ Z : ℝ, (∀ i, ‖slots n m i‖ ≤ Z) → ∀ i,
        ‖slots n w i - (2^LOGDELTA)^D * (seqMat (mats A) D).mulVec (slots n m) i‖ ≤
          ltSize n S (weight s) ρ ρ (2^LOGDELTA) Z D - (2^LOGDELTA * ρ)^D * Z :=
  serialLT_slots' R LOGDELTA hD h1 h2 hn1 hn hs hA hρ (fun d => (hA d).entry) hρ hw hq hct hm ω

end EvalRound

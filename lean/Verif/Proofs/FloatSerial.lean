import Verif.Proofs.FloatMatmul
import Verif.Props.SerialMatmul
import Verif.Props.FloatLtTest

/-!
# Lemmas on sequences of products with sparse matrices in binary64
-/

namespace EvalRound
open Z_Q Finset SparseDiagonal

section
variable {n : Nat}

/-- the last two steps, `sub` and `norm`, when the difference is known to be near a vector of norm `X` -/
theorem measure_arith26 {X S1 Y l o T A u κ t : ℝ} (hX0 : 0 ≤ X) (hT : 0 ≤ T) (hX : X ≤ T * 2^26) (hA0 : 0 ≤ A) (hA : A ≤ 2^22) (ht0 : 0 ≤ t)
    (hu0 : 0 ≤ u) (hu : u ≤ 1/2^53) (hκ0 : 0 ≤ κ) (hκ : κ ≤ 72100 * u) (hY0 : 0 ≤ Y)
    (hS : S1 ≤ T * A + t) (hY : |Y - X| ≤ S1) (hl : |l - Y| ≤ u * Y + t) (ho : |o - l| ≤ κ * l + t) :
    |o - X| ≤ T * (A + 1) + 5 * t := by
  have hY2 : Y ≤ T * 2^26 + T * A + t := by have := (abs_le.1 hY).2; linarith
  have hTA : T * A ≤ T * 2^22 := mul_le_mul_of_nonneg_left hA hT
  have hY3 : Y ≤ T * 2^27 + t := by linarith
  have huY : u * Y ≤ 1/2^53 * (T * 2^27 + t) := mul_le_mul hu hY3 hY0 (by norm_num)
  have hl2 : l ≤ 2 * (T * 2^27 + t) + t := by have := (abs_le.1 hl).2; linarith
  have hκ2 : κ ≤ 1/2^36 := hκ.trans (by linarith)
  have hκl : κ * l ≤ 1/2^36 * (2 * (T * 2^27 + t) + t) := by
    refine (mul_le_mul_of_nonneg_left hl2 hκ0).trans (mul_le_mul_of_nonneg_right hκ2 ?_)
    linarith
  have a := abs_add_three (o - l) (l - Y) (Y - X)
  rw [sub_add_sub_cancel, sub_add_sub_cancel] at a
  linarith

theorem sub_normF (hn : n ≤ 16) (a b : CVec (n+1)) {T A τ : ℝ} (hT0 : 0 ≤ T) (hT1 : T ≤ 1) (hA0 : 0 ≤ A) (hA : A ≤ 2^22) (hτ : τ = 1/2^503)
    {X : Fin (2^n) → ℂ} (hX : l2 X ≤ T * 2^26) (h : l2 (toC (n := 2^n) a.1 a.2 - toC (n := 2^n) b.1 b.2 - X) ≤ T * A + τ) :
    ∃ (e : CVec (n+1)) (o : ℝ), MsgF.sub a b = pure e ∧ MsgF.norm e = pure o ∧ |o - l2 X| ≤ T * (A + 1) + 1/2^500 := by
  have hu := uF_pos.le
  have hη := etaF_pos.le
  have hs8 := sqrt2_pow_le8 hn
  have hn16 : 2^n ≤ 2^16 := Nat.pow_le_pow_right (by norm_num) hn
  have hn16' : (2:ℝ)^n ≤ 2^16 := pow_le_pow_right₀ (by norm_num) hn
  have hτ0 : 0 ≤ τ := by rw [hτ]; positivity
  have hτ1 : τ ≤ 1 := by rw [hτ]; exact (div_le_one (by positivity)).2 (one_le_pow₀ (by norm_num))
  have t3 : Real.sqrt 2 ^ n * (1 / 2^1074) ≤ τ := by
    have e : (1:ℝ) / 2^1074 = 2 * etaF := by
      rw [etaF_eq, show 1075 = 1 + 1074 by norm_num, pow_add]; field_simp
    rw [e, ← mul_assoc, hτ]
    refine (tiny_le' (mul_le_mul_of_nonneg_right ((mul_le_mul_of_nonneg_right hs8 (by norm_num)).trans (by norm_num)) hη)).trans (tau_le.trans ?_)
    exact mul_le_of_le_one_left (by positivity) (by norm_num)
  have t4 : (1:ℝ)/2^519 ≤ τ := by
    rw [hτ]
    exact one_div_le_one_div_of_le (by positivity) (pow_le_pow_right₀ (by norm_num) (by norm_num))
  obtain ⟨f, hf⟩ : ∃ f : Fin (2^n) → ℂ, f = toC (n := 2^n) a.1 a.2 - toC (n := 2^n) b.1 b.2 := ⟨_, rfl⟩
  rw [← hf] at h
  have hYX : |l2 f - l2 X| ≤ l2 (f - X) := l2_sub_abs _ _
  have hf24 : l2 f ≤ 2^28 := by
    have a := (abs_le.1 (hYX.trans h)).2
    have b : T * A ≤ 1 * 2^22 := mul_le_mul hT1 hA hA0 (by norm_num)
    have c : T * 2^26 ≤ 1 * 2^26 := mul_le_mul_of_nonneg_right hT1 (by norm_num)
    linarith
  have hfi : ∀ i : Fin (2^n), (⟨a.1 i, a.2 i⟩ : ℂ) - ⟨b.1 i, b.2 i⟩ = f i := fun i => by rw [hf]; rfl
  obtain ⟨ev, ee, hev⟩ := C84_sub (n := 2^n) a b fun i => by
    have : ‖f i‖ ≤ 2^1000 := ((le_l2 f i).trans hf24).trans (pow_le_pow_right₀ (by norm_num) (by norm_num))
    rw [← hfi] at this
    exact this
  have hev2 : l2 (toC (n := 2^n) ev.1 ev.2 - f) ≤ uF * l2 f + τ := by
    obtain ⟨g, hg⟩ : ∃ g : Fin (2^n) → ℂ, g = fun i => ((uF * ‖f i‖ : ℝ) : ℂ) := ⟨_, rfl⟩
    have a : l2 (toC (n := 2^n) ev.1 ev.2 - f) ≤ l2 (g + fun _ => ((1/2^1074 : ℝ) : ℂ)) := by
      refine l2_mono fun i => ?_
      have h := hev i
      rw [hfi] at h
      rw [Pi.add_apply, hg]
      beta_reduce
      rw [← Complex.ofReal_add, Complex.norm_real, Real.norm_of_nonneg (by positivity), uF_eq]
      exact h
    refine a.trans ((l2_add_le _ _).trans (add_le_add ?_ ?_))
    · refine l2_scale_le hu fun i => ?_
      rw [hg]
      beta_reduce
      rw [Complex.norm_real, Real.norm_of_nonneg (by positivity)]
    · refine le_trans (l2_sup fun i => ?_) t3
      rw [Complex.norm_real, Real.norm_of_nonneg (by positivity)]
  have hel : |l2 (toC (n := 2^n) ev.1 ev.2) - l2 f| ≤ uF * l2 f + τ := (l2_sub_abs _ _).trans hev2
  have he25 : l2 (toC (n := 2^n) ev.1 ev.2) ≤ 2^30 := by
    have a := (abs_le.1 hel).2
    have b : uF * l2 f ≤ 1 * 2^28 := mul_le_mul (uF_le.trans (by norm_num)) hf24 (l2_nonneg _) (by norm_num)
    linarith
  obtain ⟨o, eo, ho0, ho⟩ := C84_norm (n := 2^n) (by omega) ev (by
    have h := l2_sq (toC (n := 2^n) ev.1 ev.2)
    have h2 : l2 (toC (n := 2^n) ev.1 ev.2) ^ 2 ≤ (2^30)^2 := pow_le_pow_left₀ (l2_nonneg _) he25 2
    rw [h, ← pow_mul] at h2
    exact h2.trans (pow_le_pow_right₀ (by norm_num) (by norm_num)))
  have ho2 : |o - l2 (toC (n := 2^n) ev.1 ev.2)| ≤ (1.1 * ((2^n : ℕ) : ℝ) + 5)/2^53 * l2 (toC (n := 2^n) ev.1 ev.2) + τ :=
    ho.trans (add_le_add le_rfl t4)
  have hκ : (1.1 * ((2^n : ℕ) : ℝ) + 5)/2^53 ≤ 72100 * uF := by
    rw [uF_eq]
    push_cast
    rw [mul_one_div]
    refine div_le_div_of_nonneg_right ?_ (by norm_num)
    linarith
  have hfin := measure_arith26 (l2_nonneg _) hT0 hX hA0 hA hτ0 hu uF_eq.le (by positivity) hκ (l2_nonneg f) h hYX hel ho2
  refine ⟨ev, o, ee, eo, hfin.trans (add_le_add le_rfl ?_)⟩
  rw [hτ, show (1:ℝ)/2^500 = 8 * (1/2^503) by rw [show 503 = 3 + 500 by norm_num, pow_add]; field_simp; norm_num]
  exact mul_le_mul_of_nonneg_right (by norm_num) (by positivity)

/-! ## the rounded sequence -/

theorem roundedSeq_add (U : Fin n → Fac (n+1)) (Δ : ℝ) (z w : Fin (2^n) → ℂ) (e : Fin n → Fin 3 → Fin (2^(n+1)) → ℝ) (d : Nat) :
    roundedSeq U Δ (z + w) e d = roundedSeq U Δ z e d + roundedSeq U Δ w e d := by
  induction d with
  | zero => rfl
  | succ d ih =>
    unfold roundedSeq
    rw [ih]
    split
    · funext i
      rw [Pi.add_apply]
      beta_reduce
      rw [← sum_add_distrib]
      exact sum_congr rfl fun k _ => by rw [Pi.add_apply, mul_add]
    · rw [add_zero]

/-- the sum of three shifted vectors with bounded factors -/
theorem l2_sum3 {s : Fin 3 → Fin (2^n) → ℂ} {c : ℝ} (hc : 0 ≤ c) (hs : ∀ k i, ‖s k i‖ ≤ c) (o : Fin 3 → Int) (x : Fin (2^n) → ℂ) :
    l2 (fun i => ∑ k : Fin 3, s k i * x (shift (N := 2^n) (o k) i)) ≤ 3 * c * l2 x := by
  have h1 : (fun i => ∑ k : Fin 3, s k i * x (shift (N := 2^n) (o k) i)) = ∑ k : Fin 3, fun i => s k i * x (shift (N := 2^n) (o k) i) := by
    funext i; rw [Finset.sum_apply]
  rw [h1]
  refine (l2_sum_le _ _).trans ((sum_le_sum (g := fun _ => c * l2 x) fun k _ => l2_mul_shift_le hc (hs k) _).trans (le_of_eq ?_))
  rw [sum_const, card_univ, Fintype.card_fin, nsmul_eq_mul]
  push_cast
  ring

theorem roundedSeq_succ {U : Fin n → Fac (n+1)} {d : Nat} (hd : d < n) (hoff : (U ⟨d, hd⟩).1.off = (U ⟨d, hd⟩).2.off) (Δ : ℝ) (z : Fin (2^n) → ℂ)
    (e : Fin n → Fin 3 → Fin (2^(n+1)) → ℝ) : roundedSeq U Δ z e (d+1) =
      (denC (N := 2^n) (U ⟨d, hd⟩).1 (U ⟨d, hd⟩).2).mulVec (roundedSeq U Δ z e d) +
        fun i : Fin (2^n) => ∑ k : Fin 3, slotOf (e ⟨d, hd⟩ k) i / Δ * roundedSeq U Δ z e d (shift (N := 2^n) ((U ⟨d, hd⟩).1.off k) i) := by
  rw [roundedSeq, dif_pos hd]
  funext i
  rw [Pi.add_apply, mulVec_diag hoff, ← sum_add_distrib]
  exact sum_congr rfl fun k _ => add_mul _ _ _

theorem roundedSeq_bound {U : Fin n → Fac (n+1)} {S c Δ : ℝ} (hS : 0 ≤ S) (hc : 0 ≤ c) (hΔ : 0 < Δ) (hoff : ∀ d, (U d).1.off = (U d).2.off)
    (hop : ∀ d, OpB (denC (N := 2^n) (U d).1 (U d).2) S) {e : Fin n → Fin 3 → Fin (2^(n+1)) → ℝ}
    (he : ∀ d k (i : Fin (2^n)), ‖slotOf (e d k) i‖ ≤ c * Δ) (z : Fin (2^n) → ℂ) {d : Nat} (hd : d ≤ n) :
    l2 (roundedSeq U Δ z e d) ≤ (S + 3 * c)^d * l2 z ∧
      l2 (roundedSeq U Δ z e d - (seqMat (mats (H := 2^n) U) d).mulVec z) ≤ ((S + 3 * c)^d - S^d) * l2 z := by
  induction d with
  | zero => simp [roundedSeq, seqMat, l2_zero]
  | succ d ih =>
    have hd' : d < n := hd
    obtain ⟨ih1, ih2⟩ := ih (by omega)
    rw [roundedSeq_succ hd' (hoff _)]
    obtain ⟨w, hw⟩ : ∃ w, w = roundedSeq U Δ z e d := ⟨_, rfl⟩
    rw [← hw] at ih1 ih2 ⊢
    obtain ⟨E, hE⟩ : ∃ E : Fin (2^n) → ℂ, E = fun i : Fin (2^n) => ∑ k : Fin 3, slotOf (e ⟨d, hd'⟩ k) i / Δ * w (shift (N := 2^n) ((U ⟨d, hd'⟩).1.off k) i) := ⟨_, rfl⟩
    have hEl : l2 E ≤ 3 * c * l2 w := by
      rw [hE]
      refine l2_sum3 (s := fun k i => slotOf (e ⟨d, hd'⟩ k) i / Δ) hc (fun k i => ?_) _ w
      rw [norm_div, Complex.norm_real, Real.norm_eq_abs, abs_of_pos hΔ, div_le_iff₀ hΔ]
      exact he _ k i
    rw [← hE]
    have h6 := mul_le_mul_of_nonneg_left ih1 (show 0 ≤ 3 * c by linarith)
    refine ⟨?_, ?_⟩
    · refine (l2_add_le _ _).trans ((add_le_add (hop _ w) hEl).trans ?_)
      have h5 := mul_le_mul_of_nonneg_left ih1 hS
      rw [pow_succ]
      linarith
    · have h4 : (denC (N := 2^n) (U ⟨d, hd'⟩).1 (U ⟨d, hd'⟩).2).mulVec w + E - (seqMat (mats (H := 2^n) U) (d+1)).mulVec z =
          (denC (N := 2^n) (U ⟨d, hd'⟩).1 (U ⟨d, hd'⟩).2).mulVec (w - (seqMat (mats (H := 2^n) U) d).mulVec z) + E := by
        rw [seqMat, mats_lt _ hd', ← Matrix.mulVec_mulVec, Matrix.mulVec_sub]
        abel
      rw [h4]
      refine (l2_add_le _ _).trans ((add_le_add (hop _ _) hEl).trans ?_)
      have h5 := mul_le_mul_of_nonneg_left ih2 hS
      rw [pow_succ, pow_succ]
      linarith

/-! ## the products of messages -/

/-- one product of a message with a sparse matrix -/
theorem mvpSparseF_l2 (hn : n ≤ 16) {A : SD2 (2^n) 3} (hA : SDProd A) (hB : ∀ k i, ‖(⟨A.1.vec k i, A.2.vec k i⟩ : ℂ)‖ ≤ 1.001)
    (z : CVec (n+1)) (hz : l2 (toC (n := 2^n) z.1 z.2) ≤ 2^100) :
    Ok (MsgF.mvpSparse (n := 2^n) z A.1 A.2) fun w =>
      l2 (toC (n := 2^n) w.1 w.2 - (denC A.1 A.2).mulVec (toC (n := 2^n) z.1 z.2)) ≤ 33.1 * uF * l2 (toC (n := 2^n) z.1 z.2) + 1/2^950 := by
  have hu := uF_pos.le
  have hη := etaF_pos.le
  have hs8 := sqrt2_pow_le8 hn
  have hn16 : 2^n ≤ 2^16 := Nat.pow_le_pow_right (by norm_num) hn
  obtain ⟨zc, hzc⟩ : ∃ zc : Fin (2^n) → ℂ, zc = toC (n := 2^n) z.1 z.2 := ⟨_, rfl⟩
  have hzi : ∀ i, (⟨z.1 i, z.2 i⟩ : ℂ) = zc i := fun i => by rw [hzc]; rfl
  rw [← hzc] at hz ⊢
  have hsum : ∀ i : Fin (2^n), ∑ s : Fin 3, ‖(⟨A.1.vec s i, A.2.vec s i⟩ : ℂ)‖ * ‖zc (shift (A.1.off s) i)‖ ≤ 2^1000 := by
    intro i
    refine (sum_le_sum (g := fun _ => (2:ℝ)^102) fun s _ => ?_).trans ?_
    · refine (mul_le_mul (hB s i) ((le_l2 zc _).trans hz) (norm_nonneg _) (by norm_num)).trans (by norm_num)
    · rw [sum_const, card_univ, Fintype.card_fin, nsmul_eq_mul]
      refine le_trans (b := (2:ℝ)^104) (by norm_num) (pow_le_pow_right₀ (by norm_num) (by norm_num))
  refine Ok.mono (C84_sparse (n := 2^n) (S := 3) (by norm_num) (by omega) z A.1 A.2 hA.rng hA.off hA.flag.1 hA.flag.2 (fun i => by
    simp only [hzi]; exact hsum i)) fun w hw => ?_
  simp only [hzi] at hw
  obtain ⟨g, hg⟩ : ∃ g : Fin (2^n) → ℂ, g = fun i => ∑ s : Fin 3, ((11 * uF * ‖(⟨A.1.vec s i, A.2.vec s i⟩ : ℂ)‖ : ℝ) : ℂ) *
    (fun j => ((‖zc j‖ : ℝ) : ℂ)) (shift (N := 2^n) (A.1.off s) i) := ⟨_, rfl⟩
  have hzn : l2 (fun j => ((‖zc j‖ : ℝ) : ℂ)) = l2 zc := by
    unfold l2
    simp only [Complex.norm_real, norm_norm]
  obtain ⟨t, ht⟩ : ∃ t : Fin (2^n) → ℂ, t = fun _ => ((3/2^1071 : ℝ) : ℂ) := ⟨_, rfl⟩
  have a : l2 (toC (n := 2^n) w.1 w.2 - (denC A.1 A.2).mulVec zc) ≤ l2 (g + t) := by
    refine l2_mono fun i => ?_
    have h := hw i
    have e : (g + t) i = ((11 * uF * ∑ s : Fin 3, ‖(⟨A.1.vec s i, A.2.vec s i⟩ : ℂ)‖ * ‖zc (shift (A.1.off s) i)‖ + 3/2^1071 : ℝ) : ℂ) := by
      rw [Pi.add_apply, hg, ht]
      beta_reduce
      rw [mul_sum]
      push_cast
      congr 1
      exact sum_congr rfl fun s _ => by ring
    rw [e, Complex.norm_real, Real.norm_of_nonneg (by positivity)]
    refine h.trans (le_of_eq ?_)
    rw [uF_eq]
    push_cast
    ring
  refine a.trans ((l2_add_le _ _).trans (add_le_add ?_ ?_))
  · rw [hg]
    refine (l2_sum3 (s := fun s i => ((11 * uF * ‖(⟨A.1.vec s i, A.2.vec s i⟩ : ℂ)‖ : ℝ) : ℂ)) (c := 11 * uF * 1.001) (by linarith) (fun k i => ?_)
      A.1.off (fun j => ((‖zc j‖ : ℝ) : ℂ))).trans ?_
    · rw [Complex.norm_real, Real.norm_of_nonneg (by positivity)]
      exact mul_le_mul_of_nonneg_left (hB k i) (by linarith)
    · rw [hzn]
      refine mul_le_mul_of_nonneg_right ?_ (l2_nonneg _)
      linarith
  · refine (l2_sup (B := 3/2^1071) fun i => ?_).trans ?_
    · rw [ht, Complex.norm_real, Real.norm_of_nonneg (by positivity)]
    · refine (mul_le_mul_of_nonneg_right hs8 (by positivity)).trans ?_
      rw [mul_div_assoc', div_le_div_iff₀ (by positivity) (by positivity), one_mul, show 1071 = 121 + 950 by norm_num, pow_add]
      exact mul_le_mul_of_nonneg_right (by norm_num) (by positivity)

/-- a step of the sequence of products of messages: `t` is the message after `d` products -/
theorem mvp_stepF {U : Fin n → Fac (n+1)} {S κ τ : ℝ} (hS : 0 ≤ S) (hκ : 0 ≤ κ) (hSκ : S + κ ≤ 2) (hτ : 0 ≤ τ)
    (hop : ∀ d, OpB (denC (N := 2^n) (U d).1 (U d).2) S) {z t t' : Fin (2^n) → ℂ} {d : Nat} (hd : d < n)
    (ht : l2 t ≤ (S + κ)^d * l2 z + (2^d - 1) * τ ∧ l2 (t - (seqMat (mats (H := 2^n) U) d).mulVec z) ≤ ((S + κ)^d - S^d) * l2 z + (2^d - 1) * τ)
    (h : l2 (t' - (denC (N := 2^n) (U ⟨d, hd⟩).1 (U ⟨d, hd⟩).2).mulVec t) ≤ κ * l2 t + τ) :
    l2 t' ≤ (S + κ)^(d+1) * l2 z + (2^(d+1) - 1) * τ ∧
      l2 (t' - (seqMat (mats (H := 2^n) U) (d+1)).mulVec z) ≤ ((S + κ)^(d+1) - S^(d+1)) * l2 z + (2^(d+1) - 1) * τ := by
  obtain ⟨h1, h2⟩ := ht
  have hz0 := l2_nonneg z
  have hx : 0 ≤ (2^d - 1 : ℝ) * τ := mul_nonneg (sub_nonneg.2 (one_le_pow₀ (by norm_num))) hτ
  have hx2 : (S + κ) * ((2^d - 1) * τ) ≤ 2 * ((2^d - 1) * τ) := mul_le_mul_of_nonneg_right hSκ hx
  have hk := mul_le_mul_of_nonneg_left h1 hκ
  constructor
  · have e : t' = (denC (N := 2^n) (U ⟨d, hd⟩).1 (U ⟨d, hd⟩).2).mulVec t + (t' - (denC (N := 2^n) (U ⟨d, hd⟩).1 (U ⟨d, hd⟩).2).mulVec t) := by abel
    rw [e]
    refine (l2_add_le _ _).trans ((add_le_add (hop _ t) h).trans ?_)
    have hs := mul_le_mul_of_nonneg_left h1 hS
    rw [pow_succ, pow_succ]
    linarith
  · have e : t' - (seqMat (mats (H := 2^n) U) (d+1)).mulVec z =
        (denC (N := 2^n) (U ⟨d, hd⟩).1 (U ⟨d, hd⟩).2).mulVec (t - (seqMat (mats (H := 2^n) U) d).mulVec z) +
          (t' - (denC (N := 2^n) (U ⟨d, hd⟩).1 (U ⟨d, hd⟩).2).mulVec t) := by
      rw [seqMat, mats_lt _ hd, ← Matrix.mulVec_mulVec, Matrix.mulVec_sub]
      abel
    rw [e]
    refine (l2_add_le _ _).trans ((add_le_add (hop _ _) h).trans ?_)
    have hs := mul_le_mul_of_nonneg_left h2 hS
    rw [pow_succ, pow_succ, pow_succ]
    linarith

/-! ## the product of plaintexts -/

variable {L : Libm} {LOGQ : Nat} [NeZero LOGQ]

/-- the sparse product on plaintexts in binary64, given the encodings of the diagonals -/
theorem ptMvpSparseF_exact (hQ : ConvLOGQ LOGQ) (hn1 : 1 ≤ n) (hn : n ≤ 16) {pt : R_Q LOGQ (2^(n+1))} (hpt : R_Q.Canonical pt)
    {A : SD2 (2^n) 3} (hoff : A.1.off = A.2.off) (hr : A.1.InRange) (Delta : W) {p : Fin 3 → R_Q LOGQ (2^(n+1))}
    (he : ∀ k, encodeF L LOGQ (LOGN := n+1) (A.1.vec k, A.2.vec k) Delta = pure (p k)) (hc : ∀ k, R_Q.Canonical (p k)) :
    Ok (ptMvpSparseF (LOGN := n+1) L pt A Delta) fun r =>
      Holds r (fun i => ∑ k : Fin 3, slots n (R_Q.sval (p k)) i * slots n (R_Q.sval pt) (shift (A.1.off k) i)) 0 := by
  let term : Nat → Fin (2^n) → ℂ := fun k i => if h : k < 3 then slots n (R_Q.sval (p ⟨k, h⟩)) i *
        slots n (R_Q.sval pt) (shift (A.1.off ⟨k, h⟩) i) else 0
  unfold ptMvpSparseF
  have key := forUp_inv (Nat.zero_le 3) (P := fun k acc => Holds (LOGQ := LOGQ) (n := n) acc
      (fun i => ∑ t ∈ range k, term t i) 0)
      (s := R_Q.setzero) (body := fun k acc => do
        let offr ← rd A.1.off k
        let offi ← rd A.2.off k
        assertM (decide (offr = offi))
        let vr ← rd A.1.vec k
        let vi ← rd A.2.vec k
        let pt_v ← encodeF L LOGQ (LOGN := n+1) (vr, vi) Delta
        let pt_rot ← rotR pt R_Q.setzero offr.toNat
        let pt_conv ← conv pt_v pt_rot
        pure (R_Q.add acc pt_conv)) ?_ ?_
  · refine Ok.mono key fun r hr => ?_
    have e : (fun i => ∑ t ∈ range 3, term t i) = fun i => ∑ k : Fin 3, slots n (R_Q.sval (p k)) i *
        slots n (R_Q.sval pt) (shift (A.1.off k) i) := by
      funext i
      rw [← Fin.sum_univ_eq_sum_range (fun t => term t i)]
      refine sum_congr rfl fun k _ => ?_
      simp only [term]
      rw [dif_pos k.isLt]
    rw [← e]
    exact hr
  · simp only [range_zero, sum_empty]
    exact Holds.zero
  · intro k acc _ hk hacc
    rw [rd_of_lt A.1.off hk, pure_bind, rd_of_lt A.2.off hk, pure_bind, decide_eq_true (congrFun hoff ⟨k, hk⟩),
      rd_of_lt A.1.vec hk, rd_of_lt A.2.vec hk]
    show Ok (do
      let pt_v ← encodeF L LOGQ (LOGN := n+1) (A.1.vec ⟨k, hk⟩, A.2.vec ⟨k, hk⟩) Delta
      let pt_rot ← rotR pt R_Q.setzero (A.1.off ⟨k, hk⟩).toNat
      let pt_conv ← conv pt_v pt_rot
      pure (R_Q.add acc pt_conv)) _
    rw [he, pure_bind]
    obtain ⟨y, ey, hy, hyc⟩ := rotR_pow2 (k := n+1) (by omega) (A.1.off ⟨k, hk⟩).toNat hpt R_Q.setzero
    obtain ⟨c, ec, _, hcc⟩ := conv_spec (k := n+1) hQ (by omega) (by omega) (hc ⟨k, hk⟩) hy
    rw [ey, pure_bind, ec, pure_bind]
    obtain ⟨_, w, hwc, hws⟩ := hacc
    refine Ok.pure ⟨R_Q.canonical_add acc c,
      w + negconv (R_Q.sval (p ⟨k, hk⟩)) (autom (5^(A.1.off ⟨k, hk⟩).toNat) (R_Q.sval pt)), ?_, fun i => ?_⟩
    · rw [red_add, red_negconv, red_autom, ← hwc, ← cls_red_sval, ← cls_red_sval, ← hyc, ← hcc]
      exact R_Q.cls_add acc c
    · beta_reduce
      rw [slots_add, slots_negconv, slots_rot _ (hr ⟨k, hk⟩).1, sum_range_succ]
      have e1 : term k i = slots n (R_Q.sval (p ⟨k, hk⟩)) i * slots n (R_Q.sval pt) (shift (A.1.off ⟨k, hk⟩) i) := by
        simp only [term]
        rw [dif_pos hk]
      rw [e1, add_sub_add_right_eq_sub]
      exact hws i

/-- the encodings of the diagonals of a matrix with entries up to 1.001 -/
theorem encode_diagF (hL : L.Accurate) (hn1 : 1 ≤ n) (hn : n ≤ 16) (hq : 53 ≤ LOGQ) (v : CVec (n+1))
    (hv : ∀ i : Fin (2^n), ‖(⟨v.1 i, v.2 i⟩ : ℂ)‖ ≤ 1.001) :
    Ok (encodeF L LOGQ (LOGN := n+1) v (BitVec.ofNat 64 (2^50))) fun p => R_Q.Canonical p ∧ ∃ m y : Fin (2^(n+1)) → ℝ,
      (∀ i : Fin (2^n), slotOf m i = ⟨v.1 i, v.2 i⟩) ∧ Real.sqrt (∑ k, (y k - 2^50 * m k)^2) ≤ (28 * n + 7) / 8 ∧
      (∀ k, |((R_Q.sval p k : ℤ) : ℝ) - y k| ≤ 1/2) ∧
      ∀ i : Fin (2^n), ‖slotOf (fun k => ((R_Q.sval p k : ℤ) : ℝ) - 2^50 * m k) i‖ ≤ 2^n + Real.sqrt 2 ^ n * (28 * n + 7) / 8 := by
  have hη := etaF_pos.le
  have hn0 : (0:ℝ) ≤ n := Nat.cast_nonneg _
  have hn' : (n:ℝ) ≤ 16 := by exact_mod_cast hn
  have hΔ := toNat_scale (D := 50) (by norm_num)
  have hq2 : (2:ℝ)^52 ≤ 2^(LOGQ-1) := pow_le_pow_right₀ (by norm_num) (by omega)
  refine Ok.mono (encodeF_l2 (Q := LOGQ) hL hn1 (by omega) v (BitVec.ofNat 64 (2^50)) (scale_ne_zero (by norm_num)) (B := 1.001) hv
    (by rw [hΔ]; norm_num) (le_trans (by rw [hΔ]; norm_num) hq2)) ?_
  rintro p ⟨m, y, hm, hp, hy⟩
  rw [hΔ] at hy
  have ht : 2^106 * etaF ≤ 1/100 := by
    have h3 : 2^106 * etaF ≤ 1/2^900 := tiny_le' (mul_le_mul_of_nonneg_right (by norm_num) hη)
    exact h3.trans (one_div_le_one_div_of_le (by norm_num) (le_trans (by norm_num) (pow_le_pow_right₀ (by norm_num) (show 7 ≤ 900 by norm_num))))
  have hy2 : l2 (pairC n fun k => y k - 2^50 * m k) ≤ (28 * n + 7) / 8 := by
    have e : (fun k => y k - 2^50 * m k) = fun k => y k - m k * 2^50 := by funext k; ring
    rw [e]
    refine (hy.trans (add_le_add le_rfl ht)).trans ?_
    rw [uF_eq]
    clear hq2 hΔ hy ht
    have e2 : (28 * (n:ℝ) + 6) * (1/2^53) * (1.001 * 2^50) = (28 * n + 6) * (1.001 / 8) := by ring
    rw [e2]
    linarith
  refine ⟨fun k => (hp k).1, m, y, hm, by rw [← l2_pairC]; exact hy2, fun k => (hp k).2, fun i => ?_⟩
  have a1 : ‖slotOf (fun k => ((R_Q.sval p k : ℤ) : ℝ) - y k) i‖ ≤ 2^n := by
    refine (norm_slotOf_le (ε := 1/2) (fun k => (hp k).2) i).trans (le_of_eq ?_)
    push_cast
    rw [pow_succ (2:ℝ) n]
    ring
  have a2 : ‖slotOf (fun k => y k - 2^50 * m k) i‖ ≤ Real.sqrt 2 ^ n * (28 * n + 7) / 8 := by
    refine (le_l2 (fun i : Fin (2^n) => slotOf (fun k => y k - 2^50 * m k) i) i).trans ?_
    rw [slots_l2, mul_div_assoc]
    exact mul_le_mul_of_nonneg_left hy2 (by positivity)
  have e : (fun k => ((R_Q.sval p k : ℤ) : ℝ) - 2^50 * m k) = fun k => (((R_Q.sval p k : ℤ) : ℝ) - y k) + (y k - 2^50 * m k) := by
    funext k; ring
  rw [e, slotOf_add]
  exact (norm_add_le _ _).trans (add_le_add a1 a2)

/-- a step of the sequence of products of plaintexts -/
theorem pt_stepF (hQ : ConvLOGQ LOGQ) (hn1 : 1 ≤ n) (hn : n ≤ 16) {U : Fin n → Fac (n+1)} (hU : ∀ d, SDProd (H := 2^n) (U d))
    {p : Fin n → Fin 3 → R_Q LOGQ (2^(n+1))}
    (he : ∀ d k, encodeF L LOGQ (LOGN := n+1) ((U d).1.vec k, (U d).2.vec k) (BitVec.ofNat 64 (2^50)) = pure (p d k))
    (hc : ∀ d k, R_Q.Canonical (p d k)) {e : Fin n → Fin 3 → Fin (2^(n+1)) → ℝ}
    (hs : ∀ d k (i : Fin (2^n)), slots n (R_Q.sval (p d k)) i = 2^50 * ⟨(U d).1.vec k i, (U d).2.vec k i⟩ + slotOf (e d k) i)
    {w : Fin (2^n) → ℂ} {R : ℝ} {d : Nat} (hd : d < n) (hR : l2 (roundedSeq U (2^50) w e (d+1)) ≤ R) (hq : (2^50)^(d+2) * R < 2^(LOGQ-1))
    {pt : R_Q LOGQ (2^(n+1))}
    (h : R_Q.Canonical pt ∧ ∀ i, slots n (R_Q.sval pt) i = (2^50)^(d+1) * roundedSeq U (2^50) w e d i) :
    Ok (ptMvpSparseF (LOGN := n+1) L pt (U ⟨d, hd⟩) (BitVec.ofNat 64 (2^50))) fun r => R_Q.Canonical r ∧
      ∀ i, slots n (R_Q.sval r) i = (2^50)^(d+2) * roundedSeq U (2^50) w e (d+1) i := by
  refine Ok.mono (ptMvpSparseF_exact hQ hn1 hn h.1 (hU ⟨d, hd⟩).offEq (hU ⟨d, hd⟩).rng (BitVec.ofNat 64 (2^50)) (he ⟨d, hd⟩) (hc ⟨d, hd⟩))
    fun r hH => ⟨hH.1, ?_⟩
  have hx : ∀ i : Fin (2^n), ∑ k : Fin 3, slots n (R_Q.sval (p ⟨d, hd⟩ k)) i * slots n (R_Q.sval pt) (shift ((U ⟨d, hd⟩).1.off k) i) =
      (2^50)^(d+2) * roundedSeq U (2^50) w e (d+1) i := by
    intro i
    rw [roundedSeq, dif_pos hd, mul_sum]
    refine sum_congr rfl fun k _ => ?_
    rw [hs, h.2, pow_succ _ (d+1)]
    push_cast
    ring
  intro i
  have h2 := hH.sval hn1 hn (X := (2^50)^(d+2) * R) (fun i => ?_) (by rw [add_zero]; exact hq) i
  · have h3 := sub_eq_zero.1 (norm_le_zero_iff.1 h2)
    rw [h3]
    exact hx i
  · beta_reduce
    rw [hx, norm_mul, norm_pow, norm_pow, Complex.norm_ofNat]
    exact mul_le_mul_of_nonneg_left ((le_l2 _ i).trans hR) (by positivity)

/-! ## the sizes -/

theorem adjR_op {d : Nat} (hd : d < n) : OpB (adjR n d) (Real.sqrt 2) := by
  intro x
  refine le_of_eq (l2_of_iso (by norm_num) ?_ x)
  unfold adjR
  rw [Matrix.conjTranspose_conjTranspose,
    bfly_mul_adj (Nat.two_pow_pos _) (dvd_pow_blk (by omega)) _ (fun i _ => ctw_star n (n-1-d) i)]
  push_cast
  rfl

theorem U0F_op (hn : n ≤ 16) {U : Fin n → Fac (n+1)} (h : NearFactors (H := 2^n) U (adjR n)) (d : Fin n) :
    OpB (denC (N := 2^n) (U d).1 (U d).2) (Real.sqrt 2 + 1/2^39) := by
  refine ((adjR_op d.isLt).near (h.near d).op).mono (add_le_add le_rfl ?_)
  have := sqrt2_pow_le8 hn
  have hu := uF_pos.le
  refine (mul_le_mul_of_nonneg_right this (by linarith)).trans ?_
  rw [uF_eq]
  norm_num

theorem U0F_entry {U : Fin n → Fac (n+1)} (h : NearFactors (H := 2^n) U (adjR n)) (d : Fin n) (k : Fin 3) (i : Fin (2^n)) :
    ‖(⟨(U d).1.vec k i, (U d).2.vec k i⟩ : ℂ)‖ ≤ 1.001 := by
  refine (SDProd.entry (H := 2^n) (h.prod d) k i).trans (((h.near d).entry_le (b := 1) (fun p q => h.ent1 d.isLt p q) _ _).trans ?_)
  have := uF_le
  linarith

/-- powers of numbers near √2 -/
theorem pow_near_sqrt2 {x : ℝ} (h0 : 0 ≤ x) (hx : x ≤ Real.sqrt 2 + 1/2^30) {d : Nat} (hd : d ≤ 16) : x^d ≤ 1.001 * Real.sqrt 2 ^ d := by
  have h1 : x ≤ Real.sqrt 2 * (1 + 1/2^30) := by
    have := le_sqrt2
    have h2 : 1/2^30 ≤ Real.sqrt 2 * (1/2^30) := by linarith
    linarith
  refine (pow_le_pow_left₀ h0 h1 d).trans ?_
  rw [mul_pow, mul_comm]
  refine mul_le_mul_of_nonneg_right ?_ (by positivity)
  exact (pow_le_pow_right₀ (by norm_num) hd).trans (by norm_num)

/-- the difference of two powers -/
theorem pow_sub_le {x y : ℝ} (hy : 0 ≤ y) (hxy : y ≤ x) (d : Nat) : x^(d+1) - y^(d+1) ≤ (d+1) * (x - y) * x^d := by
  induction d with
  | zero => simp
  | succ d ih =>
    have h1 : x^(d+2) - y^(d+2) = x * (x^(d+1) - y^(d+1)) + (x - y) * y^(d+1) := by ring
    have h2 : (x - y) * y^(d+1) ≤ (x - y) * x^(d+1) := mul_le_mul_of_nonneg_left (pow_le_pow_left₀ hy hxy _) (by linarith)
    have h3 := mul_le_mul_of_nonneg_left ih (hy.trans hxy)
    rw [h1]
    push_cast
    have e : x * ((d+1) * (x - y) * x^d) = (d+1) * ((x - y) * x^(d+1)) := by rw [pow_succ]; ring
    rw [e] at h3
    have e2 : ((d:ℝ) + 1 + 1) * (x - y) * x^(d+1) = (d+1) * ((x - y) * x^(d+1)) + (x - y) * x^(d+1) := by ring
    rw [e2]
    linarith

end

end EvalRound

import Verif.Model.FloatCtsErr
import Verif.Proofs.FloatBootNum2
import Verif.Proofs.FloatMeasure
import Verif.Proofs.FloatSup
import Verif.Proofs.FloatBoot2

/-! # CoeffToSlot with scaling factor `2^50`, for `measure_cts_error` and `measure_sup_norm` -/

namespace EvalRound
open Z_Q Finset

section
variable {n h G b : Nat}

/-- the parameters of `measure_cts_error` and `measure_sup_norm`: `n = LOGN-1`, `G`, and a bound `2^b` of the error of CoeffToSlot -/
def CtsParam (n G b : Nat) : Prop := n = 8 ∧ G = 2 ∧ b = 37 ∨ n = 12 ∧ G = 3 ∧ b = 45 ∨ n = 16 ∧ G = 4 ∧ b = 52

set_option exponentiation.threshold 2000 in
set_option maxHeartbeats 1000000 in
theorem grp2_ctsm8 (hh : h ≤ 128) {Z : ℝ} (hZ : 0 ≤ Z) :
    grpErr2 8 h 2 (Real.sqrt 2 / 2) ((1/2)^2) (2^50) Z ≤ ((562949953425453:ℝ)^4 - 2^196) * Z + 3815775285635967879080 * (1 + 562949953425453 + 562949953425453^2 + 562949953425453^3) := by
  have h2 : (h:ℝ) ≤ 128 := by exact_mod_cast hh
  have h3 := sqrt2_le20
  refine grpErr2_le (by norm_num) (by positivity) (by positivity) (by positivity) hZ ?_ ?_ ?_
  · norm_num [encTol, matUlp, div_pow, sqrt2_pow2, sqrt2_pow3, sqrt2_p4, sqrt2_pow8, sqrt2_pow12, sqrt2_pow16] at h3 ⊢
    try linarith
  · have h4 : Real.sqrt 2 * 2^8 * (8 * 2^(8+1) + ((h:ℝ) + 1) / 2) ≤ 1.41421356237309504881 * 2^8 * (8 * 2^(8+1) + (128 + 1) / 2) := by
      gcongr
    refine (mul_le_mul_of_nonneg_left (mul_le_mul_of_nonneg_left h4 (add_nonneg (mul_nonneg (add_nonneg (by positivity) (matUlp_nonneg _))
      (by positivity)) (encTol_nonneg (mul_nonneg (add_nonneg (by positivity) (matUlp_nonneg _)) (by positivity)))))
      (by positivity)).trans ?_
    norm_num [encTol, matUlp, sqrt2_pow8, sqrt2_pow12, sqrt2_pow16]
  · norm_num [div_pow, mul_pow, sqrt2_pow2, sqrt2_pow3, sqrt2_p4]

set_option exponentiation.threshold 2000 in
theorem ctsErrm_8 (hh : h ≤ 128) : ctsErr2 8 h 2 (2^50) (Real.sqrt 2 * 2^8 * (66 * 2^60)) ≤ 63/64 * 2^37 := by
  have h3 := sqrt2_le20
  have hZ : Real.sqrt 2 * 2^8 * (66 * 2^60) ≤ 1.41421356237309504881 * 2^8 * (66 * 2^60) := by gcongr
  have k := grp2_ctsm8 hh (Z := Real.sqrt 2 * 2^8 * (66 * 2^60)) (by positivity)
  have k2 := mul_le_mul_of_nonneg_left hZ (show (0:ℝ) ≤ (562949953425453:ℝ)^4 - 2^196 by norm_num)
  unfold ctsErr2
  rw [div_le_iff₀ (by positivity)]
  norm_num at k k2 ⊢
  linarith

set_option exponentiation.threshold 2000 in
set_option maxHeartbeats 1000000 in
theorem grp2_ctsm12 (hh : h ≤ 128) {Z : ℝ} (hZ : 0 ≤ Z) :
    grpErr2 12 h 3 (Real.sqrt 2 / 2) ((1/2)^3) (2^50) Z ≤ ((398065729665488:ℝ)^4 - 2^194) * Z + 1443961639033214830954519 * (1 + 398065729665488 + 398065729665488^2 + 398065729665488^3) := by
  have h2 : (h:ℝ) ≤ 128 := by exact_mod_cast hh
  have h3 := sqrt2_le20
  refine grpErr2_le (by norm_num) (by positivity) (by positivity) (by positivity) hZ ?_ ?_ ?_
  · norm_num [encTol, matUlp, div_pow, sqrt2_pow2, sqrt2_pow3, sqrt2_p4, sqrt2_pow8, sqrt2_pow12, sqrt2_pow16] at h3 ⊢
    try linarith
  · have h4 : Real.sqrt 2 * 2^12 * (8 * 2^(12+1) + ((h:ℝ) + 1) / 2) ≤ 1.41421356237309504881 * 2^12 * (8 * 2^(12+1) + (128 + 1) / 2) := by
      gcongr
    refine (mul_le_mul_of_nonneg_left (mul_le_mul_of_nonneg_left h4 (add_nonneg (mul_nonneg (add_nonneg (by positivity) (matUlp_nonneg _))
      (by positivity)) (encTol_nonneg (mul_nonneg (add_nonneg (by positivity) (matUlp_nonneg _)) (by positivity)))))
      (by positivity)).trans ?_
    norm_num [encTol, matUlp, sqrt2_pow8, sqrt2_pow12, sqrt2_pow16]
  · norm_num [div_pow, mul_pow, sqrt2_pow2, sqrt2_pow3, sqrt2_p4]

set_option exponentiation.threshold 2000 in
theorem ctsErrm_12 (hh : h ≤ 128) : ctsErr2 12 h 3 (2^50) (Real.sqrt 2 * 2^12 * (66 * 2^60)) ≤ 63/64 * 2^45 := by
  have h3 := sqrt2_le20
  have hZ : Real.sqrt 2 * 2^12 * (66 * 2^60) ≤ 1.41421356237309504881 * 2^12 * (66 * 2^60) := by gcongr
  have k := grp2_ctsm12 hh (Z := Real.sqrt 2 * 2^12 * (66 * 2^60)) (by positivity)
  have k2 := mul_le_mul_of_nonneg_left hZ (show (0:ℝ) ≤ (398065729665488:ℝ)^4 - 2^194 by norm_num)
  unfold ctsErr2
  rw [div_le_iff₀ (by positivity)]
  norm_num at k k2 ⊢
  linarith

set_option exponentiation.threshold 2000 in
set_option maxHeartbeats 1000000 in
theorem grp2_ctsm16 (hh : h ≤ 128) {Z : ℝ} (hZ : 0 ≤ Z) :
    grpErr2 16 h 4 (Real.sqrt 2 / 2) ((1/2)^4) (2^50) Z ≤ ((281474982297422:ℝ)^4 - 2^192) * Z + 553970164203139157308289888 * (1 + 281474982297422 + 281474982297422^2 + 281474982297422^3) := by
  have h2 : (h:ℝ) ≤ 128 := by exact_mod_cast hh
  have h3 := sqrt2_le20
  refine grpErr2_le (by norm_num) (by positivity) (by positivity) (by positivity) hZ ?_ ?_ ?_
  · norm_num [encTol, matUlp, div_pow, sqrt2_pow2, sqrt2_pow3, sqrt2_p4, sqrt2_pow8, sqrt2_pow12, sqrt2_pow16] at h3 ⊢
    try linarith
  · have h4 : Real.sqrt 2 * 2^16 * (8 * 2^(16+1) + ((h:ℝ) + 1) / 2) ≤ 1.41421356237309504881 * 2^16 * (8 * 2^(16+1) + (128 + 1) / 2) := by
      gcongr
    refine (mul_le_mul_of_nonneg_left (mul_le_mul_of_nonneg_left h4 (add_nonneg (mul_nonneg (add_nonneg (by positivity) (matUlp_nonneg _))
      (by positivity)) (encTol_nonneg (mul_nonneg (add_nonneg (by positivity) (matUlp_nonneg _)) (by positivity)))))
      (by positivity)).trans ?_
    norm_num [encTol, matUlp, sqrt2_pow8, sqrt2_pow12, sqrt2_pow16]
  · norm_num [div_pow, mul_pow, sqrt2_pow2, sqrt2_pow3, sqrt2_p4]

set_option exponentiation.threshold 2000 in
theorem ctsErrm_16 (hh : h ≤ 128) : ctsErr2 16 h 4 (2^50) (Real.sqrt 2 * 2^16 * (66 * 2^60)) ≤ 63/64 * 2^52 := by
  have h3 := sqrt2_le20
  have hZ : Real.sqrt 2 * 2^16 * (66 * 2^60) ≤ 1.41421356237309504881 * 2^16 * (66 * 2^60) := by gcongr
  have k := grp2_ctsm16 hh (Z := Real.sqrt 2 * 2^16 * (66 * 2^60)) (by positivity)
  have k2 := mul_le_mul_of_nonneg_left hZ (show (0:ℝ) ≤ (281474982297422:ℝ)^4 - 2^192 by norm_num)
  unfold ctsErr2
  rw [div_le_iff₀ (by positivity)]
  norm_num at k k2 ⊢
  linarith

theorem ctsErrm_num (hp : CtsParam n G b) (hh : h ≤ 128) : ctsErr2 n h G (2^50) (Real.sqrt 2 * 2^n * (66 * 2^60)) ≤ 63/64 * 2^b := by
  rcases hp with ⟨rfl, rfl, rfl⟩ | ⟨rfl, rfl, rfl⟩ | ⟨rfl, rfl, rfl⟩
  · exact ctsErrm_8 hh
  · exact ctsErrm_12 hh
  · exact ctsErrm_16 hh

end

variable {n G b : Nat} {L : LibmP} {QT : Nat} [NeZero QT]

theorem decTol_ctsm (hn : n ≤ 16) {Y : ℝ} (h0 : 0 ≤ Y) (hY : Y ≤ 67 * 2^10 + 1) : decTol n Y ≤ 1/2^20 := by
  have h1 : Real.sqrt 2 ^ n ≤ 256 := by
    have : Real.sqrt 2 ^ n ≤ Real.sqrt 2 ^ 16 := pow_le_pow_right₀ (by rw [Real.one_le_sqrt]; norm_num) hn
    rwa [show (16:ℕ) = 2 * 8 by norm_num, pow_mul, Real.sq_sqrt (by norm_num), show (2:ℝ)^8 = 256 by norm_num] at this
  have hn' : (n:ℝ) ≤ 16 := by exact_mod_cast hn
  have t := inv_pow_tiny (N := 900) (by norm_num)
  have h2 : Real.sqrt 2 ^ n * ((28 * n + 8) * Y / 2^53) ≤ 256 * ((28 * 16 + 8) * (67 * 2^10 + 1) / 2^53) := by gcongr
  unfold decTol
  refine (add_le_add h2 t).trans (by norm_num)

theorem ksErr_small (hn : n ≤ 16) {h : Nat} (hh : h ≤ 128) : ksErr n h ≤ 2^40 := by
  have h2 : (h:ℝ) ≤ 128 := by exact_mod_cast hh
  have h1 : (2:ℝ)^(n+1) ≤ 2^17 := pow_le_pow_right₀ (by norm_num) (by omega)
  unfold ksErr
  calc (2:ℝ)^(n+1) * (8 * 2^(n+1) + (h + 1) / 2) ≤ 2^17 * (8 * 2^17 + (128 + 1) / 2) := by gcongr
    _ ≤ 2^40 := by norm_num

/-- the difference of two messages, one of which has the slots `u` and the other the slots `v`, up to small errors -/
theorem sub_nearF {H : Nat} {z x : (Fin H → ℝ) × (Fin H → ℝ)} {u v : Fin H → ℝ} {t : ℝ} (ht0 : 0 ≤ t) (ht : t ≤ 2)
    (hz : ∀ i, ‖(⟨z.1 i, z.2 i⟩ : ℂ) - (u i : ℂ)‖ ≤ t) (hx : ∀ i, ‖(⟨x.1 i, x.2 i⟩ : ℂ) - ⟨v i, 0⟩‖ ≤ 1/2^35) (h : ∀ i, |u i - v i| ≤ 2^17) :
    Ok (MsgF.sub z x) fun e => ∀ i, abs (‖(⟨e.1 i, e.2 i⟩ : ℂ)‖ - |u i - v i|) ≤ t + 1/2^33 := by
  have hd : ∀ i, ‖(⟨z.1 i, z.2 i⟩ : ℂ) - ⟨x.1 i, x.2 i⟩ - ((u i - v i : ℝ) : ℂ)‖ ≤ t + 1/2^35 := by
    intro i
    have e : (⟨z.1 i, z.2 i⟩ : ℂ) - ⟨x.1 i, x.2 i⟩ - ((u i - v i : ℝ) : ℂ) = (⟨z.1 i, z.2 i⟩ - (u i : ℂ)) - (⟨x.1 i, x.2 i⟩ - ⟨v i, 0⟩) := by
      rw [show (⟨v i, 0⟩ : ℂ) = ((v i : ℝ) : ℂ) from rfl]
      push_cast; ring
    rw [e]
    exact (norm_sub_le _ _).trans (add_le_add (hz i) (hx i))
  have hn : ∀ i, ‖(⟨z.1 i, z.2 i⟩ : ℂ) - ⟨x.1 i, x.2 i⟩‖ ≤ 2^18 := by
    intro i
    have g1 := norm_sub_norm_le ((⟨z.1 i, z.2 i⟩ : ℂ) - ⟨x.1 i, x.2 i⟩) ((u i - v i : ℝ) : ℂ)
    rw [Complex.norm_real, Real.norm_eq_abs] at g1
    have g2 := hd i
    have g3 := h i
    generalize |u i - v i| = q at *
    norm_num at *
    linarith
  refine Ok.mono (C84_sub z x fun i => (hn i).trans (pow_le_pow_right₀ (by norm_num) (by norm_num))) fun e he i => ?_
  have t1 := inv_pow_tiny (N := 1074) (by norm_num)
  have g1 := he i
  have g2 := hn i
  have g3 : ‖(⟨e.1 i, e.2 i⟩ : ℂ) - (⟨z.1 i, z.2 i⟩ - ⟨x.1 i, x.2 i⟩)‖ ≤ 1/2^34 := by
    generalize ‖(⟨z.1 i, z.2 i⟩ : ℂ) - ⟨x.1 i, x.2 i⟩‖ = w at *
    generalize ‖(⟨e.1 i, e.2 i⟩ : ℂ) - (⟨z.1 i, z.2 i⟩ - ⟨x.1 i, x.2 i⟩)‖ = v at *
    generalize (1:ℝ)/2^1074 = η at *
    norm_num at *
    linarith
  have g4 : |‖(⟨e.1 i, e.2 i⟩ : ℂ)‖ - ‖((u i - v i : ℝ) : ℂ)‖| ≤ 1/2^34 + (t + 1/2^35) := by
    refine (abs_norm_sub_norm_le _ _).trans ?_
    have e1 : (⟨e.1 i, e.2 i⟩ : ℂ) - ((u i - v i : ℝ) : ℂ) = (⟨e.1 i, e.2 i⟩ - (⟨z.1 i, z.2 i⟩ - ⟨x.1 i, x.2 i⟩)) +
      (⟨z.1 i, z.2 i⟩ - ⟨x.1 i, x.2 i⟩ - ((u i - v i : ℝ) : ℂ)) := by ring
    rw [e1]
    exact (norm_add_le _ _).trans (add_le_add g3 (hd i))
  rw [Complex.norm_real, Real.norm_eq_abs] at g4
  refine g4.trans ?_
  norm_num
  linarith

set_option exponentiation.threshold 300 in
set_option maxHeartbeats 1000000 in
/-- CoeffToSlot and what is measured of it -/
theorem ctsErrorsF_ok (hLib : L.Accurate) (R : Nat) (hp : CtsParam n G b) (h1 : 512 ≤ QT) (h2 : QT ≤ 1525) (a : CtsSetup (n+1) QT)
    (hs : Ternary a.s) (hw : weight a.s ≤ 128) (hct : a.ct.Canonical) (hd : dec a.ct a.s = pure a.pt) (hM : ∀ k, |((a.pt k).sval : ℝ)| ≤ 66 * 2^60) :
    Ok (ctsErrorsF L R 50 G QT a) fun e => ∃ x : Fin (2^(n+1)) → ℝ, (∀ k, |x k - (a.pt k).sval| ≤ 63/64 * 2^b) ∧ ∀ i : Fin (2^n),
      |‖(⟨e.1.1 i, e.1.2 i⟩ : ℂ)‖ - |x (loIdx i) - ((a.pt (loIdx i)).sval.sign * ((a.pt (loIdx i)).sval.natAbs % 2^64 : Nat) : ℤ)| / 2^50| ≤ 1/2^19 ∧
      |‖(⟨e.2.1 i, e.2.2 i⟩ : ℂ)‖ - |x (hiIdx i) - ((a.pt (hiIdx i)).sval.sign * ((a.pt (hiIdx i)).sval.natAbs % 2^64 : Nat) : ℤ)| / 2^50| ≤ 1/2^19 := by
  have hn : 8 ≤ n ∧ n ≤ 16 ∧ 1 ≤ G ∧ G ≤ 4 ∧ n % G = 0 ∧ n/G = 4 ∧ b ≤ 52 := by
    rcases hp with ⟨rfl, rfl, rfl⟩ | ⟨rfl, rfl, rfl⟩ | ⟨rfl, rfl, rfl⟩ <;> norm_num
  obtain ⟨hn8, hn16, hG1, hG4, hG, hdd, hb⟩ := hn
  have hN : 2^(n+1) ≤ 2^30 := Nat.pow_le_pow_right (by norm_num) (by omega)
  have hQ : GoodQ QT := Or.inr (Or.inl ⟨by omega, by omega⟩)
  obtain ⟨s, ω, pt_q, ct, M, z_amb⟩ := a
  dsimp only at hs hw hct hd hM ⊢
  obtain ⟨M', eM', hMc, hMp⟩ := dec_spec hN hs ct
  obtain rfl := pure_inj (hd.symm.trans eM')
  have hm : R_Q_square.phase s ct = red QT (R_Q.sval M) := by rw [← hMp, cls_red_sval]
  have hE := ctsErrm_num hp hw
  unfold ctsErr2 at hE
  have hb' : (2:ℝ)^b ≤ 2^52 := pow_le_pow_right₀ (by norm_num) hb
  have hks := ksErr_small hn16 hw
  have hks0 : 0 ≤ ksErr n (weight s) := by unfold ksErr; positivity
  unfold ctsErrorsF
  rw [show shl1 50 = pure (BitVec.ofNat 64 (2^50)) from rfl, pure_bind]
  have key : Ok (CoeffToSlotF (LOGN := n+1) L R 50 G ct s ω) _ :=
    Ok.bind (ctsTableF_spec hLib (by omega) (by omega)) fun U hU =>
      ctsWithF_real2 hLib.1 R 50 (by norm_num) hQ.one hQ.two (by omega) hn16 hs hU hG1 hG4 hG (by omega) hct hm ω
  refine Ok.bind key fun c ⟨hc0, hc1, w0, w1, hp0, hp1, a0, a1, g0, g1, he⟩ => ?_
  have he' := he _ (l2_slots_le hM)
  rw [hdd] at hE he'
  obtain ⟨x, hx⟩ : ∃ x : Fin (2^(n+1)) → ℝ, x = unPair n fun i => ⟨a0 i / (2^50)^4, a1 i / (2^50)^4⟩ := ⟨_, rfl⟩
  have x0 : ∀ i, x (loIdx i) = a0 i / (2^50)^4 := fun i => by rw [hx, unPair_lo]
  have x1 : ∀ i, x (hiIdx i) = a1 i / (2^50)^4 := fun i => by rw [hx, unPair_hi]
  have hC : (0:ℝ) < (2^50)^4 := by positivity
  have hcl : ∀ {y m : ℝ} {e : ℝ}, |y - (2^50)^4 * m| ≤ e → |y / (2^50)^4 - m| ≤ e / (2^50)^4 := by
    intro y m e hy
    have e1 : y / (2^50)^4 - m = (y - (2^50)^4 * m) / (2^50)^4 := by field_simp
    rw [e1, abs_div, abs_of_pos hC]
    exact div_le_div_of_nonneg_right hy hC.le
  have hxM : ∀ k, |x k - (M k).sval| ≤ 63/64 * 2^b := by
    refine lo_hi (fun i => ?_) (fun i => ?_)
    · rw [x0]; exact (hcl (he' i).1).trans hE
    · rw [x1]; exact (hcl (he' i).2).trans hE
  have hxb : ∀ k, |x k / 2^50| ≤ 67 * 2^10 := by
    intro k
    have k1 := abs_sub_abs_le_abs_sub (x k) (M k).sval
    have k2 := hxM k
    have k3 := hM k
    rw [abs_div, abs_of_pos (a := (2:ℝ)^50) (by positivity), div_le_iff₀ (by positivity)]
    generalize |x k - (M k).sval| = u at *
    norm_num at *
    linarith
  have hD : (2:ℝ)^(50 + n/G * 50) = 2^250 := by rw [hdd]
  have hDC : (2:ℂ)^(50 + n/G * 50) = 2^250 := by rw [hdd]
  have hsc : ∀ y : ℝ, (2:ℂ)^(50 + n/G * 50) * ((y / (2^50)^4 / 2^50 : ℝ) : ℂ) = (y : ℂ) := by
    intro y
    rw [hDC]
    push_cast
    rw [div_div, ← pow_mul, ← pow_add]
    exact mul_div_cancel₀ _ (pow_ne_zero _ two_ne_zero)
  have n0 : Near s c.1.1 (fun i => 2^(50 + n/G * 50) * ((x (loIdx i) / 2^50 : ℝ) : ℂ)) (ksErr n (weight s)) :=
    ⟨hc0, w0, hp0, fun i => by beta_reduce; rw [x0, hsc]; exact g0 i⟩
  have n1 : Near s c.1.2 (fun i => 2^(50 + n/G * 50) * ((x (hiIdx i) / 2^50 : ℝ) : ℂ)) (ksErr n (weight s)) :=
    ⟨hc1, w1, hp1, fun i => by beta_reduce; rw [x1, hsc]; exact g1 i⟩
  have hX : ∀ k, ‖((x k / 2^50 : ℝ) : ℂ)‖ ≤ 67 * 2^10 := fun k => by
    rw [Complex.norm_real, Real.norm_eq_abs]
    exact hxb k
  have hq : (2:ℝ)^(50 + n/G * 50) * (67 * 2^10) + ksErr n (weight s) < 2^(QT-1) := by
    rw [hD]
    refine lt_of_lt_of_le (b := (2:ℝ)^270) ?_ (pow_le_pow_right₀ (by norm_num) (by omega))
    refine lt_of_le_of_lt (add_le_add le_rfl hks) (by norm_num)
  have h800 : (67 * 2^10 : ℝ) ≤ 2^800 := le_trans (by norm_num) (pow_le_pow_right₀ (by norm_num) (by norm_num) : (2:ℝ)^20 ≤ 2^800)
  have hk8 : ksErr n (weight s) ≤ 2^800 * 2^(50 + n/G * 50) := by
    rw [← pow_add]
    exact hks.trans (pow_le_pow_right₀ (by norm_num) (by omega))
  have hDD : 50 + n/G * 50 ≤ 2^30 := by rw [hdd]; norm_num
  obtain ⟨z0, ez0, hz0⟩ := near_outS (D := 50 + n/G * 50) hLib.1 (by omega) (by omega) (by omega) hDD hs n0 (fun i => hX _) hq h800 hk8
  obtain ⟨z1, ez1, hz1⟩ := near_outS (D := 50 + n/G * 50) hLib.1 (by omega) (by omega) (by omega) hDD hs n1 (fun i => hX _) hq h800 hk8
  clear hq h800 hk8
  have hkq : ksErr n (weight s) / 2^(50 + n/G * 50) ≤ 1/2^60 := by
    rw [hD, div_le_iff₀ (by positivity)]
    exact hks.trans (by norm_num)
  have hkq0 : 0 ≤ ksErr n (weight s) / 2^(50 + n/G * 50) := by positivity
  have hT := decTol_ctsm (n := n) hn16 (Y := 67 * 2^10 + ksErr n (weight s) / 2^(50 + n/G * 50)) (by positivity) (by
    refine add_le_add le_rfl (hkq.trans (by norm_num)))
  have hlow : ∀ k, |(((M k).sval.sign * ((M k).sval.natAbs % 2^64 : Nat) : ℤ) : ℝ)| ≤ 2^65 := fun k => (low_abs _).trans (by norm_num)
  obtain ⟨⟨y0, b0, hy0⟩, y1, b1, hy1⟩ := brvMessageF_spec (n := n) (by omega) (by omega) hlow (rdDoubleF_14 hMc)
  obtain ⟨g, hg⟩ : ∃ g : Fin (2^(n+1)) → ℝ, g = fun k => (((M k).sval.sign * ((M k).sval.natAbs % 2^64 : Nat) : ℤ) : ℝ) := ⟨_, rfl⟩
  have hg' : ∀ k, (((M k).sval.sign * ((M k).sval.natAbs % 2^64 : Nat) : ℤ) : ℝ) = g k := fun k => by rw [hg]
  simp only [hg'] at hlow hy0 hy1 ⊢
  have hdiff : ∀ k, |x k / 2^50 - g k / 2^50| ≤ 2^17 := by
    intro k
    have k1 := abs_sub (x k / 2^50) (g k / 2^50)
    have k2 := hxb k
    have k3 := hlow k
    have k4 : |g k / 2^50| ≤ 2^15 := by
      rw [abs_div, abs_of_pos (a := (2:ℝ)^50) (by positivity), div_le_iff₀ (by positivity), ← pow_add]
      exact k3
    norm_num at *
    linarith
  have htol : ksErr n (weight s) / 2^(50 + n/G * 50) + decTol n (67 * 2^10 + ksErr n (weight s) / 2^(50 + n/G * 50)) ≤ 1/2^60 + 1/2^20 := add_le_add hkq hT
  obtain ⟨e0, ee0, he0⟩ := sub_nearF (t := 1/2^60 + 1/2^20) (by positivity) (by norm_num) (u := fun i => x (loIdx i) / 2^50) (v := fun i => g (loIdx i) / 2^50)
    (fun i => (hz0 i).trans htol) hy0 (fun i => hdiff _)
  obtain ⟨e1, ee1, he1⟩ := sub_nearF (t := 1/2^60 + 1/2^20) (by positivity) (by norm_num) (u := fun i => x (hiIdx i) / 2^50) (v := fun i => g (hiIdx i) / 2^50)
    (fun i => (hz1 i).trans htol) hy1 (fun i => hdiff _)
  have q0 : MsgF.sub (n := 2^(n+1-1)) z0 y0 = pure e0 := ee0
  have q1 : MsgF.sub (n := 2^(n+1-1)) z1 y1 = pure e1 := ee1
  rw [show decMessageF L.toLibm ((50 + (n+1-1)/G*50 : ℕ) : ℤ) c.1.1 s = pure z0 from ez0, pure_bind,
    show decMessageF L.toLibm ((50 + (n+1-1)/G*50 : ℕ) : ℤ) c.1.2 s = pure z1 from ez1, pure_bind, b0, pure_bind, b1, pure_bind, q0, pure_bind, q1, pure_bind]
  have hdv : ∀ k, |x k / 2^50 - g k / 2^50| = |x k - g k| / 2^50 := by
    intro k
    rw [← sub_div, abs_div, abs_of_pos (a := (2:ℝ)^50) (by positivity)]
  refine Ok.pure ⟨x, hxM, fun i => ⟨?_, ?_⟩⟩
  · have := he0 i
    beta_reduce at this
    rw [hdv] at this
    exact this.trans (by norm_num)
  · have := he1 i
    beta_reduce at this
    rw [hdv] at this
    exact this.trans (by norm_num)

theorem norm_tail {N : Nat} (hN : N ≤ 2^20) {R : ℝ} (h1 : 0 ≤ R) :
    ((3.01 + 1.01 * (N:ℝ)) * uF + 1.01 * uF) * R + (1.01 * Real.sqrt (7 * N * etaF) + etaF) ≤ (1.1 * (N:ℝ) + 5)/2^53 * R + 1/2^519 := by
  have ht := sqrt_tiny hN
  have p : 0 ≤ uF * R := mul_nonneg uF_pos.le h1
  have p2 : 0 ≤ N * (uF * R) := mul_nonneg (Nat.cast_nonneg N) p
  have e1 : ((3.01 + 1.01 * (N:ℝ)) * uF + 1.01 * uF) * R = 4.02 * (uF * R) + 1.01 * (N * (uF * R)) := by ring
  have e2 : (1.1 * (N:ℝ) + 5)/2^53 * R = 1.1 * (N * (uF * R)) + 5 * (uF * R) := by rw [uF_eq]; ring
  have e3 : (1:ℝ)/2^519 = 2 * (1/2^520) := by rw [show 520 = 1 + 519 by norm_num, pow_add]; field_simp
  have e4 : etaF ≤ 1/2 * (1/2^520) := by
    rw [etaF_eq, show (1:ℝ)/2 * (1/2^520) = 1/2^521 by rw [show 521 = 1 + 520 by norm_num, pow_add]; field_simp]
    exact one_div_le_one_div_of_le (by positivity) (pow_le_pow_right₀ (by norm_num) (by norm_num))
  have e5 : (0:ℝ) ≤ 1/2^520 := by positivity
  rw [e1, e2, e3]
  clear e3
  generalize (1:ℝ)/2^520 = X at *
  linarith

/-- the loop of `measure_sup_norm`: nothing is rounded but the sum of squares -/
theorem ptNormsF_ok {Q N : Nat} [NeZero Q] (hN : N ≤ 2^20) (pt : R_Q Q N) (hc : R_Q.Canonical pt) (hb : ∀ k, (pt k).sval.natAbs < 2^53) :
    Ok (ptNormsF pt) fun p =>
      (0 ≤ p.1 ∧ |p.1 - Real.sqrt (∑ k, (((pt k).sval : ℝ) / 2^50)^2)| ≤ (1.1 * N + 5)/2^53 * Real.sqrt (∑ k, (((pt k).sval : ℝ) / 2^50)^2) + 1/2^519) ∧
      (∀ k, |((pt k).sval : ℝ)| / 2^50 ≤ p.2) ∧ (0 < N → ∃ k, p.2 = |((pt k).sval : ℝ)| / 2^50) := by
  obtain ⟨a, ha⟩ : ∃ a : Fin N → ℝ, a = fun k => |((pt k).sval : ℝ)| / 2^50 := ⟨_, rfl⟩
  have ha0 : ∀ k, 0 ≤ a k := fun k => by rw [ha]; positivity
  have hab : ∀ k, a k ≤ 2^3 := by
    intro k
    rw [ha]
    have : (((pt k).sval.natAbs : ℕ) : ℝ) ≤ 2^53 := by exact_mod_cast (hb k).le
    dsimp only
    rw [natAbs_real] at this
    rw [div_le_iff₀ (by positivity), ← pow_add]
    exact this
  have hval : ∀ k, (toDoubleF (pt k) >>= fun val => divDeltaF |val| (BitVec.ofNat 64 (2^50))) = pure (a k) := by
    intro k
    rw [C09_double_exact _ (hc k) (hb k).le, pure_bind]
    unfold divDeltaF
    have e1 : fl (((BitVec.ofNat 64 (2^50)).toNat : ℕ) : ℝ) = pure (2^50) := by
      rw [show (BitVec.ofNat 64 (2^50)).toNat = 2^50 from rfl]
      have := C74_word (w := 2^50) (by norm_num)
      exact_mod_cast this
    rw [e1, pure_bind, if_neg (by positivity), ha]
    refine C74_exact ⟨((pt k).sval.natAbs : ℤ), -50, ?_, by norm_num, by norm_num, ?_⟩
    · rw [Nat.abs_cast]
      exact_mod_cast hb k
    · rw [Int.cast_natCast, natAbs_real, zpow_neg, div_eq_mul_inv]
      norm_cast
  obtain ⟨t, ht⟩ : ∃ t : Nat → ℝ, t = fun j => if h : j < N then a ⟨j, h⟩ * a ⟨j, h⟩ else 0 := ⟨_, rfl⟩
  have ht0 : ∀ j, 0 ≤ t j := by
    intro j
    rw [ht]
    dsimp only
    split
    · exact mul_self_nonneg _
    · exact le_rfl
  have h1 : ∑ j ∈ range N, t j = ∑ k, (((pt k).sval : ℝ) / 2^50)^2 := by
    rw [ht, ← Fin.sum_univ_eq_sum_range (fun j => if h : j < N then a ⟨j, h⟩ * a ⟨j, h⟩ else 0)]
    refine sum_congr rfl fun j _ => ?_
    rw [dif_pos j.isLt, ha]
    dsimp only
    rw [← pow_two, div_pow, div_pow, sq_abs]
  have h2 : ∑ j ∈ range N, |t j| = ∑ k, (((pt k).sval : ℝ) / 2^50)^2 := by
    rw [← h1]
    exact sum_congr rfl fun j _ => abs_of_nonneg (ht0 j)
  have hB : ∑ j ∈ range N, |t j| ≤ 2^1000 := by
    have h3 : ∀ j ∈ range N, |t j| ≤ 2^6 := fun j hj => by
      rw [abs_of_nonneg (ht0 j), ht]
      dsimp only
      rw [dif_pos (mem_range.1 hj)]
      calc _ ≤ (2:ℝ)^3 * 2^3 := mul_self_le_mul_self (ha0 _) (hab _)
        _ = 2^6 := by norm_num
    refine (sum_le_card_nsmul _ _ _ h3).trans ?_
    rw [card_range, nsmul_eq_mul]
    have hN' : (N:ℝ) ≤ 2^20 := by exact_mod_cast hN
    calc (N:ℝ) * 2^6 ≤ 2^20 * 2^6 := mul_le_mul_of_nonneg_right hN' (by norm_num)
      _ = 2^26 := by norm_num
      _ ≤ 2^1000 := pow_le_pow_right₀ (by norm_num) (by norm_num)
  unfold ptNormsF
  rw [show shl1 50 = pure (BitVec.ofNat 64 (2^50)) from rfl, pure_bind]
  refine Ok.bind (forUp_inv (Nat.zero_le N) (fun j (p : ℝ × ℝ) => SumInv t j p.1 ∧ 0 ≤ p.2 ∧
    (∀ k : Fin N, k.val < j → a k ≤ p.2) ∧ ((∃ k, p.2 = a k) ∨ p.2 = 0)) ⟨SumInv.zero t, le_rfl, fun k hk => by omega, Or.inr rfl⟩ ?_) ?_
  · rintro j ⟨s, mx⟩ - hj ⟨hs, hm0, hall, hex⟩
    rw [rd_of_lt pt hj, pure_bind, ← bind_assoc, hval, pure_bind]
    have htj : t j = a ⟨j, hj⟩ * a ⟨j, hj⟩ := by rw [ht]; dsimp only; rw [dif_pos hj]
    obtain ⟨r, er, hr⟩ := SumInv.step (t := t) (k := j) (by omega)
      ((sum_le_sum_of_subset_of_nonneg (range_mono hj) fun _ _ _ => abs_nonneg _).trans hB) hs
    rw [htj] at er
    obtain ⟨q, eq, es⟩ := bind_eq_pure er
    rw [eq, pure_bind, es, pure_bind]
    refine Ok.pure ⟨hr, ?_, ?_, ?_⟩
    · dsimp only
      rw [ite_max]
      exact le_max_of_le_left hm0
    · intro k hk
      dsimp only
      rw [ite_max]
      rcases Nat.lt_succ_iff_lt_or_eq.1 hk with h | h
      · exact le_max_of_le_left (hall k h)
      · refine le_max_of_le_right (le_of_eq ?_)
        congr 1
        exact Fin.ext h
    · dsimp only
      split
      · exact Or.inl ⟨_, rfl⟩
      · exact hex
  · rintro ⟨s, mx⟩ ⟨hs, hm0, hall, hex⟩
    unfold SumInv at hs
    rw [h1, h2, ← mul_assoc] at hs
    rw [h2] at hB
    have hκ := kappa_le hN
    have hu := uF_pos.le
    have hη := etaF_pos.le
    have hS0 : 0 ≤ ∑ k, (((pt k).sval : ℝ) / 2^50)^2 := sum_nonneg fun _ _ => by positivity
    refine Ok.bind (fl_sqrt_near hS0 hB (mul_nonneg (by positivity) hu) hκ
      (mul_nonneg (by positivity) hη) (sqrt_tiny hN) hs) fun r ⟨h0, hr⟩ => Ok.pure ⟨⟨h0, hr.trans (norm_tail hN (Real.sqrt_nonneg _))⟩, fun k => ?_, fun hN0 => ?_⟩
    · have := hall k k.isLt
      rw [ha] at this
      exact this
    · rcases hex with ⟨k, hk⟩ | h
      · exact ⟨k, by rw [ha] at hk; exact hk⟩
      · refine ⟨⟨0, hN0⟩, ?_⟩
        have := hall ⟨0, hN0⟩ hN0
        dsimp only at h this ⊢
        rw [h] at this ⊢
        have h3 := le_antisymm this (ha0 _)
        rw [ha] at h3
        exact h3.symm

end EvalRound

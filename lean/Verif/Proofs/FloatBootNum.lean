import Verif.Spec.FloatBoot
import Verif.Proofs.BootNum

/-! # Numerical bounds for the error of bootstrapping in binary64 -/

namespace EvalRound

section
variable {n h : Nat}

theorem evalModErrF_lin {ε E : ℝ} (hE : 1000 ≤ E) (hE' : E ≤ 2^24) (hR : rsErr n h ≤ E) (hM : mulErr n h ≤ 2^37)
    (hε : 0 ≤ ε) (hs : startErr n h 24 ((1 + 1/2^52) * ε + (24 + 1) * 2^60 / 2^53) ≤ E) :
    evalModErrF n h (2^60) 24 ε ≤ 130276 * E := by
  unfold evalModErrF
  have hε1 : 0 ≤ (1 + 1/2^52) * ε + (24 + 1) * 2^60 / 2^53 := by positivity
  generalize (1 + 1/2^52) * ε + (24 + 1) * 2^60 / 2^53 = ε at *
  have hR0 := rsErr_nonneg n h
  have hM0 := mulErr_nonneg n h
  have hE0 : 0 ≤ E := by linarith
  have hs0 : 0 ≤ startErr n h 24 ε := by unfold startErr; positivity
  have t0 : tErr n h (2^60) (startErr n h 24 ε) 0 ≤ 1 * E := by rw [one_mul]; exact hs
  have t1 : tErr n h (2^60) (startErr n h 24 ε) 1 ≤ (501/100) * E := tErr_lin hE hE' hR hM (by norm_num) hs0 t0 (by norm_num)
  have t2 : tErr n h (2^60) (startErr n h 24 ε) 2 ≤ (421/20) * E := tErr_lin hE hE' hR hM (by norm_num) hs0 t1 (by norm_num)
  have t3 : tErr n h (2^60) (startErr n h 24 ε) 3 ≤ (8521/100) * E := tErr_lin hE hE' hR hM (by norm_num) hs0 t2 (by norm_num)
  have t4 : tErr n h (2^60) (startErr n h 24 ε) 4 ≤ (6837/20) * E := tErr_lin hE hE' hR hM (by norm_num) hs0 t3 (by norm_num)
  have l0 : lErr n h (2^60) (startErr n h 24 ε) 3 0 ≤ (401/100) * E := by rw [lErr]; linarith
  have l1 : lErr n h (2^60) (startErr n h 24 ε) 3 1 ≤ (1203/50) * E := lErr_lin hE hE' hR hM (by norm_num) (by norm_num) hs0 t1 l0 (by norm_num)
  have l2 : lErr n h (2^60) (startErr n h 24 ε) 3 2 ≤ (2807/25) * E := lErr_lin hE hE' hR hM (by norm_num) (by norm_num) hs0 t2 l1 (by norm_num)
  have l3 : lErr n h (2^60) (startErr n h 24 ε) 3 3 ≤ (2406/5) * E := lErr_lin hE hE' hR hM (by norm_num) (by norm_num) hs0 t3 l2 (by norm_num)
  have l4 : lErr n h (2^60) (startErr n h 24 ε) 3 4 ≤ (49724/25) * E := lErr_lin hE hE' hR hM (by norm_num) (by norm_num) hs0 t4 l3 (by norm_num)
  have c0 : 0 ≤ cosErr n h (2^60) 24 ε := by
    have := lErr_nonneg (n := n) (h := h) (Δ := 2^60) (U := 3) (by positivity) hs0 (by norm_num) 4
    unfold cosErr; positivity
  have a0 : tErr n h (2^60) (cosErr n h (2^60) 24 ε) 0 ≤ (50877/25) * E := by
    have e : (2:ℝ)^60 * (4 / 10^14) ≤ 46117 / 1000 * E := by
      have : (2:ℝ)^60 * (4 / 10^14) ≤ 46117 := by norm_num
      linarith
    exact (add_le_add l4 e).trans (by rw [← add_mul]; exact mul_le_mul_of_nonneg_right (by norm_num) hE0)
  have a1 : tErr n h (2^60) (cosErr n h (2^60) 24 ε) 1 ≤ (814133/100) * E := tErr_lin hE hE' hR hM (by norm_num) c0 a0 (by norm_num)
  have a2 : tErr n h (2^60) (cosErr n h (2^60) 24 ε) 2 ≤ (3256633/100) * E := tErr_lin hE hE' hR hM (by norm_num) c0 a1 (by norm_num)
  have a3 : tErr n h (2^60) (cosErr n h (2^60) 24 ε) 3 ≤ (3256659/25) * E := tErr_lin hE hE' hR hM (by norm_num) c0 a2 (by norm_num)
  have a4 : tErr n h (2^60) (cosErr n h (2^60) 24 ε) 4 ≤ (26053347/50) * E := tErr_lin hE hE' hR hM (by norm_num) c0 a3 (by norm_num)
  have ha0 : 0 ≤ angleErr n h (2^60) 24 ε := tErr_nonneg (by positivity) c0 4
  have ha : angleErr n h (2^60) 24 ε ≤ (26053347/50) * E := a4
  have hb0 : 0 ≤ (1 + 1/2^50) * angleErr n h (2^60) 24 ε + 5 * 2^60 / 2^53 := by positivity
  have hb : (1 + 1/2^50) * angleErr n h (2^60) 24 ε + 5 * 2^60 / 2^53 ≤ (5210676/10) * E := by
    calc (1 + 1/2^50) * angleErr n h (2^60) 24 ε + 5 * 2^60 / 2^53 ≤ (1 + 1/2^50) * ((26053347/50) * E) + 640/1000 * E := by
          gcongr
          norm_num
          linarith
      _ = ((1 + 1/2^50) * (26053347/50) + 640/1000) * E := by ring
      _ ≤ _ := by gcongr; norm_num
  clear ha ha0 a0 a1 a2 a3 a4 c0 l0 l1 l2 l3 l4 t0 t1 t2 t3 t4
  generalize (1 + 1/2^50) * angleErr n h (2^60) 24 ε + 5 * 2^60 / 2^53 = a at *
  have hpi := Real.pi_gt_three
  have x0 : 0 ≤ sixErr n h (2^60) a := by unfold sixErr; positivity
  have x1 : sixErr n h (2^60) a ≤ (10421402/10) * E := by
    have h2 : a^2 ≤ (5210676/10)^2 * (2^24 * E) := by
      calc a^2 ≤ ((5210676/10) * E)^2 := by gcongr
        _ = (5210676/10)^2 * (E * E) := by ring
        _ ≤ _ := by gcongr
    unfold sixErr
    calc _ ≤ (2 * 2^60 * ((5210676/10) * E) + (5210676/10)^2 * (2^24 * E) + 2^37 / 1000 * E) / 2^60 + E := by
          gcongr
          linarith
      _ = (2 * (5210676/10) + (5210676/10)^2 / 2^36 + 2^37 / 1000 / 2^60 + 1) * E := by ring
      _ ≤ _ := by gcongr; norm_num
  have y0 : 0 ≤ linErr n h a := by unfold linErr; positivity
  have y1 : linErr n h a ≤ (1447511/100) * E := by
    unfold linErr
    calc _ ≤ ((5210676/10) * E) / (12 * 3) + 1 / 1000 * E + E := by
          gcongr
          linarith
      _ = ((5210676/10) / 36 + 1 / 1000 + 1) * E := by ring
      _ ≤ _ := by gcongr; norm_num
  have z1 : sixErr n h (2^60) a * linErr n h a ≤ (10421402/10) * (1447511/100) * (2^24 * E) := by
    calc _ ≤ ((10421402/10) * E) * ((1447511/100) * E) := by gcongr
      _ = (10421402/10) * (1447511/100) * (E * E) := by ring
      _ ≤ _ := by gcongr
  unfold cubicErr
  calc _ ≤ (7 * 2^60 * ((1447511/100) * E) + 2^60 / (12 * 3) * ((10421402/10) * E) + (10421402/10) * (1447511/100) * (2^24 * E) + 2^37 / 1000 * E) / 2^60 + E := by
        gcongr
        linarith
    _ = (7 * (1447511/100) + (10421402/10) / 36 + (10421402/10) * (1447511/100) / 2^36 + 2^37 / 1000 / 2^60 + 1) * E := by ring
    _ ≤ _ := by gcongr; norm_num


theorem evalModErrF_num (hn : n ≤ 16) (hh : h ≤ 192) : evalModErrF n h (2^60) 24 (2^20) ≤ 2^41 := by
  have hR := rsErr_num hn hh
  have hM := mulErr_num hn hh
  refine (evalModErrF_lin (E := 12692300) (by norm_num) (by norm_num) (by linarith) (hM.trans (by norm_num)) (by norm_num) ?_).trans (by norm_num)
  unfold startErr
  norm_num at hR ⊢
  linarith

end

/-- The parameters of the drivers with `LOGDELTA_cts = 60`: `n = LOGN-1`, `G`, and a bound `2^b` of the error in binary64. -/
def BootParamF (n G b : Nat) : Prop := n = 8 ∧ G = 2 ∧ b = 37 ∨ n = 12 ∧ G = 3 ∧ b = 45 ∨ n = 16 ∧ G = 4 ∧ b = 57

theorem BootParamF.old {n G b : Nat} (hp : BootParamF n G b) : ∃ b', BootParam n G b' := by
  rcases hp with ⟨rfl, rfl, rfl⟩ | ⟨rfl, rfl, rfl⟩ | ⟨rfl, rfl, rfl⟩
  · exact ⟨34, Or.inl ⟨rfl, rfl, rfl⟩⟩
  · exact ⟨44, Or.inr (Or.inl ⟨rfl, rfl, rfl⟩)⟩
  · exact ⟨57, Or.inr (Or.inr ⟨rfl, rfl, rfl⟩)⟩

theorem sqrt2_pow8 : (Real.sqrt 2)^8 = 16 := by
  rw [show (8:Nat) = 2 * 4 from rfl, pow_mul, Real.sq_sqrt (by norm_num)]; norm_num

theorem sqrt2_pow12 : (Real.sqrt 2)^12 = 64 := by
  rw [show (12:Nat) = 2 * 6 from rfl, pow_mul, Real.sq_sqrt (by norm_num)]; norm_num

theorem sqrt2_pow16 : (Real.sqrt 2)^16 = 256 := by
  rw [show (16:Nat) = 2 * 8 from rfl, pow_mul, Real.sq_sqrt (by norm_num)]; norm_num

section
variable {h n G b : Nat}

set_option exponentiation.threshold 2000 in
set_option maxHeartbeats 1000000 in
theorem ctsErrF_8 (hh : h ≤ 128) : ctsErrF 8 h 2 (2^60) (2^9 * (25 * 2^60)) ≤ 54/64 * 2^37 := by
  have h2 : (h:ℝ) ≤ 128 := by exact_mod_cast hh
  norm_num [ctsErrF, grpErrF, ltSizeF, ltErrF, encTol, matUlp, sqrt2_pow8, sqrt2_pow12, sqrt2_pow16]
  linarith

set_option exponentiation.threshold 2000 in
set_option maxHeartbeats 1000000 in
theorem ctsErrF_12 (hh : h ≤ 128) : ctsErrF 12 h 3 (2^60) (2^13 * (25 * 2^60)) ≤ 59/64 * 2^44 := by
  have h2 : (h:ℝ) ≤ 128 := by exact_mod_cast hh
  norm_num [ctsErrF, grpErrF, ltSizeF, ltErrF, encTol, matUlp, sqrt2_pow8, sqrt2_pow12, sqrt2_pow16]
  linarith

set_option exponentiation.threshold 2000 in
set_option maxHeartbeats 1000000 in
theorem ctsErrF_16 (hh : h ≤ 128) : ctsErrF 16 h 4 (2^60) (2^17 * (25 * 2^60)) ≤ 2^51 := by
  have h2 : (h:ℝ) ≤ 128 := by exact_mod_cast hh
  norm_num [ctsErrF, grpErrF, ltSizeF, ltErrF, encTol, matUlp, sqrt2_pow8, sqrt2_pow12, sqrt2_pow16]
  linarith

set_option exponentiation.threshold 2000 in
set_option maxHeartbeats 1000000 in
theorem stcErrF_8a (hh : h ≤ 128) {Z : ℝ} (hZ : Z ≤ 17/16 * 2^52) : stcErrF 8 h 2 (2^50) Z ≤ 2^32 := by
  have h2 : (h:ℝ) ≤ 128 := by exact_mod_cast hh
  norm_num [stcErrF, grpErrF, ltSizeF, ltErrF, encTol, matUlp, sqrt2_pow8, sqrt2_pow12, sqrt2_pow16] at hZ ⊢
  linarith

set_option exponentiation.threshold 2000 in
set_option maxHeartbeats 1000000 in
theorem stcErrF_8b (hh : h ≤ 128) {Z : ℝ} (hZ : Z ≤ 26 * 2^60) : stcErrF 8 h 2 (2^60) Z ≤ 56/64 * 2^36 := by
  have h2 : (h:ℝ) ≤ 128 := by exact_mod_cast hh
  norm_num [stcErrF, grpErrF, ltSizeF, ltErrF, encTol, matUlp, sqrt2_pow8, sqrt2_pow12, sqrt2_pow16] at hZ ⊢
  linarith

set_option exponentiation.threshold 2000 in
set_option maxHeartbeats 1000000 in
theorem stcErrF_12a (hh : h ≤ 128) {Z : ℝ} (hZ : Z ≤ 17/16 * 2^52) : stcErrF 12 h 3 (2^50) Z ≤ 14/16 * 2^44 := by
  have h2 : (h:ℝ) ≤ 128 := by exact_mod_cast hh
  norm_num [stcErrF, grpErrF, ltSizeF, ltErrF, encTol, matUlp, sqrt2_pow8, sqrt2_pow12, sqrt2_pow16] at hZ ⊢
  linarith

set_option exponentiation.threshold 2000 in
set_option maxHeartbeats 1000000 in
theorem stcErrF_12b (hh : h ≤ 128) {Z : ℝ} (hZ : Z ≤ 26 * 2^60) : stcErrF 12 h 3 (2^60) Z ≤ 22/16 * 2^44 := by
  have h2 : (h:ℝ) ≤ 128 := by exact_mod_cast hh
  norm_num [stcErrF, grpErrF, ltSizeF, ltErrF, encTol, matUlp, sqrt2_pow8, sqrt2_pow12, sqrt2_pow16] at hZ ⊢
  linarith

set_option exponentiation.threshold 2000 in
set_option maxHeartbeats 1000000 in
theorem stcErrF_16a (hh : h ≤ 128) {Z : ℝ} (hZ : Z ≤ 17/16 * 2^52) : stcErrF 16 h 4 (2^50) Z ≤ 11/16 * 2^57 := by
  have h2 : (h:ℝ) ≤ 128 := by exact_mod_cast hh
  norm_num [stcErrF, grpErrF, ltSizeF, ltErrF, encTol, matUlp, sqrt2_pow8, sqrt2_pow12, sqrt2_pow16] at hZ ⊢
  linarith

set_option exponentiation.threshold 2000 in
set_option maxHeartbeats 1000000 in
theorem stcErrF_16b (hh : h ≤ 128) {Z : ℝ} (hZ : Z ≤ 26 * 2^60) : stcErrF 16 h 4 (2^60) Z ≤ 11/16 * 2^57 := by
  have h2 : (h:ℝ) ≤ 128 := by exact_mod_cast hh
  norm_num [stcErrF, grpErrF, ltSizeF, ltErrF, encTol, matUlp, sqrt2_pow8, sqrt2_pow12, sqrt2_pow16] at hZ ⊢
  linarith

theorem evalModErrF_boot (hp : BootParam n G b) (hh : h ≤ 128) :
    evalModErrF n h (2^60) 24 (ctsNoise n h G (2^60)) ≤ 130276 * (136 * 2^n) := by
  have h2 : (h:ℝ) ≤ 128 := by exact_mod_cast hh
  have h3 := ctsNoise_num hp hh
  have h0 : 0 ≤ ctsNoise n h G (2^60) := by unfold ctsNoise ksErr rsErr; positivity
  have hn : n ≤ 16 := by rcases hp with ⟨rfl, rfl, rfl⟩ | ⟨rfl, rfl, rfl⟩ | ⟨rfl, rfl, rfl⟩ <;> norm_num
  have hn8 : (2:ℝ)^8 ≤ 2^n := pow_le_pow_right₀ (by norm_num) (by
    rcases hp with ⟨rfl, rfl, rfl⟩ | ⟨rfl, rfl, rfl⟩ | ⟨rfl, rfl, rfl⟩ <;> norm_num)
  have hn16 : (2:ℝ)^n ≤ 2^16 := pow_le_pow_right₀ (by norm_num) hn
  norm_num at hn8 hn16
  have hr : rsErr n h ≤ 129 * 2^n := by
    unfold rsErr
    have : (2:ℝ)^n * (h + 1) ≤ 2^n * 129 := by gcongr; linarith
    linarith
  refine evalModErrF_lin (E := 136 * 2^n) (by linarith) (by norm_num; linarith) (by linarith) ?_ h0 ?_
  · exact (mulErr_num hn (by omega)).trans (by norm_num)
  · unfold startErr
    generalize ctsNoise n h G (2^60) = x at *
    generalize rsErr n h = y at *
    generalize (2:ℝ)^n = t at *
    norm_num
    linarith

/-- the error of EvalMod with the parameters of the drivers -/
theorem modErrF_num (hp : BootParam n G b) (hh : h ≤ 128) {Z : ℝ} (hc0 : 0 ≤ ctsErrF n h G (2^60) Z)
    (hc : ctsErrF n h G (2^60) Z ≤ 2^48 ∨ n = 16 ∧ ctsErrF n h G (2^60) Z ≤ 2^51) : modErrF n h G (2^60) (2^60) Z (2^51) ≤ 138 * 130276 * 2^n := by
  have h1 := evalModErrF_boot hp hh
  have hn8 : (2:ℝ)^8 ≤ 2^n := pow_le_pow_right₀ (by norm_num) (by
    rcases hp with ⟨rfl, rfl, rfl⟩ | ⟨rfl, rfl, rfl⟩ | ⟨rfl, rfl, rfl⟩ <;> norm_num)
  have h4 : (2:ℝ)^60 * (117 * ((2^51 + ctsErrF n h G (2^60) Z) / 2^60)^5) ≤ 2 * 130276 * 2^n := by
    rcases hc with hc | ⟨rfl, hc⟩
    · calc (2:ℝ)^60 * (117 * ((2^51 + ctsErrF n h G (2^60) Z) / 2^60)^5) ≤ 2^60 * (117 * ((2^51 + 2^48) / 2^60)^5) := by gcongr
        _ ≤ 2 * 130276 * 2^8 := by norm_num
        _ ≤ _ := by gcongr
    · calc (2:ℝ)^60 * (117 * ((2^51 + ctsErrF 16 h G (2^60) Z) / 2^60)^5) ≤ 2^60 * (117 * ((2^51 + 2^51) / 2^60)^5) := by gcongr
        _ ≤ _ := by norm_num
  unfold modErrF
  calc _ ≤ 130276 * (136 * 2^n) + 2 * 130276 * (2:ℝ)^n := add_le_add h1 h4
    _ = _ := by ring

theorem boot_paramF_ctsErr' (hp : BootParamF n G b) (hh : h ≤ 128) :
    ctsErrF n h G (2^60) (2^(n+1) * (25 * 2^60)) ≤ 2^48 ∨ n = 16 ∧ ctsErrF n h G (2^60) (2^(n+1) * (25 * 2^60)) ≤ 2^51 := by
  rcases hp with ⟨rfl, rfl, rfl⟩ | ⟨rfl, rfl, rfl⟩ | ⟨rfl, rfl, rfl⟩
  · exact Or.inl ((ctsErrF_8 hh).trans (by norm_num))
  · exact Or.inl ((ctsErrF_12 hh).trans (by norm_num))
  · exact Or.inr ⟨rfl, ctsErrF_16 hh⟩

theorem boot_paramF_ctsErr (hp : BootParamF n G b) (hh : h ≤ 128) :
    ctsErrF n h G (2^60) (2^(n+1) * (25 * 2^60)) ≤ 2^51 := by
  rcases boot_paramF_ctsErr' hp hh with h1 | ⟨_, h1⟩
  · exact h1.trans (by norm_num)
  · exact h1

set_option exponentiation.threshold 2000 in
set_option maxHeartbeats 1000000 in
theorem boot_paramF_ctsErr0 (hp : BootParamF n G b) : 0 ≤ ctsErrF n h G (2^60) (2^(n+1) * (25 * 2^60)) := by
  have h2 : (0:ℝ) ≤ h := by positivity
  rcases hp with ⟨rfl, rfl, rfl⟩ | ⟨rfl, rfl, rfl⟩ | ⟨rfl, rfl, rfl⟩ <;>
  · norm_num [ctsErrF, grpErrF, ltSizeF, ltErrF, encTol, matUlp, sqrt2_pow8, sqrt2_pow12, sqrt2_pow16]
    linarith

theorem convErrF_num (hp : BootParamF n G b) (hh : h ≤ 128) :
    convErrF n h G (2^60) (2^60) (2^50) (2^(n+1) * (25 * 2^60)) (2^51) ≤ 2^b := by
  have h0 := boot_paramF_ctsErr0 (h := h) hp
  have h1 := boot_paramF_ctsErr hp hh
  obtain ⟨b', hp'⟩ := hp.old
  have h2 := modErrF_num hp' hh h0 (boot_paramF_ctsErr' hp hh)
  unfold convErrF
  rcases hp with ⟨rfl, rfl, rfl⟩ | ⟨rfl, rfl, rfl⟩ | ⟨rfl, rfl, rfl⟩
  · norm_num at h2
    have h3 := ctsErrF_8 hh
    norm_num at h3 ⊢
    have h4 := stcErrF_8a hh (Z := 2^51 + ctsErrF 8 h 2 (2^60) (2^9 * (25 * 2^60)) +
      modErrF 8 h 2 (2^60) (2^60) (2^9 * (25 * 2^60)) (2^51)) (by norm_num; linarith)
    norm_num at h4
    linarith
  · norm_num at h2
    have h3 := ctsErrF_12 hh
    norm_num at h3 ⊢
    have h4 := stcErrF_12a hh (Z := 2^51 + ctsErrF 12 h 3 (2^60) (2^13 * (25 * 2^60)) +
      modErrF 12 h 3 (2^60) (2^60) (2^13 * (25 * 2^60)) (2^51)) (by norm_num; linarith)
    norm_num at h4
    linarith
  · norm_num at h2
    have h3 := ctsErrF_16 hh
    norm_num at h3 ⊢
    have h4 := stcErrF_16a hh (Z := 2^51 + ctsErrF 16 h 4 (2^60) (2^17 * (25 * 2^60)) +
      modErrF 16 h 4 (2^60) (2^60) (2^17 * (25 * 2^60)) (2^51)) (by norm_num; linarith)
    norm_num at h4
    linarith

theorem propErrF_num (hp : BootParamF n G b) (hh : h ≤ 128) :
    propErrF n h G (2^60) (2^60) (2^60) (2^(n+1) * (25 * 2^60)) (2^51) ≤ 2^b := by
  have h0 := boot_paramF_ctsErr0 (h := h) hp
  have h1 := boot_paramF_ctsErr hp hh
  obtain ⟨b', hp'⟩ := hp.old
  have h2 := modErrF_num hp' hh h0 (boot_paramF_ctsErr' hp hh)
  have h5 := ctsNoise_num hp' hh
  unfold propErrF
  rcases hp with ⟨rfl, rfl, rfl⟩ | ⟨rfl, rfl, rfl⟩ | ⟨rfl, rfl, rfl⟩
  · norm_num at h2 h5 ⊢
    have h4 := stcErrF_8b hh (Z := 25 * 2^60 + (ctsNoise 8 h 2 (2^60) +
      modErrF 8 h 2 (2^60) (2^60) (2^9 * (25 * 2^60)) (2^51))) (by norm_num; linarith)
    norm_num at h4
    linarith
  · norm_num at h2 h5 ⊢
    have h4 := stcErrF_12b hh (Z := 25 * 2^60 + (ctsNoise 12 h 3 (2^60) +
      modErrF 12 h 3 (2^60) (2^60) (2^13 * (25 * 2^60)) (2^51))) (by norm_num; linarith)
    norm_num at h4
    linarith
  · norm_num at h2 h5 ⊢
    have h4 := stcErrF_16b hh (Z := 25 * 2^60 + (ctsNoise 16 h 4 (2^60) +
      modErrF 16 h 4 (2^60) (2^60) (2^17 * (25 * 2^60)) (2^51))) (by norm_num; linarith)
    norm_num at h4
    linarith


end

end EvalRound

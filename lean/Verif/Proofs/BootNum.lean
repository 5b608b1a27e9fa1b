import Verif.Spec.Boot
import Verif.Proofs.EvalModNum

/-! # Numerical bounds for the error of bootstrapping -/

namespace EvalRound

variable {h : Nat}

/-- The parameters of the drivers with `LOGDELTA_cts = 60`: `n = LOGN-1`, `G`, and a bound `2^b` of the error. -/
def BootParam (n G b : Nat) : Prop := n = 8 ∧ G = 2 ∧ b = 34 ∨ n = 12 ∧ G = 3 ∧ b = 44 ∨ n = 16 ∧ G = 4 ∧ b = 57

section
variable {n G b : Nat}

theorem ctsErr_8 (hh : h ≤ 128) : ctsErr 8 h 2 (2^60) (2^9 * (25 * 2^60)) ≤ 2^29 := by
  have h2 : (h:ℝ) ≤ 128 := by exact_mod_cast hh
  norm_num [ctsErr, grpErr, ltSize, ltErr]
  linarith

theorem ctsErr_12 (hh : h ≤ 128) : ctsErr 12 h 3 (2^60) (2^13 * (25 * 2^60)) ≤ 2^38 := by
  have h2 : (h:ℝ) ≤ 128 := by exact_mod_cast hh
  norm_num [ctsErr, grpErr, ltSize, ltErr]
  linarith

theorem ctsErr_16 (hh : h ≤ 128) : ctsErr 16 h 4 (2^60) (2^17 * (25 * 2^60)) ≤ 2^48 := by
  have h2 : (h:ℝ) ≤ 128 := by exact_mod_cast hh
  norm_num [ctsErr, grpErr, ltSize, ltErr]
  linarith

theorem stcErr_8 (hh : h ≤ 128) {D Z : ℝ} (hD : D = 2^50 ∧ Z ≤ 2^52 ∨ D = 2^60 ∧ Z ≤ 26 * 2^60) :
    stcErr 8 h 2 D Z ≤ 2^32 := by
  have h2 : (h:ℝ) ≤ 128 := by exact_mod_cast hh
  rcases hD with ⟨rfl, hZ⟩ | ⟨rfl, hZ⟩
  · norm_num [stcErr, grpErr, ltSize, ltErr] at hZ ⊢
    linarith
  · norm_num [stcErr, grpErr, ltSize, ltErr] at hZ ⊢
    linarith

theorem stcErr_12 (hh : h ≤ 128) {D Z : ℝ} (hD : D = 2^50 ∧ Z ≤ 2^52 ∨ D = 2^60 ∧ Z ≤ 26 * 2^60) :
    stcErr 12 h 3 D Z ≤ 15/16 * 2^44 := by
  have h2 : (h:ℝ) ≤ 128 := by exact_mod_cast hh
  rcases hD with ⟨rfl, hZ⟩ | ⟨rfl, hZ⟩
  · norm_num [stcErr, grpErr, ltSize, ltErr] at hZ ⊢
    linarith
  · norm_num [stcErr, grpErr, ltSize, ltErr] at hZ ⊢
    linarith

theorem stcErr_16 (hh : h ≤ 128) {D Z : ℝ} (hD : D = 2^50 ∧ Z ≤ 2^52 ∨ D = 2^60 ∧ Z ≤ 26 * 2^60) :
    stcErr 16 h 4 D Z ≤ 15/16 * 2^57 := by
  have h2 : (h:ℝ) ≤ 128 := by exact_mod_cast hh
  rcases hD with ⟨rfl, hZ⟩ | ⟨rfl, hZ⟩
  · norm_num [stcErr, grpErr, ltSize, ltErr] at hZ ⊢
    linarith
  · norm_num [stcErr, grpErr, ltSize, ltErr] at hZ ⊢
    linarith

theorem ctsNoise_num (hp : BootParam n G b) (hh : h ≤ 128) : ctsNoise n h G (2^60) ≤ 129 * 2^n + 1 := by
  have h2 : (h:ℝ) ≤ 128 := by exact_mod_cast hh
  rcases hp with ⟨rfl, rfl, rfl⟩ | ⟨rfl, rfl, rfl⟩ | ⟨rfl, rfl, rfl⟩ <;>
  · norm_num [ctsNoise, ksErr, rsErr]
    linarith

theorem evalModErr_boot (hp : BootParam n G b) (hh : h ≤ 128) :
    evalModErr n h (2^60) 24 (ctsNoise n h G (2^60)) ≤ 130276 * (135 * 2^n) := by
  have h2 : (h:ℝ) ≤ 128 := by exact_mod_cast hh
  have h3 := ctsNoise_num hp hh
  have h0 : 0 ≤ ctsNoise n h G (2^60) := by unfold ctsNoise ksErr rsErr; positivity
  have hn : n ≤ 16 := by rcases hp with ⟨rfl, rfl, rfl⟩ | ⟨rfl, rfl, rfl⟩ | ⟨rfl, rfl, rfl⟩ <;> norm_num
  have hn8 : (2:ℝ)^8 ≤ 2^n := pow_le_pow_right₀ (by norm_num) (by
    rcases hp with ⟨rfl, rfl, rfl⟩ | ⟨rfl, rfl, rfl⟩ | ⟨rfl, rfl, rfl⟩ <;> norm_num)
  have hn16 : (2:ℝ)^n ≤ 2^16 := pow_le_pow_right₀ (by norm_num) hn
  norm_num at hn8 hn16
  have hr : rsErr n h ≤ 129 * 2^n := by
    unfold rsErr
    have : (2:ℝ)^n * (h + 1) ≤ 2^n * 129 := by gcongr; linarith
    linarith
  refine evalModErr_lin (E := 135 * 2^n) (by linarith) (by norm_num; linarith) (by linarith) ?_ h0 ?_
  · exact (mulErr_num hn (by omega)).trans (by norm_num)
  · unfold startErr
    generalize ctsNoise n h G (2^60) = x at *
    generalize rsErr n h = y at *
    generalize (2:ℝ)^n = t at *
    linarith

/-- the error of EvalMod with the parameters of the drivers -/
theorem modErr_num (hp : BootParam n G b) (hh : h ≤ 128) {Z : ℝ} (hc0 : 0 ≤ ctsErr n h G (2^60) Z)
    (hc : ctsErr n h G (2^60) Z ≤ 2^48) : modErr n h G (2^60) (2^60) Z (2^51) ≤ 137 * 130276 * 2^n := by
  have h1 := evalModErr_boot hp hh
  have h2 : (2:ℝ)^60 * (117 * ((2^51 + ctsErr n h G (2^60) Z) / 2^60)^5) ≤ 2^60 * (117 * ((2^51 + 2^48) / 2^60)^5) := by
    gcongr
  have h3 : (2:ℝ)^60 * (117 * ((2^51 + 2^48) / 2^60)^5) ≤ 2 * 130276 * 2^8 := by norm_num
  have hn8 : (2:ℝ)^8 ≤ 2^n := pow_le_pow_right₀ (by norm_num) (by
    rcases hp with ⟨rfl, rfl, rfl⟩ | ⟨rfl, rfl, rfl⟩ | ⟨rfl, rfl, rfl⟩ <;> norm_num)
  have h4 := (h2.trans h3)
  unfold modErr
  calc _ ≤ 130276 * (135 * 2^n) + 2 * 130276 * (2:ℝ)^n := add_le_add h1 (h4.trans (by gcongr))
    _ = _ := by ring

theorem boot_param_ctsErr (hp : BootParam n G b) (hh : h ≤ 128) : 
    ctsErr n h G (2^60) (2^(n+1) * (25 * 2^60)) ≤ 2^48 := by
  rcases hp with ⟨rfl, rfl, rfl⟩ | ⟨rfl, rfl, rfl⟩ | ⟨rfl, rfl, rfl⟩
  · exact (ctsErr_8 hh).trans (by norm_num)
  · exact (ctsErr_12 hh).trans (by norm_num)
  · exact ctsErr_16 hh

theorem boot_param_ctsErr0 (hp : BootParam n G b) : 0 ≤ ctsErr n h G (2^60) (2^(n+1) * (25 * 2^60)) := by
  have h2 : (0:ℝ) ≤ h := by positivity
  rcases hp with ⟨rfl, rfl, rfl⟩ | ⟨rfl, rfl, rfl⟩ | ⟨rfl, rfl, rfl⟩ <;>
  · norm_num [ctsErr, grpErr, ltSize, ltErr]
    linarith

theorem convErr_num (hp : BootParam n G b) (hh : h ≤ 128) :
    convErr n h G (2^60) (2^60) (2^50) (2^(n+1) * (25 * 2^60)) (2^51) ≤ 2^b := by
  have h0 := boot_param_ctsErr0 (h := h) hp
  have h1 := boot_param_ctsErr hp hh
  have h2 := modErr_num hp hh h0 h1
  unfold convErr
  rcases hp with ⟨rfl, rfl, rfl⟩ | ⟨rfl, rfl, rfl⟩ | ⟨rfl, rfl, rfl⟩
  · norm_num at h2
    have h3 := ctsErr_8 hh
    norm_num at h3 ⊢
    have h4 := stcErr_8 hh (D := 2^50) (Z := 2^51 + ctsErr 8 h 2 (2^60) (2^9 * (25 * 2^60)) +
      modErr 8 h 2 (2^60) (2^60) (2^9 * (25 * 2^60)) (2^51)) (Or.inl ⟨rfl, by norm_num; linarith⟩)
    norm_num at h4
    linarith
  · norm_num at h2
    have h3 := ctsErr_12 hh
    norm_num at h3 ⊢
    have h4 := stcErr_12 hh (D := 2^50) (Z := 2^51 + ctsErr 12 h 3 (2^60) (2^13 * (25 * 2^60)) +
      modErr 12 h 3 (2^60) (2^60) (2^13 * (25 * 2^60)) (2^51)) (Or.inl ⟨rfl, by norm_num; linarith⟩)
    norm_num at h4
    linarith
  · norm_num at h2
    have h3 := ctsErr_16 hh
    norm_num at h3 ⊢
    have h4 := stcErr_16 hh (D := 2^50) (Z := 2^51 + ctsErr 16 h 4 (2^60) (2^17 * (25 * 2^60)) +
      modErr 16 h 4 (2^60) (2^60) (2^17 * (25 * 2^60)) (2^51)) (Or.inl ⟨rfl, by norm_num; linarith⟩)
    norm_num at h4
    linarith

theorem propErr_num (hp : BootParam n G b) (hh : h ≤ 128) :
    propErr n h G (2^60) (2^60) (2^60) (2^(n+1) * (25 * 2^60)) (2^51) ≤ 2^b := by
  have h0 := boot_param_ctsErr0 (h := h) hp
  have h1 := boot_param_ctsErr hp hh
  have h2 := modErr_num hp hh h0 h1
  have h5 := ctsNoise_num hp hh
  unfold propErr
  rcases hp with ⟨rfl, rfl, rfl⟩ | ⟨rfl, rfl, rfl⟩ | ⟨rfl, rfl, rfl⟩
  · norm_num at h2 h5 ⊢
    have h4 := stcErr_8 hh (D := 2^60) (Z := 25 * 2^60 + (ctsNoise 8 h 2 (2^60) +
      modErr 8 h 2 (2^60) (2^60) (2^9 * (25 * 2^60)) (2^51))) (Or.inr ⟨rfl, by norm_num; linarith⟩)
    norm_num at h4
    linarith
  · norm_num at h2 h5 ⊢
    have h4 := stcErr_12 hh (D := 2^60) (Z := 25 * 2^60 + (ctsNoise 12 h 3 (2^60) +
      modErr 12 h 3 (2^60) (2^60) (2^13 * (25 * 2^60)) (2^51))) (Or.inr ⟨rfl, by norm_num; linarith⟩)
    norm_num at h4
    linarith
  · norm_num at h2 h5 ⊢
    have h4 := stcErr_16 hh (D := 2^60) (Z := 25 * 2^60 + (ctsNoise 16 h 4 (2^60) +
      modErr 16 h 4 (2^60) (2^60) (2^17 * (25 * 2^60)) (2^51))) (Or.inr ⟨rfl, by norm_num; linarith⟩)
    norm_num at h4
    linarith

end
end EvalRound

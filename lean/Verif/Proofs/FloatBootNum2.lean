import Verif.Spec.FloatL2
import Verif.Proofs.FloatBootNum
import Verif.Proofs.FloatLT2

/-! # Numerical bounds for the error of bootstrapping in binary64, in the norm of the vector of slots -/

namespace EvalRound

section
variable {n h G b b' : Nat}

theorem grpErr2_le {σ β Δ Z p q x : ℝ} (hd : n/G = 4) (hσ : 0 ≤ σ) (hβ : 0 ≤ β) (hΔ : 0 ≤ Δ) (hZ : 0 ≤ Z)
    (hp : Δ * (σ^G + Real.sqrt 2 ^ n * matUlp G) + ((3^G : Nat) : ℝ) * encTol n ((β + matUlp G) * Δ) ≤ p)
    (hq : ((3^G : Nat) : ℝ) * (((β + matUlp G) * Δ + encTol n ((β + matUlp G) * Δ)) * (Real.sqrt 2 * 2^n * (8 * 2^(n+1) + (h + 1) / 2))) ≤ q)
    (hx : (Δ * σ^G)^4 = x) : grpErr2 n h G σ β Δ Z ≤ (p^4 - x) * Z + q * (1 + p + p^2 + p^3) := by
  have hδ := matUlp_nonneg G
  have ht := encTol_nonneg (n := n) (mul_nonneg (add_nonneg hβ hδ) hΔ)
  have hp0 : 0 ≤ p := le_trans (by positivity) hp
  have step : ∀ {z y : ℝ}, 0 ≤ z → z ≤ y → Δ * (σ^G + Real.sqrt 2 ^ n * matUlp G) * z + ltErr2 n (3^G) h (β + matUlp G) Δ z ≤ p * y + q := by
    intro z y hz hzy
    unfold ltErr2
    have h1 := mul_le_mul_of_nonneg_right hp hz
    have h2 := mul_le_mul_of_nonneg_left hzy hp0
    refine le_trans (le_of_eq ?_) (add_le_add (h1.trans h2) hq)
    ring
  have hn : ∀ d, 0 ≤ ltSize2 n (3^G) h (σ^G + Real.sqrt 2 ^ n * matUlp G) (β + matUlp G) Δ Z d := fun d =>
    ltSize2_nonneg (by positivity) (by linarith) hΔ hZ d
  have s1 : ltSize2 n (3^G) h (σ^G + Real.sqrt 2 ^ n * matUlp G) (β + matUlp G) Δ Z 1 ≤ p * Z + q := step hZ le_rfl
  have s2 : ltSize2 n (3^G) h (σ^G + Real.sqrt 2 ^ n * matUlp G) (β + matUlp G) Δ Z 2 ≤ p * (p * Z + q) + q := step (hn 1) s1
  have s3 : ltSize2 n (3^G) h (σ^G + Real.sqrt 2 ^ n * matUlp G) (β + matUlp G) Δ Z 3 ≤ p * (p * (p * Z + q) + q) + q := step (hn 2) s2
  have s4 : ltSize2 n (3^G) h (σ^G + Real.sqrt 2 ^ n * matUlp G) (β + matUlp G) Δ Z 4 ≤ p * (p * (p * (p * Z + q) + q) + q) + q := step (hn 3) s3
  unfold grpErr2
  rw [hd, hx]
  linarith

theorem ltSize2_ge {S : Nat} {σ σ' β Δ Z : ℝ} (hσ : 0 ≤ σ) (hσ' : σ ≤ σ') (hβ : 0 ≤ β) (hΔ : 0 ≤ Δ) (hZ : 0 ≤ Z) (d : Nat) :
    (Δ * σ)^d * Z ≤ ltSize2 n S h σ' β Δ Z d := by
  induction d with
  | zero => rw [pow_zero, one_mul]; exact le_rfl
  | succ d ih =>
    have h0 := ltSize2_nonneg (n := n) (S := S) (h := h) (hσ.trans hσ') hβ hΔ hZ d
    have h1 := ltErr2_nonneg (n := n) (S := S) (h := h) hβ hΔ h0
    have h2 : Δ * σ * ((Δ * σ)^d * Z) ≤ Δ * σ' * ltSize2 n S h σ' β Δ Z d :=
      mul_le_mul (mul_le_mul_of_nonneg_left hσ' hΔ) ih (by positivity) (by have := hσ.trans hσ'; positivity)
    rw [ltSize2, pow_succ']
    linarith

theorem grpErr2_nonneg {σ β Δ Z : ℝ} (hσ : 0 ≤ σ) (hβ : 0 ≤ β) (hΔ : 0 ≤ Δ) (hZ : 0 ≤ Z) : 0 ≤ grpErr2 n h G σ β Δ Z := by
  have hδ := matUlp_nonneg G
  have := ltSize2_ge (n := n) (S := 3^G) (h := h) (σ := σ^G) (σ' := σ^G + Real.sqrt 2 ^ n * matUlp G) (β := β + matUlp G) (by positivity)
    (by have : 0 ≤ Real.sqrt 2 ^ n * matUlp G := by positivity
        linarith) (by linarith) hΔ hZ (n/G)
  unfold grpErr2
  linarith

/-- the parameters of the drivers with `LOGDELTA_cts = 60`: `n = LOGN-1`, `G`, and bounds `2^b` and `2^b'` of the errors of the conventional
and the proposed bootstrapping in binary64 -/
def BootParam2 (n G b b' : Nat) : Prop :=
  n = 8 ∧ G = 2 ∧ b = 35 ∧ b' = 35 ∨ n = 12 ∧ G = 3 ∧ b = 41 ∧ b' = 40 ∨ n = 16 ∧ G = 4 ∧ b = 47 ∧ b' = 45

theorem BootParam2.old (hp : BootParam2 n G b b') : ∃ b', BootParam n G b' := by
  rcases hp with ⟨rfl, rfl, rfl, rfl⟩ | ⟨rfl, rfl, rfl, rfl⟩ | ⟨rfl, rfl, rfl, rfl⟩
  · exact ⟨34, Or.inl ⟨rfl, rfl, rfl⟩⟩
  · exact ⟨44, Or.inr (Or.inl ⟨rfl, rfl, rfl⟩)⟩
  · exact ⟨57, Or.inr (Or.inr ⟨rfl, rfl, rfl⟩)⟩

theorem sqrt2_le20 : Real.sqrt 2 ≤ 1.41421356237309504881 := by
  rw [Real.sqrt_le_left (by norm_num)]; norm_num

theorem sqrt2_pow2 : (Real.sqrt 2)^2 = 2 := Real.sq_sqrt (by norm_num)

theorem sqrt2_p4 : (Real.sqrt 2)^4 = 4 := by
  rw [show (4:Nat) = 2 * 2 from rfl, pow_mul, Real.sq_sqrt (by norm_num)]; norm_num

theorem sqrt2_pow3 : (Real.sqrt 2)^3 = 2 * Real.sqrt 2 := by rw [pow_succ, sqrt2_pow2]

theorem sqrt2_pow3_pow : (2 * Real.sqrt 2)^4 = 64 := by rw [mul_pow, sqrt2_p4]; norm_num

set_option exponentiation.threshold 2000 in
set_option maxHeartbeats 1000000 in
theorem grp2_cts8 (hh : h ≤ 128) {Z : ℝ} (hZ : 0 ≤ Z) :
    grpErr2 8 h 2 (Real.sqrt 2 / 2) ((1/2)^2) (2^60) Z ≤ ((576460752305304833:ℝ)^4 - 2^236) * Z + 3907353892487680860940546 * (1 + 576460752305304833 + 576460752305304833^2 + 576460752305304833^3) := by
  have h2 : (h:ℝ) ≤ 128 := by exact_mod_cast hh
  have h3 := sqrt2_le20
  refine grpErr2_le (by norm_num) (by positivity) (by positivity) (by positivity) hZ ?_ ?_ ?_
  · norm_num [encTol, matUlp, div_pow, sqrt2_pow2, sqrt2_pow3, sqrt2_p4, sqrt2_pow8, sqrt2_pow12, sqrt2_pow16] at h3 ⊢
    try linarith
  · have h4 : Real.sqrt 2 * 2^8 * (8 * 2^(8+1) + ((h:ℝ) + 1) / 2) ≤ 1.41421356237309504881 * 2^8 * (8 * 2^(8+1) + (128 + 1) / 2) := by
      gcongr
    refine (mul_le_mul_of_nonneg_left (mul_le_mul_of_nonneg_left h4 (add_nonneg (mul_nonneg (add_nonneg (by positivity) (matUlp_nonneg _))
      (by positivity)) (encTol_nonneg (mul_nonneg (add_nonneg (by positivity) (matUlp_nonneg _)) (by positivity)))))
      (by positivity)).trans ?_
    norm_num [encTol, matUlp, sqrt2_pow8, sqrt2_pow12, sqrt2_pow16]
  · norm_num [div_pow, mul_pow, sqrt2_pow2, sqrt2_pow3, sqrt2_p4]

set_option exponentiation.threshold 2000 in
set_option maxHeartbeats 1000000 in
theorem grp2_stc8a (hh : h ≤ 128) {Z : ℝ} (hZ : 0 ≤ Z) :
    grpErr2 8 h 2 (Real.sqrt 2) 1 (2^50) Z ≤ ((2251799813692493:ℝ)^4 - 2^204) * Z + 15263101142531426780540 * (1 + 2251799813692493 + 2251799813692493^2 + 2251799813692493^3) := by
  have h2 : (h:ℝ) ≤ 128 := by exact_mod_cast hh
  have h3 := sqrt2_le20
  refine grpErr2_le (by norm_num) (by positivity) (by positivity) (by positivity) hZ ?_ ?_ ?_
  · norm_num [encTol, matUlp, div_pow, sqrt2_pow2, sqrt2_pow3, sqrt2_p4, sqrt2_pow8, sqrt2_pow12, sqrt2_pow16] at h3 ⊢
    try linarith
  · have h4 : Real.sqrt 2 * 2^8 * (8 * 2^(8+1) + ((h:ℝ) + 1) / 2) ≤ 1.41421356237309504881 * 2^8 * (8 * 2^(8+1) + (128 + 1) / 2) := by
      gcongr
    refine (mul_le_mul_of_nonneg_left (mul_le_mul_of_nonneg_left h4 (add_nonneg (mul_nonneg (add_nonneg (by positivity) (matUlp_nonneg _))
      (by positivity)) (encTol_nonneg (mul_nonneg (add_nonneg (by positivity) (matUlp_nonneg _)) (by positivity)))))
      (by positivity)).trans ?_
    norm_num [encTol, matUlp, sqrt2_pow8, sqrt2_pow12, sqrt2_pow16]
  · norm_num [div_pow, mul_pow, sqrt2_pow2, sqrt2_pow3, sqrt2_p4]

set_option exponentiation.threshold 2000 in
set_option maxHeartbeats 1000000 in
theorem grp2_stc8b (hh : h ≤ 128) {Z : ℝ} (hZ : 0 ≤ Z) :
    grpErr2 8 h 2 (Real.sqrt 2) 1 (2^60) Z ≤ ((2305843009218754817:ℝ)^4 - 2^244) * Z + 15629415569948630776036704 * (1 + 2305843009218754817 + 2305843009218754817^2 + 2305843009218754817^3) := by
  have h2 : (h:ℝ) ≤ 128 := by exact_mod_cast hh
  have h3 := sqrt2_le20
  refine grpErr2_le (by norm_num) (by positivity) (by positivity) (by positivity) hZ ?_ ?_ ?_
  · norm_num [encTol, matUlp, div_pow, sqrt2_pow2, sqrt2_pow3, sqrt2_p4, sqrt2_pow8, sqrt2_pow12, sqrt2_pow16] at h3 ⊢
    try linarith
  · have h4 : Real.sqrt 2 * 2^8 * (8 * 2^(8+1) + ((h:ℝ) + 1) / 2) ≤ 1.41421356237309504881 * 2^8 * (8 * 2^(8+1) + (128 + 1) / 2) := by
      gcongr
    refine (mul_le_mul_of_nonneg_left (mul_le_mul_of_nonneg_left h4 (add_nonneg (mul_nonneg (add_nonneg (by positivity) (matUlp_nonneg _))
      (by positivity)) (encTol_nonneg (mul_nonneg (add_nonneg (by positivity) (matUlp_nonneg _)) (by positivity)))))
      (by positivity)).trans ?_
    norm_num [encTol, matUlp, sqrt2_pow8, sqrt2_pow12, sqrt2_pow16]
  · norm_num [div_pow, mul_pow, sqrt2_pow2, sqrt2_pow3, sqrt2_p4]

set_option exponentiation.threshold 2000 in
set_option maxHeartbeats 1000000 in
theorem grp2_cts12 (hh : h ≤ 128) {Z : ℝ} (hZ : 0 ≤ Z) :
    grpErr2 12 h 3 (Real.sqrt 2 / 2) ((1/2)^3) (2^60) Z ≤ ((407619307064322853:ℝ)^4 - 2^234) * Z + 1478616718327020601431638671 * (1 + 407619307064322853 + 407619307064322853^2 + 407619307064322853^3) := by
  have h2 : (h:ℝ) ≤ 128 := by exact_mod_cast hh
  have h3 := sqrt2_le20
  refine grpErr2_le (by norm_num) (by positivity) (by positivity) (by positivity) hZ ?_ ?_ ?_
  · norm_num [encTol, matUlp, div_pow, sqrt2_pow2, sqrt2_pow3, sqrt2_p4, sqrt2_pow8, sqrt2_pow12, sqrt2_pow16] at h3 ⊢
    try linarith
  · have h4 : Real.sqrt 2 * 2^12 * (8 * 2^(12+1) + ((h:ℝ) + 1) / 2) ≤ 1.41421356237309504881 * 2^12 * (8 * 2^(12+1) + (128 + 1) / 2) := by
      gcongr
    refine (mul_le_mul_of_nonneg_left (mul_le_mul_of_nonneg_left h4 (add_nonneg (mul_nonneg (add_nonneg (by positivity) (matUlp_nonneg _))
      (by positivity)) (encTol_nonneg (mul_nonneg (add_nonneg (by positivity) (matUlp_nonneg _)) (by positivity)))))
      (by positivity)).trans ?_
    norm_num [encTol, matUlp, sqrt2_pow8, sqrt2_pow12, sqrt2_pow16]
  · norm_num [div_pow, mul_pow, sqrt2_pow2, sqrt2_pow3, sqrt2_p4]

set_option exponentiation.threshold 2000 in
set_option maxHeartbeats 1000000 in
theorem grp2_stc12a (hh : h ≤ 128) {Z : ℝ} (hZ : 0 ≤ Z) :
    grpErr2 12 h 3 (Real.sqrt 2) 1 (2^50) Z ≤ ((3184525836460151:ℝ)^4 - 2^206) * Z + 11551693111957180994200488 * (1 + 3184525836460151 + 3184525836460151^2 + 3184525836460151^3) := by
  have h2 : (h:ℝ) ≤ 128 := by exact_mod_cast hh
  have h3 := sqrt2_le20
  refine grpErr2_le (by norm_num) (by positivity) (by positivity) (by positivity) hZ ?_ ?_ ?_
  · norm_num [encTol, matUlp, div_pow, sqrt2_pow2, sqrt2_pow3, sqrt2_p4, sqrt2_pow8, sqrt2_pow12, sqrt2_pow16] at h3 ⊢
    try linarith
  · have h4 : Real.sqrt 2 * 2^12 * (8 * 2^(12+1) + ((h:ℝ) + 1) / 2) ≤ 1.41421356237309504881 * 2^12 * (8 * 2^(12+1) + (128 + 1) / 2) := by
      gcongr
    refine (mul_le_mul_of_nonneg_left (mul_le_mul_of_nonneg_left h4 (add_nonneg (mul_nonneg (add_nonneg (by positivity) (matUlp_nonneg _))
      (by positivity)) (encTol_nonneg (mul_nonneg (add_nonneg (by positivity) (matUlp_nonneg _)) (by positivity)))))
      (by positivity)).trans ?_
    norm_num [encTol, matUlp, sqrt2_pow8, sqrt2_pow12, sqrt2_pow16]
  · norm_num [div_pow, mul_pow, sqrt2_pow2, sqrt2_pow3, sqrt2_p4]

set_option exponentiation.threshold 2000 in
set_option maxHeartbeats 1000000 in
theorem grp2_stc12b (hh : h ≤ 128) {Z : ℝ} (hZ : 0 ≤ Z) :
    grpErr2 12 h 3 (Real.sqrt 2) 1 (2^60) Z ≤ ((3260954456422058274:ℝ)^4 - 2^246) * Z + 11828933746601161952595511388 * (1 + 3260954456422058274 + 3260954456422058274^2 + 3260954456422058274^3) := by
  have h2 : (h:ℝ) ≤ 128 := by exact_mod_cast hh
  have h3 := sqrt2_le20
  refine grpErr2_le (by norm_num) (by positivity) (by positivity) (by positivity) hZ ?_ ?_ ?_
  · norm_num [encTol, matUlp, div_pow, sqrt2_pow2, sqrt2_pow3, sqrt2_p4, sqrt2_pow8, sqrt2_pow12, sqrt2_pow16] at h3 ⊢
    try linarith
  · have h4 : Real.sqrt 2 * 2^12 * (8 * 2^(12+1) + ((h:ℝ) + 1) / 2) ≤ 1.41421356237309504881 * 2^12 * (8 * 2^(12+1) + (128 + 1) / 2) := by
      gcongr
    refine (mul_le_mul_of_nonneg_left (mul_le_mul_of_nonneg_left h4 (add_nonneg (mul_nonneg (add_nonneg (by positivity) (matUlp_nonneg _))
      (by positivity)) (encTol_nonneg (mul_nonneg (add_nonneg (by positivity) (matUlp_nonneg _)) (by positivity)))))
      (by positivity)).trans ?_
    norm_num [encTol, matUlp, sqrt2_pow8, sqrt2_pow12, sqrt2_pow16]
  · norm_num [div_pow, mul_pow, sqrt2_pow2, sqrt2_pow3, sqrt2_p4]

set_option exponentiation.threshold 2000 in
set_option maxHeartbeats 1000000 in
theorem grp2_cts16 (hh : h ≤ 128) {Z : ℝ} (hZ : 0 ≤ Z) :
    grpErr2 16 h 4 (Real.sqrt 2 / 2) ((1/2)^4) (2^60) Z ≤ ((288230376442048513:ℝ)^4 - 2^232) * Z + 567265447616223304851742344467 * (1 + 288230376442048513 + 288230376442048513^2 + 288230376442048513^3) := by
  have h2 : (h:ℝ) ≤ 128 := by exact_mod_cast hh
  have h3 := sqrt2_le20
  refine grpErr2_le (by norm_num) (by positivity) (by positivity) (by positivity) hZ ?_ ?_ ?_
  · norm_num [encTol, matUlp, div_pow, sqrt2_pow2, sqrt2_pow3, sqrt2_p4, sqrt2_pow8, sqrt2_pow12, sqrt2_pow16] at h3 ⊢
    try linarith
  · have h4 : Real.sqrt 2 * 2^16 * (8 * 2^(16+1) + ((h:ℝ) + 1) / 2) ≤ 1.41421356237309504881 * 2^16 * (8 * 2^(16+1) + (128 + 1) / 2) := by
      gcongr
    refine (mul_le_mul_of_nonneg_left (mul_le_mul_of_nonneg_left h4 (add_nonneg (mul_nonneg (add_nonneg (by positivity) (matUlp_nonneg _))
      (by positivity)) (encTol_nonneg (mul_nonneg (add_nonneg (by positivity) (matUlp_nonneg _)) (by positivity)))))
      (by positivity)).trans ?_
    norm_num [encTol, matUlp, sqrt2_pow8, sqrt2_pow12, sqrt2_pow16]
  · norm_num [div_pow, mul_pow, sqrt2_pow2, sqrt2_pow3, sqrt2_p4]

set_option exponentiation.threshold 2000 in
set_option maxHeartbeats 1000000 in
theorem grp2_stc16a (hh : h ≤ 128) {Z : ℝ} (hZ : 0 ≤ Z) :
    grpErr2 16 h 4 (Real.sqrt 2) 1 (2^50) Z ≤ ((4503599634060481:ℝ)^4 - 2^208) * Z + 8863522619416884056388946669 * (1 + 4503599634060481 + 4503599634060481^2 + 4503599634060481^3) := by
  have h2 : (h:ℝ) ≤ 128 := by exact_mod_cast hh
  have h3 := sqrt2_le20
  refine grpErr2_le (by norm_num) (by positivity) (by positivity) (by positivity) hZ ?_ ?_ ?_
  · norm_num [encTol, matUlp, div_pow, sqrt2_pow2, sqrt2_pow3, sqrt2_p4, sqrt2_pow8, sqrt2_pow12, sqrt2_pow16] at h3 ⊢
    try linarith
  · have h4 : Real.sqrt 2 * 2^16 * (8 * 2^(16+1) + ((h:ℝ) + 1) / 2) ≤ 1.41421356237309504881 * 2^16 * (8 * 2^(16+1) + (128 + 1) / 2) := by
      gcongr
    refine (mul_le_mul_of_nonneg_left (mul_le_mul_of_nonneg_left h4 (add_nonneg (mul_nonneg (add_nonneg (by positivity) (matUlp_nonneg _))
      (by positivity)) (encTol_nonneg (mul_nonneg (add_nonneg (by positivity) (matUlp_nonneg _)) (by positivity)))))
      (by positivity)).trans ?_
    norm_num [encTol, matUlp, sqrt2_pow8, sqrt2_pow12, sqrt2_pow16]
  · norm_num [div_pow, mul_pow, sqrt2_pow2, sqrt2_pow3, sqrt2_p4]

set_option exponentiation.threshold 2000 in
set_option maxHeartbeats 1000000 in
theorem grp2_stc16b (hh : h ≤ 128) {Z : ℝ} (hZ : 0 ≤ Z) :
    grpErr2 16 h 4 (Real.sqrt 2) 1 (2^60) Z ≤ ((4611686019847421953:ℝ)^4 - 2^248) * Z + 9076247161755098081510334888671 * (1 + 4611686019847421953 + 4611686019847421953^2 + 4611686019847421953^3) := by
  have h2 : (h:ℝ) ≤ 128 := by exact_mod_cast hh
  have h3 := sqrt2_le20
  refine grpErr2_le (by norm_num) (by positivity) (by positivity) (by positivity) hZ ?_ ?_ ?_
  · norm_num [encTol, matUlp, div_pow, sqrt2_pow2, sqrt2_pow3, sqrt2_p4, sqrt2_pow8, sqrt2_pow12, sqrt2_pow16] at h3 ⊢
    try linarith
  · have h4 : Real.sqrt 2 * 2^16 * (8 * 2^(16+1) + ((h:ℝ) + 1) / 2) ≤ 1.41421356237309504881 * 2^16 * (8 * 2^(16+1) + (128 + 1) / 2) := by
      gcongr
    refine (mul_le_mul_of_nonneg_left (mul_le_mul_of_nonneg_left h4 (add_nonneg (mul_nonneg (add_nonneg (by positivity) (matUlp_nonneg _))
      (by positivity)) (encTol_nonneg (mul_nonneg (add_nonneg (by positivity) (matUlp_nonneg _)) (by positivity)))))
      (by positivity)).trans ?_
    norm_num [encTol, matUlp, sqrt2_pow8, sqrt2_pow12, sqrt2_pow16]
  · norm_num [div_pow, mul_pow, sqrt2_pow2, sqrt2_pow3, sqrt2_p4]

set_option exponentiation.threshold 2000 in
theorem ctsErr2_8 (hh : h ≤ 128) : ctsErr2 8 h 2 (2^60) (Real.sqrt 2 * 2^8 * (25 * 2^60)) ≤ 64/64 * 2^34 := by
  have h3 := sqrt2_le20
  have hZ : Real.sqrt 2 * 2^8 * (25 * 2^60) ≤ 1.41421356237309504881 * 2^8 * (25 * 2^60) := by gcongr
  have k := grp2_cts8 hh (Z := Real.sqrt 2 * 2^8 * (25 * 2^60)) (by positivity)
  have k2 := mul_le_mul_of_nonneg_left hZ (show (0:ℝ) ≤ (576460752305304833:ℝ)^4 - 2^236 by norm_num)
  unfold ctsErr2
  rw [div_le_iff₀ (by positivity)]
  norm_num at k k2 ⊢
  linarith

set_option exponentiation.threshold 2000 in
theorem stcErr2_8a (hh : h ≤ 128) {X : ℝ} (hX0 : 0 ≤ X) (hX : X ≤ 17/16 * 2^51) : stcErr2 8 h 2 (2^50) X ≤ 56/64 * 2^24 := by
  have h2 : (h:ℝ) ≤ 128 := by exact_mod_cast hh
  have k := grp2_stc8a hh (Z := 16 * X) (by positivity)
  have k2 := mul_le_mul_of_nonneg_left (mul_le_mul_of_nonneg_left hX (show (0:ℝ) ≤ 16 by norm_num))
    (show (0:ℝ) ≤ (2251799813692493:ℝ)^4 - 2^204 by norm_num)
  unfold stcErr2
  rw [sqrt2_pow8]
  have k3 : 2 * grpErr2 8 h 2 (Real.sqrt 2) 1 (2^50) (16 * X) / (16 * ((2:ℝ)^50)^(8/2)) ≤ 56/64 * 2^24 - 129/2 := by
    rw [div_le_iff₀ (by positivity)]
    norm_num at k k2 ⊢
    linarith
  linarith

set_option exponentiation.threshold 2000 in
theorem stcErr2_8b (hh : h ≤ 128) {X : ℝ} (hX0 : 0 ≤ X) (hX : X ≤ 26 * 2^60) : stcErr2 8 h 2 (2^60) X ≤ 63/64 * 2^33 := by
  have h2 : (h:ℝ) ≤ 128 := by exact_mod_cast hh
  have k := grp2_stc8b hh (Z := 16 * X) (by positivity)
  have k2 := mul_le_mul_of_nonneg_left (mul_le_mul_of_nonneg_left hX (show (0:ℝ) ≤ 16 by norm_num))
    (show (0:ℝ) ≤ (2305843009218754817:ℝ)^4 - 2^244 by norm_num)
  unfold stcErr2
  rw [sqrt2_pow8]
  have k3 : 2 * grpErr2 8 h 2 (Real.sqrt 2) 1 (2^60) (16 * X) / (16 * ((2:ℝ)^60)^(8/2)) ≤ 63/64 * 2^33 - 129/2 := by
    rw [div_le_iff₀ (by positivity)]
    norm_num at k k2 ⊢
    linarith
  linarith

set_option exponentiation.threshold 2000 in
theorem ctsErr2_12 (hh : h ≤ 128) : ctsErr2 12 h 3 (2^60) (Real.sqrt 2 * 2^12 * (25 * 2^60)) ≤ 34/64 * 2^41 := by
  have h3 := sqrt2_le20
  have hZ : Real.sqrt 2 * 2^12 * (25 * 2^60) ≤ 1.41421356237309504881 * 2^12 * (25 * 2^60) := by gcongr
  have k := grp2_cts12 hh (Z := Real.sqrt 2 * 2^12 * (25 * 2^60)) (by positivity)
  have k2 := mul_le_mul_of_nonneg_left hZ (show (0:ℝ) ≤ (407619307064322853:ℝ)^4 - 2^234 by norm_num)
  unfold ctsErr2
  rw [div_le_iff₀ (by positivity)]
  norm_num at k k2 ⊢
  linarith

set_option exponentiation.threshold 2000 in
theorem stcErr2_12a (hh : h ≤ 128) {X : ℝ} (hX0 : 0 ≤ X) (hX : X ≤ 17/16 * 2^51) : stcErr2 12 h 3 (2^50) X ≤ 55/64 * 2^33 := by
  have h2 : (h:ℝ) ≤ 128 := by exact_mod_cast hh
  have k := grp2_stc12a hh (Z := 64 * X) (by positivity)
  have k2 := mul_le_mul_of_nonneg_left (mul_le_mul_of_nonneg_left hX (show (0:ℝ) ≤ 64 by norm_num))
    (show (0:ℝ) ≤ (3184525836460151:ℝ)^4 - 2^206 by norm_num)
  unfold stcErr2
  rw [sqrt2_pow12]
  have k3 : 2 * grpErr2 12 h 3 (Real.sqrt 2) 1 (2^50) (64 * X) / (64 * ((2:ℝ)^50)^(12/3)) ≤ 55/64 * 2^33 - 129/2 := by
    rw [div_le_iff₀ (by positivity)]
    norm_num at k k2 ⊢
    linarith
  linarith

set_option exponentiation.threshold 2000 in
theorem stcErr2_12b (hh : h ≤ 128) {X : ℝ} (hX0 : 0 ≤ X) (hX : X ≤ 26 * 2^60) : stcErr2 12 h 3 (2^60) X ≤ 50/64 * 2^39 := by
  have h2 : (h:ℝ) ≤ 128 := by exact_mod_cast hh
  have k := grp2_stc12b hh (Z := 64 * X) (by positivity)
  have k2 := mul_le_mul_of_nonneg_left (mul_le_mul_of_nonneg_left hX (show (0:ℝ) ≤ 64 by norm_num))
    (show (0:ℝ) ≤ (3260954456422058274:ℝ)^4 - 2^246 by norm_num)
  unfold stcErr2
  rw [sqrt2_pow12]
  have k3 : 2 * grpErr2 12 h 3 (Real.sqrt 2) 1 (2^60) (64 * X) / (64 * ((2:ℝ)^60)^(12/3)) ≤ 50/64 * 2^39 - 129/2 := by
    rw [div_le_iff₀ (by positivity)]
    norm_num at k k2 ⊢
    linarith
  linarith

set_option exponentiation.threshold 2000 in
theorem ctsErr2_16 (hh : h ≤ 128) : ctsErr2 16 h 4 (2^60) (Real.sqrt 2 * 2^16 * (25 * 2^60)) ≤ 39/64 * 2^47 := by
  have h3 := sqrt2_le20
  have hZ : Real.sqrt 2 * 2^16 * (25 * 2^60) ≤ 1.41421356237309504881 * 2^16 * (25 * 2^60) := by gcongr
  have k := grp2_cts16 hh (Z := Real.sqrt 2 * 2^16 * (25 * 2^60)) (by positivity)
  have k2 := mul_le_mul_of_nonneg_left hZ (show (0:ℝ) ≤ (288230376442048513:ℝ)^4 - 2^232 by norm_num)
  unfold ctsErr2
  rw [div_le_iff₀ (by positivity)]
  norm_num at k k2 ⊢
  linarith

set_option exponentiation.threshold 2000 in
theorem stcErr2_16a (hh : h ≤ 128) {X : ℝ} (hX0 : 0 ≤ X) (hX : X ≤ 17/16 * 2^51) : stcErr2 16 h 4 (2^50) X ≤ 58/64 * 2^42 := by
  have h2 : (h:ℝ) ≤ 128 := by exact_mod_cast hh
  have k := grp2_stc16a hh (Z := 256 * X) (by positivity)
  have k2 := mul_le_mul_of_nonneg_left (mul_le_mul_of_nonneg_left hX (show (0:ℝ) ≤ 256 by norm_num))
    (show (0:ℝ) ≤ (4503599634060481:ℝ)^4 - 2^208 by norm_num)
  unfold stcErr2
  rw [sqrt2_pow16]
  have k3 : 2 * grpErr2 16 h 4 (Real.sqrt 2) 1 (2^50) (256 * X) / (256 * ((2:ℝ)^50)^(16/4)) ≤ 58/64 * 2^42 - 129/2 := by
    rw [div_le_iff₀ (by positivity)]
    norm_num at k k2 ⊢
    linarith
  linarith

set_option exponentiation.threshold 2000 in
theorem stcErr2_16b (hh : h ≤ 128) {X : ℝ} (hX0 : 0 ≤ X) (hX : X ≤ 26 * 2^60) : stcErr2 16 h 4 (2^60) X ≤ 42/64 * 2^45 := by
  have h2 : (h:ℝ) ≤ 128 := by exact_mod_cast hh
  have k := grp2_stc16b hh (Z := 256 * X) (by positivity)
  have k2 := mul_le_mul_of_nonneg_left (mul_le_mul_of_nonneg_left hX (show (0:ℝ) ≤ 256 by norm_num))
    (show (0:ℝ) ≤ (4611686019847421953:ℝ)^4 - 2^248 by norm_num)
  unfold stcErr2
  rw [sqrt2_pow16]
  have k3 : 2 * grpErr2 16 h 4 (Real.sqrt 2) 1 (2^60) (256 * X) / (256 * ((2:ℝ)^60)^(16/4)) ≤ 42/64 * 2^45 - 129/2 := by
    rw [div_le_iff₀ (by positivity)]
    norm_num at k k2 ⊢
    linarith
  linarith

theorem modErr2_num (hp : BootParam n G b) (hh : h ≤ 128) {Z : ℝ} (hc0 : 0 ≤ ctsErr2 n h G (2^60) Z)
    (hc : ctsErr2 n h G (2^60) Z ≤ 2^47) : modErr2 n h G (2^60) (2^60) Z (2^51) ≤ 138 * 130276 * 2^n := by
  have h1 := evalModErrF_boot hp hh
  have hn8 : (2:ℝ)^8 ≤ 2^n := pow_le_pow_right₀ (by norm_num) (by
    rcases hp with ⟨rfl, rfl, rfl⟩ | ⟨rfl, rfl, rfl⟩ | ⟨rfl, rfl, rfl⟩ <;> norm_num)
  have h4 : (2:ℝ)^60 * (117 * ((2^51 + ctsErr2 n h G (2^60) Z) / 2^60)^5) ≤ 2 * 130276 * 2^n := by
    calc (2:ℝ)^60 * (117 * ((2^51 + ctsErr2 n h G (2^60) Z) / 2^60)^5) ≤ 2^60 * (117 * ((2^51 + 2^47) / 2^60)^5) := by gcongr
      _ ≤ 2 * 130276 * 2^8 := by norm_num
      _ ≤ _ := by gcongr
  unfold modErr2
  calc _ ≤ 130276 * (136 * 2^n) + 2 * 130276 * (2:ℝ)^n := add_le_add h1 h4
    _ = _ := by ring

theorem ctsErr2_num (hp : BootParam2 n G b b') (hh : h ≤ 128) : ctsErr2 n h G (2^60) (Real.sqrt 2 * 2^n * (25 * 2^60)) ≤ 2^47 := by
  rcases hp with ⟨rfl, rfl, rfl, rfl⟩ | ⟨rfl, rfl, rfl, rfl⟩ | ⟨rfl, rfl, rfl, rfl⟩
  · exact (ctsErr2_8 hh).trans (by norm_num)
  · exact (ctsErr2_12 hh).trans (by norm_num)
  · exact (ctsErr2_16 hh).trans (by norm_num)

theorem ctsErr2_nonneg {C Z : ℝ} (hC : 0 ≤ C) (hZ : 0 ≤ Z) : 0 ≤ ctsErr2 n h G C Z := by
  have := grpErr2_nonneg (n := n) (h := h) (G := G) (σ := Real.sqrt 2 / 2) (β := (1/2)^G) (by positivity) (by positivity) hC hZ
  unfold ctsErr2
  positivity

theorem modErr2_nonneg (hp : BootParam n G b) {C B Z : ℝ} (hC : 0 ≤ ctsNoise n h G C) (hc : 0 ≤ ctsErr2 n h G C Z) (hB : 0 ≤ B) :
    0 ≤ modErr2 n h G C (2^60) Z B := by
  have h1 : 0 ≤ evalModErrF n h (2^60) 24 (ctsNoise n h G C) := by
    have r := rsErr_nonneg n h
    have u := mulErr_nonneg n h
    have a : 0 ≤ angleErr n h (2^60) 24 ((1 + 1/2^52) * ctsNoise n h G C + (24 + 1) * 2^60 / 2^53) := by
      unfold angleErr
      refine tErr_nonneg (by positivity) ?_ 4
      have := lErr_nonneg (n := n) (h := h) (Δ := 2^60) (ε := startErr n h 24 ((1 + 1/2^52) * ctsNoise n h G C + (24 + 1) * 2^60 / 2^53)) (U := 3)
        (by positivity) (by unfold startErr; positivity) (by norm_num) 4
      unfold cosErr
      positivity
    unfold evalModErrF cubicErr linErr sixErr
    have := Real.pi_pos
    positivity
  unfold modErr2
  positivity

theorem ctsNoise_nonneg {C : ℝ} (hC : 0 ≤ C) : 0 ≤ ctsNoise n h G C := by unfold ctsNoise ksErr rsErr; positivity

theorem convErr2_num (hp : BootParam2 n G b b') (hh : h ≤ 128) :
    convErr2 n h G (2^60) (2^60) (2^50) (Real.sqrt 2 * 2^n * (25 * 2^60)) (2^51) ≤ 2^b := by
  have h0 := ctsErr2_nonneg (n := n) (h := h) (G := G) (C := 2^60) (Z := Real.sqrt 2 * 2^n * (25 * 2^60)) (by positivity) (by positivity)
  have h1 := ctsErr2_num hp hh
  obtain ⟨bb, hp'⟩ := hp.old
  have h2 := modErr2_num hp' hh h0 h1
  have h6 := modErr2_nonneg hp' (ctsNoise_nonneg (by positivity)) h0 (show (0:ℝ) ≤ 2^51 by positivity)
  unfold convErr2
  rcases hp with ⟨rfl, rfl, rfl, rfl⟩ | ⟨rfl, rfl, rfl, rfl⟩ | ⟨rfl, rfl, rfl, rfl⟩
  · have h3 := ctsErr2_8 hh
    have h4 := stcErr2_8a hh (X := 2^51 + ctsErr2 8 h 2 (2^60) (Real.sqrt 2 * 2^8 * (25 * 2^60)) +
      modErr2 8 h 2 (2^60) (2^60) (Real.sqrt 2 * 2^8 * (25 * 2^60)) (2^51)) (by positivity) (by
        generalize ctsErr2 _ _ _ _ _ = x at *
        generalize modErr2 _ _ _ _ _ _ _ = y at *
        norm_num at h1 h2 ⊢; linarith)
    generalize stcErr2 _ _ _ _ _ = z at *
    generalize ctsErr2 _ _ _ _ _ = x at *
    generalize modErr2 _ _ _ _ _ _ _ = y at *
    norm_num at h2 h3 h4 ⊢
    linarith
  · have h3 := ctsErr2_12 hh
    have h4 := stcErr2_12a hh (X := 2^51 + ctsErr2 12 h 3 (2^60) (Real.sqrt 2 * 2^12 * (25 * 2^60)) +
      modErr2 12 h 3 (2^60) (2^60) (Real.sqrt 2 * 2^12 * (25 * 2^60)) (2^51)) (by positivity) (by
        generalize ctsErr2 _ _ _ _ _ = x at *
        generalize modErr2 _ _ _ _ _ _ _ = y at *
        norm_num at h1 h2 ⊢; linarith)
    generalize stcErr2 _ _ _ _ _ = z at *
    generalize ctsErr2 _ _ _ _ _ = x at *
    generalize modErr2 _ _ _ _ _ _ _ = y at *
    norm_num at h2 h3 h4 ⊢
    linarith
  · have h3 := ctsErr2_16 hh
    have h4 := stcErr2_16a hh (X := 2^51 + ctsErr2 16 h 4 (2^60) (Real.sqrt 2 * 2^16 * (25 * 2^60)) +
      modErr2 16 h 4 (2^60) (2^60) (Real.sqrt 2 * 2^16 * (25 * 2^60)) (2^51)) (by positivity) (by
        generalize ctsErr2 _ _ _ _ _ = x at *
        generalize modErr2 _ _ _ _ _ _ _ = y at *
        norm_num at h1 h2 ⊢; linarith)
    generalize stcErr2 _ _ _ _ _ = z at *
    generalize ctsErr2 _ _ _ _ _ = x at *
    generalize modErr2 _ _ _ _ _ _ _ = y at *
    norm_num at h2 h3 h4 ⊢
    linarith

set_option exponentiation.threshold 2000 in
theorem stcErr2_8c (hh : h ≤ 128) {X : ℝ} (hX0 : 0 ≤ X) (hX : X ≤ 26 * 2^60) : stcErr2 8 h 2 (2^50) X ≤ 47/64 * 2^34 := by
  have h2 : (h:ℝ) ≤ 128 := by exact_mod_cast hh
  have k := grp2_stc8a hh (Z := 16 * X) (by positivity)
  have k2 := mul_le_mul_of_nonneg_left (mul_le_mul_of_nonneg_left hX (show (0:ℝ) ≤ 16 by norm_num))
    (show (0:ℝ) ≤ (2251799813692493:ℝ)^4 - 2^204 by norm_num)
  unfold stcErr2
  rw [sqrt2_pow8]
  have k3 : 2 * grpErr2 8 h 2 (Real.sqrt 2) 1 (2^50) (16 * X) / (16 * ((2:ℝ)^50)^(8/2)) ≤ 47/64 * 2^34 - 129/2 := by
    rw [div_le_iff₀ (by positivity)]
    norm_num at k k2 ⊢
    linarith
  linarith

set_option exponentiation.threshold 2000 in
theorem stcErr2_12c (hh : h ≤ 128) {X : ℝ} (hX0 : 0 ≤ X) (hX : X ≤ 26 * 2^60) : stcErr2 12 h 3 (2^50) X ≤ 56/64 * 2^40 := by
  have h2 : (h:ℝ) ≤ 128 := by exact_mod_cast hh
  have k := grp2_stc12a hh (Z := 64 * X) (by positivity)
  have k2 := mul_le_mul_of_nonneg_left (mul_le_mul_of_nonneg_left hX (show (0:ℝ) ≤ 64 by norm_num))
    (show (0:ℝ) ≤ (3184525836460151:ℝ)^4 - 2^206 by norm_num)
  unfold stcErr2
  rw [sqrt2_pow12]
  have k3 : 2 * grpErr2 12 h 3 (Real.sqrt 2) 1 (2^50) (64 * X) / (64 * ((2:ℝ)^50)^(12/3)) ≤ 56/64 * 2^40 - 129/2 := by
    rw [div_le_iff₀ (by positivity)]
    norm_num at k k2 ⊢
    linarith
  linarith

set_option exponentiation.threshold 2000 in
theorem stcErr2_16c (hh : h ≤ 128) {X : ℝ} (hX0 : 0 ≤ X) (hX : X ≤ 26 * 2^60) : stcErr2 16 h 4 (2^50) X ≤ 44/64 * 2^47 := by
  have h2 : (h:ℝ) ≤ 128 := by exact_mod_cast hh
  have k := grp2_stc16a hh (Z := 256 * X) (by positivity)
  have k2 := mul_le_mul_of_nonneg_left (mul_le_mul_of_nonneg_left hX (show (0:ℝ) ≤ 256 by norm_num))
    (show (0:ℝ) ≤ (4503599634060481:ℝ)^4 - 2^208 by norm_num)
  unfold stcErr2
  rw [sqrt2_pow16]
  have k3 : 2 * grpErr2 16 h 4 (Real.sqrt 2) 1 (2^50) (256 * X) / (256 * ((2:ℝ)^50)^(16/4)) ≤ 44/64 * 2^47 - 129/2 := by
    rw [div_le_iff₀ (by positivity)]
    norm_num at k k2 ⊢
    linarith
  linarith

theorem propErr2_num (hp : BootParam2 n G b b') (hh : h ≤ 128) :
    propErr2 n h G (2^60) (2^60) (2^60) (Real.sqrt 2 * 2^n * (25 * 2^60)) (2^51) ≤ 2^b' := by
  have h0 := ctsErr2_nonneg (n := n) (h := h) (G := G) (C := 2^60) (Z := Real.sqrt 2 * 2^n * (25 * 2^60)) (by positivity) (by positivity)
  have h1 := ctsErr2_num hp hh
  obtain ⟨bb, hp'⟩ := hp.old
  have h2 := modErr2_num hp' hh h0 h1
  have h5 := ctsNoise_num hp' hh
  have h7 := ctsNoise_nonneg (n := n) (h := h) (G := G) (C := 2^60) (by positivity)
  have h6 := modErr2_nonneg hp' h7 h0 (show (0:ℝ) ≤ 2^51 by positivity)
  unfold propErr2
  rcases hp with ⟨rfl, rfl, rfl, rfl⟩ | ⟨rfl, rfl, rfl, rfl⟩ | ⟨rfl, rfl, rfl, rfl⟩
  · have h4 := stcErr2_8b hh (X := 25 * 2^60 + (ctsNoise 8 h 2 (2^60) +
      modErr2 8 h 2 (2^60) (2^60) (Real.sqrt 2 * 2^8 * (25 * 2^60)) (2^51))) (by positivity) (by
        generalize modErr2 _ _ _ _ _ _ _ = y at *
        generalize ctsNoise _ _ _ _ = x at *
        norm_num at h5 h2 ⊢; linarith)
    generalize stcErr2 _ _ _ _ _ = z at *
    generalize modErr2 _ _ _ _ _ _ _ = y at *
    generalize ctsNoise _ _ _ _ = x at *
    norm_num at h2 h5 h4 ⊢
    linarith
  · have h4 := stcErr2_12b hh (X := 25 * 2^60 + (ctsNoise 12 h 3 (2^60) +
      modErr2 12 h 3 (2^60) (2^60) (Real.sqrt 2 * 2^12 * (25 * 2^60)) (2^51))) (by positivity) (by
        generalize modErr2 _ _ _ _ _ _ _ = y at *
        generalize ctsNoise _ _ _ _ = x at *
        norm_num at h5 h2 ⊢; linarith)
    generalize stcErr2 _ _ _ _ _ = z at *
    generalize modErr2 _ _ _ _ _ _ _ = y at *
    generalize ctsNoise _ _ _ _ = x at *
    norm_num at h2 h5 h4 ⊢
    linarith
  · have h4 := stcErr2_16b hh (X := 25 * 2^60 + (ctsNoise 16 h 4 (2^60) +
      modErr2 16 h 4 (2^60) (2^60) (Real.sqrt 2 * 2^16 * (25 * 2^60)) (2^51))) (by positivity) (by
        generalize modErr2 _ _ _ _ _ _ _ = y at *
        generalize ctsNoise _ _ _ _ = x at *
        norm_num at h5 h2 ⊢; linarith)
    generalize stcErr2 _ _ _ _ _ = z at *
    generalize modErr2 _ _ _ _ _ _ _ = y at *
    generalize ctsNoise _ _ _ _ = x at *
    norm_num at h2 h5 h4 ⊢
    linarith

/-- the proposed bootstrapping with `LOGDELTA_stc = 50` -/
theorem propErr2_num50 (hp : BootParam2 n G b b') (hh : h ≤ 128) :
    propErr2 n h G (2^60) (2^60) (2^50) (Real.sqrt 2 * 2^n * (25 * 2^60)) (2^51) ≤ 2^b := by
  have h0 := ctsErr2_nonneg (n := n) (h := h) (G := G) (C := 2^60) (Z := Real.sqrt 2 * 2^n * (25 * 2^60)) (by positivity) (by positivity)
  have h1 := ctsErr2_num hp hh
  obtain ⟨bb, hp'⟩ := hp.old
  have h2 := modErr2_num hp' hh h0 h1
  have h5 := ctsNoise_num hp' hh
  have h7 := ctsNoise_nonneg (n := n) (h := h) (G := G) (C := 2^60) (by positivity)
  have h6 := modErr2_nonneg hp' h7 h0 (show (0:ℝ) ≤ 2^51 by positivity)
  unfold propErr2
  rcases hp with ⟨rfl, rfl, rfl, rfl⟩ | ⟨rfl, rfl, rfl, rfl⟩ | ⟨rfl, rfl, rfl, rfl⟩
  · have h4 := stcErr2_8c hh (X := 25 * 2^60 + (ctsNoise 8 h 2 (2^60) +
      modErr2 8 h 2 (2^60) (2^60) (Real.sqrt 2 * 2^8 * (25 * 2^60)) (2^51))) (by positivity) (by
        generalize modErr2 _ _ _ _ _ _ _ = y at *
        generalize ctsNoise _ _ _ _ = x at *
        norm_num at h5 h2 ⊢; linarith)
    generalize stcErr2 _ _ _ _ _ = z at *
    generalize modErr2 _ _ _ _ _ _ _ = y at *
    generalize ctsNoise _ _ _ _ = x at *
    norm_num at h2 h5 h4 ⊢
    linarith
  · have h4 := stcErr2_12c hh (X := 25 * 2^60 + (ctsNoise 12 h 3 (2^60) +
      modErr2 12 h 3 (2^60) (2^60) (Real.sqrt 2 * 2^12 * (25 * 2^60)) (2^51))) (by positivity) (by
        generalize modErr2 _ _ _ _ _ _ _ = y at *
        generalize ctsNoise _ _ _ _ = x at *
        norm_num at h5 h2 ⊢; linarith)
    generalize stcErr2 _ _ _ _ _ = z at *
    generalize modErr2 _ _ _ _ _ _ _ = y at *
    generalize ctsNoise _ _ _ _ = x at *
    norm_num at h2 h5 h4 ⊢
    linarith
  · have h4 := stcErr2_16c hh (X := 25 * 2^60 + (ctsNoise 16 h 4 (2^60) +
      modErr2 16 h 4 (2^60) (2^60) (Real.sqrt 2 * 2^16 * (25 * 2^60)) (2^51))) (by positivity) (by
        generalize modErr2 _ _ _ _ _ _ _ = y at *
        generalize ctsNoise _ _ _ _ = x at *
        norm_num at h5 h2 ⊢; linarith)
    generalize stcErr2 _ _ _ _ _ = z at *
    generalize modErr2 _ _ _ _ _ _ _ = y at *
    generalize ctsNoise _ _ _ _ = x at *
    norm_num at h2 h5 h4 ⊢
    linarith

end

end EvalRound

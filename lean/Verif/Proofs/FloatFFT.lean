import Verif.Proofs.FloatTable

/-! # The transforms of DFT.h in binary64 -/

namespace EvalRound
open Finset SparseDiagonal

theorem ctw_iso {n t : Nat} (ht : t < n) :
    (bfly (2^n) (2^t) (ctw n t)).conjTranspose * bfly (2^n) (2^t) (ctw n t) = ((2:ℝ) : ℂ) • 1 := by
  have := adj_mul_of_mul_adj (by norm_num) (bfly_mul_adj (H := 2^n) (Nat.two_pow_pos t) (dvd_pow_blk ht) (ctw n t)
    (fun i _ => ctw_star n t i))
  rw [this]
  push_cast
  rfl

theorem ctw_iso' {n t : Nat} (ht : t < n) :
    ((bfly (2^n) (2^t) (ctw n t)).conjTranspose).conjTranspose * (bfly (2^n) (2^t) (ctw n t)).conjTranspose = ((2:ℝ) : ℂ) • 1 := by
  rw [Matrix.conjTranspose_conjTranspose, bfly_mul_adj (H := 2^n) (Nat.two_pow_pos t) (dvd_pow_blk ht) (ctw n t) (fun i _ => ctw_star n t i)]
  push_cast
  rfl

theorem l2_diag {H : Nat} {v x : Fin H → ℂ} {τ : ℝ} (hτ : 0 ≤ τ) (h : ∀ i, ‖v i‖ ≤ τ) : l2 ((Matrix.diagonal v).mulVec x) ≤ τ * l2 x := by
  refine l2_scale_le hτ fun i => ?_
  rw [Matrix.mulVec_diagonal, norm_mul]
  exact mul_le_mul_of_nonneg_right (h i) (norm_nonneg _)

theorem sqrt2_le : Real.sqrt 2 ≤ 1.4143 := by
  rw [Real.sqrt_le_left (by norm_num)]; norm_num

theorem le_sqrt2 : 1.4142 ≤ Real.sqrt 2 := by
  exact Real.le_sqrt_of_sq_le (by norm_num)

theorem norm_twiddle {n t i : Nat} {w : ℂ} (h : ‖w - ctw n t i‖ ≤ 12 * uF) : ‖w‖ ≤ 1 + 12 * uF := by
  have h1 : ‖ctw n t i‖ = 1 := by
    have := congrArg norm (ctw_star n t i)
    rw [norm_mul, norm_star, norm_one] at this
    nlinarith [norm_nonneg (ctw n t i)]
  have := norm_add_le (w - ctw n t i) (ctw n t i)
  rw [sub_add_cancel] at this
  linarith

/-- one level: `B` is the exact matrix, `B'` the one in the table -/
theorem level_ok {H : Nat} (hH : H ≤ 2^30) {A : SparseDiagonal H 3 × SparseDiagonal H 3} (hr : InRange A.1) (ho : A.1.off = A.2.off)
    (h1 : FirstOwns A.1) (h2 : FirstOwns A.2) {B : Matrix (Fin H) (Fin H) ℂ}
    (hent : ∀ i j, ‖denC A.1 A.2 i j‖ ≤ 1 + 12 * uF)
    (hdiff : ∀ x, l2 ((denC A.1 A.2).mulVec x - B.mulVec x) ≤ 12 * uF * (Real.sqrt 2 * l2 x))
    (zr zi : Fin H → ℝ) (hz : l2 (toC zr zi) ≤ 2^990) :
    Ok (matrix_vector_productF zr zi A.1 A.2) fun r =>
      l2 (toC r.1 r.2 - B.mulVec (toC zr zi)) ≤ 38.4 * uF * l2 (toC zr zi) + H * (30 * etaF) := by
  have hu := uF_pos.le
  have hu2 := uF_le
  refine Ok.mono (mvpF_ok hH zr zi hr ho (c := 1 + 12 * uF) (by linarith) (fun k i => ?_) (by linarith) hz) fun r hr => ?_
  · obtain ⟨j, hj⟩ := vec_le_den hr ho h1 h2 k i
    exact hj.trans (hent i j)
  · have h := l2_add_le (toC r.1 r.2 - (denC A.1 A.2).mulVec (toC zr zi)) ((denC A.1 A.2).mulVec (toC zr zi) - B.mulVec (toC zr zi))
    rw [sub_add_sub_cancel] at h
    have hd := hdiff (toC zr zi)
    have hx := l2_nonneg (toC zr zi)
    generalize l2 (toC zr zi) = X at *
    have hs : Real.sqrt 2 * X ≤ 1.4143 * X := mul_le_mul_of_nonneg_right sqrt2_le hx
    have k1 : 12 * uF * (Real.sqrt 2 * X) ≤ 12 * uF * (1.4143 * X) := mul_le_mul_of_nonneg_left hs (by linarith)
    have hux : 0 ≤ uF * X := mul_nonneg hu hx
    have k2 : uF * (uF * X) ≤ 1/10^9 * (uF * X) := mul_le_mul_of_nonneg_right hu2 hux
    have e : 21.3 * uF * (1 + 12 * uF) * X = 21.3 * (uF * X) + 255.6 * (uF * (uF * X)) := by ring
    rw [e] at hr
    have e2 : 12 * uF * (1.4143 * X) = 16.9716 * (uF * X) := by ring
    rw [e2] at k1
    rw [mul_assoc 38.4]
    linarith

theorem levelF {n d : Nat} (hn : n ≤ 26) (hd : d < n) {A : Fac (n+1)} (h : IsFactorF n d A) (z : CVec (n+1))
    (hz : l2 (toC (n := 2^n) z.1 z.2) ≤ 2^990) :
    Ok (matrix_vector_productF z.1 z.2 A.1 A.2) fun r =>
      l2 (toC (n := 2^n) r.1 r.2 - (bfly (2^n) (2^(n-1-d)) (ctw n (n-1-d))).mulVec (toC (n := 2^n) z.1 z.2)) ≤
        38.4 * uF * l2 (toC (n := 2^n) z.1 z.2) + ((2^n : ℕ) : ℝ) * (30 * etaF) := by
  have hu := uF_pos.le
  obtain ⟨ω, hω, hden⟩ := h.den
  have hM := Nat.two_pow_pos (n-1-d)
  have hst : ∀ i, i < 2^(n-1-d) → ctw n (n-1-d) i * star (ctw n (n-1-d) i) = 1 := fun i _ => ctw_star n (n-1-d) i
  refine level_ok (H := 2^n) (Nat.pow_le_pow_right (by norm_num) (by omega)) (h.inRange hd).1 (h.re.off.trans h.im.off.symm)
    h.re.own h.im.own (fun i j => ?_) (fun x => ?_) z.1 z.2 hz
  · refine (congrArg norm (congrFun (congrFun hden i) j)).le.trans ?_
    exact bfly_norm hM (by linarith) (fun i hi => norm_twiddle (hω i hi)) i j
  · rw [show denC (N := 2^n) A.1 A.2 = bfly (2^n) (2^(n-1-d)) ω from hden, ← Matrix.sub_mulVec, bfly_col hM hst,
      ← Matrix.mulVec_mulVec, l2_of_iso (by norm_num) (ctw_iso (by omega))]
    have := l2_diag (x := x) (by linarith) (colErr_le (H := 2^n) hM hst (by linarith) hω)
    have h0 := Real.sqrt_nonneg 2
    calc Real.sqrt 2 * _ ≤ Real.sqrt 2 * (12 * uF * l2 x) := mul_le_mul_of_nonneg_left this h0
      _ = _ := by ring

theorem levelAdjF {n d : Nat} (hn : n ≤ 26) (hd : d < n) {A : Fac (n+1)} (h : IsAdjF n d A) (z : CVec (n+1))
    (hz : l2 (toC (n := 2^n) z.1 z.2) ≤ 2^990) :
    Ok (matrix_vector_productF z.1 z.2 A.1 A.2) fun r =>
      l2 (toC (n := 2^n) r.1 r.2 - (bfly (2^n) (2^(n-1-d)) (ctw n (n-1-d))).conjTranspose.mulVec (toC (n := 2^n) z.1 z.2)) ≤
        38.4 * uF * l2 (toC (n := 2^n) z.1 z.2) + ((2^n : ℕ) : ℝ) * (30 * etaF) := by
  have hu := uF_pos.le
  obtain ⟨ω, hω, hden⟩ := h.den
  have hM := Nat.two_pow_pos (n-1-d)
  have hst : ∀ i, i < 2^(n-1-d) → ctw n (n-1-d) i * star (ctw n (n-1-d) i) = 1 := fun i _ => ctw_star n (n-1-d) i
  refine level_ok (H := 2^n) (Nat.pow_le_pow_right (by norm_num) (by omega)) h.rng h.off
    h.own.1 h.own.2 (fun i j => ?_) (fun x => ?_) z.1 z.2 hz
  · refine (congrArg norm (congrFun (congrFun hden i) j)).le.trans ?_
    rw [Matrix.conjTranspose_apply, norm_star]
    exact bfly_norm hM (by linarith) (fun i hi => norm_twiddle (hω i hi)) j i
  · rw [show denC (N := 2^n) A.1 A.2 = (bfly (2^n) (2^(n-1-d)) ω).conjTranspose from hden, ← Matrix.sub_mulVec,
      ← Matrix.conjTranspose_sub, bfly_col hM hst, Matrix.conjTranspose_mul, ← Matrix.mulVec_mulVec, Matrix.diagonal_conjTranspose]
    refine (l2_diag (τ := 12 * uF) (by linarith) (fun i => ?_)).trans ?_
    · rw [Pi.star_apply, norm_star]
      exact colErr_le (H := 2^n) hM hst (by linarith) hω i
    · rw [l2_of_iso (by norm_num) (ctw_iso' (by omega))]

/-- the error after one more level -/
theorem level_step {H : Nat} {B : Matrix (Fin H) (Fin H) ℂ} (hB : ∀ x, l2 (B.mulVec x) = Real.sqrt 2 * l2 x)
    {w w' y : Fin H → ℂ} {s X θ : ℝ} {t : Nat} (ht : t ≤ 26) (hX : 0 ≤ X) (hθ : 0 ≤ θ) (hs : 1 ≤ s)
    (hw : l2 (w' - B.mulVec w) ≤ 38.4 * uF * l2 w + θ) (hy : l2 y = s * X)
    (hwy : l2 (w - y) ≤ s * (t * (28 * uF * X + 2 * θ))) :
    l2 (w' - B.mulVec y) ≤ Real.sqrt 2 * s * ((t+1 : ℕ) * (28 * uF * X + 2 * θ)) := by
  have hu := uF_pos.le
  have hu2 := uF_le
  have h := l2_add_le (w' - B.mulVec w) (B.mulVec (w - y))
  have e : w' - B.mulVec w + B.mulVec (w - y) = w' - B.mulVec y := by rw [Matrix.mulVec_sub]; abel
  rw [e, hB] at h
  have hl := l2_add_le (w - y) y
  rw [sub_add_cancel, hy] at hl
  have hd := l2_nonneg (w - y)
  generalize l2 (w - y) = d at *
  have h2 := le_sqrt2
  have ht' : (t:ℝ) ≤ 26 := by exact_mod_cast ht
  have hs0 : 0 ≤ s := by linarith
  have q0 : 0 ≤ s * (uF * X) := by positivity
  have r0 : θ ≤ s * θ := by nlinarith
  have e1 : s * (t * (28 * uF * X + 2 * θ)) = t * (28 * (s * (uF * X)) + 2 * (s * θ)) := by ring
  have e2 : Real.sqrt 2 * s * ((t + 1 : ℕ) * (28 * uF * X + 2 * θ)) =
      Real.sqrt 2 * (s * (t * (28 * uF * X + 2 * θ))) + Real.sqrt 2 * (28 * (s * (uF * X)) + 2 * (s * θ)) := by push_cast; ring
  have k1 : 38.4 * uF * l2 w ≤ 38.4 * uF * (d + s * X) := mul_le_mul_of_nonneg_left hl (by linarith)
  have e3 : 38.4 * uF * (d + s * X) = 38.4 * (uF * d) + 38.4 * (s * (uF * X)) := by ring
  have k2 : Real.sqrt 2 * d ≤ Real.sqrt 2 * (s * (t * (28 * uF * X + 2 * θ))) := mul_le_mul_of_nonneg_left hwy (by linarith)
  rw [e2]
  rw [e1] at hwy
  rw [e3] at k1
  generalize s * (uF * X) = q at *
  generalize s * θ = r at *
  have hqr : 0 ≤ 28 * q + 2 * r := by linarith
  have k3 : uF * d ≤ 1/10^9 * d := mul_le_mul_of_nonneg_right hu2 hd
  have k4 : (t:ℝ) * (28 * q + 2 * r) ≤ 26 * (28 * q + 2 * r) := mul_le_mul_of_nonneg_right ht' hqr
  have k5 : 1.4142 * (28 * q + 2 * r) ≤ Real.sqrt 2 * (28 * q + 2 * r) := mul_le_mul_of_nonneg_right h2 hqr
  linarith

theorem l2_fftMat {n t : Nat} (ht : t ≤ n) (x : Fin (2^n) → ℂ) : l2 ((fftMat n t).mulVec x) = Real.sqrt 2 ^ t * l2 x := by
  induction t with
  | zero => simp [fftMat]
  | succ t ih => rw [fftMat, ← Matrix.mulVec_mulVec, l2_of_iso (by norm_num) (ctw_iso (by omega)), ih (by omega)]; ring

theorem l2_ifftMat {n t : Nat} (ht : t ≤ n) (x : Fin (2^n) → ℂ) : l2 ((ifftMat n t).mulVec x) = Real.sqrt 2 ^ t * l2 x := by
  induction t with
  | zero => simp [ifftMat]
  | succ t ih => rw [ifftMat, ← Matrix.mulVec_mulVec, l2_of_iso (by norm_num) (ctw_iso' (by omega)), ih (by omega)]; ring

/-- the part of the error of one level that does not scale -/
noncomputable def thF (n : Nat) : ℝ := ((2^n : ℕ) : ℝ) * (30 * etaF)

theorem thF_nonneg (n : Nat) : 0 ≤ thF n := by
  have := etaF_pos.le
  unfold thF
  positivity

theorem thF_le {n : Nat} (hn : n ≤ 26) : thF n ≤ 2^31 * etaF := by
  unfold thF
  have h : ((2^n : ℕ) : ℝ) ≤ 2^26 := by exact_mod_cast Nat.pow_le_pow_right (by norm_num) hn
  have h0 := etaF_pos.le
  calc ((2^n : ℕ) : ℝ) * (30 * etaF) ≤ 2^26 * (30 * etaF) := mul_le_mul_of_nonneg_right h (by positivity)
    _ ≤ 2^31 * etaF := by nlinarith

theorem sqrt2_pow {t : Nat} (ht : t ≤ 26) : 1 ≤ Real.sqrt 2 ^ t ∧ Real.sqrt 2 ^ t ≤ 2^13 := by
  have h1 : 1 ≤ Real.sqrt 2 := by have := le_sqrt2; linarith
  refine ⟨one_le_pow₀ h1, (pow_le_pow_right₀ h1 ht).trans (le_of_eq ?_)⟩
  rw [show 26 = 2 * 13 by norm_num, pow_mul, Real.sq_sqrt (by norm_num)]

theorem size_ok {n t : Nat} (hn : n ≤ 26) (ht : t ≤ 26) {X : ℝ} (hX0 : 0 ≤ X) (hX : X ≤ 2^950) {H : Nat} {w y : Fin H → ℂ}
    (hy : l2 y = Real.sqrt 2 ^ t * X) (hwy : l2 (w - y) ≤ Real.sqrt 2 ^ t * (t * (28 * uF * X + 2 * thF n))) :
    l2 w ≤ 2^990 ∧ l2 w ≤ Real.sqrt 2 ^ t * (1.000001 * X + 56 * thF n) := by
  have h := l2_add_le (w - y) y
  rw [sub_add_cancel, hy] at h
  have hu := uF_pos.le
  have hu2 := uF_le
  have hθ := thF_nonneg n
  have hη := etaF_pos.le
  have hη2 := etaF_le
  have hθ2 := thF_le hn
  obtain ⟨s1, s2⟩ := sqrt2_pow ht
  have ht' : (t:ℝ) ≤ 26 := by exact_mod_cast ht
  have huX : uF * X ≤ 1/10^9 * X := mul_le_mul_of_nonneg_right hu2 hX0
  have huX0 : 0 ≤ uF * X := mul_nonneg hu hX0
  have k1 : (t:ℝ) * (28 * uF * X + 2 * thF n) ≤ 26 * (28 * uF * X + 2 * thF n) :=
    mul_le_mul_of_nonneg_right ht' (by positivity)
  have k2 : (t:ℝ) * (28 * uF * X + 2 * thF n) + X ≤ 1.000001 * X + 56 * thF n := by
    rw [mul_assoc] at k1 ⊢
    linarith
  have k3 : l2 w ≤ Real.sqrt 2 ^ t * (1.000001 * X + 56 * thF n) := by
    have := mul_le_mul_of_nonneg_left k2 (show 0 ≤ Real.sqrt 2 ^ t by linarith)
    linarith
  refine ⟨k3.trans ?_, k3⟩
  have h1 : (1:ℝ) ≤ 2^950 := one_le_pow₀ (by norm_num)
  have k4 : 1.000001 * X + 56 * thF n ≤ 2^9 * 2^950 := by
    generalize (2:ℝ)^950 = T at *
    linarith
  calc Real.sqrt 2 ^ t * (1.000001 * X + 56 * thF n) ≤ 2^13 * (2^9 * 2^950) :=
        mul_le_mul s2 k4 (by positivity) (by norm_num)
    _ = 2^972 := by rw [← pow_add, ← pow_add]
    _ ≤ 2^990 := pow_le_pow_right₀ (by norm_num) (by norm_num)

theorem fftNRF_spec {L : Libm} (hL : L.Accurate) {n : Nat} (hn : n ≤ 26) (m : Fin (2^(n+1)) → ℝ) (hm : l2 (pairC n m) ≤ 2^950) :
    Ok (fftNRF L (n+1) m) fun z => l2 (toC (n := 2^n) z.1 z.2 - (fftMat n n).mulVec (pairC n m)) ≤
      Real.sqrt 2 ^ n * (n * (28 * uF * l2 (pairC n m) + 2 * thF n)) := by
  unfold fftNRF
  refine Ok.bind (splitU0NRF_spec hL hn _) fun U hU => ?_
  refine Ok.bind (halves_spec m) fun z hz => ?_
  refine forUp_inv (Nat.zero_le _) (P := fun t (z : CVec (n+1)) =>
    l2 (toC (n := 2^n) z.1 z.2 - (fftMat n t).mulVec (pairC n m)) ≤
      Real.sqrt 2 ^ t * (t * (28 * uF * l2 (pairC n m) + 2 * thF n))) ?_ ?_
  · have hz : toC (n := 2^n) z.1 z.2 = pairC n m := hz
    rw [hz, fftMat, Matrix.one_mulVec, sub_self, l2_zero]
    simp
  · intro t z _ ht hz
    have ht : t < n := ht
    rw [show n + 1 - 2 - t = n - 1 - t by omega, rd_of_lt U (show n - 1 - t < n by omega), pure_bind]
    have hF := hU ⟨n-1-t, by omega⟩
    have hsz := size_ok hn (by omega) (l2_nonneg _) hm (l2_fftMat ht.le _) hz
    refine Ok.mono (levelF hn (show n-1-t < n by omega) hF z hsz.1) fun r hr => ?_
    rw [show n - 1 - (n-1-t) = t by omega] at hr
    have := level_step (B := bfly (2^n) (2^t) (ctw n t)) (l2_of_iso (by norm_num) (ctw_iso ht)) (t := t) (by omega) (l2_nonneg (pairC n m))
      (thF_nonneg n) (sqrt2_pow (by omega)).1 hr (l2_fftMat ht.le _) hz
    rw [fftMat, ← Matrix.mulVec_mulVec, pow_succ' (Real.sqrt 2)]
    exact this

theorem scaleF_ok {n : Nat} {x : ℝ} (hx : |x| ≤ 2^1000) :
    Ok (do let y ← fl (x * 2); fl (y / ((2^(n+1) : ℕ) : ℝ))) fun v => |v - x / 2^n| ≤ 2.001 * uF * |x / 2^n| + 3 * etaF := by
  have hu := uF_pos.le
  have hu2 := uF_le
  have hη := etaF_pos.le
  have hη2 := etaF_le
  have hL : (2:ℝ)^1020 = 2^20 * 2^1000 := by rw [← pow_add]
  have h1 : (1:ℝ) ≤ 2^1000 := one_le_pow₀ (by norm_num)
  have hL2 : ∀ x : ℝ, |x| ≤ 2^20 * 2^1000 → |x| ≤ 2^1020 := fun x h => by rw [hL]; exact h
  clear hL
  generalize (2:ℝ)^1000 = T at *
  have ex : |x * 2| = |x| * 2 := by rw [abs_mul, abs_of_pos (show (0:ℝ) < 2 by norm_num)]
  refine Ok.bind (fl_near (hL2 _ (by rw [ex]; linarith))) fun y hy => ?_
  rw [ex] at hy
  have hp : (1:ℝ) ≤ 2^n := one_le_pow₀ (by norm_num)
  have hN : ((2^(n+1) : ℕ) : ℝ) = 2 * 2^n := by push_cast; ring
  have ax := abs_nonneg x
  have kux : uF * |x| ≤ 1/10^9 * |x| := mul_le_mul_of_nonneg_right hu2 ax
  have k1 := abs_add_le (y - x * 2) (x * 2)
  rw [sub_add_cancel, ex] at k1
  have e1 : y / ((2^(n+1) : ℕ) : ℝ) = (y / 2) / 2^n := by rw [hN]; field_simp
  rw [e1]
  have e2 : x / 2^n = x * (1 / 2^n) := by ring
  have e3 : (y / 2) / 2^n = (y / 2) * (1 / 2^n) := by ring
  rw [e2, e3]
  have g0 : (0:ℝ) < 1 / 2^n := by positivity
  have g1 : (1:ℝ) / 2^n ≤ 1 := by rw [div_le_one (by positivity)]; exact hp
  generalize (1:ℝ) / 2^n = g at *
  have ey : |y / 2 * g| = |y| * (1/2 * g) := by
    rw [abs_mul, abs_div, abs_of_pos g0, abs_of_pos (show (0:ℝ) < 2 by norm_num)]; ring
  have ay := abs_nonneg y
  refine Ok.mono (fl_near (hL2 _ ?_)) fun v hv => ?_
  · rw [ey]
    have : |y| * (1/2 * g) ≤ |y| * 1 := mul_le_mul_of_nonneg_left (by linarith) ay
    linarith
  rw [ey] at hv
  have k2 := abs_add_le (v - y / 2 * g) (y / 2 * g - x * g)
  rw [sub_add_sub_cancel] at k2
  have e4 : |y / 2 * g - x * g| = |y - x * 2| * (1/2 * g) := by
    rw [show y / 2 * g - x * g = (y - x * 2) * (1/2 * g) by ring, abs_mul, abs_of_pos (show 0 < 1/2 * g by positivity)]
  rw [e4] at k2
  have k3 : |y - x * 2| * (1/2 * g) ≤ (uF * (|x| * 2) + etaF) * (1/2 * g) := mul_le_mul_of_nonneg_right hy (by positivity)
  have k4 : uF * (|y| * (1/2 * g)) ≤ uF * ((uF * (|x| * 2) + etaF + |x| * 2) * (1/2 * g)) := by
    refine mul_le_mul_of_nonneg_left (mul_le_mul_of_nonneg_right ?_ (by positivity)) hu
    linarith
  rw [abs_mul, abs_of_pos g0]
  have q0 : 0 ≤ uF * (|x| * g) := by positivity
  have q1 : uF * (uF * (|x| * g)) ≤ 1/10^9 * (uF * (|x| * g)) := mul_le_mul_of_nonneg_right hu2 q0
  have q2 : etaF * g ≤ etaF := by nlinarith
  have q20 : 0 ≤ etaF * g := by positivity
  have q3 : uF * (etaF * g) ≤ 1/10^9 * (etaF * g) := mul_le_mul_of_nonneg_right hu2 q20
  have e5 : (uF * (|x| * 2) + etaF) * (1/2 * g) = uF * (|x| * g) + 1/2 * (etaF * g) := by ring
  have e6 : uF * ((uF * (|x| * 2) + etaF + |x| * 2) * (1/2 * g)) = uF * (uF * (|x| * g)) + 1/2 * (uF * (etaF * g)) + uF * (|x| * g) := by ring
  rw [e5] at k3
  rw [e6] at k4
  rw [mul_assoc]
  linarith

theorem ifftNRF_spec {L : Libm} (hL : L.Accurate) {n : Nat} (hn : n ≤ 26) (z : CVec (n+1)) (hz : l2 (toC (n := 2^n) z.1 z.2) ≤ 2^950) :
    Ok (ifftNRF L (n+1) z) fun m =>
      l2 (pairC n m - ((2^n : ℂ)⁻¹ • (fftMat n n).conjTranspose).mulVec (toC (n := 2^n) z.1 z.2)) ≤
        (28 * n + 3) * uF * (Real.sqrt 2 ^ n / 2^n * l2 (toC (n := 2^n) z.1 z.2)) + 2^40 * etaF := by
  unfold ifftNRF
  have h2 : 2^(n+1) = 2^n + 2^n := by ring
  refine Ok.bind (adjTableF_spec hL hn) fun U hU => ?_
  refine Ok.bind (forUp_inv (Nat.zero_le _) (P := fun t (m : CVec (n+1)) =>
    l2 (toC (n := 2^n) m.1 m.2 - (ifftMat n t).mulVec (toC (n := 2^n) z.1 z.2)) ≤
      Real.sqrt 2 ^ t * (t * (28 * uF * l2 (toC (n := 2^n) z.1 z.2) + 2 * thF n))) ?_ ?_) ?_
  · rw [ifftMat, Matrix.one_mulVec, sub_self, l2_zero]
    simp
  · intro d m _ hd hm
    have hd : d < n := hd
    rw [rd_of_lt U hd, pure_bind]
    have hsz := size_ok hn (by omega) (l2_nonneg _) hz (l2_ifftMat hd.le _) hm
    refine Ok.mono (levelAdjF hn hd (hU ⟨d, hd⟩) m hsz.1) fun r hr => ?_
    have := level_step (B := (bfly (2^n) (2^(n-1-d)) (ctw n (n-1-d))).conjTranspose) (l2_of_iso (by norm_num) (ctw_iso' (by omega)))
      (t := d) (by omega) (l2_nonneg (toC (n := 2^n) z.1 z.2)) (thF_nonneg n) (sqrt2_pow (by omega)).1 hr (l2_ifftMat hd.le _) hm
    rw [ifftMat, ← Matrix.mulVec_mulVec, pow_succ' (Real.sqrt 2)]
    exact this
  · intro m hm
    have hm : l2 (toC (n := 2^n) m.1 m.2 - (ifftMat n n).mulVec (toC (n := 2^n) z.1 z.2)) ≤
      Real.sqrt 2 ^ n * (n * (28 * uF * l2 (toC (n := 2^n) z.1 z.2) + 2 * thF n)) := hm
    have hsz := size_ok hn hn (l2_nonneg _) hz (l2_ifftMat le_rfl _) hm
    have hent : ∀ p, ‖toC (n := 2^n) m.1 m.2 p‖ ≤ 2^1000 := fun p =>
      ((le_l2 _ p).trans hsz.1).trans (pow_le_pow_right₀ (by norm_num) (by norm_num))
    refine Ok.mono (tabM_spec (P := fun i (v : ℝ) =>
      (∀ h : i < 2^n, |v - m.1 ⟨i, h⟩ / 2^n| ≤ 2.001 * uF * |m.1 ⟨i, h⟩ / 2^n| + 3 * etaF) ∧
      (∀ h : i - 2^n < 2^n, 2^n ≤ i → |v - m.2 ⟨i - 2^n, h⟩ / 2^n| ≤ 2.001 * uF * |m.2 ⟨i - 2^n, h⟩ / 2^n| + 3 * etaF)) ?_) ?_
    · intro i hi
      by_cases h : i < 2^n
      · have e : readHalves m i = pure (m.1 ⟨i, h⟩) := by
          unfold readHalves
          exact (if_pos h).trans (rd_of_lt m.1 h)
        rw [e, pure_bind]
        have hb : |m.1 ⟨i, h⟩| ≤ 2^1000 := (Complex.abs_re_le_norm (toC (n := 2^n) m.1 m.2 ⟨i, h⟩)).trans (hent _)
        exact Ok.mono (scaleF_ok hb) fun v hv => ⟨fun _ => hv, fun _ h3 => absurd h (by omega)⟩
      · have h3 : i - 2^n < 2^n := by omega
        have e : readHalves m i = pure (m.2 ⟨i - 2^n, h3⟩) := by
          unfold readHalves
          exact (if_neg h).trans (rd_of_lt m.2 h3)
        rw [e, pure_bind]
        have hb : |m.2 ⟨i - 2^n, h3⟩| ≤ 2^1000 := (Complex.abs_im_le_norm (toC (n := 2^n) m.1 m.2 ⟨i - 2^n, h3⟩)).trans (hent _)
        exact Ok.mono (scaleF_ok hb) fun v hv => ⟨fun h3 => absurd h3 h, fun _ _ => hv⟩
    · intro r hr
      have hu := uF_pos.le
      have hu2 := uF_le
      have hη := etaF_pos.le
      set w : Fin (2^n) → ℂ := toC (n := 2^n) m.1 m.2 with hw
      set zc : Fin (2^n) → ℂ := toC (n := 2^n) z.1 z.2 with hzc
      have e4 : ((2:ℂ)^n)⁻¹ = ((((2:ℝ)^n)⁻¹ : ℝ) : ℂ) := by push_cast; rfl
      have hg0 : (0:ℝ) < ((2:ℝ)^n)⁻¹ := by positivity
      have hng : ‖((2:ℂ)^n)⁻¹‖ = ((2:ℝ)^n)⁻¹ := by
        rw [e4, Complex.norm_real, Real.norm_eq_abs, abs_of_pos hg0]
      have hA : l2 (pairC n r - (2^n : ℂ)⁻¹ • w) ≤ 2.831 * uF * (((2:ℝ)^n)⁻¹ * l2 w) + ((2^n : ℕ) : ℝ) * (5 * etaF) := by
        have h1 : l2 (pairC n r - (2^n : ℂ)⁻¹ • w) ≤
            l2 ((fun p => ((2.831 * uF : ℝ) : ℂ) * ((2^n : ℂ)⁻¹ * ((‖w p‖ : ℝ) : ℂ))) + fun _ => ((5 * etaF : ℝ) : ℂ)) := by
          refine l2_mono fun p => ?_
          have hp := p.isLt
          have e1 := (hr ⟨p, by omega⟩).1 hp
          have e2 := (hr ⟨p + 2^n, by omega⟩).2 (by simp) (by simp)
          have e3 : (⟨p.val + 2^n - 2^n, by simp⟩ : Fin (2^n)) = p := Fin.ext (by simp)
          rw [e3] at e2
          simp only [Fin.eta] at e1
          have b1 : |m.1 p / 2^n| ≤ ((2:ℝ)^n)⁻¹ * ‖w p‖ := by
            rw [div_eq_inv_mul, abs_mul, abs_of_pos hg0]
            exact mul_le_mul_of_nonneg_left (Complex.abs_re_le_norm (w p)) hg0.le
          have b2 : |m.2 p / 2^n| ≤ ((2:ℝ)^n)⁻¹ * ‖w p‖ := by
            rw [div_eq_inv_mul, abs_mul, abs_of_pos hg0]
            exact mul_le_mul_of_nonneg_left (Complex.abs_im_le_norm (w p)) hg0.le
          have c1 := e1.trans (add_le_add_left (mul_le_mul_of_nonneg_left b1 (show 0 ≤ 2.001 * uF by positivity)) _)
          have c2 := e2.trans (add_le_add_left (mul_le_mul_of_nonneg_left b2 (show 0 ≤ 2.001 * uF by positivity)) _)
          have hre : ((pairC n r - (2^n : ℂ)⁻¹ • w) p).re = r ⟨p, by omega⟩ - m.1 p / 2^n := by
            rw [Pi.sub_apply, Pi.smul_apply, smul_eq_mul, e4, Complex.sub_re, Complex.re_ofReal_mul, div_eq_inv_mul]
            rfl
          have him : ((pairC n r - (2^n : ℂ)⁻¹ • w) p).im = r ⟨p + 2^n, by omega⟩ - m.2 p / 2^n := by
            rw [Pi.sub_apply, Pi.smul_apply, smul_eq_mul, e4, Complex.sub_im, Complex.im_ofReal_mul, div_eq_inv_mul]
            rfl
          rw [← hre] at c1
          rw [← him] at c2
          refine (norm_le_two c1 c2).trans ?_
          rw [Pi.add_apply, e4, ← Complex.ofReal_mul, ← Complex.ofReal_mul, ← Complex.ofReal_add, Complex.norm_real, Real.norm_eq_abs,
            abs_of_nonneg (by positivity)]
          have q0 : 0 ≤ uF * (((2:ℝ)^n)⁻¹ * ‖w p‖) := by positivity
          rw [mul_assoc 2.001, mul_assoc 2.831]
          linarith
        refine h1.trans ((l2_add_le _ _).trans (add_le_add ?_ ?_))
        · refine (l2_scale_le (y := w) (c := 2.831 * uF * ((2:ℝ)^n)⁻¹) (by positivity) (fun p => ?_)).trans (le_of_eq (by ring))
          rw [e4, ← Complex.ofReal_mul, ← Complex.ofReal_mul, Complex.norm_real, Real.norm_eq_abs, abs_of_nonneg (by positivity)]
          exact le_of_eq (by ring)
        · refine l2_le fun i => ?_
          rw [Complex.norm_real, Real.norm_eq_abs, abs_of_nonneg (by positivity)]
      have hB : l2 ((2^n : ℂ)⁻¹ • w - ((2^n : ℂ)⁻¹ • (fftMat n n).conjTranspose).mulVec zc) =
          ((2:ℝ)^n)⁻¹ * l2 (w - (ifftMat n n).mulVec zc) := by
        rw [Matrix.smul_mulVec, ← ifftMat_eq, ← smul_sub, l2_smul, hng]
      have hC := l2_add_le (pairC n r - (2^n : ℂ)⁻¹ • w) ((2^n : ℂ)⁻¹ • w - ((2^n : ℂ)⁻¹ • (fftMat n n).conjTranspose).mulVec zc)
      rw [sub_add_sub_cancel, hB] at hC
      refine hC.trans ?_
      have hθ := thF_le hn
      have hθ0 := thF_nonneg n
      have hX := l2_nonneg zc
      have hk := hsz.2
      have hn' : (n:ℝ) ≤ 26 := by exact_mod_cast hn
      have hn0 : (0:ℝ) ≤ n := Nat.cast_nonneg _
      have hp26 : ((2^n : ℕ) : ℝ) ≤ 2^26 := by exact_mod_cast Nat.pow_le_pow_right (by norm_num) hn
      have hsg : ((2:ℝ)^n)⁻¹ * Real.sqrt 2 ^ n ≤ 1 := by
        rw [inv_mul_le_iff₀ (by positivity), mul_one]
        exact pow_le_pow_left₀ (Real.sqrt_nonneg _) (by have := sqrt2_le; linarith) n
      have hsg0 : 0 ≤ ((2:ℝ)^n)⁻¹ * Real.sqrt 2 ^ n := by positivity
      have k1 := mul_le_mul_of_nonneg_left hk hg0.le
      have k2 := mul_le_mul_of_nonneg_left hm hg0.le
      rw [← mul_assoc] at k1 k2
      rw [div_eq_inv_mul]
      generalize ((2:ℝ)^n)⁻¹ * Real.sqrt 2 ^ n = g at *
      generalize l2 zc = X at *
      generalize ((2:ℝ)^n)⁻¹ * l2 w = lw at *
      generalize ((2:ℝ)^n)⁻¹ * l2 (w - (ifftMat n n).mulVec zc) = ld at *
      have k3 : 2.831 * uF * lw ≤ 2.831 * uF * (g * (1.000001 * X + 56 * thF n)) := mul_le_mul_of_nonneg_left k1 (by positivity)
      have e5 : 2.831 * uF * (g * (1.000001 * X + 56 * thF n)) = 2.831002831 * (uF * (g * X)) + 158.536 * (uF * (g * thF n)) := by ring
      have e6 : g * (n * (28 * uF * X + 2 * thF n)) = 28 * (n * (uF * (g * X))) + 2 * (n * (g * thF n)) := by ring
      have e7 : (28 * (n:ℝ) + 3) * uF * (g * X) = 28 * (n * (uF * (g * X))) + 3 * (uF * (g * X)) := by ring
      rw [e5] at k3
      rw [e6] at k2
      rw [e7]
      have q0 : 0 ≤ uF * (g * X) := by positivity
      have q1 : g * thF n ≤ 1 * (2^31 * etaF) := mul_le_mul hsg hθ hθ0 (by norm_num)
      have q10 : 0 ≤ g * thF n := by positivity
      have q2 : (n:ℝ) * (g * thF n) ≤ 26 * (1 * (2^31 * etaF)) := mul_le_mul hn' q1 q10 (by norm_num)
      have q3 : uF * (g * thF n) ≤ 1/10^9 * (1 * (2^31 * etaF)) := mul_le_mul hu2 q1 q10 (by norm_num)
      have q4 : ((2^n : ℕ) : ℝ) * (5 * etaF) ≤ 2^26 * (5 * etaF) := mul_le_mul_of_nonneg_right hp26 (by positivity)
      generalize ((2^n : ℕ) : ℝ) * (5 * etaF) = five at *
      linarith


theorem l2_pairC {n : Nat} (m : Fin (2^(n+1)) → ℝ) : l2 (pairC n m) = Real.sqrt (∑ k, m k ^ 2) := by
  unfold l2
  congr 1
  have h2 : 2^(n+1) = 2^n + 2^n := by ring
  rw [← Equiv.sum_comp (finCongr h2.symm), Fin.sum_univ_add, ← sum_add_distrib]
  refine sum_congr rfl fun k _ => ?_
  rw [← Complex.normSq_eq_norm_sq, Complex.normSq_apply]
  have e4 : (finCongr h2.symm (Fin.natAdd (2^n) k)) = ⟨k.val + 2^n, by have := k.isLt; omega⟩ :=
    Fin.ext (Nat.add_comm _ _)
  rw [e4, sq, sq]
  rfl

theorem l2_perm {H : Nat} (e : Fin H ≃ Fin H) (x : Fin H → ℂ) : l2 (fun p => x (e p)) = l2 x := by
  unfold l2
  rw [Equiv.sum_comp e fun i => ‖x i‖^2]

theorem slots_l2 {n : Nat} (m : Fin (2^(n+1)) → ℝ) :
    l2 (fun i : Fin (2^n) => slotOf m i) = Real.sqrt 2 ^ n * l2 (pairC n m) := by
  rw [← l2_perm (brvEquiv n) (pairC n m), ← l2_fftMat le_rfl]
  congr 1
  funext i
  exact (fftMat_slot m i).symm

theorem fftF_spec {L : Libm} (hL : L.Accurate) {n : Nat} (h1 : 1 ≤ n) (hn : n ≤ 26) (m : Fin (2^(n+1)) → ℝ)
    (hm : l2 (pairC n m) ≤ 2^950) :
    Ok (fftF L (n+1) m) fun z => l2 (toC (n := 2^n) z.1 z.2 - fun i : Fin (2^n) => slotOf m i) ≤
      Real.sqrt 2 ^ n * (n * (28 * uF * l2 (pairC n m) + 2 * thF n)) := by
  have h := toNR_spec h1 (by omega) m
  have e : fftF L (n+1) m = (do
      let mem ← toNR (n+1) m
      tabM (2^(n+1)) (fun i => rdM mem i)) >>= fftNRF L (n+1) := by
    unfold fftF
    rw [bind_assoc]
  rw [e]
  refine Ok.bind h fun r hr => ?_
  have hl : l2 (pairC n r) = l2 (pairC n m) := by rw [hr]; exact l2_perm (brvEquiv n) (pairC n m)
  refine Ok.mono (fftNRF_spec hL hn r (by rw [hl]; exact hm)) fun z hz => ?_
  rw [hl, hr] at hz
  have e2 : (fun i : Fin (2^n) => slotOf m i) = (fftMat n n).mulVec fun p => pairC n m ⟨bitRev n p, bitRev_lt n p⟩ :=
    funext fun i => (fftMat_slot m i).symm
  rw [e2]
  exact hz

theorem ifftF_spec {L : Libm} (hL : L.Accurate) {n : Nat} (h1 : 1 ≤ n) (hn : n ≤ 26) (z : CVec (n+1)) (m0 m : Fin (2^(n+1)) → ℝ)
    (hm : ∀ i : Fin (2^n), slotOf m i = ⟨z.1 i, z.2 i⟩) (hz : l2 (toC (n := 2^n) z.1 z.2) ≤ 2^950) :
    Ok (ifftF L (n+1) z m0) fun m' => l2 (pairC n m' - pairC n m) ≤ (28 * n + 3) * uF * l2 (pairC n m) + 2^40 * etaF := by
  unfold ifftF
  refine Ok.bind (ifftNRF_spec hL hn z hz) fun mNR h => ?_
  refine Ok.mono (fromNR_spec h1 (by omega) mNR m0) fun m' hm' => ?_
  have e1 : toC (n := 2^n) z.1 z.2 = (fftMat n n).mulVec fun p => pairC n m ⟨bitRev n p, bitRev_lt n p⟩ := by
    funext i
    rw [fftMat_slot]
    exact (hm i).symm
  have e2 : ((2^n : ℂ)⁻¹ • (fftMat n n).conjTranspose).mulVec (toC (n := 2^n) z.1 z.2) =
      fun p : Fin (2^n) => pairC n m ⟨bitRev n p, bitRev_lt n p⟩ := by
    rw [e1, Matrix.mulVec_mulVec, Matrix.smul_mul, adj_mul_of_mul_adj (pow_ne_zero n two_ne_zero) (fftMat_adj (le_refl n)), smul_smul,
      inv_mul_cancel₀ (pow_ne_zero n two_ne_zero), one_smul, Matrix.one_mulVec]
  have e3 : pairC n m' - pairC n m = fun p => (pairC n mNR - fun p : Fin (2^n) => pairC n m ⟨bitRev n p, bitRev_lt n p⟩) (brvEquiv n p) := by
    funext p
    rw [hm']
    show _ = pairC n mNR ⟨bitRev n p, _⟩ - pairC n m (brvEquiv n (brvEquiv n p))
    rw [show brvEquiv n (brvEquiv n p) = p from (brvEquiv n).left_inv p]
    rfl
  have e4 : Real.sqrt 2 ^ n / 2^n * l2 (toC (n := 2^n) z.1 z.2) = l2 (pairC n m) := by
    have e5 : toC (n := 2^n) z.1 z.2 = fun i : Fin (2^n) => slotOf m i := funext fun i => (hm i).symm
    rw [e5, slots_l2]
    have : Real.sqrt 2 ^ n * Real.sqrt 2 ^ n = 2^n := by rw [← mul_pow, Real.mul_self_sqrt (by norm_num)]
    rw [div_mul_eq_mul_div, ← mul_assoc, this]
    field_simp
  rw [e2, e4] at h
  rw [e3, l2_perm (brvEquiv n)]
  exact h

end EvalRound

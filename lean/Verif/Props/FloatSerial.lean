import Verif.Proofs.FloatSerial

/-!
# C94: the program theorem_serial_matmul_error in binary64
-/

namespace EvalRound
open Z_Q Finset SparseDiagonal

section
variable {n : Nat}

theorem Ra.mulfl {X k x Y l y T : ℝ} (hx : Ra X k T x) (hy : Ra Y l T y) (hX0 : 0 ≤ X) (hX : X ≤ 2^40) (hY0 : 0 ≤ Y) (hY : Y ≤ 2^40)
    (hk0 : 0 ≤ k) (hk : k ≤ 2^18) (hl0 : 0 ≤ l) (hl : l ≤ 2^18) (hT : 0 ≤ T) (hη : etaF ≤ T) (hT2 : T ≤ 1/2^100) :
    Ok (EvalRound.fl (x * y)) (Ra (X * Y) (k + l + 1.02) (2^45 * T)) := by
  have h1 := hx.mul hy hX0 hY0 hk0 hl0 (hk.trans (by norm_num)) (hl.trans (by norm_num)) hT hT
  have h2 : 2 * T * Y + 2 * T * X + T * T ≤ 2^43 * T := by
    have a : 2 * T * Y ≤ 2 * T * 2^40 := mul_le_mul_of_nonneg_left hY (by linarith)
    have b : 2 * T * X ≤ 2 * T * 2^40 := mul_le_mul_of_nonneg_left hX (by linarith)
    have c : T * T ≤ T * 1 := mul_le_mul_of_nonneg_left (hT2.trans (by norm_num)) hT
    linarith
  have hXY : X * Y ≤ 2^500 := (mul_le_mul hX hY hY0 (by norm_num)).trans (by rw [← pow_add]; exact pow_le_pow_right₀ (by norm_num) (by norm_num))
  have h3 := h1.mono (mul_nonneg hX0 hY0) le_rfl h2
  refine Ok.mono (h3.fl (mul_nonneg hX0 hY0) hXY (by linarith) (by linarith) (by linarith) ?_) fun r hr => hr.mono (mul_nonneg hX0 hY0) (by linarith) (by linarith)
  have : 2^43 * T ≤ 2^43 * (1/2^100) := mul_le_mul_of_nonneg_left hT2 (by norm_num)
  exact this.trans (by norm_num)

theorem etaF_le_small : etaF ≤ 1/100 * uF := by
  have h : 2^170 * etaF ≤ 1/2^900 := tiny_le' le_rfl
  have h2 : etaF ≤ 2^170 * etaF := le_mul_of_one_le_left etaF_pos.le (by norm_num)
  have h3 : (1:ℝ)/2^900 ≤ 1/2^100 := one_div_le_one_div_of_le (by positivity) (pow_le_pow_right₀ (by norm_num) (by norm_num))
  rw [uF_eq]
  exact (h2.trans (h.trans h3)).trans (by norm_num)

theorem sqrt2_flF : ∃ s, fl (Real.sqrt 2) = pure s ∧ 1 ≤ s ∧ s ≤ 2 ∧ Ra (Real.sqrt 2) 1.01 0 s := by
  have h1 := le_sqrt2
  have h2 := sqrt2_le
  have hu := uF_pos
  have hu2 := uF_le
  have hη := etaF_le_small
  obtain ⟨s, e, h0, hs⟩ := fl_near0 (x := Real.sqrt 2) (Real.sqrt_nonneg _) (h2.trans (le_trans (b := (2:ℝ)^1) (by norm_num) (pow_le_pow_right₀ (by norm_num) (by norm_num))))
  have hs2 : |s - Real.sqrt 2| ≤ 1.01 * uF * Real.sqrt 2 := by
    have : 1/100 * uF * 1 ≤ 1/100 * uF * Real.sqrt 2 := mul_le_mul_of_nonneg_left (by linarith) (by linarith)
    linarith
  have hs3 : 1.01 * uF * Real.sqrt 2 ≤ 1.01 * (1/10^9) * 1.4143 := mul_le_mul (mul_le_mul_of_nonneg_left hu2 (by norm_num)) h2 (by linarith) (by norm_num)
  have hs4 := abs_le.1 (hs2.trans hs3)
  refine ⟨s, e, ?_, ?_, ?_⟩
  · have := hs4.1
    norm_num at this ⊢
    linarith
  · have := hs4.2
    norm_num at this ⊢
    linarith
  · unfold Ra
    linarith

theorem Ra.npow {X k x : ℝ} (h : Ra X k 0 x) (hX0 : 0 ≤ X) (hk0 : 0 ≤ k) {d : Nat} (hk : (k + 0.01) * d ≤ 2^19) (hk1 : k ≤ 2^19) : Ra (X^d) ((k + 0.01) * d) 0 (x^d) := by
  induction d with
  | zero => simp [Ra]
  | succ d ih =>
    push_cast at hk
    have hkd : (k + 0.01) * d ≤ 2^19 := by linarith
    have h1 := (ih hkd).mul h (pow_nonneg hX0 d) hX0 (by positivity) hk0 (by linarith) (by linarith) le_rfl le_rfl
    rw [pow_succ, pow_succ]
    refine h1.mono (mul_nonneg (pow_nonneg hX0 d) hX0) (le_of_eq (by push_cast; ring)) (by simp)

end

/-- `pow` is accurate to two units of rounding for bases up to 2 and exponents up to 16. -/
def PowSmall (L : LibmP) : Prop := ∀ x y : ℝ, 1 ≤ x → x ≤ 2 → 0 ≤ y → y ≤ 16 → |L.pow x y - x ^ y| ≤ x ^ y / 2^52

theorem exactLibmP_small : PowSmall exactLibmP := fun x y hx _ hy _ => by
  have h1 : (1:ℝ) ≤ x ^ y := Real.one_le_rpow hx hy
  have h2 : |rnd (x ^ y) - x ^ y| ≤ uF * |x ^ y| + etaF := by rw [uF_eq, etaF_eq]; exact rnd_err (x ^ y)
  rw [abs_of_nonneg (show 0 ≤ x ^ y by linarith)] at h2
  have h3 := etaF_le_small
  have h4 := mul_le_mul_of_nonneg_left h1 uF_pos.le
  show |rnd (x ^ y) - x ^ y| ≤ _
  have e : x ^ y / 2^52 = 2 * (uF * x ^ y) := by rw [uF_eq]; ring
  rw [e]
  have := uF_pos
  linarith

section
variable {n : Nat} {L : LibmP}

theorem powF_ra (hp : PowSmall L) (hn1 : 1 ≤ n) (hn : n ≤ 16) {s : ℝ} (h1 : 1 ≤ s) (h2 : s ≤ 2) (hs : Ra (Real.sqrt 2) 1.01 0 s) :
    Ra (Real.sqrt 2 ^ (n-1)) (1.02 * n + 3) 0 (L.pow s ((n:ℝ) - 1)) := by
  have hn1' : (1:ℝ) ≤ n := by exact_mod_cast hn1
  have hn' : (n:ℝ) ≤ 16 := by exact_mod_cast hn
  have e : (n:ℝ) - 1 = ((n - 1 : ℕ) : ℝ) := by rw [Nat.cast_sub hn1]; norm_num
  have hc : ((n - 1 : ℕ) : ℝ) ≤ n - 1 := e.ge
  have h := hp s ((n:ℝ) - 1) h1 h2 (by linarith) (by linarith)
  rw [e, Real.rpow_natCast] at h
  have h3 := hs.npow (d := n-1) (Real.sqrt_nonneg _) (by norm_num) (by linarith) (by norm_num)
  have h4 : Ra 1 2 0 (L.pow s ((n:ℝ) - 1) / s^(n-1)) := by
    have hs0 : 0 < s^(n-1) := pow_pos (by linarith) _
    unfold Ra
    rw [e, div_sub_one hs0.ne', abs_div, abs_of_pos hs0, div_le_iff₀ hs0, uF_eq]
    refine h.trans (le_of_eq ?_)
    ring
  have h5 := h3.mul h4 (by positivity) (by norm_num) (mul_nonneg (by norm_num) (Nat.cast_nonneg _)) (by norm_num) (by linarith) (by norm_num) le_rfl le_rfl
  rw [mul_one, mul_div_cancel₀ _ (pow_pos (show 0 < s by linarith) (n-1)).ne'] at h5
  exact h5.mono (by positivity) (by linarith) (by simp)

/-- the values that are printed before the measurement -/
theorem serial_expectedF (hp : PowSmall L) (hn1 : 1 ≤ n) (hn : n ≤ 16) {Z nz : ℝ} (hZ0 : 0 ≤ Z) (hZ : Z ≤ 2^8) (hnz : Ra Z (1.1 * 2^n + 5) (1/2^518) nz) :
    ∃ s2 q s x d x2 sD x3 ex b : ℝ, fl (Real.sqrt 2) = pure s2 ∧ fl (((3 * 2^(n+1) : ℕ) : ℝ) / 12) = pure q ∧ fl (Real.sqrt q) = pure s ∧
      fl (s * nz) = pure x ∧ fl (((BitVec.ofNat 64 (2^50)).toNat : ℝ)) = pure d ∧ fl (x / d) = pure x2 ∧ fl (Real.sqrt n) = pure sD ∧
      fl (x2 * sD) = pure x3 ∧ fl (x3 * L.pow s2 ((n:ℝ) - 1)) = pure ex ∧ fl (sD * ex) = pure b ∧
      |ex - Real.sqrt (3 * 2^(n+1) / 12) * Z / 2^50 * Real.sqrt n * Real.sqrt 2 ^ (n-1)| ≤
        (1.1 * 2^n + 2 * n + 20) / 2^53 * (Real.sqrt (3 * 2^(n+1) / 12) * Z / 2^50 * Real.sqrt n * Real.sqrt 2 ^ (n-1)) + 1/2^380 ∧
      |b - Real.sqrt n * (Real.sqrt (3 * 2^(n+1) / 12) * Z / 2^50 * Real.sqrt n * Real.sqrt 2 ^ (n-1))| ≤
        (1.1 * 2^n + 2 * n + 20) / 2^53 * (Real.sqrt n * (Real.sqrt (3 * 2^(n+1) / 12) * Z / 2^50 * Real.sqrt n * Real.sqrt 2 ^ (n-1))) + 1/2^380 := by
  have hη := etaF_pos.le
  have hn0 : (0:ℝ) ≤ n := Nat.cast_nonneg _
  have hn' : (n:ℝ) ≤ 16 := by exact_mod_cast hn
  have hN : (2:ℝ)^n ≤ 2^16 := pow_le_pow_right₀ (by norm_num) hn
  have hN0 : (0:ℝ) ≤ 2^n := by positivity
  obtain ⟨T, hT⟩ : ∃ T : ℝ, T = 1/2^518 := ⟨_, rfl⟩
  have hT0 : 0 ≤ T := by rw [hT]; positivity
  have hT3 : T ≤ 1/2^250 := by
    rw [hT]; exact one_div_le_one_div_of_le (by positivity) (pow_le_pow_right₀ (by norm_num) (by norm_num))
  have hTk : 2^137 * T ≤ 1/2^380 := by
    rw [hT, show (518:ℕ) = 137 + 381 by norm_num, pow_add, show (2:ℝ)^137 * (1 / (2^137 * 2^381)) = 1/2^381 by field_simp]
    exact one_div_le_one_div_of_le (by positivity) (pow_le_pow_right₀ (by norm_num) (by norm_num))
  have hηT : etaF ≤ T := by
    rw [hT, etaF_eq]
    exact one_div_le_one_div_of_le (by positivity) (pow_le_pow_right₀ (by norm_num) (by norm_num))
  rw [← hT] at hnz
  have hTs : ∀ j : ℝ, j ≤ 2^137 → j * T ≤ 1/2^100 := fun j hj =>
    (mul_le_mul hj hT3 hT0 (by norm_num)).trans (by norm_num)
  obtain ⟨s2, es2, hs21, hs22, hs2⟩ := sqrt2_flF
  have hpw := powF_ra hp hn1 hn hs21 hs22 hs2
  have h3N : ((3 * 2^(n+1) : ℕ) : ℝ) ≤ 2^31 := by
    push_cast
    rw [pow_succ]
    linarith
  obtain ⟨q, s, eq, es, hs⟩ := sqrt12_ra h3N
  obtain ⟨S, hS⟩ : ∃ S : ℝ, S = Real.sqrt (((3 * 2^(n+1) : ℕ) : ℝ) / 12) := ⟨_, rfl⟩
  have hS0 : 0 ≤ S := by rw [hS]; positivity
  have hS15 : S ≤ 2^15 := by
    rw [hS, Real.sqrt_le_left (by norm_num)]
    linarith
  rw [← hS, ← hT] at hs
  obtain ⟨x, ex, hx⟩ := hs.mulfl hnz hS0 (hS15.trans (by norm_num)) hZ0 (hZ.trans (by norm_num)) (by norm_num) (by norm_num) (by positivity) (by linarith) hT0 hηT (by
    have := hTs 1 (by norm_num); linarith)
  have hSZ0 := mul_nonneg hS0 hZ0
  have hSZ : S * Z ≤ 2^23 := (mul_le_mul hS15 hZ hZ0 (by norm_num)).trans (by norm_num)
  have ed : fl (((BitVec.ofNat 64 (2^50)).toNat : ℝ)) = pure (2^50) := by
    rw [toNat_scale (D := 50) (by norm_num)]
    exact C74_exact ⟨1, 50, by norm_num, by norm_num, by norm_num, by norm_num⟩
  have hx' := hx.div (c := 2^50) (by norm_num)
  have hY0 : 0 ≤ S * Z / 2^50 := div_nonneg hSZ0 (by norm_num)
  have hY : S * Z / 2^50 ≤ 1 := by
    rw [div_le_one (by norm_num)]
    exact hSZ.trans (by norm_num)
  have hx2' := hx'.mono hY0 (k' := 1.1 * 2^n + 8.1) (τ' := T) (by linarith) (by
    rw [div_le_iff₀ (by norm_num)]
    linarith)
  obtain ⟨x2, ex2, hx2⟩ := hx2'.fl hY0 (hY.trans (one_le_pow₀ (by norm_num))) (by positivity) (by linarith) hT0 (by
    have := hTs 1 (by norm_num); linarith)
  have hsn0 := Real.sqrt_nonneg (n:ℝ)
  have hsn : Real.sqrt n ≤ 4 := by
    rw [Real.sqrt_le_left (by norm_num)]; linarith
  obtain ⟨sD, esD, _, hsD⟩ := fl_near0 hsn0 (hsn.trans (le_trans (b := (2:ℝ)^2) (by norm_num) (pow_le_pow_right₀ (by norm_num) (by norm_num))))
  have hsD' : Ra (Real.sqrt n) 1 T sD := by
    unfold Ra
    linarith
  have hx2m := hx2.mono hY0 (k' := 1.1 * 2^n + 9.2) (τ' := 4 * T) (by linarith) (by linarith)
  obtain ⟨x3, ex3, hx3⟩ := hx2m.mulfl (hsD'.mono hsn0 le_rfl (τ' := 4 * T) (by linarith)) hY0 (hY.trans (by norm_num)) hsn0 (hsn.trans (by norm_num))
    (by positivity) (by linarith) (by norm_num) (by norm_num) (by linarith) (by linarith) (hTs 4 (by norm_num))
  have hW0 : 0 ≤ S * Z / 2^50 * Real.sqrt n := mul_nonneg hY0 hsn0
  have hW : S * Z / 2^50 * Real.sqrt n ≤ 4 := (mul_le_mul hY hsn hsn0 (by norm_num)).trans (by norm_num)
  have hx3m := hx3.mono hW0 (k' := 1.1 * 2^n + 11.3) (τ' := 2^47 * T) (by linarith) (by linarith)
  have hR0 : 0 ≤ Real.sqrt 2 ^ (n-1) := by positivity
  have hR : Real.sqrt 2 ^ (n-1) ≤ 2^8 := sqrt2_pow_le8 (by omega)
  obtain ⟨e, ee, he⟩ := hx3m.mulfl (hpw.mono hR0 le_rfl (τ' := 2^47 * T) (by positivity)) hW0 (hW.trans (by norm_num)) hR0 (hR.trans (by norm_num))
    (by positivity) (by linarith) (by positivity) (by linarith) (by positivity) (by linarith) (hTs _ (by norm_num))
  have hV0 : 0 ≤ S * Z / 2^50 * Real.sqrt n * Real.sqrt 2 ^ (n-1) := mul_nonneg hW0 hR0
  have hV : S * Z / 2^50 * Real.sqrt n * Real.sqrt 2 ^ (n-1) ≤ 2^10 := (mul_le_mul hW hR hR0 (by norm_num)).trans (by norm_num)
  have hem := he.mono hV0 (k' := 1.1 * 2^n + 1.02 * n + 16) (τ' := 2^92 * T) (by linarith) (by linarith)
  obtain ⟨b, eb, hb⟩ := (hsD'.mono hsn0 le_rfl (τ' := 2^92 * T) (by linarith)).mulfl hem hsn0 (hsn.trans (by norm_num)) hV0 (hV.trans (by norm_num))
    (by norm_num) (by norm_num) (by positivity) (by linarith) (by positivity) (by linarith) (hTs _ (by norm_num))
  have eS : S = Real.sqrt (3 * 2^(n+1) / 12) := by rw [hS]; push_cast; rfl
  rw [eS] at hem hb hV0
  refine ⟨s2, q, s, x, 2^50, x2, sD, x3, e, b, es2, eq, es, ex, ed, ex2, esD, ex3, ee, eb, ?_, ?_⟩
  · have h := hem.mono hV0 (k' := 1.1 * 2^n + 2 * n + 20) (τ' := 1/2^380) (by linarith) (le_trans (by linarith) hTk)
    unfold Ra at h
    refine le_trans (α := ℝ) h (add_le_add (le_of_eq ?_) le_rfl)
    rw [uF_eq]
    ring
  · have h := hb.mono (mul_nonneg hsn0 hV0) (k' := 1.1 * 2^n + 2 * n + 20) (τ' := 1/2^380) (by linarith) (le_trans (by linarith) hTk)
    unfold Ra at h
    refine le_trans (α := ℝ) h (add_le_add (le_of_eq ?_) le_rfl)
    rw [uF_eq]
    ring

/-- the three contributions of the rounding errors of `double`, in units of `T` -/
theorem serial_arith {n s u T t a b c P : ℝ} (hn0 : 0 ≤ n) (hs : 0 ≤ s) (hu : u = 1/2^53) (hT : T = s * s * u) (hP : P ≤ s / 1.4142)
    (ha : a ≤ n * (33.1 * u) * (1.001 * P) * s + t) (hb : b ≤ (28 * n + 8) * u * (1.003 * (s * s)) + t)
    (hc : c ≤ 1.001 * s * (1 / 2^50 * (s * (18 * n + 3)))) : a + b + c ≤ T * (196 * n + 33) + 2 * t := by
  have hu0 : 0 ≤ u := by rw [hu]; positivity
  have hT0 : 0 ≤ T := by rw [hT]; positivity
  have ha2 : n * (33.1 * u) * (1.001 * P) * s ≤ T * (23.5 * n) := by
    have h1 : n * (33.1 * u) * (1.001 * P) * s ≤ n * (33.1 * u) * (1.001 * (s / 1.4142)) * s := by gcongr
    have h2 : n * (33.1 * u) * (1.001 * (s / 1.4142)) * s = T * n * (33.1 * 1.001 / 1.4142) := by rw [hT]; ring
    have h3 : T * n * (33.1 * 1.001 / 1.4142) ≤ T * n * 23.5 := mul_le_mul_of_nonneg_left (by norm_num) (mul_nonneg hT0 hn0)
    rw [h2] at h1
    linarith
  have hb2 : (28 * n + 8) * u * (1.003 * (s * s)) = T * (1.003 * (28 * n + 8)) := by rw [hT]; ring
  have hc2 : 1.001 * s * (1 / 2^50 * (s * (18 * n + 3))) = T * (8 * 1.001 * (18 * n + 3)) := by rw [hT, hu]; ring
  rw [hb2] at hb
  rw [hc2] at hc
  have k : T * (23.5 * n + 1.003 * (28 * n + 8) + 8 * 1.001 * (18 * n + 3)) ≤ T * (196 * n + 33) :=
    mul_le_mul_of_nonneg_left (by linarith) hT0
  have e : T * (23.5 * n + 1.003 * (28 * n + 8) + 8 * 1.001 * (18 * n + 3)) = T * (23.5 * n) + T * (1.003 * (28 * n + 8)) + T * (8 * 1.001 * (18 * n + 3)) := by
    ring
  rw [e] at k
  clear hc2 hb2 e hT hu
  linarith

theorem sqrt2_pow_sq (n : Nat) : Real.sqrt 2 ^ n * Real.sqrt 2 ^ n = 2^n := by
  rw [← mul_pow, Real.mul_self_sqrt (by norm_num)]

theorem sqrt2_pred (hn1 : 1 ≤ n) : Real.sqrt 2 ^ (n-1) ≤ Real.sqrt 2 ^ n / 1.4142 := by
  obtain ⟨t, rfl⟩ : ∃ t, n = t + 1 := ⟨n - 1, by omega⟩
  rw [Nat.add_sub_cancel, le_div_iff₀ (by norm_num), pow_succ]
  exact mul_le_mul_of_nonneg_left le_sqrt2 (by positivity)

variable {LOGQ : Nat} [NeZero LOGQ]

set_option maxHeartbeats 1000000 in
/-- the measurement -/
theorem serial_measureF {L : Libm} (hL : L.Accurate) (hQ : ConvLOGQ LOGQ) (hQ29 : LOGQ ≤ 2^29) (hn1 : 1 ≤ n) (hn : n ≤ 16)
    (hq : 51 * (n+1) < LOGQ) {U : Fin n → Fac (n+1)} (hU : NearFactors (H := 2^n) U (adjR n)) {z : CVec (n+1)}
    (hz : ∀ i : Fin (2^n), ‖(⟨z.1 i, z.2 i⟩ : ℂ)‖ ≤ 1) {pt : R_Q LOGQ (2^(n+1))} (hpt : R_Q.Canonical pt)
    (hP : l2 (slots n (R_Q.sval pt) - (2:ℂ)^50 • toC (n := 2^n) z.1 z.2) ≤ Real.sqrt 2 ^ n * (18 * n + 3)) :
    Ok (rd U 0 >>= fun U0 => MsgF.mvpSparse z U0.1 U0.2 >>= fun Uz => forUp 1 n (fun i temp => rd U i >>= fun A => MsgF.mvpSparse temp A.1 A.2) Uz >>=
      fun Uz => ptMvpSparseF (LOGN := n+1) L pt U0 (BitVec.ofNat 64 (2^50)) >>= fun r => forUp 1 n (fun i temp => rd U i >>= fun A =>
        ptMvpSparseF (LOGN := n+1) L temp A (BitVec.ofNat 64 (2^50))) r >>= fun r => decode_logF (LOGN := n+1) L r (50 * (n+1) : Nat) >>= fun Zt =>
        MsgF.sub Uz Zt >>= fun e => MsgF.norm e) fun o => ∃ e : Fin n → Fin 3 → Fin (2^(n+1)) → ℝ,
      (∀ d k, ∃ m y : Fin (2^(n+1)) → ℝ, (∀ i : Fin (2^n), slotOf m i = ⟨(U d).1.vec k i, (U d).2.vec k i⟩) ∧
        Real.sqrt (∑ j, (y j - 2^50 * m j)^2) ≤ (28 * n + 7) / 8 ∧ ∀ j, ∃ a : Int, |(a:ℝ) - y j| ≤ 1/2 ∧ a = 2^50 * m j + e d k j) ∧
      |o - l2 ((seqMat (mats (H := 2^n) U) n).mulVec (toC (n := 2^n) z.1 z.2) - roundedSeq U (2^50) (toC (n := 2^n) z.1 z.2) e n)| ≤
        2^n * (196 * n + 40) / 2^53 + 1/2^500 ∧
      l2 ((seqMat (mats (H := 2^n) U) n).mulVec (toC (n := 2^n) z.1 z.2) - roundedSeq U (2^50) (toC (n := 2^n) z.1 z.2) e n) ≤
        ((Real.sqrt 2 + 1/2^39 + 3 * ((2^n + Real.sqrt 2 ^ n * (28 * n + 7) / 8) / 2^50))^n - (Real.sqrt 2 + 1/2^39)^n) * l2 (toC (n := 2^n) z.1 z.2) := by
  have hu := uF_pos.le
  have hη := etaF_pos.le
  have hn0 : (0:ℝ) ≤ n := Nat.cast_nonneg _
  have hn' : (n:ℝ) ≤ 16 := by exact_mod_cast hn
  have hs0 : 0 ≤ Real.sqrt 2 ^ n := by positivity
  have hs1 : 1 ≤ Real.sqrt 2 ^ n := one_le_pow₀ (by have := le_sqrt2; linarith)
  have hs8 := sqrt2_pow_le8 hn
  have hss := sqrt2_pow_sq n
  have hn16' : (2:ℝ)^n ≤ 2^16 := pow_le_pow_right₀ (by norm_num) hn
  have hN0 : (0:ℝ) < 2^n := by positivity
  obtain ⟨S, hS⟩ : ∃ S : ℝ, S = Real.sqrt 2 + 1/2^39 := ⟨_, rfl⟩
  have hS1 : 1 ≤ S := by rw [hS]; have := le_sqrt2; linarith
  have hS0 : 0 ≤ S := by linarith
  obtain ⟨c, hc⟩ : ∃ c : ℝ, c = (2^n + Real.sqrt 2 ^ n * (28 * n + 7) / 8) / 2^50 := ⟨_, rfl⟩
  have hc0 : 0 ≤ c := by rw [hc]; positivity
  have hc1 : 3 * c ≤ 1/2^32 := by
    have h1 : Real.sqrt 2 ^ n * (28 * n + 7) ≤ 2^8 * 455 := mul_le_mul hs8 (by linarith) (by positivity) (by norm_num)
    rw [hc]
    linarith
  obtain ⟨κ, hκ⟩ : ∃ κ : ℝ, κ = 33.1 * uF := ⟨_, rfl⟩
  have hκ0 : 0 ≤ κ := by rw [hκ]; linarith
  have hκ1 : κ ≤ 1/2^32 := by rw [hκ, uF_eq]; norm_num
  have hSc : S + 3 * c ≤ Real.sqrt 2 + 1/2^30 := by rw [hS]; linarith
  have hSκ : S + κ ≤ Real.sqrt 2 + 1/2^30 := by rw [hS]; linarith
  have hop := U0F_op hn hU
  rw [← hS] at hop
  have hent := U0F_entry hU
  have hoff : ∀ d, (U d).1.off = (U d).2.off := fun d => (hU.prod d).offEq
  obtain ⟨zc, hzc⟩ : ∃ zc : Fin (2^n) → ℂ, zc = toC (n := 2^n) z.1 z.2 := ⟨_, rfl⟩
  have hz1 : ∀ i, ‖zc i‖ ≤ 1 := fun i => by rw [hzc]; exact hz i
  have hzl : l2 zc ≤ Real.sqrt 2 ^ n := by have := l2_sup hz1; rwa [mul_one] at this
  rw [← hzc] at hP ⊢
  have hzl0 := l2_nonneg zc
  -- the encodings of the diagonals
  have henc : ∀ d k, ∃ (p : R_Q LOGQ (2^(n+1))) (m : Fin (2^(n+1)) → ℝ), encodeF L LOGQ (LOGN := n+1) ((U d).1.vec k, (U d).2.vec k) (BitVec.ofNat 64 (2^50)) = pure p ∧
      R_Q.Canonical p ∧ (∀ i : Fin (2^n), slotOf m i = ⟨(U d).1.vec k i, (U d).2.vec k i⟩) ∧
      (∃ y : Fin (2^(n+1)) → ℝ, Real.sqrt (∑ j, (y j - 2^50 * m j)^2) ≤ (28 * n + 7) / 8 ∧ ∀ j, |((R_Q.sval p j : ℤ) : ℝ) - y j| ≤ 1/2) ∧
      ∀ i : Fin (2^n), ‖slotOf (fun j => ((R_Q.sval p j : ℤ) : ℝ) - 2^50 * m j) i‖ ≤ c * 2^50 := by
    intro d k
    obtain ⟨p, ep, hp, m, y, hm, hy, hpy, hsl⟩ := encode_diagF (LOGQ := LOGQ) hL hn1 hn (by omega) ((U d).1.vec k, (U d).2.vec k) (hent d k)
    refine ⟨p, m, ep, hp, hm, ⟨y, hy, hpy⟩, fun i => (hsl i).trans (le_of_eq ?_)⟩
    rw [hc]
    field_simp
  choose p m ep hp hm hy hsl using henc
  obtain ⟨e, he⟩ : ∃ e : Fin n → Fin 3 → Fin (2^(n+1)) → ℝ, e = fun d k j => ((R_Q.sval (p d k) j : ℤ) : ℝ) - 2^50 * m d k j := ⟨_, rfl⟩
  have hse : ∀ d k (i : Fin (2^n)), ‖slotOf (e d k) i‖ ≤ c * 2^50 := fun d k i => by rw [he]; exact hsl d k i
  have hsp : ∀ d k (i : Fin (2^n)), slots n (R_Q.sval (p d k)) i = 2^50 * ⟨(U d).1.vec k i, (U d).2.vec k i⟩ + slotOf (e d k) i := by
    intro d k i
    have h1 := slotOf_add (fun j => m d k j * 2^50) (e d k) i
    have h2 : (fun j => m d k j * 2^50 + e d k j) = fun j => ((R_Q.sval (p d k) j : ℤ) : ℝ) := by funext j; rw [he]; ring
    rw [h2, slotOf_smul, hm] at h1
    push_cast at h1
    unfold slots
    rw [h1]
    ring
  -- the encoded message
  obtain ⟨π, hπ⟩ : ∃ π : Fin (2^n) → ℂ, π = slots n (R_Q.sval pt) - (2:ℂ)^50 • zc := ⟨_, rfl⟩
  rw [← hπ] at hP
  obtain ⟨ϖ, hϖ⟩ : ∃ ϖ : Fin (2^n) → ℂ, ϖ = ((1:ℂ)/2^50) • π := ⟨_, rfl⟩
  have hϖl : l2 ϖ ≤ 1/2^50 * (Real.sqrt 2 ^ n * (18 * n + 3)) := by
    rw [hϖ, l2_smul, norm_div, norm_one, norm_pow, Complex.norm_ofNat]
    exact mul_le_mul_of_nonneg_left hP (by norm_num)
  have hw0 : ∀ i, slots n (R_Q.sval pt) i = (2^50)^(0+1) * roundedSeq U (2^50) (zc + ϖ) e 0 i := by
    intro i
    have h : roundedSeq U (2^50) (zc + ϖ) e 0 i = zc i + ϖ i := rfl
    rw [h, hϖ, hπ, Pi.smul_apply, Pi.sub_apply, Pi.smul_apply, smul_eq_mul, smul_eq_mul]
    ring
  have hwl : l2 (zc + ϖ) ≤ 1.001 * Real.sqrt 2 ^ n := by
    refine (l2_add_le _ _).trans ((add_le_add hzl hϖl).trans ?_)
    have : Real.sqrt 2 ^ n * (18 * n + 3) ≤ Real.sqrt 2 ^ n * 291 := mul_le_mul_of_nonneg_left (by linarith) hs0
    linarith
  have hpS : ∀ {x : ℝ} {d : Nat}, 0 ≤ x → x ≤ Real.sqrt 2 + 1/2^30 → d ≤ n → x^d ≤ 1.001 * Real.sqrt 2 ^ n := by
    intro x d hx0 hx hd
    refine (pow_near_sqrt2 hx0 hx (hd.trans hn)).trans (mul_le_mul_of_nonneg_left ?_ (by norm_num))
    exact pow_le_pow_right₀ (by have := le_sqrt2; linarith) hd
  have hwd : ∀ {d : Nat}, d ≤ n → l2 (roundedSeq U (2^50) (zc + ϖ) e d) ≤ 1.003 * 2^n := by
    intro d hd
    refine (roundedSeq_bound hS0 hc0 (by norm_num) hoff hop hse (zc + ϖ) hd).1.trans ?_
    refine (mul_le_mul (hpS (by linarith) hSc hd) hwl (l2_nonneg _) (by positivity)).trans ?_
    rw [← hss]
    have := mul_nonneg hs0 hs0
    linarith
  have hqd : ∀ {d : Nat}, d + 1 ≤ n + 1 → (2^50)^(d+1) * (1.003 * (2:ℝ)^n) < 2^(LOGQ-1) := by
    intro d hd
    have h1 : ((2:ℝ)^50)^(d+1) ≤ (2^50)^(n+1) := pow_le_pow_right₀ (by norm_num) hd
    have h2 : (1.003 * (2:ℝ)^n) < 2^(n+1) := by rw [pow_succ]; linarith
    refine lt_of_le_of_lt (mul_le_mul_of_nonneg_right h1 (by positivity)) (lt_of_lt_of_le (mul_lt_mul_of_pos_left h2 (by positivity)) ?_)
    rw [← pow_mul, ← pow_add]
    exact pow_le_pow_right₀ (by norm_num) (by omega)
  -- the products of messages
  have h0n : 0 < n := hn1
  rw [rd_of_lt U h0n, pure_bind]
  have hτ9 : (0:ℝ) ≤ 1/2^950 := by positivity
  have h950 : (1:ℝ)/2^950 ≤ 1/2^100 := one_div_le_one_div_of_le (by positivity) (pow_le_pow_right₀ (by norm_num) (by norm_num))
  have hmsg : ∀ {d : Nat} (hd : d < n) (t : CVec (n+1)),
      (l2 (toC (n := 2^n) t.1 t.2) ≤ (S + κ)^d * l2 zc + (2^d - 1) * (1/2^950) ∧
        l2 (toC (n := 2^n) t.1 t.2 - (seqMat (mats (H := 2^n) U) d).mulVec zc) ≤ ((S + κ)^d - S^d) * l2 zc + (2^d - 1) * (1/2^950)) →
      Ok (MsgF.mvpSparse (n := 2^n) t (U ⟨d, hd⟩).1 (U ⟨d, hd⟩).2) fun r =>
        l2 (toC (n := 2^n) r.1 r.2) ≤ (S + κ)^(d+1) * l2 zc + (2^(d+1) - 1) * (1/2^950) ∧
        l2 (toC (n := 2^n) r.1 r.2 - (seqMat (mats (H := 2^n) U) (d+1)).mulVec zc) ≤ ((S + κ)^(d+1) - S^(d+1)) * l2 zc + (2^(d+1) - 1) * (1/2^950) := by
    intro d hd t ht
    refine Ok.mono (mvpSparseF_l2 hn (hU.prod ⟨d, hd⟩) (hent ⟨d, hd⟩) t ?_) fun r hr => ?_
    · refine ht.1.trans ?_
      have h1 : (S + κ)^d * l2 zc ≤ (1.001 * 2^8) * 2^8 :=
        mul_le_mul ((hpS (by linarith) hSκ hd.le).trans (mul_le_mul_of_nonneg_left hs8 (by norm_num))) (hzl.trans hs8) hzl0 (by norm_num)
      have h2 : (2:ℝ)^d ≤ 2^16 := pow_le_pow_right₀ (by norm_num) (by omega)
      have h3 : ((2:ℝ)^d - 1) * (1/2^950) ≤ 2^16 * (1/2^100) := mul_le_mul (by linarith) h950 hτ9 (by norm_num)
      refine (add_le_add h1 h3).trans (by norm_num)
    · rw [← hκ] at hr
      have h2 := sqrt2_le
      exact mvp_stepF hS0 hκ0 (by linarith) hτ9 hop hd ht hr
  refine Ok.bind (hmsg h0n z ?_) fun t1 ht1 => ?_
  · rw [← hzc]
    constructor
    · simp
    · simp [seqMat, l2_zero]
  refine Ok.bind (forUp_inv (P := fun d (t : CVec (n+1)) => l2 (toC (n := 2^n) t.1 t.2) ≤ (S + κ)^d * l2 zc + (2^d - 1) * (1/2^950) ∧
        l2 (toC (n := 2^n) t.1 t.2 - (seqMat (mats (H := 2^n) U) d).mulVec zc) ≤ ((S + κ)^d - S^d) * l2 zc + (2^d - 1) * (1/2^950))
    (show 1 ≤ n from hn1) ht1 ?_) fun Uz hUz => ?_
  · intro d t _ hd ht
    rw [rd_of_lt U hd, pure_bind]
    exact hmsg hd t ht
  -- the products of plaintexts
  have hpts : ∀ {d : Nat} (hd : d < n) (t : R_Q LOGQ (2^(n+1))),
      (R_Q.Canonical t ∧ ∀ i, slots n (R_Q.sval t) i = (2^50)^(d+1) * roundedSeq U (2^50) (zc + ϖ) e d i) →
      Ok (ptMvpSparseF (LOGN := n+1) L t (U ⟨d, hd⟩) (BitVec.ofNat 64 (2^50))) fun r => R_Q.Canonical r ∧
        ∀ i, slots n (R_Q.sval r) i = (2^50)^(d+1+1) * roundedSeq U (2^50) (zc + ϖ) e (d+1) i := fun {d} hd t ht =>
    pt_stepF hQ hn1 hn hU.prod ep hp hsp hd (hwd hd) (hqd (by omega)) ht
  refine Ok.bind (hpts h0n pt ⟨hpt, hw0⟩) fun r1 hr1 => ?_
  refine Ok.bind (forUp_inv (P := fun d (t : R_Q LOGQ (2^(n+1))) => R_Q.Canonical t ∧
      ∀ i, slots n (R_Q.sval t) i = (2^50)^(d+1) * roundedSeq U (2^50) (zc + ϖ) e d i)
    (show 1 ≤ n from hn1) hr1 ?_) fun r hr => ?_
  · intro d t _ hd ht
    rw [rd_of_lt U hd, pure_bind]
    exact hpts hd t ht
  -- the decoded result
  obtain ⟨wn, hwn⟩ : ∃ wn, wn = roundedSeq U (2^50) (zc + ϖ) e n := ⟨_, rfl⟩
  have hwnl : l2 wn ≤ 1.003 * 2^n := by rw [hwn]; exact hwd le_rfl
  rw [← hwn] at hr
  have h2D : (2:ℝ)^(50 * (n+1)) = (2^50)^(n+1) := pow_mul _ _ _
  have hrk : ∀ k, |((r k).sval : ℝ)| ≤ 2^900 * 2^(50 * (n+1)) := fun k => by
    have := coeff_le_slots hn1 (by omega) (m := fun k => ((r k).sval : ℝ)) (B := (2^50)^(n+1) * 2^17) (fun i => by
      have e : slotOf (fun k => ((r k).sval : ℝ)) i = (2^50)^(n+1) * wn i := hr.2 i
      rw [e, norm_mul, norm_pow, norm_pow, Complex.norm_ofNat]
      refine mul_le_mul_of_nonneg_left (((le_l2 wn i).trans hwnl).trans ?_) (by positivity)
      linarith) k
    refine this.trans ?_
    rw [h2D, mul_comm]
    exact mul_le_mul_of_nonneg_right (pow_le_pow_right₀ (by norm_num) (by norm_num)) (by positivity)
  refine Ok.bind (decodeF_l2 (L := L) hL hn1 (by omega) hQ29 (D := 50 * (n+1)) (by omega) r hr.1 hrk) fun Zt hZ => ?_
  have hZs : (fun i : Fin (2^n) => slotOf (fun k => ((r k).sval : ℝ) / 2^(50 * (n+1))) i) = wn := by
    funext i
    have h3 := slotOf_smul (fun k => ((r k).sval : ℝ)) (1/2^(50 * (n+1))) i
    have e1 : (fun k => ((r k).sval : ℝ) / 2^(50 * (n+1))) = fun k => ((r k).sval : ℝ) * (1/2^(50 * (n+1))) := by funext k; ring
    have e2 : slotOf (fun k => ((r k).sval : ℝ)) i = (2^50)^(n+1) * wn i := hr.2 i
    rw [e1, h3, e2, h2D]
    push_cast
    have hne : ((2:ℂ)^50)^(n+1) ≠ 0 := pow_ne_zero _ (pow_ne_zero _ two_ne_zero)
    field_simp
  have hZ2 : l2 (toC (n := 2^n) Zt.1 Zt.2 - wn) ≤ (28 * n + 8) * uF * (1.003 * (Real.sqrt 2 ^ n * Real.sqrt 2 ^ n)) + Real.sqrt 2 ^ n * (2^40 * etaF) := by
    have e := slots_l2 (n := n) fun k => ((r k).sval : ℝ) / 2^(50 * (n+1))
    rw [hZs] at hZ e
    rw [mul_add, ← mul_assoc (Real.sqrt 2 ^ n), mul_comm (Real.sqrt 2 ^ n), mul_assoc _ (Real.sqrt 2 ^ n), ← e] at hZ
    refine hZ.trans (add_le_add (mul_le_mul_of_nonneg_left ?_ (by positivity)) le_rfl)
    rw [hss]
    exact hwnl
  -- the difference
  obtain ⟨τ, hτ⟩ : ∃ τ : ℝ, τ = 1/2^503 := ⟨_, rfl⟩
  have hτ0 : 0 ≤ τ := by rw [hτ]; positivity
  have t1 : (2^n - 1) * (1/2^950 : ℝ) ≤ 1/4 * τ := by
    rw [hτ]
    have h1 : ((2:ℝ)^n - 1) * (1/2^950) ≤ 2^16 * (1/2^950) := mul_le_mul_of_nonneg_right (by linarith) hτ9
    have h2 : (2:ℝ)^16 * (1/2^950) ≤ 1/2^900 := by
      rw [mul_one_div, div_le_div_iff₀ (by positivity) (by positivity), one_mul, ← pow_add]
      exact pow_le_pow_right₀ (by norm_num) (by norm_num)
    exact h1.trans (h2.trans tau_le)
  have t2 : Real.sqrt 2 ^ n * (2^40 * etaF) ≤ 1/4 * τ := by
    rw [hτ, ← mul_assoc]
    exact (tiny_le' (mul_le_mul_of_nonneg_right ((mul_le_mul_of_nonneg_right hs8 (by norm_num)).trans (by norm_num)) hη)).trans tau_le
  have hUn : l2 (toC (n := 2^n) Uz.1 Uz.2 - (seqMat (mats (H := 2^n) U) n).mulVec zc) ≤
      n * (33.1 * uF) * (1.001 * Real.sqrt 2 ^ (n-1)) * Real.sqrt 2 ^ n + 1/4 * τ := by
    refine hUz.2.trans (add_le_add ?_ t1)
    obtain ⟨t, ht⟩ : ∃ t, n = t + 1 := ⟨n - 1, by omega⟩
    have h1 := pow_sub_le hS0 (show S ≤ S + κ by linarith) t
    have h2 : (S + κ)^t ≤ 1.001 * Real.sqrt 2 ^ t := pow_near_sqrt2 (by linarith) hSκ (by omega)
    have h3 : (S + κ)^n - S^n ≤ n * (33.1 * uF) * (1.001 * Real.sqrt 2 ^ (n-1)) := by
      rw [← hκ]
      have e1 : n - 1 = t := by omega
      rw [e1]
      have e2 : (n:ℝ) = t + 1 := by rw [ht]; push_cast; ring
      rw [e2]
      have e3 : (S + κ)^n - S^n = (S + κ)^(t+1) - S^(t+1) := by rw [ht]
      rw [e3]
      rw [add_sub_cancel_left] at h1
      exact h1.trans (mul_le_mul_of_nonneg_left h2 (by positivity))
    exact mul_le_mul h3 hzl hzl0 (by positivity)
  have hπn : l2 (roundedSeq U (2^50) ϖ e n) ≤ 1.001 * Real.sqrt 2 ^ n * (1 / 2^50 * (Real.sqrt 2 ^ n * (18 * n + 3))) :=
    (roundedSeq_bound hS0 hc0 (by norm_num) hoff hop hse ϖ le_rfl).1.trans
      (mul_le_mul (hpS (by linarith) hSc le_rfl) hϖl (l2_nonneg _) (by positivity))
  obtain ⟨X, hX⟩ : ∃ X, X = (seqMat (mats (H := 2^n) U) n).mulVec zc - roundedSeq U (2^50) zc e n := ⟨_, rfl⟩
  have hXl : l2 X ≤ ((S + 3 * c)^n - S^n) * l2 zc := by
    have h1 := (roundedSeq_bound hS0 hc0 (show (0:ℝ) < 2^50 by norm_num) hoff hop hse zc le_rfl).2
    refine le_of_eq_of_le ?_ h1
    have e1 : X = (-1 : ℂ) • (roundedSeq U (2^50) zc e n - (seqMat (mats (H := 2^n) U) n).mulVec zc) := by
      rw [hX, neg_smul, one_smul]; abel
    rw [e1, l2_smul, norm_neg, norm_one, one_mul]
  obtain ⟨T, hT⟩ : ∃ T : ℝ, T = Real.sqrt 2 ^ n * Real.sqrt 2 ^ n * uF := ⟨_, rfl⟩
  have hT0 : 0 ≤ T := by rw [hT]; positivity
  have hT1 : T ≤ 1 := by
    rw [hT, hss, uF_eq]
    linarith
  have hdiff : l2 (toC (n := 2^n) Uz.1 Uz.2 - toC (n := 2^n) Zt.1 Zt.2 - X) ≤ T * (196 * n + 33) + τ := by
    have e1 : toC (n := 2^n) Uz.1 Uz.2 - toC (n := 2^n) Zt.1 Zt.2 - X = (toC (n := 2^n) Uz.1 Uz.2 - (seqMat (mats (H := 2^n) U) n).mulVec zc) +
        (-1 : ℂ) • (toC (n := 2^n) Zt.1 Zt.2 - wn) + (-1 : ℂ) • roundedSeq U (2^50) ϖ e n := by
      rw [hX, hwn, roundedSeq_add, neg_smul, one_smul, neg_smul, one_smul]; abel
    rw [e1]
    refine (l2_add_le _ _).trans ((add_le_add (l2_add_le _ _) le_rfl).trans ?_)
    rw [l2_smul, l2_smul, norm_neg, norm_one, one_mul, one_mul]
    refine (serial_arith (t := 1/4 * τ) hn0 hs0 uF_eq hT (sqrt2_pred hn1) hUn (hZ2.trans (add_le_add le_rfl t2)) hπn).trans ?_
    linarith
  have hX26 : l2 X ≤ T * 2^26 := by
    refine hXl.trans ?_
    obtain ⟨t, ht⟩ : ∃ t, n = t + 1 := ⟨n - 1, by omega⟩
    have h1 := pow_sub_le hS0 (show S ≤ S + 3 * c by linarith) t
    have h2 : (S + 3 * c)^t ≤ 1.001 * Real.sqrt 2 ^ n := hpS (by linarith) hSc (by omega)
    have h3 : (S + 3 * c)^n - S^n ≤ 16 * (1/2^32) * (1.001 * Real.sqrt 2 ^ n) := by
      have e3 : (S + 3 * c)^n - S^n = (S + 3 * c)^(t+1) - S^(t+1) := by rw [ht]
      rw [e3]
      rw [add_sub_cancel_left] at h1
      have e2 : (t:ℝ) + 1 ≤ 16 := by rw [ht] at hn'; push_cast at hn'; exact hn'
      exact h1.trans (mul_le_mul (mul_le_mul e2 hc1 (by linarith) (by norm_num)) h2 (by positivity) (by norm_num))
    refine (mul_le_mul h3 hzl hzl0 (by positivity)).trans ?_
    have e4 : 16 * (1/2^32) * (1.001 * Real.sqrt 2 ^ n) * Real.sqrt 2 ^ n = Real.sqrt 2 ^ n * Real.sqrt 2 ^ n * (16 * (1/2^32) * 1.001) := by ring
    rw [e4, hT, mul_assoc _ uF]
    refine mul_le_mul_of_nonneg_left ?_ (by positivity)
    rw [uF_eq]
    norm_num
  obtain ⟨ev, o, ee, eo, ho⟩ := sub_normF hn Uz Zt hT0 hT1 (show (0:ℝ) ≤ 196 * n + 33 by positivity) (by linarith) hτ hX26 hdiff
  rw [ee, pure_bind, eo]
  rw [← hc, ← hS]
  refine Ok.pure ⟨e, fun d k => ?_, ?_, ?_⟩
  · obtain ⟨y, hy1, hy2⟩ := hy d k
    refine ⟨m d k, y, hm d k, hy1, fun j => ⟨R_Q.sval (p d k) j, hy2 j, ?_⟩⟩
    rw [he]
    ring
  · rw [← hX]
    refine ho.trans (add_le_add ?_ le_rfl)
    rw [hT, hss, uF_eq]
    have h1 : (2:ℝ)^n * (1/2^53) * (196 * n + 33 + 1) ≤ 2^n * (1/2^53) * (196 * n + 40) := mul_le_mul_of_nonneg_left (by linarith) (by positivity)
    refine h1.trans (le_of_eq ?_)
    ring
  · rw [← hX]
    exact hXl

/-- C94: `measure_serial_matmul_error` in binary64 returns. `z` is the rounded test message and `U` are the matrices the program computes.
It prints √(3N/12)·‖z‖/Δ·√D·√2^(D-1) and √D times it up to the rounding errors of `double`, and the norm of the error that comes from the
rounding errors `e` of the encoded diagonals, up to `2^n(196n+40)` units of `2^-53`. `e` is what rounding to integers leaves of numbers `y`,
which are the scaled coefficients of the diagonals up to the errors of `ifft`. The norm is at most what operator norms give. -/
theorem C94_serial_matmul {L : LibmP} (hL : L.toLibm.Accurate) (hp : PowSmall L) (hQ : ConvLOGQ LOGQ) (hQ29 : LOGQ ≤ 2^29) (hn1 : 1 ≤ n)
    (hn : n ≤ 16) (hq : 51 * (n+1) < LOGQ) (A0 : Fin n → Fac (n+1)) :
    Ok (measure_serial_matmul_errorF L 50 LOGQ (n+1) A0) fun o => ∃ (z : Fin (2^n) → ℂ) (U : Fin n → Fac (n+1)) (e : Fin n → Fin 3 → Fin (2^(n+1)) → ℝ),
      (∀ i : Fin (2^n), ‖z i - ⟨(set_test_message (n+1)).1 i, (set_test_message (n+1)).2 i⟩‖ ≤
        2^n / 2^50 + Real.sqrt 2 ^ n * (56 * n + 19) / 2^53) ∧
      set_test_U0_matrixF L.toLibm (n+1) A0 = pure U ∧
      (∀ d : Fin n, RowNearC (denC (N := 2^n) (U d).1 (U d).2) (bfly (2^n) (2^(n-1-d)) (ctw n (n-1-d))).conjTranspose (36 / 2^53)) ∧
      |o.1 - Real.sqrt (3 * 2^(n+1) / 12) * l2 z / 2^50 * Real.sqrt n * Real.sqrt 2 ^ (n-1)| ≤ (1.1 * 2^n + 2 * n + 20) / 2^53 *
        (Real.sqrt (3 * 2^(n+1) / 12) * l2 z / 2^50 * Real.sqrt n * Real.sqrt 2 ^ (n-1)) + 1/2^380 ∧
      |o.2.1 - Real.sqrt n * (Real.sqrt (3 * 2^(n+1) / 12) * l2 z / 2^50 * Real.sqrt n * Real.sqrt 2 ^ (n-1))| ≤ (1.1 * 2^n + 2 * n + 20) / 2^53 *
        (Real.sqrt n * (Real.sqrt (3 * 2^(n+1) / 12) * l2 z / 2^50 * Real.sqrt n * Real.sqrt 2 ^ (n-1))) + 1/2^380 ∧
      (∀ d k, ∃ m y : Fin (2^(n+1)) → ℝ, (∀ i : Fin (2^n), slotOf m i = ⟨(U d).1.vec k i, (U d).2.vec k i⟩) ∧
        Real.sqrt (∑ j, (y j - 2^50 * m j)^2) ≤ (28 * n + 7) / 8 ∧ ∀ j, ∃ a : Int, |(a:ℝ) - y j| ≤ 1/2 ∧ a = 2^50 * m j + e d k j) ∧
      |o.2.2 - l2 ((seqMat (mats (H := 2^n) U) n).mulVec z - roundedSeq U (2^50) z e n)| ≤ 2^n * (196 * n + 40) / 2^53 + 1/2^500 ∧
      o.2.2 ≤ ((Real.sqrt 2 + 1/2^39 + 3 * ((2^n + Real.sqrt 2 ^ n * (28 * n + 7) / 8) / 2^50))^n - (Real.sqrt 2 + 1/2^39)^n) * l2 z +
        2^n * (196 * n + 40) / 2^53 + 1/2^500 := by
  unfold measure_serial_matmul_errorF
  rw [shl1_eq (by norm_num), pure_bind]
  obtain ⟨z, ez, p, hpz, -, hz⟩ := rounded_messageF hL hn1 hn
  obtain ⟨pt, ept, hpt, hP⟩ := encode_roundedF (LOGQ := LOGQ) hL hn1 hn (by omega) z p hpz fun i => (hz i).2
  have hn16 : 2^n ≤ 2^16 := Nat.pow_le_pow_right (by norm_num) hn
  have hn17 : 2^(n+1) ≤ 2^17 := Nat.pow_le_pow_right (by norm_num) (by omega)
  have hint : intM (3 * (2^(n+1) : Nat)) = pure ((3 * (2^(n+1) : Nat) : ℤ)) := by
    have h0 : (0 : ℤ) ≤ (2^(n+1) : Nat) := by positivity
    have h3 : ((2^(n+1) : Nat) : ℤ) ≤ 2^17 := by exact_mod_cast hn17
    exact intM_ok (by linarith) (by linarith)
  obtain ⟨zc, hzc⟩ : ∃ zc : Fin (2^n) → ℂ, zc = toC (n := 2^n) z.1 z.2 := ⟨_, rfl⟩
  have hzi : ∀ i : Fin (2^n), (⟨z.1 i, z.2 i⟩ : ℂ) = zc i := fun i => by rw [hzc]; rfl
  have hz1 : ∀ i, ‖zc i‖ ≤ 1 := fun i => by rw [← hzi]; exact (hz i).2
  have hzl : l2 zc ≤ 2^8 := by
    have := l2_sup hz1
    rw [mul_one] at this
    exact this.trans (sqrt2_pow_le8 hn)
  have hsq : ∑ i : Fin (2^n), ‖(⟨z.1 i, z.2 i⟩ : ℂ)‖^2 = ∑ i, ‖zc i‖^2 := sum_congr rfl fun i _ => by rw [hzi]
  obtain ⟨nz, enz, hnz0, hnz⟩ := C84_norm (n := 2^n) (by omega) z (by
    have h := l2_sq zc
    have h2 : l2 zc ^ 2 ≤ (2^8)^2 := pow_le_pow_left₀ (l2_nonneg _) hzl 2
    rw [h, ← hsq, ← pow_mul] at h2
    exact h2.trans (pow_le_pow_right₀ (by norm_num) (by norm_num)))
  have hnz' : Ra (l2 zc) (1.1 * 2^n + 5) (1/2^518) nz := by
    unfold Ra
    have e : Real.sqrt (∑ i : Fin (2^n), ‖(⟨z.1 i, z.2 i⟩ : ℂ)‖^2) = l2 zc := by rw [hsq]; rfl
    rw [e] at hnz
    refine hnz.trans (add_le_add (le_of_eq ?_) (one_div_le_one_div_of_le (by positivity) (pow_le_pow_right₀ (by norm_num) (by norm_num))))
    rw [uF_eq]
    push_cast
    ring
  obtain ⟨s2, q, s, x, d, x2, sD, x3, ex, b, e1, e2, e3, e4, e5, e6, e7, e8, e9, e10, hex, hb⟩ :=
    serial_expectedF hp hn1 hn (l2_nonneg zc) hzl hnz'
  obtain ⟨U, eU, hU⟩ := set_test_U0F_spec (L := L.toLibm) hL (n := n) (by omega) A0
  have et : ((3 * (2^(n+1) : Nat) : ℤ) : ℝ) = ((3 * 2^(n+1) : ℕ) : ℝ) := by push_cast; ring
  have hm := serial_measureF hL hQ hQ29 hn1 hn hq hU (fun i => (hz i).2) hpt hP
  rw [← hzc] at hm
  obtain ⟨o, eo, e, he, ho, hX⟩ := hm
  have eD : n + 1 - 1 = n := rfl
  simp only [eD]
  rw [ez, pure_bind, e1, pure_bind, hint, pure_bind, et, e2, pure_bind, e3, pure_bind, enz, pure_bind, e4, pure_bind, e5, pure_bind, e6, pure_bind,
    e7, pure_bind, e8, pure_bind, e9, pure_bind, pure_bind, e10, pure_bind, eU, pure_bind]
  refine ⟨(ex, b, o), ?_, zc, U, e, fun i => ?_, rfl, fun d => ?_, hex, hb, he, ho, ?_⟩
  · simp only [ept, pure_bind]
    have h2 : (pure (ex, b, o) : M (ℝ × ℝ × ℝ)) = pure o >>= fun o => pure (ex, b, o) := by rw [pure_bind]
    rw [h2, ← eo]
    simp only [bind_assoc]
  · have := (hz i).1
    rw [hzi] at this
    refine this.trans (le_of_eq ?_)
    rw [uF_eq]
    ring
  · refine (hU.near d).mono (le_of_eq ?_)
    rw [uF_eq]
    ring
  · have h1 := (abs_le.1 ho).2
    have h2 := (sub_le_iff_le_add'.1 h1).trans (add_le_add hX le_rfl)
    rw [add_assoc]
    exact h2

/-- The hypotheses hold for the parameters of section3.h at `LOGN = 15` and `LOGN = 16` and for correctly rounded library functions. -/
example (n : Nat) (hn : n = 14 ∨ n = 15) (A0 : Fin n → Fac (n+1)) :
    Ok (measure_serial_matmul_errorF exactLibmP 50 1450 (n+1) A0) fun o => ∃ z : Fin (2^n) → ℂ,
      o.2.2 ≤ ((Real.sqrt 2 + 1/2^39 + 3 * ((2^n + Real.sqrt 2 ^ n * (28 * n + 7) / 8) / 2^50))^n - (Real.sqrt 2 + 1/2^39)^n) * l2 z +
        2^n * (196 * n + 40) / 2^53 + 1/2^500 :=
  Ok.mono (C94_serial_matmul (LOGQ := 1450) exactLibmP_accurate.1 exactLibmP_small (Or.inr (by norm_num)) (by norm_num) (by omega) (by omega)
    (by omega) A0) fun _ ⟨z, _, _, _, _, _, _, _, _, _, h⟩ => ⟨z, h⟩

end

end EvalRound

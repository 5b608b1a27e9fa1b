import Verif.Proofs.FloatDesign

/-!
# C92: the design programs in binary64
-/

namespace EvalRound
variable {L : LibmD}

theorem npow_iv (LOGN k j : Nat) (h : 9 * LOGN = 8 * k + j) {a b : ℝ} (ha : a ≤ 1.0905^j) (hb : 1.0906^j ≤ b) :
    Iv (2^k * a) (2^k * b) (((2^LOGN : Nat) : ℝ)^(9/8 : ℝ)) := by
  obtain ⟨t, h1, h2, h8, ht⟩ := root8
  have e : ((2^LOGN : Nat) : ℝ)^(9/8 : ℝ) = 2^k * t^j := by
    rw [← h8, ← pow_mul, ← pow_add, ← h, ← ht]; push_cast
    rw [← Real.rpow_natCast, ← Real.rpow_mul (by norm_num)]; congr 1; ring
  rw [e]
  exact ⟨mul_le_mul_of_nonneg_left (ha.trans (pow_le_pow_left₀ (by norm_num) h1.le j)) (by positivity),
    mul_le_mul_of_nonneg_left ((pow_le_pow_left₀ (by linarith) h2.le j).trans hb) (by positivity)⟩

theorem sqrtN_iv (LOGN : Nat) {a b : ℝ} (h0 : 0 ≤ a) (h0' : 0 ≤ b) (h1 : a^2 ≤ 2^LOGN) (h2 : 2^LOGN ≤ b^2) :
    Iv a b (Real.sqrt ((2^LOGN : Nat) : ℝ)) := by
  refine Iv.sqrt (Iv.self _) h0 h0' ?_ ?_ <;> push_cast <;> assumption

/-- C92: with any `pow` and `log2` good to three digits, `design_delta_tilde` prints in binary64 the logarithms of C60, which
end_to_end_test.cpp and proposal.cpp use as `LOGDELTA_boot_tilde`. -/
theorem C92_design (hL : L.Loose) : designDeltaTildeF L 128 9 2 = pure (24, 22) ∧ designDeltaTildeF L 128 13 3 = pure (30, 25) ∧
    designDeltaTildeF L 128 17 4 = pure (35, 29) := by
  refine ⟨?_, ?_, ?_⟩
  · exact design4F (k := 23) (l := 21) hL (by norm_num) (by norm_num) (by norm_num) (by norm_num) (by norm_num) (by norm_num)
      (s₁ := 32.12) (s₂ := 34.08) (by norm_num) (by norm_num) (by norm_num) (by norm_num) (by norm_num)
      (p₁ := 2^10 * 1.0905) (p₂ := 2^10 * 1.0906) (by norm_num) (by norm_num) (npow_iv 9 10 1 (by norm_num) (by norm_num) (by norm_num))
      (w₁ := 22.62) (w₂ := 22.63) (by norm_num) (by norm_num) (sqrtN_iv 9 (by norm_num) (by norm_num) (by norm_num) (by norm_num))
      (by norm_num) (by norm_num) (by norm_num) (by norm_num)
  · exact design4F (k := 29) (l := 24) hL (by norm_num) (by norm_num) (by norm_num) (by norm_num) (by norm_num) (by norm_num)
      (s₁ := 57.91) (s₂ := 59.02) (by norm_num) (by norm_num) (by norm_num) (by norm_num) (by norm_num)
      (p₁ := 2^14 * 1.5421) (p₂ := 2^14 * 1.5429) (by norm_num) (by norm_num) (npow_iv 13 14 5 (by norm_num) (by norm_num) (by norm_num))
      (w₁ := 90.5) (w₂ := 90.52) (by norm_num) (by norm_num) (sqrtN_iv 13 (by norm_num) (by norm_num) (by norm_num) (by norm_num))
      (by norm_num) (by norm_num) (by norm_num) (by norm_num)
  · exact design4F (k := 34) (l := 28) hL (by norm_num) (by norm_num) (by norm_num) (by norm_num) (by norm_num) (by norm_num)
      (s₁ := 101.58) (s₂ := 102.23) (by norm_num) (by norm_num) (by norm_num) (by norm_num) (by norm_num)
      (p₁ := 2^19 * 1.0905) (p₂ := 2^19 * 1.0906) (by norm_num) (by norm_num) (npow_iv 17 19 1 (by norm_num) (by norm_num) (by norm_num))
      (w₁ := 362) (w₂ := 362.1) (by norm_num) (by norm_num) (sqrtN_iv 17 (by norm_num) (by norm_num) (by norm_num) (by norm_num))
      (by norm_num) (by norm_num) (by norm_num) (by norm_num)

/-- `pow` and `log2` without error -/
noncomputable def exactLibmD : LibmD := ⟨fun x y => x ^ y, Real.logb 2⟩

theorem exactLibmD_loose : exactLibmD.Loose :=
  ⟨fun x y hx _ _ _ => by
    have : 0 ≤ x ^ y := Real.rpow_nonneg (by linarith) y
    show |x ^ y - x ^ y| ≤ _
    rw [sub_self, abs_zero]; positivity, fun x _ _ => by
    show |Real.logb 2 x - Real.logb 2 x| ≤ _
    rw [sub_self, abs_zero]; norm_num⟩

/-- a `pow` that is always low by one part in two thousand, so that `(int) pow(3, G)` is not the power -/
noncomputable def lowLibmD : LibmD := ⟨fun x y => x ^ y * (1 - 1/2000), Real.logb 2⟩

theorem lowLibmD_loose : lowLibmD.Loose :=
  ⟨fun x y hx _ _ _ => by
    have h : 0 ≤ x ^ y := Real.rpow_nonneg (by linarith) y
    show |x ^ y * (1 - 1/2000) - x ^ y| ≤ _
    rw [show x ^ y * (1 - 1/2000) - x ^ y = -(x ^ y / 2000) by ring, abs_neg, abs_of_nonneg (by positivity)]
    linarith, exactLibmD_loose.2⟩

/-- The hypothesis holds for exact functions, and for a `pow` with which the program works on 8 instead of 9 diagonals. -/
example : designDeltaTildeF exactLibmD 128 9 2 = pure (24, 22) ∧ truncInt (lowLibmD.pow 3 (2:Nat)) = pure 8 ∧
    designDeltaTildeF lowLibmD 128 9 2 = pure (24, 22) := by
  refine ⟨(C92_design exactLibmD_loose).1, ?_, (C92_design lowLibmD_loose).1⟩
  have e : lowLibmD.pow 3 ((2:Nat):ℝ) = 9 * (1 - 1/2000) := by
    show (3:ℝ)^((2:Nat):ℝ) * (1 - 1/2000) = _
    rw [Real.rpow_natCast]; norm_num
  rw [e]
  unfold truncInt
  rw [if_pos ⟨by norm_num, by norm_num⟩, if_pos (by norm_num)]
  congr 1
  rw [Int.floor_eq_iff]
  norm_num

/-! ## Lattigo -/

theorem zAmbF_iv : Ok zAmbF (Iv (725.9 * 2^18) (726 * 2^18)) := by
  unfold zAmbF
  refine Ok.bind (fl_iv (a' := 181.015) (b' := 181.022) (Iv.sqrt (c := 181.018) (d := 181.02) (Iv.self _) (by norm_num) (by norm_num) (by norm_num) (by norm_num))
    (by norm_num) (by norm_num) (by norm_num) (by norm_num)) fun s hs => ?_
  refine Ok.bind (divF_iv (a' := 181.01 / 2^50) (b' := 181.023 / 2^50) hs (Iv.self _) (by norm_num) (by norm_num) (by norm_num) (by norm_num) (by norm_num) (by norm_num)) fun a ha => ?_
  refine Ok.bind (fl_iv (a' := 192.9999) (b' := 193.0001) (Iv.self _) (by norm_num) (by norm_num) (by norm_num) (by norm_num)) fun h hh => ?_
  refine Ok.bind (divF_iv (a' := 16.0832) (b' := 16.0834) hh (Iv.self _) (by norm_num) (by norm_num) (by norm_num) (by norm_num) (by norm_num) (by norm_num)) fun b hb => ?_
  refine Ok.bind (fl_iv (a' := 16.0831 * 2^60) (b' := 16.0835 * 2^60) (hb.mul (Iv.self _) (by norm_num) (by norm_num)) (by norm_num) (by norm_num) (by norm_num) (by norm_num)) fun b hb => ?_
  refine Ok.bind (fl_iv (a' := 16.083 * 2^120) (b' := 16.0836 * 2^120) (hb.mul (Iv.self _) (by norm_num) (by norm_num)) (by norm_num) (by norm_num) (by norm_num) (by norm_num)) fun b hb => ?_
  refine Ok.bind (fl_iv (a' := 16.0829 * 2^136) (b' := 16.0837 * 2^136) (hb.mul (Iv.self _) (by norm_num) (by norm_num)) (by norm_num) (by norm_num) (by norm_num) (by norm_num)) fun b hb => ?_
  refine Ok.bind (fl_iv (a' := 4.0103 * 2^68) (b' := 4.0105 * 2^68) (Iv.sqrt (c := 4.01034 * 2^68) (d := 4.01046 * 2^68) hb (by norm_num) (by norm_num) (by norm_num) (by norm_num))
    (by norm_num) (by norm_num) (by norm_num) (by norm_num)) fun b hb => ?_
  exact fl_iv (ha.mul hb (by norm_num) (by norm_num)) (by norm_num) (by norm_num) (by norm_num) (by norm_num)

/-- the norm of one factor: `sqrt(2) / pow(N, 1.0/15)` -/
theorem u0norm_iv (hL : L.Loose) : Ok (do
    let s ← fl (Real.sqrt 2)
    let y ← divF 1 ((16 - 1 : Nat) : ℝ)
    divF s (L.pow ((2^16 : Nat) : ℝ) y)) (Iv 0.6731 0.6773) := by
  refine Ok.bind (fl_iv (a' := 1.4142) (b' := 1.41423) (Iv.sqrt (c := 1.41421) (d := 1.41422) (Iv.self _) (by norm_num) (by norm_num) (by norm_num) (by norm_num))
    (by norm_num) (by norm_num) (by norm_num) (by norm_num)) fun s hs => ?_
  refine Ok.bind (divF_iv (a' := 1/15 - 1/16000) (b' := 1/15 + 1/16000) (Iv.self _) (Iv.self _) (by norm_num) (by norm_num) (by norm_num) (by norm_num) (by norm_num) (by norm_num)) fun y hy => ?_
  have hb : (2:ℝ)^(1/1000 : ℝ) < 1.002 := by
    have h3 : (2:ℝ) < 1.002^1000 := by
      have := one_add_mul_le_pow (a := (0.002:ℝ)) (by norm_num) 1000
      norm_num at this ⊢
      linarith
    have := Real.rpow_lt_rpow (by norm_num) h3 (show (0:ℝ) < 1/1000 by norm_num)
    rwa [← Real.rpow_natCast, ← Real.rpow_mul (by norm_num), show ((1000:Nat):ℝ) * (1/1000) = 1 by norm_num, Real.rpow_one] at this
  have hr : Iv 2.0945 2.0947 ((2:ℝ)^(16/15 : ℝ)) := by
    have e15 : ((2:ℝ)^(16/15 : ℝ))^15 = 2^16 := by
      rw [← Real.rpow_natCast, ← Real.rpow_mul (by norm_num)]; norm_num
    constructor
    · refine le_of_pow_le_pow_left₀ (n := 15) (by norm_num) (by positivity) ?_
      rw [e15]; norm_num
    · refine le_of_pow_le_pow_left₀ (n := 15) (by norm_num) (by norm_num) ?_
      rw [e15]; norm_num
  have hN : ∀ z : ℝ, ((2^16 : Nat) : ℝ)^z = (2:ℝ)^(16 * z) := fun z => by
    rw [show ((2^16 : Nat) : ℝ) = (2:ℝ)^(16:ℝ) by norm_num, ← Real.rpow_mul (by norm_num)]
  have hp : Iv (2.0945 / 1.002) (2.0947 * 1.002) (((2^16 : Nat) : ℝ)^y) := by
    rw [hN]
    constructor
    · refine le_trans ?_ (Real.rpow_le_rpow_of_exponent_le (by norm_num) (show 16/15 - 1/1000 ≤ 16 * y by linarith [hy.1]))
      rw [Real.rpow_sub (by norm_num)]
      exact div_le_div₀ (by positivity) hr.1 (by positivity) hb.le
    · refine le_trans (Real.rpow_le_rpow_of_exponent_le (by norm_num) (show 16 * y ≤ 16/15 + 1/1000 by linarith [hy.2])) ?_
      rw [Real.rpow_add (by norm_num)]
      exact mul_le_mul hr.2 hb.le (by positivity) (by norm_num)
  have hq := pow_iv hL (x := ((2^16 : Nat) : ℝ)) (y := y) (by norm_num) (by norm_num) (by linarith [hy.1]) (by linarith [hy.2]) hp
  exact divF_iv hs hq (by norm_num) (by norm_num) (by norm_num) (by norm_num) (by norm_num) (by norm_num)

theorem anorm_iv (hL : L.Loose) {u : ℝ} (hu : Iv 0.6731 0.6773 u) : Iv 0.205 0.2107 (L.pow u ((4:Nat):ℝ)) ∧ Iv 0.3046 0.3111 (L.pow u ((3:Nat):ℝ)) := by
  have h0 : (0:ℝ) ≤ u := by linarith [hu.1]
  constructor
  · have h : Iv (0.6731^4) (0.6773^4) (u ^ ((4:Nat):ℝ)) := by
      rw [Real.rpow_natCast]
      exact ⟨pow_le_pow_left₀ (by norm_num) hu.1 4, pow_le_pow_left₀ h0 hu.2 4⟩
    exact (pow_iv hL (by linarith [hu.1]) (by linarith [hu.2]) (by norm_num) (by norm_num) h).mono (by norm_num) (by norm_num)
  · have h : Iv (0.6731^3) (0.6773^3) (u ^ ((3:Nat):ℝ)) := by
      rw [Real.rpow_natCast]
      exact ⟨pow_le_pow_left₀ (by norm_num) hu.1 3, pow_le_pow_left₀ h0 hu.2 3⟩
    exact (pow_iv hL (by linarith [hu.1]) (by linarith [hu.2]) (by norm_num) (by norm_num) h).mono (by norm_num) (by norm_num)

theorem forUp4 {σ : Type} (f : Nat → σ → M σ) (s : σ) :
    forUp 0 4 f s = f 0 s >>= fun a => f 1 a >>= fun b => f 2 b >>= fun c => f 3 c >>= fun d => pure d := rfl

theorem step_iv {a b c d a' b' x y : ℝ} (hx : Iv a b x) (hy : Iv c d y) (ha : 1/2^80 ≤ a) (hb : b ≤ 2^80) (hc : 1/2^80 ≤ c) (hd : d ≤ 2^80)
    (ha' : a' ≤ a * c * (1 - 1/2^40)) (hb' : b * d * (1 + 1/2^40) ≤ b') : Ok (fl (x * y)) (Iv a' b') := by
  have h1 : (0:ℝ) < 1/2^80 := by positivity
  refine fl_iv (hx.mul hy (h1.le.trans ha) (h1.le.trans hc)) ?_ ?_ ha' hb'
  · refine le_trans ?_ (mul_le_mul ha hc h1.le (h1.le.trans ha)); norm_num
  · refine (mul_le_mul hb hd (h1.le.trans (hc.trans (hy.1.trans hy.2))) (by positivity)).trans ?_; norm_num

theorem normConstF_iv {A : Fin 4 → ℝ} (h0 : Iv 0.205 0.2107 (A 0)) (h1 : Iv 0.205 0.2107 (A 1)) (h2 : Iv 0.205 0.2107 (A 2))
    (h3 : Iv 0.3046 0.3111 (A 3)) {i : Nat} (hi : i < 4) :
    Ok (normConstF A i) (if i = 3 then Iv 0.0086 0.00936 else Iv 0.01279 0.01382) := by
  have r0 : rd A 0 = pure (A 0) := rfl
  have r1 : rd A 1 = pure (A 1) := rfl
  have r2 : rd A 2 = pure (A 2) := rfl
  have r3 : rd A 3 = pure (A 3) := rfl
  unfold normConstF
  rw [forUp4]
  interval_cases i
  · simp only [if_true, pure_bind, r1, r2, r3, bind_pure, show ¬ (0:Nat) = 1 by decide, show ¬ (0:Nat) = 2 by decide, show ¬ (0:Nat) = 3 by decide, if_false]
    refine Ok.bind (step_iv (a' := 0.20499) (b' := 0.21071) (Iv.self 1) h1 (by norm_num) (by norm_num) (by norm_num) (by norm_num) (by norm_num) (by norm_num)) fun x hx => ?_
    refine Ok.bind (step_iv (a' := 0.04202) (b' := 0.044398) hx h2 (by norm_num) (by norm_num) (by norm_num) (by norm_num) (by norm_num) (by norm_num)) fun x hx => ?_
    exact step_iv hx h3 (by norm_num) (by norm_num) (by norm_num) (by norm_num) (by norm_num) (by norm_num)
  · simp only [if_true, pure_bind, r0, r2, r3, bind_pure, show ¬ (1:Nat) = 0 by decide, show ¬ (1:Nat) = 2 by decide, show ¬ (1:Nat) = 3 by decide, if_false]
    refine Ok.bind (step_iv (a' := 0.20499) (b' := 0.21071) (Iv.self 1) h0 (by norm_num) (by norm_num) (by norm_num) (by norm_num) (by norm_num) (by norm_num)) fun x hx => ?_
    refine Ok.bind (step_iv (a' := 0.04202) (b' := 0.044398) hx h2 (by norm_num) (by norm_num) (by norm_num) (by norm_num) (by norm_num) (by norm_num)) fun x hx => ?_
    exact step_iv hx h3 (by norm_num) (by norm_num) (by norm_num) (by norm_num) (by norm_num) (by norm_num)
  · simp only [if_true, pure_bind, r0, r1, r3, bind_pure, show ¬ (2:Nat) = 0 by decide, show ¬ (2:Nat) = 1 by decide, show ¬ (2:Nat) = 3 by decide, if_false]
    refine Ok.bind (step_iv (a' := 0.20499) (b' := 0.21071) (Iv.self 1) h0 (by norm_num) (by norm_num) (by norm_num) (by norm_num) (by norm_num) (by norm_num)) fun x hx => ?_
    refine Ok.bind (step_iv (a' := 0.04202) (b' := 0.044398) hx h1 (by norm_num) (by norm_num) (by norm_num) (by norm_num) (by norm_num) (by norm_num)) fun x hx => ?_
    exact step_iv hx h3 (by norm_num) (by norm_num) (by norm_num) (by norm_num) (by norm_num) (by norm_num)
  · simp only [if_true, pure_bind, r0, r1, r2, bind_pure, show ¬ (3:Nat) = 0 by decide, show ¬ (3:Nat) = 1 by decide, show ¬ (3:Nat) = 2 by decide, if_false]
    refine Ok.bind (step_iv (a' := 0.20499) (b' := 0.21071) (Iv.self 1) h0 (by norm_num) (by norm_num) (by norm_num) (by norm_num) (by norm_num) (by norm_num)) fun x hx => ?_
    refine Ok.bind (step_iv (a' := 0.04202) (b' := 0.044398) hx h1 (by norm_num) (by norm_num) (by norm_num) (by norm_num) (by norm_num) (by norm_num)) fun x hx => ?_
    exact step_iv hx h2 (by norm_num) (by norm_num) (by norm_num) (by norm_num) (by norm_num) (by norm_num)

theorem pA_iv {δ : ℝ} (hδ : 1/2^60 ≤ δ) (hδ1 : δ ≤ 1) {d lo hi : Int} {c e : ℝ} (h1 : lo ≤ d) (h2 : d ≤ hi) (hlo : 0 ≤ lo) (hhi : hi ≤ 81)
    (hc : 1 ≤ c) (he : e ≤ 1000) (hc2 : (c * 1.00001)^2 ≤ lo * 2^16 / 12 * 0.999999) (he2 : hi * 2^16 / 12 * 1.000001 ≤ (e * 0.99999)^2) (he0 : 0 ≤ e) (hlo1 : 1 ≤ lo) :
    Ok (do
      let x ← intM (d * (2^16 : Nat))
      let x ← divF (x : ℝ) 12
      let x ← fl (Real.sqrt x)
      divF x δ⁻¹) (Iv (c * δ) (e * δ)) := by
  have e2 : intM (d * (2^16 : Nat)) = pure (d * (2^16 : Nat)) := by
    unfold intM
    rw [if_pos]
    constructor <;> norm_num <;> omega
  rw [e2, pure_bind]
  have h1' : (lo:ℝ) ≤ d := by exact_mod_cast h1
  have h2' : (d:ℝ) ≤ hi := by exact_mod_cast h2
  have h3' : (1:ℝ) ≤ lo := by exact_mod_cast hlo1
  have h4' : (hi:ℝ) ≤ 81 := by exact_mod_cast hhi
  have hx : Iv (lo * 2^16) (hi * 2^16) ((d * (2^16 : Nat) : Int) : ℝ) := by
    constructor <;> push_cast <;> linarith
  have hec : c ≤ e ∨ True := Or.inr trivial
  refine Ok.bind (divF_iv (a' := lo * 2^16 / 12 * 0.999999) (b' := hi * 2^16 / 12 * 1.000001) hx (Iv.self 12) (by linarith) (by norm_num) (by linarith)
    (by linarith) (by linarith) (by linarith)) fun x hx => ?_
  have hs := Iv.sqrt (c := c * 1.00001) (d := e * 0.99999) hx (by linarith) (by linarith) hc2 he2
  refine Ok.bind (fl_iv (a' := c * 1.000005) (b' := e * 0.999995) hs (by linarith) (by linarith) (by linarith) (by linarith)) fun s hs => ?_
  have h0 : 0 < δ := lt_of_lt_of_le (by norm_num) hδ
  unfold divF
  rw [if_neg (inv_ne_zero h0.ne'), div_inv_eq_mul]
  have hce := hs.1.trans hs.2
  have k1 : 1/2^60 ≤ c * δ := hδ.trans (le_mul_of_one_le_left h0.le hc)
  have k2 : e * δ ≤ 1000 := by nlinarith
  have k3 : 0 ≤ e * δ := by positivity
  have hm := hs.mul (Iv.self δ) (by linarith) h0.le
  rw [show c * 1.000005 * δ = c * δ * 1.000005 by ring, show e * 0.999995 * δ = e * δ * 0.999995 by ring] at hm
  exact fl_iv hm (by linarith) (by linarith) (by linarith) (by linarith)

/-- the number printed as the expected error -/
theorem lattigo_iv (hL : L.Loose) {δ : ℝ} (hδ : 1/2^60 ≤ δ) (hδ1 : δ ≤ 1) :
    Ok (lattigoErrorF L δ⁻¹) (Iv (0.0122 * 2^34 * δ) (0.0136 * 2^34 * δ)) := by
  have h0 : 0 < δ := lt_of_lt_of_le (by norm_num) hδ
  obtain ⟨u, eu, hu⟩ := u0norm_iv hL
  obtain ⟨s, es, eu⟩ := bind_eq_pure eu
  obtain ⟨y, ey, eu⟩ := bind_eq_pure eu
  obtain ⟨hA4, hA3⟩ := anorm_iv hL hu
  unfold lattigoErrorF
  refine Ok.bind zAmbF_iv fun z hz => ?_
  dsimp only
  refine Ok.bind (tabM_spec (P := fun i d => if i = 3 then (26:Int) ≤ d ∧ d ≤ 27 else 80 ≤ d ∧ d ≤ 81) fun i hi => ?_) fun Dg hD => ?_
  · rw [rd_of_lt _ hi, pure_bind]
    have h4 := diag_iv hL (show 4 ≤ 4 by norm_num)
    have h3 := diag_iv hL (show 3 ≤ 4 by norm_num)
    norm_num only at h4 h3
    interval_cases i
    · exact h4
    · exact h4
    · exact h4
    · exact h3
  have hD0 : (80:Int) ≤ Dg 0 ∧ Dg 0 ≤ 81 := hD 0
  have hD1 : (80:Int) ≤ Dg 1 ∧ Dg 1 ≤ 81 := hD 1
  have hD2 : (80:Int) ≤ Dg 2 ∧ Dg 2 ≤ 81 := hD 2
  have hD3 : (26:Int) ≤ Dg 3 ∧ Dg 3 ≤ 27 := hD 3
  refine Ok.bind (tabM_spec (P := fun i p => if i = 3 then Iv (376.7 * δ) (384.1 * δ) p else Iv (660.9 * δ) (665.2 * δ) p) fun i hi => ?_) fun pA hpA => ?_
  · rw [rd_of_lt _ hi, pure_bind]
    have g : ∀ d : Int, (80:Int) ≤ d ∧ d ≤ 81 → _ := fun d hd => pA_iv (c := 660.9) (e := 665.2) hδ hδ1 hd.1 hd.2 (by norm_num) (by norm_num) (by norm_num)
      (by norm_num) (by norm_num) (by norm_num) (by norm_num) (by norm_num)
    interval_cases i
    · exact g _ hD0
    · exact g _ hD1
    · exact g _ hD2
    · exact pA_iv (c := 376.7) (e := 384.1) hδ hδ1 hD3.1 hD3.2 (by norm_num) (by norm_num) (by norm_num) (by norm_num) (by norm_num) (by norm_num) (by norm_num) (by norm_num)
  have hp0 : Iv (660.9 * δ) (665.2 * δ) (pA 0) := hpA 0
  have hp1 : Iv (660.9 * δ) (665.2 * δ) (pA 1) := hpA 1
  have hp2 : Iv (660.9 * δ) (665.2 * δ) (pA 2) := hpA 2
  have hp3 : Iv (376.7 * δ) (384.1 * δ) (pA 3) := hpA 3
  rw [es, pure_bind, ey, pure_bind, eu, pure_bind]
  refine Ok.bind (tabM_spec (P := fun i p => if i = 3 then Iv 0.3046 0.3111 p else Iv 0.205 0.2107 p) fun i hi => ?_) fun A hA => ?_
  · rw [rd_of_lt _ hi, pure_bind]
    interval_cases i
    · exact Ok.pure hA4
    · exact Ok.pure hA4
    · exact Ok.pure hA4
    · exact Ok.pure hA3
  have hA0 : Iv 0.205 0.2107 (A 0) := hA 0
  have hA1 : Iv 0.205 0.2107 (A 1) := hA 1
  have hA2 : Iv 0.205 0.2107 (A 2) := hA 2
  have hA3 : Iv 0.3046 0.3111 (A 3) := hA 3
  have hc := fun i hi => normConstF_iv hA0 hA1 hA2 hA3 (i := i) hi
  have hk : 0 ≤ δ := h0.le
  refine Ok.bind (P := Iv (28.59 * δ) (31.2 * δ)) ?_ fun t ht => ?_
  · rw [forUp4]
    refine Ok.bind (P := Iv (8.452 * δ) (9.194 * δ)) ?_ fun x hx => Ok.bind (P := Iv (16.904 * δ) (18.388 * δ)) ?_ fun y hy =>
      Ok.bind (P := Iv (25.356 * δ) (27.582 * δ)) ?_ fun z hz => Ok.bind (P := Iv (28.59 * δ) (31.2 * δ)) ?_ fun w hw => Ok.pure hw
    · refine Ok.bind (hc 0 (by norm_num)) fun m hm => ?_
      rw [if_neg (by norm_num)] at hm
      rw [show rd pA 0 = pure (pA 0) from rfl, pure_bind]
      refine Ok.bind (step_iv (a' := 8.4525 * δ) (b' := 9.1935 * δ) hp0 hm (by linarith) (by linarith) (by norm_num) (by norm_num) (by linarith) (by linarith)) fun x hx => ?_
      rw [zero_add]
      exact fl_iv hx (by linarith) (by linarith) (by linarith) (by linarith)
    · refine Ok.bind (hc 1 (by norm_num)) fun m hm => ?_
      rw [if_neg (by norm_num)] at hm
      rw [show rd pA 1 = pure (pA 1) from rfl, pure_bind]
      refine Ok.bind (step_iv (a' := 8.4525 * δ) (b' := 9.1935 * δ) hp1 hm (by linarith) (by linarith) (by norm_num) (by norm_num) (by linarith) (by linarith)) fun q hq => ?_
      exact fl_iv (a := 16.9045 * δ) (b := 18.3875 * δ) ⟨by linarith [hx.1, hq.1], by linarith [hx.2, hq.2]⟩ (by linarith) (by linarith) (by linarith) (by linarith)
    · refine Ok.bind (hc 2 (by norm_num)) fun m hm => ?_
      rw [if_neg (by norm_num)] at hm
      rw [show rd pA 2 = pure (pA 2) from rfl, pure_bind]
      refine Ok.bind (step_iv (a' := 8.4525 * δ) (b' := 9.1935 * δ) hp2 hm (by linarith) (by linarith) (by norm_num) (by norm_num) (by linarith) (by linarith)) fun q hq => ?_
      exact fl_iv (a := 25.3565 * δ) (b := 27.5815 * δ) ⟨by linarith [hy.1, hq.1], by linarith [hy.2, hq.2]⟩ (by linarith) (by linarith) (by linarith) (by linarith)
    · refine Ok.bind (hc 3 (by norm_num)) fun m hm => ?_
      rw [if_pos rfl] at hm
      rw [show rd pA 3 = pure (pA 3) from rfl, pure_bind]
      refine Ok.bind (step_iv (a' := 3.239 * δ) (b' := 3.597 * δ) hp3 hm (by linarith) (by linarith) (by norm_num) (by norm_num) (by linarith) (by linarith)) fun q hq => ?_
      exact fl_iv (a := 28.595 * δ) (b := 31.179 * δ) ⟨by linarith [hz.1, hq.1], by linarith [hz.2, hq.2]⟩ (by linarith) (by linarith) (by linarith) (by linarith)
  refine Ok.bind (step_iv (a' := 20750 * 2^18 * δ) (b' := 22652 * 2^18 * δ) hz ht (by norm_num) (by norm_num) (by linarith) (by linarith) (by linarith) (by linarith)) fun e he => ?_
  refine Ok.bind (step_iv (a' := 41499 * 2^18 * δ) (b' := 45305 * 2^18 * δ) he (Iv.self 2) (by linarith) (by linarith) (by norm_num) (by norm_num) (by linarith) (by linarith)) fun e he => ?_
  refine Ok.bind (step_iv (a' := 207494 * 2^18 * δ) (b' := 226526 * 2^18 * δ) he (Iv.self 5) (by linarith) (by linarith) (by norm_num) (by norm_num) (by linarith) (by linarith)) fun e he => ?_
  refine Ok.bind (fl_iv (a' := 255) (b' := 257) (sqrtN_iv 16 (a := 256) (b := 256) (by norm_num) (by norm_num) (by norm_num) (by norm_num))
    (by norm_num) (by norm_num) (by norm_num) (by norm_num)) fun w hw => ?_
  exact divF_iv he hw (by linarith) (by norm_num) (by linarith) (by linarith) (by linarith) (by linarith)

/-- C92: at the scale 2^34 of Lattigo the expected error that the program prints in binary64 is under the goal it prints, at 2^33 it is
not. -/
theorem C92_lattigo (hL : L.Loose) : ∃ e34 e33 goal, lattigoErrorF L (2^34) = pure e34 ∧ lattigoErrorF L (2^33) = pure e33 ∧
    lattigoGoalF L = pure goal ∧ e34 < goal ∧ goal < e33 := by
  obtain ⟨e34, h34, i34⟩ := lattigo_iv hL (δ := 1/2^34) (by norm_num) (by norm_num)
  obtain ⟨e33, h33, i33⟩ := lattigo_iv hL (δ := 1/2^33) (by norm_num) (by norm_num)
  rw [one_div, inv_inv] at h34 h33
  have hg : Ok (lattigoGoalF L) (Iv 0.0156 0.0157) := by
    have hp := pow_iv hL (x := 2) (y := -15) (a := 1/2^15) (b := 1/2^15) (by norm_num) (by norm_num) (by norm_num) (by norm_num)
      (by rw [show (2:ℝ)^(-15:ℝ) = 1/2^15 by rw [Real.rpow_neg (by norm_num), one_div]; norm_num]; exact Iv.self _)
    unfold lattigoGoalF
    refine Ok.bind (step_iv (a' := 0.03121) (b' := 0.03129) hp (Iv.self (2^10)) (by norm_num) (by norm_num) (by norm_num) (by norm_num) (by norm_num) (by norm_num)) fun x hx => ?_
    exact divF_iv hx (Iv.self 2) (by norm_num) (by norm_num) (by norm_num) (by norm_num) (by norm_num) (by norm_num)
  obtain ⟨g, hg, ig⟩ := hg
  refine ⟨e34, e33, g, h34, h33, hg, ?_, ?_⟩
  · have := i34.2
    norm_num at this
    linarith [ig.1]
  · have := i33.1
    norm_num at this
    linarith [ig.2]

/-- The hypothesis of C92 holds for exact functions. -/
example : ∃ e34 goal, lattigoErrorF exactLibmD (2^34) = pure e34 ∧ lattigoGoalF exactLibmD = pure goal ∧ e34 < goal := by
  obtain ⟨e34, _, goal, h1, _, h2, h3, _⟩ := C92_lattigo exactLibmD_loose
  exact ⟨e34, goal, h1, h2, h3⟩

end EvalRound

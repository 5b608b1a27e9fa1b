import Verif.Proofs.CosApprox
import Verif.Props.Poly
import Verif.Spec.EvalMod

/-! # `EvalMod` -/

namespace EvalRound
open Z_Q Finset

variable {n : Nat}

/-! ## the cubic arcsine -/

theorem asin_deriv (θ : ℝ) : HasDerivAt (fun t => t - Real.sin t - Real.sin t ^ 3 / 6)
    ((1 - Real.cos θ)^2 * (2 + Real.cos θ) / 2) θ := by
  have h1 := ((hasDerivAt_id θ).sub (Real.hasDerivAt_sin θ)).sub (((Real.hasDerivAt_sin θ).pow 3).div_const 6)
  refine h1.congr_deriv ?_
  have h2 := Real.sin_sq_add_cos_sq θ
  have h3 : Real.sin θ ^ 2 = 1 - Real.cos θ ^ 2 := by linarith
  norm_num
  rw [h3]; ring

theorem asin_mono : Monotone fun t => t - Real.sin t - Real.sin t ^ 3 / 6 := by
  refine monotone_of_deriv_nonneg (fun t => (asin_deriv t).differentiableAt) fun t => ?_
  rw [(asin_deriv t).deriv]
  have := Real.neg_one_le_cos t
  have : 0 ≤ 2 + Real.cos t := by linarith
  positivity

theorem asin_mono' : Monotone fun t => 3/40 * t^5 - (t - Real.sin t - Real.sin t ^ 3 / 6) := by
  have hd : ∀ t : ℝ, HasDerivAt (fun t => 3/40 * t^5 - (t - Real.sin t - Real.sin t ^ 3 / 6))
      (3/40 * (5 * t^4) - (1 - Real.cos t)^2 * (2 + Real.cos t) / 2) t := by
    intro t
    have := ((hasDerivAt_pow 5 t).const_mul (3/40 : ℝ)).sub (asin_deriv t)
    refine this.congr_deriv ?_
    norm_num
  refine monotone_of_deriv_nonneg (fun t => (hd t).differentiableAt) fun t => ?_
  rw [(hd t).deriv]
  have h1 := Real.one_sub_sq_div_two_le_cos (x := t)
  have h2 := Real.cos_le_one t
  have h3 : (1 - Real.cos t)^2 ≤ (t^2/2)^2 := pow_le_pow_left₀ (by linarith) (by linarith) 2
  have h4 := Real.neg_one_le_cos t
  have h5 := mul_le_mul h3 (show 2 + Real.cos t ≤ 3 by linarith) (by linarith) (by positivity)
  nlinarith

theorem asin_err (θ : ℝ) : |θ - Real.sin θ - Real.sin θ ^ 3 / 6| ≤ 3/40 * |θ|^5 := by
  rcases le_total 0 θ with h | h
  · have a := asin_mono h
    have b := asin_mono' h
    simp only [Real.sin_zero] at a b
    rw [abs_of_nonneg h, abs_le]
    norm_num at a b
    constructor
    · have : 0 ≤ θ^5 := by positivity
      linarith
    · linarith
  · have a := asin_mono h
    have b := asin_mono' h
    simp only [Real.sin_zero] at a b
    rw [abs_of_nonpos h, abs_le]
    norm_num at a b
    have e : (-θ)^5 = -θ^5 := by ring
    rw [e]
    constructor
    · linarith
    · have : 0 ≤ (-θ)^5 := pow_nonneg (by linarith) 5
      rw [e] at this
      linarith

/-- the cubic arcsine of `sin(2πe)` is `e` up to a term of order five -/
theorem asin3_sin (e : ℝ) : |asin3 (Real.sin (2 * Real.pi * e)) - e| ≤ 3/40 * (2 * Real.pi)^4 * |e|^5 := by
  have h := asin_err (2 * Real.pi * e)
  have hp := Real.pi_pos
  have e1 : asin3 (Real.sin (2 * Real.pi * e)) - e =
      -(2 * Real.pi * e - Real.sin (2 * Real.pi * e) - Real.sin (2 * Real.pi * e) ^ 3 / 6) / (2 * Real.pi) := by
    unfold asin3; field_simp; ring
  rw [e1, abs_div, abs_neg, abs_of_pos (show 0 < 2 * Real.pi by positivity), div_le_iff₀ (by positivity)]
  refine h.trans (le_of_eq ?_)
  rw [abs_mul, abs_of_pos (show 0 < 2 * Real.pi by positivity)]; ring

/-! ## blocks -/

section
variable {LOGQ LF LT : Nat} [NeZero LOGQ] [NeZero LF] [NeZero LT]

omit [NeZero LOGQ] in
theorem Near.approx {s : Fin (2^(n+1)) → Int} {c : R_Q_square LOGQ (2^(n+1))} {x y : Fin (2^n) → ℂ} {ε δ η : ℝ}
    (h : Near s c x ε) (hx : ∀ i, ‖x i - y i‖ ≤ δ) (hη : ε + δ ≤ η) : Near s c y η := by
  obtain ⟨h1, w, h2, h3⟩ := h
  refine ⟨h1, w, h2, fun i => ?_⟩
  have e : slots n w i - y i = (slots n w i - x i) + (x i - y i) := by ring
  rw [e]
  exact (norm_add_le _ _).trans ((add_le_add (h3 i) (hx i)).trans hη)

/-- changing the constant coefficient -/
theorem Near.wr0 {s : Fin (2^(n+1)) → Int} {c : R_Q_square LOGQ (2^(n+1))} {x : Fin (2^n) → ℂ} {ε : ℝ} (hc : Near s c x ε)
    {f : Z_Q LOGQ → Z_Q LOGQ} {a : Int} (hf : ∀ z, (f z).Canonical ∧ (f z).cls = z.cls + (a : ZMod (2^LOGQ))) :
    Ok (do
      let x ← rd c.1 0
      let c1 ← wr c.1 0 (f x)
      pure ((c1, c.2) : R_Q_square LOGQ (2^(n+1)))) fun y => Near s y (fun i => x i + a) ε := by
  have h0 : 0 < 2^(n+1) := Nat.two_pow_pos _
  rw [rd_of_lt _ h0, pure_bind, wr_of_lt _ h0, pure_bind]
  obtain ⟨hc1, w, hw, hwe⟩ := hc
  refine Ok.pure ⟨⟨fun k => ?_, hc1.2⟩, w + Pi.single 0 a, ?_, fun i => ?_⟩
  · simp only [Function.update_apply]
    by_cases hk : k = ⟨0, h0⟩
    · rw [if_pos hk]; exact (hf _).1
    · rw [if_neg hk]; exact hc1.1 k
  · rw [red_add, ← hw, phase_eq, phase_eq]
    simp only []
    have : R_Q.cls (Function.update c.1 ⟨0, h0⟩ (f (c.1 ⟨0, h0⟩))) = R_Q.cls c.1 + red LOGQ (Pi.single 0 a) := by
      funext k
      simp only [R_Q.cls, red, Function.update_apply, Pi.add_apply]
      by_cases hk : k = ⟨0, h0⟩
      · subst hk
        rw [if_pos rfl, (hf _).2, show (⟨0, h0⟩ : Fin (2^(n+1))) = 0 from rfl, Pi.single_eq_same]
      · have hk' : k ≠ 0 := hk
        rw [if_neg hk, Pi.single_eq_of_ne hk']; simp
    rw [this]; abel
  · rw [slots_add, slots_single]
    have e : slots n w i + a - (x i + a) = slots n w i - x i := by ring
    rw [e]; exact hwe i

theorem divK_ok {LD : Nat} {D : W} (hD : D.toNat = 2^LD) {K : Int} (hK : 0 < K) : ∃ w : W, divK D K = pure w ∧
    |(w.toNat : ℝ) - 2^LD / K| ≤ 1 ∧ (w.toNat : ℝ) ≤ 2^LD / K := by
  have hKr : (1:ℝ) ≤ K := by exact_mod_cast hK
  have hDr : (D.toNat : ℝ) = 2^LD := by rw [hD]; push_cast; rfl
  have hpos : (0:ℝ) ≤ (D.toNat : ℝ) / K := by positivity
  have hlt : (D.toNat : ℝ) / K < 2^64 := by
    have h1 : (D.toNat : ℝ) < 2^64 := by exact_mod_cast D.isLt
    exact lt_of_le_of_lt (div_le_self (by positivity) hKr) h1
  obtain ⟨w, e, h1, h2⟩ := truncU64_ok (x := (D.toNat : ℝ) / K) (by linarith) hlt
  rw [abs_of_nonneg hpos] at h2
  refine ⟨w, ?_, ?_, ?_⟩
  · unfold divK; rw [if_neg (by omega), e]
  · rw [← hDr]; exact h1
  · rw [← hDr]; exact h2

theorem evalModStart_spec {LD : Nat} (hD : LD < 64) (hL : LF = LT + LD) {s : Fin (2^(n+1)) → Int} (hs : Ternary s)
    {K : Int} (hK : 0 < K) (hK' : 4 * K < 2^31) {ct : R_Q_square LF (2^(n+1))} {y : Fin (2^n) → ℝ} {ε : ℝ} (hε : 0 ≤ ε)
    (hct : Near s ct (fun i => 2^LD * (y i : ℂ)) ε) (hy : ∀ i, |(4 * y i - 1) / (4 * K)| ≤ 1) :
    Ok (evalModStart (Q1 := LT) LD K ct) fun c => Near s c (fun i => 2^LD * (((4 * y i - 1) / (4 * K) : ℝ) : ℂ))
      (startErr n (weight s) K ε) := by
  obtain ⟨D, eD, hDv⟩ := shl1_ok hD
  obtain ⟨w, ew, hw1, hw2⟩ := divK_ok hDv hK
  obtain ⟨q, eq, hq1, _⟩ := divK_ok hDv (show 0 < 4 * K by omega)
  have hKr : (1:ℝ) ≤ K := by exact_mod_cast hK
  have hp : (0:ℝ) < 2^LD := by positivity
  have hpc : (2:ℂ)^LD ≠ 0 := pow_ne_zero _ two_ne_zero
  have hd : LF - LT = LD := by omega
  unfold evalModStart
  rw [eD, pure_bind, ew, pure_bind]
  simp only []
  have hc1 : Near s (R_Q_square.mulW (R_Q_square.copy ct) w) _ _ := hct.mulW w
  have key := Near.rs (LF := LF) (LT := LT) (by omega) hs hc1 R_Q_square.setzero
  rw [hd] at key
  refine Ok.bind key fun c hc => ?_
  rw [show intM (4 * K) = pure (4 * K) by unfold intM; rw [if_pos ⟨by omega, hK'⟩], pure_bind, eq, pure_bind]
  refine Ok.mono (hc.wr0 (f := fun x => sub x (ofW q)) (a := -(q.toNat : Int)) fun z => ⟨canonical_sub _ _, by
    rw [cls_sub, cls_ofW]; push_cast; ring⟩) fun r hr => ?_
  refine hr.approx (δ := (K + 1/4) + 1) (fun i => ?_) ?_
  · have hyK : |y i| ≤ K + 1/4 := by
      have h1 := hy i
      rw [abs_div, div_le_iff₀ (by positivity), abs_of_pos (show (0:ℝ) < 4 * K by linarith), one_mul] at h1
      rw [abs_le] at h1 ⊢
      constructor <;> linarith [h1.1, h1.2]
    have e1 : (w.toNat : ℂ) * (2^LD * (y i : ℂ)) / 2^LD + ((-(q.toNat : Int) : Int) : ℂ) -
        2^LD * (((4 * y i - 1) / (4 * K) : ℝ) : ℂ) =
        (((w.toNat : ℝ) - 2^LD / K) * y i - ((q.toNat : ℝ) - 2^LD / (4 * K)) : ℝ) := by
      have : (K : ℂ) ≠ 0 := by
        have : (K : ℝ) ≠ 0 := by linarith
        exact_mod_cast this
      push_cast
      field_simp
      ring
    rw [e1, Complex.norm_real, Real.norm_eq_abs]
    push_cast at hq1
    refine (abs_sub _ _).trans (add_le_add ?_ hq1)
    rw [abs_mul]
    exact (mul_le_mul hw1 hyK (abs_nonneg _) zero_le_one).trans (by linarith)
  · unfold startErr
    have : (w.toNat : ℝ) * ε / 2^LD ≤ ε / K := by
      rw [div_le_iff₀ hp]
      refine (mul_le_mul_of_nonneg_right hw2 hε).trans (le_of_eq ?_)
      ring
    linarith

theorem evalModSix_spec (h1 : ConvLOGQ LF) (h2 : ConvLOGQ (2 * LF)) (hn : n ≤ 16) {LD : Nat} (hD : LD < 62) (hL : LF = LT + LD)
    {s : Fin (2^(n+1)) → Int} (hs : Ternary s) {evk : R_Q_square (2 * LF) (2^(n+1))} (hev : IsEvk s evk)
    {c : R_Q_square LF (2^(n+1))} {v : Fin (2^n) → ℝ} (hv : ∀ i, |v i| ≤ 1) {e : ℝ}
    (hc : Near s c (fun i => 2^LD * (v i : ℂ)) e) :
    Ok (evalModSix (Q1 := LT) LD c evk) fun r => Near s r (fun i => 2^LD * ((v i ^ 2 + 6 : ℝ) : ℂ))
      (sixErr n (weight s) (2^LD) e) := by
  unfold evalModSix
  have hp : (0:ℝ) < 2^LD := by positivity
  have hpc : (2:ℂ)^LD ≠ 0 := pow_ne_zero _ two_ne_zero
  have hX : ∀ i, ‖(2:ℂ)^LD * (v i : ℂ)‖ ≤ 2^LD := by
    intro i
    rw [norm_mul, norm_pow, Complex.norm_ofNat, Complex.norm_real, Real.norm_eq_abs]
    have := mul_le_mul_of_nonneg_left (hv i) hp.le
    linarith
  refine Ok.bind (Near.mul h1 h2 hn hs hev hc hc hX hX R_Q_square.setzero) fun y hy => ?_
  obtain ⟨D, eD, hDv⟩ := shl1_ok (show LD < 64 by omega)
  rw [eD, pure_bind]
  simp only []
  have h6 : (D * 6 : W).toNat = 2^LD * 6 := by
    rw [BitVec.toNat_mul, hDv]
    have e6 : ((6 : W)).toNat = 6 := rfl
    rw [e6]
    refine Nat.mod_eq_of_lt ?_
    have : 2^LD ≤ 2^61 := Nat.pow_le_pow_right (by norm_num) (by omega)
    have : 2^LD * 6 ≤ 2^61 * 6 := Nat.mul_le_mul_right _ this
    refine lt_of_le_of_lt this (by norm_num)
  have hd : LF - LT = LD := by omega
  have hw := hy.wr0 (f := fun x => add x (Z_Q.mulW (ofW (D * 6)) D)) (a := 6 * (2^LD)^2) fun z => ⟨canonical_add _ _, by
    rw [cls_add, cls_mulW, cls_ofW, h6, hDv]; push_cast; ring⟩
  have hr : Ok ((do
      let x ← rd y.1 0
      let c1 ← wr y.1 0 (add x (Z_Q.mulW (ofW (D * 6)) D))
      pure ((c1, y.2) : R_Q_square LF (2^(n+1)))) >>= fun c => RS (LT := LT) c R_Q_square.setzero) fun r =>
        Near s r (fun i => 2^LD * ((v i ^ 2 + 6 : ℝ) : ℂ)) (sixErr n (weight s) (2^LD) e) := by
    refine Ok.bind hw fun z hz => ?_
    have key := Near.rs (LF := LF) (LT := LT) (by omega) hs hz R_Q_square.setzero
    rw [hd] at key
    refine Ok.mono key fun r hr => hr.mono (fun i => ?_) (le_of_eq ?_)
    · push_cast
      field_simp
    · unfold sixErr; ring
  simpa only [bind_assoc, pure_bind] using hr

theorem evalModLin_spec {LD : Nat} (hD : LD < 64) (hL : LF = LT + LD) {s : Fin (2^(n+1)) → Int} (hs : Ternary s)
    {c : R_Q_square LF (2^(n+1))} {v : Fin (2^n) → ℝ} (hv : ∀ i, |v i| ≤ 1) {e : ℝ} (he : 0 ≤ e)
    (hc : Near s c (fun i => 2^LD * (v i : ℂ)) e) :
    Ok (evalModLin (Q1 := LT) LD c) fun r => Near s r (fun i => 2^LD * ((v i / (12 * Real.pi) : ℝ) : ℂ))
      (linErr n (weight s) e) := by
  obtain ⟨D, eD, hDv⟩ := shl1_ok hD
  have hDr : (D.toNat : ℝ) = 2^LD := by rw [hDv]; push_cast; rfl
  have hp : (0:ℝ) < 2^LD := by positivity
  have hpc : (2:ℂ)^LD ≠ 0 := pow_ne_zero _ two_ne_zero
  have hpi := Real.pi_pos
  have hpi3 := Real.pi_gt_three
  have hpos : (0:ℝ) ≤ (D.toNat : ℝ) / (12 * Real.pi) := by positivity
  have hlt : (D.toNat : ℝ) / (12 * Real.pi) < 2^64 := by
    have h1 : (D.toNat : ℝ) < 2^64 := by exact_mod_cast D.isLt
    exact lt_of_le_of_lt (div_le_self (by positivity) (by linarith)) h1
  obtain ⟨w, ew, h1, h2⟩ := truncU64_ok (x := (D.toNat : ℝ) / (12 * Real.pi)) (by linarith) hlt
  rw [abs_of_nonneg hpos] at h2
  rw [hDr] at h1 h2
  unfold evalModLin
  rw [eD, pure_bind, ew, pure_bind]
  simp only []
  have hd : LF - LT = LD := by omega
  have hc1 : Near s (R_Q_square.mulW (R_Q_square.copy c) w) _ _ := hc.mulW w
  have key := Near.rs (LF := LF) (LT := LT) (by omega) hs hc1 R_Q_square.setzero
  rw [hd] at key
  refine Ok.mono key fun r hr => hr.approx (δ := 1) (fun i => ?_) ?_
  · have e1 : (w.toNat : ℂ) * (2^LD * (v i : ℂ)) / 2^LD - 2^LD * ((v i / (12 * Real.pi) : ℝ) : ℂ) =
        (((w.toNat : ℝ) - 2^LD / (12 * Real.pi)) * v i : ℝ) := by
      push_cast
      field_simp
    rw [e1, Complex.norm_real, Real.norm_eq_abs, abs_mul]
    exact (mul_le_mul h1 (hv i) (abs_nonneg _) zero_le_one).trans (by norm_num)
  · unfold linErr
    have : (w.toNat : ℝ) * e / 2^LD ≤ e / (12 * Real.pi) := by
      rw [div_le_iff₀ hp]
      refine (mul_le_mul_of_nonneg_right h2 he).trans (le_of_eq ?_)
      ring
    linarith

end

/-! ## the whole -/

section
variable {Q0 Q1 Q2 Q3 Q4 Q5 Q6 Q7 Q8 Q9 Q10 Q11 Q12 : Nat} [NeZero Q0] [NeZero Q1] [NeZero Q2] [NeZero Q3] [NeZero Q4] [NeZero Q5] [NeZero Q6] [NeZero Q7] [NeZero Q8] [NeZero Q9] [NeZero Q10] [NeZero Q11] [NeZero Q12]

theorem deg31_near {LD : Nat} (hD : LD < 64) (hn : n ≤ 16) (hQ1 : GoodQ Q1) (hQ2 : GoodQ Q2) (hQ3 : GoodQ Q3)
    (hQ4 : GoodQ Q4) (hQ5 : GoodQ Q5) (h64 : 64 ≤ Q1) (hL1 : Q1 = Q2 + LD) (hL2 : Q2 = Q3 + LD) (hL3 : Q3 = Q4 + LD)
    (hL4 : Q4 = Q5 + LD) (hL5 : Q5 = Q6 + LD) {s : Fin (2^(n+1)) → Int} (hs : Ternary s) {u : Fin 32 → ℝ}
    (hu2 : ∀ i, |u i| * 2^LD < 2^64) {U : ℝ} (hU : ∑ i, |u i| ≤ U) {ct : R_Q_square Q1 (2^(n+1))}
    {x : Fin (2^n) → ℝ} (hx : ∀ i, |x i| ≤ 1) {ε : ℝ} (hT1 : Near s ct (fun i => 2^LD * (x i : ℂ)) ε)
    {evk1 : R_Q_square (2 * Q1) (2^(n+1))} {evk2 : R_Q_square (2 * Q2) (2^(n+1))}
    {evk3 : R_Q_square (2 * Q3) (2^(n+1))} {evk4 : R_Q_square (2 * Q4) (2^(n+1))} {evk5 : R_Q_square (2 * Q5) (2^(n+1))}
    (hev1 : IsEvk s evk1) (hev2 : IsEvk s evk2) (hev3 : IsEvk s evk3) (hev4 : IsEvk s evk4) (hev5 : IsEvk s evk5) :
    Ok (eval_poly_deg31 (Q5 := Q6) LD u ct evk1 evk2 evk3 evk4 evk5) fun p =>
      Near s p (fun i => 2^LD * treeVal (arr u) (x i) 5 0) (lErr n (weight s) (2^LD) ε U 4) := by
  have hU' : ∑ i ∈ range 32, |arr u i| ≤ U := by rw [arr_sum]; exact hU
  unfold eval_poly_deg31
  refine Ok.bind (constsS h64 hD hu2) fun L0 hL0n => ?_
  refine Ok.bind (polyL1_spec hQ1.one hn hL1 hs (by norm_num) hx hT1 hL0n (arr_le hU)) fun L1 hL1n => ?_
  have hT1' : Near s ct (fun i => 2^LD * chebT (2^0) (x i)) (tErr n (weight s) (2^LD) ε 0) :=
    hT1.mono (fun i => by rw [pow_zero, chebT_one]) (le_of_eq rfl)
  refine Ok.bind (polyT_spec hQ1.one hQ1.two hn hD hL1 hs hev1 hx 0 hT1') fun T1 hT2 => ?_
  refine Ok.bind (polyL_spec hQ2.one hQ2.two hn hD hL2 hs hev2 hx 0 3 hT2 hL1n hU') fun L2 hL2n => ?_
  refine Ok.bind (polyT_spec hQ2.one hQ2.two hn hD hL2 hs hev2 hx 1 hT2) fun T2 hT3 => ?_
  refine Ok.bind (polyL_spec hQ3.one hQ3.two hn hD hL3 hs hev3 hx 1 2 hT3 hL2n hU') fun L3 hL3n => ?_
  refine Ok.bind (polyT_spec hQ3.one hQ3.two hn hD hL3 hs hev3 hx 2 hT3) fun T3 hT4 => ?_
  refine Ok.bind (polyL_spec hQ4.one hQ4.two hn hD hL4 hs hev4 hx 2 1 hT4 hL3n hU') fun L4 hL4n => ?_
  refine Ok.bind (polyT_spec hQ4.one hQ4.two hn hD hL4 hs hev4 hx 3 hT4) fun T4 hT5 => ?_
  exact polyLast_spec hQ5.one hQ5.two hn hD hL5 hs hev5 hx 3 hT5 hL4n hU'

theorem evalModU_sum : ∑ i, |evalModU i| ≤ 3 := by
  have h : ∑ i : Fin 32, |(evalModDigits.getD i 0 : ℤ)| ≤ 3 * 10^17 := by decide +kernel
  have h2 : ((∑ i : Fin 32, |(evalModDigits.getD i 0 : ℤ)| : ℤ) : ℝ) ≤ ((3 * 10^17 : ℤ) : ℝ) := by exact_mod_cast h
  unfold evalModU
  have e : ∀ i : Fin 32, |(evalModDigits.getD i 0 : ℝ) / 10^17| = |(evalModDigits.getD i 0 : ℝ)| / 10^17 := by
    intro i; rw [abs_div, abs_of_pos (show (0:ℝ) < 10^17 by positivity)]
  simp only [e]
  simp only [div_eq_mul_inv]
  rw [← sum_mul, ← div_eq_mul_inv, div_le_iff₀ (by positivity)]
  push_cast at h2
  linarith

theorem evalModU_le (i : Fin 32) : |evalModU i| ≤ 1 := by
  have h : ∀ i : Fin 32, |(evalModDigits.getD i 0 : ℤ)| ≤ 10^17 := by decide +kernel
  have h2 : ((|(evalModDigits.getD i 0 : ℤ)| : ℤ) : ℝ) ≤ ((10^17 : ℤ) : ℝ) := by exact_mod_cast h i
  unfold evalModU
  rw [abs_div, abs_of_pos (show (0:ℝ) < 10^17 by positivity), div_le_iff₀ (by positivity)]
  push_cast at h2
  linarith

theorem evalModU_lt {LD : Nat} (hD : LD < 64) (i : Fin 32) : |evalModU i| * 2^LD < 2^64 := by
  have h1 := mul_le_mul_of_nonneg_right (evalModU_le i) (show (0:ℝ) ≤ 2^LD by positivity)
  have h2 : (2:ℝ)^LD < 2^64 := pow_lt_pow_right₀ (by norm_num) hD
  linarith

theorem Near.nonneg {LOGQ : Nat} [NeZero LOGQ] {s : Fin (2^(n+1)) → Int} {c : R_Q_square LOGQ (2^(n+1))}
    {x : Fin (2^n) → ℂ} {ε : ℝ} (h : Near s c x ε) : 0 ≤ ε := by
  obtain ⟨_, w, _, h3⟩ := h
  exact (norm_nonneg _).trans (h3 ⟨0, Nat.two_pow_pos n⟩)

theorem chebT_cos (k : Nat) (θ : ℝ) : chebT k ((Real.cos θ : ℝ) : ℂ) = (Real.cos (k * θ) : ℝ) := by
  unfold chebT
  rw [Complex.ofReal_cos, Polynomial.Chebyshev.T_complex_cos]
  push_cast; rfl

set_option maxHeartbeats 2000000 in
theorem EvalMod_near {LD : Nat} (hD : LD < 62) (hn : n ≤ 16) (hC : EvalModChain LD Q0 Q1 Q2 Q3 Q4 Q5 Q6 Q7 Q8 Q9 Q10 Q11 Q12)
    (hlo : 65 ≤ Q11) (hhi : Q1 ≤ 1525) {s : Fin (2^(n+1)) → Int} (hs : Ternary s) {K : Int} (hK : 0 < K)
    (hK' : 4 * K < 2^31) {ct : R_Q_square Q0 (2^(n+1))} {y : Fin (2^n) → ℝ} {ε : ℝ}
    (hct : Near s ct (fun i => 2^LD * (y i : ℂ)) ε) (hy : ∀ i, |(4 * y i - 1) / (4 * K)| ≤ 1)
    {evk1 : R_Q_square (2 * Q1) (2^(n+1))} (hev1 : IsEvk s evk1)
    {evk2 : R_Q_square (2 * Q2) (2^(n+1))} (hev2 : IsEvk s evk2)
    {evk3 : R_Q_square (2 * Q3) (2^(n+1))} (hev3 : IsEvk s evk3)
    {evk4 : R_Q_square (2 * Q4) (2^(n+1))} (hev4 : IsEvk s evk4)
    {evk5 : R_Q_square (2 * Q5) (2^(n+1))} (hev5 : IsEvk s evk5)
    {evk6 : R_Q_square (2 * Q6) (2^(n+1))} (hev6 : IsEvk s evk6)
    {evk7 : R_Q_square (2 * Q7) (2^(n+1))} (hev7 : IsEvk s evk7)
    {evk8 : R_Q_square (2 * Q8) (2^(n+1))} (hev8 : IsEvk s evk8)
    {evk9 : R_Q_square (2 * Q9) (2^(n+1))} (hev9 : IsEvk s evk9)
    {evk10 : R_Q_square (2 * Q10) (2^(n+1))} (hev10 : IsEvk s evk10)
    {evk11 : R_Q_square (2 * Q11) (2^(n+1))} (hev11 : IsEvk s evk11) :
    Ok (EvalMod (Q12 := Q12) LD K ct evk1 evk2 evk3 evk4 evk5 evk6 evk7 evk8 evk9 evk10 evk11) fun p =>
      Near s p (fun i => 2^LD * ((asin3 (Real.cos (12 * Real.pi * (4 * y i - 1) / K)) : ℝ) : ℂ))
        (evalModErr n (weight s) (2^LD) K ε) := by
  obtain ⟨hL0, hL1, hL2, hL3, hL4, hL5, hL6, hL7, hL8, hL9, hL10, hL11⟩ := hC
  have hp : (0:ℝ) < 2^LD := by positivity
  have hpc : (2:ℂ)^LD ≠ 0 := pow_ne_zero _ two_ne_zero
  have hpi := Real.pi_pos
  have hD' : LD < 64 := by omega
  have hKr : (1:ℝ) ≤ K := by exact_mod_cast hK
  have g1 : GoodQ Q1 := Or.inr (Or.inl ⟨by omega, by omega⟩)
  have g2 : GoodQ Q2 := Or.inr (Or.inl ⟨by omega, by omega⟩)
  have g3 : GoodQ Q3 := Or.inr (Or.inl ⟨by omega, by omega⟩)
  have g4 : GoodQ Q4 := Or.inr (Or.inl ⟨by omega, by omega⟩)
  have g5 : GoodQ Q5 := Or.inr (Or.inl ⟨by omega, by omega⟩)
  have g6 : GoodQ Q6 := Or.inr (Or.inl ⟨by omega, by omega⟩)
  have g7 : GoodQ Q7 := Or.inr (Or.inl ⟨by omega, by omega⟩)
  have g8 : GoodQ Q8 := Or.inr (Or.inl ⟨by omega, by omega⟩)
  have g9 : GoodQ Q9 := Or.inr (Or.inl ⟨by omega, by omega⟩)
  have g10 : GoodQ Q10 := Or.inr (Or.inl ⟨by omega, by omega⟩)
  have g11 : GoodQ Q11 := Or.inr (Or.inl ⟨by omega, by omega⟩)
  unfold EvalMod
  refine Ok.bind (evalModStart_spec hD' hL0 hs hK hK' hct.nonneg hct hy) fun c1 h1 => ?_
  refine Ok.bind (deg31_near hD' hn g1 g2 g3 g4 g5 (by omega) hL1 hL2 hL3 hL4 hL5 hs (evalModU_lt hD') evalModU_sum hy h1
    hev1 hev2 hev3 hev4 hev5) fun c2 h2 => ?_
  have hv : ∀ i, |Real.cos (3 * Real.pi * ((4 * y i - 1) / (4 * K)))| ≤ 1 := fun i => Real.abs_cos_le_one _
  have h2' : Near s c2 (fun i => 2^LD * chebT (2^0) ((Real.cos (3 * Real.pi * ((4 * y i - 1) / (4 * K))) : ℝ) : ℂ))
      (tErr n (weight s) (2^LD) (cosErr n (weight s) (2^LD) K ε) 0) := by
    refine h2.approx (δ := 2^LD * (4 / 10^14)) (fun i => ?_) (le_of_eq ?_)
    · rw [pow_zero, chebT_one, ← mul_sub, norm_mul, norm_pow, Complex.norm_ofNat]
      exact mul_le_mul_of_nonneg_left (tree_cos (hy i)) hp.le
    · rw [tErr]; rfl
  refine Ok.bind (polyT_spec g6.one g6.two hn hD' hL6 hs hev6 hv 0 h2') fun c3 h3 => ?_
  refine Ok.bind (polyT_spec g7.one g7.two hn hD' hL7 hs hev7 hv 1 h3) fun c4 h4 => ?_
  refine Ok.bind (polyT_spec g8.one g8.two hn hD' hL8 hs hev8 hv 2 h4) fun c5 h5 => ?_
  refine Ok.bind (polyT_spec g9.one g9.two hn hD' hL9 hs hev9 hv 3 h5) fun c6 h6 => ?_
  have hw : ∀ i, |Real.cos (12 * Real.pi * (4 * y i - 1) / K)| ≤ 1 := fun i => Real.abs_cos_le_one _
  have h6' : Near s c6 (fun i => 2^LD * ((Real.cos (12 * Real.pi * (4 * y i - 1) / K) : ℝ) : ℂ))
      (angleErr n (weight s) (2^LD) K ε) := by
    refine h6.mono (fun i => ?_) (le_of_eq rfl)
    rw [chebT_cos]
    congr 4
    push_cast
    field_simp
    norm_num
    ring
  refine Ok.bind (evalModSix_spec g10.one g10.two hn hD hL10 hs hev10 hw h6') fun c7 h7 => ?_
  refine Ok.bind (evalModLin_spec hD' hL10 hs hw h6'.nonneg h6') fun c8 h8 => ?_
  have hX : ∀ i, ‖(2:ℂ)^LD * ((Real.cos (12 * Real.pi * (4 * y i - 1) / K) ^ 2 + 6 : ℝ) : ℂ)‖ ≤ 7 * 2^LD := by
    intro i
    rw [norm_mul, norm_pow, Complex.norm_ofNat, Complex.norm_real, Real.norm_eq_abs, abs_of_nonneg (by positivity), mul_comm]
    refine mul_le_mul_of_nonneg_right ?_ hp.le
    have := Real.cos_sq_le_one (12 * Real.pi * (4 * y i - 1) / K)
    linarith
  have hY : ∀ i, ‖(2:ℂ)^LD * ((Real.cos (12 * Real.pi * (4 * y i - 1) / K) / (12 * Real.pi) : ℝ) : ℂ)‖ ≤ 2^LD / (12 * Real.pi) := by
    intro i
    rw [norm_mul, norm_pow, Complex.norm_ofNat, Complex.norm_real, Real.norm_eq_abs, abs_div, abs_of_pos (show 0 < 12 * Real.pi by positivity),
      div_eq_mul_one_div (2^LD)]
    exact mul_le_mul_of_nonneg_left (div_le_div_of_nonneg_right (hw i) (by positivity)) hp.le
  refine Ok.bind (Near.mul g11.one g11.two hn hs hev11 h7 h8 hX hY R_Q_square.setzero) fun c9 h9 => ?_
  have key := Near.rs (LF := Q11) (LT := Q12) (by omega) hs h9 R_Q_square.setzero
  rw [show Q11 - Q12 = LD by omega] at key
  refine Ok.mono key fun r hr => hr.mono (fun i => ?_) (le_of_eq ?_)
  · unfold asin3
    have hpic : (Real.pi : ℂ) ≠ 0 := by exact_mod_cast hpi.ne'
    push_cast
    field_simp
    ring
  · unfold evalModErr cubicErr
    ring

theorem swk_evk {LOGQ : Nat} [NeZero LOGQ] (R : Nat) (hn : n ≤ 16) {s : Fin (2^(n+1)) → Int} (hs : Ternary s)
    (swk0 : R_Q_square (2 * LOGQ) (2^(n+1))) (ω : Rng) :
    Ok (swkgen (LOGQ := LOGQ) R (negconv s s) s swk0 ω) fun r => IsEvk s r.1 := by
  have hN : 2^(n+1) ≤ 2^17 := Nat.pow_le_pow_right (by norm_num) (by omega)
  have hb : ∀ i, -2^31 < negconv s s i ∧ negconv s s i < 2^31 := by
    intro i
    have h1 := negconv_abs_le s s hs.abs_le i
    rw [mul_one, hs.sum_abs] at h1
    have h2 : weight s ≤ 2^(n+1) := by
      unfold weight
      exact (card_filter_le _ _).trans (by simp)
    have h3 := abs_le.1 h1
    constructor <;> omega
  exact swkgen_spec (LOGQ := LOGQ) R (by omega) hb hs swk0 ω

theorem EvalModKey_near (R : Nat) {LD : Nat} (hD : LD < 62) (hn : n ≤ 16)
    (hC : EvalModChain LD Q0 Q1 Q2 Q3 Q4 Q5 Q6 Q7 Q8 Q9 Q10 Q11 Q12)
    (hlo : 65 ≤ Q11) (hhi : Q1 ≤ 1525) {s : Fin (2^(n+1)) → Int} (hs : Ternary s) {K : Int} (hK : 0 < K)
    (hK' : 4 * K < 2^31) {ct : R_Q_square Q0 (2^(n+1))} {y : Fin (2^n) → ℝ} {ε : ℝ}
    (hct : Near s ct (fun i => 2^LD * (y i : ℂ)) ε) (hy : ∀ i, |(4 * y i - 1) / (4 * K)| ≤ 1) (ω : Rng) :
    Ok (EvalModKey R LD K Q1 Q2 Q3 Q4 Q5 Q6 Q7 Q8 Q9 Q10 Q11 Q12 ct s ω) fun p =>
      Near s p.1 (fun i => 2^LD * ((asin3 (Real.cos (12 * Real.pi * (4 * y i - 1) / K)) : ℝ) : ℂ))
        (evalModErr n (weight s) (2^LD) K ε) := by
  have hN : 2^(n+1) ≤ 2^17 := Nat.pow_le_pow_right (by norm_num) (by omega)
  unfold EvalModKey
  rw [convI_spec (by omega) s s hs.abs_le hs.abs_le, pure_bind]
  refine Ok.bind (swk_evk R hn hs R_Q_square.setzero _) fun k1 e1 => ?_
  refine Ok.bind (swk_evk R hn hs R_Q_square.setzero _) fun k2 e2 => ?_
  refine Ok.bind (swk_evk R hn hs R_Q_square.setzero _) fun k3 e3 => ?_
  refine Ok.bind (swk_evk R hn hs R_Q_square.setzero _) fun k4 e4 => ?_
  refine Ok.bind (swk_evk R hn hs R_Q_square.setzero _) fun k5 e5 => ?_
  refine Ok.bind (swk_evk R hn hs R_Q_square.setzero _) fun k6 e6 => ?_
  refine Ok.bind (swk_evk R hn hs R_Q_square.setzero _) fun k7 e7 => ?_
  refine Ok.bind (swk_evk R hn hs R_Q_square.setzero _) fun k8 e8 => ?_
  refine Ok.bind (swk_evk R hn hs R_Q_square.setzero _) fun k9 e9 => ?_
  refine Ok.bind (swk_evk R hn hs R_Q_square.setzero _) fun k10 e10 => ?_
  refine Ok.bind (swk_evk R hn hs R_Q_square.setzero _) fun k11 e11 => ?_
  refine Ok.bind (EvalMod_near hD hn hC hlo hhi hs hK hK' hct hy e1 e2 e3 e4 e5 e6 e7 e8 e9 e10 e11) fun p hp => ?_
  exact Ok.pure hp

end

end EvalRound

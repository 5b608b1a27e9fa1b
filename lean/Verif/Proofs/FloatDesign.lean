import Verif.Spec.FloatDesign
import Verif.Props.Design
import Verif.Proofs.FloatCode

/-!
# The design programs in binary64: intervals
-/

namespace EvalRound

/-- `x` is between `a` and `b` -/
def Iv (a b x : ℝ) : Prop := a ≤ x ∧ x ≤ b

variable {a b c d a' b' x y : ℝ} {L : LibmD}

theorem Iv.mono (h : Iv a b x) (h1 : a' ≤ a) (h2 : b ≤ b') : Iv a' b' x := ⟨h1.trans h.1, h.2.trans h2⟩

theorem Iv.mul (hx : Iv a b x) (hy : Iv c d y) (ha : 0 ≤ a) (hc : 0 ≤ c) : Iv (a * c) (b * d) (x * y) :=
  ⟨mul_le_mul hx.1 hy.1 hc (ha.trans hx.1), mul_le_mul hx.2 hy.2 (hc.trans hy.1) ((ha.trans hx.1).trans hx.2)⟩

theorem Iv.div (hx : Iv a b x) (hy : Iv c d y) (ha : 0 ≤ a) (hc : 0 < c) : Iv (a / d) (b / c) (x / y) :=
  ⟨div_le_div₀ (ha.trans hx.1) hx.1 (hc.trans_le hy.1) hy.2, div_le_div₀ ((ha.trans hx.1).trans hx.2) hx.2 hc hy.1⟩

theorem Iv.self (x : ℝ) : Iv x x x := ⟨le_rfl, le_rfl⟩

theorem Iv.sqrt (hx : Iv a b x) (h0 : 0 ≤ c) (h0' : 0 ≤ d) (h1 : c^2 ≤ a) (h2 : b ≤ d^2) : Iv c d (Real.sqrt x) :=
  ⟨Real.le_sqrt_of_sq_le (h1.trans hx.1), (Real.sqrt_le_left h0').2 (hx.2.trans h2)⟩

theorem fl_iv (h : Iv a b x) (ha : 1/2^200 ≤ a) (hb : b ≤ 2^200) (ha' : a' ≤ a * (1 - 1/2^40)) (hb' : b * (1 + 1/2^40) ≤ b') :
    Ok (fl x) (Iv a' b') := by
  have h0 : 1/2^200 ≤ x := ha.trans h.1
  have hp : 0 < x := lt_of_lt_of_le (by positivity) h0
  have hx : x ≤ 2^1020 := (h.2.trans hb).trans (pow_le_pow_right₀ (by norm_num) (by norm_num))
  refine Ok.mono (fl_near0 hp.le hx) fun r ⟨_, hr⟩ => ?_
  have h1 : etaF ≤ x * (1/2^41) := by
    rw [etaF_eq]
    refine le_trans ?_ (mul_le_mul_of_nonneg_right h0 (by norm_num))
    rw [div_mul_div_comm, one_mul, ← pow_add]
    exact one_div_le_one_div_of_le (by positivity) (pow_le_pow_right₀ (by norm_num) (by norm_num))
  have h2 : uF * x ≤ x * (1/2^41) := by
    rw [uF_eq, mul_comm]
    exact mul_le_mul_of_nonneg_left (by norm_num) hp.le
  have h3 : |r - x| ≤ x * (1/2^40) := by
    refine hr.trans ((add_le_add h2 h1).trans (le_of_eq ?_))
    rw [← mul_add]; norm_num
  obtain ⟨h4, h5⟩ := abs_le.1 h3
  clear h1 h2 h3 hr hx hb ha h0
  have e1 : a * (1 - 1/2^40) ≤ x * (1 - 1/2^40) := mul_le_mul_of_nonneg_right h.1 (by norm_num)
  have e2 : x * (1 + 1/2^40) ≤ b * (1 + 1/2^40) := mul_le_mul_of_nonneg_right h.2 (by norm_num)
  constructor <;> linarith

theorem divF_iv (hx : Iv a b x) (hy : Iv c d y) (ha0 : 0 ≤ a) (hc : 0 < c) (ha : 1/2^200 ≤ a / d) (hb : b / c ≤ 2^200)
    (ha' : a' ≤ a / d * (1 - 1/2^40)) (hb' : b / c * (1 + 1/2^40) ≤ b') : Ok (divF x y) (Iv a' b') := by
  unfold divF
  rw [if_neg (hc.trans_le hy.1).ne']
  exact fl_iv (hx.div hy ha0 hc) ha hb ha' hb'

/-- exact dyadic results -/
theorem fl_dyadic {k : ℤ} {e : ℤ} (hk : |k| < 2^53) (he : -1074 ≤ e) (he2 : e ≤ 960) (hx : x = k * 2^e) : fl x = pure x := fl_exact hk he he2 hx

theorem pow_iv (hL : L.Loose) (hx : 1/2 ≤ x) (hx' : x ≤ 2^17) (hy : -15 ≤ y) (hy' : y ≤ 4) (h : Iv a b (x ^ y)) :
    Iv (a * 0.999) (b * 1.001) (L.pow x y) := by
  have := abs_le.1 (hL.1 x y hx hx' hy hy')
  obtain ⟨h1, h2⟩ := h
  constructor <;> linarith

/-- the logarithm to base 2 lies well inside an interval between two integers -/
theorem ceilLog2F_eq (hL : L.Loose) {k : Nat} (hk : k ≤ 38) (h : Iv (2^k * 1.002) (2^(k+1) / 1.002) x) : ceilLog2F L x = pure (k+1 : Int) := by
  obtain ⟨h1, h2⟩ := h
  have hk1 : (1:ℝ) ≤ 2^k := one_le_pow₀ (by norm_num)
  have hx1 : 1 ≤ x := by linarith
  have h0 : 0 < x := by linarith
  have hx40 : x ≤ 2^40 := by
    have : (2:ℝ)^(k+1) ≤ 2^40 := pow_le_pow_right₀ (by norm_num) (by omega)
    refine h2.trans ((div_le_self (by positivity) (by norm_num)).trans this)
  have hb : (2:ℝ)^(1/1000 : ℝ) < 1.002 := by
    have h3 : (2:ℝ) < 1.002^1000 := by
      have := one_add_mul_le_pow (a := (0.002:ℝ)) (by norm_num) 1000
      norm_num at this ⊢
      linarith
    have := Real.rpow_lt_rpow (by norm_num) h3 (show (0:ℝ) < 1/1000 by norm_num)
    rwa [← Real.rpow_natCast, ← Real.rpow_mul (by norm_num), show ((1000:Nat):ℝ) * (1/1000) = 1 by norm_num, Real.rpow_one] at this
  have l1 : (k:ℝ) + 1/1000 < Real.logb 2 x := by
    rw [Real.lt_logb_iff_rpow_lt (by norm_num) h0, Real.rpow_add (by norm_num), Real.rpow_natCast]
    exact lt_of_lt_of_le (mul_lt_mul_of_pos_left hb (by positivity)) h1
  have l2 : Real.logb 2 x < (k:ℝ) + 1 - 1/1000 := by
    rw [Real.logb_lt_iff_lt_rpow (by norm_num) h0, Real.rpow_sub (by norm_num)]
    refine lt_of_le_of_lt h2 ?_
    rw [show (2:ℝ)^((k:ℝ)+1) = 2^(k+1) by rw [← Real.rpow_natCast]; push_cast; rfl]
    exact div_lt_div_of_pos_left (by positivity) (by positivity) hb
  obtain ⟨m1, m2⟩ := abs_le.1 (hL.2 x hx1 hx40)
  have e : ⌈L.log2 x⌉ = (k+1 : Int) := by
    rw [Int.ceil_eq_iff]; push_cast
    constructor <;> linarith
  unfold ceilLog2F truncInt
  rw [if_pos h0, e]
  have h3 : (k:ℝ) ≤ 38 := by exact_mod_cast hk
  have h4 : (0:ℝ) ≤ k := Nat.cast_nonneg _
  rw [if_pos ⟨by push_cast; linarith, by push_cast; linarith⟩, if_pos (by push_cast; linarith), Int.floor_intCast]

/-- `(int) pow(3, G)` is the power or one less -/
theorem diag_iv (hL : L.Loose) {G : Nat} (hG : G ≤ 4) : Ok (truncInt (L.pow 3 G)) fun d => (3^G - 1 : Int) ≤ d ∧ d ≤ 3^G := by
  have hG' : (G:ℝ) ≤ 4 := by exact_mod_cast hG
  have h := pow_iv (a := 3^G) (b := 3^G) hL (x := 3) (y := G) (by norm_num) (by norm_num) (by have : (0:ℝ) ≤ G := Nat.cast_nonneg _; linarith) hG'
    (by rw [Real.rpow_natCast]; exact Iv.self _)
  have hG3 : (3:ℝ)^G ≤ 81 := (pow_le_pow_right₀ (by norm_num) hG).trans (by norm_num)
  have hG1 : (1:ℝ) ≤ 3^G := one_le_pow₀ (by norm_num)
  obtain ⟨h1, h2⟩ := h
  unfold truncInt
  rw [if_pos ⟨by linarith, by linarith⟩, if_pos (by linarith)]
  refine Ok.pure ⟨?_, ?_⟩
  · rw [Int.le_floor]; push_cast; linarith
  · have : ⌊L.pow 3 G⌋ < 3^G + 1 := by
      rw [Int.floor_lt]; push_cast; linarith
    omega

theorem root8_iv : Iv 1.0905 1.0906 ((2:ℝ)^((1:ℝ)/8)) := by
  obtain ⟨t, h1, h2, _, ht⟩ := root8
  have := ht 1
  rw [Nat.cast_one, pow_one] at this
  rw [this]
  exact ⟨h1.le, h2.le⟩

theorem div8 : divF 1 ((2 * 4 : Nat) : ℝ) = pure (1/8) := by
  unfold divF
  rw [if_neg (by norm_num), show (1:ℝ) / ((2 * 4 : Nat) : ℝ) = 1/8 by norm_num]
  exact fl_exact (k := 1) (e := -3) (by norm_num) (by norm_num) (by norm_num) (by norm_num)

theorem designC1F_iv (hL : L.Loose) {X : Int} (hX : Iv a b (Real.sqrt X)) (ha : 1 ≤ a) (hb : b ≤ 2^20) :
    Ok (designC1F L 4 X) (Iv (a / 3 * 1.089) (b / 3 * 1.092)) := by
  have hab : a ≤ b := hX.1.trans hX.2
  have hr := root8_iv
  unfold designC1F
  refine Ok.bind (fl_iv (a' := a * 0.9999) (b' := b * 1.00001) hX (by linarith) (by linarith) (by linarith) (by linarith)) fun s hs => ?_
  refine Ok.bind (fl_iv (a' := a * 0.9998 * 4) (b' := b * 1.00002 * 4) ((Iv.self ((4:Nat):ℝ)).mul hs (by norm_num) (by linarith)) (by push_cast; linarith)
    (by push_cast; linarith) (by push_cast; linarith) (by push_cast; linarith)) fun r hr1 => ?_
  refine Ok.bind (divF_iv (a' := a * 0.9997 / 3) (b' := b * 1.00003 / 3) hr1 (Iv.self 12) (by linarith) (by norm_num) (by linarith) (by linarith)
    (by linarith) (by linarith)) fun q hq => ?_
  rw [div8, pure_bind]
  have hp := pow_iv hL (x := 2) (y := 1/8) (by norm_num) (by norm_num) (by norm_num) (by norm_num) hr
  exact fl_iv (hq.mul hp (by linarith) (by norm_num)) (by linarith) (by linarith) (by linarith) (by linarith)

theorem deltaSimF_iv (hL : L.Loose) {LOGN : Nat} (hN : LOGN ≤ 17) {C1 : ℝ} (hC : Iv a b C1) (hp : Iv c d (((2^LOGN : Nat) : ℝ)^(9/8 : ℝ)))
    (ha : 1 ≤ a) (hb : b ≤ 2^40) (hc : 1 ≤ c) (hd : d ≤ 2^40) :
    Ok (deltaSimF L LOGN 4 C1) (Iv (a * c * (0.998 * 2^10)) (b * d * (1.002 * 2^10))) := by
  have hN1 : (1:ℝ) ≤ ((2^LOGN : Nat) : ℝ) := by exact_mod_cast Nat.one_le_two_pow
  have hN2 : ((2^LOGN : Nat) : ℝ) ≤ 2^17 := by
    have := Nat.pow_le_pow_right (n := 2) (by norm_num) hN
    exact_mod_cast this
  have hab : a ≤ b := hC.1.trans hC.2
  have hcd : c ≤ d := hp.1.trans hp.2
  unfold deltaSimF
  rw [div8, pure_bind, show (1:ℝ) + 1/8 = 9/8 by norm_num, fl_exact (x := 9/8) (k := 9) (e := -3) (by norm_num) (by norm_num) (by norm_num) (by norm_num), pure_bind]
  have hq := pow_iv hL (by linarith) hN2 (by norm_num) (by norm_num) hp
  have hm := hC.mul hq (by linarith) (by linarith)
  have k1 : 1 ≤ a * c := by nlinarith
  have k2 : b * d ≤ 2^40 * 2^40 := mul_le_mul hb hd (by linarith) (by norm_num)
  have e1 : a * (c * 0.999) = a * c * 0.999 := by ring
  have e2 : b * (d * 1.001) = b * d * 1.001 := by ring
  rw [e1, e2] at hm
  have k3 : 1 ≤ b * d := k1.trans (mul_le_mul hab hcd (by linarith) (by linarith))
  generalize a * c = α at *
  generalize b * d = β at *
  refine Ok.bind (fl_iv (a' := α * 0.9989) (b' := β * 1.0011) hm (by linarith) (by linarith) (by linarith) (by linarith)) fun r hr => ?_
  exact fl_iv (hr.mul (Iv.self (2^10)) (by linarith) (by norm_num)) (by linarith) (by linarith) (by linarith) (by linarith)

theorem tightRatioF_iv {LOGN : Nat} (hs : Iv a b (Real.sqrt ((2^LOGN : Nat) : ℝ))) (ha : 20 ≤ a) (hb : b ≤ 2^20) :
    Ok (tightRatioF LOGN) (Iv (0.999 / (b / 5 * 1.0001 - 1)) (1.001 / (a / 5 * 0.9999 - 1))) := by
  have hab : a ≤ b := hs.1.trans hs.2
  unfold tightRatioF
  refine Ok.bind (fl_iv (a' := a * (1-1/2^40)) (b' := b * (1+1/2^40)) hs (by linarith) (by linarith) le_rfl le_rfl) fun s hs => ?_
  rw [one_mul]
  refine Ok.bind (fl_iv (a' := a * 0.99999999) (b' := b * 1.00000001) hs (by linarith) (by linarith) (by linarith) (by linarith)) fun s hs => ?_
  refine Ok.bind (divF_iv (a' := a / 5 * 0.9999999) (b' := b / 5 * 1.0000001) hs (Iv.self 5) (by linarith) (by norm_num) (by linarith) (by linarith) (by linarith)
    (by linarith)) fun q hq => ?_
  have hq1 : Iv (a / 5 * 0.9999999 - 1) (b / 5 * 1.0000001 - 1) (q - 1) := ⟨by linarith [hq.1], by linarith [hq.2]⟩
  refine Ok.bind (fl_iv (a' := a / 5 * 0.9999 - 1) (b' := b / 5 * 1.0001 - 1) hq1 (by linarith) (by linarith) (by linarith) (by linarith)) fun r hr => ?_
  have hA : 1 ≤ a / 5 * 0.9999 - 1 := by linarith
  have hB : b / 5 * 1.0001 - 1 ≤ 2^20 := by linarith
  have hB1 : 1 ≤ b / 5 * 1.0001 - 1 := by linarith
  generalize a / 5 * 0.9999 - 1 = A at *
  generalize b / 5 * 1.0001 - 1 = B at *
  refine divF_iv (Iv.self 1) hr (by norm_num) (by linarith) ?_ ?_ ?_ ?_
  · exact one_div_le_one_div_of_le (by linarith) (hB.trans (by norm_num))
  · exact (div_le_self (by norm_num) hA).trans (by norm_num)
  · rw [div_mul_eq_mul_div]
    exact div_le_div_of_nonneg_right (by norm_num) (by linarith)
  · rw [div_mul_eq_mul_div]
    exact div_le_div_of_nonneg_right (by norm_num) (by linarith)

/-- the program for D = 4 -/
theorem design4F (hL : L.Loose) {LOGN G k l : Nat} (hN : LOGN ≤ 17) (hG : (LOGN-1) % G = 0) (hD : (LOGN-1) / G = 4) (hG' : G ≤ 4) (hk : k ≤ 38) (hl : l ≤ 29)
    {s₁ s₂ p₁ p₂ w₁ w₂ : ℝ} (hs₁ : 3 ≤ s₁) (hs₂0 : 0 ≤ s₂) (hs₂ : s₂ ≤ 2^20) (h1 : s₁^2 ≤ 129 * (3^G - 1)) (h2 : 129 * 3^G ≤ s₂^2)
    (hp₁ : 1 ≤ p₁) (hp₂ : p₂ ≤ 2^40) (hp : Iv p₁ p₂ (((2^LOGN : Nat) : ℝ)^(9/8 : ℝ)))
    (hw₁ : 20 ≤ w₁) (hw₂ : w₂ ≤ 2^20) (hw : Iv w₁ w₂ (Real.sqrt ((2^LOGN : Nat) : ℝ)))
    (a1 : 2^k * 1.002 ≤ s₁ / 3 * 1.089 * p₁ * (0.998 * 2^10)) (a2 : s₂ / 3 * 1.092 * p₂ * (1.002 * 2^10) ≤ 2^(k+1) / 1.002)
    (a3 : (2^l * 1.002 + 1) * (w₂ / 5 * 1.0001 - 1) ≤ s₁ / 3 * 1.089 * p₁ * (0.998 * 2^10) * 0.998)
    (a4 : s₂ / 3 * 1.092 * p₂ * (1.002 * 2^10) * 1.002 ≤ 2^(l+1) / 1.002 * (w₁ / 5 * 0.9999 - 1)) :
    designDeltaTildeF L 128 LOGN G = pure ((k+1 : Int), (l+1 : Int)) := by
  have hG3 : (3:Int)^G ≤ 81 := (pow_le_pow_right₀ (by norm_num) hG').trans (by norm_num)
  unfold designDeltaTildeF
  rw [hG, show assertM (decide (0 = 0)) = pure () from rfl, pure_bind, hD]
  obtain ⟨Dg, e, d1, d2⟩ := diag_iv hL hG'
  have hG1 : (1:Int) ≤ 3^G := one_le_pow₀ (by norm_num)
  have e2 : intM (((128:Int)+1) * Dg) = pure ((128+1) * Dg) := by
    unfold intM
    rw [if_pos]
    constructor <;> norm_num <;> linarith
  rw [e, pure_bind, e2, pure_bind]
  have d1' : (3:ℝ)^G - 1 ≤ Dg := by exact_mod_cast d1
  have d2' : (Dg:ℝ) ≤ 3^G := by exact_mod_cast d2
  have hX : Iv s₁ s₂ (Real.sqrt (((128+1) * Dg : Int) : ℝ)) := by
    refine Iv.sqrt (a := 129 * (3^G - 1)) (b := 129 * 3^G) ⟨?_, ?_⟩ (by linarith) hs₂0 h1 h2 <;> push_cast <;> linarith
  obtain ⟨C1, e3, hC⟩ := designC1F_iv hL hX (by linarith) hs₂
  have hs12 := hX.1.trans hX.2
  obtain ⟨S, e4, hS⟩ := deltaSimF_iv hL hN hC hp (by linarith) (by linarith) hp₁ hp₂
  rw [e3, pure_bind, e4, pure_bind, ceilLog2F_eq hL hk (hS.mono a1 a2), pure_bind]
  obtain ⟨R, e5, hR⟩ := tightRatioF_iv hw hw₁ hw₂
  rw [e5, pure_bind]
  have hl30 : (2:ℝ)^(l+1) ≤ 2^30 := pow_le_pow_right₀ (by norm_num) (by omega)
  have hl1 : (1:ℝ) ≤ 2^l := one_le_pow₀ (by norm_num)
  have hA : 1 ≤ w₁ / 5 * 0.9999 - 1 := by linarith
  have hB : 1 ≤ w₂ / 5 * 1.0001 - 1 := by linarith [hw.1.trans hw.2]
  have hS1 : 1 ≤ s₁ / 3 * 1.089 * p₁ * (0.998 * 2^10) := by
    have : (1:ℝ) ≤ 2^k := one_le_pow₀ (by norm_num)
    linarith
  have hS12 := hS.1.trans hS.2
  clear hp hX hC e3 e4 e5 hw
  generalize s₁ / 3 * 1.089 * p₁ * (0.998 * 2^10) = S₁ at *
  generalize s₂ / 3 * 1.092 * p₂ * (1.002 * 2^10) = S₂ at *
  generalize w₁ / 5 * 0.9999 - 1 = A at *
  generalize w₂ / 5 * 1.0001 - 1 = B at *
  have b1 : 2^l * 1.002 + 1 ≤ S₁ * 0.998 / B := by rw [le_div_iff₀ (by linarith)]; exact a3
  have b2 : S₂ * 1.002 / A ≤ 2^(l+1) / 1.002 := by rw [div_le_iff₀ (by linarith)]; exact a4
  have hT := hS.mul hR (by linarith) (div_nonneg (by norm_num) (by linarith))
  have c1 : S₁ * (0.999 / B) = S₁ * 0.998 / B * (0.999 / 0.998) := by ring
  have c2 : S₂ * (1.001 / A) = S₂ * 1.002 / A * (1.001 / 1.002) := by ring
  rw [c1, c2] at hT
  have b3 : 0 ≤ S₂ * 1.002 / A := div_nonneg (by linarith) (by linarith)
  generalize S₁ * 0.998 / B = U at *
  generalize S₂ * 1.002 / A = V at *
  have b4 : (2:ℝ)^(l+1) / 1.002 ≤ 2^30 := (div_le_self (by positivity) (by norm_num)).trans hl30
  clear a1 a2 a3 a4 hS hR
  obtain ⟨T, e6, t1, t2⟩ := fl_iv (a' := 2^l * 1.002 + 1) (b' := 2^(l+1) / 1.002) hT (by linarith) (by have := b2.trans b4; linarith) (by linarith) (by linarith)
  have e7 : truncInt T = pure ⌊T⌋ := by
    have := t2.trans b4
    unfold truncInt
    rw [if_pos ⟨by linarith, by linarith⟩, if_pos (by linarith)]
  rw [e6, pure_bind, e7, pure_bind, ceilLog2F_eq hL (by omega : l ≤ 38) (x := ((⌊T⌋ : Int) : ℝ)) ⟨by linarith [Int.lt_floor_add_one T], (Int.floor_le T).trans t2⟩, pure_bind]

end EvalRound

import Verif.Model.Design
import Verif.Props.Driver

/-!
# C60, C61: the constants printed by the experiments
-/

namespace EvalRound

/-! ## C60 -/

theorem truncInt_int {k j : Int} (h : truncInt (k : ℝ) = pure j) : j = k := by
  unfold truncInt at h
  split at h
  · rw [← pure_inj h, Int.floor_intCast, Int.ceil_intCast, ite_self]
  · cases h

theorem ceilLog2_ret {x : ℝ} {k : Int} (h : ceilLog2 x = pure k) : 0 < x ∧ (2:ℝ)^(k-1) < x ∧ x ≤ (2:ℝ)^k := by
  unfold ceilLog2 at h
  split at h
  · rename_i h0
    rw [truncInt_int h]
    refine ⟨h0, ?_, ?_⟩
    · rw [← Real.rpow_intCast, ← Real.lt_logb_iff_rpow_lt (by norm_num) h0]
      have := Int.ceil_lt_add_one (Real.logb 2 x)
      push_cast; linarith
    · rw [← Real.rpow_intCast, ← Real.logb_le_iff_le_rpow (by norm_num) h0]
      exact Int.le_ceil _
  · cases h

theorem ceilLog2_eq {x : ℝ} {k : Nat} (hk : k ≤ 2^30) (h1 : (2:ℝ)^k < x) (h2 : x ≤ (2:ℝ)^(k+1)) : ceilLog2 x = pure (k+1 : Int) := by
  have h0 : (0:ℝ) < x := lt_trans (by positivity) h1
  have e : ⌈Real.logb 2 x⌉ = (k+1 : Int) := by
    rw [Int.ceil_eq_iff]
    constructor
    · rw [Real.lt_logb_iff_rpow_lt (by norm_num) h0]
      refine lt_of_eq_of_lt ?_ h1
      rw [← Real.rpow_natCast]; congr 1; push_cast; ring
    · rw [Real.logb_le_iff_le_rpow (by norm_num) h0]
      refine le_of_le_of_eq h2 ?_
      rw [← Real.rpow_natCast]; congr 1
  unfold ceilLog2 truncInt
  rw [if_pos h0, e]
  have h3 : (k:ℝ) ≤ 2^30 := by exact_mod_cast hk
  have h4 : (0:ℝ) ≤ k := Nat.cast_nonneg _
  rw [if_pos ⟨by push_cast; linarith, by push_cast; linarith⟩, if_pos (by push_cast; linarith), Int.floor_intCast]

/-- the eighth root of 2 -/
theorem root8 : ∃ t : ℝ, 1.0905 < t ∧ t < 1.0906 ∧ t^8 = 2 ∧ ∀ k : Nat, (2:ℝ)^((k:ℝ)/8) = t^k := by
  refine ⟨(2:ℝ)^((1:ℝ)/8), ?_, ?_, ?_, fun k => ?_⟩
  · refine lt_of_pow_lt_pow_left₀ 8 (by positivity) ?_
    rw [← Real.rpow_natCast (_ ^ _) 8, ← Real.rpow_mul (by norm_num)]; norm_num
  · refine lt_of_pow_lt_pow_left₀ 8 (by positivity) ?_
    rw [← Real.rpow_natCast (_ ^ _) 8, ← Real.rpow_mul (by norm_num)]; norm_num
  · rw [← Real.rpow_natCast, ← Real.rpow_mul (by norm_num)]; norm_num
  · rw [← Real.rpow_natCast, ← Real.rpow_mul (by norm_num)]; congr 1; ring

/-- the numbers of `design_delta_tilde` for D = 4 -/
theorem design4 {H : Int} {LOGN G k l : Nat} {S S' : ℝ} (t : ℝ) (ht : ∀ k : Nat, (2:ℝ)^((k:ℝ)/8) = t^k)
    (hG : (LOGN-1) % G = 0) (hD : (LOGN-1) / G = 4) (hG' : G ≤ 4) (h0 : 0 ≤ H) (h1 : H ≤ 1000) (hk : k ≤ 2^30) (hl : l ≤ 29)
    (hS : S = Real.sqrt ((H+1) * 3^G) / 3 * t^(9 * LOGN + 1) * 2^10) (hS' : S' = S * (1 / (Real.sqrt (2^LOGN) / 5 - 1)))
    (a1 : (2:ℝ)^k < S) (a2 : S ≤ 2^(k+1)) (a3 : (2:ℝ)^l + 1 < S') (a4 : S' ≤ 2^(l+1)) :
    designDeltaTilde H LOGN G = pure ((k+1 : Int), (l+1 : Int)) := by
  have hG3 : (3:Int)^G ≤ 81 := (pow_le_pow_right₀ (by norm_num) hG').trans (by norm_num)
  have hG1 : (1:Int) ≤ 3^G := one_le_pow₀ (by norm_num)
  have e1 : truncInt ((3:ℝ)^G) = pure (3^G) := by
    have e : (3:ℝ)^G = (((3^G : Int)) : ℝ) := by push_cast; rfl
    have b1 : (((3^G : Int)) : ℝ) ≤ 81 := by exact_mod_cast hG3
    have b2 : (1:ℝ) ≤ (((3^G : Int)) : ℝ) := by exact_mod_cast hG1
    unfold truncInt
    rw [e, if_pos ⟨by linarith, by linarith⟩, Int.floor_intCast, if_pos (by linarith)]
  have e2 : intM ((H+1) * 3^G) = pure ((H+1) * 3^G) := by
    unfold intM
    rw [if_pos]
    constructor <;> nlinarith
  have e3 : deltaSim LOGN 4 ((H+1) * 3^G) = S := by
    have p1 : (2:ℝ)^(1 / (2 * ((4:Nat):ℝ))) = t := by
      rw [← pow_one t, ← ht]; congr 1; norm_num
    have p2 : ((2^LOGN : Nat) : ℝ)^(1 + 1 / (2 * ((4:Nat):ℝ))) = t^(9 * LOGN) := by
      rw [← ht]; push_cast
      rw [← Real.rpow_natCast, ← Real.rpow_mul (by norm_num)]; congr 1; ring
    unfold deltaSim designC1
    rw [p1, p2, hS, pow_succ]; push_cast; ring
  have hN : ((2^LOGN : Nat) : ℝ) = 2^LOGN := by push_cast; rfl
  have e4 : truncInt S' = pure ⌊S'⌋ := by
    have b1 : (2:ℝ)^(l+1) ≤ 2^30 := pow_le_pow_right₀ (by norm_num) (by omega)
    have b2 : (0:ℝ) < 2^l := by positivity
    unfold truncInt
    rw [if_pos ⟨by linarith, by linarith⟩, if_pos (by linarith)]
  unfold designDeltaTilde
  rw [hG, show assertM (decide (0 = 0)) = pure () from rfl, pure_bind, hD, e1, pure_bind, e2, pure_bind]
  dsimp only
  rw [e3, ceilLog2_eq hk a1 a2, pure_bind, hN, one_mul, ← hS', e4, pure_bind, ceilLog2_eq (k := l) (by omega), pure_bind]
  · have := Int.lt_floor_add_one S'
    linarith
  · exact (Int.floor_le _).trans a4

theorem sqrt_between {x a b : ℝ} (ha : 0 ≤ a) (hb : 0 < b) (h1 : a^2 < x) (h2 : x < b^2) : a < Real.sqrt x ∧ Real.sqrt x < b :=
  ⟨(Real.lt_sqrt ha).2 h1, (Real.sqrt_lt' hb).2 h2⟩

theorem mul_between {x y a b c d : ℝ} (ha : 0 < a) (hc : 0 < c) (hx : a < x ∧ x < b) (hy : c < y ∧ y < d) : a * c < x * y ∧ x * y < b * d :=
  ⟨mul_lt_mul'' hx.1 hy.1 ha.le hc.le, mul_lt_mul'' hx.2 hy.2 (ha.trans hx.1).le (hc.trans hy.1).le⟩

theorem pow_between {x a b : ℝ} (ha : 0 < a) (hx : a < x ∧ x < b) {k : Nat} (hk : k ≠ 0) : a^k < x^k ∧ x^k < b^k :=
  ⟨pow_lt_pow_left₀ hx.1 ha.le hk, pow_lt_pow_left₀ hx.2 (ha.trans hx.1).le hk⟩

theorem div_between {x y a b c d : ℝ} (ha : 0 < a) (hc : 0 < c) (hx : a < x ∧ x < b) (hy : c < y ∧ y < d) : a / d < x / y ∧ x / y < b / c :=
  ⟨div_lt_div₀ hx.1 hy.2.le (ha.trans hx.1).le (hc.trans hy.1), div_lt_div₀ hx.2 hy.1.le ((ha.trans hx.1).trans hx.2).le hc⟩

/-- C60: `design_delta_tilde` returns the logarithms 22, 25 and 29 which end_to_end_test.cpp and proposal.cpp use as
`LOGDELTA_boot_tilde`. -/
theorem C60_design : designDeltaTilde 128 9 2 = pure (24, 22) ∧ designDeltaTilde 128 13 3 = pure (30, 25) ∧
    designDeltaTilde 128 17 4 = pure (35, 29) := by
  obtain ⟨t, h1, h2, h8, ht⟩ := root8
  refine ⟨?_, ?_, ?_⟩
  · have e : t^(9*9+1) = 2^10 * t^2 := by rw [← h8]; ring
    have hs := mul_between (by norm_num) (by norm_num) (sqrt_between (x := (129 * 3^2 : ℝ)) (a := 34.07) (b := 34.08) (by norm_num) (by norm_num) (by norm_num) (by norm_num))
      (pow_between (k := 2) (by norm_num) ⟨h1, h2⟩ (by norm_num))
    have hw := sqrt_between (x := (2^9 : ℝ)) (a := 22.62) (b := 22.63) (by norm_num) (by norm_num) (by norm_num) (by norm_num)
    have hd := div_between (by norm_num) (c := 22.62/5 - 1) (d := 22.63/5 - 1) (by norm_num) hs (y := Real.sqrt (2^9) / 5 - 1) ⟨sub_lt_sub_right (div_lt_div_of_pos_right hw.1 (by norm_num)) 1, sub_lt_sub_right (div_lt_div_of_pos_right hw.2 (by norm_num)) 1⟩
    have hS' : Real.sqrt ((((128:Int):ℝ)+1) * 3^2) / 3 * t^(9*9+1) * 2^10 * (1 / (Real.sqrt (2^9) / 5 - 1)) =
        Real.sqrt (129 * 3^2) * t^2 / (Real.sqrt (2^9) / 5 - 1) * (2^20 / 3) := by
      rw [e]; norm_num; ring
    have hS : Real.sqrt ((((128:Int):ℝ)+1) * 3^2) / 3 * t^(9*9+1) * 2^10 = Real.sqrt (129 * 3^2) * t^2 * (2^20 / 3) := by
      rw [e]; norm_num; ring
    refine design4 (k := 23) (l := 21) t ht (by norm_num) (by norm_num) (by norm_num) (by norm_num) (by norm_num) (by norm_num) (by norm_num) rfl rfl ?_ ?_ ?_ ?_
    · rw [hS]; norm_num at hs ⊢; linarith [hs.1]
    · rw [hS]; norm_num at hs ⊢; linarith [hs.2]
    · rw [hS']; norm_num at hd ⊢; linarith [hd.1]
    · rw [hS']; norm_num at hd ⊢; linarith [hd.2]
  · have e : t^(9*13+1) = 2^14 * t^6 := by rw [← h8]; ring
    have hs := mul_between (by norm_num) (by norm_num) (sqrt_between (x := (129 * 3^3 : ℝ)) (a := 59.01) (b := 59.02) (by norm_num) (by norm_num) (by norm_num) (by norm_num))
      (pow_between (k := 6) (by norm_num) ⟨h1, h2⟩ (by norm_num))
    have hw := sqrt_between (x := (2^13 : ℝ)) (a := 90.5) (b := 90.52) (by norm_num) (by norm_num) (by norm_num) (by norm_num)
    have hd := div_between (by norm_num) (c := 90.5/5 - 1) (d := 90.52/5 - 1) (by norm_num) hs (y := Real.sqrt (2^13) / 5 - 1) ⟨sub_lt_sub_right (div_lt_div_of_pos_right hw.1 (by norm_num)) 1, sub_lt_sub_right (div_lt_div_of_pos_right hw.2 (by norm_num)) 1⟩
    have hS' : Real.sqrt ((((128:Int):ℝ)+1) * 3^3) / 3 * t^(9*13+1) * 2^10 * (1 / (Real.sqrt (2^13) / 5 - 1)) =
        Real.sqrt (129 * 3^3) * t^6 / (Real.sqrt (2^13) / 5 - 1) * (2^24 / 3) := by
      rw [e]; norm_num; ring
    have hS : Real.sqrt ((((128:Int):ℝ)+1) * 3^3) / 3 * t^(9*13+1) * 2^10 = Real.sqrt (129 * 3^3) * t^6 * (2^24 / 3) := by
      rw [e]; norm_num; ring
    refine design4 (k := 29) (l := 24) t ht (by norm_num) (by norm_num) (by norm_num) (by norm_num) (by norm_num) (by norm_num) (by norm_num) rfl rfl ?_ ?_ ?_ ?_
    · rw [hS]; norm_num at hs ⊢; linarith [hs.1]
    · rw [hS]; norm_num at hs ⊢; linarith [hs.2]
    · rw [hS']; norm_num at hd ⊢; linarith [hd.1]
    · rw [hS']; norm_num at hd ⊢; linarith [hd.2]
  · have e : t^(9*17+1) = 2^19 * t^2 := by rw [← h8]; ring
    have hs := mul_between (by norm_num) (by norm_num) (sqrt_between (x := (129 * 3^4 : ℝ)) (a := 102.2) (b := 102.23) (by norm_num) (by norm_num) (by norm_num) (by norm_num))
      (pow_between (k := 2) (by norm_num) ⟨h1, h2⟩ (by norm_num))
    have hw := sqrt_between (x := (2^17 : ℝ)) (a := 362) (b := 362.1) (by norm_num) (by norm_num) (by norm_num) (by norm_num)
    have hd := div_between (by norm_num) (c := 362/5 - 1) (d := 362.1/5 - 1) (by norm_num) hs (y := Real.sqrt (2^17) / 5 - 1) ⟨sub_lt_sub_right (div_lt_div_of_pos_right hw.1 (by norm_num)) 1, sub_lt_sub_right (div_lt_div_of_pos_right hw.2 (by norm_num)) 1⟩
    have hS' : Real.sqrt ((((128:Int):ℝ)+1) * 3^4) / 3 * t^(9*17+1) * 2^10 * (1 / (Real.sqrt (2^17) / 5 - 1)) =
        Real.sqrt (129 * 3^4) * t^2 / (Real.sqrt (2^17) / 5 - 1) * (2^29 / 3) := by
      rw [e]; norm_num; ring
    have hS : Real.sqrt ((((128:Int):ℝ)+1) * 3^4) / 3 * t^(9*17+1) * 2^10 = Real.sqrt (129 * 3^4) * t^2 * (2^29 / 3) := by
      rw [e]; norm_num; ring
    refine design4 (k := 34) (l := 28) t ht (by norm_num) (by norm_num) (by norm_num) (by norm_num) (by norm_num) (by norm_num) (by norm_num) rfl rfl ?_ ?_ ?_ ?_
    · rw [hS]; norm_num at hs ⊢; linarith [hs.1]
    · rw [hS]; norm_num at hs ⊢; linarith [hs.2]
    · rw [hS']; norm_num at hd ⊢; linarith [hd.1]
    · rw [hS']; norm_num at hd ⊢; linarith [hd.2]

theorem truncInt_ret {x : ℝ} {k : Int} (h : truncInt x = pure k) (hk : 0 < k) : (k:ℝ) ≤ x ∧ x < k + 1 := by
  unfold truncInt at h
  split at h
  · have := pure_inj h
    split at this
    · rw [← this]; exact ⟨Int.floor_le _, Int.lt_floor_add_one _⟩
    · rename_i hx
      have h1 : ⌈x⌉ ≤ 0 := Int.ceil_le.2 (by push_cast; linarith)
      omega
  · cases h

/-- C60: what the two logarithms mean, for every `LOGN`, `G` and `H` for which they are computed. The expected norm of the
rounding error of CoeffToSlot, divided by that of the message, is `sim/Δ` for the scale `Δ`. At `2^a` it is at most 1, at `2^(a-1)`
it is more. The size of message and error together, 5 times the root mean square, is at most 1 at `2^d+1` and above 1 at `2^(d-1)`. -/
theorem C60_goal {H a d : Int} {LOGN G : Nat} (hN : 5 ≤ LOGN) (h : designDeltaTilde H LOGN G = pure (a, d)) :
    let sim := deltaSim LOGN ((LOGN-1)/G) ((H+1) * 3^G)
    (∀ Δ : ℝ, Δ ≠ 0 → eNormExpected LOGN ((LOGN-1)/G) ((H+1) * 3^G) Δ = sim / Δ) ∧
    sim / 2^a ≤ 1 ∧ 1 < sim / 2^(a-1) ∧
    (1 + sim / (2^d + 1)) * 5 / Real.sqrt (2^LOGN) < 1 ∧ 1 < (1 + sim / 2^(d-1)) * 5 / Real.sqrt (2^LOGN) := by
  intro sim
  unfold designDeltaTilde at h
  obtain ⟨-, -, h⟩ := bind_eq_pure h
  obtain ⟨Diag, h3, h⟩ := bind_eq_pure h
  obtain ⟨X, hX, h⟩ := bind_eq_pure h
  dsimp only at h
  obtain ⟨a', ha, h⟩ := bind_eq_pure h
  obtain ⟨T, hT, h⟩ := bind_eq_pure h
  obtain ⟨d', hd, h⟩ := bind_eq_pure h
  obtain ⟨rfl, rfl⟩ := Prod.mk.inj (pure_inj h)
  have e3 : Diag = 3^G := truncInt_int (k := 3^G) (by rw [← h3]; push_cast; rfl)
  have eX : X = (H+1) * 3^G := by
    unfold intM at hX
    split at hX
    · rw [← pure_inj hX, e3]
    · cases hX
  rw [eX] at ha hT
  have hN' : ((2^LOGN : Nat) : ℝ) = 2^LOGN := by push_cast; rfl
  rw [hN', one_mul] at hT
  obtain ⟨hs0, ha1, ha2⟩ := ceilLog2_ret ha
  obtain ⟨hT0, hd1, hd2⟩ := ceilLog2_ret hd
  have hT0' : 0 < T := by exact_mod_cast hT0
  obtain ⟨hT1, hT2⟩ := truncInt_ret hT hT0'
  change 0 < sim at hs0
  change _ < sim at ha1
  change sim ≤ _ at ha2
  change _ ≤ sim * _ at hT1
  change sim * _ < _ at hT2
  have hw : 5 < Real.sqrt (2^LOGN) := by
    rw [Real.lt_sqrt (by norm_num)]
    exact lt_of_lt_of_le (by norm_num) (pow_le_pow_right₀ (by norm_num : (1:ℝ) ≤ 2) hN)
  generalize Real.sqrt (2^LOGN) = w at hw hT1 hT2 ⊢
  have hw' : 0 < w / 5 - 1 := by linarith
  rw [mul_one_div, le_div_iff₀ hw'] at hT1
  rw [mul_one_div, div_lt_iff₀ hw'] at hT2
  refine ⟨fun Δ hΔ => ?_, (div_le_one (by positivity)).2 ha2, (one_lt_div (by positivity)).2 ha1, ?_, ?_⟩
  · show _ = deltaSim LOGN ((LOGN-1)/G) ((H+1) * 3^G) / Δ
    unfold eNormExpected deltaSim
    ring
  · have hp : (0:ℝ) < 2^d' + 1 := by positivity
    have : sim / (2^d' + 1) < w / 5 - 1 := by
      rw [div_lt_iff₀ hp]
      refine lt_of_lt_of_le hT2 ?_
      rw [mul_comm]
      exact mul_le_mul_of_nonneg_left (by linarith) hw'.le
    rw [div_lt_one (by linarith)]
    linarith
  · have hp : (0:ℝ) < 2^(d'-1) := by positivity
    have : w / 5 - 1 < sim / 2^(d'-1) := by
      rw [lt_div_iff₀ hp]
      refine lt_of_lt_of_le ?_ hT1
      rw [mul_comm]
      exact mul_lt_mul_of_pos_right hd1 hw'
    rw [one_lt_div (by linarith)]
    linarith

/-- `C60_goal` applies to the three calls of `main`. -/
example : ∃ a d, designDeltaTilde 128 17 4 = pure (a, d) := ⟨_, _, C60_design.2.2⟩

/-- C60: for rings of dimension 16 and less `design_delta_tilde` converts a negative number's logarithm to `int`, which is
undefined. -/
theorem C60_small {H : Int} {LOGN G : Nat} (h2 : LOGN ≤ 4) (hG' : (LOGN-1) % G = 0) : designDeltaTilde H LOGN G = ub := by
  have pu : ∀ {α} {x : M α} {f : α → M (Int × Int)}, (∃ a, x = pure a) ∨ x = ub → (∀ a, f a = ub) → x >>= f = ub := by
    rintro α x f (⟨a, rfl⟩ | rfl) hf
    · rw [pure_bind]; exact hf a
    · rfl
  have tr : ∀ x, (∃ a, truncInt x = pure a) ∨ truncInt x = ub := fun x => by
    unfold truncInt; split
    · exact Or.inl ⟨_, rfl⟩
    · exact Or.inr rfl
  have cl : ∀ x, (∃ a, ceilLog2 x = pure a) ∨ ceilLog2 x = ub := fun x => by
    unfold ceilLog2; split
    · exact tr _
    · exact Or.inr rfl
  unfold designDeltaTilde
  rw [hG', show assertM (decide (0 = 0)) = pure () from rfl, pure_bind]
  refine pu (tr _) fun Diag => pu ?_ fun X => pu (cl _) fun a => ?_
  · unfold intM; split
    · exact Or.inl ⟨_, rfl⟩
    · exact Or.inr rfl
  rcases tr (deltaSim LOGN ((LOGN-1)/G) X * (1 / (1 * Real.sqrt ((2^LOGN : Nat) : ℝ) / 5 - 1))) with ⟨T, hT⟩ | hT
  · dsimp only
    rw [hT, pure_bind]
    have hw : Real.sqrt ((2^LOGN : Nat) : ℝ) < 5 := by
      rw [Real.sqrt_lt' (by norm_num)]
      have : 2^LOGN ≤ 2^4 := Nat.pow_le_pow_right (by norm_num) h2
      have : ((2^LOGN : Nat) : ℝ) ≤ 16 := by exact_mod_cast this
      linarith
    have hs : 0 ≤ deltaSim LOGN ((LOGN-1)/G) X := by unfold deltaSim designC1; positivity
    have hle : deltaSim LOGN ((LOGN-1)/G) X * (1 / (1 * Real.sqrt ((2^LOGN : Nat) : ℝ) / 5 - 1)) ≤ 0 :=
      mul_nonpos_of_nonneg_of_nonpos hs (one_div_nonpos.2 (by linarith))
    have hT0 : ¬ (0:ℝ) < (T:ℝ) := by
      intro h
      have h0 : 0 < T := by exact_mod_cast h
      linarith [(truncInt_ret hT h0).1]
    unfold ceilLog2
    rw [if_neg hT0]
    rfl
  · dsimp only
    rw [hT]
    rfl

/-- A ring of dimension 16. -/
example : designDeltaTilde 128 4 3 = ub := C60_small (by norm_num) (by norm_num)

/-- C60: for rings of dimension 2^25 the tight scale no longer fits an `int`, and the conversion is undefined. -/
theorem C60_large : designDeltaTilde 128 25 4 = ub := by
  have hD : (25 - 1) / 4 = 6 := by norm_num
  have e1 : truncInt ((3:ℝ)^4) = pure 81 := by
    unfold truncInt
    rw [if_pos ⟨by norm_num, by norm_num⟩, if_pos (by norm_num), show (3:ℝ)^4 = ((81:Int):ℝ) by norm_num, Int.floor_intCast]
  have hsim : 51 * 2^37 ≤ deltaSim 25 6 ((128+1) * 81) := by
    have h1 : (102:ℝ) ≤ Real.sqrt (((128+1) * 81 : Int) : ℝ) := Real.le_sqrt_of_sq_le (by norm_num)
    have h2 : (1:ℝ) ≤ (2:ℝ)^(1 / (2 * ((6:Nat):ℝ))) := Real.one_le_rpow (by norm_num) (by positivity)
    have h3 : (2:ℝ)^27 ≤ ((2^25 : Nat) : ℝ)^(1 + 1 / (2 * ((6:Nat):ℝ))) := by
      rw [show ((2^25 : Nat) : ℝ) = (2:ℝ)^(25:ℝ) by norm_num, ← Real.rpow_mul (by norm_num), ← Real.rpow_natCast]
      exact Real.rpow_le_rpow_of_exponent_le (by norm_num) (by norm_num)
    unfold deltaSim designC1
    calc (51 * 2^37 : ℝ) = ((6:Nat):ℝ) * 102 / 12 * 1 * 2^27 * 2^10 := by norm_num
      _ ≤ _ := by gcongr
  have hw : Real.sqrt ((2^25 : Nat) : ℝ) < 5793 := (Real.sqrt_lt' (by norm_num)).2 (by norm_num)
  have hw' : 5792 < Real.sqrt ((2^25 : Nat) : ℝ) := (Real.lt_sqrt (by norm_num)).2 (by norm_num)
  have e2 : truncInt (deltaSim 25 6 ((128+1) * 81) * (1 / (1 * Real.sqrt ((2^25 : Nat) : ℝ) / 5 - 1))) = ub := by
    generalize Real.sqrt ((2^25 : Nat) : ℝ) = w at *
    generalize deltaSim 25 6 ((128+1) * 81) = S at *
    unfold truncInt
    rw [if_neg]
    rintro ⟨-, h⟩
    rw [mul_one_div, div_lt_iff₀ (by linarith)] at h
    linarith
  unfold designDeltaTilde
  rw [show assertM (decide ((25 - 1) % 4 = 0)) = pure () from rfl, pure_bind, hD, e1, pure_bind,
    show intM ((128+1) * 81) = pure ((128+1) * 81) from rfl, pure_bind]
  dsimp only
  rw [e2]
  unfold ceilLog2 truncInt
  split <;> [split <;> rfl; rfl]

/-! ## C61 -/

/-- C61: the two numbers printed as the expected norm of the error of CoeffToSlot are the same. -/
theorem C61_expected (H : Nat) (n G : Nat) (hn : 1 ≤ n) (hG : 1 ≤ G) (hd : n % G = 0) (Δ : ℝ) :
    eNormExpected (n+1) (n / G) (((H:Int)+1) * 3^G) Δ = eNormSanity H (n+1) G (3^G) Δ := by
  obtain ⟨D, rfl⟩ : ∃ D, n = G * D := ⟨n / G, (Nat.mul_div_cancel' (Nat.dvd_of_mod_eq_zero hd)).symm⟩
  have hD : 1 ≤ D := Nat.one_le_iff_ne_zero.2 fun h => by subst h; omega
  have hGD : G * D / G = D := Nat.mul_div_cancel_left _ (by omega)
  have hDr : (D:ℝ) ≠ 0 := by positivity
  have hGr : (G:ℝ) ≠ 0 := by positivity
  have h2 : (0:ℝ) < 2 := by norm_num
  have hN : ((2^(G*D+1) : Nat) : ℝ) = (2:ℝ)^((G*D+1 : ℝ)) := by
    rw [show ((G*D+1 : ℝ)) = ((G*D+1 : Nat) : ℝ) by push_cast; rfl, Real.rpow_natCast]; push_cast; rfl
  have hN2 : ((2^(G*D+1) / 2 : Nat) : ℝ) = (2:ℝ)^((G*D : ℝ)) := by
    rw [show ((G*D : ℝ)) = ((G*D : Nat) : ℝ) by push_cast; rfl, Real.rpow_natCast, pow_succ, Nat.mul_div_cancel _ (by norm_num)]; push_cast; rfl
  have hs : Real.sqrt ((2:ℝ)^((G*D : ℝ))) = (2:ℝ)^((G*D : ℝ)/2) := by
    rw [Real.sqrt_eq_rpow, ← Real.rpow_mul h2.le]; congr 1; ring
  have hU : (Real.sqrt 2 / ((2:ℝ)^((G*D+1 : ℝ)))^(1 / ((G*D : Nat) : ℝ)))^G = (2:ℝ)^((1/2 - (G*D+1)/(G*D)) * G : ℝ) := by
    rw [Real.sqrt_eq_rpow, ← Real.rpow_mul h2.le, ← Real.rpow_sub h2, ← Real.rpow_natCast, ← Real.rpow_mul h2.le]
    congr 1; push_cast; ring
  unfold eNormExpected eNormSanity zAmbSanity designC1
  dsimp only
  rw [show G * D + 1 - 1 = G * D from rfl, hGD, hN, hN2, hs, hU]
  have hy : (0:ℝ) < (2:ℝ)^((G*D+1 : ℝ)) := by positivity
  have hpow : (2:ℝ)^(1 / (2 * D : ℝ)) * ((2:ℝ)^((G*D+1 : ℝ)))^(1 + 1 / (2 * D : ℝ)) =
      (2:ℝ)^((G*D : ℝ)/2) * (2:ℝ)^((G*D+1 : ℝ)) * ((2:ℝ)^((1/2 - (G*D+1)/(G*D)) * G : ℝ))^(D-1) * 2 := by
    have h3 : ((D - 1 : Nat) : ℝ) = D - 1 := by rw [Nat.cast_sub hD]; norm_num
    have h4 : ∀ x : ℝ, x * 2 = x * 2^(1:ℝ) := fun x => by rw [Real.rpow_one]
    rw [h4 (_ * _), ← Real.rpow_natCast, h3, ← Real.rpow_mul h2.le, ← Real.rpow_mul h2.le, ← Real.rpow_add h2, ← Real.rpow_add h2, ← Real.rpow_add h2,
      ← Real.rpow_add h2]
    congr 1
    field_simp
    ring
  generalize (2:ℝ)^((G*D+1 : ℝ)) = y at hy hpow ⊢
  have e1 : Real.sqrt ((((H:Int):ℝ) + 1) / 12 * 2^60 * 2^60 * y) * Real.sqrt (((3^G : Int) : ℝ) * y / 12) =
      2^60 * y / 12 * Real.sqrt ((((H:Int)+1) * 3^G : Int) : ℝ) := by
    rw [← Real.sqrt_mul (by push_cast; positivity), ← Real.sqrt_sq (show 0 ≤ 2^60 * y / 12 by positivity), ← Real.sqrt_mul (sq_nonneg _)]
    congr 1
    push_cast; ring
  generalize Real.sqrt ((((H:Int):ℝ) + 1) / 12 * 2^60 * 2^60 * y) = A at e1 ⊢
  generalize Real.sqrt (((3^G : Int) : ℝ) * y / 12) = B at e1 ⊢
  generalize Real.sqrt ((((H:Int)+1) * 3^G : Int) : ℝ) = S at e1 ⊢
  generalize (2:ℝ)^((G*D : ℝ)/2) = p1 at hpow ⊢
  generalize ((2:ℝ)^((1/2 - (G*D+1)/(G*D)) * G : ℝ))^(D-1) = p2 at hpow ⊢
  generalize (2:ℝ)^(1 / (2 * D : ℝ)) = p3 at hpow ⊢
  generalize y^(1 + 1 / (2 * D : ℝ)) = p4 at hpow ⊢
  have l : D * S / 12 * p3 / Δ * p4 * 2^10 = D * S / 12 / Δ * 2^10 * (p3 * p4) := by ring
  have r : p1 / 2^50 * A * (B / Δ) * D * p2 * 2 = p1 / 2^50 * (A * B) / Δ * D * p2 * 2 := by ring
  rw [l, r, e1, hpow]
  ring

/-- The parameters of `measure_cts_error<9, 50, 2>`. -/
example : eNormExpected 9 4 (129 * 3^2) (2^50) = eNormSanity 128 9 2 (3^2) (2^50) :=
  C61_expected 128 8 2 (by norm_num) (by norm_num) (by norm_num) _

/-- C61: the number printed as the expected norm of the message is too small, by the factor `sqrt(10/10.75)`, because of the
integer division. -/
theorem C61_integer_division (LOGN : Nat) :
    zAmbExpected 128 LOGN = Real.sqrt (10 / 10.75) * zAmbSanity 128 LOGN ∧
      (1 ≤ LOGN → zAmbExpected 128 LOGN < zAmbSanity 128 LOGN) := by
  have e : zAmbExpected 128 LOGN = Real.sqrt (10 / 10.75) * zAmbSanity 128 LOGN := by
    unfold zAmbExpected zAmbSanity
    rw [mul_left_comm, ← Real.sqrt_mul (by norm_num), show ((128:Int)+1).tdiv 12 = 10 from rfl]
    congr 2
    push_cast; ring
  refine ⟨e, fun h => ?_⟩
  have hpos : 0 < zAmbSanity 128 LOGN := by
    unfold zAmbSanity
    have : 0 < 2^LOGN / 2 := Nat.div_pos (by
      calc 2 = 2^1 := rfl
        _ ≤ 2^LOGN := Nat.pow_le_pow_right (by norm_num) h) (by norm_num)
    have : (0:ℝ) < ((2^LOGN / 2 : Nat) : ℝ) := by exact_mod_cast this
    push_cast
    positivity
  have h1 : Real.sqrt (10 / 10.75) < 1 := by rw [Real.sqrt_lt' (by norm_num)]; norm_num
  rw [e]
  exact mul_lt_of_lt_one_left hpos h1

/-- C61: at the scale 2^34 of Lattigo the expected error is under the goal, at 2^33 it is not. -/
theorem C61_lattigo : (designLattigo (2^34)).1 < (designLattigo (2^34)).2 ∧ (designLattigo (2^33)).2 < (designLattigo (2^33)).1 := by
  obtain ⟨t, ht, h1, h2⟩ : ∃ t : ℝ, Real.sqrt 2 / ((2^16 : Nat) : ℝ)^(1 / ((16 - 1 : Nat) : ℝ)) = t ∧ 0.6751 < t ∧ t < 0.6752 := by
    refine ⟨_, rfl, ?_⟩
    have e : Real.sqrt 2 / ((2^16 : Nat) : ℝ)^(1 / ((16 - 1 : Nat) : ℝ)) = (2:ℝ)^(-17/30 : ℝ) := by
      rw [show ((2^16 : Nat) : ℝ) = (2:ℝ)^(16:ℝ) by norm_num, Real.sqrt_eq_rpow, ← Real.rpow_mul (by norm_num),
        ← Real.rpow_sub (by norm_num)]
      congr 1; norm_num
    have e30 : ((2:ℝ)^(-17/30 : ℝ))^30 = 1 / 2^17 := by
      rw [← Real.rpow_natCast, ← Real.rpow_mul (by norm_num), one_div, ← Real.rpow_natCast, ← Real.rpow_neg (by norm_num)]
      congr 1; norm_num
    rw [e]
    constructor
    · refine lt_of_pow_lt_pow_left₀ 30 (by positivity) ?_
      rw [e30]; norm_num
    · refine lt_of_pow_lt_pow_left₀ 30 (by positivity) ?_
      rw [e30]; norm_num
  have key : ∀ Δ : ℝ, (designLattigo Δ).1 = Real.sqrt (2^15) * Real.sqrt (193/12) * (3 * Real.sqrt (27/4) * t^11 + 3/2 * t^12) * 10 * 2^18 / Δ := by
    intro Δ
    have e1 : Real.sqrt ((((192:Int):ℝ) + 1) / 12 * 2^60 * 2^60 * ((2^16 : Nat) : ℝ)) = 2^68 * Real.sqrt (193/12) := by
      rw [← Real.sqrt_sq (show (0:ℝ) ≤ 2^68 by positivity), ← Real.sqrt_mul (by positivity)]
      congr 1; norm_num
    have e2 : Real.sqrt (3^4 * ((2^16 : Nat) : ℝ) / 12) = 2^8 * Real.sqrt (27/4) := by
      rw [← Real.sqrt_sq (show (0:ℝ) ≤ 2^8 by positivity), ← Real.sqrt_mul (by positivity)]
      congr 1; norm_num
    have e3 : Real.sqrt (3^3 * ((2^16 : Nat) : ℝ) / 12) = 2^8 * (3/2) := by
      rw [← Real.sqrt_sq (show (0:ℝ) ≤ 2^8 * (3/2) by positivity)]
      congr 1; norm_num
    have e4 : Real.sqrt ((2^16 : Nat) : ℝ) = 2^8 := by
      rw [← Real.sqrt_sq (show (0:ℝ) ≤ 2^8 by positivity)]
      congr 1; norm_num
    have e5 : (((2^16 / 2 : Nat)) : ℝ) = 2^15 := by norm_num
    have f : ∀ (c : ℝ) (i : Fin 4) (A : Fin 4 → ℝ), forFin 4 (fun j (c : ℝ) => if i = j then c else c * A j) c =
        (let c := if i = 0 then c else c * A 0
         let c := if i = 1 then c else c * A 1
         let c := if i = 2 then c else c * A 2
         if i = 3 then c else c * A 3) := fun c i A => rfl
    have f' : ∀ (c : ℝ) (A : Fin 4 → ℝ), forFin 4 (fun j (c : ℝ) => c + A j) c = c + A 0 + A 1 + A 2 + A 3 := fun c A => rfl
    unfold designLattigo zAmbSanity
    dsimp only
    rw [ht, e1, e4, e5]
    simp only [f, f']
    have g0 : (![4, 4, 4, 3] : Fin 4 → Nat) 0 = 4 := rfl
    have g1 : (![4, 4, 4, 3] : Fin 4 → Nat) 1 = 4 := rfl
    have g2 : (![4, 4, 4, 3] : Fin 4 → Nat) 2 = 4 := rfl
    have g3 : (![4, 4, 4, 3] : Fin 4 → Nat) 3 = 3 := rfl
    simp only [g0, g1, g2, g3, e2, e3]
    simp only [if_true, show (0 : Fin 4) ≠ 1 by decide, show (0 : Fin 4) ≠ 2 by decide, show (0 : Fin 4) ≠ 3 by decide,
      show (1 : Fin 4) ≠ 0 by decide, show (1 : Fin 4) ≠ 2 by decide, show (1 : Fin 4) ≠ 3 by decide,
      show (2 : Fin 4) ≠ 0 by decide, show (2 : Fin 4) ≠ 1 by decide, show (2 : Fin 4) ≠ 3 by decide,
      show (3 : Fin 4) ≠ 0 by decide, show (3 : Fin 4) ≠ 1 by decide, show (3 : Fin 4) ≠ 2 by decide, if_false]
    ring
  have goal : ∀ Δ : ℝ, (designLattigo Δ).2 = 1/64 := by
    intro Δ
    unfold designLattigo
    dsimp only
    norm_num
  have b := mul_between (by norm_num) (by norm_num) (mul_between (by norm_num) (by norm_num)
    (sqrt_between (x := (2^15 : ℝ)) (a := 181) (b := 181.1) (by norm_num) (by norm_num) (by norm_num) (by norm_num))
    (sqrt_between (x := (193/12 : ℝ)) (a := 4.01) (b := 4.02) (by norm_num) (by norm_num) (by norm_num) (by norm_num)))
    (y := 3 * Real.sqrt (27/4) * t^11 + 3/2 * t^12) (c := 0.11) (d := 0.12) (by
      have c := (mul_between (by norm_num) (by norm_num) (sqrt_between (x := (27/4 : ℝ)) (a := 2.598) (b := 2.599) (by norm_num) (by norm_num)
        (by norm_num) (by norm_num)) (pow_between (k := 11) (by norm_num) ⟨h1, h2⟩ (by norm_num)))
      have d := pow_between (k := 12) (by norm_num) ⟨h1, h2⟩ (by norm_num)
      generalize Real.sqrt (27/4) = w at c ⊢
      norm_num at c d ⊢
      constructor <;> nlinarith [c.1, c.2, d.1, d.2])
  rw [key, key, goal, goal]
  generalize Real.sqrt (2^15) * Real.sqrt (193/12) * (3 * Real.sqrt (27/4) * t^11 + 3/2 * t^12) = x at b
  norm_num at b ⊢
  constructor <;> linarith [b.1, b.2]

end EvalRound

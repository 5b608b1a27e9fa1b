import Verif.Spec.FloatBoot
import Verif.Model.FloatBoot
import Verif.Proofs.EvalMod
import Verif.Proofs.CosApprox
import Verif.Proofs.Ieee
import Verif.Proofs.FloatCode
import Verif.Proofs.FloatTable

/-! # `EvalMod` in binary64 -/

namespace EvalRound
open Z_Q Finset

variable {n : Nat}

/-! ## constants -/

theorem evalModU_sum' : ∑ i, |evalModU i| ≤ 2.99 := by
  have h : ∑ i : Fin 32, |(evalModDigits.getD i 0 : ℤ)| ≤ 299 * 10^15 := by decide +kernel
  have h2 : ((∑ i : Fin 32, |(evalModDigits.getD i 0 : ℤ)| : ℤ) : ℝ) ≤ ((299 * 10^15 : ℤ) : ℝ) := by exact_mod_cast h
  unfold evalModU
  have e : ∀ i : Fin 32, |(evalModDigits.getD i 0 : ℝ) / 10^17| = |(evalModDigits.getD i 0 : ℝ)| / 10^17 := by
    intro i; rw [abs_div, abs_of_pos (show (0:ℝ) < 10^17 by positivity)]
  simp only [e]
  simp only [div_eq_mul_inv]
  rw [← sum_mul, ← div_eq_mul_inv, div_le_iff₀ (by positivity)]
  push_cast at h2
  norm_num at h2 ⊢
  linarith

theorem evalModUF_err (i : Fin 32) : |evalModUF i - evalModU i| ≤ uF * |evalModU i| + etaF := by
  rw [uF_eq, etaF_eq]; exact rnd_err _

theorem evalModUF_sub : ∑ i, |evalModUF i - evalModU i| ≤ 1/10^15 := by
  have h : ∑ i, |evalModUF i - evalModU i| ≤ ∑ i, (uF * |evalModU i| + etaF) := sum_le_sum fun i _ => evalModUF_err i
  rw [sum_add_distrib, ← mul_sum, sum_const, card_univ, Fintype.card_fin, nsmul_eq_mul] at h
  have h1 := mul_le_mul_of_nonneg_left evalModU_sum' uF_pos.le
  have h2 := etaF_le_uF
  have h3 : uF * 3 ≤ 1/10^15 * 0.9 := by rw [uF_eq]; norm_num
  have h4 := uF_pos
  push_cast at h
  norm_num at h1 h2 h3 ⊢
  linarith

theorem evalModUF_sum : ∑ i, |evalModUF i| ≤ 3 := by
  have h : ∑ i, |evalModUF i| ≤ ∑ i, (|evalModUF i - evalModU i| + |evalModU i|) := sum_le_sum fun i _ => by
    have := abs_sub_abs_le_abs_sub (evalModUF i) (evalModU i)
    linarith
  rw [sum_add_distrib] at h
  have h1 := evalModUF_sub
  have h2 := evalModU_sum'
  norm_num at h1 h2 ⊢
  linarith

theorem evalModUF_le (i : Fin 32) : |evalModUF i| ≤ 1.01 := by
  have h1 := evalModUF_err i
  have h2 := evalModU_le i
  have h3 := mul_le_mul_of_nonneg_left h2 uF_pos.le
  have h4 := abs_sub_abs_le_abs_sub (evalModUF i) (evalModU i)
  have h5 := uF_le
  have h6 := etaF_le_uF
  have h7 := uF_pos
  norm_num at h5 h6 ⊢
  linarith

theorem evalModUF_lt {LD : Nat} (hD : LD < 63) (i : Fin 32) : |evalModUF i| * 2^LD < 2^64 := by
  have h1 := mul_le_mul_of_nonneg_right (evalModUF_le i) (show (0:ℝ) ≤ 2^LD by positivity)
  have h2 : (2:ℝ)^LD < 2^63 := pow_lt_pow_right₀ (by norm_num) hD
  have h3 : (2:ℝ)^63 * 1.01 < 2^64 := by norm_num
  linarith

theorem two_lt_1024 {x : ℝ} (hx : x ≤ 2^70) : x < 2^1024 :=
  lt_of_le_of_lt hx (pow_lt_pow_right₀ (by norm_num) (by norm_num))

theorem evalModUF_binary (i : Fin 32) : Binary64 (evalModUF i) :=
  rnd_binary64 (two_lt_1024 ((evalModUF_le i).trans (by norm_num)))

/-- multiplying by a power of two is exact here -/
theorem polyConstSF_eq (LOGQ N : Nat) [NeZero LOGQ] {LD : Nat} (hD : LD < 64) (m : Nat) {u : ℝ} (hu : Binary64 u) (hu1 : |u| ≤ 1.01) :
    polyConstSF LOGQ N LD m u = polyConstS LOGQ N LD m u := by
  obtain ⟨D, eD, hDv⟩ := shl1_ok hD
  have hDr : (D.toNat : ℝ) = 2^LD := by rw [hDv]; push_cast; rfl
  obtain ⟨k, e, hk, he, _, hx⟩ := hu
  have f1 : fl ((2:ℝ)^LD) = pure (2^LD) := fl_exact (k := 1) (e := LD) (by norm_num) (by omega) (by omega) (by
    rw [zpow_natCast]; norm_num)
  have f2 : fl (|u| * 2^LD) = pure (|u| * 2^LD) := by
    have h := rnd_exact (x := |u| * 2^LD) (k := |k|) (e := e + LD) (by rw [abs_abs]; exact hk) (by omega) (by
      rw [hx, abs_mul, zpow_add₀ (by norm_num), zpow_natCast, abs_of_pos (show (0:ℝ) < 2^e by positivity)]
      push_cast; ring)
    unfold fl
    rw [h, if_pos]
    rw [abs_mul, abs_abs, abs_of_pos (show (0:ℝ) < 2^LD by positivity)]
    refine two_lt_1024 ?_
    have h1 : (2:ℝ)^LD ≤ 2^64 := pow_le_pow_right₀ (by norm_num) hD.le
    calc |u| * 2^LD ≤ 1.01 * 2^64 := mul_le_mul hu1 h1 (by positivity) (by norm_num)
      _ ≤ _ := by norm_num
  unfold polyConstSF polyConstS
  rw [eD, pure_bind, pure_bind, hDr, f1, pure_bind, f2, pure_bind]

theorem treeVal_sub (u v : Nat → ℝ) (x : ℂ) (j : Nat) : ∀ m, treeVal u x j m - treeVal v x j m = treeVal (fun i => u i - v i) x j m := by
  induction j with
  | zero => intro m; simp [treeVal]
  | succ j ih =>
    intro m
    simp only [treeVal]
    rw [← ih, ← ih]; ring

theorem tree_cosF {x : ℝ} (hx : |x| ≤ 1) :
    ‖treeVal (arr evalModUF) (x : ℂ) 5 0 - (Real.cos (3 * Real.pi * x) : ℝ)‖ ≤ 243 / 10^16 := by
  have h1 := tree_cos_sharp hx
  have h2 : ‖treeVal (arr evalModUF) (x : ℂ) 5 0 - treeVal (arr evalModU) (x : ℂ) 5 0‖ ≤ 1/10^15 := by
    rw [treeVal_sub]
    have e : (fun i => arr evalModUF i - arr evalModU i) = arr fun i => evalModUF i - evalModU i := by
      funext i; unfold arr; split <;> simp
    rw [e]
    refine treeVal_le _ hx (k := 0) (by norm_num) ?_
    have := arr_sum (u := fun i => evalModUF i - evalModU i)
    exact this.le.trans evalModUF_sub
  have h3 := norm_sub_le_norm_sub_add_norm_sub (treeVal (arr evalModUF) (x : ℂ) 5 0) (treeVal (arr evalModU) (x : ℂ) 5 0)
    ((Real.cos (3 * Real.pi * x) : ℝ) : ℂ)
  linarith

/-! ## divisions -/

theorem fl_pow2 {LD : Nat} (hD : LD < 64) : fl ((2:ℝ)^LD) = pure (2^LD) :=
  fl_exact (k := 1) (e := LD) (by norm_num) (by omega) (by omega) (by rw [zpow_natCast]; norm_num)

theorem le_1020 {x : ℝ} (hx : x ≤ 2^64) : x ≤ 2^1020 := hx.trans (pow_le_pow_right₀ (by norm_num) (by norm_num))

theorem divKF_ok {LD : Nat} (hL : LD < 64) {D : W} (hD : D.toNat = 2^LD) {K : Int} (hK : 0 < K) (hK' : K < 2^31) :
    ∃ w : W, divKF D K = pure w ∧ |(w.toNat : ℝ) - 2^LD / K| ≤ 1 + uF * (2^LD / K) + etaF ∧
      (w.toNat : ℝ) ≤ 2^LD / K + uF * (2^LD / K) + etaF := by
  have hKr : (1:ℝ) ≤ K := by exact_mod_cast hK
  have hDr : (D.toNat : ℝ) = 2^LD := by rw [hD]; push_cast; rfl
  have h63 : (2:ℝ)^LD ≤ 2^63 := pow_le_pow_right₀ (by norm_num) (by omega)
  have hpos : (0:ℝ) ≤ 2^LD / K := by positivity
  have hle : (2:ℝ)^LD / K ≤ 2^63 := (div_le_self (by positivity) hKr).trans h63
  obtain ⟨r, er, hr0, hr⟩ := fl_near0 hpos (le_1020 (hle.trans (by norm_num)))
  have hr' := abs_le.1 hr
  have hu := mul_le_mul_of_nonneg_right uF_le hpos
  have hη := etaF_le
  have hlt : r < 2^64 := by
    norm_num at hle hη hu ⊢
    linarith [hr'.2]
  obtain ⟨w, ew, h1, h2⟩ := truncU64_ok (x := r) (by linarith) hlt
  rw [abs_of_nonneg hr0] at h2
  have fk : fl (K : ℝ) = pure (K : ℝ) := fl_exact (k := K) (e := 0) (by rw [abs_of_pos hK]; omega) (by norm_num) (by norm_num) (by simp)
  refine ⟨w, ?_, ?_, ?_⟩
  · unfold divKF
    rw [if_neg (by omega), hDr, fl_pow2 hL, pure_bind, fk, pure_bind, er, pure_bind, ew]
  · have := abs_sub_le (w.toNat : ℝ) r (2^LD / K)
    linarith
  · linarith [hr'.2]

theorem linF_ok {LD : Nat} (hL : LD < 64) {D : W} (hD : D.toNat = 2^LD) :
    ∃ w : W, (do
      let p ← fl (12 * PI64)
      let d ← fl (D.toNat : ℝ)
      let x ← fl (d / p)
      truncU64 x) = (pure w : M W) ∧ |(w.toNat : ℝ) - 2^LD / (12 * Real.pi)| ≤ 1 + 9/2 * uF * (2^LD / (12 * Real.pi)) ∧
      (w.toNat : ℝ) ≤ (1 + 8 * uF) * (2^LD / (12 * Real.pi)) := by
  have hDr : (D.toNat : ℝ) = 2^LD := by rw [hD]; push_cast; rfl
  have h1D : (1:ℝ) ≤ 2^LD := one_le_pow₀ (by norm_num)
  have h63 : (2:ℝ)^LD ≤ 2^63 := pow_le_pow_right₀ (by norm_num) (by omega)
  have hpi := Real.pi_gt_three
  have hpi4 := Real.pi_le_four
  have hu := uF_pos
  have hu1 := uF_le
  have hη := etaF_le_uF
  have hη0 := etaF_pos
  have he := abs_le.1 PI64_err
  norm_num at hu1 hη he
  have hP0 : 2.9 ≤ PI64 := by norm_num; linarith [he.1]
  have hP1 : PI64 ≤ 4.1 := by norm_num; linarith [he.2]
  norm_num at hP0 hP1
  obtain ⟨p, ep, hp0, hp⟩ := fl_near0 (x := 12 * PI64) (by linarith) (le_1020 (by norm_num; linarith))
  have hp' := abs_le.1 hp
  -- the divisor is within 2.2 units
  have hpe : |p - 12 * Real.pi| ≤ 3/2 * uF * (12 * Real.pi) := by
    have g1 : uF * (12 * PI64) ≤ uF * (12 * Real.pi) + uF * (1/100) := by
      have : 12 * PI64 ≤ 12 * Real.pi + 1/100 := by linarith [he.2]
      have := mul_le_mul_of_nonneg_left this hu.le
      linarith
    have g2 : uF * 3 ≤ uF * Real.pi := mul_le_mul_of_nonneg_left hpi.le hu.le
    rw [abs_le]
    constructor <;> nlinarith [hp'.1, hp'.2, he.1, he.2]
  have hpe' := abs_le.1 hpe
  set P := 12 * Real.pi with hPdef
  have hP36 : 36 ≤ P := by rw [hPdef]; linarith
  have hP48 : P ≤ 48 := by rw [hPdef]; linarith
  have huP : 3/2 * uF * P ≤ 1 := by nlinarith
  have hp36 : 35 ≤ p := by linarith [hpe'.1]
  -- the quotient
  set q := (2:ℝ)^LD / P with hq
  have hq0 : 0 < q := by rw [hq]; positivity
  have hq1 : 1/48 ≤ q := by
    rw [hq, div_le_div_iff₀ (by norm_num) (by linarith)]; linarith
  have hqle : q ≤ 2^63 := (div_le_self (by positivity) (by linarith)).trans h63
  have hdq : |(2:ℝ)^LD / p - q| ≤ 1.6 * uF * q := by
    have e1 : (2:ℝ)^LD / p - q = q * ((P - p) / p) := by
      rw [hq]; field_simp
    rw [e1, abs_mul, abs_of_pos hq0, mul_comm]
    refine mul_le_mul_of_nonneg_right ?_ hq0.le
    rw [abs_div, abs_of_pos (show 0 < p by linarith), div_le_iff₀ (by linarith), abs_sub_comm]
    refine hpe.trans ?_
    have : P ≤ 1.001 * p := by
      norm_num
      have : 3/2 * uF * P ≤ 1/100 := by nlinarith
      linarith [hpe'.1]
    have := mul_le_mul_of_nonneg_left this hu.le
    norm_num at this ⊢
    have h0 : 0 ≤ uF * p := by positivity
    linarith
  have hdq' := abs_le.1 hdq
  norm_num at hdq'
  have huq : uF * q ≤ 1/1000000000 * q := mul_le_mul_of_nonneg_right (by linarith) hq0.le
  have hd0 : 0 ≤ (2:ℝ)^LD / p := by positivity
  obtain ⟨x, ex, hx0, hx⟩ := fl_near0 (x := (2:ℝ)^LD / p) hd0 (le_1020 (by norm_num at hqle ⊢; linarith [hdq'.2]))
  have hx' := abs_le.1 hx
  have hηq : etaF ≤ 1/10 * (uF * q) := by
    have := mul_le_mul_of_nonneg_left hq1 hu.le
    linarith
  have hud : uF * ((2:ℝ)^LD / p) ≤ 1.01 * (uF * q) := by
    have g1 : (2:ℝ)^LD / p ≤ 1.01 * q := by norm_num; linarith [hdq'.2]
    have := mul_le_mul_of_nonneg_left g1 hu.le
    linarith
  norm_num at hud
  have hxe : |x - q| ≤ 4 * (uF * q) := by
    rw [abs_le]
    constructor <;> linarith [hx'.1, hx'.2, hdq'.1, hdq'.2]
  have hxe' := abs_le.1 hxe
  have hlt : x < 2^64 := by norm_num at hqle ⊢; linarith [hxe'.2]
  obtain ⟨w, ew, h1, h2⟩ := truncU64_ok (x := x) (by linarith) hlt
  rw [abs_of_nonneg hx0] at h2
  have huq0 : 0 ≤ uF * q := by positivity
  refine ⟨w, ?_, ?_, ?_⟩
  · rw [ep, pure_bind, hDr, fl_pow2 hL, pure_bind, ex, pure_bind, ew]
  · have := abs_sub_le (w.toNat : ℝ) x q
    linarith
  · linarith [hxe'.2]

section
variable {LF LT : Nat} [NeZero LF] [NeZero LT]

theorem evalModStartF_spec {LD : Nat} (hD : LD < 64) (hL : LF = LT + LD) {s : Fin (2^(n+1)) → Int} (hs : Ternary s)
    {K : Int} (hK : 0 < K) (hK' : 4 * K < 2^31) {ct : R_Q_square LF (2^(n+1))} {y : Fin (2^n) → ℝ} {ε : ℝ} (hε : 0 ≤ ε)
    (hct : Near s ct (fun i => 2^LD * (y i : ℂ)) ε) (hy : ∀ i, |(4 * y i - 1) / (4 * K)| ≤ 1) :
    Ok (evalModStartF (Q1 := LT) LD K ct) fun c => Near s c (fun i => 2^LD * (((4 * y i - 1) / (4 * K) : ℝ) : ℂ))
      (startErr n (weight s) K ((1 + 1/2^52) * ε + (K + 1) * 2^LD / 2^53)) := by
  obtain ⟨D, eD, hDv⟩ := shl1_ok hD
  obtain ⟨w, ew, hw1, hw2⟩ := divKF_ok hD hDv hK (by omega)
  obtain ⟨q, eq, hq1, _⟩ := divKF_ok hD hDv (show 0 < 4 * K by omega) hK'
  have hKr : (1:ℝ) ≤ K := by exact_mod_cast hK
  have hp : (0:ℝ) < 2^LD := by positivity
  have hpc : (2:ℂ)^LD ≠ 0 := pow_ne_zero _ two_ne_zero
  have hd : LF - LT = LD := by omega
  unfold evalModStartF
  rw [eD, pure_bind, ew, pure_bind]
  simp only []
  have hc1 : Near s (R_Q_square.mulW (R_Q_square.copy ct) w) _ _ := hct.mulW w
  have key := Near.rs (LF := LF) (LT := LT) (by omega) hs hc1 R_Q_square.setzero
  rw [hd] at key
  refine Ok.bind key fun c hc => ?_
  rw [show intM (4 * K) = pure (4 * K) by unfold intM; rw [if_pos ⟨by omega, hK'⟩], pure_bind, eq, pure_bind]
  refine Ok.mono (hc.wr0 (f := fun x => sub x (ofW q)) (a := -(q.toNat : Int)) fun z => ⟨canonical_sub _ _, by
    rw [cls_sub, cls_ofW]; push_cast; ring⟩) fun r hr => ?_
  have hu := uF_pos
  have hη := etaF_pos
  have hKle : (K : ℝ) ≤ 2^31 := by
    have : K ≤ 2^31 := by omega
    exact_mod_cast this
  push_cast at hq1
  refine hr.approx (δ := (1 + uF * (2^LD / K) + etaF) * (K + 1/4) + (1 + uF * (2^LD / (4 * K)) + etaF)) (fun i => ?_) ?_
  · have hyK : |y i| ≤ K + 1/4 := by
      have h1 := hy i
      rw [abs_div, div_le_iff₀ (by positivity), abs_of_pos (show (0:ℝ) < 4 * K by linarith), one_mul] at h1
      rw [abs_le] at h1 ⊢
      constructor <;> linarith [h1.1, h1.2]
    have e1 : (w.toNat : ℂ) * (2^LD * (y i : ℂ)) / 2^LD + ((-(q.toNat : Int) : Int) : ℂ) -
        2^LD * (((4 * y i - 1) / (4 * K) : ℝ) : ℂ) =
        (((w.toNat : ℝ) - 2^LD / K) * y i - ((q.toNat : ℝ) - 2^LD / (4 * K)) : ℝ) := by
      have : (K : ℂ) ≠ 0 := by
        have : (K : ℝ) ≠ 0 := by linarith
        exact_mod_cast this
      push_cast
      field_simp
      ring
    rw [e1, Complex.norm_real, Real.norm_eq_abs]
    refine (abs_sub _ _).trans (add_le_add ?_ hq1)
    rw [abs_mul]
    exact mul_le_mul hw1 hyK (abs_nonneg _) (by positivity)
  · unfold startErr
    have hK0 : (0:ℝ) < K := by linarith
    have h1D : (1:ℝ) ≤ 2^LD := one_le_pow₀ (by norm_num)
    have hηu : etaF * 2^100 ≤ uF := by
      rw [etaF_eq, uF_eq, div_mul_eq_mul_div, one_mul, div_le_div_iff₀ (by positivity) (by positivity), one_mul, ← pow_add]
      exact pow_le_pow_right₀ (by norm_num) (by norm_num)
    generalize (2:ℝ)^LD = Δ at *
    have ew : (w.toNat : ℝ) * ε / Δ ≤ (1 + 1/2^52) * ε / K := by
      have g1 : (w.toNat : ℝ) ≤ (1 + 2 * uF) * (Δ / K) := by
        have g2 : etaF ≤ uF * (Δ / K) := by
          rw [mul_div_assoc', le_div_iff₀ hK0]
          have : etaF * K ≤ etaF * 2^100 := mul_le_mul_of_nonneg_left (hKle.trans (by norm_num)) hη.le
          have := mul_le_mul_of_nonneg_left h1D hu.le
          linarith
        linarith
      rw [div_le_iff₀ hp]
      refine (mul_le_mul_of_nonneg_right g1 hε).trans (le_of_eq ?_)
      rw [uF_eq]; ring
    have eK : uF * (Δ / K) * K = uF * Δ := by field_simp
    have e2 : ((1 + 1/2^52) * ε + (K + 1) * Δ / 2^53) / K = (1 + 1/2^52) * ε / K + (uF * Δ + uF * (Δ / K)) := by
      rw [uF_eq]; field_simp
    have e3 : uF * (Δ / (4 * K)) = uF * (Δ / K) / 4 := by field_simp
    rw [e2, e3]
    have g3 : etaF * (K + 5/4) ≤ uF * (Δ / K) / 2 := by
      rw [mul_div_assoc', div_div, le_div_iff₀ (by positivity)]
      have g4 : (K + 5/4) * (K * 2) ≤ (2:ℝ)^100 := by
        calc ((K:ℝ) + 5/4) * (K * 2) ≤ (2^31 + 5/4) * (2^31 * 2) := by gcongr
          _ ≤ _ := by norm_num
      have g5 := mul_le_mul_of_nonneg_left g4 hη.le
      have g6 := mul_le_mul_of_nonneg_left h1D hu.le
      linarith
    have e4 : (1 + uF * (Δ / K) + etaF) * (K + 1/4) = K + 1/4 + (uF * Δ + uF * (Δ / K) / 4) + etaF * (K + 1/4) := by
      rw [← eK]; ring
    rw [e4]
    linarith

theorem evalModLinF_spec {LD : Nat} (hD : LD < 64) (hL : LF = LT + LD) {s : Fin (2^(n+1)) → Int} (hs : Ternary s)
    {c : R_Q_square LF (2^(n+1))} {v : Fin (2^n) → ℝ} (hv : ∀ i, |v i| ≤ 1) {e : ℝ} (he : 0 ≤ e)
    (hc : Near s c (fun i => 2^LD * (v i : ℂ)) e) :
    Ok (evalModLinF (Q1 := LT) LD c) fun r => Near s r (fun i => 2^LD * ((v i / (12 * Real.pi) : ℝ) : ℂ))
      (linErr n (weight s) ((1 + 1/2^50) * e + 5 * 2^LD / 2^53)) := by
  obtain ⟨D, eD, hDv⟩ := shl1_ok hD
  have hDr : (D.toNat : ℝ) = 2^LD := by rw [hDv]; push_cast; rfl
  have hp : (0:ℝ) < 2^LD := by positivity
  have hpc : (2:ℂ)^LD ≠ 0 := pow_ne_zero _ two_ne_zero
  have hpi := Real.pi_pos
  have hpi3 := Real.pi_gt_three
  obtain ⟨w, eall, h1, h2⟩ := linF_ok hD hDv
  unfold evalModLinF
  rw [eD, pure_bind]
  obtain ⟨p, e1, eall⟩ := bind_eq_pure eall
  obtain ⟨d, e2, eall⟩ := bind_eq_pure eall
  obtain ⟨x, e3, ew⟩ := bind_eq_pure eall
  rw [e1, pure_bind, e2, pure_bind, e3, pure_bind, ew, pure_bind]
  simp only []
  have hd : LF - LT = LD := by omega
  have hc1 : Near s (R_Q_square.mulW (R_Q_square.copy c) w) _ _ := hc.mulW w
  have key := Near.rs (LF := LF) (LT := LT) (by omega) hs hc1 R_Q_square.setzero
  rw [hd] at key
  refine Ok.mono key fun r hr => hr.approx (δ := 1 + 9/2 * uF * (2^LD / (12 * Real.pi))) (fun i => ?_) ?_
  · have e1 : (w.toNat : ℂ) * (2^LD * (v i : ℂ)) / 2^LD - 2^LD * ((v i / (12 * Real.pi) : ℝ) : ℂ) =
        (((w.toNat : ℝ) - 2^LD / (12 * Real.pi)) * v i : ℝ) := by
      push_cast
      field_simp
    rw [e1, Complex.norm_real, Real.norm_eq_abs, abs_mul]
    have := mul_le_mul h1 (hv i) (abs_nonneg _) ((abs_nonneg _).trans h1)
    linarith
  · unfold linErr
    have hu := uF_pos
    have e1 : ((1 + 1/2^50) * e + 5 * 2^LD / 2^53) / (12 * Real.pi) = (1 + 8 * uF) * e / (12 * Real.pi) + 5 * uF * (2^LD / (12 * Real.pi)) := by
      rw [uF_eq]; field_simp; ring
    have : (w.toNat : ℝ) * e / 2^LD ≤ (1 + 8 * uF) * e / (12 * Real.pi) := by
      rw [div_le_iff₀ hp]
      refine (mul_le_mul_of_nonneg_right h2 he).trans (le_of_eq ?_)
      ring
    have h5 : 0 ≤ uF * (2^LD / (12 * Real.pi)) := by positivity
    rw [e1]
    linarith

end

/-! ## the whole -/

section
variable {Q0 Q1 Q2 Q3 Q4 Q5 Q6 Q7 Q8 Q9 Q10 Q11 Q12 : Nat} [NeZero Q0] [NeZero Q1] [NeZero Q2] [NeZero Q3] [NeZero Q4] [NeZero Q5] [NeZero Q6] [NeZero Q7] [NeZero Q8] [NeZero Q9] [NeZero Q10] [NeZero Q11] [NeZero Q12]

theorem tabM_congr {α : Type _} {K : Nat} {f g : Nat → M α} (h : ∀ i, i < K → f i = g i) : tabM K f = tabM K g := by
  induction K with
  | zero => rfl
  | succ K ih => rw [tabM, tabM, ih fun i hi => h i (by omega), h K (by omega)]

theorem deg31F_eq {N LD : Nat} (hD : LD < 64) (ct : R_Q_square Q1 N) (evk1 : R_Q_square (2 * Q1) N) (evk2 : R_Q_square (2 * Q2) N)
    (evk3 : R_Q_square (2 * Q3) N) (evk4 : R_Q_square (2 * Q4) N) (evk5 : R_Q_square (2 * Q5) N) :
    eval_poly_deg31F (Q5 := Q6) LD evalModUF ct evk1 evk2 evk3 evk4 evk5 = eval_poly_deg31 (Q5 := Q6) LD evalModUF ct evk1 evk2 evk3 evk4 evk5 := by
  unfold eval_poly_deg31F eval_poly_deg31
  have e : tabM 32 (fun n => do
      let x ← rd evalModUF n
      polyConstSF Q1 N LD n x) = tabM 32 (fun n => do
      let x ← rd evalModUF n
      polyConstS Q1 N LD n x) := tabM_congr fun i hi => by
    rw [rd_of_lt _ hi, pure_bind, pure_bind, polyConstSF_eq Q1 N hD i (evalModUF_binary _) (evalModUF_le _)]
  rw [e]

set_option maxHeartbeats 2000000 in
theorem EvalModF_near {LD : Nat} (hD : LD < 62) (hn : n ≤ 16) (hC : EvalModChain LD Q0 Q1 Q2 Q3 Q4 Q5 Q6 Q7 Q8 Q9 Q10 Q11 Q12)
    (hlo : 65 ≤ Q11) (hhi : Q1 ≤ 1525) {s : Fin (2^(n+1)) → Int} (hs : Ternary s) {K : Int} (hK : 0 < K)
    (hK' : 4 * K < 2^31) {ct : R_Q_square Q0 (2^(n+1))} {y : Fin (2^n) → ℝ} {ε : ℝ}
    (hct : Near s ct (fun i => 2^LD * (y i : ℂ)) ε) (hy : ∀ i, |(4 * y i - 1) / (4 * K)| ≤ 1)
    {evk1 : R_Q_square (2 * Q1) (2^(n+1))} (hev1 : IsEvk s evk1)
    {evk2 : R_Q_square (2 * Q2) (2^(n+1))} (hev2 : IsEvk s evk2)
    {evk3 : R_Q_square (2 * Q3) (2^(n+1))} (hev3 : IsEvk s evk3)
    {evk4 : R_Q_square (2 * Q4) (2^(n+1))} (hev4 : IsEvk s evk4)
    {evk5 : R_Q_square (2 * Q5) (2^(n+1))} (hev5 : IsEvk s evk5)
    {evk6 : R_Q_square (2 * Q6) (2^(n+1))} (hev6 : IsEvk s evk6)
    {evk7 : R_Q_square (2 * Q7) (2^(n+1))} (hev7 : IsEvk s evk7)
    {evk8 : R_Q_square (2 * Q8) (2^(n+1))} (hev8 : IsEvk s evk8)
    {evk9 : R_Q_square (2 * Q9) (2^(n+1))} (hev9 : IsEvk s evk9)
    {evk10 : R_Q_square (2 * Q10) (2^(n+1))} (hev10 : IsEvk s evk10)
    {evk11 : R_Q_square (2 * Q11) (2^(n+1))} (hev11 : IsEvk s evk11) :
    Ok (EvalModF (Q12 := Q12) LD K ct evk1 evk2 evk3 evk4 evk5 evk6 evk7 evk8 evk9 evk10 evk11) fun p =>
      Near s p (fun i => 2^LD * ((asin3 (Real.cos (12 * Real.pi * (4 * y i - 1) / K)) : ℝ) : ℂ))
        (evalModErrF n (weight s) (2^LD) K ε) := by
  obtain ⟨hL0, hL1, hL2, hL3, hL4, hL5, hL6, hL7, hL8, hL9, hL10, hL11⟩ := hC
  have hp : (0:ℝ) < 2^LD := by positivity
  have hpc : (2:ℂ)^LD ≠ 0 := pow_ne_zero _ two_ne_zero
  have hpi := Real.pi_pos
  set ε' : ℝ := (1 + 1/2^52) * ε + (K + 1) * 2^LD / 2^53 with hε'
  have hD' : LD < 64 := by omega
  have hKr : (1:ℝ) ≤ K := by exact_mod_cast hK
  have g1 : GoodQ Q1 := Or.inr (Or.inl ⟨by omega, by omega⟩)
  have g2 : GoodQ Q2 := Or.inr (Or.inl ⟨by omega, by omega⟩)
  have g3 : GoodQ Q3 := Or.inr (Or.inl ⟨by omega, by omega⟩)
  have g4 : GoodQ Q4 := Or.inr (Or.inl ⟨by omega, by omega⟩)
  have g5 : GoodQ Q5 := Or.inr (Or.inl ⟨by omega, by omega⟩)
  have g6 : GoodQ Q6 := Or.inr (Or.inl ⟨by omega, by omega⟩)
  have g7 : GoodQ Q7 := Or.inr (Or.inl ⟨by omega, by omega⟩)
  have g8 : GoodQ Q8 := Or.inr (Or.inl ⟨by omega, by omega⟩)
  have g9 : GoodQ Q9 := Or.inr (Or.inl ⟨by omega, by omega⟩)
  have g10 : GoodQ Q10 := Or.inr (Or.inl ⟨by omega, by omega⟩)
  have g11 : GoodQ Q11 := Or.inr (Or.inl ⟨by omega, by omega⟩)
  unfold EvalModF
  refine Ok.bind (evalModStartF_spec hD' hL0 hs hK hK' hct.nonneg hct hy) fun c1 h1 => ?_
  rw [deg31F_eq hD']
  refine Ok.bind (deg31_near hD' hn g1 g2 g3 g4 g5 (by omega) hL1 hL2 hL3 hL4 hL5 hs (evalModUF_lt (by omega)) evalModUF_sum hy h1
    hev1 hev2 hev3 hev4 hev5) fun c2 h2 => ?_
  have hv : ∀ i, |Real.cos (3 * Real.pi * ((4 * y i - 1) / (4 * K)))| ≤ 1 := fun i => Real.abs_cos_le_one _
  have h2' : Near s c2 (fun i => 2^LD * chebT (2^0) ((Real.cos (3 * Real.pi * ((4 * y i - 1) / (4 * K))) : ℝ) : ℂ))
      (tErr n (weight s) (2^LD) (cosErr n (weight s) (2^LD) K ε') 0) := by
    refine h2.approx (δ := 2^LD * (4 / 10^14)) (fun i => ?_) (le_of_eq ?_)
    · rw [pow_zero, chebT_one, ← mul_sub, norm_mul, norm_pow, Complex.norm_ofNat]
      exact mul_le_mul_of_nonneg_left ((tree_cosF (hy i)).trans (by norm_num)) hp.le
    · rw [tErr]; rfl
  refine Ok.bind (polyT_spec g6.one g6.two hn hD' hL6 hs hev6 hv 0 h2') fun c3 h3 => ?_
  refine Ok.bind (polyT_spec g7.one g7.two hn hD' hL7 hs hev7 hv 1 h3) fun c4 h4 => ?_
  refine Ok.bind (polyT_spec g8.one g8.two hn hD' hL8 hs hev8 hv 2 h4) fun c5 h5 => ?_
  refine Ok.bind (polyT_spec g9.one g9.two hn hD' hL9 hs hev9 hv 3 h5) fun c6 h6 => ?_
  have hw : ∀ i, |Real.cos (12 * Real.pi * (4 * y i - 1) / K)| ≤ 1 := fun i => Real.abs_cos_le_one _
  have h6' : Near s c6 (fun i => 2^LD * ((Real.cos (12 * Real.pi * (4 * y i - 1) / K) : ℝ) : ℂ))
      (angleErr n (weight s) (2^LD) K ε') := by
    refine h6.mono (fun i => ?_) (le_of_eq rfl)
    rw [chebT_cos]
    congr 4
    push_cast
    field_simp
    norm_num
    ring
  set a : ℝ := angleErr n (weight s) (2^LD) K ε' with ha
  have h6s : Near s c6 (fun i => 2^LD * ((Real.cos (12 * Real.pi * (4 * y i - 1) / K) : ℝ) : ℂ)) ((1 + 1/2^50) * a + 5 * 2^LD / 2^53) :=
    h6'.mono (fun _ => rfl) (by
      have g0 : 0 ≤ a := h6'.nonneg
      have : 0 ≤ 5 * (2:ℝ)^LD / 2^53 := by positivity
      linarith)
  refine Ok.bind (evalModSix_spec g10.one g10.two hn hD hL10 hs hev10 hw h6s) fun c7 h7 => ?_
  refine Ok.bind (evalModLinF_spec hD' hL10 hs hw h6'.nonneg h6') fun c8 h8 => ?_
  have hX : ∀ i, ‖(2:ℂ)^LD * ((Real.cos (12 * Real.pi * (4 * y i - 1) / K) ^ 2 + 6 : ℝ) : ℂ)‖ ≤ 7 * 2^LD := by
    intro i
    rw [norm_mul, norm_pow, Complex.norm_ofNat, Complex.norm_real, Real.norm_eq_abs, abs_of_nonneg (by positivity), mul_comm]
    refine mul_le_mul_of_nonneg_right ?_ hp.le
    have := Real.cos_sq_le_one (12 * Real.pi * (4 * y i - 1) / K)
    linarith
  have hY : ∀ i, ‖(2:ℂ)^LD * ((Real.cos (12 * Real.pi * (4 * y i - 1) / K) / (12 * Real.pi) : ℝ) : ℂ)‖ ≤ 2^LD / (12 * Real.pi) := by
    intro i
    rw [norm_mul, norm_pow, Complex.norm_ofNat, Complex.norm_real, Real.norm_eq_abs, abs_div, abs_of_pos (show 0 < 12 * Real.pi by positivity),
      div_eq_mul_one_div (2^LD)]
    exact mul_le_mul_of_nonneg_left (div_le_div_of_nonneg_right (hw i) (by positivity)) hp.le
  refine Ok.bind (Near.mul g11.one g11.two hn hs hev11 h7 h8 hX hY R_Q_square.setzero) fun c9 h9 => ?_
  have key := Near.rs (LF := Q11) (LT := Q12) (by omega) hs h9 R_Q_square.setzero
  rw [show Q11 - Q12 = LD by omega] at key
  refine Ok.mono key fun r hr => hr.mono (fun i => ?_) (le_of_eq ?_)
  · unfold asin3
    have hpic : (Real.pi : ℂ) ≠ 0 := by exact_mod_cast hpi.ne'
    push_cast
    field_simp
    ring
  · unfold evalModErrF cubicErr
    ring

theorem EvalModKeyF_near (R : Nat) {LD : Nat} (hD : LD < 62) (hn : n ≤ 16)
    (hC : EvalModChain LD Q0 Q1 Q2 Q3 Q4 Q5 Q6 Q7 Q8 Q9 Q10 Q11 Q12)
    (hlo : 65 ≤ Q11) (hhi : Q1 ≤ 1525) {s : Fin (2^(n+1)) → Int} (hs : Ternary s) {K : Int} (hK : 0 < K)
    (hK' : 4 * K < 2^31) {ct : R_Q_square Q0 (2^(n+1))} {y : Fin (2^n) → ℝ} {ε : ℝ}
    (hct : Near s ct (fun i => 2^LD * (y i : ℂ)) ε) (hy : ∀ i, |(4 * y i - 1) / (4 * K)| ≤ 1) (ω : Rng) :
    Ok (EvalModKeyF R LD K Q1 Q2 Q3 Q4 Q5 Q6 Q7 Q8 Q9 Q10 Q11 Q12 ct s ω) fun p =>
      Near s p.1 (fun i => 2^LD * ((asin3 (Real.cos (12 * Real.pi * (4 * y i - 1) / K)) : ℝ) : ℂ))
        (evalModErrF n (weight s) (2^LD) K ε) := by
  have hN : 2^(n+1) ≤ 2^17 := Nat.pow_le_pow_right (by norm_num) (by omega)
  unfold EvalModKeyF
  rw [convI_spec (by omega) s s hs.abs_le hs.abs_le, pure_bind]
  refine Ok.bind (swk_evk R hn hs R_Q_square.setzero _) fun k1 e1 => ?_
  refine Ok.bind (swk_evk R hn hs R_Q_square.setzero _) fun k2 e2 => ?_
  refine Ok.bind (swk_evk R hn hs R_Q_square.setzero _) fun k3 e3 => ?_
  refine Ok.bind (swk_evk R hn hs R_Q_square.setzero _) fun k4 e4 => ?_
  refine Ok.bind (swk_evk R hn hs R_Q_square.setzero _) fun k5 e5 => ?_
  refine Ok.bind (swk_evk R hn hs R_Q_square.setzero _) fun k6 e6 => ?_
  refine Ok.bind (swk_evk R hn hs R_Q_square.setzero _) fun k7 e7 => ?_
  refine Ok.bind (swk_evk R hn hs R_Q_square.setzero _) fun k8 e8 => ?_
  refine Ok.bind (swk_evk R hn hs R_Q_square.setzero _) fun k9 e9 => ?_
  refine Ok.bind (swk_evk R hn hs R_Q_square.setzero _) fun k10 e10 => ?_
  refine Ok.bind (swk_evk R hn hs R_Q_square.setzero _) fun k11 e11 => ?_
  refine Ok.bind (EvalModF_near hD hn hC hlo hhi hs hK hK' hct hy e1 e2 e3 e4 e5 e6 e7 e8 e9 e10 e11) fun p hp => ?_
  exact Ok.pure hp

end

end EvalRound

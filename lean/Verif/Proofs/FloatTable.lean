import Mathlib.Analysis.Real.Pi.Bounds
import Mathlib.Analysis.SpecialFunctions.Trigonometric.Bounds
import Verif.Proofs.FloatRow
import Verif.Proofs.DFT
import Verif.Spec.Float

/-! # The tables of DFT.h in binary64 -/

namespace EvalRound
open Real Complex Finset SparseDiagonal

theorem PI64_eq : PI64 = 884279719003555 / 2^48 := by
  unfold PI64 rnd
  have h1 : Int.log 2 |(3.1415926535897932384626433 : ℝ)| = 1 := by
    rw [abs_of_pos (by norm_num), Int.log_of_one_le_right _ (by norm_num)]
    have : ⌊(3.1415926535897932384626433 : ℝ)⌋₊ = 3 := by
      rw [Nat.floor_eq_iff (by norm_num)]
      norm_num
    rw [this]
    rfl
  have h2 : ulpExp 3.1415926535897932384626433 = -51 := by
    unfold ulpExp
    rw [h1]
    rfl
  rw [h2, zpow_neg, show (2:ℝ)^(51:ℤ) = 2^51 from zpow_natCast 2 51]
  have h3 : roundEven (3.1415926535897932384626433 / (2^51)⁻¹) = 7074237752028440 := by
    have hf : ⌊(3.1415926535897932384626433 / (2^51)⁻¹ : ℝ)⌋ = 7074237752028440 := by
      rw [Int.floor_eq_iff]
      norm_num
    unfold roundEven
    rw [hf, if_pos (by norm_num)]
  rw [h3]
  norm_num

theorem PI64_err : |PI64 - π| ≤ 1.104 * uF := by
  have h1 := pi_gt_d20
  have h2 := pi_lt_d20
  rw [PI64_eq, uF_eq, abs_le]
  constructor
  · have : (3.14159265358979323847 : ℝ) ≤ 884279719003555 / 2^48 + 1.104 * (1/2^53) := by norm_num
    linarith
  · have : (884279719003555 : ℝ) / 2^48 - 1.104 * (1/2^53) ≤ 3.14159265358979323846 := by norm_num
    linarith

theorem angleF_ok {n f : Nat} (hn : n ≤ 26) (hf : f < 2 * 2^(n+1)) :
    Ok (angleF (2^(n+1)) f) fun t => |t| ≤ 7 ∧ |t - π / ((2^(n+1) : ℕ) : ℝ) * f| ≤ 8.5 * uF := by
  have hu := uF_pos.le
  have hu2 := uF_le
  have hN : (0:ℝ) < ((2^(n+1) : ℕ) : ℝ) := by positivity
  have hfN : (f:ℝ) / ((2^(n+1) : ℕ) : ℝ) ≤ 2 := by
    rw [div_le_iff₀ hN]
    exact_mod_cast hf.le
  have hf0 : (0:ℝ) ≤ (f:ℝ) / ((2^(n+1) : ℕ) : ℝ) := by positivity
  have h1 : fl (PI64 / ((2^(n+1) : ℕ) : ℝ)) = pure (PI64 / ((2^(n+1) : ℕ) : ℝ)) := by
    refine fl_exact (k := 884279719003555) (e := -((48 + (n+1) : ℕ) : ℤ)) (by norm_num) (by push_cast; omega) (by push_cast; omega) ?_
    rw [PI64_eq, zpow_neg, zpow_natCast, pow_add]
    push_cast
    field_simp
    ring
  unfold angleF
  rw [h1, pure_bind]
  have e1 : PI64 / ((2^(n+1) : ℕ) : ℝ) * f = PI64 * (f / ((2^(n+1) : ℕ) : ℝ)) := by ring
  have e2 : π / ((2^(n+1) : ℕ) : ℝ) * f = π * (f / ((2^(n+1) : ℕ) : ℝ)) := by ring
  rw [e1, e2]
  generalize (f:ℝ) / ((2^(n+1) : ℕ) : ℝ) = y at *
  have hp0 : 0 ≤ PI64 := by rw [PI64_eq]; positivity
  have hp1 : PI64 ≤ 3.1416 := by rw [PI64_eq]; norm_num
  have hx : |PI64 * y| ≤ 6.2832 := by
    rw [abs_of_nonneg (mul_nonneg hp0 hf0)]
    nlinarith
  refine Ok.mono (fl_near (hx.trans ?_)) fun t ht => ?_
  · have : (2:ℝ)^3 ≤ 2^1020 := pow_le_pow_right₀ (by norm_num) (by norm_num)
    exact le_trans (by norm_num) this
  have hη : etaF ≤ 0.001 * uF := by
    rw [etaF_eq, uF_eq]
    have : (1:ℝ)/2^1075 ≤ 1/2^100 := one_div_le_one_div_of_le (by positivity) (pow_le_pow_right₀ (by norm_num) (by norm_num))
    exact this.trans (by norm_num)
  have a1 : uF * |PI64 * y| ≤ uF * 6.2832 := mul_le_mul_of_nonneg_left hx hu
  have a2 : |PI64 * y - π * y| ≤ 2 * (1.104 * uF) := by
    rw [← sub_mul, abs_mul, abs_of_nonneg hf0, mul_comm]
    exact mul_le_mul hfN PI64_err (abs_nonneg _) (by norm_num)
  constructor
  · have := abs_add_le (t - PI64 * y) (PI64 * y)
    rw [sub_add_cancel] at this
    linarith
  · have := abs_add_le (t - PI64 * y) (PI64 * y - π * y)
    rw [sub_add_sub_cancel] at this
    linarith

theorem cos_sin_near (x y : ℝ) : ‖(⟨Real.cos x, Real.sin x⟩ : ℂ) - ⟨Real.cos y, Real.sin y⟩‖ ≤ |x - y| := by
  have e : ∀ x : ℝ, (⟨Real.cos x, Real.sin x⟩ : ℂ) = Complex.exp (I * x) := by
    intro x
    rw [mul_comm, Complex.exp_mul_I, ← Complex.ofReal_cos, ← Complex.ofReal_sin, Complex.mk_eq_add_mul_I]
  rw [e, e]
  have h : Complex.exp (I * x) - Complex.exp (I * y) = (Complex.exp (I * ((x - y : ℝ) : ℂ)) - 1) * Complex.exp (I * y) := by
    rw [sub_mul, one_mul, ← Complex.exp_add]
    congr 2
    push_cast
    ring
  rw [h, norm_mul, mul_comm I (y:ℂ), Complex.norm_exp_ofReal_mul_I, mul_one]
  exact Real.norm_exp_I_mul_ofReal_sub_one_le

theorem twiddleF {L : Libm} (hL : L.Accurate) {n f : Nat} {t : ℝ}
    (h1 : |t| ≤ 7) (h2 : |t - π / ((2^(n+1) : ℕ) : ℝ) * f| ≤ 8.5 * uF) :
    ‖(⟨L.cos t, L.sin t⟩ : ℂ) - zeta (2^(n+1)) ^ f‖ ≤ 12 * uF := by
  have hu := uF_pos.le
  obtain ⟨c1, c2⟩ := hL t h1
  have e : (1:ℝ)/2^52 = 2 * uF := by rw [uF_eq]; norm_num
  rw [e] at c1 c2
  have a1 : ‖(⟨L.cos t, L.sin t⟩ : ℂ) - ⟨Real.cos t, Real.sin t⟩‖ ≤ 1.4143 * (2 * uF) := norm_le_two c1 c2
  have a2 := (cos_sin_near t (π / ((2^(n+1) : ℕ) : ℝ) * f)).trans h2
  rw [cos_sin_zeta] at a2
  have := norm_add_le ((⟨L.cos t, L.sin t⟩ : ℂ) - ⟨Real.cos t, Real.sin t⟩) ((⟨Real.cos t, Real.sin t⟩ : ℂ) - zeta (2^(n+1)) ^ f)
  rw [sub_add_sub_cancel] at this
  linarith

theorem splitStepF_spec {L : Libm} {n d k i f : Nat} (hn : n ≤ 30) (hd : d < n) (hk : k < 2^d) (hi : i < 2^(n-1-d))
    {t : ℝ} (ht : angleF (2^(n+1)) f = pure t) {ω : Nat → ℂ} (hf : (⟨L.cos t, L.sin t⟩ : ℂ) = ω i) {A : Fac (n+1)}
    (h1 : Good (splitOff (2^n) (2^(n-1-d))) A.1) (h2 : Good (splitOff (2^n) (2^(n-1-d))) A.2)
    (h3 : ∀ p q : Fin (2^n), denC A.1 A.2 p q = if Done (2^(n-1-d)) k i p then bfly (2^n) (2^(n-1-d)) ω p q else 0) :
    Ok (splitStepF L (n+1) (2^(n-1-d)) k i f A) fun A =>
      Good (splitOff (2^n) (2^(n-1-d))) A.1 ∧ Good (splitOff (2^n) (2^(n-1-d))) A.2 ∧
      ∀ p q : Fin (2^n), denC A.1 A.2 p q = if Done (2^(n-1-d)) k (i+1) p then bfly (2^n) (2^(n-1-d)) ω p q else 0 := by
  have hH : 2^n ≤ 2^30 := Nat.pow_le_pow_right (by norm_num) hn
  have hMpos : 0 < 2^(n-1-d) := Nat.two_pow_pos _
  have hdiv : 2^n = 2 * 2^(n-1-d) * 2^d := by
    rw [show 2 * 2^(n-1-d) = 2^(n-d) by rw [← pow_succ']; congr 1; omega, ← pow_add]; congr 1; omega
  have hle : 2*2^(n-1-d)*(k+1) ≤ 2^n := by rw [hdiv]; exact Nat.mul_le_mul_left _ hk
  have hexp : 2*2^(n-1-d)*(k+1) = 2*2^(n-1-d)*k + 2*2^(n-1-d) := by ring
  have hP0 : 2*2^(n-1-d)*k + i < 2^n := by omega
  have hP1 : 2*2^(n-1-d)*k + 2^(n-1-d) + i < 2^n := by omega
  have hO := splitOff_range (H := 2^n) hMpos (by omega)
  have x00 : ∃ s, shift (splitOff (2^n) (2^(n-1-d)) s) (⟨_, hP0⟩ : Fin (2^n)) = ⟨_, hP0⟩ :=
    ⟨0, by simp [splitOff, shift_zero]⟩
  have x11 : ∃ s, shift (splitOff (2^n) (2^(n-1-d)) s) (⟨_, hP1⟩ : Fin (2^n)) = ⟨_, hP1⟩ :=
    ⟨0, by simp [splitOff, shift_zero]⟩
  have x01 : ∃ s, shift (splitOff (2^n) (2^(n-1-d)) s) (⟨_, hP0⟩ : Fin (2^n)) = ⟨_, hP1⟩ :=
    ⟨1, shift_of_val (by
      simp only [splitOff]
      rw [if_neg (by decide), if_pos trivial, Int.emod_eq_of_lt (by omega) (by omega)]
      omega)⟩
  have x10 : ∃ s, shift (splitOff (2^n) (2^(n-1-d)) s) (⟨_, hP1⟩ : Fin (2^n)) = ⟨_, hP0⟩ :=
    ⟨2, shift_of_val (by
      simp only [splitOff]
      rw [if_neg (by decide), if_neg (by decide), show (((2*2^(n-1-d)*k + 2^(n-1-d) + i : ℕ) : Int) +
        (((2^n : ℕ) : Int) - ((2^(n-1-d) : ℕ) : Int))) = ((2*2^(n-1-d)*k + i : ℕ) : Int) + ((2^n : ℕ) : Int) by omega,
        Int.add_emod_right, Int.emod_eq_of_lt (by omega) (by omega)])⟩
  unfold splitStepF
  refine Ok.bind (set_good hH hO h1 ⟨_, hP0⟩ ⟨_, hP0⟩ x00 1) fun a1 ⟨g1, d1⟩ => ?_
  refine Ok.bind (set_good hH hO g1 ⟨_, hP1⟩ ⟨_, hP0⟩ x10 1) fun a2 ⟨g2, d2⟩ => ?_
  rw [ht, pure_bind]
  refine Ok.bind (set_good hH hO g2 ⟨_, hP0⟩ ⟨_, hP1⟩ x01 _) fun a3 ⟨g3, d3⟩ => ?_
  refine Ok.bind (set_good hH hO h2 ⟨_, hP0⟩ ⟨_, hP1⟩ x01 _) fun b1 ⟨k1, e1⟩ => ?_
  refine Ok.bind (set_good hH hO g3 ⟨_, hP1⟩ ⟨_, hP1⟩ x11 _) fun a4 ⟨g4, d4⟩ => ?_
  refine Ok.bind (set_good hH hO k1 ⟨_, hP1⟩ ⟨_, hP1⟩ x11 _) fun b2 ⟨k2, e2⟩ => ?_
  refine Ok.pure ⟨g4, k2, fun p q => ?_⟩
  exact step_den hMpos hi hf (P0 := ⟨_, hP0⟩) (P1 := ⟨_, hP1⟩) rfl rfl h3
    (fun p q => by rw [d4, d3, d2, d1]) (fun p q => by rw [e2, e1]) p q

/-- a factor of `splitU0NR` in binary64 -/
structure IsFactorF (n d : Nat) (A : Fac (n+1)) : Prop where
  re : Good (splitOff (2^n) (2^(n-1-d))) A.1
  im : Good (splitOff (2^n) (2^(n-1-d))) A.2
  den : ∃ ω : Nat → ℂ, (∀ i, i < 2^(n-1-d) → ‖ω i - ctw n (n-1-d) i‖ ≤ 12 * uF) ∧
    denC A.1 A.2 = bfly (2^n) (2^(n-1-d)) ω

theorem splitFactorF_spec {L : Libm} (hL : L.Accurate) {n d : Nat} (hn : n ≤ 26) (hd : d < n) (A0 : Fac (n+1)) :
    Ok (splitFactorF L (n+1) d A0) (IsFactorF n d) := by
  unfold splitFactorF
  have hMpos : 0 < 2^(n-1-d) := Nat.two_pow_pos _
  have hdiv : 2^n = 2 * 2^(n-1-d) * 2^d := by
    rw [show 2 * 2^(n-1-d) = 2^(n-d) by rw [← pow_succ']; congr 1; omega, ← pow_add]; congr 1; omega
  rw [show n + 1 - d - 2 = n - 1 - d by omega]
  have hang : ∀ i, ∃ t : ℝ, angleF (2^(n+1)) (2^d * 5^i % (2 * 2^(n+1))) = pure t ∧ |t| ≤ 7 ∧
      |t - π / ((2^(n+1) : ℕ) : ℝ) * (2^d * 5^i % (2 * 2^(n+1)) : ℕ)| ≤ 8.5 * uF := fun i =>
    angleF_ok hn (Nat.mod_lt _ (by positivity))
  choose t ht0 ht1 ht2 using hang
  have hω : ∀ i, ‖(⟨L.cos (t i), L.sin (t i)⟩ : ℂ) - ctw n (n-1-d) i‖ ≤ 12 * uF := by
    intro i
    have := twiddleF hL (ht1 i) (ht2 i)
    rwa [zeta_pow_mod (by positivity), show zeta (2^(n+1)) ^ (2^d * 5^i) = ctw n (n-1-d) i by
      rw [ctw, show n - 1 - (n-1-d) = d by omega]] at this
  obtain ⟨ω, hωe⟩ : ∃ ω : Nat → ℂ, ∀ i, (⟨L.cos (t i), L.sin (t i)⟩ : ℂ) = ω i := ⟨_, fun _ => rfl⟩
  refine Ok.mono (forUp_inv (Nat.zero_le _) (P := fun k (A : Fac (n+1)) =>
    Good (splitOff (2^n) (2^(n-1-d))) A.1 ∧ Good (splitOff (2^n) (2^(n-1-d))) A.2 ∧
      ∀ p q : Fin (2^n), denC A.1 A.2 p q =
        if Done (2^(n-1-d)) k 0 p then bfly (2^n) (2^(n-1-d)) ω p q else 0)
    ⟨setOffs_good _, setOffs_good _, fun p q => ?_⟩ ?_) ?_
  · rw [if_neg (by unfold Done; rintro (h | ⟨-, h⟩) <;> exact Nat.not_lt_zero _ h)]
    simp only [denC]
    rw [den_setOffs, den_setOffs]
    rfl
  · rintro k A - hk ⟨h1, h2, h3⟩
    refine Ok.bind (forUp_inv (Nat.zero_le _) (P := fun i (st : Fac (n+1) × Nat) =>
      st.2 = 2^d * 5^i % (2 * 2^(n+1)) ∧
      Good (splitOff (2^n) (2^(n-1-d))) st.1.1 ∧ Good (splitOff (2^n) (2^(n-1-d))) st.1.2 ∧
      ∀ p q : Fin (2^n), denC st.1.1 st.1.2 p q =
        if Done (2^(n-1-d)) k i p then bfly (2^n) (2^(n-1-d)) ω p q else 0)
      ⟨?_, h1, h2, h3⟩ ?_) ?_
    · have : 2^d < 2^(n+1) := Nat.pow_lt_pow_right (by norm_num) (by omega)
      rw [pow_zero, mul_one, Nat.mod_eq_of_lt (by omega)]
    · rintro i ⟨A, f⟩ - hi ⟨hf, h1, h2, h3⟩
      simp only at hf h1 h2 h3
      subst hf
      refine Ok.bind (splitStepF_spec (by omega) hd hk hi (ht0 i) (hωe i) h1 h2 h3) fun A' h => ?_
      have hlt : 2^d * 5^i % (2 * 2^(n+1)) < 2 * 2^(n+1) := Nat.mod_lt _ (by positivity)
      rw [five_ok (five_bound hn hlt), pure_bind]
      refine Ok.pure ⟨?_, h⟩
      simp only []
      rw [Nat.mod_mul_mod, pow_succ 5 i, mul_assoc]
    · rintro ⟨A, f⟩ ⟨-, h1, h2, h3⟩
      refine Ok.pure ⟨h1, h2, fun p q => ?_⟩
      rw [h3]
      have : Done (2^(n-1-d)) (k+1) 0 p.val ↔ Done (2^(n-1-d)) k (2^(n-1-d)) p.val := by
        unfold Done
        have := Nat.mod_lt p.val hMpos
        omega
      simp only [this]
  · rintro A ⟨h1, h2, h3⟩
    refine ⟨h1, h2, ω, fun i _ => by rw [← hωe]; exact hω i, ?_⟩
    funext p q
    rw [h3, if_pos]
    left
    rw [Nat.div_lt_iff_lt_mul (by positivity), mul_comm, ← hdiv]
    exact p.isLt

theorem splitU0NRF_spec {L : Libm} (hL : L.Accurate) {n : Nat} (hn : n ≤ 26) (A0 : Fin n → Fac (n+1)) :
    Ok (splitU0NRF L (n+1) A0) fun U => ∀ d : Fin n, IsFactorF n d (U d) := by
  unfold splitU0NRF
  refine tabM_spec (P := fun d A => IsFactorF n d A) fun d hd => ?_
  rw [rd_of_lt A0 hd, pure_bind]
  exact splitFactorF_spec hL hn hd _

/-! ## The effect of the rounded entries -/

/-- the relative change of the columns -/
noncomputable def colErr (H M : Nat) (ω ω' : Nat → ℂ) (q : Fin H) : ℂ :=
  if q.val % (2*M) < M then 0 else (ω' (q % M) - ω (q % M)) * star (ω (q % M))

theorem bfly_col {H M : Nat} (hM : 0 < M) {ω ω' : Nat → ℂ} (hω : ∀ i, i < M → ω i * star (ω i) = 1) :
    bfly H M ω' - bfly H M ω = bfly H M ω * Matrix.diagonal (colErr H M ω ω') := by
  funext p q
  rw [Matrix.mul_diagonal, Matrix.sub_apply]
  unfold bfly colErr
  obtain ⟨b, c, i, e, hc, hi⟩ := exists_blk hM p.val
  have hb := blk (b := b) hi hc
  have hl := lo_blk (b := b) hi hc
  rw [← e] at hb hl
  rw [hl, hb.2.2.1]
  have h0 := blk (M := M) (b := b) (c := 0) hi (by omega)
  have h1 := blk (M := M) (b := b) (c := 1) hi (by omega)
  rw [show 2*M*b + 0*M + i = 2*M*b + i by ring] at h0
  rw [show 2*M*b + 1*M + i = 2*M*b + i + M by ring] at h1
  by_cases c0 : q.val = 2*M*b + i
  · rw [if_pos c0, if_pos c0, c0, h0.2.1, if_pos (by omega)]
    simp
  · rw [if_neg c0, if_neg c0]
    by_cases c1 : q.val = 2*M*b + i + M
    · rw [if_pos c1, if_pos c1, c1, h1.2.1, if_neg (by omega), h1.2.2.1]
      have := hω i hi
      linear_combination (- sgn M p * (ω' i - ω i)) * this
    · rw [if_neg c1, if_neg c1]
      simp

theorem colErr_le {H M : Nat} (hM : 0 < M) {ω ω' : Nat → ℂ} (hω : ∀ i, i < M → ω i * star (ω i) = 1) {τ : ℝ} (hτ : 0 ≤ τ)
    (h : ∀ i, i < M → ‖ω' i - ω i‖ ≤ τ) (q : Fin H) : ‖colErr H M ω ω' q‖ ≤ τ := by
  unfold colErr
  split
  · rw [norm_zero]; exact hτ
  · have hq := Nat.mod_lt q.val hM
    have h1 : ‖ω (q % M)‖ = 1 := by
      have := congrArg norm (hω _ hq)
      rw [norm_mul, norm_star, norm_one] at this
      nlinarith [norm_nonneg (ω (q % M))]
    rw [norm_mul, norm_star, h1, mul_one]
    exact h _ hq

theorem bfly_norm {H M : Nat} (hM : 0 < M) {ω : Nat → ℂ} {c : ℝ} (hc : 1 ≤ c) (h : ∀ i, i < M → ‖ω i‖ ≤ c) (p q : Fin H) :
    ‖bfly H M ω p q‖ ≤ c := by
  unfold bfly
  split
  · rw [norm_one]; exact hc
  · split
    · have hs : ‖sgn M p‖ = 1 := by unfold sgn; split <;> simp
      rw [norm_mul, hs, one_mul]
      exact h _ (Nat.mod_lt _ hM)
    · rw [norm_zero]; linarith

theorem vec_le_den {H : Nat} {Ar Ai : SparseDiagonal H 3} (hr : InRange Ar) (ho : Ar.off = Ai.off) (h1 : FirstOwns Ar)
    (h2 : FirstOwns Ai) (k : Fin 3) (i : Fin H) : ∃ j, ‖(⟨Ar.vec k i, Ai.vec k i⟩ : ℂ)‖ ≤ ‖denC Ar Ai i j‖ := by
  by_cases h : ∃ s, s < k ∧ Ar.off s = Ar.off k
  · obtain ⟨s, hs, e⟩ := h
    refine ⟨i, ?_⟩
    rw [h1 s k hs e, h2 s k hs (by rw [← ho]; exact e), show (⟨0, 0⟩ : ℂ) = 0 from rfl, norm_zero]
    exact norm_nonneg _
  · have hne : ∀ s', s' < k → shift (Ar.off s') i ≠ shift (Ar.off k) i := fun s' hs e =>
      h ⟨s', hs, shift_inj_off (hr s') (hr k) e⟩
    refine ⟨shift (Ar.off k) i, le_of_eq ?_⟩
    unfold denC
    rw [den_of_first hr h1 rfl hne, den_of_first (A := Ai) (fun s => by rw [← ho]; exact hr s) h2
      (s := k) (by rw [← ho]) (by rw [← ho]; exact hne)]

/-! ## The adjoint factors -/

structure IsAdjF (n d : Nat) (A : Fac (n+1)) : Prop where
  rng : InRange A.1
  off : A.1.off = A.2.off
  own : FirstOwns A.1 ∧ FirstOwns A.2
  den : ∃ ω : Nat → ℂ, (∀ i, i < 2^(n-1-d) → ‖ω i - ctw n (n-1-d) i‖ ≤ 12 * uF) ∧
    denC A.1 A.2 = (bfly (2^n) (2^(n-1-d)) ω).conjTranspose

theorem IsFactorF.inRange {n d : Nat} (hd : d < n) {A : Fac (n+1)} (h : IsFactorF n d A) : InRange A.1 ∧ InRange A.2 := by
  constructor <;> intro s
  · rw [h.re.off]
    exact splitOff_range (Nat.two_pow_pos _) (Nat.pow_lt_pow_right (by norm_num) (by omega)) s
  · rw [h.im.off]
    exact splitOff_range (Nat.two_pow_pos _) (Nat.pow_lt_pow_right (by norm_num) (by omega)) s

theorem adjFactorF_spec {n d : Nat} (hn : n ≤ 30) (hd : d < n) {A : Fac (n+1)} (h : IsFactorF n d A) :
    Ok (adjFactor A) (IsAdjF n d) := by
  unfold adjFactor
  obtain ⟨h1, h2⟩ := h.inRange hd
  have hH : 2^n ≤ 2^30 := Nat.pow_le_pow_right (by norm_num) hn
  rw [transpose_eq hH (fun s => ⟨(h1 s).1, (h1 s).2.le⟩), pure_bind,
    transpose_eq hH (fun s => ⟨(h2 s).1, (h2 s).2.le⟩), pure_bind, negate_eq]
  obtain ⟨ω, hω, hden⟩ := h.den
  refine Ok.pure ⟨transposed_inRange h1, ?_, ⟨transposed_firstOwns h1 h.re.own, ?_⟩, ω, hω, ?_⟩
  · simp only [transposed]
    rw [h.re.off, h.im.off]
  · intro s s' hs ho i
    simp only [neg_eq_zero]
    exact transposed_firstOwns h2 h.im.own s s' hs ho i
  · funext p q
    simp only [denC]
    rw [den_transposed (fun s => (h1 s).1), den_neg, den_transposed (fun s => (h2 s).1), Matrix.conjTranspose_apply,
      ← hden]
    rfl

theorem adjTableF_spec {L : Libm} (hL : L.Accurate) {n : Nat} (hn : n ≤ 26) :
    Ok (adjTableF L (n+1)) fun U => ∀ d : Fin n, IsAdjF n d (U d) := by
  unfold adjTableF
  refine Ok.bind (splitU0NRF_spec hL hn _) fun U hU => ?_
  refine tabM_spec (P := fun d A => IsAdjF n d A) fun d hd => ?_
  rw [rd_of_lt U hd, pure_bind]
  exact adjFactorF_spec (by omega) hd (hU ⟨d, hd⟩)

end EvalRound

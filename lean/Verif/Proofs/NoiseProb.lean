import Verif.Proofs.RaiseProb
import Verif.Proofs.FloatDft

/-!
# The noise of an encryption as a count over the draws

Helper lemmas for C98.
-/

namespace EvalRound
open Finset Z_Q

/-- the noise that `enc` makes from two values of `rand()`, core.h:40-42 -/
def noiseVal (x y : Nat) : Int := if y % 2 = 1 then -((x % 9 : Nat) : Int) else (x % 9 : Nat)

/-! ## moments -/

/-- `68 b - 3 ∑ (x%9)²` as a function of `b % 9` -/
def slack9 : Nat → Nat
  | 0 => 0 | 1 => 68 | 2 => 133 | 3 => 189 | 4 => 230 | 5 => 250 | 6 => 243 | 7 => 203 | _ => 124

theorem sum_sq_mod9 (b : Nat) : 3 * ∑ x ∈ range b, (x % 9)^2 + slack9 (b % 9) = 68 * b := by
  induction b with
  | zero => rfl
  | succ b ih =>
    rw [sum_range_succ, mul_add]
    have h : b % 9 < 9 := Nat.mod_lt _ (by norm_num)
    have h2 : (b+1) % 9 = (b % 9 + 1) % 9 := by omega
    rw [h2]
    generalize b % 9 = j at *
    generalize ∑ x ∈ range b, (x % 9)^2 = S at *
    interval_cases j <;> simp only [slack9] at ih ⊢ <;> norm_num [slack9] at ih ⊢ <;> omega

/-- `(2n)!/(2^n n!)` -/
noncomputable def dfact (n : Nat) : ℝ := ((2*n).factorial : ℝ) / (2^n * n.factorial)

theorem dfact_succ (n : Nat) : dfact (n+1) = (2*n+1) * dfact n := by
  unfold dfact
  rw [show 2*(n+1) = (2*n+1)+1 by ring, Nat.factorial_succ, Nat.factorial_succ, Nat.factorial_succ, pow_succ]
  have : (n.factorial : ℝ) ≠ 0 := by exact_mod_cast n.factorial_ne_zero
  have : (n:ℝ) + 1 ≠ 0 := by positivity
  push_cast
  field_simp
  ring

theorem dfact_nonneg (n : Nat) : 0 ≤ dfact n := by unfold dfact; positivity

theorem moments9 (b n : Nat) : ∑ x ∈ range b, ((x % 9 : Nat) : ℝ)^(2*n) ≤ b * ((68/3)^n * dfact n) := by
  induction n with
  | zero => simp [dfact]
  | succ n ih =>
    rcases Nat.eq_zero_or_pos n with rfl | hn
    · have h := sum_sq_mod9 b
      have h1 : (3:ℝ) * ∑ x ∈ range b, ((x % 9 : Nat) : ℝ)^2 ≤ 68 * b := by
        have h2 : 3 * ∑ x ∈ range b, (x % 9)^2 ≤ 68 * b := by omega
        exact_mod_cast h2
      have h3 : dfact (0+1) = 1 := by rw [dfact_succ]; simp [dfact]
      rw [h3]
      norm_num
      linarith
    · have h1 : ∑ x ∈ range b, ((x % 9 : Nat) : ℝ)^(2*(n+1)) ≤ 64 * ∑ x ∈ range b, ((x % 9 : Nat) : ℝ)^(2*n) := by
        rw [mul_sum]
        refine sum_le_sum fun x _ => ?_
        have h2 : ((x % 9 : Nat) : ℝ) ≤ 8 := by exact_mod_cast Nat.lt_succ_iff.1 (Nat.mod_lt x (by norm_num : 0 < 9))
        have h3 : ((x % 9 : Nat) : ℝ)^2 ≤ 64 := by
          have := pow_le_pow_left₀ (Nat.cast_nonneg _) h2 2
          norm_num at this ⊢
          exact this
        rw [show 2*(n+1) = 2 + 2*n by ring, pow_add]
        exact mul_le_mul_of_nonneg_right h3 (by positivity)
      refine h1.trans ((mul_le_mul_of_nonneg_left ih (by norm_num)).trans ?_)
      rw [dfact_succ, pow_succ]
      have hn' : (1:ℝ) ≤ n := by exact_mod_cast hn
      have h4 : 0 ≤ (b:ℝ) * ((68/3)^n * dfact n) := mul_nonneg (Nat.cast_nonneg _) (mul_nonneg (by positivity) (dfact_nonneg n))
      calc 64 * ((b:ℝ) * ((68/3)^n * dfact n)) ≤ (68/3 * (2*n+1)) * ((b:ℝ) * ((68/3)^n * dfact n)) :=
            mul_le_mul_of_nonneg_right (by linarith) h4
        _ = _ := by ring

theorem exp_series (y : ℝ) : HasSum (fun n : ℕ => y^n / n.factorial) (Real.exp y) := by
  rw [Real.exp_eq_exp_ℝ]
  exact NormedSpace.expSeries_div_hasSum_exp y

/-- the size of the noise is sub-Gaussian with the variance `68/3` of the uniform distribution -/
theorem cosh_sum9 (b : Nat) (l : ℝ) : ∑ x ∈ range b, Real.cosh (l * (x % 9 : Nat)) ≤ b * Real.exp (34/3 * l^2) := by
  have h1 : HasSum (fun n : ℕ => ∑ x ∈ range b, (l * (x % 9 : Nat))^(2*n) / (2*n).factorial) (∑ x ∈ range b, Real.cosh (l * (x % 9 : Nat))) :=
    hasSum_sum fun x _ => Real.hasSum_cosh _
  have h2 : HasSum (fun n : ℕ => (b:ℝ) * ((34/3 * l^2)^n / n.factorial)) (b * Real.exp (34/3 * l^2)) :=
    (exp_series (34/3 * l^2)).mul_left (b:ℝ)
  refine hasSum_le (fun n => ?_) h1 h2
  have e : ∑ x ∈ range b, (l * (x % 9 : Nat))^(2*n) / (2*n).factorial = (l^(2*n) / (2*n).factorial) * ∑ x ∈ range b, ((x % 9 : Nat) : ℝ)^(2*n) := by
    rw [mul_sum]
    exact sum_congr rfl fun x _ => by rw [mul_pow]; ring
  rw [e]
  have h3 : 0 ≤ l^(2*n) / ((2*n).factorial : ℝ) := div_nonneg ((even_two_mul n).pow_nonneg l) (Nat.cast_nonneg _)
  refine (mul_le_mul_of_nonneg_left (moments9 b n) h3).trans (le_of_eq ?_)
  unfold dfact
  have : ((2*n).factorial : ℝ) ≠ 0 := by exact_mod_cast (2*n).factorial_ne_zero
  have h68 : (68/3:ℝ)^n = (34/3)^n * 2^n := by rw [← mul_pow]; norm_num
  rw [pow_mul, mul_pow, h68]
  field_simp

theorem sum_parity (m : Nat) (f : Nat → ℝ) : ∑ y ∈ range (2*m), f (y % 2) = m * (f 0 + f 1) := by
  induction m with
  | zero => simp
  | succ m ih =>
    rw [show 2*(m+1) = 2*m+1+1 by ring, sum_range_succ, sum_range_succ, ih, show (2*m) % 2 = 0 by omega, show (2*m+1) % 2 = 1 by omega]
    push_cast
    ring

/-- the moment generating function of the noise -/
theorem mgf_noise {b : Nat} (hb : 2 ∣ b) (l : ℝ) :
    ∑ v : Fin 2 → Fin b, Real.exp (l * (noiseVal (v 0) (v 1) : ℝ)) ≤ (b:ℝ)^2 * Real.exp (34/3 * l^2) := by
  obtain ⟨m, rfl⟩ := hb
  rw [← Equiv.sum_comp (finTwoArrowEquiv (Fin (2*m))).symm, Fintype.sum_prod_type]
  have h1 : ∀ x : Fin (2*m), ∑ y : Fin (2*m), Real.exp (l * (noiseVal (((finTwoArrowEquiv (Fin (2*m))).symm (x, y)) 0)
      (((finTwoArrowEquiv (Fin (2*m))).symm (x, y)) 1) : ℝ)) = (2*m : ℕ) * Real.cosh (l * (x.val % 9 : Nat)) := by
    intro x
    have h2 := sum_parity m (fun p => Real.exp (l * ((if p = 1 then -((x.val % 9 : Nat) : Int) else (x.val % 9 : Nat) : Int) : ℝ)))
    rw [← Fin.sum_univ_eq_sum_range] at h2
    refine Eq.trans ?_ (h2.trans ?_)
    · rfl
    · rw [Real.cosh_eq, if_neg (by norm_num), if_pos rfl, Int.cast_neg, Int.cast_natCast, mul_neg]
      push_cast
      ring
  rw [sum_congr rfl fun x _ => h1 x, ← mul_sum, Fin.sum_univ_eq_sum_range (fun x => Real.cosh (l * (x % 9 : Nat)))]
  refine (mul_le_mul_of_nonneg_left (cosh_sum9 (2*m) l) (Nat.cast_nonneg _)).trans (le_of_eq ?_)
  ring

/-! ## Chernoff's bound -/

/-- Chernoff's bound for independent copies of a sub-Gaussian value -/
theorem chernoff_sub {ι α : Type*} [Fintype ι] [DecidableEq ι] [Fintype α] (f : α → ℝ) {v : ℝ} (hv : 0 < v)
    (hf : ∀ l, ∑ x, Real.exp (l * f x) ≤ Fintype.card α * Real.exp (v * l^2 / 2)) (w : ι → ℝ) {W T : ℝ} (hW : 0 < W) (hw : ∑ i, w i^2 ≤ W)
    (hT : 0 ≤ T) :
    ((univ.filter fun a : ι → α => T ≤ ∑ i, w i * f (a i)).card : ℝ) ≤ Real.exp (-(T^2 / (2 * v * W))) * Fintype.card (ι → α) := by
  obtain ⟨l, hl⟩ : ∃ l, l = T / (v * W) := ⟨_, rfl⟩
  have hl0 : 0 ≤ l := by rw [hl]; positivity
  have h1 : ((univ.filter fun a : ι → α => T ≤ ∑ i, w i * f (a i)).card : ℝ) ≤ ∑ a : ι → α, Real.exp (l * (∑ i, w i * f (a i)) - l*T) := by
    rw [card_eq_sum_ones, sum_filter, Nat.cast_sum]
    refine sum_le_sum fun a _ => ?_
    split_ifs with h
    · rw [Nat.cast_one]
      refine Real.one_le_exp ?_
      have := mul_le_mul_of_nonneg_left h hl0
      linarith
    · rw [Nat.cast_zero]; exact (Real.exp_pos _).le
  refine h1.trans ?_
  have h2 : ∀ a : ι → α, Real.exp (l * (∑ i, w i * f (a i)) - l*T) = Real.exp (-(l*T)) * ∏ i, Real.exp ((l * w i) * f (a i)) := fun a => by
    rw [← Real.exp_sum, ← Real.exp_add, mul_sum]
    congr 1
    rw [sub_eq_neg_add]
    congr 1
    exact sum_congr rfl fun i _ => by ring
  rw [sum_congr rfl fun a _ => h2 a, ← mul_sum, ← Fintype.prod_sum fun i (x : α) => Real.exp ((l * w i) * f x)]
  have h5 := prod_le_prod (s := univ) (fun i _ => sum_nonneg fun x _ => (Real.exp_pos _).le) (fun i _ => hf (l * w i))
  rw [prod_mul_distrib, prod_const, card_univ, ← Real.exp_sum] at h5
  refine (mul_le_mul_of_nonneg_left h5 (Real.exp_pos _).le).trans ?_
  rw [Fintype.card_fun, Nat.cast_pow, mul_left_comm, ← Real.exp_add, mul_comm]
  refine mul_le_mul_of_nonneg_right (Real.exp_le_exp.2 ?_) (by positivity)
  have e : ∑ i, v * (l * w i)^2 / 2 = v * l^2 / 2 * ∑ i, w i^2 := by
    rw [mul_sum]
    exact sum_congr rfl fun i _ => by ring
  rw [e]
  have h6 : v * l^2 / 2 * ∑ i, w i^2 ≤ v * l^2 / 2 * W := mul_le_mul_of_nonneg_left hw (by positivity)
  refine (add_le_add_right h6 _).trans (le_of_eq ?_)
  rw [hl]
  field_simp
  ring

/-! ## one coefficient -/

theorem count_mod9 (b r : Nat) (hr : r < 9) : ∑ x ∈ range b, (if x % 9 = r then 1 else 0) = (b + 8 - r) / 9 := by
  induction b with
  | zero => simp; omega
  | succ b ih =>
    rw [sum_range_succ, ih]
    split_ifs with h <;> omega

theorem count_mod2 (m p : Nat) (hp : p < 2) : ∑ y ∈ range (2*m), (if y % 2 = p then 1 else 0) = m := by
  induction m with
  | zero => simp
  | succ m ih =>
    rw [show 2*(m+1) = 2*m+1+1 by ring, sum_range_succ, sum_range_succ, ih]
    split_ifs <;> omega

theorem noiseVal_abs (x y : Nat) : |noiseVal x y| ≤ 8 := by
  unfold noiseVal
  split_ifs <;> rw [abs_le] <;> constructor <;> omega

/-- how many pairs of draws below `2m` make the noise `e` -/
def ways (m : Nat) (e : Int) : Nat := if e = 0 then 2*m * ((2*m+8)/9) else m * ((2*m+8-e.natAbs)/9)

theorem count_noise (m : Nat) (e : Int) (he : |e| ≤ 8) :
    (univ.filter fun v : Fin 2 → Fin (2*m) => noiseVal (v 0) (v 1) = e).card = ways m e := by
  rw [abs_le] at he
  rw [card_eq_sum_ones, sum_filter, ← Equiv.sum_comp (finTwoArrowEquiv (Fin (2*m))).symm, Fintype.sum_prod_type]
  have h1 : ∀ x : Fin (2*m), ∑ y : Fin (2*m), (if noiseVal (((finTwoArrowEquiv (Fin (2*m))).symm (x, y)) 0)
      (((finTwoArrowEquiv (Fin (2*m))).symm (x, y)) 1) = e then 1 else 0) = (if x.val % 9 = e.natAbs then 1 else 0) * (if e = 0 then 2*m else m) := by
    intro x
    have h2 : ∀ y : Fin (2*m), (if noiseVal (((finTwoArrowEquiv (Fin (2*m))).symm (x, y)) 0)
      (((finTwoArrowEquiv (Fin (2*m))).symm (x, y)) 1) = e then 1 else 0) =
        (if x.val % 9 = e.natAbs then 1 else 0) * (if e = 0 then 1 else if y.val % 2 = (if e < 0 then 1 else 0) then 1 else 0) := by
      intro y
      show (if noiseVal x y = e then 1 else 0) = _
      unfold noiseVal
      split_ifs <;> omega
    rw [sum_congr rfl fun y _ => h2 y, ← mul_sum]
    congr 1
    by_cases h0 : e = 0
    · simp [h0]
    · simp only [h0, if_false]
      rw [Fin.sum_univ_eq_sum_range (fun y => if y % 2 = (if e < 0 then 1 else 0) then 1 else 0)]
      exact count_mod2 m _ (by split_ifs <;> omega)
  rw [sum_congr rfl fun x _ => h1 x, ← sum_mul, Fin.sum_univ_eq_sum_range (fun x => if x % 9 = e.natAbs then 1 else 0),
    count_mod9 _ _ (by omega)]
  unfold ways
  split_ifs with h0
  · subst h0; rw [mul_comm]; rfl
  · rw [mul_comm]

/-! ## slots -/

/-- the squares of the cosines and of the sines of a slot sum to `N/2` -/
theorem slot_squares {N : Nat} (hN : 0 < N) (h2 : 2 ∣ N) (i : Nat) :
    ∑ k : Fin N, (zeta N ^ (5^i * k.val)).re^2 = N/2 ∧ ∑ k : Fin N, (zeta N ^ (5^i * k.val)).im^2 = N/2 := by
  obtain ⟨w, hw⟩ : ∃ w, w = (zeta N ^ (5^i))^2 := ⟨_, rfl⟩
  obtain ⟨m, hm⟩ := h2
  have hwm : w^m = -1 := by rw [hw, ← pow_mul, ← hm]; exact zeta_root hN i
  have hw1 : w ≠ 1 := fun e => by
    rw [e, one_pow] at hwm
    norm_num at hwm
  have hs : ∑ k : Fin N, w^k.val = 0 := by
    rw [Fin.sum_univ_eq_sum_range (fun k => w^k) N, geom_sum_eq hw1, hm, mul_comm, pow_mul, hwm]
    norm_num
  have hz : ∀ k : Fin N, (zeta N ^ (5^i * k.val))^2 = w^k.val := fun k => by
    rw [hw, ← pow_mul, ← pow_mul, ← pow_mul]; congr 1; ring
  have hr : ∑ k : Fin N, ((zeta N ^ (5^i * k.val))^2).re = 0 := by
    rw [← Complex.re_sum, sum_congr rfl fun k _ => hz k, hs, Complex.zero_re]
  have h1 : ∀ k : Fin N, (zeta N ^ (5^i * k.val)).re^2 = 1/2 + ((zeta N ^ (5^i * k.val))^2).re/2 ∧
      (zeta N ^ (5^i * k.val)).im^2 = 1/2 - ((zeta N ^ (5^i * k.val))^2).re/2 := fun k => by
    have hn := zeta_pow_norm N (5^i * k.val)
    generalize zeta N ^ (5^i * k.val) = z at *
    have h3 : z.re*z.re + z.im*z.im = 1 := by
      rw [← Complex.normSq_apply, Complex.normSq_eq_norm_sq, hn, one_pow]
    have h4 : (z^2).re = z.re*z.re - z.im*z.im := by rw [sq, Complex.mul_re]
    rw [h4]
    constructor <;> linarith
  constructor
  · rw [sum_congr rfl fun k _ => (h1 k).1, sum_add_distrib, ← sum_div, ← sum_div, hr, sum_const, card_univ, Fintype.card_fin, nsmul_eq_mul]
    ring
  · rw [sum_congr rfl fun k _ => (h1 k).2, sum_sub_distrib, ← sum_div, ← sum_div, hr, sum_const, card_univ, Fintype.card_fin, nsmul_eq_mul]
    ring

open Classical in
/-- one side of one real combination -/
theorem noise_tail {N b : Nat} (hb : 2 ∣ b) (w : Fin N → ℝ) {W T : ℝ} (hW : 0 < W) (hw : ∑ i, w i^2 ≤ W) (hT : 0 ≤ T) :
    ((univ.filter fun u : Fin N → Fin 2 → Fin b => T ≤ ∑ i, w i * (noiseVal (u i 0) (u i 1) : ℝ)).card : ℝ) ≤
      Real.exp (-(3*T^2 / (136 * W))) * Fintype.card (Fin N → Fin 2 → Fin b) := by
  have h := chernoff_sub (fun v : Fin 2 → Fin b => (noiseVal (v 0) (v 1) : ℝ)) (v := 68/3) (by norm_num) (fun l => by
    have := mgf_noise hb l
    rw [Fintype.card_fun, Fintype.card_fin, Fintype.card_fin]
    refine this.trans (le_of_eq ?_)
    push_cast
    congr 2
    ring) w hW hw hT
  refine le_trans (le_of_eq ?_) (h.trans (le_of_eq ?_))
  · congr!
  · congr 3
    rw [div_eq_div_iff (by positivity) (by positivity)]
    ring

theorem norm_split {z : ℂ} {T τ : ℝ} (hτ2 : τ^2 = T^2/2) (hT : 0 ≤ T) (h : T ≤ ‖z‖) :
    τ ≤ z.re ∨ τ ≤ -z.re ∨ τ ≤ z.im ∨ τ ≤ -z.im := by
  by_contra hc
  push Not at hc
  obtain ⟨h1, h2, h3, h4⟩ := hc
  have a1 : z.re^2 < τ^2 := sq_lt_sq' (by linarith) h1
  have a2 : z.im^2 < τ^2 := sq_lt_sq' (by linarith) h3
  have a3 : z.re*z.re + z.im*z.im = ‖z‖^2 := by rw [← Complex.normSq_apply, Complex.normSq_eq_norm_sq]
  have a4 : T^2 ≤ ‖z‖^2 := pow_le_pow_left₀ hT h 2
  nlinarith

open Classical in
/-- all slots of the noise -/
theorem slots_tail {N b : Nat} (hb : 2 ∣ b) (hN : 0 < N) (h2 : 2 ∣ N) {T : ℝ} (hT : 0 ≤ T) :
    ((univ.filter fun u : Fin N → Fin 2 → Fin b => ∃ i < N/2, T ≤ ‖slotOf (fun k => (noiseVal (u k 0) (u k 1) : ℝ)) i‖).card : ℝ) ≤
      2*N * Real.exp (-(3*T^2 / (136 * N))) * Fintype.card (Fin N → Fin 2 → Fin b) := by
  obtain ⟨τ, hτ⟩ : ∃ τ, τ = T / Real.sqrt 2 := ⟨_, rfl⟩
  have hτ0 : 0 ≤ τ := by rw [hτ]; positivity
  have hτ2 : τ^2 = T^2/2 := by rw [hτ, div_pow, Real.sq_sqrt (by norm_num)]
  have hN0 : (0:ℝ) < N := by exact_mod_cast hN
  obtain ⟨E, hE⟩ : ∃ E, E = Real.exp (-(3*T^2 / (136 * N))) * Fintype.card (Fin N → Fin 2 → Fin b) := ⟨_, rfl⟩
  -- one combination with squares `N/2`
  have key : ∀ w : Fin N → ℝ, ∑ k, w k^2 = N/2 →
      ((univ.filter fun u : Fin N → Fin 2 → Fin b => τ ≤ ∑ k, w k * (noiseVal (u k 0) (u k 1) : ℝ)).card : ℝ) ≤ E := by
    intro w hw
    have h := noise_tail hb w (W := N/2) (by positivity) hw.le hτ0
    refine h.trans (le_of_eq ?_)
    rw [hE, hτ2]
    congr 3
    rw [div_eq_div_iff (by positivity) (by positivity)]
    ring
  have hre : ∀ (u : Fin N → Fin 2 → Fin b) (i : Nat), (slotOf (fun k => (noiseVal (u k 0) (u k 1) : ℝ)) i).re =
      ∑ k : Fin N, (zeta N ^ (5^i * k.val)).re * (noiseVal (u k 0) (u k 1) : ℝ) := fun u i => by
    rw [slotOf_zeta, Complex.re_sum]
    exact sum_congr rfl fun k _ => by rw [Complex.re_ofReal_mul, mul_comm]
  have him : ∀ (u : Fin N → Fin 2 → Fin b) (i : Nat), (slotOf (fun k => (noiseVal (u k 0) (u k 1) : ℝ)) i).im =
      ∑ k : Fin N, (zeta N ^ (5^i * k.val)).im * (noiseVal (u k 0) (u k 1) : ℝ) := fun u i => by
    rw [slotOf_zeta, Complex.im_sum]
    exact sum_congr rfl fun k _ => by rw [Complex.im_ofReal_mul, mul_comm]
  -- the four sides of one slot
  have hslot : ∀ i : Nat, ((univ.filter fun u : Fin N → Fin 2 → Fin b =>
      T ≤ ‖slotOf (fun k => (noiseVal (u k 0) (u k 1) : ℝ)) i‖).card : ℝ) ≤ 4 * E := by
    intro i
    obtain ⟨q1, q2⟩ := slot_squares hN h2 i
    have k1 := key (fun k => (zeta N ^ (5^i * k.val)).re) q1
    have k2 := key (fun k => -(zeta N ^ (5^i * k.val)).re) (by simpa using q1)
    have k3 := key (fun k => (zeta N ^ (5^i * k.val)).im) q2
    have k4 := key (fun k => -(zeta N ^ (5^i * k.val)).im) (by simpa using q2)
    have hsub : (univ.filter fun u : Fin N → Fin 2 → Fin b => T ≤ ‖slotOf (fun k => (noiseVal (u k 0) (u k 1) : ℝ)) i‖) ⊆
        ((univ.filter fun u : Fin N → Fin 2 → Fin b => τ ≤ ∑ k, (zeta N ^ (5^i * k.val)).re * (noiseVal (u k 0) (u k 1) : ℝ)) ∪
         (univ.filter fun u : Fin N → Fin 2 → Fin b => τ ≤ ∑ k, -(zeta N ^ (5^i * k.val)).re * (noiseVal (u k 0) (u k 1) : ℝ))) ∪
        ((univ.filter fun u : Fin N → Fin 2 → Fin b => τ ≤ ∑ k, (zeta N ^ (5^i * k.val)).im * (noiseVal (u k 0) (u k 1) : ℝ)) ∪
         (univ.filter fun u : Fin N → Fin 2 → Fin b => τ ≤ ∑ k, -(zeta N ^ (5^i * k.val)).im * (noiseVal (u k 0) (u k 1) : ℝ))) := by
      intro u hu
      rw [mem_filter] at hu
      have := norm_split hτ2 hT hu.2
      rw [hre, him] at this
      simp only [mem_union, mem_filter, mem_univ, true_and, neg_mul, sum_neg_distrib]
      tauto
    have c1 := card_le_card hsub
    have c2 := c1.trans ((card_union_le _ _).trans (Nat.add_le_add (card_union_le _ _) (card_union_le _ _)))
    have c3 : ((univ.filter fun u : Fin N → Fin 2 → Fin b => T ≤ ‖slotOf (fun k => (noiseVal (u k 0) (u k 1) : ℝ)) i‖).card : ℝ) ≤ _ :=
      Nat.cast_le.2 c2
    push_cast at c3
    linarith
  have hsub : (univ.filter fun u : Fin N → Fin 2 → Fin b => ∃ i < N/2, T ≤ ‖slotOf (fun k => (noiseVal (u k 0) (u k 1) : ℝ)) i‖) ⊆
      (range (N/2)).biUnion fun i => univ.filter fun u : Fin N → Fin 2 → Fin b => T ≤ ‖slotOf (fun k => (noiseVal (u k 0) (u k 1) : ℝ)) i‖ := by
    intro u hu
    simp only [mem_filter, mem_univ, true_and, mem_biUnion, mem_range] at hu ⊢
    exact hu
  have h5 : ((univ.filter fun u : Fin N → Fin 2 → Fin b => ∃ i < N/2, T ≤ ‖slotOf (fun k => (noiseVal (u k 0) (u k 1) : ℝ)) i‖).card : ℝ) ≤
      ∑ i ∈ range (N/2), ((univ.filter fun u : Fin N → Fin 2 → Fin b => T ≤ ‖slotOf (fun k => (noiseVal (u k 0) (u k 1) : ℝ)) i‖).card : ℝ) := by
    rw [← Nat.cast_sum]
    exact Nat.cast_le.2 ((card_le_card hsub).trans card_biUnion_le)
  refine h5.trans ((sum_le_sum fun i _ => hslot i).trans (le_of_eq ?_))
  obtain ⟨m, rfl⟩ := h2
  rw [sum_const, card_range, nsmul_eq_mul, Nat.mul_div_cancel_left _ (by norm_num), hE]
  push_cast
  ring

end EvalRound

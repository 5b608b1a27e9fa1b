import Verif.Model.FloatMessage
import Verif.Proofs.FloatDot
import Verif.Proofs.FloatSimple
import Verif.Proofs.FloatDriver

/-! # Messages in binary64 -/

namespace EvalRound
open Finset

theorem fl_neg' (x : ℝ) : fl (-x) = fl x >>= fun r => pure (-r) := by
  unfold fl
  rw [rnd_neg, abs_neg]
  split
  · rw [pure_bind]
  · rfl

theorem accAdd_eq (s a x b y : ℝ) : MsgF.accAdd s a x b y = accF s a x (-b) y := by
  unfold MsgF.accAdd accF
  rw [neg_mul, fl_neg']
  simp only [bind_assoc, pure_bind, sub_neg_eq_add]

theorem accSub_eq (s a x b y : ℝ) : MsgF.accSub s a x b y = accF s a x b y := rfl

theorem norm_sq_eq (x y : ℝ) : ‖(⟨x, y⟩ : ℂ)‖^2 = x * x + y * y := by
  rw [← Complex.normSq_eq_norm_sq, Complex.normSq_mk]

/-- componentwise rounding -/
theorem norm_comp {z : ℂ} {dx dy u η : ℝ} (hu : 0 ≤ u) (hη : 0 ≤ η) (h1 : |dx| ≤ u * |z.re| + η) (h2 : |dy| ≤ u * |z.im| + η) :
    ‖(⟨dx, dy⟩ : ℂ)‖ ≤ u * ‖z‖ + 2 * η := by
  have hz := norm_nonneg z
  refine abs_le_of_sq_le_sq' (a := ‖(⟨dx, dy⟩ : ℂ)‖) ?_ (by positivity) |>.2
  rw [norm_sq_eq]
  have e1 := mul_self_le_mul_self (abs_nonneg _) h1
  have e2 := mul_self_le_mul_self (abs_nonneg _) h2
  rw [abs_mul_abs_self] at e1 e2
  have e3 : ‖z‖^2 = |z.re| * |z.re| + |z.im| * |z.im| := by
    rw [abs_mul_abs_self, abs_mul_abs_self, ← norm_sq_eq]
  have k1 := mul_le_mul_of_nonneg_left (Complex.abs_re_le_norm z) (mul_nonneg hu hη)
  have k2 := mul_le_mul_of_nonneg_left (Complex.abs_im_le_norm z) (mul_nonneg hu hη)
  have hη2 : 0 ≤ η * η := mul_nonneg hη hη
  have e4 : (u * ‖z‖ + 2 * η)^2 = u^2 * ‖z‖^2 + 4 * (u * η * ‖z‖) + 4 * (η * η) := by ring
  have e5 : (u * |z.re| + η) * (u * |z.re| + η) + (u * |z.im| + η) * (u * |z.im| + η) =
    u^2 * (|z.re| * |z.re| + |z.im| * |z.im|) + 2 * (u * η * |z.re|) + 2 * (u * η * |z.im|) + 2 * (η * η) := by ring
  rw [e4, e3]
  linarith

theorem two_eta : 2 * etaF = 1/2^1074 := by
  rw [etaF_eq, show 1075 = 1 + 1074 by norm_num, pow_add]
  field_simp

theorem sum_fin_mul {K : Nat} (f g : Fin K → ℂ) :
    ∑ k, f k * g k = ∑ k ∈ range K, (if h : k < K then f ⟨k, h⟩ else 0) * (if h : k < K then g ⟨k, h⟩ else 0) := by
  rw [← Fin.sum_univ_eq_sum_range (fun k => (if h : k < K then f ⟨k, h⟩ else 0) * (if h : k < K then g ⟨k, h⟩ else 0))]
  exact sum_congr rfl fun k _ => by rw [dif_pos k.isLt, dif_pos k.isLt]

theorem sum_fin_norm {K : Nat} (f g : Fin K → ℂ) :
    ∑ k, ‖f k‖ * ‖g k‖ = ∑ k ∈ range K, ‖(if h : k < K then f ⟨k, h⟩ else 0)‖ * ‖(if h : k < K then g ⟨k, h⟩ else 0)‖ := by
  rw [← Fin.sum_univ_eq_sum_range (fun k => ‖(if h : k < K then f ⟨k, h⟩ else 0)‖ * ‖(if h : k < K then g ⟨k, h⟩ else 0)‖)]
  exact sum_congr rfl fun k _ => by rw [dif_pos k.isLt, dif_pos k.isLt]

/-- two products and their sum -/
theorem mul2F_ok {a x b y T : ℝ} (ha : |a| * |x| + |b| * |y| ≤ T) (hT : T ≤ 2^1010) :
    Ok (do
      let p ← fl (a * x)
      let q ← fl (b * y)
      fl (p + q)) fun r => |r - (a * x + b * y)| ≤ 2.001 * uF * T + 4 * etaF := by
  have hu := uF_pos.le
  have hu2 := uF_le
  have hη := etaF_pos.le
  have hη2 := etaF_le
  have e1 := abs_mul a x
  have e2 := abs_mul b y
  have p1 := abs_nonneg (a * x)
  have p2 := abs_nonneg (b * y)
  have hL : (2:ℝ)^1020 = 1024 * 2^1010 := by rw [show 1020 = 10 + 1010 by norm_num, pow_add]; norm_num
  have h1L : (1:ℝ) ≤ 2^1010 := one_le_pow₀ (by norm_num)
  have hlim : ∀ x : ℝ, x ≤ 1024 * 2^1010 → x ≤ 2^1020 := fun x h => by rw [hL]; exact h
  clear hL
  generalize (2:ℝ)^1010 = Λ at *
  rw [← e1, ← e2] at ha
  refine Ok.bind (fl_near (hlim _ (by linarith))) fun p hp => ?_
  refine Ok.bind (fl_near (hlim _ (by linarith))) fun q hq => ?_
  have hX := mul_le_mul_of_nonneg_left ha hu
  have hX' : uF * (|a * x| + |b * y|) = uF * |a * x| + uF * |b * y| := by ring
  have ht : |p + q - (a * x + b * y)| ≤ uF * T + 2 * etaF := by
    have := abs_add_le (p - a * x) (q - b * y)
    rw [show p - a * x + (q - b * y) = p + q - (a * x + b * y) by ring] at this
    linarith
  have hab := (abs_add_le (a * x) (b * y)).trans ha
  have hT0 : 0 ≤ T := by linarith
  have hpq : |p + q| ≤ T + (uF * T + 2 * etaF) := by
    have := abs_sub_abs_le_abs_sub (p + q) (a * x + b * y)
    linarith
  have huT : uF * T ≤ 1/10^9 * T := mul_le_mul_of_nonneg_right hu2 hT0
  have hη3 : etaF ≤ 1 := by linarith
  refine Ok.mono (fl_near (x := p + q) (hlim _ (by linarith))) fun r hr => ?_
  have h3 := abs_sub_le r (p + q) (a * x + b * y)
  have h4 := mul_le_mul_of_nonneg_left hpq hu
  have h5 : uF * (uF * T) ≤ 1/10^9 * (uF * T) := mul_le_mul_of_nonneg_right hu2 (mul_nonneg hu hT0)
  have h6 : uF * etaF ≤ 1/10^9 * etaF := mul_le_mul_of_nonneg_right hu2 hη
  have e5 : uF * (T + (uF * T + 2 * etaF)) = uF * T + uF * (uF * T) + 2 * (uF * etaF) := by ring
  rw [e5] at h4
  have h7 := mul_nonneg hu hT0
  linarith

theorem mul2F_sub {a x b y T : ℝ} (ha : |a| * |x| + |b| * |y| ≤ T) (hT : T ≤ 2^1010) :
    Ok (do
      let p ← fl (a * x)
      let q ← fl (b * y)
      fl (p - q)) fun r => |r - (a * x - b * y)| ≤ 2.001 * uF * T + 4 * etaF := by
  have h := mul2F_ok (a := a) (x := x) (b := -b) (y := y) (by rw [abs_neg]; exact ha) hT
  rw [neg_mul, fl_neg'] at h
  simp only [bind_assoc, pure_bind, ← sub_eq_add_neg] at h
  exact h

/-- the sum of the squares of the slots -/
theorem msg_square_sumF {n : Nat} (hn : n ≤ 2^20) (z : (Fin n → ℝ) × (Fin n → ℝ)) (hz : ∑ i, ‖(⟨z.1 i, z.2 i⟩ : ℂ)‖^2 ≤ 2^1000) :
    Ok (MsgF.square_sum z) fun s => |s - ∑ i, ‖(⟨z.1 i, z.2 i⟩ : ℂ)‖^2| ≤
      (3.01 + 1.01 * n) * uF * (∑ i, ‖(⟨z.1 i, z.2 i⟩ : ℂ)‖^2) + 7 * n * etaF := by
  unfold MsgF.square_sum
  obtain ⟨t, ht⟩ : ∃ t : Nat → ℝ, t = fun j => if h : j < n then ‖(⟨z.1 ⟨j, h⟩, z.2 ⟨j, h⟩⟩ : ℂ)‖^2 else 0 := ⟨_, rfl⟩
  have ht0 : ∀ j, 0 ≤ t j := fun j => by rw [ht]; dsimp only; split <;> positivity
  have h1 : ∑ j ∈ range n, t j = ∑ i, ‖(⟨z.1 i, z.2 i⟩ : ℂ)‖^2 := by
    rw [ht, ← Fin.sum_univ_eq_sum_range (fun j => if h : j < n then ‖(⟨z.1 ⟨j, h⟩, z.2 ⟨j, h⟩⟩ : ℂ)‖^2 else 0)]
    exact sum_congr rfl fun j _ => by rw [dif_pos j.isLt]
  rw [← h1] at hz ⊢
  have hu := uF_pos.le
  have hu2 := uF_le
  have hη := etaF_pos.le
  have hS0 : ∀ k, 0 ≤ ∑ j ∈ range k, t j := fun k => sum_nonneg fun j _ => ht0 j
  have hS1 : ∀ k, k ≤ n → ∑ j ∈ range k, t j ≤ 2^1000 := fun k hk =>
    (sum_le_sum_of_subset_of_nonneg (range_mono hk) fun j _ _ => ht0 j).trans hz
  have hKu : ∀ k : Nat, k ≤ n → (k : ℝ) * uF ≤ 1/10^6 := by
    intro k hk
    have : (k : ℝ) ≤ 2^20 := by exact_mod_cast hk.trans hn
    rw [uF_eq]
    calc (k : ℝ) * _ ≤ 2^20 * _ := mul_le_mul_of_nonneg_right this (by positivity)
      _ ≤ _ := by norm_num
  have hL : (2:ℝ)^1010 = 1024 * 2^1000 := by rw [show 1010 = 10 + 1000 by norm_num, pow_add]; norm_num
  have h1L : (1:ℝ) ≤ 2^1000 := one_le_pow₀ (by norm_num)
  have hL2 : ∀ x : ℝ, x ≤ 1024 * 2^1000 → x ≤ 2^1010 := fun x h => by rw [hL]; exact h
  have hη3 : ∀ k : Nat, k ≤ n → (7:ℝ) * k * etaF ≤ 1 := by
    intro k hk
    have : (k : ℝ) ≤ 2^20 := by exact_mod_cast hk.trans hn
    have h2 : (k : ℝ) * etaF ≤ 2^20 * etaF := mul_le_mul_of_nonneg_right this hη
    have h3 : (2:ℝ)^20 * etaF ≤ 1/10 := by
      have : etaF ≤ 1/2^60 := by
        rw [etaF_eq]
        exact one_div_le_one_div_of_le (by positivity) (pow_le_pow_right₀ (by norm_num) (by norm_num))
      calc (2:ℝ)^20 * etaF ≤ 2^20 * (1/2^60) := by gcongr
        _ ≤ _ := by norm_num
    linarith
  clear hL hz
  generalize (2:ℝ)^1000 = Λ at *
  have key := forUp_inv (lo := 0) (hi := n) (s := (0:ℝ)) (Nat.zero_le n)
    (fun k s => |s - ∑ j ∈ range k, t j| ≤ (3.01 + 1.01 * k) * (uF * ∑ j ∈ range k, t j) + 7 * k * etaF)
    (body := fun i (s : ℝ) => do
      let r ← rd z.1 i
      let m ← rd z.2 i
      let p ← fl (r * r)
      let q ← fl (m * m)
      let t ← fl (p + q)
      fl (s + t)) (by simp) fun k s _ hk hs => by
    rw [rd_of_lt _ hk, pure_bind, rd_of_lt _ hk, pure_bind]
    have e := accAdd_eq s (z.1 ⟨k, hk⟩) (z.1 ⟨k, hk⟩) (z.2 ⟨k, hk⟩) (z.2 ⟨k, hk⟩)
    unfold MsgF.accAdd at e
    rw [e]
    have etk : t k = z.1 ⟨k, hk⟩ * z.1 ⟨k, hk⟩ + z.2 ⟨k, hk⟩ * z.2 ⟨k, hk⟩ := by
      rw [ht]; dsimp only
      rw [dif_pos hk, norm_sq_eq]
    have hT := hS1 (k+1) hk
    rw [sum_range_succ] at hT
    have hk0 := hS0 k
    have htk := ht0 k
    have h5 : (3.01 + 1.01 * (k:ℝ)) * uF ≤ 1 := by linarith [hKu k hk.le]
    have h6 := mul_le_mul_of_nonneg_right h5 hk0
    rw [mul_assoc] at h6
    have h7 := hη3 k hk.le
    have hle : |z.1 ⟨k, hk⟩| * |z.1 ⟨k, hk⟩| + |(-z.2 ⟨k, hk⟩)| * |z.2 ⟨k, hk⟩| ≤ t k := by
      rw [abs_neg, abs_mul_abs_self, abs_mul_abs_self, etk]
    refine Ok.mono (accF_ok hle hs (abs_of_nonneg hk0).le (hL2 _ (by linarith)) (hL2 _ (by linarith))) fun r hr => ?_
    have ar := dot_arith hu hη hk0 htk (Nat.cast_nonneg k) (hKu k hk.le) hu2 (le_refl _)
    rw [sum_range_succ]
    push_cast
    rw [show z.1 ⟨k, hk⟩ * z.1 ⟨k, hk⟩ - -z.2 ⟨k, hk⟩ * z.2 ⟨k, hk⟩ = t k by rw [etk]; ring] at hr
    exact hr.trans ar
  refine Ok.mono key fun s hs => ?_
  rw [mul_assoc (3.01 + 1.01 * (n:ℝ))]
  exact hs

theorem fl_sqrt_near {s S κ τ : ℝ} (hS0 : 0 ≤ S) (hS : S ≤ 2^1000) (hκ : 0 ≤ κ) (hκ1 : κ ≤ 1/10^6) (hτ0 : 0 ≤ τ) (hτ : Real.sqrt τ ≤ 1/2^520)
    (h : |s - S| ≤ κ * S + τ) : Ok (fl (Real.sqrt s)) fun r => 0 ≤ r ∧ |r - Real.sqrt S| ≤ (κ + 1.01 * uF) * Real.sqrt S + (1.01 * Real.sqrt τ + etaF) := by
  have hu := uF_pos.le
  have hu2 := uF_le
  have hq := sqrt_near hκ (by linarith) hS0 hτ0 h
  have hr0 := Real.sqrt_nonneg S
  have hrτ := Real.sqrt_nonneg τ
  have hr2 : Real.sqrt S ≤ 2^500 := by
    rw [Real.sqrt_le_left (by positivity), ← pow_mul]
    exact hS
  have h3 : Real.sqrt s ≤ Real.sqrt S + (κ * Real.sqrt S + Real.sqrt τ) := by
    have := (abs_le.1 hq).2
    linarith
  have h4 : κ * Real.sqrt S ≤ 1/10^6 * Real.sqrt S := mul_le_mul_of_nonneg_right hκ1 hr0
  have hτ1 : Real.sqrt τ ≤ 1 := hτ.trans (by rw [div_le_one (by positivity)]; exact one_le_pow₀ (by norm_num))
  have hlim : Real.sqrt s ≤ 2^1020 := by
    have e : (2:ℝ)^1020 = 2^520 * 2^500 := by rw [← pow_add]
    have h1 : (1:ℝ) ≤ 2^500 := one_le_pow₀ (by norm_num)
    have h2 : (4:ℝ) ≤ 2^520 := by
      calc (4:ℝ) = 2^2 := by norm_num
        _ ≤ 2^520 := pow_le_pow_right₀ (by norm_num) (by norm_num)
    rw [e]
    refine le_trans ?_ (mul_le_mul_of_nonneg_right h2 (by positivity))
    clear e h2 hS hτ
    generalize (2:ℝ)^500 = X at *
    linarith
  refine Ok.mono (fl_near0 (Real.sqrt_nonneg s) hlim) fun r ⟨h0, hr⟩ => ⟨h0, ?_⟩
  have h5 := abs_sub_le r (Real.sqrt s) (Real.sqrt S)
  have h6 := mul_le_mul_of_nonneg_left (h3.trans (by linarith : _ ≤ 1.001 * Real.sqrt S + Real.sqrt τ)) hu
  have h7 : uF * Real.sqrt τ ≤ 1/10^9 * Real.sqrt τ := mul_le_mul_of_nonneg_right hu2 hrτ
  have h8 : 0 ≤ uF * Real.sqrt S := mul_nonneg hu hr0
  have e6 : uF * (1.001 * Real.sqrt S + Real.sqrt τ) = 1.001 * (uF * Real.sqrt S) + uF * Real.sqrt τ := by ring
  rw [e6] at h6
  have e7 : (κ + 1.01 * uF) * Real.sqrt S = κ * Real.sqrt S + 1.01 * (uF * Real.sqrt S) := by ring
  rw [e7]
  linarith

end EvalRound

import Verif.Proofs.FloatDft
import Verif.Proofs.FloatTests
import Verif.Props.DftTest
import Verif.Props.FloatDriver
import Verif.Props.FloatTests
import Mathlib.Algebra.Order.Chebyshev

/-!
# C89: the direct transforms `dft` and `idft` and the program dft_test in binary64
-/

namespace EvalRound
open Z_Q Finset

variable {n : Nat} {L : Libm}

/-- C89: `dft` in binary64 computes the slots up to the rounding errors of its sums of `N` terms. -/
theorem C89_dft (hL : L.Accurate) (hn : n ≤ 19) (m : Fin (2^(n+1)) → ℝ) (hm : ∑ k, |m k| ≤ 2^990)
    (z0 : (Fin (2^(n+1)/2) → ℝ) × (Fin (2^(n+1)/2) → ℝ)) :
    Ok (dftF L m z0) fun z => ∀ i : Fin (2^(n+1)/2), ‖(⟨z.1 i, z.2 i⟩ : ℂ) - slotOf m i‖ ≤
      (2 * 2^(n+1) + 18) / 2^53 * (∑ k, |m k|) + 2^(n+1) / 2^1071 := by
  have hN : 0 < 2^(n+1) := by positivity
  have hN2 : 2^(n+1) ≤ 2^20 := Nat.pow_le_pow_right (by norm_num) (by omega)
  have hrow := fun f hf => dftRowF_spec hL hn m hm (f := f) hf
  rw [show (2:ℝ)^(n+1) = ((2^(n+1) : Nat) : ℝ) by push_cast; rfl]
  generalize 2^(n+1) = N at *
  have hI : INT_MAX = 2147483647 := by decide
  unfold dftF
  refine Ok.bind (forUp_inv (Nat.zero_le _) (P := fun k (st : ((Fin (N/2) → ℝ) × (Fin (N/2) → ℝ)) × Nat) =>
    st.2 = 5^k % (2*N) ∧ ∀ i : Fin (N/2), i.val < k → ‖(⟨st.1.1 i, st.1.2 i⟩ : ℂ) - slotOf m i‖ ≤
      (2 * (N:ℝ) + 18) / 2^53 * (∑ k, |m k|) + N / 2^1071)
    ⟨?_, fun i h => absurd h (Nat.not_lt_zero _)⟩ ?_) ?_
  · rw [pow_zero, Nat.mod_eq_of_lt (by omega)]
  · rintro k ⟨⟨a, b⟩, g⟩ - hk ⟨h1, h2⟩
    simp only at h1 h2 ⊢
    have hg : g < 2*N := by rw [h1]; exact Nat.mod_lt _ (by omega)
    refine Ok.bind (hrow g hg) fun r hr => ?_
    rw [wr_of_lt a hk, pure_bind, wr_of_lt b hk, pure_bind, five_ok (by omega), pure_bind]
    refine Ok.pure ⟨?_, fun i hi => ?_⟩
    · simp only [h1]
      rw [Nat.mod_mul_mod, pow_succ 5 k]
    · simp only []
      by_cases e : i = ⟨k, hk⟩
      · subst e
        rw [Function.update_self, Function.update_self, slotOf_zeta]
        refine le_of_eq_of_le ?_ hr
        congr 2
        refine sum_congr rfl fun j _ => ?_
        rw [← zeta_pow_mod hN (g * j.val), h1, Nat.mod_mul_mod, zeta_pow_mod hN]
      · have : i.val ≠ k := fun h => e (Fin.ext h)
        rw [Function.update_of_ne e, Function.update_of_ne e]
        exact h2 i (by omega)
  · rintro ⟨z, g⟩ ⟨-, h⟩
    exact Ok.pure fun i => h i i.isLt

/-- the formula of the inverse transform -/
theorem coeff_formula (h1 : 1 ≤ n) (hn : n ≤ 26) (z : CVec (n+1)) (m : Fin (2^(n+1)) → ℝ)
    (hm : ∀ i : Fin (2^n), slotOf m i = ⟨z.1 i, z.2 i⟩) (k : Nat) (hk : k < 2^(n+1)/2) (hk0 : k < 2^(n+1)) (hk1 : k + 2^(n+1)/2 < 2^(n+1)) :
    (⟨m ⟨k, hk0⟩, m ⟨k + 2^(n+1)/2, hk1⟩⟩ : ℂ) =
      (2 / (2^(n+1) : Nat) : ℝ) * ∑ i : Fin (2^n), star (zeta (2^(n+1)) ^ (5^i.val * k)) * toC (n := 2^n) z.1 z.2 i := by
  obtain ⟨m', em', hs, _⟩ := ifft_slot (LOGN := n+1) (by omega) (by omega) z (fun _ => 0)
  have e2 : m' = m := slotOf_inj fun i => (hs i).trans (hm i).symm
  obtain ⟨m1, em1, hm1⟩ := C28_ifft_idft (LOGN := n+1) (by omega) (by omega) z (halfOf z.1) (halfOf z.2) (fun _ _ _ => rfl) (fun _ _ _ => rfl)
    (fun _ => 0) (fun _ => 0)
  have e1 : m1 = m' := pure_inj (em1.symm.trans em')
  have hp : 2^(n+1) = 2 * 2^n := by ring
  have hle : 2^(n+1) ≤ 2^27 := Nat.pow_le_pow_right (by norm_num) (by omega)
  obtain ⟨m2, em2, hm2⟩ := idft_spec (N := 2^(n+1)) (by positivity) (by omega)
    (by have : INT_MAX = 2147483647 := by decide
        omega) (halfOf z.1) (halfOf z.2) (fun _ => 0)
  have e3 : m2 = m1 := pure_inj (em2.symm.trans hm1)
  have h := hm2 k hk
  rw [e3, e1, e2] at h
  rw [h]
  congr 1
  have hh : 2^(n+1)/2 = 2^n := by omega
  refine Fintype.sum_equiv (finCongr hh) _ _ fun i => rfl

theorem idft_arith {S δ c u η N τ x r s : ℝ} (hS : 0 ≤ S) (hc : 0 ≤ c) (hu : 0 ≤ u) (hη : 0 ≤ η) (hN0 : 0 ≤ N) (hu2 : u ≤ 1/10^9)
    (hN : N * u ≤ 1/10^6) (hτ : 0 ≤ τ) (hδ : δ = (N + 18) * u * S + τ) (hr : |r - s| ≤ δ) (hs : |s| ≤ S) (hx : |x - c * r| ≤ u * |c * r| + η) :
    |x - c * s| ≤ (N + 20) * u * (c * S) + 2 * (c * τ) + η := by
  have a1 : |r| ≤ S + δ := by
    have := abs_sub_abs_le_abs_sub r s
    linarith
  have a2 : |x - c * s| ≤ |x - c * r| + c * |r - s| := by
    have := abs_add_le (x - c * r) (c * (r - s))
    rw [abs_mul, abs_of_nonneg hc, show x - c * r + c * (r - s) = x - c * s by ring] at this
    exact this
  have a3 : |c * r| ≤ c * (S + δ) := by rw [abs_mul, abs_of_nonneg hc]; exact mul_le_mul_of_nonneg_left a1 hc
  have a4 : u * |c * r| ≤ u * (c * (S + δ)) := mul_le_mul_of_nonneg_left a3 hu
  have a5 : c * |r - s| ≤ c * δ := mul_le_mul_of_nonneg_left hr hc
  have cS : 0 ≤ u * (c * S) := by positivity
  have cτ : 0 ≤ c * τ := by positivity
  have e : u * (c * (S + δ)) + c * δ = u * (c * S) + (N + 18) * (u * (c * S)) + c * τ + u * ((N * u + 18 * u) * (c * S) + c * τ) := by rw [hδ]; ring
  have b1 : u * ((N * u + 18 * u) * (c * S) + c * τ) ≤ u * (c * S) + c * τ := by
    have k1 : (N * u + 18 * u) * (u * (c * S)) ≤ 1 * (u * (c * S)) := mul_le_mul_of_nonneg_right (by linarith) cS
    have k2 : u * (c * τ) ≤ 1 * (c * τ) := mul_le_mul_of_nonneg_right (by linarith) cτ
    linarith
  have e2 : (N + 20) * u * (c * S) = (N + 18) * (u * (c * S)) + 2 * (u * (c * S)) := by ring
  rw [e2]
  linarith

/-- C89: `idft` in binary64 computes the coefficients up to the rounding errors of its sums of `N/2` terms. -/
theorem C89_idft (hL : L.Accurate) (h1 : 1 ≤ n) (hn : n ≤ 19) (z : CVec (n+1)) (hz : ∑ i : Fin (2^n), ‖(⟨z.1 i, z.2 i⟩ : ℂ)‖ ≤ 2^990)
    (m0 m : Fin (2^(n+1)) → ℝ) (hm : ∀ i : Fin (2^n), slotOf m i = ⟨z.1 i, z.2 i⟩) :
    Ok (idftF L (halfOf z.1) (halfOf z.2) m0) fun r => ∀ k, |r k - m k| ≤
      (2^(n+1) + 20) / 2^53 * (2 / 2^(n+1) * ∑ i : Fin (2^n), ‖(⟨z.1 i, z.2 i⟩ : ℂ)‖) + 1/2^1069 := by
  have hp : 2^(n+1) = 2 * 2^n := by ring
  have hh : 2^(n+1)/2 = 2^n := by omega
  have hf := coeff_formula h1 (by omega) z m hm
  have hN2 : 2^(n+1) ≤ 2^20 := Nat.pow_le_pow_right (by norm_num) (by omega)
  have hrow : ∀ k, k < 2 * 2^(n+1) → Ok (idftRowF L (2^(n+1)) (halfOf (LOGN := n+1) z.1) (halfOf z.2) k) fun r =>
      ‖(⟨r.1, r.2⟩ : ℂ) - ∑ i : Fin (2^n), star (zeta (2^(n+1)) ^ (5^i.val * k)) * toC (n := 2^n) z.1 z.2 i‖ ≤
      (2 * (2^n : Nat) + 18) / 2^53 * (∑ i : Fin (2^n), ‖(⟨z.1 i, z.2 i⟩ : ℂ)‖) + (2^n : Nat) / 2^1071 := by
    intro k hk
    have h := idftRowF_spec hL hn (zr := z.1) (zi := z.2) hz hk
    have e : idftRowF L (2^(n+1)) (halfOf (LOGN := n+1) z.1) (halfOf z.2) k = idftRowF L (2^(n+1)) (H := 2^n) z.1 z.2 k := by
      have : ∀ (H : Nat) (e : H = 2^n) (a b : Fin H → ℝ), (∀ i, a i = z.1 (Fin.cast e i)) → (∀ i, b i = z.2 (Fin.cast e i)) →
          idftRowF L (2^(n+1)) a b k = idftRowF L (2^(n+1)) (H := 2^n) z.1 z.2 k := by
        rintro _ rfl a b ha hb
        rw [show a = z.1 from funext ha, show b = z.2 from funext hb]
      exact this _ hh _ _ (fun i => rfl) (fun i => rfl)
    rw [e]
    exact h
  obtain ⟨S, hS⟩ : ∃ S, S = ∑ i : Fin (2^n), ‖(⟨z.1 i, z.2 i⟩ : ℂ)‖ := ⟨_, rfl⟩
  have hS0 : 0 ≤ S := by rw [hS]; exact sum_nonneg fun _ _ => norm_nonneg _
  have hsum : ∀ k, ‖∑ i : Fin (2^n), star (zeta (2^(n+1)) ^ (5^i.val * k)) * toC (n := 2^n) z.1 z.2 i‖ ≤ S := by
    intro k
    rw [hS]
    refine (norm_sum_le _ _).trans (sum_le_sum fun i _ => ?_)
    rw [norm_mul, norm_star, zeta_pow_norm, one_mul]
    rfl
  rw [← hS] at hz ⊢
  simp only [← hS] at hrow
  have hc : fl (2 / ((2^(n+1) : Nat) : ℝ)) = pure (2 / ((2^(n+1) : Nat) : ℝ)) := by
    refine C74_exact ⟨1, -(n:ℤ), by norm_num, by omega, by omega, ?_⟩
    rw [zpow_neg, zpow_natCast]
    push_cast
    rw [pow_succ]
    field_simp
  have hu := uF_pos.le
  have hu2 := uF_le
  have hη := etaF_pos.le
  have hNu : (2:ℝ)^(n+1) * uF ≤ 1/10^6 := by
    have : (2:ℝ)^(n+1) ≤ 2^20 := by exact_mod_cast hN2
    rw [uF_eq]
    calc (2:ℝ)^(n+1) * (1/2^53) ≤ 2^20 * (1/2^53) := mul_le_mul_of_nonneg_right this (by positivity)
      _ ≤ _ := by norm_num
  have htail : 2 * (2 / (2:ℝ)^(n+1) * (2^n / 2^1071)) + etaF ≤ 1/2^1069 := by
    have e : 2 * (2 / (2:ℝ)^(n+1) * (2^n / 2^1071)) = 1/2^1070 := by
      rw [pow_succ]
      rw [show (2:ℝ)^1071 = 2^1070 * 2 from pow_succ _ _]
      generalize (2:ℝ)^1070 = P
      field_simp
    rw [e, etaF_eq]
    have h2 : (1:ℝ)/2^1075 ≤ 1/2^1070 := one_div_le_one_div_of_le (by positivity) (pow_le_pow_right₀ (by norm_num) (by norm_num))
    have h3 : (1:ℝ)/2^1069 = 2 * (1/2^1070) := by
      rw [show (2:ℝ)^1070 = 2^1069 * 2 from pow_succ _ _]
      generalize (2:ℝ)^1069 = P
      field_simp
    rw [h3]
    linarith
  have hstep : ∀ r s : ℝ, |s| ≤ S → |r - s| ≤ (2 * (2^n : Nat) + 18) / 2^53 * S + (2^n : Nat) / 2^1071 →
      Ok (fl (2 / ((2^(n+1) : Nat) : ℝ) * r)) fun x => |x - 2 / ((2^(n+1) : Nat) : ℝ) * s| ≤
        (2^(n+1) + 20) / 2^53 * (2 / 2^(n+1) * S) + 1/2^1069 := by
    intro r s hs hr
    have hN0 : (0:ℝ) < 2^(n+1) := by positivity
    have hc1 : 2 / ((2^(n+1) : Nat) : ℝ) ≤ 1 := by
      rw [div_le_one (by positivity)]
      have : 2^1 ≤ 2^(n+1) := Nat.pow_le_pow_right (by norm_num) (by omega)
      exact_mod_cast this
    have hδ : (2 * (2^n : Nat) + 18) / 2^53 * S + (2^n : Nat) / 2^1071 = ((2:ℝ)^(n+1) + 18) * uF * S + 2^n / 2^1071 := by
      rw [uF_eq]; push_cast; rw [pow_succ]; ring
    have hτ : (2:ℝ)^n / 2^1071 ≤ 1 := by
      rw [div_le_one (by positivity)]
      exact pow_le_pow_right₀ (by norm_num) (by omega)
    refine Ok.mono (fl_near ?_) fun x hx => ?_
    · rw [abs_mul, abs_of_nonneg (by positivity : (0:ℝ) ≤ 2 / ((2^(n+1) : Nat) : ℝ))]
      have hr2 : |r| ≤ 2^1020 := by
        have a := abs_sub_abs_le_abs_sub r s
        rw [hδ] at hr
        have b : ((2:ℝ)^(n+1) + 18) * uF * S ≤ 1 * S := mul_le_mul_of_nonneg_right (by linarith) hS0
        have c : (2:ℝ)^1020 = 2^30 * 2^990 := by rw [← pow_add]
        have d : (1:ℝ) ≤ 2^990 := one_le_pow₀ (by norm_num)
        rw [c]
        have hr3 : |r| ≤ S + S + 1 := by
          refine (sub_le_iff_le_add.1 a).trans (le_trans (add_le_add (hr.trans (add_le_add b hτ)) hs) (le_of_eq (by ring)))
        refine hr3.trans ?_
        clear htail hτ hδ hr hrow b c
        generalize (2:ℝ)^990 = P at *
        linarith
      exact (mul_le_mul hc1 hr2 (abs_nonneg _) (by norm_num)).trans (by rw [one_mul])
    · rw [hδ] at hr
      have := idft_arith (N := 2^(n+1)) hS0 (by positivity) hu hη hN0.le hu2 hNu (by positivity) rfl hr hs hx
      refine this.trans ?_
      push_cast
      rw [uF_eq] at *
      rw [add_assoc]
      refine add_le_add (le_of_eq ?_) htail
      ring
  unfold idftF
  refine Ok.mono (forUp_inv (Nat.zero_le _) (P := fun c (r : Fin (2^(n+1)) → ℝ) => ∀ k (hk : k < 2^(n+1)/2), k < c →
      ∀ (hk0 : k < 2^(n+1)) (hk1 : k + 2^(n+1)/2 < 2^(n+1)),
      |r ⟨k, hk0⟩ - m ⟨k, hk0⟩| ≤ (2^(n+1) + 20) / 2^53 * (2 / 2^(n+1) * S) + 1/2^1069 ∧
      |r ⟨k + 2^(n+1)/2, hk1⟩ - m ⟨k + 2^(n+1)/2, hk1⟩| ≤ (2^(n+1) + 20) / 2^53 * (2 / 2^(n+1) * S) + 1/2^1069)
    (fun k _ h => absurd h (Nat.not_lt_zero _)) ?_) ?_
  · intro c r _ hc' h
    refine Ok.bind (hrow c (by omega)) fun ρ hρ => ?_
    have c0 : c < 2^(n+1) := by omega
    have c1 : c + 2^(n+1)/2 < 2^(n+1) := by omega
    have hfc := hf c hc' c0 c1
    have hsc := hsum c
    generalize ∑ i : Fin (2^n), star (zeta (2^(n+1)) ^ (5^i.val * c)) * toC (n := 2^n) z.1 z.2 i = σ at *
    have er : m ⟨c, c0⟩ = 2 / ((2^(n+1) : Nat) : ℝ) * σ.re := by
      have := congrArg Complex.re hfc
      rwa [Complex.re_ofReal_mul] at this
    have ei : m ⟨c + 2^(n+1)/2, c1⟩ = 2 / ((2^(n+1) : Nat) : ℝ) * σ.im := by
      have := congrArg Complex.im hfc
      rwa [Complex.im_ofReal_mul] at this
    rw [hc, pure_bind]
    have q1 : |ρ.1 - σ.re| ≤ _ := (Complex.abs_re_le_norm ((⟨ρ.1, ρ.2⟩ : ℂ) - σ)).trans hρ
    have q2 : |ρ.2 - σ.im| ≤ _ := (Complex.abs_im_le_norm ((⟨ρ.1, ρ.2⟩ : ℂ) - σ)).trans hρ
    refine Ok.bind (hstep _ _ ((Complex.abs_re_le_norm _).trans hsc) q1) fun x hx => ?_
    rw [wr_of_lt r c0, pure_bind]
    refine Ok.bind (hstep _ _ ((Complex.abs_im_le_norm _).trans hsc) q2) fun y hy => ?_
    rw [wr_of_lt _ c1]
    rw [← er] at hx
    rw [← ei] at hy
    refine Ok.pure fun k hk hkc hk0 hk1 => ?_
    by_cases e : k = c
    · subst e
      rw [Function.update_of_ne (by intro h; have := congrArg Fin.val h; simp only at this; omega), Function.update_self, Function.update_self]
      exact ⟨hx, hy⟩
    · rw [Function.update_of_ne (by intro h; have := congrArg Fin.val h; simp only at this; omega),
        Function.update_of_ne (by intro h; have := congrArg Fin.val h; simp only at this; omega),
        Function.update_of_ne (by intro h; have := congrArg Fin.val h; simp only at this; omega),
        Function.update_of_ne (by intro h; have := congrArg Fin.val h; simp only at this; omega)]
      exact h k hk (by omega) hk0 hk1
  · intro r h k
    by_cases hk : k.val < 2^(n+1)/2
    · exact (h k.val hk hk k.isLt (by omega)).1
    · have e : k = ⟨(k.val - 2^(n+1)/2) + 2^(n+1)/2, by omega⟩ := Fin.ext (Nat.sub_add_cancel (not_lt.1 hk)).symm
      rw [e]
      exact (h (k.val - 2^(n+1)/2) (by omega) (by omega) (by omega) (by omega)).2

theorem trip_arith {X E u η θ a : ℝ} {n : Nat} (hn : n ≤ 26) (hX : 0 ≤ X) (hu : 0 ≤ u) (hη : 0 ≤ η) (hu2 : u ≤ 1/10^9) (hθ : θ ≤ 2^31 * η)
    (hE : E ≤ (28 * n + 3) * u * X + 2^40 * η) (ha : a ≤ n * (28 * u * (X + E) + 2 * θ)) : a + E ≤ (56 * n + 4) * u * X + 2^45 * η := by
  have hn' : (n:ℝ) ≤ 26 := by exact_mod_cast hn
  have hn0 : (0:ℝ) ≤ n := Nat.cast_nonneg _
  have k1 : n * (28 * u * (X + E) + 2 * θ) = 28 * n * u * X + n * (28 * u * E) + n * (2 * θ) := by ring
  have k2 : (n:ℝ) * (2 * θ) ≤ 26 * (2 * (2^31 * η)) := by
    have h : 2 * θ ≤ 2 * (2^31 * η) := by linarith
    exact (mul_le_mul_of_nonneg_left h hn0).trans (mul_le_mul_of_nonneg_right hn' (by positivity))
  have hF : 0 ≤ (28 * n + 3) * u * X + 2^40 * η := by positivity
  have k3 : (n:ℝ) * (28 * u * E) ≤ 26 * (28 * u * ((28 * n + 3) * u * X + 2^40 * η)) := by
    have h : 28 * u * E ≤ 28 * u * ((28 * n + 3) * u * X + 2^40 * η) := mul_le_mul_of_nonneg_left hE (by positivity)
    exact (mul_le_mul_of_nonneg_left h hn0).trans (mul_le_mul_of_nonneg_right hn' (by positivity))
  have huX : 0 ≤ u * X := by positivity
  have k4 : (28 * n + 3) * u * X ≤ 731 * (u * X) := by
    rw [mul_assoc]
    exact mul_le_mul_of_nonneg_right (by linarith) huX
  have k5 : 26 * (28 * u * ((28 * n + 3) * u * X + 2^40 * η)) ≤ 728 * (u * (731 * (u * X) + 2^40 * η)) := by
    rw [show 26 * (28 * u * ((28 * n + 3) * u * X + 2^40 * η)) = 728 * (u * ((28 * n + 3) * u * X + 2^40 * η)) by ring]
    exact mul_le_mul_of_nonneg_left (mul_le_mul_of_nonneg_left (by linarith) hu) (by norm_num)
  have k6 : u * (731 * (u * X) + 2^40 * η) ≤ 1/10^9 * (731 * (u * X) + 2^40 * η) := mul_le_mul_of_nonneg_right hu2 (by positivity)
  have e1 : (56 * n + 4) * u * X = 28 * n * u * X + (28 * n + 3) * u * X + u * X := by ring
  rw [e1]
  rw [k1] at ha
  norm_num at *
  linarith

theorem trip_arith2 {X u η θ : ℝ} {n : Nat} (hn : n ≤ 26) (hX : 0 ≤ X) (hu : 0 ≤ u) (hη : 0 ≤ η) (hu2 : u ≤ 1/10^9) (hθ : θ ≤ 2^31 * η) :
    (28 * n + 3) * u * (X + n * (28 * u * X + 2 * θ)) + 2^40 * η + n * (28 * u * X + 2 * θ) ≤ (56 * n + 4) * u * X + 2^45 * η := by
  have hn' : (n:ℝ) ≤ 26 := by exact_mod_cast hn
  have hn0 : (0:ℝ) ≤ n := Nat.cast_nonneg _
  have huX : 0 ≤ u * X := by positivity
  have k2 : (n:ℝ) * (2 * θ) ≤ 26 * (2 * (2^31 * η)) := by
    have h : 2 * θ ≤ 2 * (2^31 * η) := by linarith
    exact (mul_le_mul_of_nonneg_left h hn0).trans (mul_le_mul_of_nonneg_right hn' (by positivity))
  have k3 : (n:ℝ) * (28 * u * X + 2 * θ) ≤ 728 * (u * X) + 26 * (2 * (2^31 * η)) := by
    have a : (n:ℝ) * (u * X) ≤ 26 * (u * X) := mul_le_mul_of_nonneg_right hn' huX
    have e : (n:ℝ) * (28 * u * X + 2 * θ) = 28 * (n * (u * X)) + n * (2 * θ) := by ring
    rw [e]; linarith
  have k4 : (28 * n + 3) * u * (n * (28 * u * X + 2 * θ)) ≤ 731 * (1/10^9) * (728 * (u * X) + 26 * (2 * (2^31 * η))) := by
    have b : (28 * n + 3) * u ≤ 731 * (1/10^9) := mul_le_mul (by linarith) hu2 hu (by norm_num)
    have p : 0 ≤ (28 * n + 3) * u := by positivity
    exact (mul_le_mul_of_nonneg_left k3 p).trans (mul_le_mul_of_nonneg_right b (by positivity))
  have e1 : (28 * n + 3) * u * (X + n * (28 * u * X + 2 * θ)) + 2^40 * η + n * (28 * u * X + 2 * θ) =
    (56 * n + 3) * (u * X) + (28 * n + 3) * u * (n * (28 * u * X + 2 * θ)) + n * (2 * θ) + 2^40 * η := by ring
  have e2 : (56 * n + 4) * u * X = (56 * n + 3) * (u * X) + u * X := by ring
  rw [e1, e2]
  norm_num at *
  linarith

theorem trip_tail {n : Nat} (hn : n ≤ 26) : Real.sqrt 2 ^ n * (2^45 * etaF) ≤ 1/2^900 := by
  refine tiny_le' (le_trans (mul_le_mul_of_nonneg_right (sqrt2_pow hn).2 (mul_nonneg (by norm_num) etaF_pos.le)) ?_)
  rw [← mul_assoc]
  exact mul_le_mul_of_nonneg_right (by norm_num) etaF_pos.le

/-- C89: `fft` after `ifft` in binary64 returns the message up to the relative error `(56n+4)/2^53` in the Euclidean norm. -/
theorem C89_fft_ifft (hL : L.Accurate) (h1 : 1 ≤ n) (hn : n ≤ 26) (z : CVec (n+1)) (m0 : Fin (2^(n+1)) → ℝ)
    (hz : ∑ i : Fin (2^n), ‖(⟨z.1 i, z.2 i⟩ : ℂ)‖^2 ≤ (2^900)^2) :
    Ok (ifftF L (n+1) z m0 >>= fftF L (n+1)) fun w => Real.sqrt (∑ i : Fin (2^n), ‖(⟨w.1 i, w.2 i⟩ : ℂ) - ⟨z.1 i, z.2 i⟩‖^2) ≤
      (56 * n + 4) / 2^53 * Real.sqrt (∑ i : Fin (2^n), ‖(⟨z.1 i, z.2 i⟩ : ℂ)‖^2) + 1/2^900 := by
  obtain ⟨m, -, hs, _⟩ := ifft_slot (LOGN := n+1) (by omega) (by omega) z m0
  have hs' : ∀ i : Fin (2^n), slotOf m i = ⟨z.1 i, z.2 i⟩ := hs
  have hl : l2 (toC (n := 2^n) z.1 z.2) ≤ 2^900 := l2_le_of_sq (by positivity) hz
  have hl2 : l2 (toC (n := 2^n) z.1 z.2) = Real.sqrt 2 ^ n * l2 (pairC n m) := by
    rw [← slots_l2]
    exact congrArg l2 (funext fun i => (hs' i).symm)
  have hX0 := l2_nonneg (pairC n m)
  have hs1 := sqrt2_pow hn
  have hX : l2 (pairC n m) ≤ 2^900 := by
    rw [hl2] at hl
    exact (le_mul_of_one_le_left hX0 hs1.1).trans hl
  have hu := uF_pos.le
  have hu2 := uF_le
  have hη := etaF_pos.le
  have hη2 := etaF_le
  have hn' : (n:ℝ) ≤ 26 := by exact_mod_cast hn
  refine Ok.bind (ifftF_spec hL h1 hn z m0 m hs' (hl.trans (pow_le_pow_right₀ (by norm_num) (by norm_num)))) fun m' hm' => ?_
  have ht := l2_add_le (pairC n m' - pairC n m) (pairC n m)
  rw [sub_add_cancel] at ht
  have hbig : (28 * n + 3) * uF * l2 (pairC n m) + 2^40 * etaF ≤ l2 (pairC n m) + 2^20 := by
    have a : (28 * n + 3) * uF * l2 (pairC n m) ≤ 1 * l2 (pairC n m) := mul_le_mul_of_nonneg_right (by
      have : (28 * (n:ℝ) + 3) * uF ≤ 731 * (1/10^9) := mul_le_mul (by linarith) hu2 hu (by norm_num)
      linarith) hX0
    have b : 2^40 * etaF ≤ 2^40 * (1/10^9) := mul_le_mul_of_nonneg_left hη2 (by norm_num)
    have c : (2:ℝ)^40 * (1/10^9) ≤ 2^20 := by norm_num
    linarith
  have h950 : l2 (pairC n m') ≤ 2^950 := by
    have a : (2:ℝ)^950 = 2^50 * 2^900 := by rw [← pow_add]
    have b : (1:ℝ) ≤ 2^900 := one_le_pow₀ (by norm_num)
    rw [a]
    have c := ht.trans (add_le_add (hm'.trans hbig) le_rfl)
    clear a hz hl
    generalize (2:ℝ)^900 = P at *
    norm_num at *
    linarith
  refine Ok.mono (fftF_spec hL h1 hn m' h950) fun w hw => ?_
  have e1 : (fun i : Fin (2^n) => slotOf m' i) - toC (n := 2^n) z.1 z.2 = fun i : Fin (2^n) => slotOf (fun k => m' k - m k) i := by
    funext i
    rw [slotOf_sub, hs' i]
    rfl
  have htot := l2_add_le (toC (n := 2^n) w.1 w.2 - fun i : Fin (2^n) => slotOf m' i) ((fun i : Fin (2^n) => slotOf m' i) - toC (n := 2^n) z.1 z.2)
  rw [sub_add_sub_cancel, e1, slots_l2] at htot
  have e2 : pairC n (fun k => m' k - m k) = pairC n m' - pairC n m := by
    funext i
    rfl
  rw [e2] at htot
  have hfin : n * (28 * uF * l2 (pairC n m') + 2 * thF n) + l2 (pairC n m' - pairC n m) ≤ (56 * n + 4) * uF * l2 (pairC n m) + 2^45 * etaF := by
    refine trip_arith hn hX0 hu hη hu2 (thF_le hn) hm' ?_
    have : 28 * uF * l2 (pairC n m') ≤ 28 * uF * (l2 (pairC n m) + l2 (pairC n m' - pairC n m)) :=
      mul_le_mul_of_nonneg_left (by linarith) (by linarith)
    exact mul_le_mul_of_nonneg_left (by linarith) (Nat.cast_nonneg _)
  have h3 : l2 (toC (n := 2^n) w.1 w.2 - toC (n := 2^n) z.1 z.2) ≤
      (56 * n + 4) / 2^53 * l2 (toC (n := 2^n) z.1 z.2) + 1/2^900 := by
    refine htot.trans ((add_le_add hw le_rfl).trans ?_)
    rw [← mul_add]
    refine (mul_le_mul_of_nonneg_left hfin (by positivity)).trans ?_
    rw [mul_add, hl2]
    refine add_le_add (le_of_eq ?_) (trip_tail hn)
    rw [uF_eq]; ring
  exact h3

/-- C89: `ifft` after `fft` in binary64 returns the coefficients up to the relative error `(56n+4)/2^53` in the Euclidean norm. -/
theorem C89_ifft_fft (hL : L.Accurate) (h1 : 1 ≤ n) (hn : n ≤ 26) (m m0 : Fin (2^(n+1)) → ℝ) (hm : ∑ k, m k ^ 2 ≤ (2^900)^2) :
    Ok (fftF L (n+1) m >>= fun z => ifftF L (n+1) z m0) fun w => Real.sqrt (∑ k, (w k - m k)^2) ≤
      (56 * n + 4) / 2^53 * Real.sqrt (∑ k, m k ^ 2) + 1/2^900 := by
  have hX0 := l2_nonneg (pairC n m)
  have hs1 := sqrt2_pow hn
  have hX : l2 (pairC n m) ≤ 2^900 := by
    rw [l2_pairC, Real.sqrt_le_left (by positivity)]
    exact hm
  have hu := uF_pos.le
  have hu2 := uF_le
  have hη := etaF_pos.le
  have hη2 := etaF_le
  have hn' : (n:ℝ) ≤ 26 := by exact_mod_cast hn
  have hn0 : (0:ℝ) ≤ n := Nat.cast_nonneg _
  refine Ok.bind (fftF_spec hL h1 hn m (hX.trans (pow_le_pow_right₀ (by norm_num) (by norm_num)))) fun z hz => ?_
  obtain ⟨mz, -, hs, _⟩ := ifft_slot (LOGN := n+1) (by omega) (by omega) z m0
  have hs' : ∀ i : Fin (2^n), slotOf mz i = ⟨z.1 i, z.2 i⟩ := hs
  have e1 : toC (n := 2^n) z.1 z.2 - (fun i : Fin (2^n) => slotOf m i) = fun i : Fin (2^n) => slotOf (fun k => mz k - m k) i := by
    funext i
    rw [slotOf_sub, hs' i]
    rfl
  have e2 : pairC n (fun k => mz k - m k) = pairC n mz - pairC n m := by funext i; rfl
  rw [e1, slots_l2, e2] at hz
  have hd := le_of_mul_le_mul_left hz (by linarith [hs1.1])
  have hθ := thF_le hn
  have hl2 : l2 (toC (n := 2^n) z.1 z.2) = Real.sqrt 2 ^ n * l2 (pairC n mz) := by
    rw [← slots_l2]
    exact congrArg l2 (funext fun i => (hs' i).symm)
  have ht := l2_add_le (pairC n mz - pairC n m) (pairC n m)
  rw [sub_add_cancel] at ht
  have hbig : n * (28 * uF * l2 (pairC n m) + 2 * thF n) ≤ l2 (pairC n m) + 2^20 := by
    have a : 28 * uF * l2 (pairC n m) ≤ 28 * (1/10^9) * l2 (pairC n m) := mul_le_mul_of_nonneg_right (by linarith) hX0
    have b : 2 * thF n ≤ 2 * (2^31 * (1/10^9)) := by linarith
    have c : n * (28 * uF * l2 (pairC n m) + 2 * thF n) ≤ 26 * (28 * (1/10^9) * l2 (pairC n m) + 2 * (2^31 * (1/10^9))) :=
      (mul_le_mul_of_nonneg_left (add_le_add a b) hn0).trans (mul_le_mul_of_nonneg_right hn' (by positivity))
    refine c.trans ?_
    norm_num
    linarith
  have h950 : l2 (toC (n := 2^n) z.1 z.2) ≤ 2^950 := by
    have a : (2:ℝ)^950 = 2^13 * (2^37 * 2^900) := by rw [← pow_add, ← pow_add]
    have b : (1:ℝ) ≤ 2^900 := one_le_pow₀ (by norm_num)
    rw [hl2, a]
    have c := ht.trans (add_le_add (hd.trans hbig) le_rfl)
    refine mul_le_mul hs1.2 ?_ (l2_nonneg _) (by positivity)
    clear a hm hz
    generalize (2:ℝ)^900 = P at *
    norm_num at *
    linarith
  refine Ok.mono (ifftF_spec hL h1 hn z m0 mz hs' h950) fun w hw => ?_
  have htot := l2_add_le (pairC n w - pairC n mz) (pairC n mz - pairC n m)
  rw [sub_add_sub_cancel] at htot
  have h3 : l2 (pairC n w - pairC n m) ≤ (56 * n + 4) / 2^53 * l2 (pairC n m) + 1/2^900 := by
    have k1 : (28 * n + 3) * uF * l2 (pairC n mz) ≤ (28 * n + 3) * uF * (l2 (pairC n m) + n * (28 * uF * l2 (pairC n m) + 2 * thF n)) :=
      mul_le_mul_of_nonneg_left (by linarith) (by positivity)
    refine htot.trans ((add_le_add (hw.trans (add_le_add k1 le_rfl)) hd).trans ?_)
    refine (trip_arith2 hn hX0 hu hη hu2 hθ).trans (add_le_add (le_of_eq ?_) ?_)
    · rw [uF_eq]; ring
    · exact tiny_le' (mul_le_mul_of_nonneg_right (by norm_num) hη)
  have e3 : pairC n w - pairC n m = pairC n (fun k => w k - m k) := by funext i; rfl
  rw [e3, l2_pairC, l2_pairC] at h3
  exact h3

/-- C89: `run_test` in binary64 prints the random message and its image under `ifft` and `fft`, which is the same up to the stated error. -/
theorem C89_run_test (hL : L.Accurate) (h1 : 1 ≤ n) (hn : n ≤ 26) (m0 : Fin (2^(n+1)) → ℝ) (ρ : RealRng) (hρ : ∀ j, |ρ j| ≤ 1 / Real.sqrt 2) :
    Ok (run_testF L (n+1) m0 ρ) fun o => (∀ i : Fin (2^n), (⟨o.1.1 i, o.1.2 i⟩ : ℂ) = ⟨ρ i, ρ (2^n + i)⟩) ∧
      Real.sqrt (∑ i : Fin (2^n), ‖(⟨o.2.1 i, o.2.2 i⟩ : ℂ) - ⟨o.1.1 i, o.1.2 i⟩‖^2) ≤ (56 * n + 4) / 2^53 * Real.sqrt 2 ^ n + 1/2^900 := by
  have hz1 := random_message_norm (n+1) hρ
  have hsq : ∑ i : Fin (2^n), ‖(⟨(set_random_message (n+1) ρ).1.1 i, (set_random_message (n+1) ρ).1.2 i⟩ : ℂ)‖^2 ≤ 2^n := by
    have := sum_le_card_nsmul univ (fun i : Fin (2^n) => ‖(⟨(set_random_message (n+1) ρ).1.1 i, (set_random_message (n+1) ρ).1.2 i⟩ : ℂ)‖^2) 1
      fun i _ => pow_le_one₀ (norm_nonneg _) (hz1 i)
    rwa [card_univ, Fintype.card_fin, nsmul_eq_mul, mul_one, Nat.cast_pow, Nat.cast_ofNat] at this
  have hs2 : (Real.sqrt 2 ^ n)^2 = 2^n := by rw [← pow_mul, mul_comm, pow_mul, Real.sq_sqrt (by norm_num)]
  have h := C89_fft_ifft hL h1 hn (set_random_message (n+1) ρ).1 m0 (hsq.trans (by
    rw [← pow_mul]; exact pow_le_pow_right₀ (by norm_num) (by omega)))
  have e : run_testF L (n+1) m0 ρ = (ifftF L (n+1) (set_random_message (n+1) ρ).1 m0 >>= fftF L (n+1)) >>= fun w =>
      pure ((set_random_message (n+1) ρ).1, w) := by
    unfold run_testF
    rw [bind_assoc]
  rw [e]
  refine Ok.bind h fun w hw => Ok.pure ⟨fun i => rfl, hw.trans ?_⟩
  refine add_le_add (mul_le_mul_of_nonneg_left ?_ (by positivity)) le_rfl
  rw [Real.sqrt_le_left (by positivity), hs2]
  exact hsq

/-- the mean of the slots is at most the Euclidean norm of the coefficients -/
theorem mean_le_l2 (m : Fin (2^(n+1)) → ℝ) : 2 / 2^(n+1) * ∑ i : Fin (2^n), ‖slotOf m i‖ ≤ l2 (pairC n m) := by
  have h := slots_l2 m
  have hs2 : Real.sqrt 2 ^ n * Real.sqrt 2 ^ n = 2^n := by rw [← mul_pow, Real.mul_self_sqrt (by norm_num)]
  have hcs := sq_sum_le_card_mul_sum_sq (s := (univ : Finset (Fin (2^n)))) (f := fun i => ‖slotOf m i‖)
  rw [card_univ, Fintype.card_fin, Nat.cast_pow, Nat.cast_ofNat, ← l2_sq, h] at hcs
  have h2 : ∑ i : Fin (2^n), ‖slotOf m i‖ ≤ 2^n * l2 (pairC n m) := by
    refine abs_le_of_sq_le_sq' (a := ∑ i : Fin (2^n), ‖slotOf m i‖) (hcs.trans (le_of_eq ?_)) (mul_nonneg (by positivity) (l2_nonneg _)) |>.2
    rw [mul_pow, ← hs2]
    ring
  have h3 : (2:ℝ) / 2^(n+1) = 1 / 2^n := by rw [pow_succ]; field_simp
  rw [h3, one_div, inv_mul_le_iff₀ (by positivity)]
  exact h2

/-- C89: `ifft_test` in binary64 prints the coefficients of the rounded test message twice, multiples of `2^-50`: once from `idft`, with
the rounding errors of its sums, and once from `ifft`. -/
theorem C89_ifft_test (hL : L.Accurate) (h1 : 1 ≤ n) (hn : n ≤ 19) (m0 m1 : Fin (2^(n+1)) → ℝ) :
    Ok (ifft_testF L 50 (n+1) m0 m1) fun o => ∃ (m : Fin (2^(n+1)) → ℝ) (p : Fin (2^(n+1)) → ℤ),
      (∀ i : Fin (2^n), slotOf m i = ⟨(set_test_message (n+1)).1 i, (set_test_message (n+1)).2 i⟩) ∧
      (∀ k, |p k - 2^50 * m k| ≤ 1/2 + (28 * (n:ℝ) + 18) / 8) ∧
      ∀ k, |o.1 k - p k / 2^50| ≤ (2^(n+1) + 28 * (n:ℝ) + 24) / 2^53 ∧ |o.2 k - p k / 2^50| ≤ (56 * (n:ℝ) + 5) / 2^53 := by
  obtain ⟨z0, m, y, ez, hm, epp, hy, -⟩ := test_ptF hL h1 (show n ≤ 26 by omega)
  have hu := uF_pos.le
  have hu2 := uF_le
  have hn' : (n:ℝ) ≤ 19 := by exact_mod_cast hn
  have hn0 : (0:ℝ) ≤ n := Nat.cast_nonneg _
  have hm8 : l2 (pairC n m) ≤ 0.8 := by
    rw [l2_pairC]
    exact coeff_norm fun i => by rw [hm]; exact test_message_norm' (n+1) i
  rw [← l2_pairC] at hy
  have hyk : ∀ k, |y k - 2^50 * m k| ≤ (28 * (n:ℝ) + 18) / 8 := fun k => (abs_le_pair (fun k => y k - 2^50 * m k) k).trans hy
  have hpk : ∀ k, |(cround (y k) : ℝ) - 2^50 * m k| ≤ 1/2 + (28 * (n:ℝ) + 18) / 8 := by
    intro k
    have a := abs_add_le ((cround (y k) : ℝ) - y k) (y k - 2^50 * m k)
    rw [sub_add_sub_cancel] at a
    exact a.trans (add_le_add (cround_err (y k)) (hyk k))
  have hmk : ∀ k, |m k| ≤ 0.8 := fun k => (abs_le_pair m k).trans hm8
  have hp53 : ∀ k, |(cround (y k) : ℝ)| < 2^53 := by
    intro k
    have a := abs_sub_abs_le_abs_sub (cround (y k) : ℝ) (2^50 * m k)
    have b : |2^50 * m k| ≤ 2^50 * 0.8 := by
      rw [abs_mul, abs_of_pos (show (0:ℝ) < 2^50 by norm_num)]
      exact mul_le_mul_of_nonneg_left (hmk k) (by norm_num)
    have c := hpk k
    generalize |(cround (y k) : ℝ)| = A at a ⊢
    generalize |2^50 * m k| = B at a b
    generalize |(cround (y k) : ℝ) - 2^50 * m k| = C at a c
    clear hpk hmk hyk hm8 hy epp hm ez
    norm_num at b ⊢
    linarith
  have hp53' : ∀ k, |cround (y k)| < 2^53 := fun k => by exact_mod_cast hp53 k
  have hd : fl (((BitVec.ofNat 64 (2^50)).toNat : ℝ)) = pure (2^50) := by
    rw [show (((BitVec.ofNat 64 (2^50)).toNat : Nat) : ℝ) = 2^50 by norm_num]
    exact C74_exact ⟨1, 50, by norm_num, by norm_num, by norm_num, by norm_num⟩
  obtain ⟨c, hc⟩ : ∃ c : Fin (2^(n+1)) → ℝ, c = fun k => (cround (y k) : ℝ) / 2^50 := ⟨_, rfl⟩
  have hdec : SimpleF.decode (LOGN := n+1) L (fun k => (cround (y k) : ℝ)) (BitVec.ofNat 64 (2^50)) = fftF L (n+1) c := by
    unfold SimpleF.decode
    rw [hd, pure_bind]
    have : tabM (2^(n+1)) (fun i => do
        let x ← rd (fun k => (cround (y k) : ℝ)) i
        if (2:ℝ)^50 = 0 then ub else fl (x / 2^50)) = pure c := by
      obtain ⟨c', e, h⟩ := tabM_spec (n := 2^(n+1)) (f := fun i => do
        let x ← rd (fun k => (cround (y k) : ℝ)) i
        if (2:ℝ)^50 = 0 then ub else fl (x / 2^50)) (P := fun i v => ∀ hi : i < 2^(n+1), v = c ⟨i, hi⟩) fun i hi => by
          beta_reduce
          rw [rd_of_lt _ hi, pure_bind, if_neg (by positivity), C74_exact]
          · refine Ok.pure fun _ => ?_
            rw [hc]
          · refine ⟨cround (y ⟨i, hi⟩), -50, hp53' _, by norm_num, by norm_num, ?_⟩
            rw [zpow_neg, div_eq_mul_inv]
            norm_cast
      rw [e]
      congr 1
      funext i
      exact h i i.isLt
    rw [this, pure_bind]
  have hcm : l2 (pairC n fun k => c k - m k) ≤ 1/2^20 := by
    rw [l2_pairC]
    refine (l2r_le (fun k => c k - m k) (R := 101 / 2^50) (by norm_num) fun k => ?_).trans ?_
    · have e : c k - m k = ((cround (y k) : ℝ) - 2^50 * m k) / 2^50 := by rw [hc]; ring
      rw [e, abs_div, abs_of_pos (show (0:ℝ) < 2^50 by norm_num)]
      refine div_le_div_of_nonneg_right ((hpk k).trans ?_) (by norm_num)
      linarith
    · have h2 : Real.sqrt ((2^(n+1) : ℕ) : ℝ) ≤ 2^10 := by
        rw [Real.sqrt_le_left (by norm_num)]
        have : ((2^(n+1) : ℕ) : ℝ) ≤ 2^20 := by exact_mod_cast Nat.pow_le_pow_right (by norm_num) (by omega)
        exact this.trans (by norm_num)
      calc Real.sqrt ((2^(n+1) : ℕ) : ℝ) * (101 / 2^50) ≤ 2^10 * (101/2^50) := mul_le_mul_of_nonneg_right h2 (by norm_num)
        _ ≤ _ := by norm_num
  have hX : l2 (pairC n c) ≤ 0.9 := by
    have := pair_add (fun k => c k - m k) m
    simp only [sub_add_cancel] at this
    refine (this.trans (add_le_add hcm hm8)).trans (by norm_num)
  have hX2 : ∑ k, c k ^ 2 ≤ (2^900)^2 := by
    have : Real.sqrt (∑ k, c k ^ 2) ≤ 2^900 := by
      rw [← l2_pairC]
      exact hX.trans (le_trans (by norm_num) (one_le_pow₀ (by norm_num : (1:ℝ) ≤ 2)))
    rwa [Real.sqrt_le_left (by positivity)] at this
  have hX0 := l2_nonneg (pairC n c)
  have htrip := C89_ifft_fft hL h1 (show n ≤ 26 by omega) c m1 hX2
  obtain ⟨z, efft, hz⟩ := fftF_spec hL h1 (show n ≤ 26 by omega) c (hX.trans (le_trans (by norm_num) (one_le_pow₀ (by norm_num : (1:ℝ) ≤ 2))))
  rw [efft, pure_bind] at htrip
  obtain ⟨w, ew, hw⟩ := htrip
  obtain ⟨mz, -, hs, _⟩ := ifft_slot (LOGN := n+1) (by omega) (by omega) z m0
  have hs' : ∀ i : Fin (2^n), slotOf mz i = ⟨z.1 i, z.2 i⟩ := hs
  have e1 : toC (n := 2^n) z.1 z.2 - (fun i : Fin (2^n) => slotOf c i) = fun i : Fin (2^n) => slotOf (fun k => mz k - c k) i := by
    funext i
    rw [slotOf_sub, hs' i]
    rfl
  rw [e1, slots_l2] at hz
  have hd2 := le_of_mul_le_mul_left hz (by positivity)
  have hθ := thF_le (show n ≤ 26 by omega)
  have ht900 : (1:ℝ)/2^900 ≤ 1/10^9 * uF := by
    rw [uF_eq]
    have : (1:ℝ)/2^900 ≤ 1/2^100 := one_div_le_one_div_of_le (by positivity) (pow_le_pow_right₀ (by norm_num) (by norm_num))
    exact this.trans (by norm_num)
  have hd3 : l2 (pairC n fun k => mz k - c k) ≤ (28 * (n:ℝ) + 1) * uF := by
    have a : 28 * uF * l2 (pairC n c) ≤ 28 * uF * 0.9 := mul_le_mul_of_nonneg_left hX (by linarith)
    have b : 2 * thF n ≤ 1/10^9 * uF := by
      refine le_trans ?_ ht900
      exact tiny_le' (by linarith [mul_le_mul_of_nonneg_right (show (2:ℝ)^32 ≤ 2^100 by norm_num) etaF_pos.le])
    have c1 : n * (28 * uF * l2 (pairC n c) + 2 * thF n) ≤ n * (28 * uF) := mul_le_mul_of_nonneg_left (by linarith) hn0
    refine hd2.trans (c1.trans ?_)
    linarith
  have hmz : l2 (pairC n mz) ≤ 1 := by
    have := pair_add (fun k => mz k - c k) c
    simp only [sub_add_cancel] at this
    have b : (28 * (n:ℝ) + 1) * uF ≤ 533 * (1/10^9) := mul_le_mul (by linarith) hu2 hu (by norm_num)
    refine (this.trans (add_le_add (hd3.trans b) hX)).trans (by norm_num)
  have hmean := (mean_le_l2 mz).trans hmz
  have hsum : ∑ i : Fin (2^n), ‖(⟨z.1 i, z.2 i⟩ : ℂ)‖ = ∑ i : Fin (2^n), ‖slotOf mz i‖ := sum_congr rfl fun i _ => by rw [hs' i]
  obtain ⟨v, ev, hv⟩ := C89_idft hL h1 hn z (by
    rw [hsum]
    have e : (2:ℝ) / 2^(n+1) = 1 / 2^n := by rw [pow_succ]; field_simp
    rw [e, one_div, inv_mul_le_iff₀ (by positivity), mul_one] at hmean
    exact hmean.trans (pow_le_pow_right₀ (by norm_num) (by omega))) m0 mz hs'
  rw [hsum] at hv
  unfold ifft_testF set_test_rounded_messageF
  rw [shl1_eq (by norm_num), pure_bind, ez, pure_bind, epp, pure_bind, hdec, efft, pure_bind, ev, pure_bind, ew, pure_bind]
  refine Ok.pure ⟨m, fun k => cround (y k), hm, hpk, fun k => ⟨?_, ?_⟩⟩
  · have a : |v k - mz k| ≤ (2^(n+1) + 20) / 2^53 * 1 + 1/2^1069 :=
      (hv k).trans (add_le_add (mul_le_mul_of_nonneg_left hmean (by positivity)) le_rfl)
    have b := (abs_le_pair (fun k => mz k - c k) k).trans hd3
    have t : (1:ℝ)/2^1069 ≤ uF := by
      rw [uF_eq]
      exact one_div_le_one_div_of_le (by positivity) (pow_le_pow_right₀ (by norm_num) (by norm_num))
    have h := abs_add_le (v k - mz k) (mz k - c k)
    have h' := h.trans (add_le_add (a.trans (add_le_add le_rfl t)) b)
    rw [sub_add_sub_cancel, hc] at h'
    refine h'.trans ?_
    rw [uF_eq]
    have e : (2^(n+1) + 20) / 2^53 * 1 + 1/2^53 + (28 * n + 1) * (1/2^53) = ((2:ℝ)^(n+1) + 28 * n + 22) / 2^53 := by ring
    rw [e]
    exact div_le_div_of_nonneg_right (by linarith) (by norm_num)
  · rw [← l2_pairC] at hw
    have a := (abs_le_pair (fun k => w k - c k) k).trans hw
    rw [← l2_pairC] at a
    have b : (56 * (n:ℝ) + 4) / 2^53 * l2 (pairC n c) ≤ (56 * (n:ℝ) + 4) / 2^53 * 1 :=
      mul_le_mul_of_nonneg_left (hX.trans (by norm_num)) (by positivity)
    have t : (1:ℝ)/2^900 ≤ 1/2^53 := one_div_le_one_div_of_le (by positivity) (pow_le_pow_right₀ (by norm_num) (by norm_num))
    have h := a.trans (add_le_add b t)
    rw [hc] at h
    refine h.trans (le_of_eq (by ring))

/-- C89 at the parameters of test.h: the two arrays of `ifft_test` agree to `2^-42`, the two messages of `run_test` to `2^-40`. -/
theorem C89_parameters (hL : L.Accurate) (m0 m1 : Fin (2^(8+1)) → ℝ) (ρ : RealRng) (hρ : ∀ j, |ρ j| ≤ 1 / Real.sqrt 2) :
    Ok (ifft_testF L 50 (8+1) m0 m1) (fun o => ∀ k, |o.1 k - o.2 k| ≤ 1/2^42) ∧
    Ok (run_testF L (8+1) m0 ρ) (fun o => ∀ i : Fin (2^8), ‖(⟨o.1.1 i, o.1.2 i⟩ : ℂ) - ⟨o.2.1 i, o.2.2 i⟩‖ ≤ 1/2^40) := by
  constructor
  · refine Ok.mono (C89_ifft_test (n := 8) hL (by norm_num) (by norm_num) m0 m1) ?_
    rintro o ⟨m, p, -, -, h⟩ k
    have a := abs_sub (o.1 k - p k / 2^50) (o.2 k - p k / 2^50)
    rw [sub_sub_sub_cancel_right] at a
    refine a.trans ((add_le_add (h k).1 (h k).2).trans (by norm_num))
  · refine Ok.mono (C89_run_test (n := 8) hL (by norm_num) (by norm_num) m0 ρ hρ) ?_
    rintro o ⟨-, h⟩ i
    have a := le_l2 (fun i : Fin (2^8) => (⟨o.2.1 i, o.2.2 i⟩ : ℂ) - ⟨o.1.1 i, o.1.2 i⟩) i
    rw [norm_sub_rev]
    refine a.trans (h.trans ?_)
    rw [sqrt2_pow8]
    have t : (1:ℝ)/2^900 ≤ 1/2^53 := one_div_le_one_div_of_le (by positivity) (pow_le_pow_right₀ (by norm_num) (by norm_num))
    refine (add_le_add le_rfl t).trans (by norm_num)

/-- C89 is not vacuous: correctly rounded library functions, all coefficients 1, all random numbers of the message 1/2. -/
example : exactLibmP.toLibm.Accurate ∧ ∑ _k : Fin (2^(8+1)), |(1:ℝ)| ≤ 2^990 ∧ ∑ _i : Fin (2^8), ‖Complex.mk 1 0‖ ≤ 2^990 ∧
    (∀ _ : Nat, |(1:ℝ)/2| ≤ 1 / Real.sqrt 2) := by
  have h9 : (2:ℝ)^9 ≤ 2^990 := pow_le_pow_right₀ (by norm_num) (by norm_num)
  refine ⟨exactLibmP_accurate.1, ?_, ?_, fun _ => ?_⟩
  · rw [abs_one, sum_const, card_univ, Fintype.card_fin, nsmul_eq_mul, mul_one]
    exact le_trans (by norm_num) h9
  · rw [show Complex.mk 1 0 = 1 from rfl, norm_one, sum_const, card_univ, Fintype.card_fin, nsmul_eq_mul, mul_one]
    exact le_trans (by norm_num) h9
  · rw [abs_of_pos (by norm_num)]
    exact one_div_le_one_div_of_le (Real.sqrt_pos.2 (by norm_num)) ((Real.sqrt_le_left (by norm_num)).2 (by norm_num))

end EvalRound

import Verif.Model.FloatDft
import Verif.Proofs.FloatMessage
import Verif.Proofs.FloatDot
import Verif.Proofs.FloatTable
import Verif.Proofs.FloatSimple
import Verif.Props.Ieee

/-!
# The sums of `dft` and `idft` in binary64
-/

namespace EvalRound
open Finset

/-- a loop with a counter of its own beside its state -/
theorem forUp_counter {σ : Type} {n : Nat} {body : Nat → σ × Nat → M (σ × Nat)} {body' : Nat → σ → M σ} {g : Nat → Nat}
    (h : ∀ k s, k < n → body k (s, g k) = do
      let s ← body' k s
      pure (s, g (k+1))) (s : σ) :
    forUp 0 n body (s, g 0) = forUp 0 n body' s >>= fun s => pure (s, g n) := by
  have key : ∀ c lo s, lo + c = n → forFrom body lo c (s, g lo) = (forFrom body' lo c s >>= fun s => pure (s, g n)) := by
    intro c
    induction c with
    | zero =>
      intro lo s hlo
      have : lo = n := by omega
      subst this
      show pure (s, g lo) = (pure s >>= _)
      rw [pure_bind]
    | succ c ih =>
      intro lo s hlo
      show (body lo (s, g lo) >>= fun s => forFrom body (lo+1) c s) = ((body' lo s >>= fun s => forFrom body' (lo+1) c s) >>= _)
      rw [h lo s (by omega), bind_assoc, bind_assoc]
      congr 1
      funext s'
      rw [pure_bind]
      exact ih (lo+1) s' (by omega)
  exact key n 0 s (by omega)

/-- the angles and the twiddle factors of a transform of length `2^(n+1)` -/
theorem angles {L : Libm} (hL : L.Accurate) {n : Nat} (hn : n ≤ 26) : ∃ t : Nat → ℝ, ∀ f, f < 2 * 2^(n+1) →
    angleF (2^(n+1)) f = pure (t f) ∧ ‖(⟨L.cos (t f), L.sin (t f)⟩ : ℂ) - zeta (2^(n+1)) ^ f‖ ≤ 12 * uF := by
  have h : ∀ f, ∃ t, f < 2 * 2^(n+1) → angleF (2^(n+1)) f = pure t ∧ ‖(⟨L.cos t, L.sin t⟩ : ℂ) - zeta (2^(n+1)) ^ f‖ ≤ 12 * uF := by
    intro f
    by_cases hf : f < 2 * 2^(n+1)
    · obtain ⟨t, e, h1, h2⟩ := angleF_ok hn hf
      exact ⟨t, fun _ => ⟨e, twiddleF hL h1 h2⟩⟩
    · exact ⟨0, fun h => absurd h hf⟩
  choose t ht using h
  exact ⟨t, ht⟩

theorem fl_again {x : ℝ} {α : Type} (g : ℝ → M α) : (fl x >>= fun p => fl (p - 0) >>= g) = fl x >>= g := by
  unfold fl
  split
  · rename_i h
    rw [pure_bind, pure_bind, sub_zero]
    have := C74_exact (rnd_binary64 h)
    unfold fl at this
    rw [this, pure_bind]
  · rfl

theorem accF_real (s a x y : ℝ) : accF s a x 0 y = (fl (a * x) >>= fun p => fl (s + p)) := by
  unfold accF
  have h0 : fl (0 * y) = pure 0 := by rw [zero_mul]; exact C74_exact ⟨0, 0, by norm_num, by norm_num, by norm_num, by norm_num⟩
  rw [h0]
  simp only [pure_bind]
  exact fl_again _

theorem twDot_arith {K : Nat} (hK : K ≤ 2^20) {S : ℝ} (hS : 0 ≤ S) {S' d e : ℝ} (hS' : S' ≤ (1 + 12 * uF) * S)
    (hd : d ≤ (2 * K + 5) / 2^53 * S' + K / 2^1071) (he : e ≤ 12 * uF * S) : d + e ≤ (2 * K + 18) / 2^53 * S + K / 2^1071 := by
  have hu := uF_eq
  have hK' : (K:ℝ) ≤ 2^20 := by exact_mod_cast hK
  have hK0 : (0:ℝ) ≤ K := Nat.cast_nonneg _
  have h1 : (2 * K + 5) / 2^53 * S' ≤ (2 * K + 5) / 2^53 * ((1 + 12 * uF) * S) := mul_le_mul_of_nonneg_left hS' (by positivity)
  have h2 : (2 * (K:ℝ) + 5) / 2^53 * ((1 + 12 * uF) * S) + 12 * uF * S ≤ (2 * K + 18) / 2^53 * S := by
    rw [show (2 * (K:ℝ) + 5) / 2^53 * ((1 + 12 * uF) * S) + 12 * uF * S = ((2 * (K:ℝ) + 5) / 2^53 * (1 + 12 * uF) + 12 * uF) * S by ring]
    refine mul_le_mul_of_nonneg_right ?_ hS
    rw [hu]
    clear h1 hd
    generalize (K:ℝ) = κ at *
    norm_num at *
    linarith
  generalize (K:ℝ) / 2^1071 = y at *
  linarith

theorem zeta_pow_norm (N f : Nat) : ‖zeta N ^ f‖ = 1 := by
  rw [← cos_sin_zeta, Complex.norm_def, Complex.normSq_apply]
  simp only []
  rw [← sq, ← sq, Real.cos_sq_add_sin_sq, Real.sqrt_one]

/-- a sum with inexact twiddle factors -/
theorem twDot {K : Nat} (hK : K ≤ 2^20) {w w' x : Nat → ℂ} (hw : ∀ k, k < K → ‖w k‖ = 1) (hw' : ∀ k, k < K → ‖w' k - w k‖ ≤ 12 * uF) :
    ∑ k ∈ range K, ‖w' k‖ * ‖x k‖ ≤ (1 + 12 * uF) * ∑ k ∈ range K, ‖x k‖ ∧
    ∀ r : ℂ, ‖r - ∑ k ∈ range K, w' k * x k‖ ≤ (2 * K + 5) / 2^53 * ∑ k ∈ range K, ‖w' k‖ * ‖x k‖ + K / 2^1071 →
      ‖r - ∑ k ∈ range K, w k * x k‖ ≤ (2 * K + 18) / 2^53 * ∑ k ∈ range K, ‖x k‖ + K / 2^1071 := by
  have h1 : ∑ k ∈ range K, ‖w' k‖ * ‖x k‖ ≤ (1 + 12 * uF) * ∑ k ∈ range K, ‖x k‖ := by
    rw [mul_sum]
    refine sum_le_sum fun k hk => mul_le_mul_of_nonneg_right ?_ (norm_nonneg _)
    have a := norm_add_le (w' k - w k) (w k)
    rw [sub_add_cancel, hw k (mem_range.1 hk)] at a
    linarith [hw' k (mem_range.1 hk)]
  refine ⟨h1, fun r hr => ?_⟩
  have h2 : ‖∑ k ∈ range K, w' k * x k - ∑ k ∈ range K, w k * x k‖ ≤ 12 * uF * ∑ k ∈ range K, ‖x k‖ := by
    rw [← sum_sub_distrib, mul_sum]
    refine (norm_sum_le _ _).trans (sum_le_sum fun k hk => ?_)
    rw [← sub_mul, norm_mul]
    exact mul_le_mul_of_nonneg_right (hw' k (mem_range.1 hk)) (norm_nonneg _)
  have h3 := norm_add_le (r - ∑ k ∈ range K, w' k * x k) (∑ k ∈ range K, w' k * x k - ∑ k ∈ range K, w k * x k)
  rw [sub_add_sub_cancel] at h3
  exact h3.trans (twDot_arith hK (sum_nonneg fun _ _ => norm_nonneg _) h1 hr h2)

theorem dftRowF_spec {L : Libm} (hL : L.Accurate) {n : Nat} (hn : n ≤ 19) (m : Fin (2^(n+1)) → ℝ) (hm : ∑ k, |m k| ≤ 2^990) {f : Nat}
    (hf : f < 2 * 2^(n+1)) :
    Ok (dftRowF L m f) fun r => ‖(⟨r.1, r.2⟩ : ℂ) - ∑ k : Fin (2^(n+1)), (m k : ℂ) * zeta (2^(n+1)) ^ (f * k.val)‖ ≤
      (2 * (2^(n+1) : Nat) + 18) / 2^53 * (∑ k, |m k|) + (2^(n+1) : Nat) / 2^1071 := by
  obtain ⟨t, ht⟩ := angles hL (show n ≤ 26 by omega)
  have hN : 0 < 2^(n+1) := by positivity
  have hN2 : 2^(n+1) ≤ 2^20 := Nat.pow_le_pow_right (by norm_num) (by omega)
  generalize 2^(n+1) = N at *
  have hI : INT_MAX = 2147483647 := by decide
  unfold dftRowF
  have hg : ∀ k, f * k % (2 * N) < 2 * N := fun k => Nat.mod_lt _ (by omega)
  rw [show (((0:ℝ), (0:ℝ)), (0:Nat)) = ((0, 0), (fun k => f * k % (2*N)) 0) by simp]
  rw [forUp_counter (g := fun k => f * k % (2*N)) (body' := fun k (s : ℝ × ℝ) => do
    let x ← rd m k
    let p ← fl (x * L.cos (t (f * k % (2*N))))
    let zr ← fl (s.1 + p)
    let q ← fl (x * L.sin (t (f * k % (2*N))))
    let zi ← fl (s.2 + q)
    pure (zr, zi))]
  · rw [bind_assoc]
    simp only [pure_bind, bind_pure]
    obtain ⟨a, ha⟩ : ∃ a : Nat → ℂ, a = fun k => if h : k < N then (m ⟨k, h⟩ : ℂ) else 0 := ⟨_, rfl⟩
    obtain ⟨w', hw'⟩ : ∃ w' : Nat → ℂ, w' = fun k => (⟨L.cos (t (f * k % (2*N))), L.sin (t (f * k % (2*N)))⟩ : ℂ) := ⟨_, rfl⟩
    have hd := twDot hN2 (w := fun k => zeta N ^ (f * k)) (w' := w') (x := a) (fun k _ => zeta_pow_norm _ _) fun k _ => by
      rw [hw', ← zeta_pow_mod hN]; exact (ht _ (hg k)).2
    have e1 : ∑ k ∈ range N, ‖a k‖ = ∑ k, |m k| := by
      rw [ha, sum_range]
      exact sum_congr rfl fun k _ => by beta_reduce; rw [dif_pos k.isLt]; exact Complex.norm_real _
    have e2 : ∑ k ∈ range N, zeta N ^ (f * k) * a k = ∑ k : Fin N, (m k : ℂ) * zeta N ^ (f * k.val) := by
      rw [ha, sum_range]
      exact sum_congr rfl fun k _ => by beta_reduce; rw [dif_pos k.isLt, mul_comm]
    rw [e1, e2] at hd
    have e3 : ∀ k, w' k * a k = a k * w' k := fun k => mul_comm _ _
    have e4 : ∀ k, ‖w' k‖ * ‖a k‖ = ‖a k‖ * ‖w' k‖ := fun k => mul_comm _ _
    simp only [e3, e4] at hd
    refine Ok.mono (dotF_ok hN2 a w' (hd.1.trans ?_) _ fun k c hk => ?_) fun r hr => hd.2 _ hr
    · have hS : 0 ≤ ∑ k, |m k| := sum_nonneg fun _ _ => abs_nonneg _
      have hu := uF_le
      calc (1 + 12 * uF) * ∑ k, |m k| ≤ 2 * 2^990 := mul_le_mul (by linarith) hm hS (by norm_num)
        _ = 2^991 := by rw [show 991 = 990 + 1 from rfl, pow_succ (2:ℝ) 990, mul_comm]
        _ ≤ 2^1000 := pow_le_pow_right₀ (by norm_num) (by norm_num)
    · rw [rd_of_lt m hk, pure_bind]
      have ek : a k = ((m ⟨k, hk⟩ : ℝ) : ℂ) := by rw [ha]; exact dif_pos hk
      rw [ek, hw']
      simp only [Complex.ofReal_re, Complex.ofReal_im, neg_zero, accF_real, bind_assoc]
  · intro k s hk
    beta_reduce
    rw [rd_of_lt m hk, pure_bind, (ht _ (hg k)).1, pure_bind, addMod_ok (by have := hg k; omega)]
    simp only [pure_bind, bind_assoc]
    rw [Nat.mod_add_mod, Nat.mul_succ]

theorem idftRowF_spec {L : Libm} (hL : L.Accurate) {n : Nat} (hn : n ≤ 19) (zr zi : Fin (2^n) → ℝ)
    (hz : ∑ i, ‖toC zr zi i‖ ≤ 2^990) {k : Nat} (hk : k < 2 * 2^(n+1)) :
    Ok (idftRowF L (2^(n+1)) zr zi k) fun r => ‖(⟨r.1, r.2⟩ : ℂ) - ∑ i : Fin (2^n), star (zeta (2^(n+1)) ^ (5^i.val * k)) * toC zr zi i‖ ≤
      (2 * (2^n : Nat) + 18) / 2^53 * (∑ i, ‖toC zr zi i‖) + (2^n : Nat) / 2^1071 := by
  obtain ⟨t, ht⟩ := angles hL (show n ≤ 26 by omega)
  have hN : 0 < 2^(n+1) := by positivity
  have hN2 : 2^(n+1) ≤ 2^20 := Nat.pow_le_pow_right (by norm_num) (by omega)
  have hH2 : 2^n ≤ 2^20 := Nat.pow_le_pow_right (by norm_num) (by omega)
  generalize 2^(n+1) = N at *
  generalize 2^n = H at *
  have hI : INT_MAX = 2147483647 := by decide
  unfold idftRowF
  have hg : ∀ i, 5^i * k % (2 * N) < 2 * N := fun k => Nat.mod_lt _ (by omega)
  rw [show (((0:ℝ), (0:ℝ)), k) = ((0, 0), (fun i => 5^i * k % (2*N)) 0) by simp [Nat.mod_eq_of_lt hk]]
  rw [forUp_counter (g := fun i => 5^i * k % (2*N)) (body' := fun i (s : ℝ × ℝ) => do
    let x ← rd zr i
    let y ← rd zi i
    let s1 ← MsgF.accAdd s.1 (L.cos (t (5^i * k % (2*N)))) x (L.sin (t (5^i * k % (2*N)))) y
    let s2 ← MsgF.accSub s.2 (L.cos (t (5^i * k % (2*N)))) y (L.sin (t (5^i * k % (2*N)))) x
    pure (s1, s2))]
  · rw [bind_assoc]
    simp only [pure_bind, bind_pure]
    obtain ⟨a, ha⟩ : ∃ a : Nat → ℂ, a = fun i => if h : i < H then toC zr zi ⟨i, h⟩ else 0 := ⟨_, rfl⟩
    obtain ⟨w', hw'⟩ : ∃ w' : Nat → ℂ, w' = fun i => (⟨L.cos (t (5^i * k % (2*N))), -L.sin (t (5^i * k % (2*N)))⟩ : ℂ) := ⟨_, rfl⟩
    have hd := twDot hH2 (w := fun i => star (zeta N ^ (5^i * k))) (w' := w') (x := a)
      (fun i _ => by rw [norm_star]; exact zeta_pow_norm _ _) fun i _ => by
        rw [hw', ← zeta_pow_mod hN]
        have e : (⟨L.cos (t (5^i * k % (2*N))), -L.sin (t (5^i * k % (2*N)))⟩ : ℂ) =
          star (⟨L.cos (t (5^i * k % (2*N))), L.sin (t (5^i * k % (2*N)))⟩ : ℂ) := rfl
        dsimp only
        rw [e, ← star_sub, norm_star]
        exact (ht _ (hg i)).2
    have e1 : ∑ i ∈ range H, ‖a i‖ = ∑ i, ‖toC zr zi i‖ := by
      rw [ha, sum_range]
      exact sum_congr rfl fun i _ => by beta_reduce; rw [dif_pos i.isLt]
    have e2 : ∑ i ∈ range H, star (zeta N ^ (5^i * k)) * a i = ∑ i : Fin H, star (zeta N ^ (5^i.val * k)) * toC zr zi i := by
      rw [ha, sum_range]
      exact sum_congr rfl fun i _ => by beta_reduce; rw [dif_pos i.isLt]
    rw [e1, e2] at hd
    refine Ok.mono (dotF_ok hH2 w' a (hd.1.trans ?_) _ fun i c hi => ?_) fun r hr => hd.2 _ hr
    · have hS : 0 ≤ ∑ i, ‖toC zr zi i‖ := sum_nonneg fun _ _ => norm_nonneg _
      have hu := uF_le
      calc (1 + 12 * uF) * ∑ i, ‖toC zr zi i‖ ≤ 2 * 2^990 := mul_le_mul (by linarith) hz hS (by norm_num)
        _ = 2^991 := by rw [show 991 = 990 + 1 from rfl, pow_succ (2:ℝ) 990, mul_comm]
        _ ≤ 2^1000 := pow_le_pow_right₀ (by norm_num) (by norm_num)
    · rw [rd_of_lt zr hi, pure_bind, rd_of_lt zi hi, pure_bind]
      have ek : a i = toC zr zi ⟨i, hi⟩ := by rw [ha]; exact dif_pos hi
      rw [ek, hw']
      simp only [accAdd_eq, accSub_eq, neg_neg, toC]
  · intro i s hi
    beta_reduce
    rw [rd_of_lt zr hi, pure_bind, rd_of_lt zi hi, pure_bind, (ht _ (hg i)).1, pure_bind, five_ok (by have := hg i; omega)]
    simp only [pure_bind, bind_assoc]
    rw [Nat.mod_mul_mod, pow_succ 5 i, show 5^i * k * 5 = 5^i * 5 * k by ring]

end EvalRound

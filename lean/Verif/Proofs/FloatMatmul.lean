import Verif.Model.FloatMatmul
import Verif.Props.FloatDft
import Verif.Props.SingleMatmul

/-!
# Lemmas on the products of plaintexts with matrices in binary64
-/

namespace EvalRound
open Z_Q Finset

section
variable {n : Nat} {L : Libm}

/-- the rounded test message in binary64: the slots of integers over the scale, up to the rounding errors of `fft` -/
theorem rounded_messageF (hL : L.Accurate) (h1 : 1 ≤ n) (hn : n ≤ 16) :
    Ok (set_test_rounded_messageF L (n+1) (BitVec.ofNat 64 (2^50))) fun z => ∃ p : Fin (2^(n+1)) → ℤ,
      l2 (toC (n := 2^n) z.1 z.2 - fun i : Fin (2^n) => slotOf (fun k => (p k : ℝ) / 2^50) i) ≤ Real.sqrt 2 ^ n * ((28 * n + 1) * uF) ∧
      l2 (pairC n fun k => (p k : ℝ) / 2^50) ≤ 0.9 ∧
      ∀ i : Fin (2^n), ‖(⟨z.1 i, z.2 i⟩ : ℂ) - ⟨(set_test_message (n+1)).1 i, (set_test_message (n+1)).2 i⟩‖ ≤
        2^n / 2^50 + Real.sqrt 2 ^ n * ((56 * n + 19) * uF) ∧ ‖(⟨z.1 i, z.2 i⟩ : ℂ)‖ ≤ 1 := by
  obtain ⟨z0, m, y, ez, hm, epp, hy, -⟩ := test_ptF hL h1 (show n ≤ 26 by omega)
  have hu := uF_pos.le
  have hu2 := uF_le
  have hn' : (n:ℝ) ≤ 16 := by exact_mod_cast hn
  have hn0 : (0:ℝ) ≤ n := Nat.cast_nonneg _
  have hm8 : l2 (pairC n m) ≤ 0.8 := by
    rw [l2_pairC]
    exact coeff_norm fun i => by rw [hm]; exact test_message_norm' (n+1) i
  rw [← l2_pairC] at hy
  have hyk : ∀ k, |y k - 2^50 * m k| ≤ (28 * (n:ℝ) + 18) / 8 := fun k => (abs_le_pair (fun k => y k - 2^50 * m k) k).trans hy
  have hpk : ∀ k, |(cround (y k) : ℝ) - 2^50 * m k| ≤ 1/2 + (28 * (n:ℝ) + 18) / 8 := by
    intro k
    have a := abs_add_le ((cround (y k) : ℝ) - y k) (y k - 2^50 * m k)
    rw [sub_add_sub_cancel] at a
    exact a.trans (add_le_add (cround_err (y k)) (hyk k))
  have hmk : ∀ k, |m k| ≤ 0.8 := fun k => (abs_le_pair m k).trans hm8
  have hp53 : ∀ k, |(cround (y k) : ℝ)| < 2^53 := by
    intro k
    have a := abs_sub_abs_le_abs_sub (cround (y k) : ℝ) (2^50 * m k)
    have b : |2^50 * m k| ≤ 2^50 * 0.8 := by
      rw [abs_mul, abs_of_pos (show (0:ℝ) < 2^50 by norm_num)]
      exact mul_le_mul_of_nonneg_left (hmk k) (by norm_num)
    have c := hpk k
    generalize |(cround (y k) : ℝ)| = A at a ⊢
    generalize |2^50 * m k| = B at a b
    generalize |(cround (y k) : ℝ) - 2^50 * m k| = C at a c
    clear hpk hmk hyk hm8 hy epp hm ez
    norm_num at b ⊢
    linarith
  have hp53' : ∀ k, |cround (y k)| < 2^53 := fun k => by exact_mod_cast hp53 k
  have hd : fl (((BitVec.ofNat 64 (2^50)).toNat : ℝ)) = pure (2^50) := by
    rw [show (((BitVec.ofNat 64 (2^50)).toNat : Nat) : ℝ) = 2^50 by norm_num]
    exact C74_exact ⟨1, 50, by norm_num, by norm_num, by norm_num, by norm_num⟩
  obtain ⟨c, hc⟩ : ∃ c : Fin (2^(n+1)) → ℝ, c = fun k => (cround (y k) : ℝ) / 2^50 := ⟨_, rfl⟩
  have hdec : SimpleF.decode (LOGN := n+1) L (fun k => (cround (y k) : ℝ)) (BitVec.ofNat 64 (2^50)) = fftF L (n+1) c := by
    unfold SimpleF.decode
    rw [hd, pure_bind]
    have : tabM (2^(n+1)) (fun i => do
        let x ← rd (fun k => (cround (y k) : ℝ)) i
        if (2:ℝ)^50 = 0 then ub else fl (x / 2^50)) = pure c := by
      obtain ⟨c', e, h⟩ := tabM_spec (n := 2^(n+1)) (f := fun i => do
        let x ← rd (fun k => (cround (y k) : ℝ)) i
        if (2:ℝ)^50 = 0 then ub else fl (x / 2^50)) (P := fun i v => ∀ hi : i < 2^(n+1), v = c ⟨i, hi⟩) fun i hi => by
          beta_reduce
          rw [rd_of_lt _ hi, pure_bind, if_neg (by positivity), C74_exact]
          · refine Ok.pure fun _ => ?_
            rw [hc]
          · refine ⟨cround (y ⟨i, hi⟩), -50, hp53' _, by norm_num, by norm_num, ?_⟩
            rw [zpow_neg, div_eq_mul_inv]
            norm_cast
      rw [e]
      congr 1
      funext i
      exact h i i.isLt
    rw [this, pure_bind]
  have hcm : l2 (pairC n fun k => c k - m k) ≤ 1/2^20 := by
    rw [l2_pairC]
    refine (l2r_le (fun k => c k - m k) (R := 101 / 2^50) (by norm_num) fun k => ?_).trans ?_
    · have e : c k - m k = ((cround (y k) : ℝ) - 2^50 * m k) / 2^50 := by rw [hc]; ring
      rw [e, abs_div, abs_of_pos (show (0:ℝ) < 2^50 by norm_num)]
      refine div_le_div_of_nonneg_right ((hpk k).trans ?_) (by norm_num)
      linarith
    · have h2 : Real.sqrt ((2^(n+1) : ℕ) : ℝ) ≤ 2^10 := by
        rw [Real.sqrt_le_left (by norm_num)]
        have : ((2^(n+1) : ℕ) : ℝ) ≤ 2^20 := by exact_mod_cast Nat.pow_le_pow_right (by norm_num) (by omega)
        exact this.trans (by norm_num)
      calc Real.sqrt ((2^(n+1) : ℕ) : ℝ) * (101 / 2^50) ≤ 2^10 * (101/2^50) := mul_le_mul_of_nonneg_right h2 (by norm_num)
        _ ≤ _ := by norm_num
  have hX : l2 (pairC n c) ≤ 0.9 := by
    have := pair_add (fun k => c k - m k) m
    simp only [sub_add_cancel] at this
    refine (this.trans (add_le_add hcm hm8)).trans (by norm_num)
  have hX0 := l2_nonneg (pairC n c)
  have ht900 : (1:ℝ)/2^900 ≤ 1/10^9 * uF := by
    rw [uF_eq]
    have : (1:ℝ)/2^900 ≤ 1/2^100 := one_div_le_one_div_of_le (by positivity) (pow_le_pow_right₀ (by norm_num) (by norm_num))
    exact this.trans (by norm_num)
  have hθ := thF_le (show n ≤ 26 by omega)
  unfold set_test_rounded_messageF
  rw [ez, pure_bind, epp, pure_bind, hdec]
  refine Ok.mono (fftF_spec hL h1 (show n ≤ 26 by omega) c (hX.trans (le_trans (by norm_num) (one_le_pow₀ (by norm_num : (1:ℝ) ≤ 2)))))
    fun z hz => ⟨fun k => cround (y k), ?_⟩
  beta_reduce
  rw [← hc]
  have hz2 : l2 (toC (n := 2^n) z.1 z.2 - fun i : Fin (2^n) => slotOf c i) ≤ Real.sqrt 2 ^ n * ((28 * n + 1) * uF) := by
    refine hz.trans (mul_le_mul_of_nonneg_left ?_ (by positivity))
    have a : 28 * uF * l2 (pairC n c) ≤ 28 * uF * 0.9 := mul_le_mul_of_nonneg_left hX (by linarith)
    have b : 2 * thF n ≤ 1/10^9 * uF := by
      refine le_trans ?_ ht900
      exact tiny_le' (by linarith [mul_le_mul_of_nonneg_right (show (2:ℝ)^32 ≤ 2^100 by norm_num) etaF_pos.le])
    have c1 : n * (28 * uF * l2 (pairC n c) + 2 * thF n) ≤ n * (28 * uF) := mul_le_mul_of_nonneg_left (by linarith) hn0
    refine c1.trans ?_
    linarith
  refine ⟨hz2, hX, fun i => ?_⟩
  have d1 : ‖(⟨z.1 i, z.2 i⟩ : ℂ) - slotOf c i‖ ≤ Real.sqrt 2 ^ n * ((28 * n + 1) * uF) := (le_l2 (toC (n := 2^n) z.1 z.2 - fun i : Fin (2^n) => slotOf c i) i).trans hz2
  have d2 : ‖slotOf c i - slotOf (fun k => y k / 2^50) i‖ ≤ 2^n / 2^50 := by
    have := slotOf_sub_le (m := c) (m' := fun k => y k / 2^50) (ε := 1/2/2^50) (fun k => by
      rw [hc]
      beta_reduce
      rw [← sub_div, abs_div, abs_of_pos (show (0:ℝ) < 2^50 by norm_num)]
      exact div_le_div_of_nonneg_right (cround_err _) (by norm_num)) i
    refine this.trans (le_of_eq ?_)
    push_cast
    rw [pow_succ (2:ℝ) n]
    ring
  have d3 : ‖slotOf (fun k => y k / 2^50) i - slotOf m i‖ ≤ Real.sqrt 2 ^ n * ((28 * n + 18) * uF) := by
    rw [← slotOf_sub]
    refine (le_l2 (fun i : Fin (2^n) => slotOf (fun k => y k / 2^50 - m k) i) i).trans ?_
    rw [slots_l2]
    refine mul_le_mul_of_nonneg_left ?_ (by positivity)
    have e : (fun k => y k / 2^50 - m k) = fun k => 1/2^50 * (y k - 2^50 * m k) := by funext k; ring
    rw [e, pair_smul (by norm_num)]
    refine (mul_le_mul_of_nonneg_left hy (by norm_num)).trans (le_of_eq ?_)
    rw [uF_eq]
    ring
  have d4 := norm_add₃_le (a := (⟨z.1 i, z.2 i⟩ : ℂ) - slotOf c i) (b := slotOf c i - slotOf (fun k => y k / 2^50) i)
    (c := slotOf (fun k => y k / 2^50) i - slotOf m i)
  rw [sub_add_sub_cancel, sub_add_sub_cancel, hm] at d4
  rw [hm] at d3
  have e5 : ‖(⟨z.1 i, z.2 i⟩ : ℂ) - ⟨(set_test_message (n+1)).1 i, (set_test_message (n+1)).2 i⟩‖ ≤
        2^n / 2^50 + Real.sqrt 2 ^ n * ((56 * n + 19) * uF) := by
    refine d4.trans ((add_le_add (add_le_add d1 d2) d3).trans (le_of_eq ?_))
    ring
  refine ⟨e5, ?_⟩
  have e6 := test_message_norm' (n+1) i
  have e7 := norm_add_le ((⟨z.1 i, z.2 i⟩ : ℂ) - ⟨(set_test_message (n+1)).1 i, (set_test_message (n+1)).2 i⟩)
    ⟨(set_test_message (n+1)).1 i, (set_test_message (n+1)).2 i⟩
  rw [sub_add_cancel] at e7
  refine (e7.trans (add_le_add e5 e6)).trans ?_
  have f1 : (2:ℝ)^n ≤ 2^16 := pow_le_pow_right₀ (by norm_num) hn
  have f2 := (sqrt2_pow (show n ≤ 26 by omega)).2
  have f3 : (2:ℝ)^n / 2^50 ≤ 2^16/2^50 := div_le_div_of_nonneg_right f1 (by norm_num)
  have f4 : Real.sqrt 2 ^ n * ((56 * n + 19) * uF) ≤ 2^13 * (915 * uF) :=
    mul_le_mul f2 (mul_le_mul_of_nonneg_right (by linarith) hu) (by positivity) (by norm_num)
  refine (add_le_add (add_le_add f3 f4) le_rfl).trans ?_
  rw [uF_eq]
  norm_num

/-- rounding a number near an integer at most doubles the distance to it -/
theorem round_twice {w p : ℤ} {y : ℝ} (h : |(w:ℝ) - y| ≤ 1/2) : |(w:ℝ) - p| ≤ 2 * |y - p| := by
  have a := abs_add_le ((w:ℝ) - y) (y - p)
  rw [sub_add_sub_cancel] at a
  by_cases hd : |y - p| < 1/2
  · have b : |((w - p : ℤ) : ℝ)| < 1 := by push_cast; linarith
    have c : |w - p| < 1 := by exact_mod_cast b
    have e := Int.abs_lt_one_iff.1 c
    have e2 : (w:ℝ) - p = 0 := by rw [← Int.cast_sub, e, Int.cast_zero]
    rw [e2, abs_zero]
    positivity
  · push Not at hd
    linarith

variable {LOGQ : Nat} [NeZero LOGQ]

/-- the encoding of the rounded message: close to the message in the Euclidean norm, although every coefficient is rounded -/
theorem encode_roundedF (hL : L.Accurate) (h1 : 1 ≤ n) (hn : n ≤ 16) (hq : 52 ≤ LOGQ) (z : CVec (n+1)) (p : Fin (2^(n+1)) → ℤ)
    (hp : l2 (toC (n := 2^n) z.1 z.2 - fun i : Fin (2^n) => slotOf (fun k => (p k : ℝ) / 2^50) i) ≤ Real.sqrt 2 ^ n * ((28 * n + 1) * uF))
    (hz : ∀ i : Fin (2^n), ‖(⟨z.1 i, z.2 i⟩ : ℂ)‖ ≤ 1) :
    Ok (encodeF L LOGQ z (BitVec.ofNat 64 (2^50))) fun pt => R_Q.Canonical pt ∧
      l2 (slots n (R_Q.sval pt) - (2:ℂ)^50 • toC (n := 2^n) z.1 z.2) ≤ Real.sqrt 2 ^ n * (18 * n + 3) := by
  have hu := uF_pos.le
  have hη := etaF_pos.le
  have hn0 : (0:ℝ) ≤ n := Nat.cast_nonneg _
  have hΔ := toNat_scale (D := 50) (by norm_num)
  have hq2 : (2:ℝ)^51 ≤ 2^(LOGQ-1) := pow_le_pow_right₀ (by norm_num) (by omega)
  refine Ok.mono (encodeF_l2 (Q := LOGQ) hL h1 (by omega) z (BitVec.ofNat 64 (2^50)) (scale_ne_zero (by norm_num)) (B := 1) hz
    (by rw [hΔ]; norm_num) (le_trans (by rw [hΔ]; norm_num) hq2)) ?_
  rintro pt ⟨m, y, hm, hpt, hy⟩
  refine ⟨fun k => (hpt k).1, ?_⟩
  rw [hΔ] at hy
  have ht : 2^106 * etaF ≤ 1/8 := by
    have h3 : 2^106 * etaF ≤ 1/2^900 := tiny_le' (mul_le_mul_of_nonneg_right (by norm_num) hη)
    exact h3.trans (one_div_le_one_div_of_le (by norm_num) (le_trans (by norm_num) (pow_le_pow_right₀ (by norm_num) (show 3 ≤ 900 by norm_num))))
  have hy2 : l2 (pairC n fun k => y k - m k * 2^50) ≤ (28 * n + 7) / 8 := by
    refine hy.trans ((add_le_add le_rfl ht).trans (le_of_eq ?_))
    rw [uF_eq]
    ring
  have e1 : toC (n := 2^n) z.1 z.2 - (fun i : Fin (2^n) => slotOf (fun k => (p k : ℝ) / 2^50) i) =
      fun i : Fin (2^n) => slotOf (fun k => m k - (p k : ℝ) / 2^50) i := by
    funext i
    rw [slotOf_sub, hm i]
    rfl
  rw [e1, slots_l2] at hp
  have hp2 := le_of_mul_le_mul_left hp (by positivity)
  have hp3 : l2 (pairC n fun k => m k * 2^50 - (p k : ℝ)) ≤ (28 * n + 1) / 8 := by
    have e : (fun k => m k * 2^50 - (p k : ℝ)) = fun k => 2^50 * (m k - (p k : ℝ) / 2^50) := by funext k; ring
    rw [e, pair_smul (by norm_num)]
    refine (mul_le_mul_of_nonneg_left hp2 (by norm_num)).trans (le_of_eq ?_)
    rw [uF_eq]
    ring
  have hyp : l2 (pairC n fun k => y k - (p k : ℝ)) ≤ (56 * n + 8) / 8 := by
    have a := pair_add (fun k => y k - m k * 2^50) (fun k => m k * 2^50 - (p k : ℝ))
    simp only [sub_add_sub_cancel] at a
    refine a.trans ((add_le_add hy2 hp3).trans (le_of_eq ?_))
    ring
  have hwp : l2 (pairC n fun k => ((pt k).sval : ℝ) - (p k : ℝ)) ≤ (56 * n + 8) / 4 := by
    refine (pair_mono (b := fun k => 2 * (y k - (p k : ℝ))) fun k => ?_).trans ?_
    · rw [abs_mul, abs_two]
      exact round_twice (hpt k).2
    · rw [pair_smul (by norm_num)]
      linarith
  have hwm : l2 (pairC n fun k => ((pt k).sval : ℝ) - m k * 2^50) ≤ 18 * n + 3 := by
    have a := pair_add (fun k => ((pt k).sval : ℝ) - (p k : ℝ)) (fun k => -(m k * 2^50 - (p k : ℝ)))
    have b : l2 (pairC n fun k => -(m k * 2^50 - (p k : ℝ))) = l2 (pairC n fun k => m k * 2^50 - (p k : ℝ)) := by
      rw [l2_pairC, l2_pairC]
      simp only [neg_sq]
    have e : (fun k => ((pt k).sval : ℝ) - (p k : ℝ) + -(m k * 2^50 - (p k : ℝ))) = fun k => ((pt k).sval : ℝ) - m k * 2^50 := by
      funext k; ring
    rw [e, b] at a
    refine a.trans ((add_le_add hwp hp3).trans ?_)
    clear hq2 hΔ hp hy hp2
    linarith
  have e2 : slots n (R_Q.sval pt) - (2:ℂ)^50 • toC (n := 2^n) z.1 z.2 = fun i : Fin (2^n) => slotOf (fun k => ((pt k).sval : ℝ) - m k * 2^50) i := by
    funext i
    rw [slotOf_sub, slotOf_smul, hm i]
    show slotOf (fun k => ((pt k).sval : ℝ)) i - (2:ℂ)^50 * ⟨z.1 i, z.2 i⟩ = _
    push_cast
    ring
  rw [e2, slots_l2]
  exact mul_le_mul_of_nonneg_left hwm (by positivity)

/-- the dense product on plaintexts in binary64 -/
theorem ptMvpF_exact (hL : L.Accurate) (hQ : ConvLOGQ LOGQ) (hn1 : 1 ≤ n) (hn : n ≤ 16) {K : Nat} {pt : R_Q LOGQ (2^(n+1))} (hpt : R_Q.Canonical pt)
    (A : Fin K → CVec (n+1)) (Delta : W) (hD : Delta ≠ 0) {B : ℝ} (hB : ∀ k (i : Fin (2^n)), ‖(⟨(A k).1 i, (A k).2 i⟩ : ℂ)‖ ≤ B)
    (hw : B * Delta.toNat * (1 + 1/2^40) + 2 ≤ 2^64) (hq : B * Delta.toNat * (1 + 1/2^40) + 2 ≤ 2^(LOGQ-1)) :
    Ok (ptMvpF (LOGN := n+1) L pt A Delta) fun r => ∃ (m y : Fin K → Fin (2^(n+1)) → ℝ) (v : Fin K → Fin (2^(n+1)) → Int),
      (∀ k (i : Fin (2^n)), slotOf (m k) i = ⟨(A k).1 i, (A k).2 i⟩) ∧ (∀ k j, |(v k j : ℝ) - y k j| ≤ 1/2) ∧
      (∀ k, l2 (pairC n fun j => y k j - m k j * Delta.toNat) ≤ (28 * n + 6) * uF * (B * Delta.toNat) + 2^106 * etaF) ∧
      Holds r (fun i => ∑ k : Fin K, slots n (v k) i *
        slots n (R_Q.sval pt) ⟨(i.val + k.val) % 2^n, Nat.mod_lt _ (Nat.two_pow_pos n)⟩) 0 := by
  have henc : ∀ k, ∃ (p : R_Q LOGQ (2^(n+1))) (m y : Fin (2^(n+1)) → ℝ), encodeF L LOGQ (LOGN := n+1) (A k) Delta = pure p ∧
      R_Q.Canonical p ∧ (∀ i : Fin (2^n), slotOf m i = ⟨(A k).1 i, (A k).2 i⟩) ∧
      (∀ j, |((R_Q.sval p j : ℤ) : ℝ) - y j| ≤ 1/2) ∧
      l2 (pairC n fun j => y j - m j * Delta.toNat) ≤ (28 * n + 6) * uF * (B * Delta.toNat) + 2^106 * etaF := by
    intro k
    obtain ⟨p, e, m, y, hm, hp, hy⟩ := encodeF_l2 (Q := LOGQ) hL hn1 (by omega) (A k) Delta hD (hB k) hw hq
    exact ⟨p, m, y, e, fun j => (hp j).1, hm, fun j => (hp j).2, hy⟩
  choose p m y he hc hm hp hy using henc
  let term : Nat → Fin (2^n) → ℂ := fun k i => if h : k < K then slots n (R_Q.sval (p ⟨k, h⟩)) i *
        slots n (R_Q.sval pt) (shift (k : Int) i) else 0
  unfold ptMvpF
  have key := forUp_inv (Nat.zero_le K) (P := fun k acc => Holds (LOGQ := LOGQ) (n := n) acc
      (fun i => ∑ t ∈ range k, term t i) 0)
      (s := R_Q.setzero) (body := fun k acc => do
        let a ← rd A k
        let pt_v ← encodeF L LOGQ (LOGN := n+1) a Delta
        let pt_rot ← rotR pt R_Q.setzero k
        let pt_conv ← conv pt_v pt_rot
        pure (R_Q.add acc pt_conv)) ?_ ?_
  · refine Ok.mono key fun r hr => ⟨m, y, fun k => R_Q.sval (p k), hm, hp, hy, ?_⟩
    have e : (fun i => ∑ t ∈ range K, term t i) = fun i => ∑ k : Fin K, slots n (R_Q.sval (p k)) i *
        slots n (R_Q.sval pt) ⟨(i.val + k.val) % 2^n, Nat.mod_lt _ (Nat.two_pow_pos n)⟩ := by
      funext i
      rw [← Fin.sum_univ_eq_sum_range (fun t => term t i)]
      refine sum_congr rfl fun k _ => ?_
      simp only [term]
      rw [dif_pos k.isLt]
      congr 1
    rw [← e]
    exact hr
  · simp only [range_zero, sum_empty]
    exact Holds.zero
  · intro k acc _ hk hacc
    rw [rd_of_lt A hk, pure_bind, he, pure_bind]
    obtain ⟨y, ey, hy, hyc⟩ := rotR_pow2 (k := n+1) (by omega) k hpt R_Q.setzero
    obtain ⟨c, ec, _, hcc⟩ := conv_spec (k := n+1) hQ (by omega) (by omega) (hc ⟨k, hk⟩) hy
    rw [ey, pure_bind, ec, pure_bind]
    obtain ⟨_, w, hwc, hws⟩ := hacc
    refine Ok.pure ⟨R_Q.canonical_add acc c, w + negconv (R_Q.sval (p ⟨k, hk⟩)) (autom (5^k) (R_Q.sval pt)), ?_, fun i => ?_⟩
    · rw [red_add, red_negconv, red_autom, ← hwc, ← cls_red_sval, ← cls_red_sval, ← hyc, ← hcc]
      exact R_Q.cls_add acc c
    · have h := slots_rot (R_Q.sval pt) (o := (k : Int)) (by omega) i
      rw [Int.toNat_natCast] at h
      beta_reduce
      rw [slots_add, slots_negconv, h, sum_range_succ]
      have e1 : term k i = slots n (R_Q.sval (p ⟨k, hk⟩)) i * slots n (R_Q.sval pt) (shift (k : Int) i) := by
        simp only [term]
        rw [dif_pos hk]
      rw [e1, add_sub_add_right_eq_sub]
      exact hws i

/-- a product with diagonals of size at most `c` -/
theorem l2_mvp {K : Nat} {z : Fin (2^n) → ℂ} {s : Fin K → Fin (2^n) → ℂ} {c : ℝ} (hc : 0 ≤ c) (hs : ∀ d i, ‖s d i‖ ≤ c) :
    l2 (fun i : Fin (2^n) => ∑ d : Fin K, s d i * z ⟨(i + d) % 2^n, Nat.mod_lt _ (Nat.two_pow_pos n)⟩) ≤ K * c * l2 z := by
  unfold l2
  rw [← Real.sqrt_sq (by positivity : 0 ≤ K * c), ← Real.sqrt_mul (by positivity)]
  exact Real.sqrt_le_sqrt (mvp_err_le hs)

theorem l2_sub_abs {H : Nat} (x y : Fin H → ℂ) : |l2 x - l2 y| ≤ l2 (x - y) := by
  rw [l2_eq, l2_eq, l2_eq]
  exact abs_norm_sub_norm_le _ _

/-- the last two steps, `sub` and `norm`, when the difference is known to be near a vector of norm `X` -/
theorem measure_arith {X S1 Y l o T A u κ t : ℝ} (hX0 : 0 ≤ X) (hT : 0 ≤ T) (hX : X ≤ T * 2^20) (hA0 : 0 ≤ A) (hA : A ≤ 2^22) (ht0 : 0 ≤ t)
    (hu0 : 0 ≤ u) (hu : u ≤ 1/2^53) (hκ0 : 0 ≤ κ) (hκ : κ ≤ 72100 * u) (hY0 : 0 ≤ Y)
    (hS : S1 ≤ T * A + t) (hY : |Y - X| ≤ S1) (hl : |l - Y| ≤ u * Y + t) (ho : |o - l| ≤ κ * l + t) :
    |o - X| ≤ T * (A + 1) + 5 * t := by
  have hY2 : Y ≤ T * 2^20 + T * A + t := by have := (abs_le.1 hY).2; linarith
  have hTA : T * A ≤ T * 2^22 := mul_le_mul_of_nonneg_left hA hT
  have hY3 : Y ≤ T * 2^23 + t := by linarith
  have huY : u * Y ≤ 1/2^53 * (T * 2^23 + t) := mul_le_mul hu hY3 hY0 (by norm_num)
  have hl2 : l ≤ 2 * (T * 2^23 + t) + t := by have := (abs_le.1 hl).2; linarith
  have hκ2 : κ ≤ 1/2^36 := hκ.trans (by linarith)
  have hκl : κ * l ≤ 1/2^36 * (2 * (T * 2^23 + t) + t) := by
    refine (mul_le_mul_of_nonneg_left hl2 hκ0).trans (mul_le_mul_of_nonneg_right hκ2 ?_)
    linarith
  have a := abs_add_three (o - l) (l - Y) (Y - X)
  rw [sub_add_sub_cancel, sub_add_sub_cancel] at a
  linarith

theorem sqrt2_pow_le8 (hn : n ≤ 16) : Real.sqrt 2 ^ n ≤ 2^8 := by
  have h1 : 1 ≤ Real.sqrt 2 := by have := le_sqrt2; linarith
  refine (pow_le_pow_right₀ h1 hn).trans (le_of_eq ?_)
  rw [show 16 = 2 * 8 by norm_num, pow_mul, Real.sq_sqrt (by norm_num)]

/-- the three contributions of the rounding errors of `double`, in units of `T` -/
theorem single_arith {n K s T u t a b c : ℝ} (hn0 : 0 ≤ n) (hn : n ≤ 16) (hs : 0 ≤ s) (hK0 : 0 ≤ K) (hu : u = 1/2^53) (hT : T = s * (K * u))
    (ha : a ≤ s * ((2 * K + 5) * K * u) + t) (hb : b ≤ K * ((2^50 + 2^17) / 2^100) * (s * (18 * n + 3)))
    (hc : c ≤ (28 * n + 8) * u * (K * (2^50 + 2^17) * (2^50 * s + s * (18 * n + 3)) / 2^100) + t) :
    a + b + c ≤ T * (172 * n + 2 * K + 38) + 2 * t := by
  have hT0 : 0 ≤ T := by rw [hT, hu]; positivity
  have ea : s * ((2 * K + 5) * K * u) = T * (2 * K + 5) := by rw [hT]; ring
  have eb : K * ((2^50 + 2^17) / 2^100) * (s * (18 * n + 3)) = T * ((8 + 1/2^30) * (18 * n + 3)) := by
    rw [hT, hu]; ring
  have ec : (28 * n + 8) * u * (K * (2^50 + 2^17) * (2^50 * s + s * (18 * n + 3)) / 2^100) =
      T * ((28 * n + 8) * ((1 + 1/2^33) * (1 + (18 * n + 3)/2^50))) := by
    rw [hT, hu]; ring
  have hb2 : (8 + 1/2^30) * (18 * n + 3) ≤ 144 * n + 24 + 1/10 := by linarith
  have hc2 : (28 * n + 8) * ((1 + 1/2^33) * (1 + (18 * n + 3)/2^50)) ≤ 28 * n + 8 + 1/10 := by
    have : (1 + 1/2^33) * (1 + (18 * n + 3)/2^50) ≤ 1 + 1/2^30 := by linarith
    refine (mul_le_mul_of_nonneg_left this (by linarith)).trans ?_
    linarith
  rw [ea] at ha
  rw [eb] at hb
  rw [ec] at hc
  have k := mul_le_mul_of_nonneg_left (add_le_add hb2 hc2) hT0
  clear hb2 hc2 ea eb ec hT hu
  have e : T * (172 * n + 2 * K + 38) = T * (2 * K + 5) + T * ((144 * n + 24 + 1/10) + (28 * n + 8 + 1/10)) + T * (8/10) := by ring
  rw [e]
  rw [mul_add] at k
  linarith [mul_nonneg hT0 (show (0:ℝ) ≤ 8/10 by norm_num)]

theorem tau_le : (1:ℝ)/2^900 ≤ 1/4 * (1/2^503) := by
  rw [show (1:ℝ)/4 * (1/2^503) = 1/2^505 by rw [show 505 = 2 + 503 by norm_num, pow_add]; field_simp; norm_num]
  exact one_div_le_one_div_of_le (by positivity) (pow_le_pow_right₀ (by norm_num) (by norm_num))

set_option maxHeartbeats 1000000 in
/-- one round of the program -/
theorem single_roundF (hL : L.Accurate) (hQ : ConvLOGQ LOGQ) (hQ29 : LOGQ ≤ 2^29) (hn1 : 1 ≤ n) (hn : n ≤ 16) {K : Nat} (hK : K ≤ 2^20)
    (hq52 : 52 ≤ LOGQ) (hq : (K:ℝ) * 2^101 < 2^(LOGQ-1)) {z : CVec (n+1)} (hz : ∀ i : Fin (2^n), ‖(⟨z.1 i, z.2 i⟩ : ℂ)‖ ≤ 1)
    {pt : R_Q LOGQ (2^(n+1))} (hpt : R_Q.Canonical pt)
    (hP : l2 (slots n (R_Q.sval pt) - (2:ℂ)^50 • toC (n := 2^n) z.1 z.2) ≤ Real.sqrt 2 ^ n * (18 * n + 3))
    {A : Fin K → CVec (n+1)} (hA : ∀ k (i : Fin (2^n)), ‖(⟨(A k).1 i, (A k).2 i⟩ : ℂ)‖ ≤ 1) :
    ∃ (Az Zt e : CVec (n+1)) (r : R_Q LOGQ (2^(n+1))) (o : ℝ), MsgF.mvp z A = pure Az ∧
      ptMvpF (LOGN := n+1) L pt A (BitVec.ofNat 64 (2^50)) = pure r ∧ decode_logF (LOGN := n+1) L r (2 * 50 : Nat) = pure Zt ∧
      MsgF.sub Az Zt = pure e ∧ MsgF.norm e = pure o ∧
      ∃ (m y : Fin K → Fin (2^(n+1)) → ℝ) (v : Fin K → Fin (2^(n+1)) → ℤ),
        (∀ k (i : Fin (2^n)), slotOf (m k) i = ⟨(A k).1 i, (A k).2 i⟩) ∧ (∀ k j, |(v k j : ℝ) - y k j| ≤ 1/2) ∧
        (∀ k, Real.sqrt (∑ j, (y k j - 2^50 * m k j)^2) ≤ (28 * n + 7) / 8) ∧
        |o - Real.sqrt (∑ i : Fin (2^n), ‖∑ d : Fin K, slotOf (fun j => 2^50 * m d j - v d j) i *
          (⟨z.1 ⟨(i + d) % 2^n, Nat.mod_lt _ (Nat.two_pow_pos n)⟩, z.2 ⟨(i + d) % 2^n, Nat.mod_lt _ (Nat.two_pow_pos n)⟩⟩ : ℂ)‖^2) / 2^50| ≤
          K * Real.sqrt 2 ^ n * (172 * n + 2 * K + 40) / 2^53 + 1/2^500 := by
  have hu := uF_pos.le
  have hη := etaF_pos.le
  have hn0 : (0:ℝ) ≤ n := Nat.cast_nonneg _
  have hn' : (n:ℝ) ≤ 16 := by exact_mod_cast hn
  have hK0 : (0:ℝ) ≤ K := Nat.cast_nonneg _
  have hK' : (K:ℝ) ≤ 2^20 := by exact_mod_cast hK
  have hs0 : 0 ≤ Real.sqrt 2 ^ n := by positivity
  have hs8 := sqrt2_pow_le8 hn
  have hΔ := toNat_scale (D := 50) (by norm_num)
  have hq2 : (2:ℝ)^51 ≤ 2^(LOGQ-1) := pow_le_pow_right₀ (by norm_num) (by omega)
  have hIM : INT_MAX = 2147483647 := by decide
  have hn16 : 2^n ≤ 2^16 := Nat.pow_le_pow_right (by norm_num) hn
  have hn16' : (2:ℝ)^n ≤ 2^16 := pow_le_pow_right₀ (by norm_num) hn
  -- names for the vectors
  obtain ⟨zc, hzc⟩ : ∃ zc : Fin (2^n) → ℂ, ∀ i, zc i = ⟨z.1 i, z.2 i⟩ := ⟨_, fun _ => rfl⟩
  obtain ⟨Ac, hAc⟩ : ∃ Ac : Fin K → Fin (2^n) → ℂ, ∀ k i, Ac k i = ⟨(A k).1 i, (A k).2 i⟩ := ⟨_, fun _ _ => rfl⟩
  have hz1 : ∀ i, ‖zc i‖ ≤ 1 := fun i => by rw [hzc]; exact hz i
  have hA1 : ∀ k i, ‖Ac k i‖ ≤ 1 := fun k i => by rw [hAc]; exact hA k i
  have hzl : l2 zc ≤ Real.sqrt 2 ^ n := by have := l2_sup hz1; rwa [mul_one] at this
  have htoC : toC (n := 2^n) z.1 z.2 = zc := funext fun i => (hzc i).symm
  rw [htoC] at hP
  -- the product of messages
  have hsum : ∀ i : Fin (2^n), ∑ k : Fin K, ‖Ac k i‖ * ‖zc ⟨(i + k) % 2^n, Nat.mod_lt _ i.pos⟩‖ ≤ K := fun i => by
    refine (sum_le_sum (g := fun _ => (1:ℝ)) fun k _ => mul_le_one₀ (hA1 k i) (norm_nonneg _) (hz1 _)).trans (le_of_eq (by simp))
  obtain ⟨Az, eAz, hAz⟩ := C84_mvp (n := 2^n) (K := K) hK (by omega) z A (fun i => by
    have := hsum i
    simp only [hAc, hzc] at this
    refine this.trans (hK'.trans (pow_le_pow_right₀ (by norm_num) (by norm_num))))
  -- the product of plaintexts
  obtain ⟨r, er, m, y, v, hm, hv, hy, hH⟩ := ptMvpF_exact (LOGQ := LOGQ) hL hQ hn1 hn hpt A (BitVec.ofNat 64 (2^50)) (scale_ne_zero (by norm_num)) hA
    (by rw [hΔ]; norm_num) (le_trans (by rw [hΔ]; norm_num) hq2)
  rw [hΔ] at hy
  have ht : 2^106 * etaF ≤ 1/8 := by
    have h3 : 2^106 * etaF ≤ 1/2^900 := tiny_le' (mul_le_mul_of_nonneg_right (by norm_num) hη)
    exact h3.trans (one_div_le_one_div_of_le (by norm_num) (le_trans (by norm_num) (pow_le_pow_right₀ (by norm_num) (show 3 ≤ 900 by norm_num))))
  have hy2 : ∀ k, l2 (pairC n fun j => y k j - 2^50 * m k j) ≤ (28 * n + 7) / 8 := fun k => by
    have e : (fun j => y k j - 2^50 * m k j) = fun j => y k j - m k j * 2^50 := by funext j; ring
    rw [e]
    refine (hy k).trans ((add_le_add le_rfl ht).trans (le_of_eq ?_))
    rw [uF_eq]
    ring
  obtain ⟨ε, hε⟩ : ∃ ε : Fin K → Fin (2^n) → ℂ, ∀ k (i : Fin (2^n)), ε k i = slotOf (fun j => 2^50 * m k j - v k j) i := ⟨_, fun _ _ => rfl⟩
  have hε17 : ∀ k i, ‖ε k i‖ ≤ 2^17 := by
    intro k i
    have a1 : ‖slotOf (fun j => (v k j : ℝ)) i - slotOf (y k) i‖ ≤ 2^n := by
      have := slotOf_sub_le (m := fun j => (v k j : ℝ)) (m' := y k) (ε := 1/2) (hv k) i
      refine this.trans (le_of_eq ?_)
      push_cast
      rw [pow_succ (2:ℝ) n]
      ring
    have a2 : ‖slotOf (fun j => y k j - 2^50 * m k j) i‖ ≤ 2^8 * 57 := by
      refine (le_l2 (fun i : Fin (2^n) => slotOf (fun j => y k j - 2^50 * m k j) i) i).trans ?_
      rw [slots_l2]
      exact mul_le_mul hs8 ((hy2 k).trans (by linarith)) (l2_nonneg _) (by norm_num)
    have e : ε k i = -(slotOf (fun j => (v k j : ℝ)) i - slotOf (y k) i) - slotOf (fun j => y k j - 2^50 * m k j) i := by
      rw [hε, slotOf_sub, slotOf_sub]
      ring
    rw [e]
    refine (norm_sub_le _ _).trans ?_
    rw [norm_neg]
    exact (add_le_add (a1.trans hn16') a2).trans (by norm_num)
  have hV : ∀ k (i : Fin (2^n)), slots n (v k) i = 2^50 * Ac k i - ε k i := by
    intro k i
    rw [hε, slotOf_sub, hAc, ← hm k i]
    have e : (fun j => 2^50 * m k j) = fun j => m k j * 2^50 := by funext j; ring
    rw [e, slotOf_smul]
    unfold slots
    push_cast
    ring
  have hVc : ∀ k i, ‖slots n (v k) i‖ ≤ 2^50 + 2^17 := by
    intro k i
    rw [hV]
    refine (norm_sub_le _ _).trans (add_le_add ?_ (hε17 k i))
    rw [norm_mul, norm_pow, Complex.norm_ofNat]
    exact mul_le_of_le_one_right (by norm_num) (hA1 k i)
  obtain ⟨P, hPd⟩ : ∃ P : Fin (2^n) → ℂ, P = slots n (R_Q.sval pt) := ⟨_, rfl⟩
  rw [← hPd] at hP hH
  obtain ⟨π, hπ⟩ : ∃ π : Fin (2^n) → ℂ, π = P - (2:ℂ)^50 • zc := ⟨_, rfl⟩
  rw [← hπ] at hP
  have hPπ : P = (2:ℂ)^50 • zc + π := by rw [hπ]; abel
  have hπ17 : Real.sqrt 2 ^ n * (18 * n + 3) ≤ 2^17 := (mul_le_mul hs8 (show 18 * (n:ℝ) + 3 ≤ 291 by linarith) (by positivity) (by norm_num)).trans (by norm_num)
  have hPl : l2 P ≤ 2^50 * Real.sqrt 2 ^ n + Real.sqrt 2 ^ n * (18 * n + 3) := by
    rw [hPπ]
    refine (l2_add_le _ _).trans (add_le_add ?_ hP)
    rw [l2_smul, norm_pow, Complex.norm_ofNat]
    exact mul_le_mul_of_nonneg_left hzl (by norm_num)
  have hPs : ∀ i, ‖P i‖ ≤ 2^50 + 2^17 := fun i => by
    rw [hPπ]
    refine (norm_add_le _ _).trans (add_le_add ?_ (((le_l2 π i).trans hP).trans hπ17))
    rw [Pi.smul_apply, norm_smul, norm_pow, Complex.norm_ofNat]
    exact mul_le_of_le_one_right (by norm_num) (hz1 i)
  obtain ⟨Rv, hRv⟩ : ∃ Rv : Fin (2^n) → ℂ, Rv = fun i => ∑ k : Fin K, slots n (v k) i * P ⟨(i.val + k.val) % 2^n, Nat.mod_lt _ (Nat.two_pow_pos n)⟩ := ⟨_, rfl⟩
  rw [← hRv] at hH
  have hRs : ∀ i, ‖Rv i‖ ≤ K * 2^101 := fun i => by
    rw [hRv]
    refine (norm_sum_le _ _).trans ((sum_le_sum (g := fun _ => (2:ℝ)^101) fun d _ => ?_).trans (le_of_eq (by simp)))
    rw [norm_mul]
    refine (mul_le_mul (hVc d i) (hPs _) (norm_nonneg _) (by norm_num)).trans (by norm_num)
  have hsl : ∀ i, slots n (R_Q.sval r) i = Rv i := fun i =>
    sub_eq_zero.1 (norm_le_zero_iff.1 (hH.sval hn1 hn hRs (by rw [add_zero]; exact hq) i))
  have hrk : ∀ k, |((r k).sval : ℝ)| ≤ 2^900 * 2^(2*50) := fun k => by
    have := coeff_le_slots hn1 (by omega) (m := fun k => ((r k).sval : ℝ)) (B := K * 2^101) (fun i => by
      have e : slotOf (fun k => ((r k).sval : ℝ)) i = Rv i := hsl i
      rw [e]; exact hRs i) k
    refine this.trans ((mul_le_mul_of_nonneg_right hK' (by positivity)).trans ?_)
    rw [← pow_add, ← pow_add]
    exact pow_le_pow_right₀ (by norm_num) (by norm_num)
  obtain ⟨Zt, eZ, hZ⟩ := decodeF_l2 (L := L) hL hn1 (by omega) hQ29 (D := 2*50) (by norm_num) r hH.1 hrk
  have hZs : (fun i : Fin (2^n) => slotOf (fun k => ((r k).sval : ℝ) / 2^(2*50)) i) = ((1:ℂ)/2^100) • Rv := by
    funext i
    have h3 := slotOf_smul (fun k => ((r k).sval : ℝ)) (1/2^100) i
    have e : (fun k => ((r k).sval : ℝ) / 2^(2*50)) = fun k => ((r k).sval : ℝ) * (1/2^100) := by funext k; ring
    rw [e, h3]
    have e : slotOf (fun k => ((r k).sval : ℝ)) i = Rv i := hsl i
    rw [e, Pi.smul_apply, smul_eq_mul]
    push_cast
    ring
  have hZ2 : l2 (toC (n := 2^n) Zt.1 Zt.2 - ((1:ℂ)/2^100) • Rv) ≤ (28 * n + 8) * uF * (K * (2^50 + 2^17) * (2^50 * Real.sqrt 2 ^ n + Real.sqrt 2 ^ n * (18 * n + 3)) / 2^100)
      + Real.sqrt 2 ^ n * (2^40 * etaF) := by
    have e := slots_l2 (n := n) fun k => ((r k).sval : ℝ) / 2^(2*50)
    rw [hZs] at hZ e
    rw [l2_smul] at e
    rw [mul_add, ← mul_assoc (Real.sqrt 2 ^ n), mul_comm (Real.sqrt 2 ^ n), mul_assoc _ (Real.sqrt 2 ^ n), ← e] at hZ
    refine hZ.trans (add_le_add (mul_le_mul_of_nonneg_left ?_ (by positivity)) le_rfl)
    have e2 : ‖(1:ℂ)/2^100‖ = 1/2^100 := by rw [norm_div, norm_one, norm_pow, Complex.norm_ofNat]
    rw [e2, mul_comm, mul_one_div]
    refine div_le_div_of_nonneg_right ?_ (by norm_num)
    rw [hRv]
    exact (l2_mvp (by norm_num) hVc).trans (mul_le_mul_of_nonneg_left hPl (by positivity))
  obtain ⟨E, hE⟩ : ∃ E : Fin (2^n) → ℂ, E = fun i => ∑ d : Fin K, ε d i * zc ⟨(i + d) % 2^n, Nat.mod_lt _ (Nat.two_pow_pos n)⟩ := ⟨_, rfl⟩
  obtain ⟨AE, hAE⟩ : ∃ AE : Fin (2^n) → ℂ, AE = fun i => ∑ d : Fin K, Ac d i * zc ⟨(i + d) % 2^n, Nat.mod_lt _ (Nat.two_pow_pos n)⟩ := ⟨_, rfl⟩
  have hAz2 : l2 (toC (n := 2^n) Az.1 Az.2 - AE) ≤ Real.sqrt 2 ^ n * ((2 * K + 5) * K * uF + K / 2^1071) := by
    refine l2_sup fun i => ?_
    have h := hAz i
    simp only [← hAc, ← hzc] at h
    rw [hAE]
    refine h.trans ?_
    refine add_le_add ?_ le_rfl
    refine (mul_le_mul_of_nonneg_left (hsum i) (by positivity)).trans (le_of_eq ?_)
    rw [uF_eq]
    ring
  have hpi : l2 (AE - ((1:ℂ)/2^100) • Rv - ((1:ℂ)/2^50) • E) ≤ K * ((2^50 + 2^17) / 2^100) * (Real.sqrt 2 ^ n * (18 * n + 3)) := by
    have e : AE - ((1:ℂ)/2^100) • Rv - ((1:ℂ)/2^50) • E = fun i : Fin (2^n) => ∑ d : Fin K, (-(slots n (v d) i) / 2^100) *
        π ⟨(i + d) % 2^n, Nat.mod_lt _ (Nat.two_pow_pos n)⟩ := by
      funext i
      rw [Pi.sub_apply, Pi.sub_apply, Pi.smul_apply, Pi.smul_apply, hAE, hRv, hE, hPπ, smul_eq_mul, smul_eq_mul]
      beta_reduce
      rw [mul_sum, mul_sum, ← sum_sub_distrib, ← sum_sub_distrib]
      refine sum_congr rfl fun d _ => ?_
      rw [hV, Pi.add_apply, Pi.smul_apply, smul_eq_mul]
      ring
    rw [e]
    refine (l2_mvp (c := (2^50 + 2^17) / 2^100) (by norm_num) fun d i => ?_).trans (mul_le_mul_of_nonneg_left hP (by positivity))
    rw [norm_div, norm_neg, norm_pow, Complex.norm_ofNat]
    exact div_le_div_of_nonneg_right (hVc d i) (by norm_num)
  -- the difference
  obtain ⟨f, hf⟩ : ∃ f : Fin (2^n) → ℂ, f = toC (n := 2^n) Az.1 Az.2 - toC (n := 2^n) Zt.1 Zt.2 := ⟨_, rfl⟩
  obtain ⟨τ, hτ⟩ : ∃ τ : ℝ, τ = 1/2^503 := ⟨_, rfl⟩
  have hτ0 : 0 ≤ τ := by rw [hτ]; positivity
  have hτ1 : τ ≤ 1 := by rw [hτ]; exact (div_le_one (by positivity)).2 (one_le_pow₀ (by norm_num))
  have tη : ∀ x : ℝ, x ≤ 2^170 * etaF → x ≤ 1/4 * τ := fun x hx => by rw [hτ]; exact (tiny_le' hx).trans tau_le
  have t1 : Real.sqrt 2 ^ n * (K / 2^1071) ≤ 1/4 * τ := by
    refine tη _ ?_
    have e : (K:ℝ) / 2^1071 = K * 2^4 * etaF := by
      rw [etaF_eq, show 1075 = 4 + 1071 by norm_num, pow_add]; field_simp
    rw [e, ← mul_assoc]
    refine mul_le_mul_of_nonneg_right ((mul_le_mul hs8 (mul_le_mul_of_nonneg_right hK' (by norm_num)) (by positivity) (by norm_num)).trans ?_) hη
    norm_num
  have t2 : Real.sqrt 2 ^ n * (2^40 * etaF) ≤ 1/4 * τ := by
    refine tη _ ?_
    rw [← mul_assoc]
    exact mul_le_mul_of_nonneg_right ((mul_le_mul_of_nonneg_right hs8 (by norm_num)).trans (by norm_num)) hη
  have t3 : Real.sqrt 2 ^ n * (1 / 2^1074) ≤ τ := by
    refine (tη _ ?_).trans (by linarith)
    have e : (1:ℝ) / 2^1074 = 2 * etaF := by
      rw [etaF_eq, show 1075 = 1 + 1074 by norm_num, pow_add]; field_simp
    rw [e, ← mul_assoc]
    exact mul_le_mul_of_nonneg_right ((mul_le_mul_of_nonneg_right hs8 (by norm_num)).trans (by norm_num)) hη
  have t4 : (1:ℝ)/2^519 ≤ τ := by
    rw [hτ]
    exact one_div_le_one_div_of_le (by positivity) (pow_le_pow_right₀ (by norm_num) (by norm_num))
  obtain ⟨T, hT⟩ : ∃ T : ℝ, T = Real.sqrt 2 ^ n * (K * uF) := ⟨_, rfl⟩
  have hT0 : 0 ≤ T := by rw [hT]; positivity
  have hT1 : T ≤ 1 := by
    rw [hT, uF_eq]
    refine (mul_le_mul hs8 (mul_le_mul_of_nonneg_right hK' (by norm_num)) (by positivity) (by norm_num)).trans (by norm_num)
  have hfE : l2 (f - ((1:ℂ)/2^50) • E) ≤ T * (172 * n + 2 * K + 38) + τ := by
    have e : f - ((1:ℂ)/2^50) • E = (toC (n := 2^n) Az.1 Az.2 - AE) + (AE - ((1:ℂ)/2^100) • Rv - ((1:ℂ)/2^50) • E) +
        (-1 : ℂ) • (toC (n := 2^n) Zt.1 Zt.2 - ((1:ℂ)/2^100) • Rv) := by
      rw [hf, neg_smul, one_smul]; abel
    rw [e]
    refine (l2_add_le _ _).trans ((add_le_add (l2_add_le _ _) le_rfl).trans ?_)
    rw [l2_smul, norm_neg, norm_one, one_mul]
    rw [mul_add] at hAz2
    refine (single_arith (t := 1/4 * τ) hn0 hn' hs0 hK0 uF_eq hT (hAz2.trans (add_le_add le_rfl t1)) hpi (hZ2.trans (add_le_add le_rfl t2))).trans ?_
    linarith
  have hEl : l2 E ≤ K * 2^17 * Real.sqrt 2 ^ n := by
    rw [hE]
    exact (l2_mvp (by norm_num) hε17).trans (mul_le_mul_of_nonneg_left hzl (by positivity))
  have eX : l2 (((1:ℂ)/2^50) • E) = l2 E / 2^50 := by
    rw [l2_smul, norm_div, norm_one, norm_pow, Complex.norm_ofNat]; ring
  have hX : l2 E / 2^50 ≤ T * 2^20 := by
    refine (div_le_div_of_nonneg_right hEl (by norm_num)).trans (le_of_eq ?_)
    rw [hT, uF_eq]; ring
  have hX0 : 0 ≤ l2 E / 2^50 := div_nonneg (l2_nonneg _) (by norm_num)
  have hYX : |l2 f - l2 E / 2^50| ≤ l2 (f - ((1:ℂ)/2^50) • E) := by rw [← eX]; exact l2_sub_abs _ _
  have hA22 : 172 * (n:ℝ) + 2 * K + 38 ≤ 2^22 := by linarith
  have hf24 : l2 f ≤ 2^24 := by
    have a := (abs_le.1 (hYX.trans hfE)).2
    have b : T * (172 * n + 2 * K + 38) ≤ 1 * 2^22 := mul_le_mul hT1 hA22 (by positivity) (by norm_num)
    have c : T * 2^20 ≤ 1 * 2^20 := mul_le_mul_of_nonneg_right hT1 (by norm_num)
    linarith
  have hfi : ∀ i : Fin (2^n), (⟨Az.1 i, Az.2 i⟩ : ℂ) - ⟨Zt.1 i, Zt.2 i⟩ = f i := fun i => by rw [hf]; rfl
  obtain ⟨ev, ee, hev⟩ := C84_sub (n := 2^n) Az Zt fun i => by
    have : ‖f i‖ ≤ 2^1000 := ((le_l2 f i).trans hf24).trans (pow_le_pow_right₀ (by norm_num) (by norm_num))
    rw [← hfi] at this
    exact this
  have hev2 : l2 (toC (n := 2^n) ev.1 ev.2 - f) ≤ uF * l2 f + τ := by
    obtain ⟨g, hg⟩ : ∃ g : Fin (2^n) → ℂ, g = fun i => ((uF * ‖f i‖ : ℝ) : ℂ) := ⟨_, rfl⟩
    have a : l2 (toC (n := 2^n) ev.1 ev.2 - f) ≤ l2 (g + fun _ => ((1/2^1074 : ℝ) : ℂ)) := by
      refine l2_mono fun i => ?_
      have h := hev i
      rw [hfi] at h
      rw [Pi.add_apply, hg]
      beta_reduce
      rw [← Complex.ofReal_add, Complex.norm_real, Real.norm_of_nonneg (by positivity), uF_eq]
      exact h
    refine a.trans ((l2_add_le _ _).trans (add_le_add ?_ ?_))
    · refine l2_scale_le hu fun i => ?_
      rw [hg]
      beta_reduce
      rw [Complex.norm_real, Real.norm_of_nonneg (by positivity)]
    · refine le_trans (l2_sup fun i => ?_) t3
      rw [Complex.norm_real, Real.norm_of_nonneg (by positivity)]
  have hel : |l2 (toC (n := 2^n) ev.1 ev.2) - l2 f| ≤ uF * l2 f + τ := (l2_sub_abs _ _).trans hev2
  have he25 : l2 (toC (n := 2^n) ev.1 ev.2) ≤ 2^26 := by
    have a := (abs_le.1 hel).2
    have b : uF * l2 f ≤ 1 * 2^24 := mul_le_mul (uF_le.trans (by norm_num)) hf24 (l2_nonneg _) (by norm_num)
    linarith
  obtain ⟨o, eo, ho0, ho⟩ := C84_norm (n := 2^n) (by omega) ev (by
    have h := l2_sq (toC (n := 2^n) ev.1 ev.2)
    have h2 : l2 (toC (n := 2^n) ev.1 ev.2) ^ 2 ≤ (2^26)^2 := pow_le_pow_left₀ (l2_nonneg _) he25 2
    rw [h, ← pow_mul] at h2
    exact h2.trans (pow_le_pow_right₀ (by norm_num) (by norm_num)))
  have ho2 : |o - l2 (toC (n := 2^n) ev.1 ev.2)| ≤ (1.1 * ((2^n : ℕ) : ℝ) + 5)/2^53 * l2 (toC (n := 2^n) ev.1 ev.2) + τ :=
    ho.trans (add_le_add le_rfl t4)
  have hκ : (1.1 * ((2^n : ℕ) : ℝ) + 5)/2^53 ≤ 72100 * uF := by
    rw [uF_eq]
    push_cast
    rw [mul_one_div]
    refine div_le_div_of_nonneg_right ?_ (by norm_num)
    linarith
  have hfin := measure_arith hX0 hT0 hX (by positivity) hA22 hτ0 hu uF_eq.le (by positivity) hκ (l2_nonneg f) hfE hYX hel ho2
  refine ⟨Az, Zt, ev, r, o, eAz, er, eZ, ee, eo, m, y, v, hm, hv, fun k => by rw [← l2_pairC]; exact hy2 k, ?_⟩
  have eE : Real.sqrt (∑ i : Fin (2^n), ‖∑ d : Fin K, slotOf (fun j => 2^50 * m d j - v d j) i *
          (⟨z.1 ⟨(i + d) % 2^n, Nat.mod_lt _ (Nat.two_pow_pos n)⟩, z.2 ⟨(i + d) % 2^n, Nat.mod_lt _ (Nat.two_pow_pos n)⟩⟩ : ℂ)‖^2) = l2 E := by
    rw [hE]
    unfold l2
    simp only [hε, hzc]
  rw [eE]
  refine hfin.trans (add_le_add ?_ ?_)
  · rw [hT, uF_eq]
    have : Real.sqrt 2 ^ n * (K * (1/2^53)) * (172 * n + 2 * K + 38 + 1) ≤ Real.sqrt 2 ^ n * (K * (1/2^53)) * (172 * n + 2 * K + 40) :=
      mul_le_mul_of_nonneg_left (by linarith) (by positivity)
    refine this.trans (le_of_eq ?_)
    ring
  · rw [hτ, show (1:ℝ)/2^500 = 8 * (1/2^503) by rw [show 503 = 3 + 500 by norm_num, pow_add]; field_simp; norm_num]
    exact mul_le_mul_of_nonneg_right (by norm_num) (by positivity)

end

/-! ## quotients and products of positive numbers -/

/-- `x` is `X` up to `k` units of rounding and an absolute error `τ` -/
def Ra (X k τ x : ℝ) : Prop := |x - X| ≤ k * uF * X + τ

theorem Ra.mono {X k τ x k' τ' : ℝ} (h : Ra X k τ x) (hX : 0 ≤ X) (hk : k ≤ k') (hτ : τ ≤ τ') : Ra X k' τ' x :=
  le_trans (α := ℝ) h (add_le_add (mul_le_mul_of_nonneg_right (mul_le_mul_of_nonneg_right hk uF_pos.le) hX) hτ)

theorem Ra.self (X : ℝ) : Ra X 0 0 X := by unfold Ra; simp

theorem Ra.fl {X k τ x : ℝ} (h : Ra X k τ x) (hX0 : 0 ≤ X) (hX : X ≤ 2^500) (hk0 : 0 ≤ k) (hk : k ≤ 2^20) (hτ0 : 0 ≤ τ) (hτ : τ ≤ 1) :
    Ok (fl x) (Ra X (k + 1.01) (2 * τ + etaF)) := by
  unfold Ra at h
  have hu := uF_pos.le
  have hu2 := uF_le
  have hku : k * uF ≤ 1/400 := (mul_le_mul hk hu2 hu (by norm_num)).trans (by norm_num)
  have hkX : k * uF * X ≤ 1/400 * X := mul_le_mul_of_nonneg_right hku hX0
  have hx : |x| ≤ X + (k * uF * X + τ) := by
    have := abs_add_le (x - X) X
    rw [sub_add_cancel, abs_of_nonneg hX0] at this
    linarith
  refine Ok.mono (fl_near (x := x) ?_) fun r hr => ?_
  · have h1 : (1:ℝ) ≤ 2^500 := one_le_pow₀ (by norm_num)
    have h2 : 2^2 * (2:ℝ)^500 ≤ 2^1020 := by
      rw [← pow_add]
      exact pow_le_pow_right₀ (by norm_num) (by norm_num)
    refine le_trans ?_ h2
    clear h2
    generalize (2:ℝ)^500 = Z at *
    linarith
  · unfold Ra
    clear hX
    have a := abs_add_le (r - x) (x - X)
    rw [sub_add_sub_cancel] at a
    have b := mul_le_mul_of_nonneg_left hx hu
    have c : uF * (k * uF * X) ≤ 1/400 * (uF * X) := by
      have := mul_le_mul_of_nonneg_right hku (mul_nonneg hu hX0)
      linarith
    have d : uF * τ ≤ 1 * τ := mul_le_mul_of_nonneg_right (by linarith) hτ0
    have e : (k + 1.01) * uF * X = k * uF * X + 1.01 * (uF * X) := by ring
    rw [e]
    have := mul_nonneg hu hX0
    rw [mul_add, mul_add] at b
    linarith

theorem Ra.mul {X k τ x Y l σ y : ℝ} (hx : Ra X k τ x) (hy : Ra Y l σ y) (hX0 : 0 ≤ X) (hY0 : 0 ≤ Y) (hk0 : 0 ≤ k) (hl0 : 0 ≤ l) (hk : k ≤ 2^20)
    (hl : l ≤ 2^20) (hτ : 0 ≤ τ) (hσ : 0 ≤ σ) : Ra (X * Y) (k + l + 0.01) (2 * τ * Y + 2 * σ * X + τ * σ) (x * y) := by
  unfold Ra at *
  have hu := uF_pos.le
  have hu2 : uF = 1/2^53 := uF_eq
  have hku : k * uF ≤ 1 := (mul_le_mul hk uF_le hu (by norm_num)).trans (by norm_num)
  have hlu : l * uF ≤ 1 := (mul_le_mul hl uF_le hu (by norm_num)).trans (by norm_num)
  have e : x * y - X * Y = (x - X) * (y - Y) + (x - X) * Y + X * (y - Y) := by ring
  rw [e]
  refine (abs_add_three _ _ _).trans ?_
  rw [abs_mul, abs_mul, abs_mul, abs_of_nonneg hX0, abs_of_nonneg hY0]
  have a := mul_le_mul hx hy (abs_nonneg _) (by positivity)
  have b := mul_le_mul_of_nonneg_right hx hY0
  have c := mul_le_mul_of_nonneg_left hy hX0
  have d : (k * uF * X) * (l * uF * Y) ≤ 0.01 * uF * (X * Y) := by
    have h1 : k * l * uF ≤ 0.01 := by
      have := mul_le_mul hk hl hl0 (by norm_num)
      have := mul_le_mul_of_nonneg_right this hu
      rw [hu2] at this ⊢
      linarith
    have h2 := mul_le_mul_of_nonneg_right h1 (mul_nonneg hu (mul_nonneg hX0 hY0))
    calc (k * uF * X) * (l * uF * Y) = k * l * uF * (uF * (X * Y)) := by ring
      _ ≤ _ := h2
      _ = _ := by ring
  have f : k * uF * X * σ ≤ X * σ := by
    have := mul_le_mul_of_nonneg_right hku (mul_nonneg hX0 hσ)
    linarith
  have g : τ * (l * uF * Y) ≤ τ * Y := by
    have := mul_le_mul_of_nonneg_right hlu (mul_nonneg hτ hY0)
    linarith
  have e1 : (k * uF * X + τ) * (l * uF * Y + σ) = (k * uF * X) * (l * uF * Y) + k * uF * X * σ + τ * (l * uF * Y) + τ * σ := by ring
  have e2 : (k + l + 0.01) * uF * (X * Y) = k * uF * X * Y + X * (l * uF * Y) + 0.01 * uF * (X * Y) := by ring
  rw [e2]
  rw [e1] at a
  rw [add_mul] at b
  rw [mul_add] at c
  linarith

theorem Ra.div {X k τ x c : ℝ} (h : Ra X k τ x) (hc : 0 < c) : Ra (X / c) k (τ / c) (x / c) := by
  unfold Ra at *
  rw [← sub_div, abs_div, abs_of_pos hc]
  refine (div_le_div_of_nonneg_right h hc.le).trans (le_of_eq ?_)
  ring

/-- the square root of an integer over 12 -/
theorem sqrt12_ra {t : ℕ} (ht : (t:ℝ) ≤ 2^31) : ∃ q s : ℝ, fl ((t:ℝ) / 12) = pure q ∧ fl (Real.sqrt q) = pure s ∧
    Ra (Real.sqrt ((t:ℝ)/12)) 2.01 (1/2^518) s := by
  have hu := uF_pos.le
  have hη := etaF_pos.le
  have h0 : (0:ℝ) ≤ (t:ℝ)/12 := by positivity
  obtain ⟨q, eq, _, hq⟩ := fl_near0 h0 (by
    refine le_trans (b := (2:ℝ)^31) ?_ (pow_le_pow_right₀ (by norm_num) (by norm_num))
    linarith)
  have hτ : Real.sqrt etaF ≤ 1/2^520 := by
    rw [Real.sqrt_le_left (by positivity), etaF_eq, div_pow, one_pow, ← pow_mul]
    exact one_div_le_one_div_of_le (by positivity) (pow_le_pow_right₀ (by norm_num) (by norm_num))
  obtain ⟨s, es, _, hs⟩ := fl_sqrt_near h0 (le_trans (b := (2:ℝ)^31) (by linarith) (pow_le_pow_right₀ (by norm_num) (by norm_num))) hu (uF_le.trans (by norm_num)) hη hτ hq
  refine ⟨q, s, eq, es, ?_⟩
  unfold Ra
  refine hs.trans (add_le_add (le_of_eq (by ring)) ?_)
  have e4 : etaF ≤ 1/2^520 := by
    rw [etaF_eq]
    exact one_div_le_one_div_of_le (by positivity) (pow_le_pow_right₀ (by norm_num) (by norm_num))
  have e5 : (1:ℝ)/2^518 = 4 * (1/2^520) := by rw [show 520 = 2 + 518 by norm_num, pow_add]; field_simp; norm_num
  rw [e5]
  linarith

end EvalRound

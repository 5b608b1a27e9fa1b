import Verif.Proofs.FloatMatmul

/-!
# C93: the program theorem_single_matmul_error in binary64
-/

namespace EvalRound
open Z_Q Finset

variable {n : Nat} {L : Libm}

/-- C93: `measure_single_matmul_error` in binary64 returns for every sequence of random values in range. `z` is the rounded test message. It
prints √(Diag·N/12)·‖z‖/Δ up to the rounding errors of the sum of squares, and in each round the norm of the error that comes from the rounding
errors `e` of the encoded diagonals, up to a multiple of `2^-53` per diagonal: rounding `z` itself costs no more than the rounding errors of
`double`. `e` is what rounding to integers leaves of numbers `y`, which are the scaled coefficients of the diagonals up to the errors of `ifft`. -/
theorem C93_single_matmul (hL : L.Accurate) {LOGQ : Nat} [NeZero LOGQ] (hQ : ConvLOGQ LOGQ) (hQ29 : LOGQ ≤ 2^29) (hn1 : 1 ≤ n) (hn : n ≤ 16)
    {Diag : Nat} (hK20 : Diag ≤ 2^20) (hK : Diag * 2^(n+1) < 2^31) (hq52 : 52 ≤ LOGQ) (hq : (Diag:ℝ) * 2^101 < 2^(LOGQ-1))
    (rounds : Nat) {ρ : RealRng} (hρ : ∀ j, |ρ j| ≤ 1 / Real.sqrt 2) :
    Ok (measure_single_matmul_errorF L Diag 50 LOGQ (n+1) rounds ρ) fun o => ∃ z : Fin (2^n) → ℂ,
      (∀ i : Fin (2^n), ‖z i - ⟨(set_test_message (n+1)).1 i, (set_test_message (n+1)).2 i⟩‖ ≤
        2^n / 2^50 + Real.sqrt 2 ^ n * (56 * n + 19) / 2^53) ∧
      |o.1 - Real.sqrt (Diag * 2^(n+1) / 12) * Real.sqrt (∑ i, ‖z i‖^2) / 2^50| ≤
        (1.1 * 2^n + 10) / 2^53 * (Real.sqrt (Diag * 2^(n+1) / 12) * Real.sqrt (∑ i, ‖z i‖^2) / 2^50) + 1/2^490 ∧
      o.2.length = rounds ∧
      ∀ r (hr : r < o.2.length), ∃ m y e : Fin Diag → Fin (2^(n+1)) → ℝ,
        (∀ d (i : Fin (2^n)), slotOf (m d) i =
          ⟨ρ (r * (Diag * 2^(n+1)) + (d * 2^(n+1) + i)), ρ (r * (Diag * 2^(n+1)) + (d * 2^(n+1) + (2^n + i)))⟩) ∧
        (∀ d, Real.sqrt (∑ k, (y d k - 2^50 * m d k)^2) ≤ (28 * n + 7) / 8) ∧
        (∀ d k, ∃ a : Int, |(a:ℝ) - y d k| ≤ 1/2 ∧ 2^50 * m d k = a + e d k) ∧
        |o.2[r] - Real.sqrt (∑ i : Fin (2^n), ‖∑ d : Fin Diag, slotOf (e d) i *
          z ⟨(i + d) % 2^n, Nat.mod_lt _ (Nat.two_pow_pos n)⟩‖^2) / 2^50| ≤
            Diag * Real.sqrt 2 ^ n * (172 * n + 2 * Diag + 40) / 2^53 + 1/2^500 ∧
        o.2[r] ≤ Diag * (2^n + Real.sqrt 2 ^ n * (28 * n + 7) / 8) * Real.sqrt (∑ i, ‖z i‖^2) / 2^50 +
          Diag * Real.sqrt 2 ^ n * (172 * n + 2 * Diag + 40) / 2^53 + 1/2^500 := by
  have hδ := toNat_scale (D := 50) (by norm_num)
  have hn0 : (0:ℝ) ≤ n := Nat.cast_nonneg _
  unfold measure_single_matmul_errorF
  rw [shl1_eq (by norm_num), pure_bind]
  obtain ⟨z, ez, p, hp, -, hz⟩ := rounded_messageF hL hn1 hn
  obtain ⟨pt, ept, hpt, hP⟩ := encode_roundedF (LOGQ := LOGQ) hL hn1 hn hq52 z p hp fun i => (hz i).2
  have hint : intM ((Diag : ℤ) * (2^(n+1) : Nat)) = pure ((Diag : ℤ) * (2^(n+1) : Nat)) := by
    have h0 : (0 : ℤ) ≤ (Diag : ℤ) * (2^(n+1) : Nat) := by positivity
    have h3 : (Diag : ℤ) * (2^(n+1) : Nat) < 2^31 := by exact_mod_cast hK
    exact intM_ok (by linarith) (by linarith)
  rw [ez, pure_bind, ept, pure_bind, hint, pure_bind]
  obtain ⟨zc, hzc⟩ : ∃ zc : Fin (2^n) → ℂ, ∀ i, zc i = ⟨z.1 i, z.2 i⟩ := ⟨_, fun _ => rfl⟩
  have hz1 : ∀ i, ‖zc i‖ ≤ 1 := fun i => by rw [hzc]; exact (hz i).2
  have hzl : l2 zc ≤ 2^8 := by
    have := l2_sup hz1
    rw [mul_one] at this
    exact this.trans (sqrt2_pow_le8 hn)
  -- the expected value
  have hN16 : (2:ℝ)^n ≤ 2^16 := pow_le_pow_right₀ (by norm_num) hn
  have hn16 : 2^n ≤ 2^16 := Nat.pow_le_pow_right (by norm_num) hn
  have hKr : (((Diag * 2^(n+1) : ℕ)) : ℝ) ≤ 2^31 := by exact_mod_cast hK.le
  obtain ⟨q, s, eq, es, hs⟩ := sqrt12_ra hKr
  have et : (((Diag : ℤ) * (2^(n+1) : Nat) : ℤ) : ℝ) = ((Diag * 2^(n+1) : ℕ) : ℝ) := by push_cast; ring
  rw [et, eq, pure_bind, es, pure_bind]
  have hsq : ∑ i : Fin (2^n), ‖(⟨z.1 i, z.2 i⟩ : ℂ)‖^2 = ∑ i, ‖zc i‖^2 := sum_congr rfl fun i _ => by rw [hzc]
  obtain ⟨nz, enz, hnz0, hnz⟩ := C84_norm (n := 2^n) (by omega) z (by
    have h := l2_sq zc
    have h2 : l2 zc ^ 2 ≤ (2^8)^2 := pow_le_pow_left₀ (l2_nonneg _) hzl 2
    rw [h, ← hsq, ← pow_mul] at h2
    exact h2.trans (pow_le_pow_right₀ (by norm_num) (by norm_num)))
  obtain ⟨S, hS⟩ : ∃ S : ℝ, S = Real.sqrt (((Diag * 2^(n+1) : ℕ) : ℝ) / 12) := ⟨_, rfl⟩
  have hS0 : 0 ≤ S := by rw [hS]; positivity
  have hS15 : S ≤ 2^15 := by
    rw [hS, Real.sqrt_le_left (by norm_num)]
    linarith
  have hnz' : Ra (l2 zc) (1.1 * 2^n + 5) (1/2^518) nz := by
    unfold Ra
    have e : Real.sqrt (∑ i : Fin (2^n), ‖(⟨z.1 i, z.2 i⟩ : ℂ)‖^2) = l2 zc := by rw [hsq]; rfl
    rw [e] at hnz
    refine hnz.trans (add_le_add (le_of_eq ?_) (one_div_le_one_div_of_le (by positivity) (pow_le_pow_right₀ (by norm_num) (by norm_num))))
    rw [uF_eq]
    push_cast
    ring
  rw [enz, pure_bind]
  rw [← hS] at hs
  obtain ⟨τ, hτ⟩ : ∃ τ : ℝ, τ = 1/2^518 := ⟨_, rfl⟩
  have hτ0 : 0 ≤ τ := by rw [hτ]; positivity
  have hτ40 : τ ≤ 1/2^40 := by
    rw [hτ]
    exact one_div_le_one_div_of_le (by positivity) (pow_le_pow_right₀ (by norm_num) (by norm_num))
  have hητ : etaF ≤ τ := by
    rw [hτ, etaF_eq]
    exact one_div_le_one_div_of_le (by positivity) (pow_le_pow_right₀ (by norm_num) (by norm_num))
  rw [← hτ] at hs hnz'
  have hZ0 := l2_nonneg zc
  have hp1 := hs.mul hnz' hS0 hZ0 (by norm_num) (by positivity) (by norm_num) (by linarith) hτ0 hτ0
  have hp2 : Ra (S * l2 zc) (1.1 * 2^n + 7.02) (2^18 * τ) (s * nz) := by
    refine hp1.mono (mul_nonneg hS0 hZ0) (by linarith) ?_
    have a : 2 * τ * l2 zc ≤ 2 * τ * 2^8 := mul_le_mul_of_nonneg_left hzl (by linarith)
    have b : 2 * τ * S ≤ 2 * τ * 2^15 := mul_le_mul_of_nonneg_left hS15 (by linarith)
    have c : τ * τ ≤ τ * 1 := mul_le_mul_of_nonneg_left (hτ40.trans (by norm_num)) hτ0
    linarith
  have hSZ : S * l2 zc ≤ 2^23 := (mul_le_mul hS15 hzl hZ0 (by norm_num)).trans (by norm_num)
  have h500 : (2:ℝ)^23 ≤ 2^500 := pow_le_pow_right₀ (by norm_num) (by norm_num)
  obtain ⟨x, ex, hx⟩ := hp2.fl (mul_nonneg hS0 hZ0) (hSZ.trans h500) (by positivity) (by linarith) (by positivity) (by linarith)
  have hd : fl (((BitVec.ofNat 64 (2^50)).toNat : ℝ)) = pure (2^50) := by
    rw [hδ]
    exact C74_exact ⟨1, 50, by norm_num, by norm_num, by norm_num, by norm_num⟩
  rw [ex, pure_bind, hd, pure_bind]
  have hx2 := (hx.mono (mul_nonneg hS0 hZ0) (k' := 1.1 * 2^n + 8.1) (τ' := 2^20 * τ) (by linarith) (by linarith)).div (c := 2^50) (by norm_num)
  obtain ⟨ex', eex, hex⟩ := hx2.fl (div_nonneg (mul_nonneg hS0 hZ0) (by norm_num)) ((div_le_self (mul_nonneg hS0 hZ0) (by norm_num)).trans (hSZ.trans h500))
    (by positivity) (by linarith) (by positivity) ((div_le_self (by positivity) (by norm_num)).trans (by linarith))
  rw [eex, pure_bind]
  have hexp : |ex' - S * l2 zc / 2^50| ≤ (1.1 * 2^n + 10) / 2^53 * (S * l2 zc / 2^50) + 1/2^490 := by
    have h1 : Ra (S * l2 zc / 2^50) (1.1 * 2^n + 10) (2^22 * τ) ex' := by
      refine hex.mono (div_nonneg (mul_nonneg hS0 hZ0) (by norm_num)) (by linarith) ?_
      have : 2^20 * τ / 2^50 ≤ 2^20 * τ := div_le_self (by positivity) (by norm_num)
      linarith
    unfold Ra at h1
    refine h1.trans (add_le_add (le_of_eq ?_) ?_)
    · rw [uF_eq]; ring
    · rw [hτ, show (518:ℕ) = 22 + 496 by norm_num, pow_add]
      have e : (2:ℝ)^22 * (1 / (2^22 * 2^496)) = 1/2^496 := by field_simp
      rw [e]
      exact one_div_le_one_div_of_le (by positivity) (pow_le_pow_right₀ (by norm_num) (by norm_num))
  have eS : S = Real.sqrt (Diag * 2^(n+1) / 12) := by rw [hS]; push_cast; rfl
  rw [eS] at hexp
  have hzc' : ∀ j, (⟨z.1 j, z.2 j⟩ : ℂ) = zc j := fun j => (hzc j).symm
  refine Ok.bind (runRounds_spec (c := Diag * 2^(n+1)) (P := fun ρ' x => ∃ m y e : Fin Diag → Fin (2^(n+1)) → ℝ,
      (∀ d (i : Fin (2^n)), slotOf (m d) i = ⟨ρ' (d * 2^(n+1) + i), ρ' (d * 2^(n+1) + (2^n + i))⟩) ∧
      (∀ d, Real.sqrt (∑ k, (y d k - 2^50 * m d k)^2) ≤ (28 * n + 7) / 8) ∧
      (∀ d k, ∃ a : Int, |(a:ℝ) - y d k| ≤ 1/2 ∧ 2^50 * m d k = a + e d k) ∧
      |x - Real.sqrt (∑ i : Fin (2^n), ‖∑ d : Fin Diag, slotOf (e d) i *
          zc ⟨(i + d) % 2^n, Nat.mod_lt _ (Nat.two_pow_pos n)⟩‖^2) / 2^50| ≤ Diag * Real.sqrt 2 ^ n * (172 * n + 2 * Diag + 40) / 2^53 + 1/2^500) fun r => ?_)
    fun l ⟨hl, hr⟩ => Ok.pure ⟨zc, fun i => ?_, hexp, hl, fun r hrl => ?_⟩
  · obtain ⟨ρ', hρ'⟩ : ∃ ρ', ρ' = ρ.drop (r * (Diag * 2^(n+1))) := ⟨_, rfl⟩
    have hfin : ρ.drop (r * (Diag * 2^(n+1)) + Diag * 2^(n+1)) = ρ'.drop (Diag * 2^(n+1)) := by rw [hρ', RealRng.drop_drop]
    have hρb : ∀ j, |ρ' j| ≤ 1 / Real.sqrt 2 := fun j => by rw [hρ']; exact hρ _
    rw [← hρ', hfin]
    clear hfin hρ'
    unfold singleMatmulRoundF
    rw [set_random_matrix_spec]
    obtain ⟨A, hA⟩ : ∃ A : Fin Diag → CVec (n+1), A = fun k : Fin Diag => (set_random_message (n+1) (ρ'.drop (k * 2^(n+1)))).1 := ⟨_, rfl⟩
    have hAB : ∀ k (i : Fin (2^n)), ‖(⟨(A k).1 i, (A k).2 i⟩ : ℂ)‖ ≤ 1 := fun k i => by
      rw [hA]; exact random_message_norm (n+1) (fun j => hρb _) i
    have hAv : ∀ k (i : Fin (2^n)), (⟨(A k).1 i, (A k).2 i⟩ : ℂ) = ⟨ρ' (k * 2^(n+1) + i), ρ' (k * 2^(n+1) + (2^n + i))⟩ := fun k i => by
      rw [hA]; rfl
    rw [← hA]
    dsimp only
    obtain ⟨Az, Zt, e, r', o, e1, e2, e3, e4, e5, m, y, v, hm, hv, hy, ho⟩ :=
      single_roundF (LOGQ := LOGQ) hL hQ hQ29 hn1 hn hK20 hq52 hq (fun i => (hz i).2) hpt hP hAB
    rw [e1, pure_bind, e2, pure_bind, e3, pure_bind, e4, pure_bind, e5, pure_bind]
    refine Ok.pure ⟨⟨m, y, fun d j => 2^50 * m d j - v d j, fun d i => (hm d i).trans (hAv d i), hy, fun d k => ⟨v d k, hv d k, by ring⟩, ?_⟩, rfl⟩
    simp only [hzc'] at ho
    exact ho
  · rw [hzc]
    refine (hz i).1.trans (le_of_eq ?_)
    rw [uF_eq]
    ring
  · obtain ⟨m, y, e, hm, hy, he, hx⟩ := hr r hrl
    refine ⟨m, y, e, hm, hy, he, hx, ?_⟩
    have hc0 : (0:ℝ) ≤ 2^n + Real.sqrt 2 ^ n * (28 * n + 7) / 8 := by positivity
    have hes : ∀ d (i : Fin (2^n)), ‖slotOf (e d) i‖ ≤ 2^n + Real.sqrt 2 ^ n * (28 * n + 7) / 8 := by
      intro d i
      have a2 : ‖slotOf (fun k => y d k - 2^50 * m d k) i‖ ≤ Real.sqrt 2 ^ n * (28 * n + 7) / 8 := by
        refine (le_l2 (fun i : Fin (2^n) => slotOf (fun k => y d k - 2^50 * m d k) i) i).trans ?_
        rw [slots_l2, mul_div_assoc, l2_pairC]
        exact mul_le_mul_of_nonneg_left (hy d) (by positivity)
      have a1 : ‖slotOf (fun k => e d k + (y d k - 2^50 * m d k)) i‖ ≤ 2^n := by
        refine (norm_slotOf_le (ε := 1/2) (fun k => ?_) i).trans (le_of_eq ?_)
        · obtain ⟨a, ha, hae⟩ := he d k
          have : e d k + (y d k - 2^50 * m d k) = -((a:ℝ) - y d k) := by rw [hae]; ring
          rw [this, abs_neg]
          exact ha
        · push_cast
          rw [pow_succ (2:ℝ) n]
          ring
      rw [slotOf_add] at a1
      have h := norm_sub_le (slotOf (e d) i + slotOf (fun k => y d k - 2^50 * m d k) i) (slotOf (fun k => y d k - 2^50 * m d k) i)
      rw [add_sub_cancel_right] at h
      exact h.trans (add_le_add a1 a2)
    have hb := l2_mvp (z := zc) (s := fun d (i : Fin (2^n)) => slotOf (e d) i) hc0 hes
    have hb2 := div_le_div_of_nonneg_right hb (show (0:ℝ) ≤ 2^50 by norm_num)
    have h3 := (abs_le.1 hx).2
    rw [sub_le_iff_le_add'] at h3
    exact h3.trans ((add_le_add hb2 le_rfl).trans (le_of_eq (add_assoc _ _ _).symm))

/-- The hypotheses of C93 hold for the parameters of section3.h at `LOGN = 15` and `LOGN = 16`, for 100 rounds, the random value 1/2 and correctly
rounded library functions. -/
example (n : Nat) (hn : n = 14 ∨ n = 15) :
    Ok (measure_single_matmul_errorF exactLibmP.toLibm 16 50 1450 (n+1) 100 fun _ => 1/2) fun o =>
      o.2.length = 100 ∧ ∃ z : Fin (2^n) → ℂ, ∀ r (hr : r < o.2.length),
        o.2[r] ≤ 16 * (2^n + Real.sqrt 2 ^ n * (28 * n + 7) / 8) * Real.sqrt (∑ i, ‖z i‖^2) / 2^50 +
          16 * Real.sqrt 2 ^ n * (172 * n + 2 * 16 + 40) / 2^53 + 1/2^500 := by
  have h1449 : ((2:ℝ)^200)^7 ≤ 2^(1450-1) := by
    rw [← pow_mul]; exact pow_le_pow_right₀ (by norm_num) (by norm_num)
  refine Ok.mono (C93_single_matmul (LOGQ := 1450) (Diag := 16) exactLibmP_accurate.1 (Or.inr (by norm_num)) (by norm_num) (by omega) (by omega)
    (by norm_num) (by rcases hn with rfl | rfl <;> norm_num) (by norm_num) ?_ 100 fun _ => ?_) fun o ⟨z, _, _, hl, h⟩ => ⟨hl, z, fun r hr => ?_⟩
  · refine lt_of_lt_of_le ?_ h1449
    refine lt_of_lt_of_le (?_ : _ < (2:ℝ)^200) (le_self_pow₀ (one_le_pow₀ (by norm_num)) (by norm_num))
    norm_num
  · rw [abs_of_pos (by norm_num), le_div_iff₀ (Real.sqrt_pos.2 (by norm_num))]
    have : Real.sqrt 2 ≤ 2 := Real.sqrt_le_iff.2 ⟨by norm_num, by norm_num⟩
    linarith
  · obtain ⟨_, _, _, _, _, _, _, h⟩ := h r hr
    exact_mod_cast h

end EvalRound

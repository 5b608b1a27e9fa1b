import Verif.Proofs.FloatSimple

/-!
# C83: the convolution experiments of section 3 in binary64
-/

namespace EvalRound
open Finset Z_Q
variable {L : Libm}

theorem random_norm {LOGN : Nat} {ρ : RealRng} (hρ : ∀ i, |ρ i| ≤ 1) (c : Nat) (i : Fin (2^(LOGN-1))) :
    ‖(⟨(set_random_message LOGN (ρ.drop c)).1.1 i, (set_random_message LOGN (ρ.drop c)).1.2 i⟩ : ℂ)‖ ≤ 3/2 := by
  show ‖(⟨ρ _, ρ _⟩ : ℂ)‖ ≤ 3/2
  generalize hx : ρ (c + _) = x
  generalize hy : ρ (c + _) = y
  have h1 : |x| ≤ 1 := by rw [← hx]; exact hρ _
  have h2 : |y| ≤ 1 := by rw [← hy]; exact hρ _
  rw [Complex.norm_def, Real.sqrt_le_left (by norm_num), Complex.normSq_apply]
  have := abs_le.1 h1
  have := abs_le.1 h2
  dsimp only
  nlinarith

theorem conv_arith {N P u κ sN E R w : ℝ} (hP : 0 ≤ P) (hu : 0 ≤ u) (hN : 1 ≤ N) (hκ : κ = (3.01 + 1.01 * N) * u)
    (hs : sN * sN = N) (hR : R = sN * (1/2) * P) (hE : E = κ * R + w) :
    sN * (1.001 * E + κ * R) ≤ N * (1.1 * N + 4) * u * P + 1.001 * (sN * w) := by
  have h1 : sN * R = N * P / 2 := by rw [hR, ← hs]; ring
  have e : sN * (1.001 * E + κ * R) = 2.001 * κ * (sN * R) + 1.001 * (sN * w) := by rw [hE]; ring
  rw [e, h1, hκ]
  have h2 : 0 ≤ u * (N * P) := by positivity
  have h3 : 0 ≤ N * (u * (N * P)) := by positivity
  have e1 : 2.001 * ((3.01 + 1.01 * N) * u) * (N * P / 2) = 3.011505 * (u * (N * P)) + 1.010505 * (N * (u * (N * P))) := by ring
  have e2 : N * (1.1 * N + 4) * u * P = 4 * (u * (N * P)) + 1.1 * (N * (u * (N * P))) := by ring
  rw [e1, e2]
  linarith

theorem tiny_sqrt {N : Nat} (hN : N ≤ 2^20) {K : ℝ} (hK0 : 0 ≤ K) (hK : K ≤ 2^100) :
    1.001 * (Real.sqrt N * (K * etaF)) + 1/2^520 ≤ 1/2^500 := by
  have hN' : (N:ℝ) ≤ 2^20 := by exact_mod_cast hN
  have hs : Real.sqrt N ≤ 2^10 := by
    rw [Real.sqrt_le_left (by norm_num)]
    exact hN'.trans (by norm_num)
  have hη := etaF_pos.le
  have h1 : Real.sqrt N * (K * etaF) ≤ 2^10 * (2^100 * etaF) :=
    mul_le_mul hs (mul_le_mul_of_nonneg_right hK hη) (by positivity) (by norm_num)
  have h2 : 2^170 * etaF ≤ 1/2^900 := tiny_le' le_rfl
  have h3 : (1:ℝ)/2^900 ≤ 1/2^520 := one_div_le_one_div_of_le (by positivity) (pow_le_pow_right₀ (by norm_num) (by norm_num))
  have h4 : (1:ℝ)/2^500 = 2^20 * (1/2^520) := by rw [show (520:ℕ) = 20 + 500 by norm_num, pow_add]; field_simp
  have h5 : 1.001 * (Real.sqrt N * (K * etaF)) ≤ 2^170 * etaF := by linarith
  have h6 : (0:ℝ) ≤ 1/2^520 := by positivity
  have h7 := h5.trans (h2.trans h3)
  rw [h4]
  generalize (1:ℝ)/2^520 = X at *
  linarith

/-- C83: in binary64 `measure_conv_error` returns, what it prints first is `N/12` times the square sum of the plaintext within
`(1.1N+6)/2^53` of itself, and in each round the square root of the measured number differs by at most `N(1.1N+4)/2^53` times the norm of
the plaintext from the norm of its exact product with the exact rounding errors of the computed coefficients. -/
theorem C83_conv_error (hL : L.Accurate) {LOGN : Nat} (h1 : 2 ≤ LOGN) (h2 : LOGN ≤ 20) (rounds : Nat) (ρ : RealRng)
    (hρ : ∀ i, |ρ i| ≤ 1) :
    Ok (measure_conv_errorF L LOGN rounds ρ) fun o => ∃ m0 y0 pt : Fin (2^LOGN) → ℝ,
      (∀ i : Fin (2^(LOGN-1)), slotOf m0 i = ⟨(set_test_message LOGN).1 i, (set_test_message LOGN).2 i⟩) ∧
      Real.sqrt (∑ k, (y0 k - 2^50 * m0 k)^2) ≤ (28 * LOGN - 10) / 8 ∧
      (∀ k, |pt k - y0 k| ≤ 1/2 ∧ ∃ a : Int, pt k = a) ∧
      |o.1 - 2^LOGN / 12 * ∑ k, pt k ^ 2| ≤ (1.1 * 2^LOGN + 6) / 2^53 * (2^LOGN / 12 * ∑ k, pt k ^ 2) + 1/2^900 ∧
      o.2.length = rounds ∧
      ∀ r (hr : r < o.2.length), ∃ m y e : Fin (2^LOGN) → ℝ,
        (∀ i : Fin (2^(LOGN-1)), slotOf m i = ⟨ρ (r * 2^LOGN + i), ρ (r * 2^LOGN + (2^(LOGN-1) + i))⟩) ∧
        Real.sqrt (∑ k, (y k - 2^50 * m k)^2) ≤ (42 * LOGN - 34) / 8 ∧
        (∀ k, |e k| ≤ 1/2 ∧ ∃ a : Int, y k = a + e k) ∧
        |Real.sqrt o.2[r] - Real.sqrt (∑ i, negconv e pt i ^ 2)| ≤
          2^LOGN * (1.1 * 2^LOGN + 4) / 2^53 * Real.sqrt (∑ k, pt k ^ 2) + 1/2^500 := by
  obtain ⟨n, rfl⟩ : ∃ n, LOGN = n + 1 := ⟨LOGN - 1, by omega⟩
  have hN : 2^(n+1) ≤ 2^20 := Nat.pow_le_pow_right (by norm_num) (by omega)
  unfold measure_conv_errorF
  rw [shl1_eq (by norm_num), pure_bind]
  obtain ⟨z, m0, y0, ez, hm0, ept, hy0, hsz⟩ := test_ptF hL (n := n) (by omega) (by omega)
  rw [ez, pure_bind, ept, pure_bind]
  obtain ⟨pt, hpe⟩ : ∃ pt : Fin (2^(n+1)) → ℝ, pt = fun k => (cround (y0 k) : ℝ) := ⟨_, rfl⟩
  have hpt : ∀ k, |pt k - y0 k| ≤ 1/2 ∧ ∃ a : Int, pt k = a := fun k => by
    rw [hpe]
    exact ⟨cround_err _, _, rfl⟩
  have hpP : Real.sqrt (∑ k, pt k ^ 2) ≤ 2^66 := by rw [hpe]; exact hsz
  rw [← hpe]
  clear hpe ept hsz
  obtain ⟨q, s, x, eq, es, ex, hx⟩ := expectedF_ok hN (T := 2^(n+1)) (lt_of_le_of_lt hN (by norm_num)) pt hpP
  rw [eq, pure_bind, es, pure_bind, ex, pure_bind]
  obtain ⟨P, hP⟩ : ∃ P, Real.sqrt (∑ k, pt k ^ 2) = P := ⟨_, rfl⟩
  have hP0 : 0 ≤ P := by rw [← hP]; exact Real.sqrt_nonneg _
  refine Ok.bind (runRounds_spec (c := 2^(n+1)) (P := fun ρ' x => ∃ m y e : Fin (2^(n+1)) → ℝ,
      (∀ i : Fin (2^n), slotOf m i = ⟨ρ' i, ρ' (2^n + i)⟩) ∧ Real.sqrt (∑ k, (y k - 2^50 * m k)^2) ≤ (42 * n + 8) / 8 ∧
      (∀ k, |e k| ≤ 1/2 ∧ ∃ a : Int, y k = a + e k) ∧
      |Real.sqrt x - Real.sqrt (∑ i, negconv e pt i ^ 2)| ≤ 2^(n+1) * (1.1 * 2^(n+1) + 4) / 2^53 * P + 1/2^500) fun r => ?_)
    fun l ⟨hl, hr⟩ => Ok.pure ⟨m0, y0, pt, hm0, ?_, hpt, ?_, hl, fun r hrl => ?_⟩
  · unfold convErrorRoundF
    obtain ⟨m, y, c, hm, hy, e1, e2, e3, e4, hc⟩ := conv_stepF hL (n := n) (by omega) (by omega)
      (set_random_message (n+1) (ρ.drop (r * 2^(n+1)))).1 (random_norm (LOGN := n+1) hρ _) pt
      (hpP.trans (pow_le_pow_right₀ (by norm_num) (by norm_num)))
    dsimp only
    rw [e1, pure_bind, e2, pure_bind, e3, pure_bind, e4, pure_bind]
    have he : ∀ k, |y k - (cround (y k) : ℝ)| ≤ 1/2 := fun k => by rw [abs_sub_comm]; exact cround_err _
    have hcR := fun i => negconv_abs (a := fun k => y k - (cround (y k) : ℝ)) (b := pt) (by norm_num) he i
    rw [hP] at hc hcR hpP
    have hsN : Real.sqrt ((2^(n+1) : ℕ) : ℝ) * Real.sqrt ((2^(n+1) : ℕ) : ℝ) = ((2^(n+1) : ℕ) : ℝ) := Real.mul_self_sqrt (Nat.cast_nonneg _)
    have hsN2 : Real.sqrt ((2^(n+1) : ℕ) : ℝ) ≤ 2^10 := by
      rw [Real.sqrt_le_left (by norm_num)]
      have : ((2^(n+1) : ℕ) : ℝ) ≤ 2^20 := by exact_mod_cast hN
      exact this.trans (by norm_num)
    have hR2 : Real.sqrt ((2^(n+1) : ℕ) : ℝ) * (1/2) * P ≤ 2^80 := by
      calc Real.sqrt ((2^(n+1) : ℕ) : ℝ) * (1/2) * P ≤ 2^10 * (1/2) * 2^66 :=
            mul_le_mul (mul_le_mul_of_nonneg_right hsN2 (by norm_num)) hpP hP0 (by norm_num)
        _ ≤ 2^80 := by norm_num
    have hR0 : 0 ≤ Real.sqrt ((2^(n+1) : ℕ) : ℝ) * (1/2) * P := by positivity
    have hκ := kappa_le hN
    have hκ0 : 0 ≤ (3.01 + 1.01 * ((2^(n+1) : ℕ) : ℝ)) * uF := mul_nonneg (by positivity) uF_pos.le
    have hη := etaF_pos.le
    have hNr : ((2^(n+1) : ℕ) : ℝ) ≤ 2^20 := by exact_mod_cast hN
    have hE2 : (3.01 + 1.01 * ((2^(n+1) : ℕ) : ℝ)) * (uF * (Real.sqrt ((2^(n+1) : ℕ) : ℝ) * (1/2) * P)) + 7 * ((2^(n+1) : ℕ) : ℝ) * etaF ≤ 2^81 := by
      rw [← mul_assoc]
      have a1 : (3.01 + 1.01 * ((2^(n+1) : ℕ) : ℝ)) * uF * (Real.sqrt ((2^(n+1) : ℕ) : ℝ) * (1/2) * P) ≤ 1/10^6 * 2^80 :=
        mul_le_mul hκ hR2 hR0 (by norm_num)
      have a2 : 7 * ((2^(n+1) : ℕ) : ℝ) * etaF ≤ 7 * 2^20 * 1 :=
        mul_le_mul (by linarith) (by linarith [etaF_le_uF, uF_le]) hη (by norm_num)
      calc _ ≤ 1/10^6 * 2^80 + 7 * 2^20 * 1 := add_le_add a1 a2
        _ ≤ (2:ℝ)^81 := by norm_num
    refine Ok.bind (square_near hN c _ (add_nonneg (mul_nonneg (by positivity) (mul_nonneg uF_pos.le hR0)) (mul_nonneg (by positivity) hη)) hR0 hc hcR
      (hE2.trans (pow_le_pow_right₀ (by norm_num) (by norm_num))) (hR2.trans (pow_le_pow_right₀ (by norm_num) (by norm_num)))) fun w hw =>
      Ok.pure ⟨⟨m, y, _, hm, hy, fun k => ⟨he k, cround (y k), by ring⟩, ?_⟩, RealRng.drop_drop _ _ _⟩
    refine hw.trans ?_
    have ca := conv_arith (N := ((2^(n+1) : ℕ) : ℝ)) (P := P) (u := uF) (w := 7 * ((2^(n+1) : ℕ) : ℝ) * etaF) hP0 uF_pos.le
      (by exact_mod_cast Nat.one_le_two_pow) rfl hsN rfl rfl
    have cb := tiny_sqrt hN (K := 7 * ((2^(n+1) : ℕ) : ℝ)) (by positivity) (by linarith)
    have e5 : (2:ℝ)^(n+1) * (1.1 * 2^(n+1) + 4) / 2^53 * P = ((2^(n+1) : ℕ) : ℝ) * (1.1 * ((2^(n+1) : ℕ) : ℝ) + 4) * uF * P := by
      rw [uF_eq]; push_cast; ring
    rw [e5]
    rw [← mul_assoc (3.01 + 1.01 * ((2^(n+1) : ℕ) : ℝ))]
    generalize (1:ℝ)/2^520 = X at *
    generalize (1:ℝ)/2^500 = Y at *
    linarith
  · refine hy0.trans (le_of_eq ?_)
    push_cast
    ring
  · have := hx
    push_cast at this
    exact this
  · obtain ⟨m, y, e, hm, hy, he, hx⟩ := hr r hrl
    refine ⟨m, y, e, hm, hy.trans (le_of_eq ?_), he, ?_⟩
    · push_cast
      ring
    · rw [hP]
      exact hx

theorem addF_ok {N : Nat} (a b : Fin N → ℝ) (h : ∀ i, |a i + b i| ≤ 2^1020) :
    Ok (SimpleF.add a b) fun c => ∀ i, |c i - (a i + b i)| ≤ uF * |a i + b i| + etaF := by
  unfold SimpleF.add
  refine Ok.mono (tabM_spec (P := fun i x => ∀ hi : i < N, |x - (a ⟨i, hi⟩ + b ⟨i, hi⟩)| ≤ uF * |a ⟨i, hi⟩ + b ⟨i, hi⟩| + etaF)
    fun i hi => ?_) fun c hc i => hc i i.isLt
  rw [rd_of_lt a hi, pure_bind, rd_of_lt b hi, pure_bind]
  exact Ok.mono (fl_near (h ⟨i, hi⟩)) fun r hr _ => hr

theorem addAcc_arith {r c p S v u η ε A R d D : ℝ} (hu : 0 ≤ u) (hη : 0 ≤ η) (hε : 0 ≤ ε) (hR : 0 ≤ R) (hd : 0 ≤ d) (hdD : d + 1 ≤ D)
    (hu2 : u ≤ 1/10^9) (hD : D ≤ 2^10) (hA : A = 1.001 * (ε + u * (D * R) + η)) (hp : |p - S| ≤ d * A) (hc : |c - v| ≤ ε)
    (hS : |S| ≤ d * R) (hv : |v| ≤ R) (hr : |r - (c + p)| ≤ u * |c + p| + η) : |r - (S + v)| ≤ (d + 1) * A := by
  have hA0 : 0 ≤ A := by rw [hA]; have : 0 ≤ u * (D * R) := mul_nonneg hu (mul_nonneg (by linarith) hR); linarith
  have k1 := abs_add_three (r - (c + p)) (c - v) (p - S)
  rw [show r - (c + p) + (c - v) + (p - S) = r - (S + v) by ring] at k1
  have k2 : |c + p| ≤ D * R + ε + d * A := by
    have a := abs_add_three (c - v) (p - S) (S + v)
    rw [show c - v + (p - S) + (S + v) = c + p by ring] at a
    have b := abs_add_le S v
    have e : (d + 1) * R ≤ D * R := mul_le_mul_of_nonneg_right hdD hR
    linarith
  have k3 := mul_le_mul_of_nonneg_left k2 hu
  have k4 : u * ε ≤ 1/10^9 * ε := mul_le_mul_of_nonneg_right hu2 hε
  have k5 : u * (d * A) ≤ 1/10^5 * A := by
    rw [← mul_assoc]
    refine mul_le_mul_of_nonneg_right ?_ hA0
    calc u * d ≤ 1/10^9 * 2^10 := mul_le_mul hu2 (by linarith) hd (by norm_num)
      _ ≤ 1/10^5 := by norm_num
  have k6 : 0 ≤ u * (D * R) := mul_nonneg hu (mul_nonneg (by linarith) hR)
  have k7 : u * (D * R + ε + d * A) = u * (D * R) + u * ε + u * (d * A) := by ring
  rw [k7] at k3
  have k8 : (d + 1) * A = d * A + A := by ring
  rw [k8]
  linarith

theorem convSum_arith {N P u κ sN A R w η D : ℝ} (hP : 0 ≤ P) (hu : 0 ≤ u) (hN : 1 ≤ N) (hD : 0 ≤ D)
    (hκ : κ = (3.01 + 1.01 * N) * u) (hs : sN * sN = N) (hR : R = sN * (1/2) * P) (hA : A = 1.001 * (κ * R + w + u * (D * R) + η)) :
    sN * (1.001 * (D * A) + κ * (D * R)) ≤ D * N * (1.1 * N + D + 4) * u * P + 1.001 * (sN * (1.001 * D * (w + η))) := by
  have h1 : sN * R = N * P / 2 := by rw [hR, ← hs]; ring
  have e : sN * (1.001 * (D * A) + κ * (D * R)) =
      (2.002001 * κ + 1.002001 * (u * D)) * D * (sN * R) + 1.001 * (sN * (1.001 * D * (w + η))) := by rw [hA]; ring
  rw [e, h1, hκ]
  have h2 : 0 ≤ D * (u * (N * P)) := by positivity
  have h3 : 0 ≤ N * (D * (u * (N * P))) := by positivity
  have h4 : 0 ≤ D * (D * (u * (N * P))) := by positivity
  have e1 : (2.002001 * ((3.01 + 1.01 * N) * u) + 1.002001 * (u * D)) * D * (N * P / 2) = 2.002001 * 3.01 / 2 * (D * (u * (N * P))) +
    2.002001 * 1.01 / 2 * (N * (D * (u * (N * P)))) + 1.002001 / 2 * (D * (D * (u * (N * P)))) := by ring
  have e2 : D * N * (1.1 * N + D + 4) * u * P = 4 * (D * (u * (N * P))) + 1.1 * (N * (D * (u * (N * P)))) + D * (D * (u * (N * P))) := by ring
  rw [e1, e2]
  linarith

set_option maxHeartbeats 800000 in
/-- C83: the same for `measure_conv_sum_error`, with the sum over `Diag` random messages. -/
theorem C83_conv_sum_error (hL : L.Accurate) {LOGN : Nat} (h1 : 2 ≤ LOGN) (h2 : LOGN ≤ 20) (Diag : Nat) (hD : Diag ≤ 2^10)
    (rounds : Nat) (ρ : RealRng) (hρ : ∀ i, |ρ i| ≤ 1) :
    Ok (measure_conv_sum_errorF L Diag LOGN rounds ρ) fun o => ∃ m0 y0 pt : Fin (2^LOGN) → ℝ,
      (∀ i : Fin (2^(LOGN-1)), slotOf m0 i = ⟨(set_test_message LOGN).1 i, (set_test_message LOGN).2 i⟩) ∧
      Real.sqrt (∑ k, (y0 k - 2^50 * m0 k)^2) ≤ (28 * LOGN - 10) / 8 ∧
      (∀ k, |pt k - y0 k| ≤ 1/2 ∧ ∃ a : Int, pt k = a) ∧
      |o.1 - Diag * 2^LOGN / 12 * ∑ k, pt k ^ 2| ≤
        (1.1 * 2^LOGN + 6) / 2^53 * (Diag * 2^LOGN / 12 * ∑ k, pt k ^ 2) + 1/2^900 ∧
      o.2.length = rounds ∧
      ∀ r (hr : r < o.2.length), ∃ m y e : Fin Diag → Fin (2^LOGN) → ℝ,
        (∀ d (i : Fin (2^(LOGN-1))), slotOf (m d) i =
          ⟨ρ (r * (Diag * 2^LOGN) + (d * 2^LOGN + i)), ρ (r * (Diag * 2^LOGN) + (d * 2^LOGN + (2^(LOGN-1) + i)))⟩) ∧
        (∀ d, Real.sqrt (∑ k, (y d k - 2^50 * m d k)^2) ≤ (42 * LOGN - 34) / 8) ∧
        (∀ d k, |e d k| ≤ 1/2 ∧ ∃ a : Int, y d k = a + e d k) ∧
        |Real.sqrt o.2[r] - Real.sqrt (∑ i, (∑ d, negconv (e d) pt i) ^ 2)| ≤
          Diag * 2^LOGN * (1.1 * 2^LOGN + Diag + 4) / 2^53 * Real.sqrt (∑ k, pt k ^ 2) + 1/2^500 := by
  obtain ⟨n, rfl⟩ : ∃ n, LOGN = n + 1 := ⟨LOGN - 1, by omega⟩
  have hN : 2^(n+1) ≤ 2^20 := Nat.pow_le_pow_right (by norm_num) (by omega)
  have hDN : Diag * 2^(n+1) < 2^31 := lt_of_le_of_lt (Nat.mul_le_mul hD hN) (by norm_num)
  unfold measure_conv_sum_errorF
  rw [shl1_eq (by norm_num), pure_bind]
  obtain ⟨z, m0, y0, ez, hm0, ept, hy0, hsz⟩ := test_ptF hL (n := n) (by omega) (by omega)
  rw [ez, pure_bind, ept, pure_bind]
  obtain ⟨pt, hpe⟩ : ∃ pt : Fin (2^(n+1)) → ℝ, pt = fun k => (cround (y0 k) : ℝ) := ⟨_, rfl⟩
  have hpt : ∀ k, |pt k - y0 k| ≤ 1/2 ∧ ∃ a : Int, pt k = a := fun k => by
    rw [hpe]
    exact ⟨cround_err _, _, rfl⟩
  have hpP : Real.sqrt (∑ k, pt k ^ 2) ≤ 2^66 := by rw [hpe]; exact hsz
  rw [← hpe]
  clear hpe ept hsz
  have hint : intM ((Diag : ℤ) * (2^(n+1) : Nat)) = pure ((Diag : ℤ) * (2^(n+1) : Nat)) := by
    have h0 : (0 : ℤ) ≤ (Diag : ℤ) * (2^(n+1) : Nat) := by positivity
    have h3 : (Diag : ℤ) * (2^(n+1) : Nat) < 2^31 := by exact_mod_cast hDN
    exact intM_ok (by linarith) (by linarith)
  rw [hint, pure_bind]
  have hcast : (((Diag : ℤ) * (2^(n+1) : Nat) : ℤ) : ℝ) = ((Diag * 2^(n+1) : ℕ) : ℝ) := by push_cast; ring
  rw [hcast]
  obtain ⟨q, s, x, eq, es, ex, hx⟩ := expectedF_ok hN (T := Diag * 2^(n+1)) hDN pt hpP
  rw [eq, pure_bind, es, pure_bind, ex, pure_bind]
  obtain ⟨P, hP⟩ : ∃ P, Real.sqrt (∑ k, pt k ^ 2) = P := ⟨_, rfl⟩
  have hP0 : 0 ≤ P := by rw [← hP]; exact Real.sqrt_nonneg _
  have hpP2 := hpP
  rw [hP] at hpP2
  have hsN : Real.sqrt ((2^(n+1) : ℕ) : ℝ) * Real.sqrt ((2^(n+1) : ℕ) : ℝ) = ((2^(n+1) : ℕ) : ℝ) := Real.mul_self_sqrt (Nat.cast_nonneg _)
  have hNr : ((2^(n+1) : ℕ) : ℝ) ≤ 2^20 := by exact_mod_cast hN
  have hsN2 : Real.sqrt ((2^(n+1) : ℕ) : ℝ) ≤ 2^10 := by
    rw [Real.sqrt_le_left (by norm_num)]
    exact hNr.trans (by norm_num)
  obtain ⟨R, hR⟩ : ∃ R, Real.sqrt ((2^(n+1) : ℕ) : ℝ) * (1/2) * P = R := ⟨_, rfl⟩
  have hR2 : R ≤ 2^80 := by
    rw [← hR]
    calc Real.sqrt ((2^(n+1) : ℕ) : ℝ) * (1/2) * P ≤ 2^10 * (1/2) * 2^66 :=
          mul_le_mul (mul_le_mul_of_nonneg_right hsN2 (by norm_num)) hpP2 hP0 (by norm_num)
      _ ≤ 2^80 := by norm_num
  have hR0 : 0 ≤ R := by rw [← hR]; positivity
  have hκ := kappa_le hN
  have hη := etaF_pos.le
  have hu := uF_pos.le
  have hu2 := uF_le
  have hη2 : etaF ≤ 1/10^9 := by linarith [etaF_le_uF]
  have hκ0 : 0 ≤ (3.01 + 1.01 * ((2^(n+1) : ℕ) : ℝ)) * uF := mul_nonneg (by positivity) hu
  obtain ⟨ε, hε⟩ : ∃ ε, (3.01 + 1.01 * ((2^(n+1) : ℕ) : ℝ)) * (uF * R) + 7 * ((2^(n+1) : ℕ) : ℝ) * etaF = ε := ⟨_, rfl⟩
  have hε0 : 0 ≤ ε := by rw [← hε]; positivity
  have hε2 : ε ≤ 2^81 := by
    rw [← hε, ← mul_assoc]
    have a1 : (3.01 + 1.01 * ((2^(n+1) : ℕ) : ℝ)) * uF * R ≤ 1/10^6 * 2^80 := mul_le_mul hκ hR2 hR0 (by norm_num)
    have a2 : 7 * ((2^(n+1) : ℕ) : ℝ) * etaF ≤ 7 * 2^20 * 1 := mul_le_mul (by linarith) (by linarith) hη (by norm_num)
    calc _ ≤ 1/10^6 * 2^80 + 7 * 2^20 * 1 := add_le_add a1 a2
      _ ≤ (2:ℝ)^81 := by norm_num
  have hDr : (Diag : ℝ) ≤ 2^10 := by exact_mod_cast hD
  have hD0 : (0:ℝ) ≤ Diag := Nat.cast_nonneg _
  obtain ⟨A, hA⟩ : ∃ A, A = 1.001 * (ε + uF * (Diag * R) + etaF) := ⟨_, rfl⟩
  have hDR : Diag * R ≤ 2^90 := by
    calc Diag * R ≤ 2^10 * 2^80 := mul_le_mul hDr hR2 hR0 (by norm_num)
      _ = 2^90 := by norm_num
  have hDR0 : 0 ≤ Diag * R := by positivity
  have huDR : uF * (Diag * R) ≤ 1 * 2^90 := mul_le_mul (by linarith) hDR hDR0 (by norm_num)
  have hA0 : 0 ≤ A := by rw [hA]; positivity
  have hA2 : A ≤ 2^92 := by rw [hA]; linarith
  have hDA : Diag * A ≤ 2^102 := by
    calc Diag * A ≤ 2^10 * 2^92 := mul_le_mul hDr hA2 hA0 (by norm_num)
      _ = 2^102 := by norm_num
  have big : (2:ℝ)^200 ≤ 2^1020 := pow_le_pow_right₀ (by norm_num) (by norm_num)
  refine Ok.bind (runRounds_spec (c := Diag * 2^(n+1)) (P := fun ρ' x => ∃ m y e : Fin Diag → Fin (2^(n+1)) → ℝ,
      (∀ d (i : Fin (2^n)), slotOf (m d) i = ⟨ρ' (d * 2^(n+1) + i), ρ' (d * 2^(n+1) + (2^n + i))⟩) ∧
      (∀ d, Real.sqrt (∑ k, (y d k - 2^50 * m d k)^2) ≤ (42 * n + 8) / 8) ∧
      (∀ d k, |e d k| ≤ 1/2 ∧ ∃ a : Int, y d k = a + e d k) ∧
      |Real.sqrt x - Real.sqrt (∑ i, (∑ d, negconv (e d) pt i) ^ 2)| ≤
        Diag * 2^(n+1) * (1.1 * 2^(n+1) + Diag + 4) / 2^53 * P + 1/2^500) fun r => ?_)
    fun l ⟨hl, hr⟩ => Ok.pure ⟨m0, y0, pt, hm0, ?_, hpt, ?_, hl, fun r hrl => ?_⟩
  · generalize hρ' : ρ.drop (r * (Diag * 2^(n+1))) = ρ'
    have hρ1 : ∀ i, |ρ' i| ≤ 1 := fun i => by rw [← hρ']; exact hρ _
    have hfin : ρ.drop (r * (Diag * 2^(n+1)) + Diag * 2^(n+1)) = ρ'.drop (Diag * 2^(n+1)) := by rw [← hρ', RealRng.drop_drop]
    rw [hfin]
    clear hfin hρ'
    unfold convSumRoundF
    refine Ok.bind (forUp_inv (P := fun d (p : (Fin (2^(n+1)) → ℝ) × RealRng) => p.2 = ρ'.drop (d * 2^(n+1)) ∧
      ∃ m y e : Nat → Fin (2^(n+1)) → ℝ,
        (∀ d' < d, ∀ i : Fin (2^n), slotOf (m d') i = ⟨ρ' (d' * 2^(n+1) + i), ρ' (d' * 2^(n+1) + (2^n + i))⟩) ∧
        (∀ d' < d, Real.sqrt (∑ k, (y d' k - 2^50 * m d' k)^2) ≤ (42 * n + 8) / 8) ∧
        (∀ d' < d, ∀ k, |e d' k| ≤ 1/2 ∧ ∃ a : Int, y d' k = a + e d' k) ∧
        ∀ i, |p.1 i - ∑ d' ∈ range d, negconv (e d') pt i| ≤ d * A) (Nat.zero_le Diag) ?_ ?_) ?_
    · refine ⟨?_, fun _ _ => 0, fun _ _ => 0, fun _ _ => 0, fun d' h => absurd h (Nat.not_lt_zero _),
        fun d' h => absurd h (Nat.not_lt_zero _), fun d' h => absurd h (Nat.not_lt_zero _), ?_⟩
      · funext j; simp [RealRng.drop]
      · intro i; simp
    · intro d p _ hd ⟨hp, m, y, e, hm, hy, he, hs⟩
      dsimp only
      rw [hp]
      obtain ⟨m', y', c, hm', hy', e1, e2, e3, e4, hc⟩ := conv_stepF hL (n := n) (by omega) (by omega)
        (set_random_message (n+1) (ρ'.drop (d * 2^(n+1)))).1 (random_norm (LOGN := n+1) hρ1 _) pt
        (hpP.trans (pow_le_pow_right₀ (by norm_num) (by norm_num)))
      have he' : ∀ k, |y' k - (cround (y' k) : ℝ)| ≤ 1/2 := fun k => by rw [abs_sub_comm]; exact cround_err _
      have hcR := fun i => negconv_abs (a := fun k => y' k - (cround (y' k) : ℝ)) (b := pt) (by norm_num) he' i
      rw [hP] at hc hcR
      rw [hR] at hc hcR
      rw [hε] at hc
      rw [e1, pure_bind, e2, pure_bind, e3, pure_bind, rotate_eq (by omega), pure_bind, e4, pure_bind]
      have hSd : ∀ i, |∑ d' ∈ range d, negconv (e d') pt i| ≤ d * R := fun i => by
        refine (abs_sum_le_sum_abs _ _).trans ((sum_le_sum (g := fun _ => R) fun d' hd' => ?_).trans (by simp))
        have := negconv_abs (b := pt) (by norm_num) (fun k => (he d' (mem_range.1 hd') k).1) i
        rw [hP, hR] at this
        exact this
      have hdD : (d:ℝ) + 1 ≤ Diag := by exact_mod_cast hd
      have hd0 : (0:ℝ) ≤ d := Nat.cast_nonneg _
      refine Ok.bind (addF_ok c p.1 fun i => ?_) fun w hw => Ok.pure ⟨?_, Function.update m d m', Function.update y d y',
          Function.update e d (fun k => y' k - (cround (y' k) : ℝ)), fun d' h => ?_, fun d' h => ?_, fun d' h => ?_, fun i => ?_⟩
      · refine le_trans ?_ big
        have a := abs_add_le (c i) (p.1 i)
        have a1 := abs_sub_abs_le_abs_sub (c i) (negconv (fun k => y' k - (cround (y' k) : ℝ)) pt i)
        have a2 := abs_sub_abs_le_abs_sub (p.1 i) (∑ d' ∈ range d, negconv (e d') pt i)
        have a3 := hc i
        have a4 := hcR i
        have a5 := hs i
        have a6 := hSd i
        have a7 : d * A ≤ Diag * A := mul_le_mul_of_nonneg_right (by linarith) hA0
        have a8 : d * R ≤ Diag * R := mul_le_mul_of_nonneg_right (by linarith) hR0
        linarith
      · show (ρ'.drop (d * 2^(n+1))).drop (2^(n+1)) = _
        rw [RealRng.drop_drop, add_mul, one_mul]
      · by_cases hdd : d' = d
        · subst hdd
          rw [Function.update_self]
          exact hm'
        · rw [Function.update_of_ne hdd]
          exact hm d' (by omega)
      · by_cases hdd : d' = d
        · subst hdd
          rw [Function.update_self, Function.update_self]
          exact hy'
        · rw [Function.update_of_ne hdd, Function.update_of_ne hdd]
          exact hy d' (by omega)
      · by_cases hdd : d' = d
        · subst hdd
          rw [Function.update_self, Function.update_self]
          exact fun k => ⟨he' k, cround (y' k), by ring⟩
        · rw [Function.update_of_ne hdd, Function.update_of_ne hdd]
          exact he d' (by omega)
      · rw [sum_range_succ, Function.update_self]
        have hcg : ∑ d' ∈ range d, negconv (Function.update e d (fun k => y' k - (cround (y' k) : ℝ)) d') pt i =
            ∑ d' ∈ range d, negconv (e d') pt i :=
          sum_congr rfl fun d' hd' => by rw [Function.update_of_ne (ne_of_lt (mem_range.1 hd'))]
        rw [hcg]
        push_cast
        exact addAcc_arith hu hη hε0 hR0 hd0 hdD hu2 hDr hA (hs i) (hc i) (hSd i) (hcR i) (hw i)
    · rintro ⟨s, ρ''⟩ ⟨hp, m, y, e, hm, hy, he, hs⟩
      have hSD : ∀ i, |∑ d' ∈ range Diag, negconv (e d') pt i| ≤ Diag * R := fun i => by
        refine (abs_sum_le_sum_abs _ _).trans ((sum_le_sum (g := fun _ => R) fun d' hd' => ?_).trans (by simp))
        have := negconv_abs (b := pt) (by norm_num) (fun k => (he d' (mem_range.1 hd') k).1) i
        rw [hP, hR] at this
        exact this
      refine Ok.bind (square_near hN s _ (by positivity) hDR0 hs hSD
        (hDA.trans (pow_le_pow_right₀ (by norm_num) (by norm_num))) (hDR.trans (pow_le_pow_right₀ (by norm_num) (by norm_num)))) fun w hw =>
        Ok.pure ⟨⟨fun d => m d, fun d => y d, fun d => e d, fun d => hm d d.isLt, fun d => hy d d.isLt, fun d => he d d.isLt, ?_⟩, hp⟩
      have hsum : ∀ i, ∑ d : Fin Diag, negconv (e d) pt i = ∑ d' ∈ range Diag, negconv (e d') pt i := fun i =>
        Fin.sum_univ_eq_sum_range (fun d' => negconv (e d') pt i) Diag
      simp only [hsum]
      refine hw.trans ?_
      have ca := convSum_arith (N := ((2^(n+1) : ℕ) : ℝ)) (P := P) (u := uF) (w := 7 * ((2^(n+1) : ℕ) : ℝ) * etaF) (η := etaF) (D := Diag)
        (A := A) (R := R) hP0 hu (by exact_mod_cast Nat.one_le_two_pow) hD0 rfl hsN hR.symm (by rw [hA, ← hε, ← mul_assoc])
      have cb := tiny_sqrt hN (K := 1.001 * Diag * (7 * ((2^(n+1) : ℕ) : ℝ) + 1)) (by positivity) (by
        calc 1.001 * Diag * (7 * ((2^(n+1) : ℕ) : ℝ) + 1) ≤ 1.001 * 2^10 * (7 * 2^20 + 1) :=
              mul_le_mul (mul_le_mul_of_nonneg_left hDr (by norm_num)) (by linarith) (by positivity) (by norm_num)
          _ ≤ 2^100 := by norm_num)
      have e5 : (Diag:ℝ) * 2^(n+1) * (1.1 * 2^(n+1) + Diag + 4) / 2^53 * P =
          Diag * ((2^(n+1) : ℕ) : ℝ) * (1.1 * ((2^(n+1) : ℕ) : ℝ) + Diag + 4) * uF * P := by
        rw [uF_eq]; push_cast; ring
      have e6 : (1.001 * (Diag:ℝ) * (7 * ((2^(n+1) : ℕ) : ℝ) * etaF + etaF)) = 1.001 * Diag * (7 * ((2^(n+1) : ℕ) : ℝ) + 1) * etaF := by ring
      rw [e6] at ca
      rw [e5]
      generalize (1:ℝ)/2^520 = X at *
      generalize (1:ℝ)/2^500 = Y at *
      linarith
  · refine hy0.trans (le_of_eq ?_)
    push_cast
    ring
  · have := hx
    push_cast at this
    exact this
  · obtain ⟨m, y, e, hm, hy, he, hx⟩ := hr r hrl
    refine ⟨m, y, e, hm, fun d => (hy d).trans (le_of_eq ?_), he, ?_⟩
    · push_cast
      ring
    · rw [hP]
      exact hx

/-- C83: at `LOGN = 16` the norm that a round of `measure_conv_error` measures is off by at most `10^-8` of the expected one. -/
theorem C83_sixteen (hL : L.Accurate) (rounds : Nat) (ρ : RealRng) (hρ : ∀ i, |ρ i| ≤ 1) :
    Ok (measure_conv_errorF L 16 rounds ρ) fun o => o.2.length = rounds ∧ ∃ m0 y0 pt : Fin (2^16) → ℝ,
      (∀ i : Fin (2^(16-1)), slotOf m0 i = ⟨(set_test_message 16).1 i, (set_test_message 16).2 i⟩) ∧
      Real.sqrt (∑ k, (y0 k - 2^50 * m0 k)^2) ≤ 55 ∧ (∀ k, |pt k - y0 k| ≤ 1/2 ∧ ∃ a : Int, pt k = a) ∧
      ∀ r (hr : r < o.2.length), ∃ m y e : Fin (2^16) → ℝ,
        (∀ i : Fin (2^(16-1)), slotOf m i = ⟨ρ (r * 2^16 + i), ρ (r * 2^16 + (2^(16-1) + i))⟩) ∧
        Real.sqrt (∑ k, (y k - 2^50 * m k)^2) ≤ 80 ∧ (∀ k, |e k| ≤ 1/2 ∧ ∃ a : Int, y k = a + e k) ∧
        |Real.sqrt o.2[r] - Real.sqrt (∑ i, negconv e pt i ^ 2)| ≤ Real.sqrt (2^16 / 12 * ∑ k, pt k ^ 2) / 10^8 + 1/2^500 := by
  refine Ok.mono (C83_conv_error hL (LOGN := 16) (by norm_num) (by norm_num) rounds ρ hρ) ?_
  rintro o ⟨m0, y0, pt, hm0, hy0, hpt, -, hl, h⟩
  refine ⟨hl, m0, y0, pt, hm0, hy0.trans (by norm_num), hpt, fun r hr => ?_⟩
  obtain ⟨m, y, e, hm, hy, he, hx⟩ := h r hr
  refine ⟨m, y, e, hm, hy.trans (by norm_num), he, hx.trans (add_le_add ?_ le_rfl)⟩
  rw [Real.sqrt_mul (by norm_num)]
  have h1 : (73:ℝ) ≤ Real.sqrt (2^16 / 12) := Real.le_sqrt_of_sq_le (by norm_num)
  have h2 := Real.sqrt_nonneg (∑ k, pt k ^ 2)
  have h3 := mul_le_mul_of_nonneg_right h1 h2
  generalize Real.sqrt (∑ k, pt k ^ 2) = P at *
  refine le_trans ?_ (div_le_div_of_nonneg_right h3 (by norm_num))
  have e1 : (2:ℝ)^16 * (1.1 * 2^16 + 4) / 2^53 * P ≤ 73/10^8 * P := mul_le_mul_of_nonneg_right (by norm_num) h2
  linarith

/-- The hypotheses hold for the parameters of section3.h at `LOGN = 15` and `LOGN = 16` and for 100 rounds, with a constant stream. -/
example (LOGN : Nat) (h : LOGN = 15 ∨ LOGN = 16) :
    (Ok (measure_conv_errorF exactLibm LOGN 100 fun _ => 1/2) fun o => o.2.length = 100) ∧
      Ok (measure_conv_sum_errorF exactLibm 16 LOGN 100 fun _ => 1/2) fun o => o.2.length = 100 :=
  ⟨Ok.mono (C83_conv_error exactLibm_accurate (by omega) (by omega) 100 _ fun _ => by norm_num [abs_le]) fun _ ⟨_, _, _, _, _, _, _, h, _⟩ => h,
   Ok.mono (C83_conv_sum_error exactLibm_accurate (by omega) (by omega) 16 (by norm_num) 100 _ fun _ => by norm_num [abs_le])
     fun _ ⟨_, _, _, _, _, _, _, h, _⟩ => h⟩

end EvalRound

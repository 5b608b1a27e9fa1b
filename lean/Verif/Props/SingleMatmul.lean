import Verif.Props.Section3
import Verif.Proofs.PtMvp

/-!
# C68: the error of one matrix-vector product on plaintexts
-/

namespace EvalRound
open Z_Q Finset MeasureTheory

section
variable {LOGQ n : Nat} [NeZero LOGQ]

theorem sum_shift_mod {H : Nat} (hH : 0 < H) (d : Nat) (f : Fin H → ℝ) :
    ∑ i : Fin H, f ⟨(i.val + d) % H, Nat.mod_lt _ hH⟩ = ∑ i, f i := by
  haveI : NeZero H := ⟨by omega⟩
  rw [← Equiv.sum_comp (Equiv.addRight (Fin.ofNat H d)) f]
  refine sum_congr rfl fun i _ => ?_
  congr 1
  apply Fin.ext
  show (i.val + d) % H = (i + Fin.ofNat H d).val
  rw [Fin.val_add, Fin.val_ofNat, Nat.add_mod_mod]

/-- the dense product on plaintexts, exactly -/
theorem ptMvp_exact (hQ : ConvLOGQ LOGQ) (hn1 : 1 ≤ n) (hn : n ≤ 16) {K : Nat} {pt : R_Q LOGQ (2^(n+1))} (hpt : R_Q.Canonical pt)
    (A : Fin K → CVec (n+1)) (Delta : W) {B : ℝ} (hB : ∀ k (i : Fin (2^n)), ‖(⟨(A k).1 i, (A k).2 i⟩ : ℂ)‖ ≤ B)
    (hw : B * Delta.toNat + 1/2 < 2^64) (hq : B * Delta.toNat + 1/2 < 2^(LOGQ-1)) :
    Ok (ptMvp (LOGN := n+1) pt A Delta) fun r => ∃ (m : Fin K → Fin (2^(n+1)) → ℝ) (v : Fin K → Fin (2^(n+1)) → Int),
      (∀ k (i : Fin (2^n)), slotOf (m k) i = ⟨(A k).1 i, (A k).2 i⟩) ∧ (∀ k j, |(v k j : ℝ) - m k j * Delta.toNat| ≤ 1/2) ∧
      Holds r (fun i => ∑ k : Fin K, slots n (v k) i *
        slots n (R_Q.sval pt) ⟨(i.val + k.val) % 2^n, Nat.mod_lt _ (Nat.two_pow_pos n)⟩) 0 := by
  have henc : ∀ k, ∃ (p : R_Q LOGQ (2^(n+1))) (m : Fin (2^(n+1)) → ℝ), encode LOGQ (LOGN := n+1) (A k) Delta = pure p ∧
      R_Q.Canonical p ∧ (∀ i : Fin (2^n), slotOf m i = ⟨(A k).1 i, (A k).2 i⟩) ∧
      ∀ j, |((R_Q.sval p j : ℤ) : ℝ) - m j * Delta.toNat| ≤ 1/2 := by
    intro k
    obtain ⟨p, e, m, hm, hp⟩ := C29_encode (LOGN := n+1) (by omega) (by omega) (A k) Delta B (hB k) hw hq
    exact ⟨p, m, e, fun j => (hp j).1, hm, fun j => (hp j).2⟩
  choose p m he hc hm hp using henc
  let term : Nat → Fin (2^n) → ℂ := fun k i => if h : k < K then slots n (R_Q.sval (p ⟨k, h⟩)) i *
        slots n (R_Q.sval pt) (shift (k : Int) i) else 0
  unfold ptMvp
  have key := forUp_inv (Nat.zero_le K) (P := fun k acc => Holds (LOGQ := LOGQ) (n := n) acc
      (fun i => ∑ t ∈ range k, term t i) 0)
      (s := R_Q.setzero) (body := fun k acc => do
        let a ← rd A k
        let pt_v ← encode LOGQ (LOGN := n+1) a Delta
        let pt_rot ← rotR pt R_Q.setzero k
        let pt_conv ← conv pt_v pt_rot
        pure (R_Q.add acc pt_conv)) ?_ ?_
  · refine Ok.mono key fun r hr => ⟨m, fun k => R_Q.sval (p k), hm, hp, ?_⟩
    have e : (fun i => ∑ t ∈ range K, term t i) = fun i => ∑ k : Fin K, slots n (R_Q.sval (p k)) i *
        slots n (R_Q.sval pt) ⟨(i.val + k.val) % 2^n, Nat.mod_lt _ (Nat.two_pow_pos n)⟩ := by
      funext i
      rw [← Fin.sum_univ_eq_sum_range (fun t => term t i)]
      refine sum_congr rfl fun k _ => ?_
      simp only [term]
      rw [dif_pos k.isLt]
      congr 1
    rw [← e]
    exact hr
  · simp only [range_zero, sum_empty]
    exact Holds.zero
  · intro k acc _ hk hacc
    rw [rd_of_lt A hk, pure_bind, he, pure_bind]
    obtain ⟨y, ey, hy, hyc⟩ := rotR_pow2 (k := n+1) (by omega) k hpt R_Q.setzero
    obtain ⟨c, ec, _, hcc⟩ := conv_spec (k := n+1) hQ (by omega) (by omega) (hc ⟨k, hk⟩) hy
    rw [ey, pure_bind, ec, pure_bind]
    obtain ⟨_, w, hwc, hws⟩ := hacc
    refine Ok.pure ⟨R_Q.canonical_add acc c, w + negconv (R_Q.sval (p ⟨k, hk⟩)) (autom (5^k) (R_Q.sval pt)), ?_, fun i => ?_⟩
    · rw [red_add, red_negconv, red_autom, ← hwc, ← cls_red_sval, ← cls_red_sval, ← hyc, ← hcc]
      exact R_Q.cls_add acc c
    · have h := slots_rot (R_Q.sval pt) (o := (k : Int)) (by omega) i
      rw [Int.toNat_natCast] at h
      beta_reduce
      rw [slots_add, slots_negconv, h, sum_range_succ]
      have e1 : term k i = slots n (R_Q.sval (p ⟨k, hk⟩)) i * slots n (R_Q.sval pt) (shift (k : Int) i) := by
        simp only [term]
        rw [dif_pos hk]
      rw [e1, add_sub_add_right_eq_sub]
      exact hws i

/-- an encoding of an integer polynomial divided by the scale is that polynomial -/
theorem encode_exact (hn1 : 1 ≤ n) (hn : n ≤ 26) {D : Nat} (hD : D < 64) {z : CVec (n+1)} {p : Fin (2^(n+1)) → Int}
    (hp : ∀ i : Fin (2^n), slotOf (fun k => (p k : ℝ) / 2^D) i = ⟨z.1 i, z.2 i⟩) {B : ℝ} (hB : ∀ k, |(p k : ℝ)| ≤ B)
    (hw : B + 1/2 < 2^64) (hq : B + 1/2 < 2^(LOGQ-1)) :
    Ok (encode LOGQ z (BitVec.ofNat 64 (2^D))) fun pt => R_Q.Canonical pt ∧ R_Q.sval pt = p := by
  have h2 : (2:ℝ)^D ≠ 0 := by positivity
  have hm : ∀ m : Fin (2^(n+1)) → ℝ, (∀ i : Fin (2^n), slotOf m i = ⟨z.1 i, z.2 i⟩) → m = fun k => (p k : ℝ) / 2^D :=
    fun m h => slotOf_inj fun i => (h i).trans (hp i).symm
  refine Ok.mono (encode_coeff (Q := LOGQ) hn1 hn hD (z := z) (B := B / 2^D) (fun m h k => ?_)
    (by rw [div_mul_cancel₀ _ h2]; exact hw) (by rw [div_mul_cancel₀ _ h2]; exact hq)) fun pt ⟨hc, m, hs, hpm⟩ => ⟨hc, ?_⟩
  · rw [hm m h, abs_div, abs_of_pos (a := (2:ℝ)^D) (by positivity)]
    exact div_le_div_of_nonneg_right (hB k) (by positivity)
  · funext k
    have h := hpm k
    rw [hm m hs] at h
    beta_reduce at h
    rw [div_mul_cancel₀ _ h2] at h
    have h3 : |((pt k).sval - p k : ℤ)| < 1 := by
      have : |(((pt k).sval - p k : ℤ) : ℝ)| < 1 := by push_cast; linarith
      exact_mod_cast this
    have := Int.abs_lt_one_iff.1 h3
    show (pt k).sval = p k
    omega

/-- the rounded test message -/
theorem rounded_message (hn1 : 1 ≤ n) (hn : n ≤ 26) {D : Nat} (hD : D < 64) :
    Ok (set_test_rounded_message (n+1) (BitVec.ofNat 64 (2^D))) fun z => ∃ p : Fin (2^(n+1)) → Int,
      (∀ i : Fin (2^n), slotOf (fun k => (p k : ℝ) / 2^D) i = ⟨z.1 i, z.2 i⟩) ∧ (∀ k, |(p k : ℝ)| ≤ 2^D + 1/2) ∧
      ∀ i : Fin (2^n), ‖(⟨z.1 i, z.2 i⟩ : ℂ) - ⟨(set_test_message (n+1)).1 i, (set_test_message (n+1)).2 i⟩‖ ≤ 2^n / 2^D := by
  unfold set_test_rounded_message
  obtain ⟨m, hm, _, e⟩ := simple_encode_spec (LOGN := n+1) (by omega) (by omega) (set_test_message (n+1)) D hD
  have hm' : ∀ i : Fin (2^n), slotOf m i = ⟨(set_test_message (n+1)).1 i, (set_test_message (n+1)).2 i⟩ := hm
  have hδ : (((BitVec.ofNat 64 (2^D)).toNat : ℕ) : ℝ) = 2^D := by
    rw [BitVec.toNat_ofNat, Nat.mod_eq_of_lt (Nat.pow_lt_pow_right (by norm_num) hD)]; push_cast; rfl
  rw [e, pure_bind]
  unfold Simple.decode
  rw [hδ]
  refine Ok.mono (C28_fft (LOGN := n+1) (by omega) (by omega) _) fun z hz => ⟨fun k => cround (m k * 2^D), fun i => (hz i).symm, ?_, ?_⟩
  · intro k
    have h1 := cround_err (m k * 2^D)
    have h2 : |m k| ≤ 1 := coeff_le_slots hn1 hn (fun i => by rw [hm' i]; exact test_message_norm (n+1) i) k
    have h3 : |m k * 2^D| ≤ 2^D := by
      rw [abs_mul, abs_of_pos (a := (2:ℝ)^D) (by positivity)]
      exact mul_le_of_le_one_left (by positivity) h2
    have h4 := abs_sub_abs_le_abs_sub ((cround (m k * 2^D) : ℤ) : ℝ) (m k * 2^D)
    linarith
  · intro i
    have hzi : (⟨z.1 i, z.2 i⟩ : ℂ) = _ := hz i
    rw [hzi, ← hm' i]
    refine (slotOf_sub_le (ε := 1 / 2 / 2^D) (fun k => ?_) i).trans (le_of_eq ?_)
    · have h2 : (2:ℝ)^D ≠ 0 := by positivity
      have h3 : (cround (m k * 2^D) : ℝ) / 2^D - m k = ((cround (m k * 2^D) : ℝ) - m k * 2^D) / 2^D := by
        rw [sub_div, mul_div_cancel_right₀ _ h2]
      rw [h3, abs_div, abs_of_pos (a := (2:ℝ)^D) (by positivity)]
      exact div_le_div_of_nonneg_right (cround_err _) (by positivity)
    · push_cast
      rw [pow_succ (2:ℝ) n]
      ring

end

theorem set_random_matrix_spec {LOGN : Nat} (K : Nat) (A0 : Fin K → CVec LOGN) (ρ : RealRng) :
    set_random_matrix K A0 ρ = (fun k : Fin K => (set_random_message LOGN (ρ.drop (k * 2^LOGN))).1, ρ.drop (K * 2^LOGN)) := by
  unfold set_random_matrix
  have h := forFin_inv (n := K) (s := (A0, ρ)) (f := fun k (p : (Fin K → CVec LOGN) × RealRng) =>
      let z := set_random_message LOGN p.2
      (Function.update p.1 k z.1, z.2))
    (P := fun j p => (∀ k : Fin K, k.val < j → p.1 k = (set_random_message LOGN (ρ.drop (k * 2^LOGN))).1) ∧ p.2 = ρ.drop (j * 2^LOGN))
    ⟨fun k h => absurd h (Nat.not_lt_zero _), by funext j; simp [RealRng.drop]⟩ (fun j p ⟨h1, h2⟩ => by
      refine ⟨fun k hk => ?_, ?_⟩
      · by_cases hkj : k = j
        · subst hkj
          show Function.update p.1 k _ k = _
          rw [Function.update_self, h2]
        · show Function.update p.1 j _ k = _
          rw [Function.update_of_ne hkj]
          refine h1 k ?_
          have : k.val ≠ j.val := fun h => hkj (Fin.ext h)
          omega
      · show (set_random_message LOGN p.2).2 = _
        rw [h2]
        show (ρ.drop (j * 2^LOGN)).drop (2^LOGN) = _
        rw [RealRng.drop_drop, add_mul, one_mul])
  exact Prod.ext (funext fun k => h.1 k k.isLt) h.2

/-- C68: the square of `expected` of `measure_single_matmul_error` times the square of the scale is the mean of the square sum of the
error when the rounding errors of the diagonals are independent and uniform on [-1/2, 1/2]. -/
theorem C68_mean {n K : Nat} (z : Fin (2^n) → ℂ) :
    ∫ e in Set.univ.pi fun _ : Fin K × Fin (2^(n+1)) => Set.Icc (-1/2 : ℝ) (1/2),
      ∑ i : Fin (2^n), ‖∑ d : Fin K, slotOf (fun j => e (d, j)) i * z ⟨(i + d) % 2^n, Nat.mod_lt _ (Nat.two_pow_pos n)⟩‖^2 =
        K * 2^(n+1) / 12 * ∑ i, ‖z i‖^2 := by
  show ∫ e in cube (Fin K × Fin (2^(n+1))), _ = _
  have h : ∀ (e : Fin K × Fin (2^(n+1)) → ℝ) (i : Fin (2^n)),
      ∑ d : Fin K, slotOf (fun j => e (d, j)) i * z ⟨(i + d) % 2^n, Nat.mod_lt _ (Nat.two_pow_pos n)⟩ =
      ∑ p : Fin K × Fin (2^(n+1)), (zeta (2^(n+1)) ^ (5^i.val * p.2.val) *
        z ⟨(i + p.1) % 2^n, Nat.mod_lt _ (Nat.two_pow_pos n)⟩) * (e p : ℂ) := by
    intro e i
    rw [Fintype.sum_prod_type]
    refine sum_congr rfl fun d _ => ?_
    rw [slotOf_zeta, sum_mul]
    exact sum_congr rfl fun j _ => by ring
  simp only [h]
  rw [integral_finsetSum _ fun i _ => cube_integrable (by fun_prop)]
  simp only [cube_linear_norm]
  rw [← mul_sum]
  have h2 : ∀ i : Fin (2^n), ∑ p : Fin K × Fin (2^(n+1)), ‖zeta (2^(n+1)) ^ (5^i.val * p.2.val) *
        z ⟨(i + p.1) % 2^n, Nat.mod_lt _ (Nat.two_pow_pos n)⟩‖^2 =
      ∑ d : Fin K, 2^(n+1) * ‖z ⟨(i + d) % 2^n, Nat.mod_lt _ (Nat.two_pow_pos n)⟩‖^2 := by
    intro i
    rw [Fintype.sum_prod_type]
    refine sum_congr rfl fun d _ => ?_
    simp only [norm_mul, norm_zeta_pow, one_mul]
    show ∑ _x : Fin (2^(n+1)), ‖z ⟨(i + d) % 2^n, Nat.mod_lt _ (Nat.two_pow_pos n)⟩‖^2 = _
    generalize ‖z ⟨(i + d) % 2^n, Nat.mod_lt _ (Nat.two_pow_pos n)⟩‖^2 = x
    simp
  simp only [h2]
  rw [sum_comm]
  have h3 : ∀ d : Fin K, ∑ i : Fin (2^n), 2^(n+1) * ‖z ⟨(i + d) % 2^n, Nat.mod_lt _ (Nat.two_pow_pos n)⟩‖^2 =
      2^(n+1) * ∑ i, ‖z i‖^2 := by
    intro d
    rw [← mul_sum, sum_shift_mod (Nat.two_pow_pos n) d fun i => ‖z i‖^2]
  simp only [h3]
  rw [sum_const, card_univ, Fintype.card_fin, nsmul_eq_mul]
  ring

/-- the worst case -/
theorem mvp_err_le {n K : Nat} {z : Fin (2^n) → ℂ} {s : Fin K → Fin (2^n) → ℂ} {c : ℝ} (hs : ∀ d i, ‖s d i‖ ≤ c) :
    ∑ i : Fin (2^n), ‖∑ d : Fin K, s d i * z ⟨(i + d) % 2^n, Nat.mod_lt _ (Nat.two_pow_pos n)⟩‖^2 ≤ (K * c)^2 * ∑ i, ‖z i‖^2 := by
  have h1 : ∀ i : Fin (2^n), ‖∑ d : Fin K, s d i * z ⟨(i + d) % 2^n, Nat.mod_lt _ (Nat.two_pow_pos n)⟩‖^2 ≤
      K * ∑ d : Fin K, c^2 * ‖z ⟨(i + d) % 2^n, Nat.mod_lt _ (Nat.two_pow_pos n)⟩‖^2 := by
    intro i
    have h2 : ‖∑ d : Fin K, s d i * z ⟨(i + d) % 2^n, Nat.mod_lt _ (Nat.two_pow_pos n)⟩‖ ≤
        ∑ d : Fin K, c * ‖z ⟨(i + d) % 2^n, Nat.mod_lt _ (Nat.two_pow_pos n)⟩‖ := by
      refine (norm_sum_le _ _).trans (sum_le_sum fun d _ => ?_)
      rw [norm_mul]
      exact mul_le_mul_of_nonneg_right (hs d i) (norm_nonneg _)
    refine (pow_le_pow_left₀ (norm_nonneg _) h2 2).trans ?_
    have h3 := sum_mul_sq_le_sq_mul_sq (univ : Finset (Fin K)) (fun _ => (1:ℝ))
      (fun d => c * ‖z ⟨(i + d) % 2^n, Nat.mod_lt _ (Nat.two_pow_pos n)⟩‖)
    simpa [mul_pow] using h3
  refine (sum_le_sum fun i _ => h1 i).trans (le_of_eq ?_)
  rw [← mul_sum, sum_comm]
  have h3 : ∀ d : Fin K, ∑ i : Fin (2^n), c^2 * ‖z ⟨(i + d) % 2^n, Nat.mod_lt _ (Nat.two_pow_pos n)⟩‖^2 =
      c^2 * ∑ i, ‖z i‖^2 := by
    intro d
    rw [← mul_sum, sum_shift_mod (Nat.two_pow_pos n) d fun i => ‖z i‖^2]
  simp only [h3]
  rw [sum_const, card_univ, Fintype.card_fin, nsmul_eq_mul]
  ring

/-- C68: `measure_single_matmul_error` returns for every sequence of random values in range. `z` is the rounded test message, a message
that encodes without error. It prints √(Diag·N/12)·‖z‖/Δ and in each round the norm of the error of the product, which comes from the
rounding errors `e` of the encoded diagonals alone and is at most Diag·N/2·‖z‖/Δ. -/
theorem C68_single_matmul {LOGQ n : Nat} [NeZero LOGQ] (hQ : ConvLOGQ LOGQ) (hQ29 : LOGQ ≤ 2^29) (hn1 : 1 ≤ n) (hn : n ≤ 16)
    {Diag LOGDELTA : Nat} (hD : LOGDELTA < 64) (hDq : LOGDELTA + 2 < LOGQ) (hK : Diag * 2^(n+1) < 2^31)
    (hq : Diag * (2^LOGDELTA + 2^n : ℝ)^2 < 2^(LOGQ-1)) (rounds : Nat) {ρ : RealRng} (hρ : ∀ j, |ρ j| ≤ 1 / Real.sqrt 2) :
    Ok (measure_single_matmul_error Diag LOGDELTA LOGQ (n+1) rounds ρ) fun o => ∃ z : Fin (2^n) → ℂ,
      (∃ p : Fin (2^(n+1)) → Int, ∀ i : Fin (2^n), slotOf (fun k => (p k : ℝ)) i = 2^LOGDELTA * z i) ∧
      (∀ i : Fin (2^n), ‖z i - ⟨(set_test_message (n+1)).1 i, (set_test_message (n+1)).2 i⟩‖ ≤ 2^n / 2^LOGDELTA) ∧
      o.1 = Real.sqrt (Diag * 2^(n+1) / 12) * Real.sqrt (∑ i, ‖z i‖^2) / 2^LOGDELTA ∧ o.2.length = rounds ∧
      ∀ r (hr : r < o.2.length), ∃ m e : Fin Diag → Fin (2^(n+1)) → ℝ,
        (∀ d (i : Fin (2^n)), slotOf (m d) i =
          ⟨ρ (r * (Diag * 2^(n+1)) + (d * 2^(n+1) + i)), ρ (r * (Diag * 2^(n+1)) + (d * 2^(n+1) + (2^n + i)))⟩) ∧
        (∀ d k, |e d k| ≤ 1/2 ∧ ∃ a : Int, 2^LOGDELTA * m d k = a + e d k) ∧
        o.2[r] = Real.sqrt (∑ i : Fin (2^n), ‖∑ d : Fin Diag, slotOf (e d) i *
          z ⟨(i + d) % 2^n, Nat.mod_lt _ (Nat.two_pow_pos n)⟩‖^2) / 2^LOGDELTA ∧
        o.2[r] ≤ Diag * 2^n * Real.sqrt (∑ i, ‖z i‖^2) / 2^LOGDELTA := by
  have hδ : (((BitVec.ofNat 64 (2^LOGDELTA)).toNat : ℕ) : ℝ) = 2^LOGDELTA := by
    rw [BitVec.toNat_ofNat, Nat.mod_eq_of_lt (Nat.pow_lt_pow_right (by norm_num) hD)]; push_cast; rfl
  have hδ' : ((BitVec.ofNat 64 (2^LOGDELTA)).toNat : ℕ) = 2^LOGDELTA := by
    rw [BitVec.toNat_ofNat, Nat.mod_eq_of_lt (Nat.pow_lt_pow_right (by norm_num) hD)]
  have hδ0 : (0:ℝ) < 2^LOGDELTA := by positivity
  have hδ1 : (1:ℝ) ≤ 2^LOGDELTA := one_le_pow₀ (by norm_num)
  have hw1 : (2:ℝ)^LOGDELTA + 1 < 2^64 := by
    have : (2:ℝ)^LOGDELTA ≤ 2^63 := pow_le_pow_right₀ (by norm_num) (by omega)
    refine lt_of_le_of_lt (add_le_add_left this 1) (by norm_num)
  have hq1 : (2:ℝ)^LOGDELTA + 1 < 2^(LOGQ-1) := by
    have : (2:ℝ)^(LOGDELTA + 2) ≤ 2^(LOGQ-1) := pow_le_pow_right₀ (by norm_num) (by omega)
    rw [pow_add (2:ℝ) LOGDELTA 2] at this
    linarith
  unfold measure_single_matmul_error
  rw [shl1_eq hD, pure_bind]
  obtain ⟨z, ez, p, hp, hpB, hzt⟩ := rounded_message (n := n) hn1 (by omega) hD
  obtain ⟨pt, ept, hpt, hsv⟩ := encode_exact (LOGQ := LOGQ) hn1 (by omega) hD hp hpB (by linarith) (by linarith)
  have hint : intM ((Diag : ℤ) * (2^(n+1) : Nat)) = pure ((Diag : ℤ) * (2^(n+1) : Nat)) := by
    have h0 : (0 : ℤ) ≤ (Diag : ℤ) * (2^(n+1) : Nat) := by positivity
    have h3 : (Diag : ℤ) * (2^(n+1) : Nat) < 2^31 := by exact_mod_cast hK
    exact intM_ok (by linarith) (by linarith)
  rw [ez, pure_bind, ept, pure_bind, hint, pure_bind]
  obtain ⟨zc, hzc⟩ : ∃ zc : Fin (2^n) → ℂ, ∀ i, zc i = ⟨z.1 i, z.2 i⟩ := ⟨_, fun _ => rfl⟩
  have hpz : ∀ i : Fin (2^n), slotOf (fun k => (p k : ℝ)) i = 2^LOGDELTA * zc i := by
    intro i
    rw [hzc, ← hp i]
    have := slotOf_smul (fun k => (p k : ℝ) / 2^LOGDELTA) (2^LOGDELTA) i
    simp only [div_mul_cancel₀ _ hδ0.ne'] at this
    rw [this]; push_cast; ring
  have hzB : ∀ i, ‖zc i‖ ≤ 1 + 2^n / 2^LOGDELTA := by
    intro i
    have h1 := hzt i
    rw [← hzc] at h1
    have h2 := test_message_norm (n+1) i
    have h3 := norm_sub_norm_le (zc i) ⟨(set_test_message (n+1)).1 i, (set_test_message (n+1)).2 i⟩
    linarith
  refine Ok.bind (runRounds_spec (c := Diag * 2^(n+1)) (P := fun ρ' x => ∃ m e : Fin Diag → Fin (2^(n+1)) → ℝ,
      (∀ d (i : Fin (2^n)), slotOf (m d) i = ⟨ρ' (d * 2^(n+1) + i), ρ' (d * 2^(n+1) + (2^n + i))⟩) ∧
      (∀ d k, |e d k| ≤ 1/2 ∧ ∃ a : Int, 2^LOGDELTA * m d k = a + e d k) ∧
      x = Real.sqrt (∑ i : Fin (2^n), ‖∑ d : Fin Diag, slotOf (e d) i *
          zc ⟨(i + d) % 2^n, Nat.mod_lt _ (Nat.two_pow_pos n)⟩‖^2) / 2^LOGDELTA) fun r => ?_)
    fun l ⟨hl, hr⟩ => Ok.pure ⟨zc, ⟨p, hpz⟩, fun i => by rw [hzc]; exact hzt i, ?_, hl, fun r hrl => ?_⟩
  · obtain ⟨ρ', hρ'⟩ : ∃ ρ', ρ' = ρ.drop (r * (Diag * 2^(n+1))) := ⟨_, rfl⟩
    have hfin : ρ.drop (r * (Diag * 2^(n+1)) + Diag * 2^(n+1)) = ρ'.drop (Diag * 2^(n+1)) := by rw [hρ', RealRng.drop_drop]
    have hρb : ∀ j, |ρ' j| ≤ 1 / Real.sqrt 2 := fun j => by rw [hρ']; exact hρ _
    rw [← hρ', hfin]
    clear hfin hρ'
    unfold singleMatmulRound
    rw [set_random_matrix_spec]
    obtain ⟨A, hA⟩ : ∃ A : Fin Diag → CVec (n+1), A = fun k : Fin Diag => (set_random_message (n+1) (ρ'.drop (k * 2^(n+1)))).1 := ⟨_, rfl⟩
    have hAB : ∀ k (i : Fin (2^n)), ‖(⟨(A k).1 i, (A k).2 i⟩ : ℂ)‖ ≤ 1 := fun k i => by
      rw [hA]; exact random_message_norm (n+1) (fun j => hρb _) i
    have hAv : ∀ k (i : Fin (2^n)), (⟨(A k).1 i, (A k).2 i⟩ : ℂ) = ⟨ρ' (k * 2^(n+1) + i), ρ' (k * 2^(n+1) + (2^n + i))⟩ := fun k i => by
      rw [hA]; rfl
    rw [← hA]
    dsimp only
    have h4 : 4 * Diag ≤ Diag * 2^(n+1) := by
      have : 2^2 ≤ 2^(n+1) := Nat.pow_le_pow_right (by norm_num) (by omega)
      rw [mul_comm]
      exact Nat.mul_le_mul_left _ this
    have hn16 : 2^n ≤ 2^16 := Nat.pow_le_pow_right (by norm_num) hn
    have hIM : INT_MAX = 2147483647 := by decide
    obtain ⟨Az, eA, hAz⟩ := C45_mvp (n := 2^n) (K := Diag) (by omega) z A
    have hA1 : (1:ℝ) * (BitVec.ofNat 64 (2^LOGDELTA)).toNat + 1/2 < 2^64 := by rw [hδ]; linarith
    have hA2 : (1:ℝ) * (BitVec.ofNat 64 (2^LOGDELTA)).toNat + 1/2 < 2^(LOGQ-1) := by rw [hδ]; linarith
    obtain ⟨r', er, m, v, hm, hv, hH⟩ := ptMvp_exact hQ hn1 hn hpt A (BitVec.ofNat 64 (2^LOGDELTA)) hAB hA1 hA2
    rw [hδ] at hv
    obtain ⟨e, hee⟩ : ∃ e : Fin Diag → Fin (2^(n+1)) → ℝ, e = fun d k => m d k * 2^LOGDELTA - v d k := ⟨_, rfl⟩
    have he1 : ∀ d k, |e d k| ≤ 1/2 := fun d k => by rw [hee, abs_sub_comm]; exact hv d k
    have hev : ∀ d (i : Fin (2^n)), slots n (v d) i = 2^LOGDELTA * ⟨(A d).1 i, (A d).2 i⟩ - slotOf (e d) i := by
      intro d i
      have h1 := slotOf_add (e d) (fun k => (v d k : ℝ)) i
      have h2 : (fun k => e d k + (v d k : ℝ)) = fun k => m d k * 2^LOGDELTA := by
        funext k; rw [hee]; ring
      rw [h2, slotOf_smul, hm] at h1
      push_cast at h1
      unfold slots
      rw [mul_comm, h1]
      ring
    have hsp : ∀ i, slots n (R_Q.sval pt) i = 2^LOGDELTA * zc i := by
      intro i
      rw [hsv]
      exact hpz i
    have hes : ∀ d (i : Fin (2^n)), ‖slotOf (e d) i‖ ≤ 2^n := by
      intro d i
      refine (norm_slotOf_le (he1 d) i).trans (le_of_eq ?_)
      push_cast
      rw [pow_succ (2:ℝ) n]
      ring
    have hsl : ∀ i, slots n (R_Q.sval r') i = ∑ k : Fin Diag, slots n (v k) i *
        slots n (R_Q.sval pt) ⟨(i.val + k.val) % 2^n, Nat.mod_lt _ (Nat.two_pow_pos n)⟩ := by
      intro i
      refine sub_eq_zero.1 (norm_le_zero_iff.1 (hH.sval hn1 hn (X := Diag * (2^LOGDELTA + 2^n)^2) (fun i => ?_) (by rw [add_zero]; exact hq) i))
      refine (norm_sum_le _ _).trans ((sum_le_sum (g := fun _ => ((2:ℝ)^LOGDELTA + 2^n)^2) fun d _ => ?_).trans (le_of_eq (by simp)))
      rw [norm_mul, pow_two]
      have hn2 : ‖(2:ℂ)^LOGDELTA‖ = 2^LOGDELTA := by rw [norm_pow]; norm_num
      refine mul_le_mul ?_ ?_ (norm_nonneg _) (by positivity)
      · rw [hev]
        refine (norm_sub_le _ _).trans (add_le_add ?_ (hes d i))
        rw [norm_mul, hn2]
        exact mul_le_of_le_one_right hδ0.le (hAB d i)
      · rw [hsp, norm_mul, hn2]
        refine (mul_le_mul_of_nonneg_left (hzB _) hδ0.le).trans (le_of_eq ?_)
        rw [mul_add, mul_one, mul_div_cancel₀ _ hδ0.ne']
    obtain ⟨Zt, eZ, hZt⟩ := decode_log_slot' (LOGN := n+1) (D := 2 * LOGDELTA) (by omega) (by omega) hQ29 (by omega) hH.1
    rw [eA, pure_bind, er, pure_bind, eZ, pure_bind]
    refine Ok.pure ⟨⟨m, e, fun d i => (hm d i).trans (hAv d i), fun d k => ⟨he1 d k, v d k, ?_⟩, ?_⟩, rfl⟩
    · rw [hee]; ring
    rw [C45_norm]
    have hterm : ∀ i : Fin (2^n), (⟨(Msg.sub Az Zt).1 i, (Msg.sub Az Zt).2 i⟩ : ℂ) =
        (∑ d : Fin Diag, slotOf (e d) i * zc ⟨(i + d) % 2^n, Nat.mod_lt _ (Nat.two_pow_pos n)⟩) / 2^LOGDELTA := by
      intro i
      have h1 : (⟨(Msg.sub Az Zt).1 i, (Msg.sub Az Zt).2 i⟩ : ℂ) = (⟨Az.1 i, Az.2 i⟩ : ℂ) - ⟨Zt.1 i, Zt.2 i⟩ := rfl
      have h2 : (⟨Zt.1 i, Zt.2 i⟩ : ℂ) = slots n (R_Q.sval r') i / 2^(2*LOGDELTA) := by
        refine (hZt i).trans ?_
        have h3 := slotOf_smul (fun k => ((r' k).sval : ℝ)) ((2^(2*LOGDELTA))⁻¹) i
        simp only [← div_eq_mul_inv] at h3
        rw [h3]
        push_cast
        rfl
      have hδc : (2:ℂ)^LOGDELTA ≠ 0 := pow_ne_zero _ two_ne_zero
      rw [h1, hAz i, h2, hsl, eq_div_iff hδc, sub_mul, sum_mul, two_mul LOGDELTA, pow_add (2:ℂ) LOGDELTA LOGDELTA]
      have h4 : ∀ x : ℂ, x / (2^LOGDELTA * 2^LOGDELTA) * 2^LOGDELTA = x / 2^LOGDELTA := by
        intro x; field_simp
      rw [h4, sum_div, ← sum_sub_distrib]
      refine sum_congr rfl fun d _ => ?_
      rw [hsp, hev, ← hzc]
      field_simp
      ring
    have hn2 : ‖(2:ℂ)^LOGDELTA‖ = 2^LOGDELTA := by rw [norm_pow]; norm_num
    have hsum : ∑ i : Fin (2^n), ‖(⟨(Msg.sub Az Zt).1 i, (Msg.sub Az Zt).2 i⟩ : ℂ)‖^2 =
        (∑ i : Fin (2^n), ‖∑ d : Fin Diag, slotOf (e d) i * zc ⟨(i + d) % 2^n, Nat.mod_lt _ (Nat.two_pow_pos n)⟩‖^2) *
          ((2^LOGDELTA)⁻¹)^2 := by
      rw [sum_mul]
      refine sum_congr rfl fun i _ => ?_
      rw [hterm, norm_div, hn2, div_eq_mul_inv, mul_pow]
    refine (congrArg Real.sqrt hsum).trans ?_
    rw [Real.sqrt_mul (sum_nonneg fun i _ => sq_nonneg _), Real.sqrt_sq (by positivity), ← div_eq_mul_inv]
  · rw [C45_norm, hδ]
    push_cast
    simp only [hzc]
    rfl
  · obtain ⟨m, e, hm, he, hx⟩ := hr r hrl
    refine ⟨m, e, hm, he, hx, ?_⟩
    rw [hx]
    refine div_le_div_of_nonneg_right ?_ hδ0.le
    rw [← Real.sqrt_sq (by positivity : (0:ℝ) ≤ Diag * 2^n), ← Real.sqrt_mul (by positivity)]
    refine Real.sqrt_le_sqrt ((mvp_err_le (c := 2^n) fun d i => ?_))
    refine (norm_slotOf_le (fun k => (he d k).1) i).trans (le_of_eq ?_)
    push_cast
    rw [pow_succ (2:ℝ) n]
    ring

/-- The hypotheses hold for the parameters of section3.h at `LOGN = 15` and `LOGN = 16`, for 100 rounds and the random value 1/2. -/
example (n : Nat) (hn : n = 14 ∨ n = 15) :
    Ok (measure_single_matmul_error 16 50 1450 (n+1) 100 fun _ => 1/2) fun o => ∃ z : Fin (2^n) → ℂ,
      ∀ r (hr : r < o.2.length), o.2[r] ≤ 16 * 2^n * Real.sqrt (∑ i, ‖z i‖^2) / 2^50 := by
  refine Ok.mono (C68_single_matmul (LOGQ := 1450) (Or.inr (by norm_num)) (by norm_num) (by omega) (by omega) (by norm_num)
    (by norm_num) (by rcases hn with rfl | rfl <;> norm_num) ?_ 100 fun _ => ?_) fun o ⟨z, _, _, _, _, h⟩ => ⟨z, fun r hr => ?_⟩
  · have h1449 : ((2:ℝ)^200)^7 ≤ 2^(1450-1) := by
      rw [← pow_mul]; exact pow_le_pow_right₀ (by norm_num) (by norm_num)
    refine lt_of_lt_of_le ?_ h1449
    refine lt_of_lt_of_le (?_ : _ < (2:ℝ)^200) (le_self_pow₀ (one_le_pow₀ (by norm_num)) (by norm_num))
    rcases hn with rfl | rfl <;> norm_num
  · rw [abs_of_pos (by norm_num), le_div_iff₀ (Real.sqrt_pos.2 (by norm_num))]
    have : Real.sqrt 2 ≤ 2 := Real.sqrt_le_iff.2 ⟨by norm_num, by norm_num⟩
    linarith
  · obtain ⟨_, _, _, _, _, h⟩ := h r hr
    exact_mod_cast h

end EvalRound

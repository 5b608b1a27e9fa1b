import Verif.Props.SerialMatmul

/-!
# C70: the tests of the transforms and of the matrix product that print messages
-/

namespace EvalRound
open Z_Q Finset SparseDiagonal

/-- C70: `ifft_test` prints the same array twice: the coefficients of the rounded test message, multiples of 2^-LOGDELTA. -/
theorem C70_ifft_test {LOGN LOGDELTA : Nat} (h1 : 2 ≤ LOGN) (h2 : LOGN ≤ 27) (hD : LOGDELTA < 64) (m0 m1 : Fin (2^LOGN) → ℝ) :
    Ok (ifft_test LOGDELTA LOGN m0 m1) fun o => o.1 = o.2 ∧ (∀ k, ∃ a : Int, o.2 k = a / 2^LOGDELTA) ∧
      ∀ i : Fin (2^(LOGN-1)), ‖slotOf o.2 i - ⟨(set_test_message LOGN).1 i, (set_test_message LOGN).2 i⟩‖ ≤ 2^(LOGN-1) / 2^LOGDELTA := by
  obtain ⟨n, rfl⟩ : ∃ n, LOGN = n + 1 := ⟨LOGN - 1, by omega⟩
  unfold ifft_test
  rw [shl1_eq hD, pure_bind]
  obtain ⟨z, ez, p, hp, _, hzt⟩ := rounded_message (n := n) (by omega) (by omega) hD
  obtain ⟨m, em, hm⟩ := C28_ifft_idft h1 h2 z (halfOf z.1) (halfOf z.2) (fun _ _ _ => rfl) (fun _ _ _ => rfl) m1 m0
  obtain ⟨m', em', hs, _⟩ := ifft_slot h1 h2 z m1
  have e : m = m' := pure_inj (em.symm.trans em')
  have e2 : m' = fun k => (p k : ℝ) / 2^LOGDELTA := slotOf_inj fun i => (hs i).trans (hp i).symm
  rw [ez, pure_bind, hm, pure_bind, em, pure_bind]
  refine Ok.pure ⟨rfl, fun k => ⟨p k, ?_⟩, fun i => ?_⟩
  · show m k = _
    rw [e, e2]
  · show ‖slotOf m i - _‖ ≤ _
    rw [e, hs i]
    exact hzt i

/-- C70: `run_test` prints the random message twice. -/
theorem C70_run_test {LOGN : Nat} (h1 : 2 ≤ LOGN) (h2 : LOGN ≤ 27) (m0 : Fin (2^LOGN) → ℝ) (ρ : RealRng) :
    run_test LOGN m0 ρ = pure ((set_random_message LOGN ρ).1, (set_random_message LOGN ρ).1) := by
  unfold run_test
  obtain ⟨m, em, _⟩ := ifft_slot h1 h2 (set_random_message LOGN ρ).1 m0
  have h := C28_fft_ifft h1 h2 (set_random_message LOGN ρ).1 m0
  rw [em, pure_bind] at h
  dsimp only
  rw [em, pure_bind, h, pure_bind]

theorem isEqual_self (a : ℝ) : isEqual a a = true := by
  unfold isEqual
  split
  · simp
  · rw [sub_self, zero_div]
    simp

/-- C70: the comparison of `element_test` accepts exactly a pair of zeros or a relative difference below 1/1000. -/
theorem C70_isEqual (a b : ℝ) : isEqual a b = true ↔ (a = 0 ∧ b = 0) ∨ (a ≠ 0 ∧ |b - a| < |a| / 1000) := by
  unfold isEqual
  split_ifs with h
  · subst h
    rw [decide_eq_true_eq]
    constructor
    · intro e; exact Or.inl ⟨rfl, e.symm⟩
    · rintro (⟨_, e⟩ | ⟨e, _⟩)
      · exact e.symm
      · exact absurd rfl e
  · rw [decide_eq_true_eq, ← abs_lt, abs_div, div_lt_iff₀ (abs_pos.2 h)]
    constructor
    · intro e; exact Or.inr ⟨h, by linarith⟩
    · rintro (⟨e, _⟩ | ⟨_, e⟩)
      · exact absurd e h
      · linarith

/-- C70: `element_test` prints nothing. -/
theorem C70_element_test {n : Nat} (hn1 : 2 ≤ n) (hn : n ≤ 26) (A0 : Fin n → Fac (n+1)) (Ar0 Ai0 : SparseDiagonal (2^n) (3*3)) :
    element_test (n+1) A0 Ar0 Ai0 = pure [] := by
  unfold element_test
  obtain ⟨U, eU, hU⟩ := set_test_U0_spec (n := n) (by omega) A0
  have h0 : 0 < n := by omega
  have h1 : 1 < n := by omega
  have hH : 2^n ≤ 2^30 := Nat.pow_le_pow_right (by norm_num) (by omega)
  rw [eU, pure_bind, rd_of_lt U h0, pure_bind, rd_of_lt U h1, pure_bind]
  generalize hB : U ⟨0, h0⟩ = B
  generalize hC : U ⟨1, h1⟩ = C
  have hAB := hU ⟨0, h0⟩
  have hAC := hU ⟨1, h1⟩
  rw [hB] at hAB
  rw [hC] at hAC
  obtain ⟨A, eA, hden, hAr, hAo, hA1, hA2, hA3, hA4⟩ := C31_MatMulC (N := 2^n) hH (Nat.one_le_two_pow) hAB.rng hAC.rng
    (fun s _ => congrFun hAB.off s) (fun s _ => congrFun hAC.off s) hAB.flag.1 hAB.flag.2 hAC.flag.1 hAC.flag.2 Ar0 Ai0
  have eA' : MatMulC (N := 2^(n+1-1)) B.1 B.2 C.1 C.2 Ar0 Ai0 = pure A := eA
  rw [eA', pure_bind]
  have hhalf : 2^(n+1) / 2 = 2^n := by rw [pow_succ]; omega
  have hrB2 : B.2.InRange := fun s => by rw [← hAB.off]; exact hAB.rng s
  have hrC2 : C.2.InRange := fun s => by rw [← hAC.off]; exact hAC.rng s
  have hrA2 : A.2.InRange := fun s => by rw [← hAo]; exact hAr s
  have key : Ok (forUp 0 (2^n) (fun i out => forUp 0 (2^n) (fun j out => do
    let sum ← forUp 0 (2^n) (fun k (s : ℝ × ℝ) => do
      let rik ← B.1.get_element i k
      let rkj ← C.1.get_element k j
      let iik ← B.2.get_element i k
      let ikj ← C.2.get_element k j
      pure (s.1 + rik * rkj - iik * ikj, s.2 + rik * ikj + iik * rkj)) (0, 0)
    let ar ← A.1.get_element i j
    let ai ← A.2.get_element i j
    pure (if !isEqual ar sum.1 || !isEqual ai sum.2 then out ++ [(i, j)] else out)) out) []) fun l => l = ([] : List (Nat × Nat)) := by
    refine forUp_inv (P := fun _ l => l = []) (Nat.zero_le _) rfl fun i out _ hi hout => ?_
    refine forUp_inv (P := fun _ l => l = []) (Nat.zero_le _) hout fun j out _ hj hout => ?_
    refine Ok.bind (forUp_inv (P := fun k (s : ℝ × ℝ) => (⟨s.1, s.2⟩ : ℂ) = ∑ t ∈ range k, if h : t < 2^n then
      denC (N := 2^n) B.1 B.2 ⟨i, hi⟩ ⟨t, h⟩ * denC (N := 2^n) C.1 C.2 ⟨t, h⟩ ⟨j, hj⟩ else 0) (Nat.zero_le _) ?_ ?_) ?_
    · rw [range_zero, sum_empty]; rfl
    · intro k s _ hk hs
      rw [C31_get (N := 2^n) hH hAB.rng hAB.own.1 ⟨i, hi⟩ ⟨k, hk⟩, pure_bind, C31_get (N := 2^n) hH hAC.rng hAC.own.1 ⟨k, hk⟩ ⟨j, hj⟩, pure_bind,
        C31_get (N := 2^n) hH hrB2 hAB.own.2 ⟨i, hi⟩ ⟨k, hk⟩, pure_bind, C31_get (N := 2^n) hH hrC2 hAC.own.2 ⟨k, hk⟩ ⟨j, hj⟩, pure_bind]
      refine Ok.pure ?_
      rw [sum_range_succ, ← hs, dif_pos hk]
      unfold denC
      apply Complex.ext
      · simp only [Complex.add_re, Complex.mul_re]; ring
      · simp only [Complex.add_im, Complex.mul_im]; ring
    · intro s hs
      have e1 : (⟨s.1, s.2⟩ : ℂ) = denC (N := 2^n) A.1 A.2 ⟨i, hi⟩ ⟨j, hj⟩ := by
        rw [hs, hden, Matrix.mul_apply, ← Fin.sum_univ_eq_sum_range (fun t => if h : t < 2^n then
          denC (N := 2^n) B.1 B.2 ⟨i, hi⟩ ⟨t, h⟩ * denC (N := 2^n) C.1 C.2 ⟨t, h⟩ ⟨j, hj⟩ else 0)]
        exact sum_congr rfl fun t _ => dif_pos t.isLt
      rw [C31_get (N := 2^n) hH hAr hA3 ⟨i, hi⟩ ⟨j, hj⟩, pure_bind, C31_get (N := 2^n) hH hrA2 hA4 ⟨i, hi⟩ ⟨j, hj⟩, pure_bind]
      have er : s.1 = den (N := 2^n) A.1 ⟨i, hi⟩ ⟨j, hj⟩ := congrArg Complex.re e1
      have ei : s.2 = den (N := 2^n) A.2 ⟨i, hi⟩ ⟨j, hj⟩ := congrArg Complex.im e1
      rw [er, ei, isEqual_self, isEqual_self]
      exact Ok.pure hout
  rw [hhalf]
  obtain ⟨l, el, hl⟩ := key
  rw [hl] at el
  exact el

/-- C70: `vector_test` prints the same message twice: the product of the second matrix with the first, times the random message. -/
theorem C70_vector_test {n : Nat} (hn1 : 2 ≤ n) (hn : n ≤ 26) (A0 : Fin n → Fac (n+1)) (Ar0 Ai0 : SparseDiagonal (2^n) (3*3)) (ρ : RealRng) :
    Ok (vector_test (n+1) A0 Ar0 Ai0 ρ) fun o => o.1 = o.2 ∧ ∃ U : Fin n → Fac (n+1), set_test_U0_matrix (n+1) A0 = pure U ∧
      ∀ i : Fin (2^n), (⟨o.2.1 i, o.2.2 i⟩ : ℂ) = (seqMat (mats (H := 2^n) U) 2).mulVec (fun i => ⟨ρ i, ρ (2^n + i)⟩) i := by
  unfold vector_test
  obtain ⟨U, eU, hU⟩ := set_test_U0_spec (n := n) (by omega) A0
  have h0 : 0 < n := by omega
  have h1 : 1 < n := by omega
  have hH : 2^n ≤ 2^30 := Nat.pow_le_pow_right (by norm_num) (by omega)
  rw [eU, pure_bind, rd_of_lt U h0, pure_bind, rd_of_lt U h1, pure_bind]
  have hsm : seqMat (mats (H := 2^n) U) 2 = denC (N := 2^n) (U ⟨1, h1⟩).1 (U ⟨1, h1⟩).2 * denC (N := 2^n) (U ⟨0, h0⟩).1 (U ⟨0, h0⟩).2 := by
    rw [seqMat, seqMat, seqMat, Matrix.mul_one, mats_lt _ h1, mats_lt _ h0]
  have hAB := hU ⟨0, h0⟩
  have hAC := hU ⟨1, h1⟩
  generalize U ⟨0, h0⟩ = B at *
  generalize U ⟨1, h1⟩ = C at *
  obtain ⟨A, eA, hden, hAr, hAo, hA1, hA2, hA3, hA4⟩ := C31_MatMulC (N := 2^n) hH (Nat.one_le_two_pow) hAC.rng hAB.rng
    (fun s _ => congrFun hAC.off s) (fun s _ => congrFun hAB.off s) hAC.flag.1 hAC.flag.2 hAB.flag.1 hAB.flag.2 Ar0 Ai0
  have eA' : MatMulC (N := 2^(n+1-1)) C.1 C.2 B.1 B.2 Ar0 Ai0 = pure A := eA
  rw [eA', pure_bind]
  dsimp only
  obtain ⟨z, hz⟩ : ∃ z : CVec (n+1), z = (set_random_message (n+1) ρ).1 := ⟨_, rfl⟩
  have hzc : toC (n := 2^n) z.1 z.2 = fun i : Fin (2^n) => (⟨ρ i, ρ (2^n + i)⟩ : ℂ) := by rw [hz]; rfl
  rw [← hz]
  obtain ⟨a, ea, ha⟩ := C31_mulVec_msg (H := 2^n) hH z.1 z.2 hAB.rng (fun s _ => congrFun hAB.off s) hAB.flag.1 hAB.flag.2
  obtain ⟨b, eb, hb⟩ := C31_mulVec_msg (H := 2^n) hH a.1 a.2 hAC.rng (fun s _ => congrFun hAC.off s) hAC.flag.1 hAC.flag.2
  obtain ⟨c, ec, hc⟩ := C31_mulVec_msg (H := 2^n) hH z.1 z.2 hAr (fun s _ => congrFun hAo s) hA1 hA2
  have ea' : mvpMsg (H := 2^(n+1-1)) z.1 z.2 B.1 B.2 = pure a := ea
  have eb' : mvpMsg (H := 2^(n+1-1)) a.1 a.2 C.1 C.2 = pure b := eb
  have ec' : mvpMsg (H := 2^(n+1-1)) z.1 z.2 A.1 A.2 = pure c := ec
  rw [ea', pure_bind, eb', pure_bind, ec', pure_bind]
  refine Ok.pure ⟨toC_inj ?_, U, rfl, fun i => ?_⟩
  · rw [hb, ha, hc, hden, Matrix.mulVec_mulVec]
  · rw [hsm, ← hden, ← hzc, ← hc]
    rfl

/-- C70: `set_test_matrix` writes sin(πki/(N/2))/√2 to the real part of slot `i` of row `k` and never touches the imaginary parts. -/
theorem C70_set_test_matrix {LOGN K : Nat} (h : K * 2^LOGN < 2^31) (A0 : Fin K → CVec LOGN) :
    Ok (set_test_matrix LOGN K A0) fun A => ∀ k, (A k).2 = (A0 k).2 ∧ ∀ i : Fin (2^(LOGN-1)), i.val < 2^LOGN / 2 →
      (A k).1 i = Real.sin (k * i / (2^LOGN / 2 : Nat) * Real.pi) / Real.sqrt 2 := by
  unfold set_test_matrix
  refine Ok.mono (forUp_inv (P := fun t (A : Fin K → CVec LOGN) => ∀ k, (A k).2 = (A0 k).2 ∧ (k.val < t → ∀ i : Fin (2^(LOGN-1)), i.val < 2^LOGN / 2 →
      (A k).1 i = Real.sin (k * i / (2^LOGN / 2 : Nat) * Real.pi) / Real.sqrt 2)) (Nat.zero_le K)
      (fun k => ⟨rfl, fun h => absurd h (Nat.not_lt_zero _)⟩) ?_) fun A hA k => ⟨(hA k).1, (hA k).2 k.isLt⟩
  intro t A _ ht hA
  rw [rd_of_lt A ht, pure_bind]
  have hle : 2^LOGN / 2 ≤ 2^(LOGN-1) := by
    rcases LOGN with _ | n
    · exact Nat.zero_le _
    · show 2^(n+1) / 2 ≤ 2^n
      rw [pow_succ]; omega
  refine Ok.bind (forUp_inv (P := fun j (a : CVec LOGN) => a.2 = (A0 ⟨t, ht⟩).2 ∧ ∀ i : Fin (2^(LOGN-1)), i.val < j →
    a.1 i = Real.sin (t * i / (2^LOGN / 2 : Nat) * Real.pi) / Real.sqrt 2) (Nat.zero_le _)
    ⟨(hA _).1, fun i h => absurd h (Nat.not_lt_zero _)⟩ ?_) ?_
  · intro j a _ hj ⟨h1, h2⟩
    have hj' : j < 2^(LOGN-1) := by omega
    have hint : intM ((t : ℤ) * j) = pure ((t : ℤ) * j) := by
      have h3 : t * j ≤ K * 2^LOGN := Nat.mul_le_mul ht.le (by omega)
      have h4 : (t : ℤ) * j < 2^31 := by exact_mod_cast lt_of_le_of_lt h3 h
      have h0 : (0 : ℤ) ≤ (t : ℤ) * j := by positivity
      exact intM_ok (by linarith) (by linarith)
    rw [hint, pure_bind]
    dsimp only
    rw [wr_of_lt _ hj', pure_bind, wr_of_lt _ hj', pure_bind]
    refine Ok.pure ⟨h1, fun i hi => ?_⟩
    show Function.update (Function.update a.1 _ _) _ _ i = _
    by_cases hij : i = ⟨j, hj'⟩
    · subst hij
      rw [Function.update_self]
      push_cast
      rfl
    · rw [Function.update_of_ne hij, Function.update_of_ne hij]
      have : i.val ≠ j := fun h => hij (Fin.ext h)
      exact h2 i (by omega)
  · intro a ⟨h1, h2⟩
    rw [wr_of_lt _ ht]
    refine Ok.pure fun k => ?_
    by_cases hkt : k = ⟨t, ht⟩
    · subst hkt
      rw [Function.update_self]
      exact ⟨h1, fun _ => h2⟩
    · rw [Function.update_of_ne hkt]
      have : k.val ≠ t := fun h => hkt (Fin.ext h)
      exact ⟨(hA k).1, fun hk => (hA k).2 (by omega)⟩

/-- The hypotheses hold for the parameters of test.h, and for 16 rows of the messages of section3.h. -/
example (m0 m1 : Fin (2^9) → ℝ) (ρ : RealRng) (A0 : Fin 8 → Fac 9) (Ar0 Ai0 : SparseDiagonal (2^8) (3*3)) (B0 : Fin 16 → CVec 16) :
    (Ok (ifft_test 50 9 m0 m1) fun o => o.1 = o.2) ∧ run_test 9 m0 ρ = pure ((set_random_message 9 ρ).1, (set_random_message 9 ρ).1) ∧
      element_test 9 A0 Ar0 Ai0 = pure [] ∧ (Ok (vector_test 9 A0 Ar0 Ai0 ρ) fun o => o.1 = o.2) ∧
      Ok (set_test_matrix 16 16 B0) fun A => ∀ k, (A k).2 = (B0 k).2 :=
  ⟨Ok.mono (C70_ifft_test (by norm_num) (by norm_num) (by norm_num) m0 m1) fun _ h => h.1,
   C70_run_test (by norm_num) (by norm_num) m0 ρ, C70_element_test (n := 8) (by norm_num) (by norm_num) A0 Ar0 Ai0,
   Ok.mono (C70_vector_test (n := 8) (by norm_num) (by norm_num) A0 Ar0 Ai0 ρ) fun _ h => h.1,
   Ok.mono (C70_set_test_matrix (by norm_num) B0) fun _ h k => (h k).1⟩

end EvalRound

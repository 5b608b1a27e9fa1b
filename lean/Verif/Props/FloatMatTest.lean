import Verif.Proofs.FloatMatTest
import Verif.Props.FloatLtTest
import Verif.Props.FloatMessage
import Verif.Props.DftTest
import Verif.Proofs.FloatSerial

/-!
# C96: the tests of the matrix product in binary64
-/

namespace EvalRound
open Z_Q Finset SparseDiagonal

variable {n : Nat}

/-- two numbers are linked by a butterfly matrix with stride `M` only if they agree outside one bit -/
theorem bfly_supp {H M : Nat} (hM : 0 < M) {ω : Nat → ℂ} {p q : Fin H} (h : bfly H M ω p q ≠ 0) :
    q.val / (2*M) = p.val / (2*M) ∧ q.val % M = p.val % M := by
  obtain ⟨b, c, i, e, hc, hi⟩ := exists_blk hM p.val
  have e1 : lo M p.val = 2*M*b + i := by rw [e, lo_blk hi hc]
  have hp := blk (b := b) hi hc
  rw [← e] at hp
  unfold bfly at h
  split at h
  · rename_i h1
    have hq := blk (b := b) (c := 0) hi (by norm_num)
    rw [h1, e1]
    simp only [zero_mul, add_zero] at hq
    exact ⟨hq.1.trans hp.1.symm, hq.2.2.1.trans hp.2.2.1.symm⟩
  · split at h
    · rename_i h1
      have hq := blk (b := b) (c := 1) hi (by norm_num)
      have e2 : lo M p.val + M = 2*M*b + 1*M + i := by rw [e1]; ring
      rw [h1, e2]
      exact ⟨hq.1.trans hp.1.symm, hq.2.2.1.trans hp.2.2.1.symm⟩
    · exact absurd rfl h

theorem set_test_U0F_supp {L : Libm} (hL : L.Accurate) (hn : n ≤ 26) (A0 : Fin n → Fac (n+1)) :
    Ok (set_test_U0_matrixF L (n+1) A0) fun U => NearFactors (H := 2^n) U (adjR n) ∧ ∀ (d : Fin n) (p q : Fin (2^n)),
      denC (N := 2^n) (U d).1 (U d).2 p q ≠ 0 → p.val / (2*2^(n-1-d)) = q.val / (2*2^(n-1-d)) ∧ p.val % 2^(n-1-d) = q.val % 2^(n-1-d) := by
  unfold set_test_U0_matrixF
  refine Ok.bind (splitU0NRF_spec hL hn _) fun U hU => ?_
  refine Ok.mono (tabM_spec (P := fun d A => (SDProd (H := 2^n) A ∧ RowNearC (denC (N := 2^n) A.1 A.2) (adjR n d) (24 * uF)) ∧
    ∀ p q : Fin (2^n), denC (N := 2^n) A.1 A.2 p q ≠ 0 → p.val / (2*2^(n-1-d)) = q.val / (2*2^(n-1-d)) ∧ p.val % 2^(n-1-d) = q.val % 2^(n-1-d))
    fun d hd => ?_) fun V hV => ⟨⟨fun d => (hV d).1.1, fun d => (hV d).1.2.mono (by have := uF_pos; linarith), fun d _ p => adjR_row d p,
      fun d t h p q => adjR_entry h p q⟩, fun d => (hV d).2⟩
  rw [rd_of_lt U hd, pure_bind]
  obtain ⟨B, eB, h1⟩ := adjFactorF_prod (by omega) hd (hU ⟨d, hd⟩)
  obtain ⟨B', eB', h2⟩ := adjFactorF_spec (by omega) hd (hU ⟨d, hd⟩)
  have hB : B' = B := pure_inj (eB'.symm.trans eB)
  subst hB
  refine ⟨B', eB, h1, fun p q hpq => ?_⟩
  obtain ⟨ω, -, hden⟩ := h2.den
  have hden' : denC (N := 2^n) B'.1 B'.2 = _ := hden
  rw [hden', Matrix.conjTranspose_apply] at hpq
  have hq : bfly (2^n) (2^(n-1-d)) ω q p ≠ 0 := fun e => hpq ((congrArg star e).trans (star_zero ℂ))
  exact bfly_supp (Nat.two_pow_pos _) hq

/-- a first and a second factor never meet in two indices -/
theorem U0F_link {U : Fin n → Fac (n+1)} (hn : 2 ≤ n)
    (h : ∀ (d : Fin n) (p q : Fin (2^n)), denC (N := 2^n) (U d).1 (U d).2 p q ≠ 0 →
      p.val / (2*2^(n-1-d)) = q.val / (2*2^(n-1-d)) ∧ p.val % 2^(n-1-d) = q.val % 2^(n-1-d)) :
    OneLink (N := 2^n) (U ⟨0, by omega⟩) (U ⟨1, by omega⟩) := by
  intro i j l l' a1 b1 a2 b2
  have k1 := (h _ _ _ a1).2
  have k2 := (h _ _ _ b1).1
  have k3 := (h _ _ _ a2).2
  have k4 := (h _ _ _ b2).1
  simp only [Nat.sub_zero] at k1 k3
  have e : 2 * 2^(n-1-1) = 2^(n-1) := by rw [← pow_succ']; congr 1; omega
  simp only [e] at k2 k4
  apply Fin.ext
  have h1 : l.val / 2^(n-1) = l'.val / 2^(n-1) := k2.trans k4.symm
  have h2 : l.val % 2^(n-1) = l'.val % 2^(n-1) := k1.symm.trans k3
  rw [← Nat.div_add_mod l.val (2^(n-1)), ← Nat.div_add_mod l'.val (2^(n-1)), h1, h2]

theorem isEqualF_self (a : ℝ) : isEqualF a a = pure true := by
  unfold isEqualF
  split
  · simp
  · rename_i h
    have h0 : 0 < rnd (1/1000) := by
      have h1 := rnd_err (1/1000)
      have h2 : (1:ℝ)/2^1075 ≤ 1/2^20 := one_div_le_one_div_of_le (by positivity) (pow_le_pow_right₀ (by norm_num) (by norm_num))
      have h3 : (1:ℝ)/2^20 ≤ 1/10^6 := by norm_num
      have h4 : (1:ℝ)/2^53 * |1/1000| ≤ 1/10^6 := by rw [abs_of_pos (by norm_num)]; norm_num
      have := abs_le.1 h1
      have h5 : (1:ℝ)/1000 = 1000/10^6 := by norm_num
      have h6 : (0:ℝ) < 1000/10^6 - 2/10^6 := by norm_num
      linarith [this.1]
    rw [sub_self, fl_zero, pure_bind, divF, if_neg h, zero_div, fl_zero, pure_bind,
      decide_eq_true (p := -rnd (1/1000) < 0 ∧ 0 < rnd (1/1000)) ⟨neg_lt_zero.2 h0, h0⟩]

/-- the accumulation of one product of complex numbers in `element_test` -/
theorem accOne_two {c sg x y x' y' : ℝ} (hs : |sg| = 1) (hc : Cell c) (hx : |x * y| ≤ 1.01) (hx' : |x' * y'| ≤ 1.01)
    (h : c = 0 ∨ (x * y = 0 ∧ x' * y' = 0)) :
    (accOneF c 1 x y >>= fun s => accOneF s sg x' y') = pure (c + g2 sg x y x' y') ∧ Cell (c + g2 sg x y x' y') := by
  obtain ⟨h1, h2⟩ := acc_two hs hc hx hx' h
  refine ⟨?_, h2⟩
  have a1 := rnd_small hx (by norm_num)
  have a2 := rnd_small hx' (by norm_num)
  have a3 : |c + 1 * rnd (x * y)| ≤ 5 := by
    refine (abs_add_le _ _).trans ?_
    rw [one_mul]
    have := hc.2
    linarith
  have a4 := rnd_small a3 (by norm_num)
  unfold accOneF
  rw [(fl_small (hx.trans (by norm_num))).1, pure_bind, (fl_small (a3.trans (by norm_num))).1, pure_bind,
    (fl_small (hx'.trans (by norm_num))).1, pure_bind, (fl_small ?_).1, h1]
  refine (abs_add_le _ _).trans ?_
  rw [abs_mul sg, hs]
  linarith

/-- C96: in binary64, too, `element_test` prints nothing: every element of the product has a single term, and the matrix product and the
check round it alike. -/
theorem C96_element_test {L : Libm} (hL : L.Accurate) (hn1 : 2 ≤ n) (hn : n ≤ 26) (A0 : Fin n → Fac (n+1)) (Ar0 Ai0 : SparseDiagonal (2^n) (3*3)) :
    element_testF L (n+1) A0 Ar0 Ai0 = pure [] := by
  unfold element_testF
  obtain ⟨U, eU, hU, hsupp⟩ := set_test_U0F_supp hL hn A0
  have h0 : 0 < n := by omega
  have h1 : 1 < n := by omega
  have hH : 2^n ≤ 2^30 := Nat.pow_le_pow_right (by norm_num) (by omega)
  have hu := uF_pos
  have hu2 := uF_le
  rw [eU, pure_bind, rd_of_lt U h0, pure_bind, rd_of_lt U h1, pure_bind]
  have hlink := U0F_link hn1 hsupp
  have hAB := hU.prod ⟨0, h0⟩
  have hAC := hU.prod ⟨1, h1⟩
  have eB : ∀ i l, ‖denC (N := 2^n) (U ⟨0, h0⟩).1 (U ⟨0, h0⟩).2 i l‖ ≤ 1.001 := fun i l =>
    ((hU.near ⟨0, h0⟩).entry_le (hU.ent1 h0) i l).trans (by linarith)
  have eC : ∀ i l, ‖denC (N := 2^n) (U ⟨1, h1⟩).1 (U ⟨1, h1⟩).2 i l‖ ≤ 1.001 := fun i l =>
    ((hU.near ⟨1, h1⟩).entry_le (hU.ent1 h1) i l).trans (by linarith)
  have rB : ∀ i, ∑ l, ‖denC (N := 2^n) (U ⟨0, h0⟩).1 (U ⟨0, h0⟩).2 i l‖ ≤ 2.001 := fun i =>
    ((hU.near ⟨0, h0⟩).row_le (hU.row _ h0) i).trans (by linarith)
  generalize U ⟨0, h0⟩ = B at *
  generalize U ⟨1, h1⟩ = C at *
  have vB : ∀ s i, |B.1.vec s i| ≤ 1.001 ∧ |B.2.vec s i| ≤ 1.001 := fun s i =>
    have h := (SDProd.entry (H := 2^n) hAB s i).trans (eB _ _)
    ⟨(Complex.abs_re_le_norm _).trans h, (Complex.abs_im_le_norm _).trans h⟩
  have vC : ∀ s i, |C.1.vec s i| ≤ 1.001 ∧ |C.2.vec s i| ≤ 1.001 := fun s i =>
    have h := (SDProd.entry (H := 2^n) hAC s i).trans (eC _ _)
    ⟨(Complex.abs_re_le_norm _).trans h, (Complex.abs_im_le_norm _).trans h⟩
  obtain ⟨A, eA, hAp, -⟩ := MatMulCF_spec (N := 2^n) hH Nat.one_le_two_pow hAB hAC (by norm_num) eB rB eC Ar0 Ai0
  obtain ⟨A', eA2, d1, d2⟩ := MatMulCF_one (N := 2^n) hH hAB hAC (hlink.pair hAB hAC) vB vC Ar0 Ai0
  have hAA : A' = A := pure_inj (eA2.symm.trans eA)
  subst hAA
  have eA' : MatMulCF (N := 2^(n+1-1)) B.1 B.2 C.1 C.2 Ar0 Ai0 = pure A' := eA
  rw [eA', pure_bind]
  have hhalf : 2^(n+1) / 2 = 2^n := by rw [pow_succ]; omega
  have hr2 : ∀ {S : Nat} {X : SD2 (2^n) S}, SDProd X → X.2.InRange := fun h s => by rw [← h.offEq]; exact h.rng s
  -- the sums
  have swap : SDProd (H := 2^n) (C.2, C.1) :=
    ⟨⟨hr2 hAC, fun s _ => congrFun hAC.offEq.symm s, hAC.flag.2, hAC.flag.1⟩, hAC.offEq.symm, hAC.own.2, hAC.own.1⟩
  have er : ∀ i j, den (N := 2^n) A'.1 i j = ∑ l, g2 (-1) (B.1.den i l) (C.1.den l j) (B.2.den i l) (C.2.den l j) := fun i j => by
    rw [d1]; exact tG_sum (N := 2^n) hAB hAC (-1) i j
  have ei : ∀ i j, den (N := 2^n) A'.2 i j = ∑ l, g2 1 (B.1.den i l) (C.2.den l j) (B.2.den i l) (C.1.den l j) := fun i j => by
    rw [d2]; exact tG_sum (N := 2^n) hAB swap 1 i j
  have key : Ok (forUp 0 (2^n) (fun i out => forUp 0 (2^n) (fun j out => do
    let sum ← forUp 0 (2^n) (fun k (s : ℝ × ℝ) => do
      let rik ← B.1.get_element i k
      let rkj ← C.1.get_element k j
      let iik ← B.2.get_element i k
      let ikj ← C.2.get_element k j
      let sumr ← accOneF s.1 1 rik rkj
      let sumr ← accOneF sumr (-1) iik ikj
      let sumi ← accOneF s.2 1 rik ikj
      let sumi ← accOneF sumi 1 iik rkj
      pure (sumr, sumi)) (0, 0)
    let ar ← A'.1.get_element i j
    let ai ← A'.2.get_element i j
    let er ← isEqualF ar sum.1
    let ei ← if er then isEqualF ai sum.2 else pure true
    pure (if !er || !ei then out ++ [(i, j)] else out)) out) []) fun l => l = ([] : List (Nat × Nat)) := by
    refine forUp_inv (P := fun _ l => l = []) (Nat.zero_le _) rfl fun i out _ hi hout => ?_
    refine forUp_inv (P := fun _ l => l = []) (Nat.zero_le _) hout fun j out _ hj hout => ?_
    have cell0 : Cell 0 := ⟨binary64_zero, by norm_num⟩
    refine Ok.bind (forUp_inv (P := fun k (s : ℝ × ℝ) => Cell s.1 ∧ Cell s.2 ∧
      s.1 = (∑ t ∈ range k, if h : t < 2^n then
        g2 (-1) (den (N := 2^n) B.1 ⟨i, hi⟩ ⟨t, h⟩) (den (N := 2^n) C.1 ⟨t, h⟩ ⟨j, hj⟩) (den (N := 2^n) B.2 ⟨i, hi⟩ ⟨t, h⟩) (den (N := 2^n) C.2 ⟨t, h⟩ ⟨j, hj⟩) else 0) ∧
      s.2 = ∑ t ∈ range k, if h : t < 2^n then
        g2 1 (den (N := 2^n) B.1 ⟨i, hi⟩ ⟨t, h⟩) (den (N := 2^n) C.2 ⟨t, h⟩ ⟨j, hj⟩) (den (N := 2^n) B.2 ⟨i, hi⟩ ⟨t, h⟩) (den (N := 2^n) C.1 ⟨t, h⟩ ⟨j, hj⟩) else 0)
      (Nat.zero_le _) ?_ ?_) ?_
    · exact ⟨cell0, cell0, by simp, by simp⟩
    · rintro k s _ hk ⟨c1, c2, s1, s2⟩
      rw [C31_get (N := 2^n) hH hAB.rng hAB.own.1 ⟨i, hi⟩ ⟨k, hk⟩, pure_bind, C31_get (N := 2^n) hH hAC.rng hAC.own.1 ⟨k, hk⟩ ⟨j, hj⟩, pure_bind,
        C31_get (N := 2^n) hH (hr2 hAB) hAB.own.2 ⟨i, hi⟩ ⟨k, hk⟩, pure_bind, C31_get (N := 2^n) hH (hr2 hAC) hAC.own.2 ⟨k, hk⟩ ⟨j, hj⟩, pure_bind]
      have pr : ∀ x y : ℝ, |x| ≤ 1.001 → |y| ≤ 1.001 → |x * y| ≤ 1.01 := by
        intro x y hx hy
        rw [abs_mul]
        refine (mul_le_mul hx hy (abs_nonneg _) (by norm_num)).trans (by norm_num)
      have b1 : ∀ p q, |den (N := 2^n) B.1 p q| ≤ 1.001 := fun p q => (Complex.abs_re_le_norm (denC (N := 2^n) B.1 B.2 p q)).trans (eB p q)
      have b2 : ∀ p q, |den (N := 2^n) B.2 p q| ≤ 1.001 := fun p q => (Complex.abs_im_le_norm (denC (N := 2^n) B.1 B.2 p q)).trans (eB p q)
      have b3 : ∀ p q, |den (N := 2^n) C.1 p q| ≤ 1.001 := fun p q => (Complex.abs_re_le_norm (denC (N := 2^n) C.1 C.2 p q)).trans (eC p q)
      have b4 : ∀ p q, |den (N := 2^n) C.2 p q| ≤ 1.001 := fun p q => (Complex.abs_im_le_norm (denC (N := 2^n) C.1 C.2 p q)).trans (eC p q)
      have hz : ∀ {S : Nat} {X : SD2 (2^n) S} {p q}, denC X.1 X.2 p q = 0 → den X.1 p q = 0 ∧ den X.2 p q = 0 := fun h =>
        ⟨congrArg Complex.re h, congrArg Complex.im h⟩
      have free : (s.1 = 0 ∧ s.2 = 0) ∨ denC (N := 2^n) B.1 B.2 ⟨i, hi⟩ ⟨k, hk⟩ = 0 ∨ denC (N := 2^n) C.1 C.2 ⟨k, hk⟩ ⟨j, hj⟩ = 0 := by
        by_cases g1 : denC (N := 2^n) B.1 B.2 ⟨i, hi⟩ ⟨k, hk⟩ = 0
        · exact Or.inr (Or.inl g1)
        by_cases g2' : denC (N := 2^n) C.1 C.2 ⟨k, hk⟩ ⟨j, hj⟩ = 0
        · exact Or.inr (Or.inr g2')
        left
        have other : ∀ t ∈ range k, ∀ h : t < 2^n, denC (N := 2^n) B.1 B.2 ⟨i, hi⟩ ⟨t, h⟩ = 0 ∨ denC (N := 2^n) C.1 C.2 ⟨t, h⟩ ⟨j, hj⟩ = 0 := by
          intro t ht h
          by_contra hcon
          rw [not_or] at hcon
          have e := hlink ⟨i, hi⟩ ⟨j, hj⟩ ⟨t, h⟩ ⟨k, hk⟩ hcon.1 hcon.2 g1 g2'
          have e' := congrArg Fin.val e
          simp only at e'
          have := mem_range.1 ht
          omega
        constructor
        · rw [s1]
          refine sum_eq_zero fun t ht => ?_
          split
          · rename_i h
            rcases other t ht h with g | g
            · obtain ⟨z1, z2⟩ := hz (X := B) g
              rw [z1, z2]; exact g2_zero _ (zero_mul _) (zero_mul _)
            · obtain ⟨z1, z2⟩ := hz (X := C) g
              rw [z1, z2]; exact g2_zero _ (mul_zero _) (mul_zero _)
          · rfl
        · rw [s2]
          refine sum_eq_zero fun t ht => ?_
          split
          · rename_i h
            rcases other t ht h with g | g
            · obtain ⟨z1, z2⟩ := hz (X := B) g
              rw [z1, z2]; exact g2_zero _ (zero_mul _) (zero_mul _)
            · obtain ⟨z1, z2⟩ := hz (X := C) g
              rw [z1, z2]; exact g2_zero _ (mul_zero _) (mul_zero _)
          · rfl
      have f1 := accOne_two (sg := -1) (by norm_num) c1 (pr _ _ (b1 ⟨i, hi⟩ ⟨k, hk⟩) (b3 ⟨k, hk⟩ ⟨j, hj⟩)) (pr _ _ (b2 ⟨i, hi⟩ ⟨k, hk⟩) (b4 ⟨k, hk⟩ ⟨j, hj⟩))
        (free.imp (fun h => h.1) fun h => by
          rcases h with g | g
          · obtain ⟨z1, z2⟩ := hz (X := B) g
            rw [z1, z2]; exact ⟨zero_mul _, zero_mul _⟩
          · obtain ⟨z1, z2⟩ := hz (X := C) g
            rw [z1, z2]; exact ⟨mul_zero _, mul_zero _⟩)
      have f2 := accOne_two (sg := 1) (by norm_num) c2 (pr _ _ (b1 ⟨i, hi⟩ ⟨k, hk⟩) (b4 ⟨k, hk⟩ ⟨j, hj⟩)) (pr _ _ (b2 ⟨i, hi⟩ ⟨k, hk⟩) (b3 ⟨k, hk⟩ ⟨j, hj⟩))
        (free.imp (fun h => h.2) fun h => by
          rcases h with g | g
          · obtain ⟨z1, z2⟩ := hz (X := B) g
            rw [z1, z2]; exact ⟨zero_mul _, zero_mul _⟩
          · obtain ⟨z1, z2⟩ := hz (X := C) g
            rw [z1, z2]; exact ⟨mul_zero _, mul_zero _⟩)
      rw [← bind_assoc, f1.1, pure_bind, ← bind_assoc, f2.1, pure_bind]
      refine Ok.pure ⟨f1.2, f2.2, ?_, ?_⟩
      · rw [sum_range_succ, ← s1, dif_pos hk]
      · rw [sum_range_succ, ← s2, dif_pos hk]
    · rintro s ⟨-, -, s1, s2⟩
      rw [C31_get (N := 2^n) hH hAp.rng hAp.own.1 ⟨i, hi⟩ ⟨j, hj⟩, pure_bind, C31_get (N := 2^n) hH (hr2 hAp) hAp.own.2 ⟨i, hi⟩ ⟨j, hj⟩, pure_bind]
      have e1 : s.1 = den (N := 2^n) A'.1 ⟨i, hi⟩ ⟨j, hj⟩ := by
        rw [s1, er, sum_range]
        exact sum_congr rfl fun t _ => dif_pos t.isLt
      have e2 : s.2 = den (N := 2^n) A'.2 ⟨i, hi⟩ ⟨j, hj⟩ := by
        rw [s2, ei, sum_range]
        exact sum_congr rfl fun t _ => dif_pos t.isLt
      rw [e1, e2, isEqualF_self, pure_bind, if_pos rfl, isEqualF_self, pure_bind]
      exact Ok.pure hout
  rw [hhalf]
  obtain ⟨l, el, hl⟩ := key
  rw [hl] at el
  exact el

/-! ## The products with a message -/

theorem row_vec {N S : Nat} {X : SD2 N S} (h : SDProd X) (i : Fin N) :
    ∑ s : Fin S, ‖(⟨X.1.vec s i, X.2.vec s i⟩ : ℂ)‖ = ∑ l, ‖denC X.1 X.2 i l‖ := by
  have e : ∀ l, ‖denC X.1 X.2 i l‖ = ∑ s : Fin S, if shift (X.1.off s) i = l then ‖(⟨X.1.vec s i, X.2.vec s i⟩ : ℂ)‖ else 0 := fun l =>
    own_sum h (fun x y => ‖(⟨x, y⟩ : ℂ)‖) (by have : (⟨0, 0⟩ : ℂ) = 0 := rfl; rw [this, norm_zero]) i l
  have e2 := sum_congr (rfl : (univ : Finset (Fin N)) = univ) fun l _ => e l
  refine Eq.trans ?_ (e2.trans sum_comm).symm
  refine sum_congr rfl fun s _ => ?_
  rw [sum_ite_eq, if_pos (mem_univ _)]

/-- a product in binary64 with a matrix near `R` -/
theorem mvp_near {N S : Nat} (hN : N ≤ 2^30) (hS : S ≤ 100) {X : SD2 N S} (h : SDProd X) {R : Matrix (Fin N) (Fin N) ℂ} {e ρ Z : ℝ}
    (he : RowNearC (denC X.1 X.2) R e) (hR : ∀ i, ∑ l, ‖R i l‖ ≤ ρ) (he1 : e ≤ 1/1000) (hρ : ρ ≤ 4) (hZ : Z ≤ 3)
    {z : (Fin N → ℝ) × (Fin N → ℝ)} (hz : ∀ i, ‖toC z.1 z.2 i‖ ≤ Z) (hZ0 : 0 ≤ Z) :
    Ok (MsgF.mvpSparse z X.1 X.2) fun w => ∀ i, ‖toC w.1 w.2 i - R.mulVec (toC z.1 z.2) i‖ ≤
      ((2 * S + 5) * ((ρ + 1/1000) * Z) + 1/1000) * uF + e * Z := by
  have hrow : ∀ i, ∑ s : Fin S, ‖(⟨X.1.vec s i, X.2.vec s i⟩ : ℂ)‖ ≤ ρ + 1/1000 := fun i => by
    rw [row_vec h]; exact (he.row_le hR i).trans (by linarith)
  have hsum : ∀ i, ∑ s : Fin S, ‖(⟨X.1.vec s i, X.2.vec s i⟩ : ℂ)‖ * ‖(⟨z.1 (shift (X.1.off s) i), z.2 (shift (X.1.off s) i)⟩ : ℂ)‖ ≤
      (ρ + 1/1000) * Z := fun i => by
    refine (sum_le_sum (g := fun s => ‖(⟨X.1.vec s i, X.2.vec s i⟩ : ℂ)‖ * Z) fun s _ =>
      mul_le_mul_of_nonneg_left (hz _) (norm_nonneg _)).trans ?_
    rw [← sum_mul]
    exact mul_le_mul_of_nonneg_right (hrow i) hZ0
  have hbig : (ρ + 1/1000) * Z ≤ 2^1000 := by
    have h1 : (ρ + 1/1000) * Z ≤ 5 * 3 := by nlinarith
    have h2 : (2:ℝ)^4 ≤ 2^1000 := pow_le_pow_right₀ (by norm_num) (by norm_num)
    exact h1.trans ((by norm_num : (5:ℝ) * 3 ≤ 2^4).trans h2)
  refine Ok.mono (C84_sparse (S := S) (hS.trans (by norm_num)) hN z X.1 X.2 h.rng (fun s _ => congrFun h.offEq s) h.flag.1 h.flag.2
    fun i => (hsum i).trans hbig) fun w hw i => ?_
  have h1 := hw i
  have hS0 : (S:ℝ) ≤ 100 := by exact_mod_cast hS
  have t1 : (S:ℝ)/2^1071 ≤ 1/1000 * uF := by
    have h3 : (1:ℝ)/2^1071 ≤ 1/2^100 := one_div_le_one_div_of_le (by positivity) (pow_le_pow_right₀ (by norm_num) (by norm_num))
    have h4 : (S:ℝ)/2^1071 = S * (1/2^1071) := by rw [mul_one_div]
    rw [h4]
    refine (mul_le_mul hS0 h3 (by positivity) (by norm_num)).trans ?_
    rw [uF_eq]; norm_num
  have t2 : (2 * (S:ℝ) + 5)/2^53 * (∑ s : Fin S, ‖(⟨X.1.vec s i, X.2.vec s i⟩ : ℂ)‖ * ‖(⟨z.1 (shift (X.1.off s) i), z.2 (shift (X.1.off s) i)⟩ : ℂ)‖) ≤
      (2 * S + 5) * ((ρ + 1/1000) * Z) * uF := by
    refine (mul_le_mul_of_nonneg_left (hsum i) (by positivity)).trans (le_of_eq ?_)
    rw [uF_eq]; ring
  have t3 : ‖(denC X.1 X.2).mulVec (toC z.1 z.2) i - R.mulVec (toC z.1 z.2) i‖ ≤ e * Z := by
    rw [← Pi.sub_apply, ← Matrix.sub_mulVec]
    simp only [Matrix.mulVec, dotProduct]
    refine (norm_sum_le _ _).trans ?_
    refine (sum_le_sum (g := fun j => ‖denC X.1 X.2 i j - R i j‖ * Z) fun j _ => ?_).trans ?_
    · rw [norm_mul, Matrix.sub_apply]
      exact mul_le_mul_of_nonneg_left (hz j) (norm_nonneg _)
    · rw [← sum_mul]
      exact mul_le_mul_of_nonneg_right (he i) hZ0
  have h2 : ‖toC w.1 w.2 i - (denC X.1 X.2).mulVec (toC z.1 z.2) i‖ ≤ _ := h1
  have h3 := norm_sub_le_norm_sub_add_norm_sub (toC w.1 w.2 i) ((denC X.1 X.2).mulVec (toC z.1 z.2) i) (R.mulVec (toC z.1 z.2) i)
  rw [add_mul]
  linarith

theorem mulVec_sup {N : Nat} {R : Matrix (Fin N) (Fin N) ℂ} {ρ Z : ℝ} (hR : ∀ i, ∑ l, ‖R i l‖ ≤ ρ) {v : Fin N → ℂ} (hv : ∀ i, ‖v i‖ ≤ Z) (hZ : 0 ≤ Z)
    (i : Fin N) : ‖R.mulVec v i‖ ≤ ρ * Z := by
  simp only [Matrix.mulVec, dotProduct]
  refine (norm_sum_le _ _).trans ?_
  refine (sum_le_sum (g := fun j => ‖R i j‖ * Z) fun j _ => ?_).trans ?_
  · rw [norm_mul]
    exact mul_le_mul_of_nonneg_left (hv j) (norm_nonneg _)
  · rw [← sum_mul]
    exact mul_le_mul_of_nonneg_right (hR i) hZ

/-- C96: the messages that `vector_test` prints in binary64 are within 250 and 500 units of 2^-53 of the one message that exact arithmetic
prints twice. -/
theorem C96_vector_test {L : Libm} (hL : L.Accurate) (hn1 : 2 ≤ n) (hn : n ≤ 26) (A0 : Fin n → Fac (n+1)) (Ar0 Ai0 : SparseDiagonal (2^n) (3*3))
    (ρ : RealRng) (hρ : ∀ j, |ρ j| ≤ 1 / Real.sqrt 2) :
    Ok (vector_testF L (n+1) A0 Ar0 Ai0 ρ) fun o => Ok (vector_test (n+1) A0 Ar0 Ai0 ρ) fun e => e.1 = e.2 ∧ ∀ i : Fin (2^n),
      ‖(⟨o.1.1 i, o.1.2 i⟩ : ℂ) - ⟨e.2.1 i, e.2.2 i⟩‖ ≤ 250/2^53 ∧ ‖(⟨o.2.1 i, o.2.2 i⟩ : ℂ) - ⟨e.2.1 i, e.2.2 i⟩‖ ≤ 500/2^53 := by
  have hH : 2^n ≤ 2^30 := Nat.pow_le_pow_right (by norm_num) (by omega)
  have hu := uF_pos
  have hu2 := uF_le
  have h0 : 0 < n := by omega
  have h1 : 1 < n := by omega
  unfold vector_testF
  obtain ⟨U, eU, hU⟩ := set_test_U0F_spec hL hn A0
  rw [eU, pure_bind, rd_of_lt U h0, pure_bind, rd_of_lt U h1, pure_bind]
  have n0 : RowNearC (denC (N := 2^n) (U ⟨0, h0⟩).1 (U ⟨0, h0⟩).2) (seqMat (fun j => adjR n (0+j)) 1) (36 * uF) := by
    rw [seqMat_one]; exact hU.near ⟨0, h0⟩
  obtain ⟨A, eA, hAp, hAn⟩ := hU.step hH Nat.one_le_two_pow (d := 0) (t := 1) (show 0 + 1 < n by omega) (hU.prod ⟨0, h0⟩) (e' := 400 * uF)
    (by positivity) (by linarith) n0 (by norm_num) (by push_cast; linarith) Ar0 Ai0
  have eA' : MatMulCF (N := 2^(n+1-1)) (U ⟨1, h1⟩).1 (U ⟨1, h1⟩).2 (U ⟨0, h0⟩).1 (U ⟨0, h0⟩).2 Ar0 Ai0 = pure A := eA
  rw [eA', pure_bind]
  simp only [zero_add] at hAn
  dsimp only
  obtain ⟨z, hz⟩ : ∃ z : CVec (n+1), z = (set_random_message (n+1) ρ).1 := ⟨_, rfl⟩
  have hzc : toC (n := 2^n) z.1 z.2 = fun i : Fin (2^n) => (⟨ρ i, ρ (2^n + i)⟩ : ℂ) := by rw [hz]; rfl
  have hz1 : ∀ i, ‖toC (n := 2^n) z.1 z.2 i‖ ≤ 1 := by
    intro i
    rw [hzc]
    have hs : Real.sqrt 2 * Real.sqrt 2 = 2 := Real.mul_self_sqrt (by norm_num)
    have hs0 : 0 < Real.sqrt 2 := Real.sqrt_pos.2 (by norm_num)
    have sq : ∀ j, ρ j * ρ j ≤ 1/2 := by
      intro j
      have k := hρ j
      have k2 := mul_le_mul k k (abs_nonneg _) (by positivity)
      rw [abs_mul_abs_self, div_mul_div_comm, hs, one_mul] at k2
      exact k2
    rw [← abs_of_nonneg (norm_nonneg _), ← sq_le_one_iff_abs_le_one, ← Complex.normSq_eq_norm_sq, Complex.normSq_mk]
    have := sq i
    have := sq (2^n + i)
    linarith
  rw [← hz]
  have row2 : ∀ i, ∑ l, ‖seqMat (adjR n) 2 i l‖ ≤ 4 := by
    intro i
    have := hU.rowSeq (d := 0) (t := 2) (by omega) i
    simp only [zero_add] at this
    exact this.trans (by norm_num)
  have e2 : seqMat (adjR n) 2 = adjR n 1 * adjR n 0 := by rw [seqMat, seqMat, seqMat, Matrix.mul_one]
  -- the three products
  obtain ⟨a, ea, ha⟩ := mvp_near (N := 2^n) hH (by norm_num) (hU.prod ⟨0, h0⟩) (hU.near ⟨0, h0⟩) (hU.row 0 h0) (by linarith) (by norm_num)
    (by norm_num) hz1 zero_le_one
  have ha' : ∀ i, ‖toC (n := 2^n) a.1 a.2 i - (adjR n 0).mulVec (toC (n := 2^n) z.1 z.2) i‖ ≤ 58.1 * uF := fun i =>
    (ha i).trans (by push_cast; linarith)
  have ha1 : ∀ i, ‖toC (n := 2^n) a.1 a.2 i‖ ≤ 2.001 := by
    intro i
    have k1 := ha' i
    have k2 := mulVec_sup (hU.row 0 h0) hz1 zero_le_one i
    have k3 := norm_add_le (toC (n := 2^n) a.1 a.2 i - (adjR n 0).mulVec (toC (n := 2^n) z.1 z.2) i) ((adjR n 0).mulVec (toC (n := 2^n) z.1 z.2) i)
    rw [sub_add_cancel] at k3
    linarith
  obtain ⟨b, eb, hb⟩ := mvp_near (N := 2^n) hH (by norm_num) (hU.prod ⟨1, h1⟩) (hU.near ⟨1, h1⟩) (hU.row 1 h1) (by linarith) (by norm_num)
    (by norm_num) ha1 (by norm_num)
  obtain ⟨c, ec, hc⟩ := mvp_near (N := 2^n) hH (by norm_num) hAp hAn row2 (by linarith) (by norm_num) (by norm_num) hz1 zero_le_one
  have ea' : MsgF.mvpSparse (n := 2^(n+1-1)) z (U ⟨0, h0⟩).1 (U ⟨0, h0⟩).2 = pure a := ea
  have eb' : MsgF.mvpSparse (n := 2^(n+1-1)) a (U ⟨1, h1⟩).1 (U ⟨1, h1⟩).2 = pure b := eb
  have ec' : MsgF.mvpSparse (n := 2^(n+1-1)) z A.1 A.2 = pure c := ec
  rw [ea', pure_bind, eb', pure_bind, ec', pure_bind]
  refine Ok.pure ?_
  obtain ⟨V, eV, hV⟩ := set_test_U0_spec (n := n) (by omega) A0
  obtain ⟨ex, eex, hex1, V', eV', hex2⟩ := C70_vector_test hn1 hn A0 Ar0 Ai0 ρ
  have hVV : V' = V := pure_inj (eV'.symm.trans eV)
  subst hVV
  refine ⟨ex, eex, hex1, fun i => ?_⟩
  have hex3 : (⟨ex.2.1 i, ex.2.2 i⟩ : ℂ) = (seqMat (adjR n) 2).mulVec (toC (n := 2^n) z.1 z.2) i := by
    rw [hex2 i, hzc, adjR_seq, adj_seq hV (by omega)]
  have eu : (1:ℝ)/2^53 = uF := uF_eq.symm
  rw [hex3, div_eq_mul_one_div (250:ℝ), div_eq_mul_one_div (500:ℝ), eu]
  constructor
  · have k1 := hb i
    have k2 := mulVec_sup (hU.row 1 h1) (v := toC (n := 2^n) a.1 a.2 - (adjR n 0).mulVec (toC (n := 2^n) z.1 z.2)) (Z := 58.1 * uF) ha' (by positivity) i
    rw [Matrix.mulVec_sub, Pi.sub_apply, Matrix.mulVec_mulVec, ← e2] at k2
    have k3 := norm_sub_le_norm_sub_add_norm_sub (toC (n := 2^n) b.1 b.2 i) ((adjR n 1).mulVec (toC (n := 2^n) a.1 a.2) i)
      ((seqMat (adjR n) 2).mulVec (toC (n := 2^n) z.1 z.2) i)
    refine le_trans k3 ((add_le_add k1 k2).trans ?_)
    push_cast
    linarith
  · refine (hc i).trans ?_
    push_cast
    linarith

/-- C96: so the two messages printed differ by less than 10^-13 in every slot. -/
theorem C96_vector_close {L : Libm} (hL : L.Accurate) (hn1 : 2 ≤ n) (hn : n ≤ 26) (A0 : Fin n → Fac (n+1)) (Ar0 Ai0 : SparseDiagonal (2^n) (3*3))
    (ρ : RealRng) (hρ : ∀ j, |ρ j| ≤ 1 / Real.sqrt 2) :
    Ok (vector_testF L (n+1) A0 Ar0 Ai0 ρ) fun o => ∀ i : Fin (2^n), ‖(⟨o.1.1 i, o.1.2 i⟩ : ℂ) - ⟨o.2.1 i, o.2.2 i⟩‖ < 1/10^13 := by
  refine Ok.mono (C96_vector_test hL hn1 hn A0 Ar0 Ai0 ρ hρ) fun o ⟨e, _, _, h⟩ i => ?_
  obtain ⟨k1, k2⟩ := h i
  have k3 := norm_sub_le_norm_sub_add_norm_sub (⟨o.1.1 i, o.1.2 i⟩ : ℂ) ⟨e.2.1 i, e.2.2 i⟩ ⟨o.2.1 i, o.2.2 i⟩
  rw [norm_sub_rev (⟨e.2.1 i, e.2.2 i⟩ : ℂ)] at k3
  have : (250:ℝ)/2^53 + 500/2^53 < 1/10^13 := by norm_num
  linarith

/-- The hypotheses hold for the parameters of test.h, correctly rounded library functions and all random numbers 1/2. -/
example (A0 : Fin 8 → Fac 9) (Ar0 Ai0 : SparseDiagonal (2^8) (3*3)) : element_testF exactLibm 9 A0 Ar0 Ai0 = pure [] ∧
    Ok (vector_testF exactLibm 9 A0 Ar0 Ai0 fun _ => 1/2) fun o => ∀ i : Fin (2^8), ‖(⟨o.1.1 i, o.1.2 i⟩ : ℂ) - ⟨o.2.1 i, o.2.2 i⟩‖ < 1/10^13 := by
  refine ⟨C96_element_test (n := 8) exactLibm_accurate (by norm_num) (by norm_num) A0 Ar0 Ai0,
    C96_vector_close (n := 8) exactLibm_accurate (by norm_num) (by norm_num) A0 Ar0 Ai0 _ fun _ => ?_⟩
  rw [abs_of_pos (by norm_num)]
  exact one_div_le_one_div_of_le (Real.sqrt_pos.2 (by norm_num)) ((Real.sqrt_le_left (by norm_num)).2 (by norm_num))

end EvalRound

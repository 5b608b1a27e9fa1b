import Verif.Model.FloatMatTest
import Verif.Proofs.FloatMat
import Verif.Props.Ieee

/-!
# A product of sparse matrices in binary64 in which every element is a single product
-/

namespace EvalRound
open Finset SparseDiagonal

variable {N S S1 S2 : Nat}

theorem fl_small {x : ℝ} (h : |x| ≤ 1000) : fl x = pure (rnd x) ∧ Binary64 (rnd x) := by
  obtain ⟨r, hr, _⟩ := fl_near (x := x) (h.trans ((by norm_num : (1000:ℝ) ≤ 2^10).trans (pow_le_pow_right₀ (by norm_num) (by norm_num))))
  obtain ⟨e, h2⟩ := fl_eq hr
  exact ⟨e ▸ hr, rnd_binary64 h2⟩

theorem rnd_small {x B : ℝ} (h : |x| ≤ B) (hB : B ≤ 1000) : |rnd x| ≤ B + 1/100 := by
  have h1 := rnd_err x
  have h2 : (1:ℝ)/2^1075 ≤ 1/2^10 := one_div_le_one_div_of_le (by positivity) (pow_le_pow_right₀ (by norm_num) (by norm_num))
  have h3 := abs_sub_abs_le_abs_sub (rnd x) x
  have h4 : (1:ℝ)/2^10 ≤ 1/1000 := by norm_num
  have h5 : (1:ℝ)/2^53 * |x| ≤ 1/1000 := by
    have := abs_nonneg x
    have : (1:ℝ)/2^53 ≤ 1/10^9 := by norm_num
    nlinarith
  linarith

/-- the real or imaginary part of one product of complex numbers: `x*y` and then `± x'*y'` -/
noncomputable def g2 (sg x y x' y' : ℝ) : ℝ := rnd (rnd (x * y) + sg * rnd (x' * y'))

theorem g2_zero (sg : ℝ) {x y x' y' : ℝ} (h : x * y = 0) (h' : x' * y' = 0) : g2 sg x y x' y' = 0 := by
  unfold g2
  rw [h, h', rnd_zero, mul_zero, add_zero, rnd_zero]

/-- a small number of binary64 -/
def Cell (x : ℝ) : Prop := Binary64 x ∧ |x| ≤ 3.05

/-- two accumulations into a zero, or of zeros -/
theorem acc_two {c sg x y x' y' : ℝ} (hs : |sg| = 1) (hc : Cell c) (hx : |x * y| ≤ 1.01) (hx' : |x' * y'| ≤ 1.01)
    (h : c = 0 ∨ (x * y = 0 ∧ x' * y' = 0)) :
    rnd (rnd (c + 1 * rnd (x * y)) + sg * rnd (x' * y')) = c + g2 sg x y x' y' ∧ Cell (c + g2 sg x y x' y') := by
  have a1 := rnd_small hx (by norm_num)
  have a2 := rnd_small hx' (by norm_num)
  rcases h with h | ⟨h, h'⟩
  · subst h
    have b1 := (fl_small (hx.trans (by norm_num))).2
    rw [zero_add, one_mul, b1.rnd, zero_add]
    have h3 : |rnd (x * y) + sg * rnd (x' * y')| ≤ 3 := by
      refine (abs_add_le _ _).trans ?_
      rw [abs_mul, hs, one_mul]
      linarith
    exact ⟨rfl, (fl_small (h3.trans (by norm_num))).2, (rnd_small h3 (by norm_num)).trans (by norm_num)⟩
  · rw [g2_zero sg h h', h, h', rnd_zero, mul_zero, mul_zero, add_zero, add_zero, hc.1.rnd]
    exact ⟨hc.1.rnd, hc⟩

/-- the loop over a diagonal, exactly -/
theorem accDiagF_eq (hN : N ≤ 2^30) (C : SparseDiagonal N S) (k : Fin S) {sgn : ℝ} (hs : |sgn| = 1) {a b : Fin N → ℝ} {o : Int}
    (ho : 0 ≤ o ∧ o < N) (hc : ∀ i, |C.vec k i| ≤ 10) (hab : ∀ i j, |a i * b j| ≤ 1.01) :
    accDiagF C k sgn a b o = pure { C with vec := Function.update C.vec k (fun i => rnd (C.vec k i + sgn * rnd (a i * b (shift o i)))) } := by
  have key : Ok (accDiagF C k sgn a b o) fun C' =>
      C' = { C with vec := Function.update C.vec k (fun i => rnd (C.vec k i + sgn * rnd (a i * b (shift o i)))) } := by
    unfold accDiagF
    rw [rd_fin, pure_bind]
    refine Ok.bind (forUp_inv (P := fun n (v : Fin N → ℝ) => ∀ i : Fin N, v i = if i.val < n then
        rnd (C.vec k i + sgn * rnd (a i * b (shift o i))) else C.vec k i) (Nat.zero_le N) (fun i => by simp) ?_) ?_
    · intro n v _ hn hP
      have hw := wrapIdx_ok hN ho ⟨n, hn⟩
      simp only [] at hw
      rw [rd_of_lt _ hn, pure_bind, rd_of_lt _ hn, pure_bind, hw, pure_bind, rd_fin, pure_bind]
      have hvn : v ⟨n, hn⟩ = C.vec k ⟨n, hn⟩ := by
        have := hP ⟨n, hn⟩
        rwa [if_neg (by simp)] at this
      have h1 := hab ⟨n, hn⟩ (shift o ⟨n, hn⟩)
      rw [hvn, (fl_small (h1.trans (by norm_num))).1, pure_bind, (fl_small ?_).1, pure_bind, wr_of_lt _ hn]
      · refine Ok.pure fun i => ?_
        by_cases e : i = ⟨n, hn⟩
        · subst e
          rw [Function.update_self, if_pos (by simp)]
        · rw [Function.update_of_ne e, hP i]
          have h2 : i.val ≠ n := fun h => e (Fin.ext h)
          by_cases h3 : i.val < n
          · rw [if_pos h3, if_pos (by omega)]
          · rw [if_neg h3, if_neg (by omega)]
      · refine (abs_add_le _ _).trans ?_
        rw [abs_mul, hs, one_mul]
        have := hc ⟨n, hn⟩
        have := rnd_small h1 (by norm_num)
        linarith
    · intro v hv
      rw [wr_fin, pure_bind]
      refine Ok.pure ?_
      congr 2
      funext i
      rw [hv, if_pos i.isLt]
  obtain ⟨C', e, h⟩ := key
  rw [e, h]

/-- two statements on one diagonal add a single product to each element -/
theorem acc2_eq (hN : N ≤ 2^30) {C : SparseDiagonal N S} {c : Nat} (h : MMInv C c) {k : Fin S} (hk : k.val < c) {sg : ℝ} (hs : |sg| = 1)
    {a b a' b' : Fin N → ℝ} {o : Int} (ho : 0 ≤ o ∧ o < N) (hd : ∀ i j, Cell (C.den i j))
    (hab : ∀ i j, |a i * b j| ≤ 1.01) (hab' : ∀ i j, |a' i * b' j| ≤ 1.01)
    (hu : ∀ i, C.den i (shift (C.off k) i) = 0 ∨ (a i * b (shift o i) = 0 ∧ a' i * b' (shift o i) = 0)) :
    Ok (accDiagF C k 1 a b o >>= fun C => accDiagF C k sg a' b' o) fun C' => MMInv C' c ∧ C'.off = C.off ∧
      C'.den = C.den + dg (C.off k) (fun i => g2 sg (a i) (b (shift o i)) (a' i) (b' (shift o i))) ∧
      ∀ i j, Cell (C'.den i j) := by
  have hv : ∀ i, |C.vec k i| ≤ 3.05 := fun i => by rw [h.vec_eq hk]; exact (hd _ _).2
  rw [accDiagF_eq hN C k (by norm_num) ho (fun i => (hv i).trans (by norm_num)) hab, pure_bind, accDiagF_eq hN _ k hs ho ?_ hab']
  · have e : ∀ i, rnd (rnd (C.vec k i + 1 * rnd (a i * b (shift o i))) + sg * rnd (a' i * b' (shift o i))) =
        C.vec k i + g2 sg (a i) (b (shift o i)) (a' i) (b' (shift o i)) ∧
        Cell (C.vec k i + g2 sg (a i) (b (shift o i)) (a' i) (b' (shift o i))) := by
      intro i
      rw [h.vec_eq hk]
      exact acc_two hs (hd _ _) (hab _ _) (hab' _ _) (hu i)
    have e2 : (Function.update (Function.update C.vec k fun i => rnd (C.vec k i + 1 * rnd (a i * b (shift o i)))) k fun i =>
        rnd ((Function.update C.vec k fun i => rnd (C.vec k i + 1 * rnd (a i * b (shift o i)))) k i + sg * rnd (a' i * b' (shift o i)))) =
        Function.update C.vec k (fun i => C.vec k i + g2 sg (a i) (b (shift o i)) (a' i) (b' (shift o i))) := by
      rw [Function.update_idem]
      congr 1
      funext i
      rw [Function.update_self]
      exact (e i).1
    dsimp only
    rw [e2]
    refine Ok.pure ⟨h.acc hk _, rfl, den_acc _ _ _, fun i j => ?_⟩
    rw [den_acc]
    simp only [Matrix.add_apply, dg]
    split
    · rename_i hj
      rw [← hj, ← h.vec_eq hk]
      exact (e i).2
    · rw [add_zero]; exact hd i j
  · intro i
    dsimp only
    rw [Function.update_self]
    refine (rnd_small (B := 5) ?_ (by norm_num)).trans (by norm_num)
    refine (abs_add_le _ _).trans ?_
    rw [one_mul]
    have := hv i
    have := rnd_small (hab i (shift o i)) (by norm_num)
    linarith

/-- the diagonal that the pair `t`, `u` of diagonals contributes -/
noncomputable def tG (sg : ℝ) (A A' : SparseDiagonal N S1) (B B' : SparseDiagonal N S2) (t u : Nat) : Matrix (Fin N) (Fin N) ℝ :=
  if h : t < S1 ∧ u < S2 then dg ((A.off ⟨t, h.1⟩ + B.off ⟨u, h.2⟩) % N) (fun i =>
    g2 sg (A.vec ⟨t, h.1⟩ i) (B.vec ⟨u, h.2⟩ (shift (A.off ⟨t, h.1⟩) i)) (A'.vec ⟨t, h.1⟩ i) (B'.vec ⟨u, h.2⟩ (shift (A.off ⟨t, h.1⟩) i))) else 0

/-- an element that is not zero -/
def NZ (A : SD2 N S) (s : Fin S) (i : Fin N) : Prop := A.1.vec s i ≠ 0 ∨ A.2.vec s i ≠ 0

/-- no two pairs of diagonals contribute to the same element -/
def OnePair (A : SD2 N S1) (B : SD2 N S2) : Prop :=
  ∀ (i : Fin N) (t t' : Fin S1) (u u' : Fin S2), NZ A t i → NZ B u (shift (A.1.off t) i) → NZ A t' i → NZ B u' (shift (A.1.off t') i) →
    shift ((A.1.off t + B.1.off u) % N) i = shift ((A.1.off t' + B.1.off u') % N) i → t = t' ∧ u = u'

/-- what the pairs before `n`, `m` contribute -/
noncomputable def tSum (S2 : Nat) (T : Nat → Nat → Matrix (Fin N) (Fin N) ℝ) (n m : Nat) : Matrix (Fin N) (Fin N) ℝ :=
  ∑ t ∈ range n, ∑ u ∈ range S2, T t u + ∑ u ∈ range m, T n u

theorem tSum_zero_of {T : Nat → Nat → Matrix (Fin N) (Fin N) ℝ} {n m : Nat} {i j : Fin N}
    (h : ∀ t u, (t < n ∨ (t = n ∧ u < m)) → T t u i j = 0) : tSum S2 T n m i j = 0 := by
  unfold tSum
  rw [Matrix.add_apply, Matrix.sum_apply, Matrix.sum_apply, sum_eq_zero, sum_eq_zero, add_zero]
  · intro u hu; exact h n u (Or.inr ⟨rfl, mem_range.1 hu⟩)
  · intro t ht
    rw [Matrix.sum_apply]
    exact sum_eq_zero fun u _ => h t u (Or.inl (mem_range.1 ht))

theorem tG_zero (sg : ℝ) {A A' : SparseDiagonal N S1} {B B' : SparseDiagonal N S2} {t u : Nat} {i j : Fin N}
    (h : ∀ (h1 : t < S1) (h2 : u < S2), shift ((A.off ⟨t, h1⟩ + B.off ⟨u, h2⟩) % N) i = j →
      A.vec ⟨t, h1⟩ i * B.vec ⟨u, h2⟩ (shift (A.off ⟨t, h1⟩) i) = 0 ∧ A'.vec ⟨t, h1⟩ i * B'.vec ⟨u, h2⟩ (shift (A.off ⟨t, h1⟩) i) = 0) :
    tG sg A A' B B' t u i j = 0 := by
  unfold tG
  split
  · rename_i h0
    unfold dg
    split
    · rename_i h1
      obtain ⟨k1, k2⟩ := h h0.1 h0.2 h1
      exact g2_zero sg k1 k2
    · rfl
  · rfl

theorem step_free {A : SD2 N S1} {B : SD2 N S2} (hB : B.1.off = B.2.off) (h1p : OnePair A B) {n m : Nat} (hn : n < S1) (hm : m < S2) (i : Fin N) :
    (tSum S2 (tG (-1) A.1 A.2 B.1 B.2) n m i (shift ((A.1.off ⟨n, hn⟩ + B.1.off ⟨m, hm⟩) % N) i) = 0 ∧
      tSum S2 (tG 1 A.1 A.2 B.2 B.1) n m i (shift ((A.1.off ⟨n, hn⟩ + B.1.off ⟨m, hm⟩) % N) i) = 0) ∨
    (¬ (NZ A ⟨n, hn⟩ i ∧ NZ B ⟨m, hm⟩ (shift (A.1.off ⟨n, hn⟩) i))) := by
  by_cases hz : NZ A ⟨n, hn⟩ i ∧ NZ B ⟨m, hm⟩ (shift (A.1.off ⟨n, hn⟩) i)
  · left
    have key : ∀ (t u : Nat) (h1 : t < S1) (h2 : u < S2), (t < n ∨ (t = n ∧ u < m)) →
        shift ((A.1.off ⟨t, h1⟩ + B.1.off ⟨u, h2⟩) % N) i = shift ((A.1.off ⟨n, hn⟩ + B.1.off ⟨m, hm⟩) % N) i →
        ¬ (NZ A ⟨t, h1⟩ i ∧ NZ B ⟨u, h2⟩ (shift (A.1.off ⟨t, h1⟩) i)) := by
      rintro t u h1 h2 hlt he ⟨k1, k2⟩
      obtain ⟨e1, e2⟩ := h1p i _ _ _ _ k1 k2 hz.1 hz.2 he
      have e1' := congrArg Fin.val e1
      have e2' := congrArg Fin.val e2
      simp only at e1' e2'
      omega
    constructor
    · refine tSum_zero_of fun t u hlt => tG_zero _ fun h1 h2 he => ?_
      have := key t u h1 h2 hlt he
      unfold NZ at this
      rw [mul_eq_zero, mul_eq_zero]
      tauto
    · refine tSum_zero_of fun t u hlt => tG_zero _ fun h1 h2 he => ?_
      have := key t u h1 h2 hlt (by have e := congrFun hB ⟨u, h2⟩; rw [e]; exact he)
      unfold NZ at this
      rw [mul_eq_zero, mul_eq_zero]
      tauto
  · exact Or.inr hz

/-- one iteration of the loops of `MatMul` -/
theorem matMulCStepF_one (hN : N ≤ 2^30) {A : SD2 N S1} {B : SD2 N S2} (hA : SDProd A) (hB : SDProd B) (h1p : OnePair A B)
    {n m : Nat} (hn : n < S1) (hm : m < S2)
    (pA : ∀ s i, |A.1.vec s i| ≤ 1.001 ∧ |A.2.vec s i| ≤ 1.001) (pB : ∀ s i, |B.1.vec s i| ≤ 1.001 ∧ |B.2.vec s i| ≤ 1.001)
    {st : Nat × SparseDiagonal N (S1 * S2) × SparseDiagonal N (S1 * S2)} (hr : MMInv st.2.1 st.1)
    (hi : MMInv st.2.2 st.1) (hs : ∀ k, st.2.1.off k = st.2.2.off k) (hc : st.1 < S1 * S2)
    (dr : ∀ i j, Cell (st.2.1.den i j)) (di : ∀ i j, Cell (st.2.2.den i j))
    (hEr : st.2.1.den = tSum S2 (tG (-1) A.1 A.2 B.1 B.2) n m) (hEi : st.2.2.den = tSum S2 (tG 1 A.1 A.2 B.2 B.1) n m) :
    Ok (matMulCStepF A.1 A.2 B.1 B.2 n m st) fun r => r.1 ≤ st.1 + 1 ∧ MMInv r.2.1 r.1 ∧ MMInv r.2.2 r.1 ∧
      (∀ k, r.2.1.off k = r.2.2.off k) ∧ (∀ i j, Cell (r.2.1.den i j)) ∧ (∀ i j, Cell (r.2.2.den i j)) ∧
      r.2.1.den = tSum S2 (tG (-1) A.1 A.2 B.1 B.2) n (m+1) ∧ r.2.2.den = tSum S2 (tG 1 A.1 A.2 B.2 B.1) n (m+1) := by
  obtain ⟨c, Cr, Ci⟩ := st
  obtain ⟨Ar, Ai⟩ := A
  obtain ⟨Br, Bi⟩ := B
  have hAo : Ar.off ⟨n, hn⟩ = Ai.off ⟨n, hn⟩ := congrFun hA.offEq _
  have hBo : Br.off ⟨m, hm⟩ = Bi.off ⟨m, hm⟩ := congrFun hB.offEq _
  have hfree := step_free (A := (Ar, Ai)) (B := (Br, Bi)) hB.offEq h1p hn hm
  simp only [] at hr hi hs hc dr di hEr hEi hfree ⊢
  unfold matMulCStepF
  obtain ⟨e1, e2, e3⟩ := off3_ok hN (hA.rng ⟨n, hn⟩) (hB.rng ⟨m, hm⟩)
  have a1 : assertM (decide (Ar.off ⟨n, hn⟩ = Ai.off ⟨n, hn⟩)) = pure () := by
    rw [hAo]; simp [assertM]
  have a2 : assertM (decide (Br.off ⟨m, hm⟩ = Bi.off ⟨m, hm⟩)) = pure () := by
    rw [hBo]; simp [assertM]
  rw [rd_of_lt _ hn, pure_bind, rd_of_lt _ hn, pure_bind, a1, pure_bind, rd_of_lt _ hm, pure_bind,
    rd_of_lt _ hm, pure_bind, a2, pure_bind, e1, pure_bind]
  refine Ok.bind (slotC_spec hr hi hs hc (by rw [e2]; exact e3)) ?_
  rintro ⟨s3, c', Cr', Ci'⟩ ⟨k, hk1, hk2, hk3, hk4, hk4', hk5, hk6, hk7, hk8⟩
  simp only [] at hk1 hk2 hk3 hk4 hk4' hk5 hk6 hk7 hk8 ⊢
  subst hk1
  rw [rd_of_lt _ hn, pure_bind, rd_of_lt _ hn, pure_bind, rd_of_lt _ hm, pure_bind, rd_of_lt _ hm, pure_bind]
  have hmm : ∀ x y : ℝ, |x| ≤ 1.001 → |y| ≤ 1.001 → |x * y| ≤ 1.01 := by
    intro x y hx hy
    rw [abs_mul]
    refine (mul_le_mul hx hy (abs_nonneg _) (by norm_num)).trans (by norm_num)
  have hz : ∀ {x x' y y' : ℝ}, ¬ ((x ≠ 0 ∨ x' ≠ 0) ∧ (y ≠ 0 ∨ y' ≠ 0)) → (x * y = 0 ∧ x' * y' = 0) ∧ (x * y' = 0 ∧ x' * y = 0) := by
    intro x x' y y' h
    simp only [mul_eq_zero]
    tauto
  have re := acc2_eq hN hk4 hk2 (sg := -1) (by norm_num) (hA.rng ⟨n, hn⟩) (fun i j => by rw [hk7]; exact dr i j)
    (a := Ar.vec ⟨n, hn⟩) (b := Br.vec ⟨m, hm⟩) (a' := Ai.vec ⟨n, hn⟩) (b' := Bi.vec ⟨m, hm⟩)
    (fun i j => hmm _ _ (pA _ i).1 (pB _ j).1) (fun i j => hmm _ _ (pA _ i).2 (pB _ j).2) (fun i => by
      rw [hk7, hk6, e2, hEr]
      exact (hfree i).imp (fun h => h.1) fun h => (hz h).1)
  have im := acc2_eq hN hk4' hk2 (sg := 1) (by norm_num) (hA.rng ⟨n, hn⟩) (fun i j => by rw [hk8]; exact di i j)
    (a := Ar.vec ⟨n, hn⟩) (b := Bi.vec ⟨m, hm⟩) (a' := Ai.vec ⟨n, hn⟩) (b' := Br.vec ⟨m, hm⟩)
    (fun i j => hmm _ _ (pA _ i).1 (pB _ j).2) (fun i j => hmm _ _ (pA _ i).2 (pB _ j).1) (fun i => by
      rw [hk8, ← hk5, hk6, e2, hEi]
      exact (hfree i).imp (fun h => h.2) fun h => (hz h).2)
  obtain ⟨Cr2, er, mr, or, nr, cr⟩ := re
  obtain ⟨Ci2, ei, mi, oi, ni, ci⟩ := im
  rw [← bind_assoc, er, pure_bind, ← bind_assoc, ei, pure_bind]
  refine Ok.pure ⟨hk3, mr, mi, fun t => ?_, cr, ci, ?_, ?_⟩
  · simp only []
    rw [or, oi]; exact hk5 t
  · simp only []
    rw [nr, hk7, hEr, hk6, e2]
    unfold tSum
    rw [sum_range_succ, ← add_assoc]
    congr 1
    unfold tG
    rw [dif_pos ⟨hn, hm⟩]
  · simp only []
    rw [ni, hk8, hEi, ← hk5, hk6, e2]
    unfold tSum
    rw [sum_range_succ, ← add_assoc]
    congr 1
    unfold tG
    rw [dif_pos ⟨hn, hm⟩, ← hBo]

theorem binary64_zero : Binary64 0 := ⟨0, 0, by norm_num, by norm_num, by norm_num, by norm_num⟩

/-- every element of the product is one rounded product -/
theorem MatMulCF_one (hN : N ≤ 2^30) {A : SD2 N S1} {B : SD2 N S2} (hA : SDProd A) (hB : SDProd B) (h1p : OnePair A B)
    (pA : ∀ s i, |A.1.vec s i| ≤ 1.001 ∧ |A.2.vec s i| ≤ 1.001) (pB : ∀ s i, |B.1.vec s i| ≤ 1.001 ∧ |B.2.vec s i| ≤ 1.001)
    (C0 C1 : SparseDiagonal N (S1 * S2)) :
    Ok (MatMulCF A.1 A.2 B.1 B.2 C0 C1) fun C =>
      C.1.den = ∑ t ∈ range S1, ∑ u ∈ range S2, tG (-1) A.1 A.2 B.1 B.2 t u ∧
      C.2.den = ∑ t ∈ range S1, ∑ u ∈ range S2, tG 1 A.1 A.2 B.2 B.1 t u := by
  unfold MatMulCF
  rw [SparseDiagonal.setzero_eq, SparseDiagonal.setzero_eq]
  have hz : SparseDiagonal.den (⟨fun _ _ => 0, fun _ => 0, fun _ => true⟩ : SparseDiagonal N (S1 * S2)) = 0 := by
    rw [SparseDiagonal.den_eq]
    exact Finset.sum_eq_zero fun s _ => dg_zero _
  have hz2 : ∀ i j : Fin N, Cell ((0 : Matrix (Fin N) (Fin N) ℝ) i j) := fun i j => ⟨binary64_zero, by norm_num⟩
  refine Ok.bind (forUp_inv
    (P := fun n (st : Nat × SparseDiagonal N (S1 * S2) × SparseDiagonal N (S1 * S2)) => st.1 ≤ n * S2 ∧
    (MMInv st.2.1 st.1 ∧ MMInv st.2.2 st.1 ∧ ∀ k, st.2.1.off k = st.2.2.off k) ∧ (∀ i j, Cell (st.2.1.den i j)) ∧ (∀ i j, Cell (st.2.2.den i j)) ∧
    st.2.1.den = ∑ t ∈ range n, ∑ u ∈ range S2, tG (-1) A.1 A.2 B.1 B.2 t u ∧
    st.2.2.den = ∑ t ∈ range n, ∑ u ∈ range S2, tG 1 A.1 A.2 B.2 B.1 t u)
      (Nat.zero_le S1) ?_ ?_) ?_
  · refine ⟨by simp, ⟨MMInv.zero, MMInv.zero, fun _ => rfl⟩, ?_, ?_, ?_, ?_⟩
    · rw [hz]; exact hz2
    · rw [hz]; exact hz2
    · rw [hz, range_zero, sum_empty]
    · rw [hz, range_zero, sum_empty]
  · rintro n st _ hn ⟨h1, h2, h3, h4, h5, h6⟩
    refine Ok.mono (forUp_inv
      (P := fun m (st : Nat × SparseDiagonal N (S1 * S2) × SparseDiagonal N (S1 * S2)) => st.1 ≤ n * S2 + m ∧
      (MMInv st.2.1 st.1 ∧ MMInv st.2.2 st.1 ∧ ∀ k, st.2.1.off k = st.2.2.off k) ∧ (∀ i j, Cell (st.2.1.den i j)) ∧ (∀ i j, Cell (st.2.2.den i j)) ∧
      st.2.1.den = tSum S2 (tG (-1) A.1 A.2 B.1 B.2) n m ∧ st.2.2.den = tSum S2 (tG 1 A.1 A.2 B.2 B.1) n m)
      (Nat.zero_le S2) ⟨h1, h2, h3, h4, ?_, ?_⟩ ?_) ?_
    · rw [h5, tSum, range_zero, sum_empty, add_zero]
    · rw [h6, tSum, range_zero, sum_empty, add_zero]
    · rintro m st _ hm ⟨g1, gg, g3, g4, g5, g6⟩
      have hcnt : n * S2 + m < S1 * S2 := by
        have : (n + 1) * S2 ≤ S1 * S2 := Nat.mul_le_mul_right _ hn
        have e : (n + 1) * S2 = n * S2 + S2 := by ring
        omega
      have hlt : st.1 < S1 * S2 := by omega
      unfold skipC
      rw [rd_of_lt _ hn, pure_bind, rd_of_lt _ hn, pure_bind, rd_of_lt _ hm, pure_bind, rd_of_lt _ hm,
        pure_bind, pure_bind]
      split
      · rename_i hskip
        simp only [Bool.or_eq_true, Bool.and_eq_true] at hskip
        have hzz : ∀ i j, A.1.vec ⟨n, hn⟩ i * B.1.vec ⟨m, hm⟩ j = 0 ∧ A.2.vec ⟨n, hn⟩ i * B.2.vec ⟨m, hm⟩ j = 0 ∧
            A.1.vec ⟨n, hn⟩ i * B.2.vec ⟨m, hm⟩ j = 0 ∧ A.2.vec ⟨n, hn⟩ i * B.1.vec ⟨m, hm⟩ j = 0 := by
          intro i j
          rcases hskip with ⟨z1, z2⟩ | ⟨z1, z2⟩
          · rw [hA.flag.1 _ z1, hA.flag.2 _ z2]; simp
          · rw [hB.flag.1 _ z1, hB.flag.2 _ z2]; simp
        refine Ok.pure ⟨by omega, gg, g3, g4, ?_, ?_⟩
        · rw [g5, tSum, tSum, sum_range_succ]
          have : tG (-1) A.1 A.2 B.1 B.2 n m = 0 := by
            funext i j; exact tG_zero _ fun _ _ _ => ⟨(hzz _ _).1, (hzz _ _).2.1⟩
          rw [this, add_zero]
        · rw [g6, tSum, tSum, sum_range_succ]
          have : tG 1 A.1 A.2 B.2 B.1 n m = 0 := by
            funext i j; exact tG_zero _ fun _ _ _ => ⟨(hzz _ _).2.2.1, (hzz _ _).2.2.2⟩
          rw [this, add_zero]
      · refine Ok.mono (matMulCStepF_one hN hA hB h1p hn hm pA pB gg.1 gg.2.1 gg.2.2 hlt g3 g4 g5 g6) ?_
        rintro r ⟨k1, k2, k3, k4, k5, k6, k7, k8⟩
        exact ⟨by omega, ⟨k2, k3, k4⟩, k5, k6, k7, k8⟩
    · rintro st ⟨g1, gg, g3, g4, g5, g6⟩
      refine ⟨by rw [Nat.succ_mul]; exact g1, gg, g3, g4, ?_, ?_⟩
      · rw [g5, tSum, sum_range_succ (fun t => ∑ u ∈ range S2, tG (-1) A.1 A.2 B.1 B.2 t u)]
      · rw [g6, tSum, sum_range_succ (fun t => ∑ u ∈ range S2, tG 1 A.1 A.2 B.2 B.1 t u)]
  · rintro ⟨c, Cr, Ci⟩ ⟨g1, gg, g3, g4, g5, g6⟩
    exact Ok.pure ⟨g5, g6⟩

/-- a function of an element of a matrix is a sum over the diagonals -/
theorem own_sum {A : SD2 N S} (h : SDProd A) (G : ℝ → ℝ → ℝ) (hG : G 0 0 = 0) (i l : Fin N) :
    G (A.1.den i l) (A.2.den i l) = ∑ s : Fin S, if shift (A.1.off s) i = l then G (A.1.vec s i) (A.2.vec s i) else 0 := by
  have r2 : InRange A.2 := fun s => by rw [← h.offEq]; exact h.rng s
  by_cases hex : ∃ s, shift (A.1.off s) i = l
  · obtain ⟨s, h1, h2⟩ := (wellFounded_lt (α := Fin S)).has_min {s | shift (A.1.off s) i = l} hex
    have h1' : shift (A.1.off s) i = l := h1
    have h2' : ∀ s', s' < s → shift (A.1.off s') i ≠ l := fun s' hs' e => h2 s' e hs'
    rw [den_of_first h.rng h.own.1 h1 h2', den_of_first r2 h.own.2 (s := s) (by rw [← h.offEq]; exact h1)
      (fun s' hs' => by rw [← h.offEq]; exact h2' s' hs'), sum_eq_single s, if_pos h1']
    · intro s' _ hne
      split
      · rename_i he
        have hlt : s < s' := by
          rcases lt_trichotomy s s' with g | g | g
          · exact g
          · exact absurd g.symm hne
          · exact absurd he (h2' s' g)
        have ho : A.1.off s = A.1.off s' := shift_inj_off (h.rng s) (h.rng s') (h1'.trans he.symm)
        rw [h.own.1 s s' hlt ho, h.own.2 s s' hlt (by rw [← h.offEq]; exact ho), hG]
      · rfl
    · intro g; exact absurd (mem_univ _) g
  · have hno : ∀ s, shift (A.1.off s) i ≠ l := fun s e => hex ⟨s, e⟩
    rw [den_of_none hno, den_of_none (A := A.2) (fun s => by rw [← h.offEq]; exact hno s), hG]
    exact (sum_eq_zero fun s _ => if_neg (hno s)).symm

/-- the contributions of the pairs of diagonals, by elements -/
theorem tG_sum {A : SD2 N S1} {B : SD2 N S2} (hA : SDProd A) (hB : SDProd B) (sg : ℝ) (i j : Fin N) :
    (∑ t ∈ range S1, ∑ u ∈ range S2, tG sg A.1 A.2 B.1 B.2 t u) i j =
      ∑ l, g2 sg (A.1.den i l) (B.1.den l j) (A.2.den i l) (B.2.den l j) := by
  have e1 : ∀ l, g2 sg (A.1.den i l) (B.1.den l j) (A.2.den i l) (B.2.den l j) =
      ∑ t : Fin S1, if shift (A.1.off t) i = l then (∑ u : Fin S2, if shift (B.1.off u) l = j then
        g2 sg (A.1.vec t i) (B.1.vec u l) (A.2.vec t i) (B.2.vec u l) else 0) else 0 := by
    intro l
    refine (own_sum hA (fun x x' => g2 sg x (B.1.den l j) x' (B.2.den l j)) (g2_zero sg (zero_mul _) (zero_mul _)) i l).trans ?_
    refine sum_congr rfl fun t _ => ?_
    split
    · exact own_sum hB (fun y y' => g2 sg (A.1.vec t i) y (A.2.vec t i) y') (g2_zero sg (mul_zero _) (mul_zero _)) l j
    · rfl
  have e2 := sum_congr (rfl : (univ : Finset (Fin N)) = univ) fun l _ => e1 l
  refine Eq.trans ?_ (e2.trans sum_comm).symm
  rw [Matrix.sum_apply, sum_range]
  refine sum_congr rfl fun t _ => ?_
  rw [sum_ite_eq, if_pos (mem_univ _), Matrix.sum_apply, sum_range]
  refine sum_congr rfl fun u _ => ?_
  unfold tG
  rw [dif_pos ⟨t.isLt, u.isLt⟩, dg, ← shift_shift]

/-- at most one index links a row of the one matrix with a column of the other -/
def OneLink (A : SD2 N S1) (B : SD2 N S2) : Prop :=
  ∀ i j l l', denC A.1 A.2 i l ≠ 0 → denC B.1 B.2 l j ≠ 0 → denC A.1 A.2 i l' ≠ 0 → denC B.1 B.2 l' j ≠ 0 → l = l'

theorem NZ.den {A : SD2 N S} (h : SDProd A) {s : Fin S} {i : Fin N} (hz : NZ A s i) :
    denC A.1 A.2 i (shift (A.1.off s) i) ≠ 0 ∧ ∀ s', NZ A s' i → shift (A.1.off s') i = shift (A.1.off s) i → s = s' := by
  have r2 : InRange A.2 := fun s => by rw [← h.offEq]; exact h.rng s
  have hinj : ∀ s s', NZ A s' i → shift (A.1.off s) i = shift (A.1.off s') i → ¬ s < s' := by
    intro s s' hz' he hlt
    have ho : A.1.off s = A.1.off s' := shift_inj_off (h.rng s) (h.rng s') he
    rcases hz' with g | g
    · exact g (h.own.1 s s' hlt ho i)
    · exact g (h.own.2 s s' hlt (by rw [← h.offEq]; exact ho) i)
  constructor
  · have h2 : ∀ s', s' < s → shift (A.1.off s') i ≠ shift (A.1.off s) i := fun s' hs' e => hinj s' s hz e hs'
    unfold denC
    rw [den_of_first h.rng h.own.1 rfl h2, den_of_first r2 h.own.2 (s := s) (by rw [← h.offEq])
      (fun s' hs' => by rw [← h.offEq]; exact h2 s' hs')]
    intro e
    rcases hz with g | g
    · exact g (congrArg Complex.re e)
    · exact g (congrArg Complex.im e)
  · intro s' hz' he
    rcases lt_trichotomy s s' with g | g | g
    · exact absurd g (hinj s s' hz' he.symm)
    · exact g
    · exact absurd g (hinj s' s hz he)

theorem OneLink.pair {A : SD2 N S1} {B : SD2 N S2} (hA : SDProd A) (hB : SDProd B) (h : OneLink A B) : OnePair A B := by
  intro i t t' u u' a1 b1 a2 b2 he
  rw [← shift_shift, ← shift_shift] at he
  have k1 := (NZ.den hA a1)
  have k2 := (NZ.den hB b1)
  have k3 := (NZ.den hA a2)
  have k4 := (NZ.den hB b2)
  have e := h i _ _ _ k1.1 k2.1 k3.1 (by rw [he]; exact k4.1)
  have et := k1.2 t' a2 e.symm
  subst et
  exact ⟨rfl, k2.2 u' b2 he.symm⟩

end EvalRound

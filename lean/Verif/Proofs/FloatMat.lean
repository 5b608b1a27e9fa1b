import Verif.Model.FloatBoot
import Verif.Proofs.FloatTable
import Verif.Proofs.Group

/-! # Products of sparse matrices in binary64 -/

namespace EvalRound
open Finset SparseDiagonal

variable {N S S1 S2 D : Nat}

/-- one statement of the innermost loop of `MatMul` -/
theorem accCell_ok {c x y sgn X T : ℝ} (hs : |sgn| = 1) (hc : |c| ≤ X) (hxy : |x * y| ≤ T) (hT : T ≤ 4) (hX : X ≤ 1000) :
    Ok (fl (x * y)) fun p => Ok (fl (c + sgn * p)) fun r => |r - (c + sgn * (x * y))| ≤ uF * (X + 2 * T + 1/2) := by
  have hu := uF_pos
  have hu2 := uF_le
  have hη := etaF_pos
  have hη2 : etaF ≤ uF / 1000 := by
    unfold etaF uF
    rw [div_div, div_le_div_iff₀ (by positivity) (by positivity)]
    rw [one_mul, one_mul]
    exact (by norm_num : (2:ℝ)^53 * 1000 ≤ 2^63).trans (pow_le_pow_right₀ (by norm_num : (1:ℝ) ≤ 2) (by norm_num : 63 ≤ 1075))
  have big : ∀ z : ℝ, z ≤ 2000 → z ≤ 2^1020 := fun z hz =>
    hz.trans ((by norm_num : (2000:ℝ) ≤ 2^11).trans (pow_le_pow_right₀ (by norm_num) (by norm_num)))
  have hT0 : 0 ≤ T := (abs_nonneg _).trans hxy
  have hX0 : 0 ≤ X := (abs_nonneg _).trans hc
  refine Ok.mono (fl_near (big _ (by linarith))) fun p hp => ?_
  have hp1 : |p| ≤ |x * y| + (uF * |x * y| + etaF) := by
    have := abs_sub_abs_le_abs_sub p (x * y); linarith
  have huT : uF * |x * y| ≤ uF * T := mul_le_mul_of_nonneg_left hxy hu.le
  have huT1 : uF * T ≤ 1/1000 := by nlinarith
  have hp2 : |p| ≤ T + 1/500 := by linarith
  have hsp : |sgn * p| = |p| := by rw [abs_mul, hs, one_mul]
  have hcp : |c + sgn * p| ≤ X + T + 1/500 := by
    have := abs_add_le c (sgn * p); rw [hsp] at this; linarith
  refine Ok.mono (fl_near (big _ (by linarith))) fun r hr => ?_
  have e : r - (c + sgn * (x * y)) = (r - (c + sgn * p)) + sgn * (p - x * y) := by ring
  have h1 : |sgn * (p - x * y)| = |p - x * y| := by rw [abs_mul, hs, one_mul]
  have h2 : uF * |c + sgn * p| ≤ uF * (X + T + 1/500) := mul_le_mul_of_nonneg_left hcp hu.le
  rw [e]
  refine (abs_add_le _ _).trans ?_
  rw [h1]
  have : uF * (X + 2 * T + 1/2) = uF * (X + T + 1/500) + uF * T + uF * (1/2 - 1/500) := by ring
  linarith

theorem accDiagF_ok (hN : N ≤ 2^30) (C : SparseDiagonal N S) (k : Fin S) {sgn : ℝ} (hs : |sgn| = 1) {a b : Fin N → ℝ} {o : Int}
    (ho : 0 ≤ o ∧ o < N) {X T : ℝ} (hc : ∀ i, |C.vec k i| ≤ X) (hab : ∀ i j, |a i * b j| ≤ T) (hT : T ≤ 4) (hX : X ≤ 1000) :
    Ok (accDiagF C k sgn a b o) fun C' => ∃ w : Fin N → ℝ,
      C' = { C with vec := Function.update C.vec k (fun i => C.vec k i + w i) } ∧
      ∀ i, |w i - sgn * (a i * b (shift o i))| ≤ uF * (X + 2 * T + 1/2) := by
  unfold accDiagF
  rw [rd_fin, pure_bind]
  refine Ok.bind (forUp_inv (P := fun n (v : Fin N → ℝ) => ∀ i : Fin N, if i.val < n then
      |v i - (C.vec k i + sgn * (a i * b (shift o i)))| ≤ uF * (X + 2 * T + 1/2) else v i = C.vec k i) (Nat.zero_le N)
      (fun i => by simp) ?_) ?_
  · intro n v _ hn hP
    have hw := wrapIdx_ok hN ho ⟨n, hn⟩
    simp only [] at hw
    rw [rd_of_lt _ hn, pure_bind, rd_of_lt _ hn, pure_bind, hw, pure_bind, rd_fin, pure_bind]
    have hvn : v ⟨n, hn⟩ = C.vec k ⟨n, hn⟩ := by
      have := hP ⟨n, hn⟩
      rwa [if_neg (by simp)] at this
    rw [hvn]
    refine Ok.bind (accCell_ok hs (hc _) (hab _ _) hT hX) fun p hp => Ok.bind hp fun r hr => ?_
    rw [wr_of_lt _ hn]
    refine Ok.pure fun i => ?_
    by_cases e : i = ⟨n, hn⟩
    · subst e
      rw [Function.update_self, if_pos (by simp)]
      exact hr
    · rw [Function.update_of_ne e]
      have h2 : i.val ≠ n := fun h => e (Fin.ext h)
      have := hP i
      by_cases h3 : i.val < n
      · rw [if_pos h3] at this; rw [if_pos (by omega)]; exact this
      · rw [if_neg h3] at this; rw [if_neg (by omega)]; exact this
  · intro v hv
    rw [wr_fin, pure_bind]
    refine Ok.pure ⟨fun i => v i - C.vec k i, ?_, fun i => ?_⟩
    · congr 2
      funext i; ring
    · have := hv i
      rw [if_pos i.isLt] at this
      rw [show v i - C.vec k i - sgn * (a i * b (shift o i)) = v i - (C.vec k i + sgn * (a i * b (shift o i))) by ring]
      exact this

/-- sums of the differences of two matrices in each row -/
def RowNear (X Y : Matrix (Fin N) (Fin N) ℝ) (e : ℝ) : Prop := ∀ i, ∑ j, |X i j - Y i j| ≤ e

theorem RowNear.entry {X Y : Matrix (Fin N) (Fin N) ℝ} {e : ℝ} (h : RowNear X Y e) (i j : Fin N) : |X i j - Y i j| ≤ e :=
  (single_le_sum (f := fun j => |X i j - Y i j|) (fun _ _ => abs_nonneg _) (mem_univ j)).trans (h i)

theorem RowNear.acc {X Y : Matrix (Fin N) (Fin N) ℝ} {e e' : ℝ} (h : RowNear X Y e) (o : Int) {w w' : Fin N → ℝ}
    (hw : ∀ i, |w i - w' i| ≤ e') : RowNear (X + dg o w) (Y + dg o w') (e + e') := by
  intro i
  have h1 : ∀ j, |(X + dg o w) i j - (Y + dg o w') i j| ≤ |X i j - Y i j| + if shift o i = j then |w i - w' i| else 0 := by
    intro j
    simp only [Matrix.add_apply, dg]
    split
    · rw [show X i j + w i - (Y i j + w' i) = (X i j - Y i j) + (w i - w' i) by ring]
      exact abs_add_le _ _
    · simp
  refine (sum_le_sum fun j _ => h1 j).trans ?_
  rw [sum_add_distrib, sum_ite_eq, if_pos (mem_univ _)]
  exact add_le_add (h i) (hw i)

theorem MMInv.vec_eq {C : SparseDiagonal N S} {c : Nat} (h : MMInv C c) {k : Fin S} (hk : k.val < c) (i : Fin N) :
    C.vec k i = C.den i (shift (C.off k) i) := by
  have hN1 : 1 ≤ N := by have := i.isLt; omega
  refine (den_of_first (h.inRange hN1) h.firstOwns rfl fun s' hs' e => ?_).symm
  have e2 := shift_inj_off (h.inRange hN1 s') (h.inRange hN1 k) e
  have e3 := h.2.2 s' k (by have := Fin.lt_def.1 hs'; omega) hk e2
  exact absurd hs' (by rw [e3]; exact lt_irrefl _)

theorem acc2_ok (hN : N ≤ 2^30) {C : SparseDiagonal N S} {c : Nat} (h : MMInv C c) {k : Fin S} (hk : k.val < c) {sg : ℝ} (hs : |sg| = 1)
    {a b a' b' : Fin N → ℝ} {o : Int} (ho : 0 ≤ o ∧ o < N) (hC : ∀ i j, |C.den i j| ≤ 3.05)
    (hab : ∀ i j, |a i * b j| ≤ 1.01) (hab' : ∀ i j, |a' i * b' j| ≤ 1.01) {E : Matrix (Fin N) (Fin N) ℝ} {e : ℝ} (hE : RowNear C.den E e) :
    Ok (accDiagF C k 1 a b o >>= fun C => accDiagF C k sg a' b' o) fun C' => MMInv C' c ∧ C'.off = C.off ∧
      RowNear C'.den (E + dg (C.off k) (fun i => a i * b (shift o i)) + dg (C.off k) (fun i => sg * (a' i * b' (shift o i))))
        (e + 12.5 * uF) := by
  have hu := uF_pos
  have hu2 := uF_le
  have hv : ∀ i, |C.vec k i| ≤ 3.05 := fun i => by rw [h.vec_eq hk]; exact hC _ _
  refine Ok.bind (accDiagF_ok hN C k (by norm_num : |(1:ℝ)| = 1) ho hv hab (by norm_num) (by norm_num)) ?_
  rintro C1 ⟨w1, rfl, hw1⟩
  have hv1 : ∀ i, |({ C with vec := Function.update C.vec k (fun i => C.vec k i + w1 i) } : SparseDiagonal N S).vec k i| ≤ 4.1 := by
    intro i
    simp only [Function.update_self]
    have h1 := hw1 i
    have h2 := hab i (shift o i)
    have h3 := hv i
    rw [one_mul] at h1
    have h4 : |w1 i| ≤ |w1 i - a i * b (shift o i)| + |a i * b (shift o i)| := by
      have := abs_add_le (w1 i - a i * b (shift o i)) (a i * b (shift o i)); rwa [sub_add_cancel] at this
    have h5 := abs_add_le (C.vec k i) (w1 i)
    have h6 : uF * (3.05 + 2 * 1.01 + 1/2) ≤ 0.01 := by nlinarith
    linarith
  refine Ok.mono (accDiagF_ok hN _ k hs ho hv1 hab' (by norm_num) (by norm_num)) ?_
  rintro C2 ⟨w2, rfl, hw2⟩
  refine ⟨(h.acc hk _).acc hk _, rfl, ?_⟩
  rw [den_acc, den_acc]
  have r1 := hE.acc (C.off k) (w := w1) (w' := fun i => a i * b (shift o i)) (fun i => by have := hw1 i; rwa [one_mul] at this)
  have r2 := r1.acc (C.off k) (w := w2) (w' := fun i => sg * (a' i * b' (shift o i))) hw2
  intro i
  refine (r2 i).trans ?_
  nlinarith

theorem matMulCStepF_spec (hN : N ≤ 2^30) {Ar Ai : SparseDiagonal N S1} {Br Bi : SparseDiagonal N S2}
    (hA : Ar.InRange) (hB : Br.InRange) {s1 s2 : Nat} (h1 : s1 < S1) (h2 : s2 < S2)
    (hAo : Ar.off ⟨s1, h1⟩ = Ai.off ⟨s1, h1⟩) (hBo : Br.off ⟨s2, h2⟩ = Bi.off ⟨s2, h2⟩)
    (pA : ∀ s i, |Ar.vec s i| ≤ 1.001 ∧ |Ai.vec s i| ≤ 1.001) (pB : ∀ s i, |Br.vec s i| ≤ 1.001 ∧ |Bi.vec s i| ≤ 1.001)
    {st : Nat × SparseDiagonal N (S1 * S2) × SparseDiagonal N (S1 * S2)} (hr : MMInv st.2.1 st.1)
    (hi : MMInv st.2.2 st.1) (hs : ∀ k, st.2.1.off k = st.2.2.off k) (hc : st.1 < S1 * S2)
    (dr : ∀ i j, |st.2.1.den i j| ≤ 3.05) (di : ∀ i j, |st.2.2.den i j| ≤ 3.05)
    {Er Ei : Matrix (Fin N) (Fin N) ℝ} {e : ℝ} (hEr : RowNear st.2.1.den Er e) (hEi : RowNear st.2.2.den Ei e) :
    Ok (matMulCStepF Ar Ai Br Bi s1 s2 st) fun r => r.1 ≤ st.1 + 1 ∧ MMInv r.2.1 r.1 ∧ MMInv r.2.2 r.1 ∧
      (∀ k, r.2.1.off k = r.2.2.off k) ∧
      RowNear r.2.1.den (Er + (dgn Ar s1 * dgn Br s2 - dgn Ai s1 * dgn Bi s2)) (e + 12.5 * uF) ∧
      RowNear r.2.2.den (Ei + (dgn Ar s1 * dgn Bi s2 + dgn Ai s1 * dgn Br s2)) (e + 12.5 * uF) := by
  obtain ⟨c, Cr, Ci⟩ := st
  simp only [] at hr hi hs hc dr di hEr hEi
  unfold matMulCStepF
  obtain ⟨e1, e2, e3⟩ := off3_ok hN (hA ⟨s1, h1⟩) (hB ⟨s2, h2⟩)
  have a1 : assertM (decide (Ar.off ⟨s1, h1⟩ = Ai.off ⟨s1, h1⟩)) = pure () := by
    rw [hAo]; simp [assertM]
  have a2 : assertM (decide (Br.off ⟨s2, h2⟩ = Bi.off ⟨s2, h2⟩)) = pure () := by
    rw [hBo]; simp [assertM]
  rw [rd_of_lt _ h1, pure_bind, rd_of_lt _ h1, pure_bind, a1, pure_bind, rd_of_lt _ h2, pure_bind,
    rd_of_lt _ h2, pure_bind, a2, pure_bind, e1, pure_bind]
  refine Ok.bind (slotC_spec hr hi hs hc (by rw [e2]; exact e3)) ?_
  rintro ⟨s3, c', Cr', Ci'⟩ ⟨k, hk1, hk2, hk3, hk4, hk4', hk5, hk6, hk7, hk8⟩
  simp only [] at hk1 hk2 hk3 hk4 hk4' hk5 hk6 hk7 hk8 ⊢
  subst hk1
  rw [rd_of_lt _ h1, pure_bind, rd_of_lt _ h1, pure_bind, rd_of_lt _ h2, pure_bind, rd_of_lt _ h2, pure_bind]
  have hm : ∀ x y : ℝ, |x| ≤ 1.001 → |y| ≤ 1.001 → |x * y| ≤ 1.01 := by
    intro x y hx hy
    rw [abs_mul]
    refine (mul_le_mul hx hy (abs_nonneg _) (by norm_num)).trans (by norm_num)
  have re := acc2_ok hN hk4 hk2 (sg := -1) (by norm_num) (hA ⟨s1, h1⟩) (fun i j => by rw [hk7]; exact dr i j)
    (a := Ar.vec ⟨s1, h1⟩) (b := Br.vec ⟨s2, h2⟩) (a' := Ai.vec ⟨s1, h1⟩) (b' := Bi.vec ⟨s2, h2⟩)
    (fun i j => hm _ _ (pA _ i).1 (pB _ j).1) (fun i j => hm _ _ (pA _ i).2 (pB _ j).2) (hk7 ▸ hEr)
  have im := acc2_ok hN hk4' hk2 (sg := 1) (by norm_num) (hA ⟨s1, h1⟩) (fun i j => by rw [hk8]; exact di i j)
    (a := Ar.vec ⟨s1, h1⟩) (b := Bi.vec ⟨s2, h2⟩) (a' := Ai.vec ⟨s1, h1⟩) (b' := Br.vec ⟨s2, h2⟩)
    (fun i j => hm _ _ (pA _ i).1 (pB _ j).2) (fun i j => hm _ _ (pA _ i).2 (pB _ j).1) (hk8 ▸ hEi)
  obtain ⟨Cr2, er, mr, or, nr⟩ := re
  obtain ⟨Ci2, ei, mi, oi, ni⟩ := im
  rw [← bind_assoc, er, pure_bind, ← bind_assoc, ei, pure_bind]
  refine Ok.pure ⟨hk3, mr, mi, fun t => ?_, ?_, ?_⟩
  · simp only []
    rw [or, oi]; exact hk5 t
  · simp only []
    convert nr using 1
    rw [hk6, e2, add_assoc]
    congr 1
    unfold dgn
    rw [dif_pos h1, dif_pos h2, dif_pos h1, dif_pos h2, dg_mul, dg_mul, ← hAo, ← hBo, sub_eq_add_neg]
    funext i j
    simp only [dg, Matrix.add_apply, Matrix.neg_apply]
    split <;> simp
  · simp only []
    convert ni using 1
    rw [← hk5, hk6, e2, add_assoc]
    congr 1
    unfold dgn
    rw [dif_pos h1, dif_pos h2, dif_pos h1, dif_pos h2, dg_mul, dg_mul, ← hAo, ← hBo]
    funext i j
    simp only [dg, Matrix.add_apply]
    split <;> simp

/-! ## Size of partial sums -/

/-- the first `n` diagonals -/
def trunc (A : SparseDiagonal N S) (n : Nat) : SparseDiagonal N S := { A with vec := fun s i => if s.val < n then A.vec s i else 0 }

theorem trunc_den (A : SparseDiagonal N S) {n : Nat} (hn : n ≤ S) : ∑ t ∈ range n, dgn A t = (trunc A n).den := by
  rw [den_dgn, ← sum_range_add_sum_Ico _ hn, sum_eq_zero (s := Ico n S), add_zero]
  · refine sum_congr rfl fun t ht => ?_
    have ht' := mem_range.1 ht
    unfold dgn trunc
    rw [dif_pos (by omega), dif_pos (by omega)]
    simp only [if_pos ht']
  · intro t ht
    obtain ⟨h1, h2⟩ := mem_Ico.1 ht
    unfold dgn trunc
    rw [dif_pos h2]
    simp only [if_neg (show ¬ t < n by omega)]
    exact dg_zero _

theorem trunc_own {A : SparseDiagonal N S} (h : FirstOwns A) (n : Nat) : FirstOwns (trunc A n) := by
  intro s s' hs ho i
  simp only [trunc]
  split
  · exact h s s' hs ho i
  · rfl

theorem part_le {A : SD2 N S} (h : SDProd A) {n : Nat} (hn : n ≤ S) (i l : Fin N) :
    ‖(⟨(∑ t ∈ range n, dgn A.1 t) i l, (∑ t ∈ range n, dgn A.2 t) i l⟩ : ℂ)‖ ≤ ‖denC A.1 A.2 i l‖ := by
  rw [trunc_den _ hn, trunc_den _ hn]
  have r2 : InRange A.2 := fun s => by rw [← h.offEq]; exact h.rng s
  by_cases hex : ∃ s, shift (A.1.off s) i = l
  · obtain ⟨s, h1, h2⟩ := (wellFounded_lt (α := Fin S)).has_min {s | shift (A.1.off s) i = l} hex
    have h2' : ∀ s', s' < s → shift (A.1.off s') i ≠ l := fun s' hs' e => h2 s' e hs'
    have e1 : den (trunc A.1 n) i l = (trunc A.1 n).vec s i := den_of_first (A := trunc A.1 n) h.rng (trunc_own h.own.1 n) h1 h2'
    have e2 : den (trunc A.2 n) i l = (trunc A.2 n).vec s i := den_of_first (A := trunc A.2 n) r2 (trunc_own h.own.2 n)
      (by show shift (A.2.off s) i = l; rw [← h.offEq]; exact h1)
      (fun s' hs' => by show shift (A.2.off s') i ≠ l; rw [← h.offEq]; exact h2' s' hs')
    unfold denC
    rw [den_of_first h.rng h.own.1 h1 h2', den_of_first r2 h.own.2 (s := s) (by rw [← h.offEq]; exact h1)
      (fun s' hs' => by rw [← h.offEq]; exact h2' s' hs'), e1, e2]
    simp only [trunc]
    split
    · exact le_refl _
    · have : (⟨0, 0⟩ : ℂ) = 0 := rfl
      rw [this, norm_zero]
      exact norm_nonneg _
  · have hno : ∀ s, shift (A.1.off s) i ≠ l := fun s e => hex ⟨s, e⟩
    have e1 : den (trunc A.1 n) i l = 0 := den_of_none (A := trunc A.1 n) hno
    have e2 : den (trunc A.2 n) i l = 0 := den_of_none (A := trunc A.2 n) (fun s => by
      show shift (A.2.off s) i ≠ l; rw [← h.offEq]; exact hno s)
    rw [e1, e2]
    have : (⟨0, 0⟩ : ℂ) = 0 := rfl
    rw [this, norm_zero]
    exact norm_nonneg _

theorem dgn_row {A : SD2 N S} (h : A.1.off = A.2.off) {n : Nat} (hn : n < S) (i : Fin N) :
    ∑ l, ‖(⟨dgn A.1 n i l, dgn A.2 n i l⟩ : ℂ)‖ = ‖(⟨A.1.vec ⟨n, hn⟩ i, A.2.vec ⟨n, hn⟩ i⟩ : ℂ)‖ := by
  unfold dgn
  rw [dif_pos hn, dif_pos hn, ← h]
  simp only [dg]
  rw [sum_eq_single (shift (A.1.off ⟨n, hn⟩) i)]
  · rw [if_pos rfl, if_pos rfl]
  · intro l _ hl
    rw [if_neg (Ne.symm hl), if_neg (Ne.symm hl)]
    exact norm_zero
  · intro h; exact absurd (mem_univ _) h

theorem cmul_le {Xr Xi Yr Yi : Matrix (Fin N) (Fin N) ℝ} {ρ β : ℝ} {i j : Fin N} (hβ : 0 ≤ β)
    (hX : ∑ l, ‖(⟨Xr i l, Xi i l⟩ : ℂ)‖ ≤ ρ) (hY : ∀ l, ‖(⟨Yr l j, Yi l j⟩ : ℂ)‖ ≤ β) :
    |(Xr * Yr - Xi * Yi) i j| ≤ ρ * β ∧ |(Xr * Yi + Xi * Yr) i j| ≤ ρ * β := by
  have key : ‖∑ l, (⟨Xr i l, Xi i l⟩ : ℂ) * ⟨Yr l j, Yi l j⟩‖ ≤ ρ * β := by
    refine (norm_sum_le _ _).trans ?_
    refine (sum_le_sum (g := fun l => ‖(⟨Xr i l, Xi i l⟩ : ℂ)‖ * β) fun l _ => ?_).trans ?_
    · rw [norm_mul]
      exact mul_le_mul_of_nonneg_left (hY l) (norm_nonneg _)
    · rw [← sum_mul]
      exact mul_le_mul_of_nonneg_right hX hβ
  constructor
  · refine le_trans (le_of_eq ?_) ((Complex.abs_re_le_norm _).trans key)
    simp only [Matrix.sub_apply, Matrix.mul_apply, Complex.re_sum, Complex.mul_re, sum_sub_distrib]
  · refine le_trans (le_of_eq ?_) ((Complex.abs_im_le_norm _).trans key)
    simp only [Matrix.add_apply, Matrix.mul_apply, Complex.im_sum, Complex.mul_im, sum_add_distrib]

theorem denC_mul_re (A : SD2 N S1) (B : SD2 N S2) (i j : Fin N) :
    (denC A.1 A.2 * denC B.1 B.2) i j = ⟨(A.1.den * B.1.den - A.2.den * B.2.den) i j, (A.1.den * B.2.den + A.2.den * B.1.den) i j⟩ := by
  rw [Matrix.mul_apply]
  apply Complex.ext
  · simp only [denC, Matrix.sub_apply, Matrix.mul_apply, Complex.re_sum, Complex.mul_re, sum_sub_distrib]
  · simp only [denC, Matrix.add_apply, Matrix.mul_apply, Complex.im_sum, Complex.mul_im, sum_add_distrib]

/-! ## The product -/

set_option maxHeartbeats 1000000 in
theorem MatMulCF_spec (hN : N ≤ 2^30) (hN1 : 1 ≤ N) {A : SD2 N S1} {B : SD2 N S2} (hA : SDProd A) (hB : SDProd B)
    (hS : S1 * S2 ≤ 1000) (eA : ∀ i l, ‖denC A.1 A.2 i l‖ ≤ 1.001) (rA : ∀ i, ∑ l, ‖denC A.1 A.2 i l‖ ≤ 2.001)
    (eB : ∀ i l, ‖denC B.1 B.2 i l‖ ≤ 1.001) (C0 C1 : SparseDiagonal N (S1 * S2)) :
    Ok (MatMulCF A.1 A.2 B.1 B.2 C0 C1) fun C => SDProd C ∧
      ∀ i, ∑ j, ‖denC C.1 C.2 i j - (denC A.1 A.2 * denC B.1 B.2) i j‖ ≤ S1 * S2 * (25 * uF) := by
  obtain ⟨Ar, Ai⟩ := A
  obtain ⟨Br, Bi⟩ := B
  have hu := uF_pos
  have hu2 := uF_le
  have vA : ∀ s i, |Ar.vec s i| ≤ 1.001 ∧ |Ai.vec s i| ≤ 1.001 := fun s i =>
    have h := (hA.entry s i).trans (eA _ _)
    ⟨(Complex.abs_re_le_norm _).trans h, (Complex.abs_im_le_norm _).trans h⟩
  have vB : ∀ s i, |Br.vec s i| ≤ 1.001 ∧ |Bi.vec s i| ≤ 1.001 := fun s i =>
    have h := (hB.entry s i).trans (eB _ _)
    ⟨(Complex.abs_re_le_norm _).trans h, (Complex.abs_im_le_norm _).trans h⟩
  simp only [] at eA rA eB
  unfold MatMulCF
  simp only []
  rw [SparseDiagonal.setzero_eq, SparseDiagonal.setzero_eq]
  have hz : SparseDiagonal.den (⟨fun _ _ => 0, fun _ => 0, fun _ => true⟩ : SparseDiagonal N (S1 * S2)) = 0 := by
    rw [SparseDiagonal.den_eq]
    exact Finset.sum_eq_zero fun s _ => dg_zero _
  have hz2 : RowNear (N := N) 0 0 0 := fun i => by simp
  refine Ok.bind (forUp_inv
    (P := fun n (st : Nat × SparseDiagonal N (S1 * S2) × SparseDiagonal N (S1 * S2)) => st.1 ≤ n * S2 ∧
    (MMInv st.2.1 st.1 ∧ MMInv st.2.2 st.1 ∧ ∀ k, st.2.1.off k = st.2.2.off k) ∧
    RowNear st.2.1.den ((∑ t ∈ Finset.range n, dgn Ar t) * Br.den - (∑ t ∈ Finset.range n, dgn Ai t) * Bi.den)
      ((n * S2 : Nat) * (12.5 * uF)) ∧
    RowNear st.2.2.den ((∑ t ∈ Finset.range n, dgn Ar t) * Bi.den + (∑ t ∈ Finset.range n, dgn Ai t) * Br.den)
      ((n * S2 : Nat) * (12.5 * uF)))
      (Nat.zero_le S1) ?_ ?_) ?_
  · refine ⟨by simp, ⟨MMInv.zero, MMInv.zero, fun _ => rfl⟩, ?_, ?_⟩
    · simpa [hz] using hz2
    · simpa [hz] using hz2
  · rintro n st _ hn ⟨h1, h2, h3, h4⟩
    refine Ok.mono (forUp_inv
      (P := fun m (st : Nat × SparseDiagonal N (S1 * S2) × SparseDiagonal N (S1 * S2)) => st.1 ≤ n * S2 + m ∧
      (MMInv st.2.1 st.1 ∧ MMInv st.2.2 st.1 ∧ ∀ k, st.2.1.off k = st.2.2.off k) ∧
      RowNear st.2.1.den ((∑ t ∈ Finset.range n, dgn Ar t) * Br.den - (∑ t ∈ Finset.range n, dgn Ai t) * Bi.den +
        (dgn Ar n * (∑ t ∈ Finset.range m, dgn Br t) - dgn Ai n * (∑ t ∈ Finset.range m, dgn Bi t)))
        ((n * S2 + m : Nat) * (12.5 * uF)) ∧
      RowNear st.2.2.den ((∑ t ∈ Finset.range n, dgn Ar t) * Bi.den + (∑ t ∈ Finset.range n, dgn Ai t) * Br.den +
        (dgn Ar n * (∑ t ∈ Finset.range m, dgn Bi t) + dgn Ai n * (∑ t ∈ Finset.range m, dgn Br t)))
        ((n * S2 + m : Nat) * (12.5 * uF)))
      (Nat.zero_le S2) ⟨h1, h2, by simpa using h3, by simpa using h4⟩ ?_) ?_
    · rintro m st _ hm ⟨g1, g2, g3, g4⟩
      have hcnt : n * S2 + m < S1 * S2 := by
        have : (n + 1) * S2 ≤ S1 * S2 := Nat.mul_le_mul_right _ hn
        have e : (n + 1) * S2 = n * S2 + S2 := by ring
        omega
      have hlt : st.1 < S1 * S2 := by omega
      have hstep : ((n * S2 + (m + 1) : Nat) : ℝ) * (12.5 * uF) = ((n * S2 + m : Nat) : ℝ) * (12.5 * uF) + 12.5 * uF := by
        push_cast; ring
      have hsmall : ((n * S2 + m : Nat) : ℝ) * (12.5 * uF) ≤ 0.01 := by
        have : ((n * S2 + m : Nat) : ℝ) ≤ 1000 := by exact_mod_cast (by omega : n * S2 + m ≤ 1000)
        nlinarith
      unfold skipC
      rw [rd_of_lt _ hn, pure_bind, rd_of_lt _ hn, pure_bind, rd_of_lt _ hm, pure_bind, rd_of_lt _ hm,
        pure_bind, pure_bind]
      split
      · rename_i hskip
        have hmono : ∀ {X Y : Matrix (Fin N) (Fin N) ℝ}, RowNear X Y ((n * S2 + m : Nat) * (12.5 * uF)) →
            RowNear X Y ((n * S2 + (m + 1) : Nat) * (12.5 * uF)) := fun h i => (h i).trans (by rw [hstep]; linarith)
        simp only [Bool.or_eq_true, Bool.and_eq_true] at hskip
        refine Ok.pure ⟨by omega, g2, hmono ?_, hmono ?_⟩
        all_goals
          rcases hskip with ⟨z1, z2⟩ | ⟨z1, z2⟩
          · rw [dgn_flag hA.flag.1 hn z1, dgn_flag hA.flag.2 hn z2] at *
            simp only [Matrix.zero_mul] at *
            first | exact g3 | exact g4
          · rw [Finset.sum_range_succ, Finset.sum_range_succ, dgn_flag hB.flag.1 hm z1, dgn_flag hB.flag.2 hm z2,
              add_zero, add_zero]
            first | exact g3 | exact g4
      · have pA : ∀ i, ∑ l, ‖(⟨(∑ t ∈ range n, dgn Ar t) i l, (∑ t ∈ range n, dgn Ai t) i l⟩ : ℂ)‖ ≤ 2.001 := fun i =>
          (sum_le_sum fun l _ => part_le hA hn.le i l).trans (rA i)
        have pB : ∀ l j, ‖(⟨(∑ t ∈ range m, dgn Br t) l j, (∑ t ∈ range m, dgn Bi t) l j⟩ : ℂ)‖ ≤ 1.001 := fun l j =>
          (part_le hB hm.le l j).trans (eB l j)
        have qA : ∀ i, ∑ l, ‖(⟨dgn Ar n i l, dgn Ai n i l⟩ : ℂ)‖ ≤ 1.001 := fun i => by
          rw [dgn_row (A := (Ar, Ai)) hA.offEq hn i]
          exact (hA.entry _ i).trans (eA _ _)
        have big : ∀ i j, |st.2.1.den i j| ≤ 3.05 ∧ |st.2.2.den i j| ≤ 3.05 := by
          intro i j
          have c1 := cmul_le (j := j) (by norm_num : (0:ℝ) ≤ 1.001) (pA i) (fun l => eB l j)
          have c2 := cmul_le (j := j) (by norm_num : (0:ℝ) ≤ 1.001) (qA i) (fun l => pB l j)
          have f1 := g3.entry i j
          have f2 := g4.entry i j
          rw [Matrix.add_apply] at f1 f2
          have t : ∀ {x a b e : ℝ}, |x - (a + b)| ≤ e → |a| ≤ 2.001 * 1.001 → |b| ≤ 1.001 * 1.001 → e ≤ 0.01 → |x| ≤ 3.05 := by
            intro x a b e k1 k2 k3 k4
            have k5 := abs_add_le (x - (a + b)) (a + b)
            rw [sub_add_cancel] at k5
            have k6 := abs_add_le a b
            linarith
          exact ⟨t f1 c1.1 c2.1 hsmall, t f2 c1.2 c2.2 hsmall⟩
        refine Ok.mono (matMulCStepF_spec hN hA.rng hB.rng hn hm (congrFun hA.offEq _) (congrFun hB.offEq _) vA vB g2.1 g2.2.1 g2.2.2 hlt
          (fun i j => (big i j).1) (fun i j => (big i j).2) g3 g4) ?_
        rintro ⟨c, Cr, Ci⟩ ⟨k1, k2, k2', k3, k4, k5⟩
        refine ⟨by simp only [] at k1 ⊢; omega, ⟨k2, k2', k3⟩, ?_, ?_⟩
        · rw [hstep]
          convert k4 using 1
          rw [Finset.sum_range_succ, Finset.sum_range_succ, Matrix.mul_add, Matrix.mul_add]
          abel
        · rw [hstep]
          convert k5 using 1
          rw [Finset.sum_range_succ, Finset.sum_range_succ, Matrix.mul_add, Matrix.mul_add]
          abel
    · rintro ⟨c, Cr, Ci⟩ ⟨g1, g2, g3, g4⟩
      refine ⟨by rw [Nat.succ_mul]; exact g1, g2, ?_, ?_⟩
      · rw [show (n + 1) * S2 = n * S2 + S2 by ring]
        convert g3 using 1
        rw [← den_dgn, ← den_dgn, Finset.sum_range_succ, Finset.sum_range_succ, Matrix.add_mul, Matrix.add_mul]
        abel
      · rw [show (n + 1) * S2 = n * S2 + S2 by ring]
        convert g4 using 1
        rw [← den_dgn, ← den_dgn, Finset.sum_range_succ, Finset.sum_range_succ, Matrix.add_mul, Matrix.add_mul]
        abel
  · rintro ⟨c, Cr, Ci⟩ ⟨g1, ⟨g2, g2', g2''⟩, g3, g4⟩
    simp only [] at g2 g2' g2'' g3 g4
    refine Ok.pure ⟨⟨⟨g2.inRange hN1, fun s _ => g2'' s, g2.flagSound, g2'.flagSound⟩, funext g2'', g2.firstOwns, g2'.firstOwns⟩, fun i => ?_⟩
    rw [← den_dgn, ← den_dgn] at g3 g4
    have h1 : ∀ j, ‖denC Cr Ci i j - (denC Ar Ai * denC Br Bi) i j‖ ≤
        |Cr.den i j - (Ar.den * Br.den - Ai.den * Bi.den) i j| + |Ci.den i j - (Ar.den * Bi.den + Ai.den * Br.den) i j| := by
      intro j
      rw [denC_mul_re (A := (Ar, Ai)) (B := (Br, Bi))]
      refine (Complex.norm_le_abs_re_add_abs_im _).trans (le_of_eq ?_)
      rfl
    refine (sum_le_sum fun j _ => h1 j).trans ?_
    rw [sum_add_distrib]
    refine (add_le_add (g3 i) (g4 i)).trans (le_of_eq ?_)
    push_cast
    ring

end EvalRound

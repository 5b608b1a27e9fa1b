import Verif.Proofs.Matrix

/-!
# C31, C32: sparse diagonal matrices

`den` is the dense matrix a `SparseDiagonal` stands for.  Numbers are exact reals.
-/

namespace EvalRound
open SparseDiagonal

variable {N S S1 S2 : Nat}

/-- a matrix with offsets 0, 1, 2 that meets the hypotheses below -/
noncomputable def exA : SparseDiagonal 4 3 := ⟨fun s i => s.val + i.val + 1, fun s => s.val, fun _ => false⟩

/-- the zero matrix on the same diagonals, its flags set -/
noncomputable def exZ : SparseDiagonal 4 3 := ⟨fun _ _ => 0, fun s => s.val, fun _ => true⟩

theorem exA_inRange : exA.InRange := fun s => by
  have := s.isLt; simp only [exA]; omega
theorem exA_firstOwns : exA.FirstOwns := fun s s' h e => by
  have := Fin.lt_def.1 h; simp only [exA] at e; omega
theorem exA_flagSound : exA.FlagSound := fun s h => by simp [exA] at h
theorem exZ_flagSound : exZ.FlagSound := fun _ _ _ => rfl
theorem exA_exZ_sameOff : exA.SameOff exZ := fun _ _ => rfl

/-! ## C31 -/

/-- `get_element` reads the dense matrix. -/
theorem C31_get (hN : N ≤ 2^30) {A : SparseDiagonal N S} (hr : InRange A) (hf : FirstOwns A) (i j : Fin N) :
    get_element A i j = pure (den A i j) := get_element_spec hN hr hf i j

/-- An element that was set is read back, and no other element changes. -/
theorem C31_get_set (hN : N ≤ 2^30) {A : SparseDiagonal N S} (hr : InRange A) (hf : FirstOwns A)
    (i j : Fin N) (hex : ∃ s, shift (A.off s) i = j) (v : ℝ) :
    Ok (set_element A i j v) fun A' => A'.off = A.off ∧ FirstOwns A' ∧ get_element A' i j = pure v ∧
      ∀ i' j' : Fin N, ¬ (i' = i ∧ j' = j) → get_element A' i' j' = get_element A i' j' := by
  refine Ok.mono (set_element_spec hN hr hf i j hex v) fun A' ⟨h1, h2, h3, _⟩ => ⟨h1, h2, ?_, ?_⟩
  · rw [get_element_spec hN (fun s => by rw [h1]; exact hr s) h2, h3, if_pos ⟨rfl, rfl⟩]
  · intro i' j' hne
    rw [get_element_spec hN (fun s => by rw [h1]; exact hr s) h2, h3, if_neg hne,
      get_element_spec hN hr hf]

/-- Setting an element that lies on no diagonal fails the assertion. -/
theorem C31_set_rejected (hN : N ≤ 2^30) {A : SparseDiagonal N S} (hr : InRange A)
    (i j : Fin N) (hex : ∀ s, shift (A.off s) i ≠ j) (v : ℝ) :
    set_element A i j v = throw Fault.assertFail := set_element_assert hN hr i j hex v

/-- `setzero` leaves the zero matrix. -/
theorem C31_setzero (A : SparseDiagonal N S) : den (setzero A) = 0 ∧ FirstOwns (setzero A) := by
  rw [setzero_eq]
  refine ⟨?_, fun _ _ _ _ _ => rfl⟩
  rw [den_eq]
  exact Finset.sum_eq_zero fun s _ => dg_zero _

/-- Assignment copies the matrix. -/
theorem C31_copy (A A0 : SparseDiagonal N S) : copy A A0 = A := copy_eq A A0

/-- `transpose` transposes, and keeps the shape. -/
theorem C31_transpose (hN : N ≤ 2^30) {A : SparseDiagonal N S} (hr : InRange A) (hf : FirstOwns A) :
    Ok (transpose A) fun A' => den A' = (den A).transpose ∧ InRange A' ∧ FirstOwns A' ∧ A'.zero = A.zero := by
  rw [transpose_eq hN fun s => ⟨(hr s).1, (hr s).2.le⟩]
  exact Ok.pure ⟨den_transposed fun s => (hr s).1, transposed_inRange hr, transposed_firstOwns hr hf, rfl⟩

/-- Transposing a matrix with an offset above `N` writes out of bounds. -/
theorem C31_transpose_ub (hN : N ≤ 2^30) (hN1 : 1 ≤ N) {A : SparseDiagonal N 1} (h : (N : Int) < A.off 0)
    (h2 : A.off 0 < 2^31) : transpose A = ub := by
  have e : transposeTemp (A.vec 0) (A.off 0) = ub := by
    unfold transposeTemp
    by_cases h3 : (A.off 0) ≤ (2 * N : Nat)
    · have hk : (2 * N - A.off 0).toNat < N := by omega
      refine forUp_fault (f := Fault.ub) (k := (2 * N - A.off 0).toNat) (Nat.zero_le _) hk
        (P := fun _ _ => True) trivial ?_ ?_
      · intro i t _ hi _
        rw [rd_of_lt _ (by omega), pure_bind]
        unfold transposePos
        rw [intM_ok (by omega) (by omega), pure_bind, if_neg (by omega), intM_ok (by omega) (by omega),
          pure_bind]
        unfold idxZ wrM
        rw [if_pos (by omega), pure_bind, wr_of_lt _ (by omega)]
        exact Ok.pure trivial
      · intro t _
        rw [rd_of_lt _ hk, pure_bind]
        unfold transposePos
        rw [intM_ok (by omega) (by omega), pure_bind, if_neg (by omega)]
        unfold intM
        rw [if_pos (by omega), pure_bind]
        unfold idxZ wrM wr
        rw [if_pos (by omega), pure_bind, dif_neg (by omega)]
        rfl
    · refine forUp_fault (f := Fault.ub) (k := 0) (Nat.zero_le _) (by omega)
        (P := fun _ _ => True) trivial (fun i _ _ hi => by omega) ?_
      intro t _
      rw [rd_of_lt _ (by omega), pure_bind]
      unfold transposePos
      rw [intM_ok (by omega) (by omega), pure_bind, if_neg (by push_cast; omega)]
      unfold intM
      rw [if_pos (by push_cast; omega), pure_bind]
      unfold idxZ wrM wr
      rw [if_pos (by push_cast; omega), pure_bind, dif_neg (by push_cast; omega)]
      rfl
  refine forUp_fault (f := Fault.ub) (k := 0) (Nat.zero_le _) (by omega) (P := fun _ X => X = A) rfl
    (fun i _ _ hi => by omega) ?_
  rintro X rfl
  rw [dif_pos (by omega)]
  unfold transposeStep
  rw [show (⟨0, by omega⟩ : Fin 1) = 0 from rfl, if_pos (by omega), e]
  rfl

/-- `negate` negates. -/
theorem C31_negate (A : SparseDiagonal N S) : den (negate A) = - den A := by
  rw [negate_eq, den_eq, den_eq, ← Finset.sum_neg_distrib]
  refine Finset.sum_congr rfl fun s _ => ?_
  funext i j
  simp only [dg, Matrix.neg_apply]
  split <;> simp

/-- `*=` multiplies by a scalar. -/
theorem C31_scale (A : SparseDiagonal N S) (a : ℝ) : den (scale A a) = a • den A := by
  rw [scale_eq, den_eq, den_eq, Finset.smul_sum]
  refine Finset.sum_congr rfl fun s _ => ?_
  funext i j
  simp only [dg, Matrix.smul_apply, smul_eq_mul]
  split
  · rw [mul_comm]
  · simp

/-- `+=` adds matrices with the same offsets. -/
theorem C31_add {A B : SparseDiagonal N S} (h : A.off = B.off) :
    Ok (addAssign A B) fun C => den C = den A + den B ∧ C.off = A.off := by
  rw [addAssign_eq A B h]
  refine Ok.pure ⟨?_, rfl⟩
  rw [den_eq, den_eq, den_eq, ← Finset.sum_add_distrib]
  exact Finset.sum_congr rfl fun s _ => by rw [dg_add, h]

/-- `-=` subtracts matrices with the same offsets. -/
theorem C31_sub {A B : SparseDiagonal N S} (h : A.off = B.off) :
    Ok (subAssign A B) fun C => den C = den A - den B ∧ C.off = A.off := by
  rw [subAssign_eq A B h]
  refine Ok.pure ⟨?_, rfl⟩
  rw [den_eq, den_eq, den_eq, ← Finset.sum_sub_distrib]
  refine Finset.sum_congr rfl fun s _ => ?_
  rw [h]
  funext i j
  simp only [dg, Matrix.sub_apply]
  split <;> simp

/-- `+=` of matrices with different offsets fails the assertion. -/
theorem C31_add_rejected {A B : SparseDiagonal N S} (s : Fin S) (hs : A.off s ≠ B.off s) :
    addAssign A B = throw Fault.assertFail := by
  classical
  have hex : ∃ n, ∃ h : n < S, A.off ⟨n, h⟩ ≠ B.off ⟨n, h⟩ := ⟨s, s.isLt, hs⟩
  obtain ⟨hk, hne⟩ := Nat.find_spec hex
  have hmin := fun m hm => Nat.find_min hex (m := m) hm
  unfold addAssign
  refine forUp_fault (k := Nat.find hex) (Nat.zero_le _) hk (P := fun _ X => X.off = A.off) rfl ?_ ?_
  · intro i X _ hi hX
    have hi' : i < S := by omega
    have he : A.off ⟨i, hi'⟩ = B.off ⟨i, hi'⟩ := by
      by_contra hc
      exact hmin i hi ⟨hi', hc⟩
    have ha : assertM (decide (X.off ⟨i, hi'⟩ = B.off ⟨i, hi'⟩)) = pure () := by
      rw [hX, he]; simp [assertM]
    rw [rd_of_lt _ hi', pure_bind, rd_of_lt _ hi', pure_bind, ha, pure_bind, rd_of_lt _ hi', pure_bind,
      rd_of_lt _ hi', pure_bind, wr_of_lt _ hi', pure_bind]
    exact Ok.pure hX
  · intro X hX
    have ha : assertM (decide (X.off ⟨_, hk⟩ = B.off ⟨_, hk⟩)) = throw Fault.assertFail := by
      rw [hX]; simp [assertM, hne]
    rw [rd_of_lt _ hk, pure_bind, rd_of_lt _ hk, pure_bind, ha]
    rfl

/-- `MatMul` multiplies matrices. -/
theorem C31_MatMul (hN : N ≤ 2^30) (hN1 : 1 ≤ N) {A : SparseDiagonal N S1} {B : SparseDiagonal N S2}
    (hA : InRange A) (hB : InRange B) (C0 : SparseDiagonal N (S1 * S2)) :
    Ok (MatMul A B C0) fun C => den C = den A * den B ∧ InRange C ∧ FirstOwns C :=
  Ok.mono (MatMul_spec hN hA hB C0) fun _ ⟨⟨_, h1⟩, h2⟩ => ⟨h2, h1.inRange hN1, h1.firstOwns⟩

/-- The complex `MatMul` multiplies complex matrices. -/
theorem C31_MatMulC (hN : N ≤ 2^30) (hN1 : 1 ≤ N) {Ar Ai : SparseDiagonal N S1} {Br Bi : SparseDiagonal N S2}
    (hA : InRange Ar) (hB : InRange Br) (hAo : SameOff Ar Ai) (hBo : SameOff Br Bi)
    (fAr : FlagSound Ar) (fAi : FlagSound Ai) (fBr : FlagSound Br) (fBi : FlagSound Bi)
    (Cr0 Ci0 : SparseDiagonal N (S1 * S2)) :
    Ok (MatMulC Ar Ai Br Bi Cr0 Ci0) fun C => denC C.1 C.2 = denC Ar Ai * denC Br Bi ∧
      InRange C.1 ∧ C.1.off = C.2.off ∧ FlagSound C.1 ∧ FlagSound C.2 ∧ FirstOwns C.1 ∧ FirstOwns C.2 := by
  refine Ok.mono (MatMulC_spec hN hA hB hAo hBo fAr fAi fBr fBi Cr0 Ci0) ?_
  rintro ⟨Cr, Ci⟩ ⟨⟨c, h1, h2⟩, h3, h4, h5⟩
  refine ⟨?_, h1.inRange hN1, funext h3, h1.flagSound, h2.flagSound, h1.firstOwns, h2.firstOwns⟩
  funext i j
  simp only [] at h4 h5
  rw [Matrix.mul_apply]
  apply Complex.ext
  · simp only [denC, h4, Matrix.sub_apply, Matrix.mul_apply, Complex.re_sum, Complex.mul_re,
      Finset.sum_sub_distrib]
  · simp only [denC, h5, Matrix.add_apply, Matrix.mul_apply, Complex.im_sum, Complex.mul_im,
      Finset.sum_add_distrib]

/-- `matrix_vector_product` of matrix.h applies the matrix. -/
theorem C31_mulVec {H : Nat} (hH : H ≤ 2^30) (zr zi : Fin H → ℝ) {Ar Ai : SparseDiagonal H 3}
    (hr : InRange Ar) (ho : Ar.off = Ai.off) :
    Ok (matrix_vector_product zr zi Ar Ai) fun r => toC r.1 r.2 = (denC Ar Ai).mulVec (toC zr zi) :=
  mvp_spec hH zr zi hr ho

/-- `matrix_vector_product` of message.h, which skips diagonals flagged zero, applies the matrix. -/
theorem C31_mulVec_msg {H : Nat} (hH : H ≤ 2^30) (zr zi : Fin H → ℝ) {Ar Ai : SparseDiagonal H S}
    (hr : InRange Ar) (ho : SameOff Ar Ai) (fr : FlagSound Ar) (fi : FlagSound Ai) :
    Ok (mvpMsg zr zi Ar Ai) fun r => toC r.1 r.2 = (denC Ar Ai).mulVec (toC zr zi) :=
  mvpMsg_spec hH zr zi hr ho fr fi

/-- `RemoveClutter` keeps the matrix. -/
theorem C31_RemoveClutter (hS : S2 < S1) {A : SparseDiagonal N S1} (hf : FlagSound A) (B0 : SparseDiagonal N S2)
    (hz : ∀ s : Fin S1, S2 ≤ s.val → A.zero s = true) :
    Ok (RemoveClutter A B0) fun B => den B = den A := by
  refine Ok.mono (RemoveClutter_spec hS B0 hz) fun B hB => ?_
  rw [den_dgn, den_dgn, ← Finset.sum_subset (Finset.range_mono hS.le)]
  · refine Finset.sum_congr rfl fun n hn => ?_
    have hn' := Finset.mem_range.1 hn
    unfold dgn
    rw [dif_pos hn', dif_pos (by omega), (hB ⟨n, hn'⟩).1, (hB ⟨n, hn'⟩).2.1]
    rfl
  · intro n h1 h2
    have h1' := Finset.mem_range.1 h1
    rw [Finset.mem_range] at h2
    exact dgn_flag hf h1' (hz ⟨n, h1'⟩ (by simp only []; omega))

example : Ok (MatMulC exA exZ exA exZ ⟨fun _ _ => 5, fun _ => 7, fun _ => true⟩ ⟨fun _ _ => 5, fun _ => 7, fun _ => true⟩)
    fun C => denC C.1 C.2 = denC exA exZ * denC exA exZ :=
  Ok.mono (C31_MatMulC (by norm_num) (by norm_num) exA_inRange exA_inRange exA_exZ_sameOff exA_exZ_sameOff
    exA_flagSound exZ_flagSound exA_flagSound exZ_flagSound _ _) fun _ h => h.1

example : Ok (transpose exA) fun A' => den A' = (den exA).transpose :=
  Ok.mono (C31_transpose (by norm_num) exA_inRange exA_firstOwns) fun _ h => h.1

example : Ok (set_element exA 3 0 7) fun A' => get_element A' (3 : Fin 4) (0 : Fin 4) = pure 7 :=
  Ok.mono (C31_get_set (by norm_num) exA_inRange exA_firstOwns 3 0 ⟨1, by decide⟩ 7) fun _ h => h.2.2.1

example : set_element exA 1 0 7 = throw Fault.assertFail :=
  C31_set_rejected (by norm_num) exA_inRange 1 0 (fun s => by fin_cases s <;> decide) 7

/-! ## C32 -/

/-- The matrices a program can make with the operations of matrix.h other than `+=` and `-=`,
writing offsets freely.  `A`, `B` are sources of any content where the operation overwrites its
destination. -/
inductive Made (N : Nat) : {T : Nat} → SparseDiagonal N T → Prop
  | zeroed {T : Nat} (A : SparseDiagonal N T) : Made N (setzero A)
  | offs {T : Nat} {A : SparseDiagonal N T} (o : Fin T → Int) : Made N A → Made N { A with off := o }
  | elem {T : Nat} {A A' : SparseDiagonal N T} {i j : Nat} {v : ℝ} :
      Made N A → set_element A i j v = pure A' → Made N A'
  | negated {T : Nat} {A : SparseDiagonal N T} : Made N A → Made N (negate A)
  | scaled {T : Nat} {A : SparseDiagonal N T} (a : ℝ) : Made N A → Made N (scale A a)
  | copied {T : Nat} {A : SparseDiagonal N T} (A0) : Made N A → Made N (copy A A0)
  | transp {T : Nat} {A A' : SparseDiagonal N T} : Made N A → transpose A = pure A' → Made N A'
  | prod {T1 T2 : Nat} {A : SparseDiagonal N T1} {B : SparseDiagonal N T2} {C0 C : SparseDiagonal N (T1 * T2)} :
      MatMul A B C0 = pure C → Made N C
  | prodRe {T1 T2 : Nat} {Ar Ai : SparseDiagonal N T1} {Br Bi : SparseDiagonal N T2}
      {Cr0 Ci0 Cr Ci : SparseDiagonal N (T1 * T2)} : MatMulC Ar Ai Br Bi Cr0 Ci0 = pure (Cr, Ci) → Made N Cr
  | prodIm {T1 T2 : Nat} {Ar Ai : SparseDiagonal N T1} {Br Bi : SparseDiagonal N T2}
      {Cr0 Ci0 Cr Ci : SparseDiagonal N (T1 * T2)} : MatMulC Ar Ai Br Bi Cr0 Ci0 = pure (Cr, Ci) → Made N Ci
  | declut {T1 T2 : Nat} {A : SparseDiagonal N T1} {B0 B : SparseDiagonal N T2} :
      RemoveClutter A B0 = pure B → Made N B

/-- Zero flags are sound after any sequence of operations. -/
theorem C32_flags {A : SparseDiagonal N S} (h : Made N A) : FlagSound A := by
  induction h with
  | zeroed A => rw [setzero_eq]; exact fun _ _ _ => rfl
  | offs o _ ih => exact ih
  | elem _ e ih => exact set_element_flag ih e
  | negated _ ih => rw [negate_eq]; exact fun s hs i => by simp only []; rw [ih s hs i, neg_zero]
  | scaled a _ ih => rw [scale_eq]; exact fun s hs i => by simp only []; rw [ih s hs i, zero_mul]
  | copied A0 _ ih => rw [copy_eq]; exact ih
  | transp _ e ih => exact transpose_flag ih e
  | prod e => exact MatMul_flag e
  | prodRe e => exact (MatMulC_flag e).1
  | prodIm e => exact (MatMulC_flag e).2
  | declut e => exact RemoveClutter_flag e

/-- `+=` and `-=` break the flags: starting from a zeroed matrix, adding (or subtracting) a
matrix with a nonzero entry leaves that entry in a diagonal flagged zero, which
`matrix_vector_product` of message.h then leaves out. -/
theorem C32_add_breaks : ∃ A B A' : SparseDiagonal 1 1, Made 1 A ∧ Made 1 B ∧ addAssign A B = pure A' ∧
    ¬ FlagSound A' ∧ get_element A' 0 0 = pure 1 ∧
    ∀ z : Fin 1 → ℝ, mvpMsg z z A' A' = pure (fun _ => 0, fun _ => 0) := by
  let Z : SparseDiagonal 1 1 := ⟨fun _ _ => 0, fun _ => 0, fun _ => true⟩
  have hZ : Made 1 Z := by
    have := Made.zeroed Z
    rwa [setzero_eq] at this
  have hZr : InRange Z := fun s => by simp [Z]
  have hZf : FirstOwns Z := fun _ _ _ _ _ => rfl
  obtain ⟨B, eB, h1, _, h3, _⟩ := set_element_spec (by norm_num) hZr hZf 0 0 ⟨0, by decide⟩ 1
  have hB1 : B.vec 0 0 = 1 := by
    have := h3 0 0
    rw [if_pos ⟨rfl, rfl⟩] at this
    unfold den dg at this
    rw [Fin.sum_univ_one, h1] at this
    have e : shift (Z.off 0) (0 : Fin 1) = 0 := by decide
    rwa [if_pos e] at this
  refine ⟨Z, B, { Z with vec := fun s i => Z.vec s i + B.vec s i }, hZ, Made.elem hZ eB,
    addAssign_eq Z B (by rw [h1]), ?_, ?_, ?_⟩
  · intro hf
    have := hf 0 rfl 0
    simp only [hB1] at this
    simp [Z] at this
  · have hfo : FirstOwns ({ Z with vec := fun s i => Z.vec s i + B.vec s i } : SparseDiagonal 1 1) :=
      fun s s' h => absurd (Subsingleton.elim s s') (ne_of_lt h)
    have := get_element_spec (by norm_num) (A := { Z with vec := fun s i => Z.vec s i + B.vec s i }) hZr hfo 0 0
    refine Eq.trans this ?_
    congr 1
    unfold den dg
    rw [Fin.sum_univ_one]
    have e : shift (Z.off 0) (0 : Fin 1) = 0 := by decide
    simp only []
    rw [if_pos e, hB1]
    simp [Z]
  · intro z
    unfold mvpMsg
    rw [tabM_eq (g := fun _ => (0, 0)), pure_bind]
    intro i
    rfl

end EvalRound

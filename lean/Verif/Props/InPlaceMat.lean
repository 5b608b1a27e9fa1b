import Verif.Model.InPlaceMat
import Verif.Props.Matrix

/-!
# C117: products of sparse diagonal matrices whose result is also a factor
-/

namespace EvalRound
open Finset SparseDiagonal

section
variable {N S : Nat}

theorem slot_vec {C : SparseDiagonal N S} (hr : InRange C) {c : Nat} (hc : c < S) {o : Int} (ho : 0 ≤ o ∧ o < N) :
    Ok (slot (c, C) o) fun r => r.1 < S ∧ r.2.1 ≤ c + 1 ∧ r.2.2.vec = C.vec ∧ InRange r.2.2 := by
  unfold slot
  refine Ok.bind (findOff_spec C.off (le_of_lt hc) o) ?_
  rintro (_ | s3) h
  · have e := openDiag_eq C ⟨c, hc⟩ o
    dsimp only at e ⊢
    rw [e, pure_bind]
    refine Ok.pure ⟨hc, le_refl _, rfl, fun s => ?_⟩
    by_cases hs : s = ⟨c, hc⟩
    · subst hs; dsimp only; rw [Function.update_self]; exact ho
    · dsimp only; rw [Function.update_of_ne hs]; exact hr s
  · obtain ⟨h1, _, _⟩ := h
    exact Ok.pure ⟨h1, by dsimp only; omega, rfl, hr⟩

theorem entryM_eq (A : SparseDiagonal N S) {s i : Nat} (hs : s < S) (hi : i < N) : entryM A s i = pure (A.vec ⟨s, hs⟩ ⟨i, hi⟩) := by
  unfold entryM
  rw [rd_of_lt _ hs, pure_bind, rd_of_lt _ hi]

theorem addEntry_zero (C : SparseDiagonal N S) {s i : Nat} (hs : s < S) (hi : i < N) : addEntry C s i 0 = pure C := by
  unfold addEntry
  rw [rd_of_lt _ hs, pure_bind, rd_of_lt _ hi, pure_bind, wr_of_lt _ hi, pure_bind, wr_of_lt _ hs, pure_bind, add_zero,
    Function.update_eq_self, Function.update_eq_self]

theorem setzero_clear (A : SparseDiagonal N S) : (setzero A).vec = 0 ∧ (∀ s, (setzero A).off s = 0) ∧ ∀ s, (setzero A).zero s = true := by
  rw [setzero_eq]
  exact ⟨rfl, fun _ => rfl, fun _ => rfl⟩

theorem off3_range (hN : N ≤ 2^30) (hN1 : 1 ≤ N) {a b : Int} (ha : 0 ≤ a ∧ a < N) (hb : 0 ≤ b ∧ b < N) :
    intM (a + b) = pure (a + b) ∧ 0 ≤ Int.tmod (a + b) N ∧ Int.tmod (a + b) N < N := by
  refine ⟨intM_ok (by omega) (by omega), ?_⟩
  rw [Int.tmod_eq_emod_of_nonneg (by omega)]
  exact ⟨Int.emod_nonneg _ (by omega), Int.emod_lt_of_pos _ (by omega)⟩

/-- C117: `MatMul(A,B,A)` gives the zero matrix whatever `A` and `B`: `A` is cleared before it is read. -/
theorem C117_first (hN : N ≤ 2^30) (A : SparseDiagonal N S) {B : SparseDiagonal N 1} (hB : InRange B) :
    Ok (MatMulOver1 A B) fun C => den C = 0 := by
  obtain ⟨z1, z2, _⟩ := setzero_clear A
  have h : Ok (MatMulOver1 A B) fun C => C.vec = 0 := by
    unfold MatMulOver1
    refine Ok.bind (forUp_inv (P := fun m (st : Nat × SparseDiagonal N S) => st.1 ≤ m ∧ st.2.vec = 0 ∧ InRange st.2) (Nat.zero_le S)
      ⟨le_refl _, z1, fun s => ?_⟩ fun s1 st _ hs1 hst => ?_) fun st hst => Ok.pure hst.2.1
    · have := hB 0
      dsimp only
      rw [z2]
      omega
    · refine Ok.mono (forUp_inv (P := fun m (st : Nat × SparseDiagonal N S) => st.1 ≤ s1 + m ∧ st.2.vec = 0 ∧ InRange st.2) (Nat.zero_le 1)
        hst fun s2 st _ hs2 hst => ?_) fun st h => h
      obtain ⟨hc, hv, hr⟩ := hst
      have hN1 : 1 ≤ N := by have := hB 0; omega
      obtain ⟨e1, e2⟩ := off3_range hN hN1 (hr ⟨s1, hs1⟩) (hB ⟨s2, hs2⟩)
      rw [rd_of_lt _ hs1, pure_bind, rd_of_lt _ hs2, pure_bind, e1, pure_bind]
      refine Ok.bind (slot_vec hr (c := st.1) (by omega) e2) ?_
      rintro ⟨s3, count, C⟩ ⟨h3, hcount, hCv, hCr⟩
      dsimp only at h3 hcount hCv hCr ⊢
      refine Ok.bind (forUp_inv (P := fun _ C' => C' = C) (Nat.zero_le N) rfl fun i C' _ hi hC' => ?_) fun C' hC' => ?_
      · subst hC'
        have hw := wrapIdx_ok hN (hr ⟨s1, hs1⟩) ⟨i, hi⟩
        dsimp only at hw
        rw [entryM_eq _ hs1 hi, pure_bind, hw, pure_bind, entryM_eq _ hs2 (Fin.isLt _), pure_bind, hCv, hv]
        rw [show (0 : Fin S → Fin N → ℝ) ⟨s1, hs1⟩ ⟨i, hi⟩ = 0 from rfl, zero_mul, addEntry_zero _ h3 hi]
        exact Ok.pure rfl
      · subst hC'
        exact Ok.pure ⟨by dsimp only; omega, hCv.trans hv, hCr⟩
  refine Ok.mono h fun C hC => ?_
  funext i j
  unfold den dg
  rw [hC]
  simp

/-- C117: `MatMul(A,B,B)` gives the zero matrix whatever `A` and `B`. -/
theorem C117_second (hN : N ≤ 2^30) {A : SparseDiagonal N 1} (B : SparseDiagonal N S) (hA : InRange A) :
    Ok (MatMulOver2 A B) fun C => den C = 0 := by
  obtain ⟨z1, z2, _⟩ := setzero_clear B
  have h : Ok (MatMulOver2 A B) fun C => C.vec = 0 := by
    have hN1 : 1 ≤ N := by have := hA 0; omega
    unfold MatMulOver2
    refine Ok.bind (forUp_inv (P := fun m (st : Nat × SparseDiagonal N S) => (m = 0 → st.1 = 0) ∧ st.2.vec = 0 ∧ InRange st.2) (Nat.zero_le 1)
      ⟨fun _ => rfl, z1, fun s => ?_⟩ fun s1 st _ hs1 hst => ?_) fun st hst => Ok.pure hst.2.1
    · dsimp only
      rw [z2]
      omega
    · refine Ok.mono (forUp_inv (P := fun m (st : Nat × SparseDiagonal N S) => st.1 ≤ m ∧ st.2.vec = 0 ∧ InRange st.2) (Nat.zero_le S)
        ⟨(hst.1 (by omega)).le, hst.2⟩ fun s2 st _ hs2 hst => ?_) fun st h => ⟨fun h0 => absurd h0 (by omega), h.2⟩
      obtain ⟨hc, hv, hr⟩ := hst
      obtain ⟨e1, e2⟩ := off3_range hN hN1 (hA ⟨s1, hs1⟩) (hr ⟨s2, hs2⟩)
      rw [rd_of_lt _ hs1, pure_bind, rd_of_lt _ hs2, pure_bind, e1, pure_bind]
      refine Ok.bind (slot_vec hr (c := st.1) (by omega) e2) ?_
      rintro ⟨s3, count, C⟩ ⟨h3, hcount, hCv, hCr⟩
      dsimp only at h3 hcount hCv hCr ⊢
      refine Ok.bind (forUp_inv (P := fun _ C' => C' = C) (Nat.zero_le N) rfl fun i C' _ hi hC' => ?_) fun C' hC' => ?_
      · subst hC'
        have hw := wrapIdx_ok hN (hA ⟨s1, hs1⟩) ⟨i, hi⟩
        dsimp only at hw
        rw [entryM_eq _ hs1 hi, pure_bind, hw, pure_bind, entryM_eq _ hs2 (Fin.isLt _), pure_bind, hCv, hv]
        rw [show ∀ j, (0 : Fin S → Fin N → ℝ) ⟨s2, hs2⟩ j = 0 from fun _ => rfl, mul_zero, addEntry_zero _ h3 hi]
        exact Ok.pure rfl
      · subst hC'
        exact Ok.pure ⟨by dsimp only; omega, hCv.trans hv, hCr⟩
  refine Ok.mono h fun C hC => ?_
  funext i j
  unfold den dg
  rw [hC]
  simp

/-- C117: the complex product into its first factor gives the zero matrix, every diagonal flagged zero, whatever factors: the flags
are set before they are read, so every pair is skipped, even one whose offsets would fail the assertions. -/
theorem C117_complex_first (Ar Ai : SparseDiagonal N S) (Br Bi : SparseDiagonal N 1) :
    Ok (MatMulCOver1 Ar Ai Br Bi) fun C => denC C.1 C.2 = 0 ∧ ∀ s, C.1.zero s = true ∧ C.2.zero s = true := by
  have h : Ok (MatMulCOver1 Ar Ai Br Bi) fun C => C = (Ar.setzero, Ai.setzero) := by
    unfold MatMulCOver1
    refine Ok.bind (forUp_inv (P := fun _ st => st = (0, Ar.setzero, Ai.setzero)) (Nat.zero_le S) rfl fun s1 st _ hs1 hst =>
      forUp_inv (P := fun _ st => st = (0, Ar.setzero, Ai.setzero)) (Nat.zero_le 1) hst fun s2 st _ hs2 hst => ?_) fun st hst => Ok.pure (by rw [hst])
    subst hst
    have e : skipC Ar.setzero Ai.setzero Br Bi s1 s2 = pure true := by
      unfold skipC
      rw [rd_of_lt _ hs1, pure_bind, rd_of_lt _ hs1, pure_bind, rd_of_lt _ hs2, pure_bind, rd_of_lt _ hs2, pure_bind,
        (setzero_clear Ar).2.2, (setzero_clear Ai).2.2]
      rfl
    dsimp only
    rw [e, pure_bind, if_pos rfl]
    exact Ok.pure rfl
  refine Ok.mono h fun C hC => ?_
  subst hC
  refine ⟨?_, fun s => ⟨(setzero_clear Ar).2.2 s, (setzero_clear Ai).2.2 s⟩⟩
  funext i j
  unfold denC den dg
  rw [(setzero_clear Ar).1, (setzero_clear Ai).1]
  simp
  rfl

/-- C117: the same for the complex product into its second factor. -/
theorem C117_complex_second (Ar Ai : SparseDiagonal N 1) (Br Bi : SparseDiagonal N S) :
    Ok (MatMulCOver2 Ar Ai Br Bi) fun C => denC C.1 C.2 = 0 ∧ ∀ s, C.1.zero s = true ∧ C.2.zero s = true := by
  have h : Ok (MatMulCOver2 Ar Ai Br Bi) fun C => C = (Br.setzero, Bi.setzero) := by
    unfold MatMulCOver2
    refine Ok.bind (forUp_inv (P := fun _ st => st = (0, Br.setzero, Bi.setzero)) (Nat.zero_le 1) rfl fun s1 st _ hs1 hst =>
      forUp_inv (P := fun _ st => st = (0, Br.setzero, Bi.setzero)) (Nat.zero_le S) hst fun s2 st _ hs2 hst => ?_) fun st hst => Ok.pure (by rw [hst])
    subst hst
    have e : skipC Ar Ai Br.setzero Bi.setzero s1 s2 = pure true := by
      unfold skipC
      rw [rd_of_lt _ hs1, pure_bind, rd_of_lt _ hs1, pure_bind, rd_of_lt _ hs2, pure_bind, rd_of_lt _ hs2, pure_bind,
        (setzero_clear Br).2.2, (setzero_clear Bi).2.2, Bool.and_self, Bool.or_true]
    dsimp only
    rw [e, pure_bind, if_pos rfl]
    exact Ok.pure rfl
  refine Ok.mono h fun C hC => ?_
  subst hC
  refine ⟨?_, fun s => ⟨(setzero_clear Br).2.2 s, (setzero_clear Bi).2.2 s⟩⟩
  funext i j
  unfold denC den dg
  rw [(setzero_clear Br).1, (setzero_clear Bi).1]
  simp
  rfl

end

/-- The hypotheses of `C117_first` are met by a matrix of three diagonals of ones and one diagonal of twos at offset 3. -/
example : Ok (MatMulOver1 (N := 4) (⟨fun _ _ => 1, ![0, 1, 3], fun _ => false⟩ : SparseDiagonal 4 3) ⟨fun _ _ => 2, fun _ => 3, fun _ => false⟩)
    fun C => den C = 0 :=
  C117_first (by norm_num) _ fun s => by simp

/-- The hypotheses of `C117_second` are met likewise. -/
example : Ok (MatMulOver2 (N := 4) ⟨fun _ _ => 2, fun _ => 3, fun _ => false⟩ (⟨fun _ _ => 1, ![0, 1, 3], fun _ => false⟩ : SparseDiagonal 4 3))
    fun C => den C = 0 :=
  C117_second (by norm_num) _ fun s => by simp

end EvalRound

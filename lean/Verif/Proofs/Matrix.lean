import Verif.Spec.Matrix
import Verif.Proofs.Conv
import Mathlib.Tactic.Linarith
import Mathlib.Tactic.Ring
import Mathlib.Data.Complex.BigOperators

/-! # Proofs about sparse diagonal matrices -/

namespace EvalRound
open Finset

variable {N S S1 S2 : Nat}

/-! ## Indices -/

theorem rd_fin {n : Nat} {α : Type _} (a : Fin n → α) (i : Fin n) : rd a i.val = pure (a i) :=
  rd_of_lt a i.isLt

theorem wr_fin {n : Nat} {α : Type _} (a : Fin n → α) (i : Fin n) (v : α) :
    wr a i.val v = pure (Function.update a i v) := wr_of_lt a i.isLt v

theorem shift_val (o : Int) (i : Fin N) : ((shift o i).val : Int) = (i.val + o) % N := by
  have h1 := Int.emod_nonneg ((i.val : Int) + o) (b := N) (by have := i.isLt; omega)
  simp only [shift]
  omega

theorem shift_zero (i : Fin N) : shift 0 i = i := by
  apply Fin.ext
  have := shift_val 0 i
  rw [add_zero, Int.emod_eq_of_lt (by omega) (by have := i.isLt; omega)] at this
  omega

theorem shift_shift (o o' : Int) (i : Fin N) : shift o' (shift o i) = shift ((o + o') % N) i := by
  apply Fin.ext
  have h := shift_val o' (shift o i)
  have h' := shift_val ((o + o') % N) i
  rw [shift_val o i, Int.emod_add_emod] at h
  rw [Int.add_emod_emod, ← add_assoc] at h'
  omega

theorem shift_mod (o : Int) (i : Fin N) : shift (o % N) i = shift o i := by
  apply Fin.ext
  have h := shift_val o i
  have h' := shift_val (o % N) i
  rw [Int.add_emod_emod] at h'
  omega

theorem shift_congr {o o' : Int} (h : o % N = o' % N) (i : Fin N) : shift o i = shift o' i := by
  rw [← shift_mod o, h, shift_mod]

theorem shift_self (i : Fin N) : shift (N : Int) i = i := by
  rw [← shift_mod, Int.emod_self, shift_zero]

theorem shift_cancel {o o' : Int} (h : (o + o') % N = 0) (i : Fin N) : shift o' (shift o i) = i := by
  rw [shift_shift, h, shift_zero]

theorem shift_inj_off {o o' : Int} (h1 : 0 ≤ o ∧ o < N) (h2 : 0 ≤ o' ∧ o' < N) {i : Fin N}
    (h : shift o i = shift o' i) : o = o' := by
  have e1 := shift_val o i
  have e2 := shift_val o' i
  rw [h] at e1
  have e3 : ((i.val : Int) + o) % N = (i.val + o') % N := by omega
  have h3 := Int.emod_emod_of_dvd (((i.val : Int) + o)) (dvd_refl (N : Int))
  have e4 : o % N = o' % N := by
    have := congrArg (fun x => (x - (i.val : Int)) % N) e3
    simp only [Int.emod_sub_emod] at this
    simpa using this
  rw [Int.emod_eq_of_lt h1.1 h1.2, Int.emod_eq_of_lt h2.1 h2.2] at e4
  exact e4

theorem wrapIdx_ok (hN : N ≤ 2^30) {o : Int} (h : 0 ≤ o ∧ o < N) (i : Fin N) :
    wrapIdx N i o = pure (shift o i).val := by
  have hi := i.isLt
  unfold wrapIdx
  rw [intM_ok (by omega) (by omega), pure_bind, Int.tmod_eq_emod_of_nonneg (by omega), ← shift_val]
  unfold idxZ
  rw [if_pos (by omega), Int.toNat_natCast]

theorem onDiag_ok (hN : N ≤ 2^30) {o : Int} (h : 0 ≤ o ∧ o < N) (i j : Fin N) :
    SparseDiagonal.onDiag N i j o = pure (decide (shift o i = j)) := by
  have hi := i.isLt
  have hj := j.isLt
  unfold SparseDiagonal.onDiag
  rw [intM_ok (by omega) (by omega), pure_bind, intM_ok (by omega) (by omega), pure_bind]
  congr 1
  apply decide_eq_decide.2
  have e := shift_val o i
  rw [← Int.dvd_iff_tmod_eq_zero]
  constructor
  · intro hd
    apply Fin.ext
    have h3 : (j.val : Int) % N = (i.val + o) % N :=
      Int.emod_eq_emod_iff_emod_sub_eq_zero.2
        (Int.emod_eq_zero_of_dvd (by simpa [sub_sub] using hd))
    rw [Int.emod_eq_of_lt (by omega) (by omega)] at h3
    omega
  · intro hs
    rw [hs] at e
    rw [e, Int.emod_def]
    exact ⟨-((i.val + o) / N), by ring⟩

theorem firstM_spec {p : Fin S → M Bool} {b : Fin S → Bool} (h : ∀ s, p s = pure (b s)) :
    Ok (firstM S p) fun r => match r with
      | some s => b s = true ∧ ∀ s', s' < s → b s' = false
      | none => ∀ s, b s = false := by
  induction S with
  | zero => exact Ok.pure fun s => s.elim0
  | succ S ih =>
    refine Ok.bind (ih (p := fun s => p s.castSucc) (b := fun s => b s.castSucc) (fun s => h _)) ?_
    rintro (_ | s) hr
    · simp only [] at hr ⊢
      rw [h, pure_bind]
      refine Ok.pure ?_
      cases hb : b (Fin.last S) with
      | true =>
        refine ⟨hb, fun s' hs' => ?_⟩
        have := hr ⟨s'.val, by have := Fin.lt_def.1 hs'; simpa using this⟩
        exact this
      | false =>
        simp only [Bool.false_eq_true, if_false]
        intro s
        refine Fin.lastCases hb (fun s => hr s) s
    · simp only [] at hr ⊢
      refine Ok.pure ⟨hr.1, fun s' hs' => ?_⟩
      have h1 := Fin.lt_def.1 hs'
      simp only [Fin.val_castSucc] at h1
      exact hr.2 ⟨s'.val, by have := s.isLt; omega⟩ (Fin.lt_def.2 h1)

theorem dg_add (o : Int) (v w : Fin N → ℝ) : dg o (fun i => v i + w i) = dg o v + dg o w := by
  funext i j
  simp only [dg, Matrix.add_apply]
  split <;> simp

theorem dg_zero (o : Int) : dg o (fun _ : Fin N => (0 : ℝ)) = 0 := by
  funext i j
  simp [dg]

/-- The product of two diagonals is a diagonal. -/
theorem dg_mul (o o' : Int) (a b : Fin N → ℝ) :
    dg o a * dg o' b = dg ((o + o') % N) (fun i => a i * b (shift o i)) := by
  funext i j
  rw [Matrix.mul_apply]
  simp only [dg]
  rw [Finset.sum_eq_single (shift o i)]
  · rw [if_pos rfl, shift_shift, mul_ite, mul_zero]
  · intro k _ hk
    rw [if_neg (Ne.symm hk), zero_mul]
  · simp

namespace SparseDiagonal

theorem den_eq (A : SparseDiagonal N S) : den A = ∑ s, dg (A.off s) (A.vec s) := by
  funext i j
  rw [Matrix.sum_apply]; rfl

/-! ## Element access and the pointwise operations -/

theorem den_of_first {A : SparseDiagonal N S} (hr : InRange A) (hf : FirstOwns A) {i j : Fin N} {s : Fin S}
    (h1 : shift (A.off s) i = j) (h2 : ∀ s', s' < s → shift (A.off s') i ≠ j) : den A i j = A.vec s i := by
  unfold den
  rw [Finset.sum_eq_single s]
  · simp [dg, h1]
  · intro s' _ hne
    unfold dg
    split
    · rename_i hj
      rcases lt_or_gt_of_ne hne with h | h
      · exact absurd hj (h2 s' h)
      · exact hf s s' h (shift_inj_off (hr s) (hr s') (h1.trans hj.symm)) i
    · rfl
  · simp

theorem den_of_none {A : SparseDiagonal N S} {i j : Fin N} (h : ∀ s, shift (A.off s) i ≠ j) :
    den A i j = 0 := by
  unfold den
  exact Finset.sum_eq_zero fun s _ => by simp [dg, h s]

theorem get_element_spec (hN : N ≤ 2^30) {A : SparseDiagonal N S} (hr : InRange A) (hf : FirstOwns A)
    (i j : Fin N) : get_element A i j = pure (den A i j) := by
  unfold get_element
  obtain ⟨r, e, hP⟩ := firstM_spec (fun s => onDiag_ok hN (hr s) i j)
  rw [e, pure_bind]
  rcases r with _ | s
  · simp only [decide_eq_false_iff_not] at hP ⊢
    rw [den_of_none hP]
  · simp only [decide_eq_true_eq, decide_eq_false_iff_not] at hP ⊢
    rw [rd_fin, den_of_first hr hf hP.1 hP.2]

theorem set_element_spec (hN : N ≤ 2^30) {A : SparseDiagonal N S} (hr : InRange A) (hf : FirstOwns A)
    (i j : Fin N) (hex : ∃ s, shift (A.off s) i = j) (v : ℝ) :
    Ok (set_element A i j v) fun A' => A'.off = A.off ∧ FirstOwns A' ∧
      (∀ i' j', den A' i' j' = if i' = i ∧ j' = j then v else den A i' j') ∧
      ∃ s, shift (A.off s) i = j ∧ (∀ s', s' < s → shift (A.off s') i ≠ j) ∧
        A'.zero = Function.update A.zero s false ∧
        A'.vec = Function.update A.vec s (Function.update (A.vec s) i v) := by
  unfold set_element
  obtain ⟨r, e, hP⟩ := firstM_spec (fun s => onDiag_ok hN (hr s) i j)
  rw [e, pure_bind]
  rcases r with _ | s
  · simp only [decide_eq_false_iff_not] at hP
    obtain ⟨s, hs⟩ := hex
    exact absurd hs (hP s)
  · simp only [decide_eq_true_eq, decide_eq_false_iff_not] at hP ⊢
    rw [wr_fin, pure_bind]
    have hvec : ∀ s' i', Function.update A.vec s (Function.update (A.vec s) i v) s' i' =
        if s' = s ∧ i' = i then v else A.vec s' i' := by
      intro s' i'
      by_cases h1 : s' = s
      · subst h1
        rw [Function.update_self]
        by_cases h2 : i' = i
        · subst h2; rw [Function.update_self, if_pos ⟨rfl, rfl⟩]
        · rw [Function.update_of_ne h2, if_neg (fun h => h2 h.2)]
      · rw [Function.update_of_ne h1, if_neg (fun h => h1 h.1)]
    have hfo : FirstOwns (N := N) (S := S) ⟨Function.update A.vec s (Function.update (A.vec s) i v), A.off,
        Function.update A.zero s false⟩ := by
      intro t t' ht hoff i'
      simp only [] at hoff ⊢
      rw [hvec]
      split
      · rename_i h
        rw [h.1] at ht hoff
        exact absurd (by rw [hoff]; exact hP.1) (hP.2 t ht)
      · exact hf t t' ht hoff i'
    refine Ok.pure ⟨rfl, hfo, ?_, s, hP.1, hP.2, rfl, rfl⟩
    intro i' j'
    by_cases h : i' = i ∧ j' = j
    · obtain ⟨rfl, rfl⟩ := h
      rw [if_pos ⟨rfl, rfl⟩]
      refine (den_of_first (s := s) (A := ⟨Function.update A.vec s (Function.update (A.vec s) i' v), A.off,
        Function.update A.zero s false⟩) hr hfo hP.1 hP.2).trans ?_
      simp only []
      rw [hvec, if_pos ⟨rfl, rfl⟩]
    · rw [if_neg h]
      unfold den
      refine Finset.sum_congr rfl fun s' _ => ?_
      simp only [dg]
      split
      · rename_i hj
        rw [hvec, if_neg]
        rintro ⟨rfl, rfl⟩
        exact h ⟨rfl, by rw [← hj]; exact hP.1⟩
      · rfl

theorem set_element_assert (hN : N ≤ 2^30) {A : SparseDiagonal N S} (hr : InRange A)
    (i j : Fin N) (hex : ∀ s, shift (A.off s) i ≠ j) (v : ℝ) :
    set_element A i j v = throw Fault.assertFail := by
  unfold set_element
  obtain ⟨r, e, hP⟩ := firstM_spec (fun s => onDiag_ok hN (hr s) i j)
  rw [e, pure_bind]
  rcases r with _ | s
  · rfl
  · simp only [decide_eq_true_eq] at hP
    exact absurd hP.1 (hex s)

theorem setzero_eq (A : SparseDiagonal N S) : setzero A = ⟨fun _ _ => 0, fun _ => 0, fun _ => true⟩ := by
  unfold setzero
  have h := forFin_inv (n := S) (s := A) (f := fun s (A : SparseDiagonal N S) =>
    { vec := Function.update A.vec s (forFin N (fun i v => Function.update v i 0) (A.vec s))
      off := Function.update A.off s 0
      zero := Function.update A.zero s true })
    (P := fun k B => ∀ s : Fin S, s.val < k → B.vec s = (fun _ => 0) ∧ B.off s = 0 ∧ B.zero s = true)
    (fun s h => absurd h (by omega)) (by
      intro s B hB t ht
      simp only []
      by_cases e : t = s
      · subst e
        simp only [Function.update_self, and_self, and_true]
        exact forFin_map (fun _ _ => (0 : ℝ)) (B.vec t)
      · simp only [Function.update_of_ne e]
        exact hB t (by have : t.val ≠ s.val := fun h => e (Fin.ext h); omega))
  have ext : ∀ X : SparseDiagonal N S, (∀ s, X.vec s = (fun _ => 0) ∧ X.off s = 0 ∧ X.zero s = true) →
      X = ⟨fun _ _ => 0, fun _ => 0, fun _ => true⟩ := by
    rintro ⟨v, o, z⟩ hX
    congr 1
    · exact funext fun s => (hX s).1
    · exact funext fun s => (hX s).2.1
    · exact funext fun s => (hX s).2.2
  exact ext _ fun s => h s s.isLt

theorem copy_eq (A A0 : SparseDiagonal N S) : copy A A0 = A := by
  unfold copy
  have h := forFin_inv (n := S) (s := A0) (f := fun s (B : SparseDiagonal N S) =>
    { vec := Function.update B.vec s (forFin N (fun i v => Function.update v i (A.vec s i)) (B.vec s))
      off := Function.update B.off s (A.off s)
      zero := Function.update B.zero s (A.zero s) })
    (P := fun k B => ∀ s : Fin S, s.val < k → B.vec s = A.vec s ∧ B.off s = A.off s ∧ B.zero s = A.zero s)
    (fun s h => absurd h (by omega)) (by
      intro s B hB t ht
      simp only []
      by_cases e : t = s
      · subst e
        simp only [Function.update_self, and_self, and_true]
        exact forFin_map (fun i _ => A.vec t i) (B.vec t)
      · simp only [Function.update_of_ne e]
        exact hB t (by have : t.val ≠ s.val := fun h => e (Fin.ext h); omega))
  have ext : ∀ X : SparseDiagonal N S, (∀ s, X.vec s = A.vec s ∧ X.off s = A.off s ∧ X.zero s = A.zero s) →
      X = A := by
    rintro ⟨v, o, z⟩ hX
    rcases A with ⟨v', o', z'⟩
    congr 1
    · exact funext fun s => (hX s).1
    · exact funext fun s => (hX s).2.1
    · exact funext fun s => (hX s).2.2
  exact ext _ fun s => h s s.isLt

/-- A loop that maps a function over the entries. -/
theorem mapVec_eq (g : ℝ → ℝ) (A : SparseDiagonal N S) :
    forFin S (fun s (A : SparseDiagonal N S) =>
      { A with vec := Function.update A.vec s (forFin N (fun i v => Function.update v i (g (v i))) (A.vec s)) }) A
    = { A with vec := fun s i => g (A.vec s i) } := by
  have h := forFin_inv (n := S) (s := A) (f := fun s (A : SparseDiagonal N S) =>
      { A with vec := Function.update A.vec s (forFin N (fun i v => Function.update v i (g (v i))) (A.vec s)) })
    (P := fun k B => B.off = A.off ∧ B.zero = A.zero ∧
      ∀ s : Fin S, B.vec s = if s.val < k then fun i => g (A.vec s i) else A.vec s)
    ⟨rfl, rfl, fun s => by simp⟩ (by
      rintro s B ⟨h1, h2, hB⟩
      refine ⟨h1, h2, fun t => ?_⟩
      simp only []
      by_cases e : t = s
      · subst e
        rw [Function.update_self, if_pos (by omega), hB, if_neg (by omega)]
        exact forFin_map (fun _ x => g x) (A.vec t)
      · rw [Function.update_of_ne e, hB]
        have : t.val ≠ s.val := fun h => e (Fin.ext h)
        by_cases h3 : t.val < s.val
        · rw [if_pos h3, if_pos (by omega)]
        · rw [if_neg h3, if_neg (by omega)])
  have ext : ∀ X : SparseDiagonal N S, X.off = A.off ∧ X.zero = A.zero ∧
      (∀ s : Fin S, X.vec s = if s.val < S then fun i => g (A.vec s i) else A.vec s) →
      X = { A with vec := fun s i => g (A.vec s i) } := by
    rintro ⟨v, o, z⟩ ⟨h1, h2, h3⟩
    simp only [] at h1 h2 h3
    subst h1 h2
    congr 1
    exact funext fun s => by rw [h3 s, if_pos s.isLt]
  exact ext _ h

theorem scale_eq (A : SparseDiagonal N S) (a : ℝ) : scale A a = { A with vec := fun s i => A.vec s i * a } :=
  mapVec_eq (fun x => x * a) A

theorem negate_eq (A : SparseDiagonal N S) : negate A = { A with vec := fun s i => - A.vec s i } :=
  mapVec_eq (fun x => - x) A

theorem zip_spec (g : ℝ → ℝ → ℝ) (A B : SparseDiagonal N S) (h : A.off = B.off) :
    forUp 0 S (fun s A => do
      let oa ← rd A.off s
      let ob ← rd B.off s
      assertM (decide (oa = ob))
      let va ← rd A.vec s
      let vb ← rd B.vec s
      let vec ← wr A.vec s (forFin N (fun i v => Function.update v i (g (v i) (vb i))) va)
      pure ({ A with vec := vec } : SparseDiagonal N S)) A =
    pure { A with vec := fun s i => g (A.vec s i) (B.vec s i) } := by
  obtain ⟨X, e, h1, h2, h3⟩ := forUp_inv (lo := 0) (hi := S) (s := A) (body := fun s (A : SparseDiagonal N S) => (do
      let oa ← rd A.off s
      let ob ← rd B.off s
      assertM (decide (oa = ob))
      let va ← rd A.vec s
      let vb ← rd B.vec s
      let vec ← wr A.vec s (forFin N (fun i v => Function.update v i (g (v i) (vb i))) va)
      pure ({ A with vec := vec } : SparseDiagonal N S) : M (SparseDiagonal N S))) (Nat.zero_le S)
    (P := fun k X => X.off = A.off ∧ X.zero = A.zero ∧
      ∀ s : Fin S, X.vec s = if s.val < k then fun i => g (A.vec s i) (B.vec s i) else A.vec s)
    ⟨rfl, rfl, fun s => by simp⟩ (by
      rintro s X _ hs ⟨h1, h2, hX⟩
      have hh : assertM (decide (X.off ⟨s, hs⟩ = B.off ⟨s, hs⟩)) = pure () := by
        rw [h1, h]; simp [assertM]
      rw [rd_of_lt _ hs, pure_bind, rd_of_lt _ hs, pure_bind, hh, pure_bind, rd_of_lt _ hs, pure_bind,
        rd_of_lt _ hs, pure_bind, wr_of_lt _ hs, pure_bind]
      refine Ok.pure ⟨h1, h2, fun t => ?_⟩
      simp only []
      by_cases e : t = ⟨s, hs⟩
      · subst e
        rw [Function.update_self, if_pos (by simp), hX, if_neg (by simp)]
        exact forFin_map (fun i x => g x (B.vec ⟨s, hs⟩ i)) (A.vec ⟨s, hs⟩)
      · rw [Function.update_of_ne e, hX]
        have : t.val ≠ s := fun h => e (Fin.ext h)
        by_cases h3 : t.val < s
        · rw [if_pos h3, if_pos (by omega)]
        · rw [if_neg h3, if_neg (by omega)])
  rw [e]
  congr 1
  rcases X with ⟨v, o, z⟩
  simp only [] at h1 h2 h3
  subst h1 h2
  congr 1
  exact funext fun s => by rw [h3 s, if_pos s.isLt]

theorem addAssign_eq (A B : SparseDiagonal N S) (h : A.off = B.off) :
    addAssign A B = pure { A with vec := fun s i => A.vec s i + B.vec s i } :=
  zip_spec (fun x y => x + y) A B h

theorem subAssign_eq (A B : SparseDiagonal N S) (h : A.off = B.off) :
    subAssign A B = pure { A with vec := fun s i => A.vec s i - B.vec s i } :=
  zip_spec (fun x y => x - y) A B h


/-! ## Transposition -/

theorem shift_inj {o : Int} {i j : Fin N} (h : shift o i = shift o j) : i = j := by
  have := congrArg (shift (-o)) h
  rwa [shift_cancel (by simp), shift_cancel (by simp)] at this

theorem transposeTemp_spec (hN : N ≤ 2^30) (v : Fin N → ℝ) {o : Int} (h : 0 < o ∧ o ≤ N) :
    transposeTemp v o = pure fun i => some (v (shift (-o) i)) := by
  unfold transposeTemp
  obtain ⟨t, e, ht⟩ := forUp_inv (lo := 0) (hi := N) (s := (fun _ => none : Mem N ℝ))
    (body := fun i temp => (do
      let x ← rd v i
      let p ← transposePos N i o
      let p ← idxZ p
      wrM temp p x : M (Mem N ℝ))) (Nat.zero_le N)
    (P := fun k temp => ∀ i : Fin N, i.val < k → temp (shift o i) = some (v i))
    (fun i h => absurd h (by omega)) (by
      intro k temp _ hk hP
      have hpos : transposePos N k o = pure ((shift o ⟨k, hk⟩).val : Int) := by
        unfold transposePos
        rw [intM_ok (by omega) (by omega), pure_bind]
        have e := shift_val o ⟨k, hk⟩
        simp only [] at e
        rw [e]
        split
        · rw [intM_ok (by omega) (by omega), Int.emod_eq_of_lt (by omega) (by omega), add_comm]
        · rw [intM_ok (by omega) (by omega)]
          congr 1
          rw [Int.emod_eq_sub_self_emod, Int.emod_eq_of_lt (by omega) (by omega)]
          ring
      rw [rd_of_lt _ hk, pure_bind, hpos, pure_bind]
      unfold idxZ wrM
      rw [if_pos (by omega), pure_bind, Int.toNat_natCast, wr_fin]
      refine Ok.pure fun i hi => ?_
      by_cases e : i = ⟨k, hk⟩
      · subst e; rw [Function.update_self]
      · rw [Function.update_of_ne (fun h => e (shift_inj h))]
        exact hP i (by have : i.val ≠ k := fun h => e (Fin.ext h); omega))
  rw [e]
  congr 1
  funext i
  have := ht (shift (-o) i) (shift (-o) i).isLt
  rwa [shift_cancel (by simp)] at this

/-- what `transpose` leaves -/
def transposed (A : SparseDiagonal N S) : SparseDiagonal N S :=
  ⟨fun s i => if 0 < A.off s then A.vec s (shift (-A.off s) i) else A.vec s i,
   fun s => if 0 < A.off s then N - A.off s else A.off s, A.zero⟩

theorem transpose_eq (hN : N ≤ 2^30) {A : SparseDiagonal N S} (hr : ∀ s, 0 ≤ A.off s ∧ A.off s ≤ N) :
    transpose A = pure (transposed A) := by
  unfold transpose
  obtain ⟨X, e, h2, h1, h3⟩ := forUp_inv (lo := 0) (hi := S) (s := A)
    (body := fun s A => if h : s < S then transposeStep ⟨s, h⟩ A else ub) (Nat.zero_le S)
    (P := fun k X => X.zero = A.zero ∧
      (∀ s : Fin S, X.off s = if s.val < k then (transposed A).off s else A.off s) ∧
      (∀ s : Fin S, X.vec s = if s.val < k then (transposed A).vec s else A.vec s))
    ⟨rfl, fun s => by simp, fun s => by simp⟩ (by
      rintro k X _ hk ⟨h2, h1, h3⟩
      rw [dif_pos hk]
      unfold transposeStep
      have e1 : X.off ⟨k, hk⟩ = A.off ⟨k, hk⟩ := by rw [h1, if_neg (by simp)]
      have e3 : X.vec ⟨k, hk⟩ = A.vec ⟨k, hk⟩ := by rw [h3, if_neg (by simp)]
      have hk2 := hr ⟨k, hk⟩
      rw [e1, e3]
      by_cases hpos : 0 < A.off ⟨k, hk⟩
      · rw [if_pos hpos, transposeTemp_spec hN _ ⟨hpos, hk2.2⟩, pure_bind,
          tabM_eq (g := fun i => A.vec ⟨k, hk⟩ (shift (-A.off ⟨k, hk⟩) i))
            (fun i => by unfold rdM; rw [dif_pos i.isLt]), pure_bind, intM_ok (by omega) (by omega),
          pure_bind]
        refine Ok.pure ⟨h2, fun t => ?_, fun t => ?_⟩
        · simp only []
          by_cases e : t = ⟨k, hk⟩
          · subst e; rw [Function.update_self, if_pos (by simp)]
            simp only [transposed, if_pos hpos]
          · rw [Function.update_of_ne e, h1]
            have : t.val ≠ k := fun h => e (Fin.ext h)
            by_cases h3 : t.val < k
            · rw [if_pos h3, if_pos (by omega)]
            · rw [if_neg h3, if_neg (by omega)]
        · simp only []
          by_cases e : t = ⟨k, hk⟩
          · subst e; rw [Function.update_self, if_pos (by simp)]
            simp only [transposed, if_pos hpos]
          · rw [Function.update_of_ne e, h3]
            have : t.val ≠ k := fun h => e (Fin.ext h)
            by_cases h3 : t.val < k
            · rw [if_pos h3, if_pos (by omega)]
            · rw [if_neg h3, if_neg (by omega)]
      · rw [if_neg hpos]
        refine Ok.pure ⟨h2, fun t => ?_, fun t => ?_⟩
        · rw [h1]
          by_cases e : t = ⟨k, hk⟩
          · subst e
            simp only [transposed, if_neg hpos, ite_self]
          · have : t.val ≠ k := fun h => e (Fin.ext h)
            by_cases h3 : t.val < k
            · rw [if_pos h3, if_pos (by omega)]
            · rw [if_neg h3, if_neg (by omega)]
        · rw [h3]
          by_cases e : t = ⟨k, hk⟩
          · subst e
            simp only [transposed, if_neg hpos, ite_self]
          · have : t.val ≠ k := fun h => e (Fin.ext h)
            by_cases h3 : t.val < k
            · rw [if_pos h3, if_pos (by omega)]
            · rw [if_neg h3, if_neg (by omega)])
  rw [e]
  congr 1
  rcases X with ⟨v, o, z⟩
  simp only [] at h1 h2 h3
  subst h2
  unfold transposed
  congr 1
  · exact funext fun s => by rw [h3 s, if_pos s.isLt]; rfl
  · exact funext fun s => by rw [h1 s, if_pos s.isLt]; rfl

theorem dg_transpose (o : Int) (v : Fin N → ℝ) :
    dg (N - o) (fun i => v (shift (-o) i)) = (dg o v).transpose := by
  funext i j
  simp only [dg, Matrix.transpose_apply]
  have e : shift ((N : Int) - o) i = shift (-o) i := shift_congr (by simp) i
  rw [e]
  by_cases h : shift (-o) i = j
  · subst h
    rw [if_pos rfl, if_pos (shift_cancel (by simp) i)]
  · rw [if_neg h, if_neg]
    intro h2
    exact h (by rw [← h2]; exact shift_cancel (by simp) j)

theorem den_transposed {A : SparseDiagonal N S} (hr : ∀ s, 0 ≤ A.off s) :
    den (transposed A) = (den A).transpose := by
  rw [den_eq, den_eq, Matrix.transpose_sum]
  refine Finset.sum_congr rfl fun s _ => ?_
  simp only [transposed]
  by_cases h : 0 < A.off s
  · simp only [if_pos h]
    exact dg_transpose _ _
  · have h0 : A.off s = 0 := by have := hr s; omega
    simp only [if_neg h]
    rw [h0]
    funext i j
    simp only [dg, Matrix.transpose_apply, shift_zero]
    by_cases e : i = j
    · subst e; rfl
    · rw [if_neg e, if_neg (Ne.symm e)]

theorem transposed_inRange {A : SparseDiagonal N S} (hr : InRange A) : InRange (transposed A) := by
  intro s
  have := hr s
  simp only [transposed]
  split <;> omega

theorem transposed_firstOwns {A : SparseDiagonal N S} (hr : InRange A) (hf : FirstOwns A) :
    FirstOwns (transposed A) := by
  intro s s' hs ho i
  have h1 := hr s
  have h2 := hr s'
  simp only [transposed] at ho ⊢
  have hoo : A.off s = A.off s' := by
    split at ho <;> split at ho <;> omega
  split <;> exact hf s s' hs hoo _

theorem transposed_flagSound {A : SparseDiagonal N S} (hf : FlagSound A) : FlagSound (transposed A) := by
  intro s hs i
  simp only [transposed] at hs ⊢
  split <;> exact hf s hs _

end SparseDiagonal

/-! ## Products -/

/-- shape of the destination of `MatMul` when `count` diagonals are in use -/
def MMInv (C : SparseDiagonal N S) (count : Nat) : Prop :=
  (∀ k : Fin S, k.val < count → (0 ≤ C.off k ∧ C.off k < N) ∧ C.zero k = false) ∧
  (∀ k : Fin S, count ≤ k.val → C.vec k = (fun _ => 0) ∧ C.off k = 0 ∧ C.zero k = true) ∧
  (∀ k k' : Fin S, k.val < count → k'.val < count → C.off k = C.off k' → k = k')

theorem MMInv.zero : MMInv (⟨fun _ _ => 0, fun _ => 0, fun _ => true⟩ : SparseDiagonal N S) 0 :=
  ⟨fun k h => absurd h (by omega), fun k _ => ⟨rfl, rfl, rfl⟩, fun k k' h => absurd h (by omega)⟩

theorem MMInv.flagSound {C : SparseDiagonal N S} {c : Nat} (h : MMInv C c) : C.FlagSound := by
  intro s hs i
  by_cases hc : s.val < c
  · rw [(h.1 s hc).2] at hs; cases hs
  · rw [(h.2.1 s (by omega)).1]

theorem MMInv.inRange {C : SparseDiagonal N S} {c : Nat} (h : MMInv C c) (hN : 1 ≤ N) : C.InRange := by
  intro s
  by_cases hc : s.val < c
  · exact (h.1 s hc).1
  · rw [(h.2.1 s (by omega)).2.1]; omega

theorem MMInv.firstOwns {C : SparseDiagonal N S} {c : Nat} (h : MMInv C c) : C.FirstOwns := by
  intro s s' hs ho i
  by_cases hc : s'.val < c
  · have := h.2.2 s s' (by have := Fin.lt_def.1 hs; omega) hc ho
    exact absurd hs (by rw [this]; exact lt_irrefl _)
  · rw [(h.2.1 s' (by omega)).1]

theorem findOff_spec (off : Fin S → Int) {count : Nat} (hc : count ≤ S) (o : Int) :
    Ok (findOff off count o) fun r => match r with
      | some k => ∃ h : k < S, k < count ∧ off ⟨k, h⟩ = o
      | none => ∀ k : Fin S, k.val < count → off k ≠ o := by
  unfold findOff
  refine forUp_inv (P := fun c (r : Option Nat) => match r with
      | some k => ∃ h : k < S, k < count ∧ off ⟨k, h⟩ = o
      | none => ∀ k : Fin S, k.val < c → off k ≠ o) (Nat.zero_le count) (fun k h => absurd h (by omega)) ?_
  rintro k (_ | s) _ hk hP
  · simp only [] at hP ⊢
    rw [rd_of_lt _ (by omega), pure_bind]
    refine Ok.pure ?_
    by_cases e : off ⟨k, by omega⟩ = o
    · rw [if_pos e]; exact ⟨by omega, hk, e⟩
    · rw [if_neg e]
      intro t ht
      by_cases h2 : t = ⟨k, by omega⟩
      · rw [h2]; exact e
      · exact hP t (by have : t.val ≠ k := fun h => h2 (Fin.ext h); omega)
  · exact Ok.pure hP

theorem findOffC_eq (offr offi : Fin S → Int) {count : Nat} (hc : count ≤ S) (o : Int)
    (h : ∀ k, offr k = offi k) : Ok (findOffC offr offi count o) fun r => match r with
      | some k => ∃ h : k < S, k < count ∧ offr ⟨k, h⟩ = o
      | none => ∀ k : Fin S, k.val < count → offr k ≠ o := by
  unfold findOffC
  refine forUp_inv (P := fun c (r : Option Nat) => match r with
      | some k => ∃ h : k < S, k < count ∧ offr ⟨k, h⟩ = o
      | none => ∀ k : Fin S, k.val < c → offr k ≠ o) (Nat.zero_le count) (fun k h => absurd h (by omega)) ?_
  rintro k (_ | s) _ hk hP
  · simp only [] at hP ⊢
    have ha : assertM (decide (offr ⟨k, by omega⟩ = offi ⟨k, by omega⟩)) = pure () := by
      rw [h]; simp [assertM]
    rw [rd_of_lt _ (by omega), pure_bind, rd_of_lt _ (by omega), pure_bind, ha, pure_bind]
    refine Ok.pure ?_
    by_cases e : offr ⟨k, by omega⟩ = o
    · rw [if_pos e]; exact ⟨by omega, hk, e⟩
    · rw [if_neg e]
      intro t ht
      by_cases h2 : t = ⟨k, by omega⟩
      · rw [h2]; exact e
      · exact hP t (by have : t.val ≠ k := fun h => h2 (Fin.ext h); omega)
  · exact Ok.pure hP

theorem openDiag_eq (C : SparseDiagonal N S) (k : Fin S) (o : Int) : openDiag C k o =
    pure { C with zero := Function.update C.zero k false, off := Function.update C.off k o } := by
  unfold openDiag
  rw [wr_fin, pure_bind, wr_fin, pure_bind]

theorem MMInv.open {C : SparseDiagonal N S} {k : Fin S} (h : MMInv C k) {o : Int} (ho : 0 ≤ o ∧ o < N)
    (hnew : ∀ t : Fin S, t.val < k → C.off t ≠ o) :
    MMInv { C with zero := Function.update C.zero k false, off := Function.update C.off k o } (k + 1) := by
  refine ⟨fun t ht => ?_, fun t ht => ?_, fun t t' ht ht' e => ?_⟩
  · simp only []
    by_cases e : t = k
    · subst e; rw [Function.update_self, Function.update_self]; exact ⟨ho, rfl⟩
    · rw [Function.update_of_ne e, Function.update_of_ne e]
      exact h.1 t (by have : t.val ≠ k.val := fun h => e (Fin.ext h); omega)
  · have e : t ≠ k := fun h => by rw [h] at ht; omega
    simp only []
    rw [Function.update_of_ne e, Function.update_of_ne e]
    exact h.2.1 t (by omega)
  · simp only [] at e
    by_cases e1 : t = k <;> by_cases e2 : t' = k
    · rw [e1, e2]
    · rw [e1, Function.update_self, Function.update_of_ne e2] at e
      have : t'.val ≠ k.val := fun h => e2 (Fin.ext h)
      exact absurd e.symm (hnew t' (by omega))
    · rw [e2, Function.update_self, Function.update_of_ne e1] at e
      have : t.val ≠ k.val := fun h => e1 (Fin.ext h)
      exact absurd e (hnew t (by omega))
    · rw [Function.update_of_ne e1, Function.update_of_ne e2] at e
      have h1 : t.val ≠ k.val := fun h => e1 (Fin.ext h)
      have h2 : t'.val ≠ k.val := fun h => e2 (Fin.ext h)
      exact h.2.2 t t' (by omega) (by omega) e

theorem den_open {C : SparseDiagonal N S} {k : Fin S} (h : C.vec k = fun _ => 0) (o : Int) (z : Fin S → Bool) :
    SparseDiagonal.den { C with zero := z, off := Function.update C.off k o } = C.den := by
  rw [SparseDiagonal.den_eq, SparseDiagonal.den_eq]
  refine Finset.sum_congr rfl fun t _ => ?_
  simp only []
  by_cases e : t = k
  · subst e; rw [h, dg_zero, dg_zero]
  · rw [Function.update_of_ne e]

theorem accDiag_eq (hN : N ≤ 2^30) (C : SparseDiagonal N S) (k : Fin S) (sgn : ℝ) (a b : Fin N → ℝ) {o : Int}
    (ho : 0 ≤ o ∧ o < N) : accDiag C k sgn a b o =
      pure { C with vec := Function.update C.vec k (fun i => C.vec k i + sgn * (a i * b (shift o i))) } := by
  unfold accDiag
  rw [rd_fin, pure_bind]
  obtain ⟨v, e, hv⟩ := forUp_inv (lo := 0) (hi := N) (s := C.vec k) (body := fun i v => (do
    let c ← rd v i
    let x ← rd a i
    let j ← wrapIdx N i o
    let y ← rd b j
    wr v i (c + sgn * (x * y)) : M (Fin N → ℝ))) (Nat.zero_le N)
    (P := fun n v => ∀ i : Fin N, v i = if i.val < n then C.vec k i + sgn * (a i * b (shift o i)) else C.vec k i)
    (fun i => by simp) (by
      intro n v _ hn hP
      have hw := wrapIdx_ok hN ho ⟨n, hn⟩
      simp only [] at hw
      rw [rd_of_lt _ hn, pure_bind, rd_of_lt _ hn, pure_bind, hw, pure_bind, rd_fin, pure_bind, wr_of_lt _ hn]
      refine Ok.pure fun i => ?_
      by_cases e : i = ⟨n, hn⟩
      · subst e; rw [Function.update_self, if_pos (by simp), hP, if_neg (by simp)]
      · rw [Function.update_of_ne e, hP]
        have : i.val ≠ n := fun h => e (Fin.ext h)
        by_cases h3 : i.val < n
        · rw [if_pos h3, if_pos (by omega)]
        · rw [if_neg h3, if_neg (by omega)])
  rw [e, pure_bind, wr_fin, pure_bind]
  congr 3
  funext i
  rw [hv i, if_pos i.isLt]

theorem den_acc (C : SparseDiagonal N S) (k : Fin S) (w : Fin N → ℝ) :
    SparseDiagonal.den { C with vec := Function.update C.vec k (fun i => C.vec k i + w i) } =
      C.den + dg (C.off k) w := by
  rw [SparseDiagonal.den_eq, SparseDiagonal.den_eq, ← Finset.add_sum_erase _ _ (Finset.mem_univ k),
    ← Finset.add_sum_erase (a := k) Finset.univ (fun s => dg (C.off s) (C.vec s)) (Finset.mem_univ k)]
  simp only [Function.update_self]
  rw [dg_add, add_right_comm]
  congr 2
  refine Finset.sum_congr rfl fun t ht => ?_
  rw [Function.update_of_ne (Finset.ne_of_mem_erase ht)]

theorem MMInv.acc {C : SparseDiagonal N S} {c : Nat} (h : MMInv C c) {k : Fin S} (hk : k.val < c) (w : Fin N → ℝ) :
    MMInv { C with vec := Function.update C.vec k w } c := by
  refine ⟨h.1, fun t ht => ?_, h.2.2⟩
  have e : t ≠ k := fun h => by rw [h] at ht; omega
  simp only []
  rw [Function.update_of_ne e]
  exact h.2.1 t ht

/-- diagonal number `n` as a matrix, 0 outside -/
noncomputable def dgn (A : SparseDiagonal N S) (n : Nat) : Matrix (Fin N) (Fin N) ℝ :=
  if h : n < S then dg (A.off ⟨n, h⟩) (A.vec ⟨n, h⟩) else 0

theorem den_dgn (A : SparseDiagonal N S) : A.den = ∑ n ∈ Finset.range S, dgn A n := by
  rw [SparseDiagonal.den_eq, Finset.sum_range]
  exact Finset.sum_congr rfl fun s _ => by simp [dgn]

theorem slot_spec {C : SparseDiagonal N S} {c : Nat} (h : MMInv C c) (hc : c < S) {o : Int}
    (ho : 0 ≤ o ∧ o < N) : Ok (slot (c, C) o) fun r => ∃ k : Fin S, r.1 = k.val ∧ k.val < r.2.1 ∧
      r.2.1 ≤ c + 1 ∧ MMInv r.2.2 r.2.1 ∧ r.2.2.off k = o ∧ r.2.2.den = C.den := by
  unfold slot
  refine Ok.bind (findOff_spec C.off (le_of_lt hc) o) ?_
  rintro (_ | s3) hr
  · simp only [] at hr ⊢
    rw [openDiag_eq C ⟨c, hc⟩, pure_bind]
    refine Ok.pure ⟨⟨c, hc⟩, rfl, by simp, by simp, MMInv.open (k := ⟨c, hc⟩) h ho hr, by simp, ?_⟩
    exact den_open (h.2.1 ⟨c, hc⟩ (le_refl _)).1 _ _
  · obtain ⟨h1, h2, h3⟩ := hr
    exact Ok.pure ⟨⟨s3, h1⟩, rfl, h2, by simp, h, h3, rfl⟩

theorem off3_ok (hN : N ≤ 2^30) {o o' : Int} (h : 0 ≤ o ∧ o < N) (h' : 0 ≤ o' ∧ o' < N) :
    intM (o + o') = pure (o + o') ∧ Int.tmod (o + o') N = (o + o') % N ∧
      (0 ≤ (o + o') % N ∧ (o + o') % N < N) :=
  ⟨intM_ok (by omega) (by omega), Int.tmod_eq_emod_of_nonneg (by omega),
    Int.emod_nonneg _ (by omega), Int.emod_lt_of_pos _ (by omega)⟩

theorem matMulStep_spec (hN : N ≤ 2^30) {A : SparseDiagonal N S1} {B : SparseDiagonal N S2}
    (hA : A.InRange) (hB : B.InRange) {s1 s2 : Nat} (h1 : s1 < S1) (h2 : s2 < S2)
    {st : Nat × SparseDiagonal N (S1 * S2)} (h : MMInv st.2 st.1) (hc : st.1 < S1 * S2) :
    Ok (matMulStep A B s1 s2 st) fun r => r.1 ≤ st.1 + 1 ∧ MMInv r.2 r.1 ∧
      r.2.den = st.2.den + dgn A s1 * dgn B s2 := by
  obtain ⟨c, C⟩ := st
  unfold matMulStep
  obtain ⟨e1, e2, e3⟩ := off3_ok hN (hA ⟨s1, h1⟩) (hB ⟨s2, h2⟩)
  rw [rd_of_lt _ h1, pure_bind, rd_of_lt _ h2, pure_bind, e1, pure_bind]
  refine Ok.bind (slot_spec h hc (by rw [e2]; exact e3)) ?_
  rintro ⟨s3, c', C'⟩ ⟨k, hk1, hk2, hk3, hk4, hk5, hk6⟩
  simp only [] at hk1 hk2 hk3 hk4 hk5 hk6 ⊢
  subst hk1
  rw [rd_of_lt _ h1, pure_bind, rd_of_lt _ h2, pure_bind, accDiag_eq hN _ _ _ _ _ (hA _), pure_bind]
  refine Ok.pure ⟨hk3, hk4.acc hk2 _, ?_⟩
  rw [den_acc, hk5, hk6, e2]
  congr 1
  unfold dgn
  rw [dif_pos h1, dif_pos h2, dg_mul]
  simp only [one_mul]

theorem MatMul_spec (hN : N ≤ 2^30) {A : SparseDiagonal N S1} {B : SparseDiagonal N S2}
    (hA : A.InRange) (hB : B.InRange) (C0 : SparseDiagonal N (S1 * S2)) :
    Ok (MatMul A B C0) fun C => (∃ c, MMInv C c) ∧ C.den = A.den * B.den := by
  unfold MatMul
  rw [SparseDiagonal.setzero_eq]
  refine Ok.bind (forUp_inv (P := fun n (st : Nat × SparseDiagonal N (S1 * S2)) => st.1 ≤ n * S2 ∧
    MMInv st.2 st.1 ∧ st.2.den = (∑ t ∈ Finset.range n, dgn A t) * B.den) (Nat.zero_le S1) ?_ ?_) ?_
  · refine ⟨by simp, MMInv.zero, ?_⟩
    rw [Finset.range_zero, Finset.sum_empty, zero_mul, SparseDiagonal.den_eq]
    exact Finset.sum_eq_zero fun s _ => dg_zero _
  · rintro n st _ hn ⟨h1, h2, h3⟩
    refine Ok.mono (forUp_inv (P := fun m (st : Nat × SparseDiagonal N (S1 * S2)) => st.1 ≤ n * S2 + m ∧
      MMInv st.2 st.1 ∧ st.2.den = (∑ t ∈ Finset.range n, dgn A t) * B.den +
        dgn A n * ∑ t ∈ Finset.range m, dgn B t) (Nat.zero_le S2) ⟨h1, h2, by simpa using h3⟩ ?_) ?_
    · rintro m st _ hm ⟨g1, g2, g3⟩
      have hlt : st.1 < S1 * S2 := by
        have : (n + 1) * S2 ≤ S1 * S2 := Nat.mul_le_mul_right _ hn
        have e : (n + 1) * S2 = n * S2 + S2 := by ring
        omega
      refine Ok.mono (matMulStep_spec hN hA hB hn hm g2 hlt) ?_
      rintro ⟨c, C⟩ ⟨k1, k2, k3⟩
      refine ⟨by omega, k2, ?_⟩
      rw [k3, g3, Finset.sum_range_succ, Matrix.mul_add, add_assoc]
    · rintro ⟨c, C⟩ ⟨g1, g2, g3⟩
      refine ⟨by rw [Nat.succ_mul]; exact g1, g2, ?_⟩
      rw [g3, ← den_dgn, Finset.sum_range_succ, Matrix.add_mul]
  · rintro ⟨c, C⟩ ⟨g1, g2, g3⟩
    refine Ok.pure ⟨⟨c, g2⟩, ?_⟩
    rw [g3, ← den_dgn]

theorem slotC_spec {Cr Ci : SparseDiagonal N S} {c : Nat} (hr : MMInv Cr c) (hi : MMInv Ci c)
    (hs : ∀ k, Cr.off k = Ci.off k) (hc : c < S) {o : Int}
    (ho : 0 ≤ o ∧ o < N) : Ok (slotC (c, Cr, Ci) o) fun r => ∃ k : Fin S, r.1 = k.val ∧ k.val < r.2.1 ∧
      r.2.1 ≤ c + 1 ∧ MMInv r.2.2.1 r.2.1 ∧ MMInv r.2.2.2 r.2.1 ∧ (∀ k, r.2.2.1.off k = r.2.2.2.off k) ∧
      r.2.2.1.off k = o ∧ r.2.2.1.den = Cr.den ∧ r.2.2.2.den = Ci.den := by
  unfold slotC
  refine Ok.bind (findOffC_eq Cr.off Ci.off (le_of_lt hc) o hs) ?_
  rintro (_ | s3) hres
  · simp only [] at hres ⊢
    rw [openDiag_eq Cr ⟨c, hc⟩, pure_bind, openDiag_eq Ci ⟨c, hc⟩, pure_bind]
    refine Ok.pure ⟨⟨c, hc⟩, rfl, by simp, by simp, MMInv.open (k := ⟨c, hc⟩) hr ho hres,
      MMInv.open (k := ⟨c, hc⟩) hi ho (fun t ht => by rw [← hs]; exact hres t ht), ?_, by simp,
      den_open (hr.2.1 ⟨c, hc⟩ (le_refl _)).1 _ _, den_open (hi.2.1 ⟨c, hc⟩ (le_refl _)).1 _ _⟩
    intro k
    simp only []
    rw [funext hs]
  · obtain ⟨h1, h2, h3⟩ := hres
    exact Ok.pure ⟨⟨s3, h1⟩, rfl, h2, by simp, hr, hi, hs, h3, rfl, rfl⟩

theorem matMulCStep_spec (hN : N ≤ 2^30) {Ar Ai : SparseDiagonal N S1} {Br Bi : SparseDiagonal N S2}
    (hA : Ar.InRange) (hB : Br.InRange) {s1 s2 : Nat} (h1 : s1 < S1) (h2 : s2 < S2)
    (hAo : Ar.off ⟨s1, h1⟩ = Ai.off ⟨s1, h1⟩) (hBo : Br.off ⟨s2, h2⟩ = Bi.off ⟨s2, h2⟩)
    {st : Nat × SparseDiagonal N (S1 * S2) × SparseDiagonal N (S1 * S2)} (hr : MMInv st.2.1 st.1)
    (hi : MMInv st.2.2 st.1) (hs : ∀ k, st.2.1.off k = st.2.2.off k) (hc : st.1 < S1 * S2) :
    Ok (matMulCStep Ar Ai Br Bi s1 s2 st) fun r => r.1 ≤ st.1 + 1 ∧ MMInv r.2.1 r.1 ∧ MMInv r.2.2 r.1 ∧
      (∀ k, r.2.1.off k = r.2.2.off k) ∧
      r.2.1.den = st.2.1.den + (dgn Ar s1 * dgn Br s2 - dgn Ai s1 * dgn Bi s2) ∧
      r.2.2.den = st.2.2.den + (dgn Ar s1 * dgn Bi s2 + dgn Ai s1 * dgn Br s2) := by
  obtain ⟨c, Cr, Ci⟩ := st
  simp only [] at hr hi hs hc
  unfold matMulCStep
  obtain ⟨e1, e2, e3⟩ := off3_ok hN (hA ⟨s1, h1⟩) (hB ⟨s2, h2⟩)
  have a1 : assertM (decide (Ar.off ⟨s1, h1⟩ = Ai.off ⟨s1, h1⟩)) = pure () := by
    rw [hAo]; simp [assertM]
  have a2 : assertM (decide (Br.off ⟨s2, h2⟩ = Bi.off ⟨s2, h2⟩)) = pure () := by
    rw [hBo]; simp [assertM]
  rw [rd_of_lt _ h1, pure_bind, rd_of_lt _ h1, pure_bind, a1, pure_bind, rd_of_lt _ h2, pure_bind,
    rd_of_lt _ h2, pure_bind, a2, pure_bind, e1, pure_bind]
  refine Ok.bind (slotC_spec hr hi hs hc (by rw [e2]; exact e3)) ?_
  rintro ⟨s3, c', Cr', Ci'⟩ ⟨k, hk1, hk2, hk3, hk4, hk4', hk5, hk6, hk7, hk8⟩
  simp only [] at hk1 hk2 hk3 hk4 hk4' hk5 hk6 hk7 hk8 ⊢
  subst hk1
  rw [rd_of_lt _ h1, pure_bind, rd_of_lt _ h1, pure_bind, rd_of_lt _ h2, pure_bind, rd_of_lt _ h2, pure_bind]
  rw [accDiag_eq hN _ _ _ _ _ (hA _), pure_bind, accDiag_eq hN _ _ _ _ _ (hA _), pure_bind,
    accDiag_eq hN _ _ _ _ _ (hA _), pure_bind, accDiag_eq hN _ _ _ _ _ (hA _), pure_bind]
  refine Ok.pure ⟨hk3, (hk4.acc hk2 _).acc hk2 _, (hk4'.acc hk2 _).acc hk2 _, hk5, ?_, ?_⟩
  · rw [den_acc, den_acc, add_assoc, ← dg_add]
    rw [hk6, hk7, e2]
    congr 1
    unfold dgn
    rw [dif_pos h1, dif_pos h2, dif_pos h1, dif_pos h2, dg_mul, dg_mul, ← hAo, ← hBo, sub_eq_add_neg]
    funext i j
    simp only [dg, Matrix.add_apply, Matrix.neg_apply]
    split <;> simp
  · rw [den_acc, den_acc, add_assoc, ← dg_add]
    rw [← hk5, hk6, hk8, e2]
    congr 1
    unfold dgn
    rw [dif_pos h1, dif_pos h2, dif_pos h1, dif_pos h2, dg_mul, dg_mul, ← hAo, ← hBo]
    funext i j
    simp only [dg, Matrix.add_apply]
    split <;> simp

theorem dgn_flag {A : SparseDiagonal N S} (h : A.FlagSound) {n : Nat} (hn : n < S) (hz : A.zero ⟨n, hn⟩ = true) :
    dgn A n = 0 := by
  unfold dgn
  rw [dif_pos hn, show A.vec ⟨n, hn⟩ = (fun _ => 0) from funext fun i => h _ hz i, dg_zero]

theorem MatMulC_spec (hN : N ≤ 2^30) {Ar Ai : SparseDiagonal N S1} {Br Bi : SparseDiagonal N S2}
    (hA : Ar.InRange) (hB : Br.InRange) (hAo : Ar.SameOff Ai) (hBo : Br.SameOff Bi)
    (fAr : Ar.FlagSound) (fAi : Ai.FlagSound) (fBr : Br.FlagSound) (fBi : Bi.FlagSound)
    (Cr0 Ci0 : SparseDiagonal N (S1 * S2)) :
    Ok (MatMulC Ar Ai Br Bi Cr0 Ci0) fun r => (∃ c, MMInv r.1 c ∧ MMInv r.2 c) ∧
      (∀ k, r.1.off k = r.2.off k) ∧
      r.1.den = Ar.den * Br.den - Ai.den * Bi.den ∧ r.2.den = Ar.den * Bi.den + Ai.den * Br.den := by
  unfold MatMulC
  rw [SparseDiagonal.setzero_eq, SparseDiagonal.setzero_eq]
  have hz : SparseDiagonal.den (⟨fun _ _ => 0, fun _ => 0, fun _ => true⟩ : SparseDiagonal N (S1 * S2)) = 0 := by
    rw [SparseDiagonal.den_eq]
    exact Finset.sum_eq_zero fun s _ => dg_zero _
  refine Ok.bind (forUp_inv
    (P := fun n (st : Nat × SparseDiagonal N (S1 * S2) × SparseDiagonal N (S1 * S2)) => st.1 ≤ n * S2 ∧
    (MMInv st.2.1 st.1 ∧ MMInv st.2.2 st.1 ∧ ∀ k, st.2.1.off k = st.2.2.off k) ∧
    st.2.1.den = (∑ t ∈ Finset.range n, dgn Ar t) * Br.den - (∑ t ∈ Finset.range n, dgn Ai t) * Bi.den ∧
    st.2.2.den = (∑ t ∈ Finset.range n, dgn Ar t) * Bi.den + (∑ t ∈ Finset.range n, dgn Ai t) * Br.den)
      (Nat.zero_le S1) ?_ ?_) ?_
  · refine ⟨by simp, ⟨MMInv.zero, MMInv.zero, fun _ => rfl⟩, ?_, ?_⟩
    · simpa using hz
    · simpa using hz
  · rintro n st _ hn ⟨h1, h2, h3, h4⟩
    refine Ok.mono (forUp_inv
      (P := fun m (st : Nat × SparseDiagonal N (S1 * S2) × SparseDiagonal N (S1 * S2)) => st.1 ≤ n * S2 + m ∧
      (MMInv st.2.1 st.1 ∧ MMInv st.2.2 st.1 ∧ ∀ k, st.2.1.off k = st.2.2.off k) ∧
      st.2.1.den = (∑ t ∈ Finset.range n, dgn Ar t) * Br.den - (∑ t ∈ Finset.range n, dgn Ai t) * Bi.den +
        (dgn Ar n * (∑ t ∈ Finset.range m, dgn Br t) - dgn Ai n * (∑ t ∈ Finset.range m, dgn Bi t)) ∧
      st.2.2.den = (∑ t ∈ Finset.range n, dgn Ar t) * Bi.den + (∑ t ∈ Finset.range n, dgn Ai t) * Br.den +
        (dgn Ar n * (∑ t ∈ Finset.range m, dgn Bi t) + dgn Ai n * (∑ t ∈ Finset.range m, dgn Br t)))
      (Nat.zero_le S2) ⟨h1, h2, by simpa using h3, by simpa using h4⟩ ?_) ?_
    · rintro m st _ hm ⟨g1, g2, g3, g4⟩
      have hlt : st.1 < S1 * S2 := by
        have : (n + 1) * S2 ≤ S1 * S2 := Nat.mul_le_mul_right _ hn
        have e : (n + 1) * S2 = n * S2 + S2 := by ring
        omega
      unfold skipC
      rw [rd_of_lt _ hn, pure_bind, rd_of_lt _ hn, pure_bind, rd_of_lt _ hm, pure_bind, rd_of_lt _ hm,
        pure_bind, pure_bind]
      split
      · rename_i hskip
        refine Ok.pure ⟨by omega, g2, ?_, ?_⟩
        all_goals
          simp only [Bool.or_eq_true, Bool.and_eq_true] at hskip
          rcases hskip with ⟨z1, z2⟩ | ⟨z1, z2⟩
          · rw [dgn_flag fAr hn z1, dgn_flag fAi hn z2] at *
            simp only [Matrix.zero_mul] at *
            first | exact g3 | exact g4
          · rw [Finset.sum_range_succ, Finset.sum_range_succ, dgn_flag fBr hm z1, dgn_flag fBi hm z2,
              add_zero, add_zero]
            first | exact g3 | exact g4
      · rename_i hskip
        simp only [Bool.or_eq_true, Bool.and_eq_true, not_or] at hskip
        refine Ok.mono (matMulCStep_spec hN hA hB hn hm (hAo _ hskip.1) (hBo _ hskip.2) g2.1 g2.2.1 g2.2.2 hlt) ?_
        rintro ⟨c, Cr, Ci⟩ ⟨k1, k2, k2', k3, k4, k5⟩
        refine ⟨by omega, ⟨k2, k2', k3⟩, ?_, ?_⟩
        · rw [k4, g3, Finset.sum_range_succ, Finset.sum_range_succ, Matrix.mul_add, Matrix.mul_add]
          abel
        · rw [k5, g4, Finset.sum_range_succ, Finset.sum_range_succ, Matrix.mul_add, Matrix.mul_add]
          abel
    · rintro ⟨c, Cr, Ci⟩ ⟨g1, g2, g3, g4⟩
      refine ⟨by rw [Nat.succ_mul]; exact g1, g2, ?_, ?_⟩
      · rw [g3, ← den_dgn, ← den_dgn, Finset.sum_range_succ, Finset.sum_range_succ, Matrix.add_mul, Matrix.add_mul]
        abel
      · rw [g4, ← den_dgn, ← den_dgn, Finset.sum_range_succ, Finset.sum_range_succ, Matrix.add_mul, Matrix.add_mul]
        abel
  · rintro ⟨c, Cr, Ci⟩ ⟨g1, ⟨g2, g2', g2''⟩, g3, g4⟩
    refine Ok.pure ⟨⟨c, g2, g2'⟩, g2'', ?_, ?_⟩
    · rw [g3, ← den_dgn, ← den_dgn]
    · rw [g4, ← den_dgn, ← den_dgn]


/-! ## Matrix-vector products -/

/-- one diagonal of a complex matrix applied to a vector, row `i` -/
noncomputable def rowTerm {H : Nat} (zr zi : Fin H → ℝ) (Ar Ai : SparseDiagonal H S) (i : Fin H) (n : Nat) : ℂ :=
  if h : n < S then (⟨Ar.vec ⟨n, h⟩ i, Ai.vec ⟨n, h⟩ i⟩ : ℂ) * toC zr zi (shift (Ar.off ⟨n, h⟩) i) else 0

theorem sum_rowTerm {H : Nat} (zr zi : Fin H → ℝ) (Ar Ai : SparseDiagonal H S) (i : Fin H)
    (ho : ∀ s, (Ar.vec s i ≠ 0 ∨ Ai.vec s i ≠ 0) → Ar.off s = Ai.off s) :
    ∑ n ∈ range S, rowTerm zr zi Ar Ai i n = (SparseDiagonal.denC Ar Ai).mulVec (toC zr zi) i := by
  rw [Finset.sum_range]
  unfold Matrix.mulVec dotProduct
  have e : ∀ j, SparseDiagonal.denC Ar Ai i j * toC zr zi j =
      ∑ s, if shift (Ar.off s) i = j then (⟨Ar.vec s i, Ai.vec s i⟩ : ℂ) * toC zr zi j else 0 := by
    intro j
    have e2 : SparseDiagonal.denC Ar Ai i j =
        ∑ s, if shift (Ar.off s) i = j then (⟨Ar.vec s i, Ai.vec s i⟩ : ℂ) else 0 := by
      unfold SparseDiagonal.denC SparseDiagonal.den
      apply Complex.ext
      · simp only [Complex.re_sum]
        refine Finset.sum_congr rfl fun s _ => ?_
        unfold dg
        split <;> rfl
      · simp only [Complex.im_sum]
        refine Finset.sum_congr rfl fun s _ => ?_
        unfold dg
        by_cases h : Ai.vec s i = 0
        · rw [h]; split <;> split <;> rfl
        · rw [ho s (Or.inr h)]; split <;> rfl
    rw [e2, Finset.sum_mul]
    refine Finset.sum_congr rfl fun s _ => ?_
    split <;> simp
  simp only [e]
  rw [Finset.sum_comm]
  refine Finset.sum_congr rfl fun s _ => ?_
  unfold rowTerm
  rw [dif_pos s.isLt, Finset.sum_ite_eq, if_pos (Finset.mem_univ _)]

theorem mvpRow_spec {H : Nat} (hH : H ≤ 2^30) (zr zi : Fin H → ℝ) {Ar Ai : SparseDiagonal H 3}
    (hr : Ar.InRange) (ho : Ar.off = Ai.off) (i : Fin H) :
    Ok (mvpRow zr zi Ar Ai i) fun r => (⟨r.1, r.2⟩ : ℂ) = (SparseDiagonal.denC Ar Ai).mulVec (toC zr zi) i := by
  unfold mvpRow
  refine Ok.mono (forUp_inv (P := fun n (r : ℝ × ℝ) => (⟨r.1, r.2⟩ : ℂ) = ∑ n ∈ range n, rowTerm zr zi Ar Ai i n)
    (Nat.zero_le 3) ?_ ?_) ?_
  · rw [Finset.range_zero, Finset.sum_empty]; rfl
  · rintro k ⟨x, y⟩ _ hk hP
    simp only [] at hP
    have h1 := wrapIdx_ok hH (hr ⟨k, hk⟩) i
    rw [rd_of_lt _ hk, pure_bind, rd_of_lt _ hk, pure_bind, ← ho, h1, pure_bind, pure_bind, rd_of_lt _ hk,
      pure_bind, rd_fin, pure_bind, rd_of_lt _ hk, pure_bind, rd_fin, pure_bind, rd_fin, pure_bind, rd_fin,
      pure_bind]
    refine Ok.pure ?_
    rw [Finset.sum_range_succ, ← hP]
    unfold rowTerm toC
    rw [dif_pos hk]
    apply Complex.ext <;> simp
  · intro r hr'
    rw [hr', sum_rowTerm _ _ _ _ _ (fun s _ => congrFun ho s)]

theorem mvp_spec {H : Nat} (hH : H ≤ 2^30) (zr zi : Fin H → ℝ) {Ar Ai : SparseDiagonal H 3}
    (hr : Ar.InRange) (ho : Ar.off = Ai.off) :
    Ok (matrix_vector_product zr zi Ar Ai) fun r =>
      toC r.1 r.2 = (SparseDiagonal.denC Ar Ai).mulVec (toC zr zi) := by
  unfold matrix_vector_product
  refine Ok.bind (tabM_spec (P := fun n (r : ℝ × ℝ) => ∀ h : n < H,
    (⟨r.1, r.2⟩ : ℂ) = (SparseDiagonal.denC Ar Ai).mulVec (toC zr zi) ⟨n, h⟩) ?_) ?_
  · intro n hn
    exact Ok.mono (mvpRow_spec hH zr zi hr ho ⟨n, hn⟩) fun r h _ => h
  · intro rows h
    exact Ok.pure (funext fun i => h i i.isLt)

theorem mvpMsgRow_spec {H : Nat} (hH : H ≤ 2^30) (zr zi : Fin H → ℝ) {Ar Ai : SparseDiagonal H S}
    (hr : Ar.InRange) (ho : Ar.SameOff Ai) (fr : Ar.FlagSound) (fi : Ai.FlagSound) (i : Fin H) :
    Ok (mvpMsgRow zr zi Ar Ai i) fun r =>
      (⟨r.1, r.2⟩ : ℂ) = (SparseDiagonal.denC Ar Ai).mulVec (toC zr zi) i := by
  unfold mvpMsgRow
  refine Ok.mono (forUp_inv (P := fun n (r : ℝ × ℝ) => (⟨r.1, r.2⟩ : ℂ) = ∑ n ∈ range n, rowTerm zr zi Ar Ai i n)
    (Nat.zero_le S) ?_ ?_) ?_
  · rw [Finset.range_zero, Finset.sum_empty]; rfl
  · rintro k ⟨x, y⟩ _ hk hP
    simp only [] at hP
    rw [rd_of_lt _ hk, pure_bind, rd_of_lt _ hk, pure_bind]
    by_cases hz : Ar.zero ⟨k, hk⟩ = true ∧ Ai.zero ⟨k, hk⟩ = true
    · rw [hz.1, hz.2]
      simp only [Bool.not_true, Bool.or_self, Bool.false_eq_true, if_false]
      refine Ok.pure ?_
      rw [Finset.sum_range_succ, ← hP]
      unfold rowTerm
      rw [dif_pos hk, fr _ hz.1, fi _ hz.2]
      apply Complex.ext <;> simp
    · have hz' : (!Ar.zero ⟨k, hk⟩ || !Ai.zero ⟨k, hk⟩) = true := by
        cases h1 : Ar.zero ⟨k, hk⟩ <;> cases h2 : Ai.zero ⟨k, hk⟩ <;> simp_all
      rw [if_pos hz']
      have ho' := ho _ hz
      have h1 := wrapIdx_ok hH (hr ⟨k, hk⟩) i
      rw [rd_of_lt _ hk, pure_bind, rd_of_lt _ hk, pure_bind, ← ho', h1, pure_bind, pure_bind, rd_of_lt _ hk,
        pure_bind, rd_fin, pure_bind, rd_of_lt _ hk, pure_bind, rd_fin, pure_bind, rd_fin, pure_bind, rd_fin,
        pure_bind]
      refine Ok.pure ?_
      rw [Finset.sum_range_succ, ← hP]
      unfold rowTerm toC
      rw [dif_pos hk]
      apply Complex.ext <;> simp
  · intro r hr'
    rw [hr', sum_rowTerm _ _ _ _ _ (fun s h => ho s fun hz => ?_)]
    rcases h with h | h
    · exact h (fr s hz.1 i)
    · exact h (fi s hz.2 i)

theorem mvpMsg_spec {H : Nat} (hH : H ≤ 2^30) (zr zi : Fin H → ℝ) {Ar Ai : SparseDiagonal H S}
    (hr : Ar.InRange) (ho : Ar.SameOff Ai) (fr : Ar.FlagSound) (fi : Ai.FlagSound) :
    Ok (mvpMsg zr zi Ar Ai) fun r =>
      toC r.1 r.2 = (SparseDiagonal.denC Ar Ai).mulVec (toC zr zi) := by
  unfold mvpMsg
  refine Ok.bind (tabM_spec (P := fun n (r : ℝ × ℝ) => ∀ h : n < H,
    (⟨r.1, r.2⟩ : ℂ) = (SparseDiagonal.denC Ar Ai).mulVec (toC zr zi) ⟨n, h⟩) ?_) ?_
  · intro n hn
    exact Ok.mono (mvpMsgRow_spec hH zr zi hr ho fr fi ⟨n, hn⟩) fun r h _ => h
  · intro rows h
    exact Ok.pure (funext fun i => h i i.isLt)

/-! ## Removing unused diagonals -/

theorem RemoveClutter_spec (hS : S2 < S1) {A : SparseDiagonal N S1} (B0 : SparseDiagonal N S2)
    (hz : ∀ s : Fin S1, S2 ≤ s.val → A.zero s = true) :
    Ok (RemoveClutter A B0) fun B => ∀ s : Fin S2, B.off s = A.off (s.castLE hS.le) ∧
      B.vec s = A.vec (s.castLE hS.le) ∧ B.zero s = false := by
  unfold RemoveClutter
  have ha : assertM (decide (S2 < S1)) = pure () := by simp [assertM, hS]
  rw [ha, pure_bind]
  refine Ok.bind (forUp_inv (P := fun k (B : SparseDiagonal N S2) => ∀ s : Fin S2, s.val < k →
    B.off s = A.off (s.castLE hS.le) ∧ B.vec s = A.vec (s.castLE hS.le) ∧ B.zero s = false)
    (Nat.zero_le S2) (fun s h => absurd h (by omega)) ?_) ?_
  · intro k B _ hk hB
    rw [rd_of_lt _ (by omega), pure_bind, wr_of_lt _ hk, pure_bind, wr_of_lt _ hk, pure_bind,
      rd_of_lt _ (by omega), pure_bind, rd_of_lt _ hk, pure_bind, wr_of_lt _ hk, pure_bind]
    refine Ok.pure fun s hs => ?_
    simp only []
    by_cases e : s = ⟨k, hk⟩
    · subst e
      rw [Function.update_self, Function.update_self, Function.update_self]
      exact ⟨rfl, forFin_map (fun i _ => A.vec ⟨k, by omega⟩ i) _, rfl⟩
    · rw [Function.update_of_ne e, Function.update_of_ne e, Function.update_of_ne e]
      exact hB s (by have : s.val ≠ k := fun h => e (Fin.ext h); omega)
  · intro B hB
    refine forUp_inv (P := fun _ (B : SparseDiagonal N S2) => ∀ s : Fin S2,
      B.off s = A.off (s.castLE hS.le) ∧ B.vec s = A.vec (s.castLE hS.le) ∧ B.zero s = false) hS.le
      (fun s => hB s s.isLt) ?_
    intro k B hk1 hk hB
    rw [rd_of_lt _ hk, pure_bind, hz ⟨k, hk⟩ hk1]
    exact Ok.pure hB


/-! ## Zero flags -/

namespace SparseDiagonal

theorem set_element_flag {A A' : SparseDiagonal N S} {i j : Nat} {v : ℝ} (hf : FlagSound A)
    (e : set_element A i j v = pure A') : FlagSound A' := by
  unfold set_element at e
  obtain ⟨r, _, e⟩ := bind_eq_pure e
  rcases r with _ | s
  · exact absurd e (by intro h; cases h)
  · obtain ⟨w, _, e⟩ := bind_eq_pure e
    rw [← pure_inj e]
    intro t ht k
    simp only [] at ht ⊢
    by_cases h : t = s
    · subst h; rw [Function.update_self] at ht; cases ht
    · rw [Function.update_of_ne h] at ht ⊢; exact hf t ht k

theorem rdM_eq {n : Nat} {α : Type _} {a : Mem n α} {j : Nat} {v : α} (h : rdM a j = pure v) :
    ∃ h : j < n, a ⟨j, h⟩ = some v := by
  unfold rdM at h
  split at h
  · rename_i hj
    refine ⟨hj, ?_⟩
    split at h
    · rename_i w hw
      rw [hw, pure_inj h]
    · exact absurd h (ub_ne_pure _)
  · exact absurd h (ub_ne_pure _)

theorem tabM_partial {α : Type _} {n : Nat} {f : Nat → M α} {a : Fin n → α} (h : tabM n f = pure a) :
    ∀ i : Fin n, f i = pure (a i) := by
  induction n with
  | zero => exact fun i => i.elim0
  | succ n ih =>
    obtain ⟨b, hb, h⟩ := bind_eq_pure h
    obtain ⟨x, hx, h⟩ := bind_eq_pure h
    have ha := pure_inj h
    intro i
    rw [← ha]
    by_cases hi : i.val < n
    · simp only [hi, dif_pos]
      exact ih hb ⟨i, hi⟩
    · simp only [hi, dif_neg, not_false_iff]
      rw [show i.val = n by have := i.isLt; omega]
      exact hx

theorem wr_eq {n : Nat} {α : Type _} {a b : Fin n → α} {j : Nat} {v : α} (h : wr a j v = pure b) :
    ∃ h : j < n, b = Function.update a ⟨j, h⟩ v := by
  unfold wr at h
  split at h
  · rename_i hj; exact ⟨hj, (pure_inj h).symm⟩
  · exact absurd h (ub_ne_pure _)

theorem rd_eq {n : Nat} {α : Type _} {a : Fin n → α} {j : Nat} {v : α} (h : rd a j = pure v) :
    ∃ h : j < n, a ⟨j, h⟩ = v := by
  unfold rd at h
  split at h
  · rename_i hj; exact ⟨hj, pure_inj h⟩
  · exact absurd h (ub_ne_pure _)

theorem transposeTemp_zero {v : Fin N → ℝ} (hv : ∀ i, v i = 0) {o : Int} {t : Mem N ℝ}
    (h : transposeTemp v o = pure t) : ∀ i x, t i = some x → x = 0 := by
  unfold transposeTemp at h
  refine forUp_partial (P := fun t : Mem N ℝ => ∀ i x, t i = some x → x = 0) (fun i x h => by cases h) ?_ h
  intro i s s' _ _ hP hb
  obtain ⟨x, hx, hb⟩ := bind_eq_pure hb
  obtain ⟨p, _, hb⟩ := bind_eq_pure hb
  obtain ⟨q, _, hb⟩ := bind_eq_pure hb
  obtain ⟨_, hx⟩ := rd_eq hx
  obtain ⟨hq, hb⟩ := wr_eq hb
  intro k y hy
  rw [hb] at hy
  by_cases e : k = ⟨q, hq⟩
  · subst e
    rw [Function.update_self] at hy
    rw [← Option.some.inj hy, ← hx, hv]
  · rw [Function.update_of_ne e] at hy
    exact hP k y hy

theorem transpose_flag {A A' : SparseDiagonal N S} (hf : FlagSound A) (e : transpose A = pure A') :
    FlagSound A' := by
  unfold transpose at e
  refine forUp_partial (P := fun A : SparseDiagonal N S => FlagSound A) hf ?_ e
  intro s A A' _ hs hA hb
  rw [dif_pos hs] at hb
  unfold transposeStep at hb
  split at hb
  · obtain ⟨t, ht, hb⟩ := bind_eq_pure hb
    obtain ⟨v, hv, hb⟩ := bind_eq_pure hb
    obtain ⟨o, _, hb⟩ := bind_eq_pure hb
    rw [← pure_inj hb]
    intro k hk i
    simp only [] at hk ⊢
    by_cases h : k = ⟨s, hs⟩
    · subst h
      rw [Function.update_self]
      obtain ⟨_, h2⟩ := rdM_eq (tabM_partial hv i)
      exact transposeTemp_zero (fun i => hA _ hk i) ht _ _ h2
    · rw [Function.update_of_ne h]; exact hA k hk i
  · rw [← pure_inj hb]; exact hA

end SparseDiagonal

/-- flags of the destination of `MatMul` when `count` diagonals are in use -/
def CountFlag (C : SparseDiagonal N S) (count : Nat) : Prop :=
  C.FlagSound ∧ ∀ k : Fin S, k.val < count → C.zero k = false

theorem openDiag_flag {C C' : SparseDiagonal N S} {c : Nat} {o : Int} (h : CountFlag C c)
    (e : openDiag C c o = pure C') : CountFlag C' (c + 1) := by
  unfold openDiag at e
  obtain ⟨z, hz, e⟩ := bind_eq_pure e
  obtain ⟨o', ho, e⟩ := bind_eq_pure e
  obtain ⟨hc, hz⟩ := SparseDiagonal.wr_eq hz
  rw [← pure_inj e, hz]
  refine ⟨fun s hs i => ?_, fun k hk => ?_⟩
  · simp only [] at hs ⊢
    by_cases h2 : s = ⟨c, hc⟩
    · rw [h2, Function.update_self] at hs; cases hs
    · rw [Function.update_of_ne h2] at hs; exact h.1 s hs i
  · simp only []
    by_cases h2 : k = ⟨c, hc⟩
    · rw [h2, Function.update_self]
    · rw [Function.update_of_ne h2]
      exact h.2 k (by have : k.val ≠ c := fun h => h2 (Fin.ext h); omega)

theorem accDiag_flag {C C' : SparseDiagonal N S} {c s3 : Nat} {p : ℝ} {a b : Fin N → ℝ} {o : Int}
    (h : CountFlag C c) (hs : s3 < c) (e : accDiag C s3 p a b o = pure C') : CountFlag C' c := by
  unfold accDiag at e
  obtain ⟨v0, hv0, e⟩ := bind_eq_pure e
  obtain ⟨v, _, e⟩ := bind_eq_pure e
  obtain ⟨w, hw, e⟩ := bind_eq_pure e
  obtain ⟨hS, hw⟩ := SparseDiagonal.wr_eq hw
  rw [← pure_inj e, hw]
  refine ⟨fun s hs' i => ?_, h.2⟩
  simp only [] at hs' ⊢
  by_cases h2 : s = ⟨s3, hS⟩
  · rw [h2, h.2 _ hs] at hs'; cases hs'
  · rw [Function.update_of_ne h2]; exact h.1 s hs' i

theorem findOff_lt {off : Fin S → Int} {c : Nat} {o : Int} {r : Option Nat}
    (e : findOff off c o = pure r) : ∀ k, r = some k → k < c := by
  unfold findOff at e
  refine forUp_partial (P := fun r : Option Nat => ∀ k, r = some k → k < c) (fun k h => by cases h) ?_ e
  rintro i (_ | s) s' _ hi hP hb
  · simp only [] at hb
    obtain ⟨x, _, hb⟩ := bind_eq_pure hb
    rw [← pure_inj hb]
    intro k hk
    split at hk
    · cases hk; exact hi
    · cases hk
  · rw [← pure_inj hb]; exact hP

theorem findOffC_lt {offr offi : Fin S → Int} {c : Nat} {o : Int} {r : Option Nat}
    (e : findOffC offr offi c o = pure r) : ∀ k, r = some k → k < c := by
  unfold findOffC at e
  refine forUp_partial (P := fun r : Option Nat => ∀ k, r = some k → k < c) (fun k h => by cases h) ?_ e
  rintro i (_ | s) s' _ hi hP hb
  · simp only [] at hb
    obtain ⟨x, _, hb⟩ := bind_eq_pure hb
    obtain ⟨y, _, hb⟩ := bind_eq_pure hb
    obtain ⟨_, _, hb⟩ := bind_eq_pure hb
    rw [← pure_inj hb]
    intro k hk
    split at hk
    · cases hk; exact hi
    · cases hk
  · rw [← pure_inj hb]; exact hP

theorem slot_flag {st : Nat × SparseDiagonal N S} {o : Int} {r : Nat × Nat × SparseDiagonal N S}
    (h : CountFlag st.2 st.1) (e : slot st o = pure r) : r.1 < r.2.1 ∧ CountFlag r.2.2 r.2.1 := by
  unfold slot at e
  obtain ⟨x, hx, e⟩ := bind_eq_pure e
  rcases x with _ | s3
  · obtain ⟨C, hC, e⟩ := bind_eq_pure e
    rw [← pure_inj e]
    exact ⟨Nat.lt_succ_self _, openDiag_flag h hC⟩
  · rw [← pure_inj e]
    exact ⟨findOff_lt hx s3 rfl, h⟩

theorem MatMul_flag {A : SparseDiagonal N S1} {B : SparseDiagonal N S2} {C0 C : SparseDiagonal N (S1 * S2)}
    (e : MatMul A B C0 = pure C) : C.FlagSound := by
  unfold MatMul at e
  obtain ⟨st, hst, e⟩ := bind_eq_pure e
  rw [← pure_inj e]
  refine (forUp_partial (P := fun st : Nat × SparseDiagonal N (S1 * S2) => CountFlag st.2 st.1) ?_ ?_ hst).1
  · rw [SparseDiagonal.setzero_eq]
    exact ⟨fun _ _ _ => rfl, fun k h => absurd h (by simp)⟩
  · intro s1 st st' _ _ hP hb
    refine forUp_partial (P := fun st : Nat × SparseDiagonal N (S1 * S2) => CountFlag st.2 st.1) hP ?_ hb
    intro s2 st st' _ _ hP hb
    unfold matMulStep at hb
    obtain ⟨_, _, hb⟩ := bind_eq_pure hb
    obtain ⟨_, _, hb⟩ := bind_eq_pure hb
    obtain ⟨_, _, hb⟩ := bind_eq_pure hb
    obtain ⟨r, hr, hb⟩ := bind_eq_pure hb
    obtain ⟨_, _, hb⟩ := bind_eq_pure hb
    obtain ⟨_, _, hb⟩ := bind_eq_pure hb
    obtain ⟨C, hC, hb⟩ := bind_eq_pure hb
    rw [← pure_inj hb]
    obtain ⟨h1, h2⟩ := slot_flag hP hr
    exact accDiag_flag h2 h1 hC

theorem MatMulC_flag {Ar Ai : SparseDiagonal N S1} {Br Bi : SparseDiagonal N S2}
    {Cr0 Ci0 Cr Ci : SparseDiagonal N (S1 * S2)} (e : MatMulC Ar Ai Br Bi Cr0 Ci0 = pure (Cr, Ci)) :
    Cr.FlagSound ∧ Ci.FlagSound := by
  unfold MatMulC at e
  obtain ⟨st, hst, e⟩ := bind_eq_pure e
  have e' := pure_inj e
  have key := forUp_partial
    (P := fun st : Nat × SparseDiagonal N (S1 * S2) × SparseDiagonal N (S1 * S2) =>
      CountFlag st.2.1 st.1 ∧ CountFlag st.2.2 st.1) ?_ ?_ hst
  · rw [e'] at key
    exact ⟨key.1.1, key.2.1⟩
  · rw [SparseDiagonal.setzero_eq, SparseDiagonal.setzero_eq]
    exact ⟨⟨fun _ _ _ => rfl, fun k h => absurd h (by simp)⟩, ⟨fun _ _ _ => rfl, fun k h => absurd h (by simp)⟩⟩
  · intro s1 st st' _ _ hP hb
    refine forUp_partial (P := fun st : Nat × SparseDiagonal N (S1 * S2) × SparseDiagonal N (S1 * S2) =>
      CountFlag st.2.1 st.1 ∧ CountFlag st.2.2 st.1) hP ?_ hb
    intro s2 st st' _ _ hP hb
    obtain ⟨sk, _, hb⟩ := bind_eq_pure hb
    split at hb
    · rw [← pure_inj hb]; exact hP
    unfold matMulCStep at hb
    obtain ⟨_, _, hb⟩ := bind_eq_pure hb
    obtain ⟨_, _, hb⟩ := bind_eq_pure hb
    obtain ⟨_, _, hb⟩ := bind_eq_pure hb
    obtain ⟨_, _, hb⟩ := bind_eq_pure hb
    obtain ⟨_, _, hb⟩ := bind_eq_pure hb
    obtain ⟨_, _, hb⟩ := bind_eq_pure hb
    obtain ⟨_, _, hb⟩ := bind_eq_pure hb
    obtain ⟨r, hr, hb⟩ := bind_eq_pure hb
    obtain ⟨_, _, hb⟩ := bind_eq_pure hb
    obtain ⟨_, _, hb⟩ := bind_eq_pure hb
    obtain ⟨_, _, hb⟩ := bind_eq_pure hb
    obtain ⟨_, _, hb⟩ := bind_eq_pure hb
    obtain ⟨C1, hC1, hb⟩ := bind_eq_pure hb
    obtain ⟨C2, hC2, hb⟩ := bind_eq_pure hb
    obtain ⟨C3, hC3, hb⟩ := bind_eq_pure hb
    obtain ⟨C4, hC4, hb⟩ := bind_eq_pure hb
    rw [← pure_inj hb]
    have hslot : r.1 < r.2.1 ∧ CountFlag r.2.2.1 r.2.1 ∧ CountFlag r.2.2.2 r.2.1 := by
      unfold slotC at hr
      obtain ⟨x, hx, hr⟩ := bind_eq_pure hr
      rcases x with _ | s3
      · obtain ⟨D1, hD1, hr⟩ := bind_eq_pure hr
        obtain ⟨D2, hD2, hr⟩ := bind_eq_pure hr
        rw [← pure_inj hr]
        exact ⟨Nat.lt_succ_self _, openDiag_flag hP.1 hD1, openDiag_flag hP.2 hD2⟩
      · rw [← pure_inj hr]
        exact ⟨findOffC_lt hx s3 rfl, hP.1, hP.2⟩
    exact ⟨accDiag_flag (accDiag_flag hslot.2.1 hslot.1 hC1) hslot.1 hC2,
      accDiag_flag (accDiag_flag hslot.2.2 hslot.1 hC3) hslot.1 hC4⟩

theorem RemoveClutter_flag {A : SparseDiagonal N S1} {B0 B : SparseDiagonal N S2}
    (e : RemoveClutter A B0 = pure B) : B.FlagSound := by
  unfold RemoveClutter at e
  obtain ⟨_, _, e⟩ := bind_eq_pure e
  obtain ⟨B1, hB1, e⟩ := bind_eq_pure e
  refine forUp_partial (P := fun B : SparseDiagonal N S2 => B.FlagSound) ?_ ?_ e
  · refine forUp_partial (P := fun B : SparseDiagonal N S2 => B.FlagSound) ?_ ?_ hB1
    · rw [SparseDiagonal.setzero_eq]; exact fun _ _ _ => rfl
    · intro s C C' _ _ hP hb
      obtain ⟨_, _, hb⟩ := bind_eq_pure hb
      obtain ⟨_, _, hb⟩ := bind_eq_pure hb
      obtain ⟨z, hz, hb⟩ := bind_eq_pure hb
      obtain ⟨_, _, hb⟩ := bind_eq_pure hb
      obtain ⟨_, _, hb⟩ := bind_eq_pure hb
      obtain ⟨v, hv, hb⟩ := bind_eq_pure hb
      obtain ⟨h1, hz⟩ := SparseDiagonal.wr_eq hz
      obtain ⟨_, hv⟩ := SparseDiagonal.wr_eq hv
      rw [← pure_inj hb, hz, hv]
      intro t ht i
      simp only [] at ht ⊢
      by_cases h2 : t = ⟨s, h1⟩
      · rw [h2, Function.update_self] at ht; cases ht
      · rw [Function.update_of_ne h2] at ht ⊢; exact hP t ht i
  · intro s C C' _ _ hP hb
    obtain ⟨_, _, hb⟩ := bind_eq_pure hb
    obtain ⟨_, _, hb⟩ := bind_eq_pure hb
    rw [← pure_inj hb]; exact hP

end EvalRound

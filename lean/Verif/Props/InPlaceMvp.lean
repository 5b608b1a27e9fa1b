import Verif.Model.InPlaceMvp
import Verif.Proofs.InPlaceLT
import Verif.Proofs.LinTransSlots
import Verif.Props.InPlaceSimple

/-!
# C116: matrix-vector products whose result is also the operand
-/

namespace EvalRound
open Z_Q Finset

section
variable {LOGQ n : Nat} [NeZero LOGQ]

theorem mvpOver_step (h1 : ConvLOGQ LOGQ) (hn1 : 1 ≤ n) (hn : n ≤ 16) (z : CVec (n+1)) (Delta : W) {B : ℝ}
    (hz : ∀ i : Fin (2^n), ‖(⟨z.1 i, z.2 i⟩ : ℂ)‖ ≤ B)
    (hw : B * Delta.toNat + 1/2 < 2^64) (hq : B * Delta.toNat + 1/2 < 2^(LOGQ-1)) (r : Nat) :
    (do
      let pt_v ← encode LOGQ (LOGN := n+1) z Delta
      let pt_rot ← rotR R_Q.setzero R_Q.setzero r
      let pt_conv ← conv pt_v pt_rot
      pure (R_Q.add R_Q.setzero pt_conv)) = pure (R_Q.setzero : R_Q LOGQ (2^(n+1))) := by
  obtain ⟨v, ev, hv, _⟩ := encode_slots (LOGQ := LOGQ) hn1 (by omega) z Delta hz hw hq
  obtain ⟨y, ey, hy, hyc⟩ := rotR_pow2 (LOGQ := LOGQ) (k := n+1) (by omega) r R_Q.canonical_setzero R_Q.setzero
  obtain ⟨c, ec, _, hcc⟩ := conv_spec (k := n+1) h1 (by omega) (by omega) hv hy
  rw [ev, pure_bind, ey, pure_bind, ec, pure_bind]
  congr 1
  rw [hyc, R_Q.cls_setzero, autom_zero, negconv_zero_right] at hcc
  refine eq_setzero (R_Q.canonical_add _ _) ?_
  rw [R_Q.cls_add, R_Q.cls_setzero, hcc, add_zero]

/-- C116: the dense product on plaintexts gives zero, whatever plaintext and matrix: the operand is cleared before it is read. -/
theorem C116_plain (hQ : LOGQ ≤ 60 ∨ 65 ≤ LOGQ ∧ LOGQ ≤ 3051) (hn1 : 1 ≤ n) (hn : n ≤ 16) {K : Nat} (pt : R_Q LOGQ (2^(n+1)))
    (A : Fin K → CVec (n+1)) (Delta : W) (B : ℝ) (hB : ∀ k (i : Fin (2^n)), ‖(⟨(A k).1 i, (A k).2 i⟩ : ℂ)‖ ≤ B)
    (hw : B * Delta.toNat + 1/2 < 2^64) (hq : B * Delta.toNat + 1/2 < 2^(LOGQ-1)) :
    Ok (ptMvpOver (LOGN := n+1) pt A Delta) fun r => ∀ i, (r i).sval = 0 := by
  have h : Ok (ptMvpOver (LOGN := n+1) pt A Delta) fun r => r = R_Q.setzero := by
    unfold ptMvpOver
    refine forUp_inv (P := fun _ r => r = R_Q.setzero) (Nat.zero_le K) rfl fun k r _ hk hr => ?_
    rw [rd_of_lt _ hk, pure_bind, hr, mvpOver_step hQ hn1 hn _ Delta (hB ⟨k, hk⟩) hw hq]
    exact Ok.pure rfl
  refine Ok.mono h fun r hr i => ?_
  rw [hr]
  exact sval_eq_of_cls (by rw [Int.cast_zero]; exact cls_setzero) (by simp) (by positivity)

/-- C116: the same for the product with three sparse diagonals. -/
theorem C116_plain_sparse (hQ : LOGQ ≤ 60 ∨ 65 ≤ LOGQ ∧ LOGQ ≤ 3051) (hn1 : 1 ≤ n) (hn : n ≤ 16) (pt : R_Q LOGQ (2^(n+1)))
    (A : SD2 (2^n) 3) (hoff : A.1.off = A.2.off) (_hoff0 : ∀ k, 0 ≤ A.1.off k ∧ A.1.off k < 2^n) (Delta : W) (B : ℝ) (hB : ∀ k (i : Fin (2^n)), ‖(⟨A.1.vec k i, A.2.vec k i⟩ : ℂ)‖ ≤ B)
    (hw : B * Delta.toNat + 1/2 < 2^64) (hq : B * Delta.toNat + 1/2 < 2^(LOGQ-1)) :
    Ok (ptMvpSparseOver (LOGN := n+1) pt A Delta) fun r => ∀ i, (r i).sval = 0 := by
  have h : Ok (ptMvpSparseOver (LOGN := n+1) pt A Delta) fun r => r = R_Q.setzero := by
    unfold ptMvpSparseOver
    refine forUp_inv (P := fun _ r => r = R_Q.setzero) (Nat.zero_le 3) rfl fun k r _ hk hr => ?_
    rw [rd_of_lt _ hk, pure_bind, rd_of_lt _ hk, pure_bind, hoff, decide_eq_true rfl, show assertM true = pure () from rfl, pure_bind,
      rd_of_lt _ hk, pure_bind, rd_of_lt _ hk, pure_bind, hr,
      mvpOver_step hQ hn1 hn (A.1.vec ⟨k, hk⟩, A.2.vec ⟨k, hk⟩) Delta (hB ⟨k, hk⟩) hw hq]
    exact Ok.pure rfl
  refine Ok.mono h fun r hr i => ?_
  rw [hr]
  exact sval_eq_of_cls (by rw [Int.cast_zero]; exact cls_setzero) (by simp) (by positivity)

end

section
variable {n K : Nat}

theorem msg_mvpRow_spec (hK : n + K ≤ INT_MAX) (z : (Fin n → ℝ) × (Fin n → ℝ)) (A : Fin K → (Fin n → ℝ) × (Fin n → ℝ)) {i : Nat} (hi : i < n) :
    Ok (Msg.mvpRow z A i) fun v => (⟨v.1, v.2⟩ : ℂ) = ∑ k : Fin K, (⟨(A k).1 ⟨i, hi⟩, (A k).2 ⟨i, hi⟩⟩ : ℂ) *
        ⟨z.1 ⟨(i + k) % n, Nat.mod_lt _ (by omega)⟩, z.2 ⟨(i + k) % n, Nat.mod_lt _ (by omega)⟩⟩ := by
  obtain ⟨w, ew, hw⟩ := C45_mvp hK z A
  unfold Msg.mvp at ew
  obtain ⟨rows, er, e⟩ := bind_eq_pure ew
  have := pure_inj e
  refine ⟨rows ⟨i, hi⟩, tabM_inv er ⟨i, hi⟩, ?_⟩
  have h := hw ⟨i, hi⟩
  rw [← this] at h
  exact h

/-- C116: on messages row `i` is computed with the rows before it already replaced. -/
theorem C116_message (hK : n + K ≤ INT_MAX) (z : (Fin n → ℝ) × (Fin n → ℝ)) (A : Fin K → (Fin n → ℝ) × (Fin n → ℝ)) :
    Ok (Msg.mvpOver z A) fun w => ∀ i : Fin n, (⟨w.1 i, w.2 i⟩ : ℂ) =
      ∑ k : Fin K, (⟨(A k).1 i, (A k).2 i⟩ : ℂ) *
        (fun j : Fin n => if j < i then (⟨w.1 j, w.2 j⟩ : ℂ) else ⟨z.1 j, z.2 j⟩) ⟨(i + k) % n, Nat.mod_lt _ (by have := i.isLt; omega)⟩ := by
  unfold Msg.mvpOver
  refine Ok.mono (forUp_inv (P := fun m (w : (Fin n → ℝ) × (Fin n → ℝ)) => (∀ i : Fin n, i.val < m → (⟨w.1 i, w.2 i⟩ : ℂ) =
      ∑ k : Fin K, (⟨(A k).1 i, (A k).2 i⟩ : ℂ) *
        (fun j : Fin n => if j < i then (⟨w.1 j, w.2 j⟩ : ℂ) else ⟨z.1 j, z.2 j⟩) ⟨(i + k) % n, Nat.mod_lt _ (by have := i.isLt; omega)⟩) ∧
      ∀ i : Fin n, m ≤ i.val → w.1 i = z.1 i ∧ w.2 i = z.2 i) (Nat.zero_le n)
    ⟨fun i h => absurd h (by omega), fun i _ => ⟨rfl, rfl⟩⟩ fun m w _ hm ⟨hd, ha⟩ => ?_) fun w hw i => hw.1 i i.isLt
  refine Ok.bind (msg_mvpRow_spec hK w A hm) fun s hs => ?_
  rw [wr_of_lt _ hm, pure_bind, wr_of_lt _ hm, pure_bind]
  refine Ok.pure ⟨fun i hi => ?_, fun i hi => ?_⟩
  · beta_reduce at hd ⊢
    by_cases e : i = ⟨m, hm⟩
    · subst e
      dsimp only
      rw [Function.update_self, Function.update_self, hs]
      refine sum_congr rfl fun k _ => ?_
      congr 1
      generalize (⟨(m + k) % n, Nat.mod_lt _ (by omega)⟩ : Fin n) = j
      by_cases hj : j < ⟨m, hm⟩
      · rw [if_pos hj, Function.update_of_ne hj.ne, Function.update_of_ne hj.ne]
      · rw [if_neg hj, (ha j (not_lt.1 hj)).1, (ha j (not_lt.1 hj)).2]
    · have him : i.val < m := by
        have : i.val ≠ m := fun h => e (Fin.ext h)
        omega
      dsimp only
      rw [Function.update_of_ne e, Function.update_of_ne e, hd i him]
      refine sum_congr rfl fun k _ => ?_
      congr 1
      generalize (⟨(i.val + k.val) % n, Nat.mod_lt _ (by omega)⟩ : Fin n) = j
      by_cases hj : j < i
      · have hjm : j ≠ ⟨m, hm⟩ := fun h => by
          have h2 : j.val < i.val := hj
          have h3 : j.val = m := Fin.ext_iff.1 h
          omega
        rw [if_pos hj, if_pos hj, Function.update_of_ne hjm, Function.update_of_ne hjm]
      · rw [if_neg hj, if_neg hj]
  · have e : i ≠ ⟨m, hm⟩ := fun h => by
      have h3 : i.val = m := Fin.ext_iff.1 h
      omega
    dsimp only
    rw [Function.update_of_ne e, Function.update_of_ne e]
    exact ha i (by omega)

/-- C116: so the rows `i` with `i + K ≤ N/2`, which do not wrap around, are right. -/
theorem C116_message_rows (hK : n + K ≤ INT_MAX) (z : (Fin n → ℝ) × (Fin n → ℝ)) (A : Fin K → (Fin n → ℝ) × (Fin n → ℝ)) :
    Ok (Msg.mvpOver z A) fun w => Ok (Msg.mvp z A) fun v => ∀ i : Fin n, i.val + K ≤ n → w.1 i = v.1 i ∧ w.2 i = v.2 i := by
  refine Ok.mono (C116_message hK z A) fun w hw => Ok.mono (C45_mvp hK z A) fun v hv i hi => ?_
  have h : (⟨w.1 i, w.2 i⟩ : ℂ) = ⟨v.1 i, v.2 i⟩ := by
    rw [hw, hv]
    refine sum_congr rfl fun k _ => ?_
    have hk := k.isLt
    have hm : (i.val + k.val) % n = i.val + k.val := Nat.mod_eq_of_lt (by omega)
    beta_reduce
    rw [if_neg (show ¬ (⟨(i.val + k.val) % n, Nat.mod_lt _ (by omega)⟩ : Fin n) < i from not_lt.2 (show i.val ≤ (i.val + k.val) % n by omega))]
  exact ⟨congrArg Complex.re h, congrArg Complex.im h⟩

/-- C116: a matrix of one diagonal is applied correctly. -/
theorem C116_message_diagonal (hK : n + 1 ≤ INT_MAX) (z : (Fin n → ℝ) × (Fin n → ℝ)) (A : Fin 1 → (Fin n → ℝ) × (Fin n → ℝ)) :
    Msg.mvpOver z A = Msg.mvp z A := by
  obtain ⟨w, ew, v, ev, h⟩ := C116_message_rows hK z A
  rw [ew, ev]
  congr 1
  exact Prod.ext (funext fun i => (h i i.isLt).1) (funext fun i => (h i i.isLt).2)

/-- C116: the cyclic shift by one (two diagonals, the first zero and the second one) loses slot 0: the last slot becomes slot 1. -/
theorem C116_message_shift (hn : 2 ≤ n) (hN : n + 2 ≤ INT_MAX) (z : (Fin n → ℝ) × (Fin n → ℝ)) :
    Ok (Msg.mvpOver z fun k : Fin 2 => (fun _ => if k = 1 then 1 else 0, fun _ => 0)) fun w =>
      (∀ i : Fin n, (h : i.val + 1 < n) → w.1 i = z.1 ⟨i + 1, h⟩ ∧ w.2 i = z.2 ⟨i + 1, h⟩) ∧
      w.1 ⟨n - 1, by omega⟩ = z.1 ⟨1, hn⟩ ∧ w.2 ⟨n - 1, by omega⟩ = z.2 ⟨1, hn⟩ := by
  refine Ok.mono (C116_message hN z _) fun w hw => ?_
  have hs : ∀ i : Fin n, (⟨w.1 i, w.2 i⟩ : ℂ) = (fun j : Fin n => if j < i then (⟨w.1 j, w.2 j⟩ : ℂ) else ⟨z.1 j, z.2 j⟩)
      ⟨(i + 1) % n, Nat.mod_lt _ (by omega)⟩ := fun i => by
    rw [hw, Fin.sum_univ_two]
    have e0 : (⟨if (0 : Fin 2) = 1 then 1 else 0, 0⟩ : ℂ) = 0 := by
      rw [if_neg (by decide)]; rfl
    have e1 : (⟨if (1 : Fin 2) = 1 then 1 else 0, 0⟩ : ℂ) = 1 := by
      rw [if_pos rfl]; rfl
    rw [e0, e1, zero_mul, zero_add, one_mul]
    rfl
  have h1 : ∀ i : Fin n, (h : i.val + 1 < n) → (⟨w.1 i, w.2 i⟩ : ℂ) = ⟨z.1 ⟨i + 1, h⟩, z.2 ⟨i + 1, h⟩⟩ := fun i h => by
    have e : (⟨(i.val + 1) % n, Nat.mod_lt _ (by omega)⟩ : Fin n) = ⟨i + 1, h⟩ := Fin.ext (Nat.mod_eq_of_lt h)
    rw [hs, e]
    beta_reduce
    rw [if_neg (show ¬ (⟨i + 1, h⟩ : Fin n) < i from not_lt.2 (show i.val ≤ i.val + 1 by omega))]
  have h2 : (⟨w.1 ⟨n - 1, by omega⟩, w.2 ⟨n - 1, by omega⟩⟩ : ℂ) = ⟨z.1 ⟨1, hn⟩, z.2 ⟨1, hn⟩⟩ := by
    have e : (⟨(n - 1 + 1) % n, Nat.mod_lt _ (by omega)⟩ : Fin n) = ⟨0, by omega⟩ := Fin.ext (by
      show (n - 1 + 1) % n = 0
      rw [Nat.sub_add_cancel (by omega), Nat.mod_self])
    rw [hs]
    dsimp only
    rw [e, if_pos (show (⟨0, by omega⟩ : Fin n) < ⟨n - 1, by omega⟩ from (show 0 < n - 1 by omega)), h1 ⟨0, by omega⟩ hn]
  exact ⟨fun i h => ⟨congrArg Complex.re (h1 i h), congrArg Complex.im (h1 i h)⟩, congrArg Complex.re h2, congrArg Complex.im h2⟩

end

section
variable {H S : Nat}
open SparseDiagonal

/-- A product that replaces row after row. -/
theorem rowsOver_spec {row : (Fin H → ℝ) × (Fin H → ℝ) → Nat → M (ℝ × ℝ)} {D : Matrix (Fin H) (Fin H) ℂ}
    (hrow : ∀ w (i : Fin H), Ok (row w i) fun s => (⟨s.1, s.2⟩ : ℂ) = D.mulVec (toC w.1 w.2) i) (z : (Fin H → ℝ) × (Fin H → ℝ)) :
    Ok (forUp 0 H (fun i (z : (Fin H → ℝ) × (Fin H → ℝ)) => do
      let s ← row z i
      let r ← wr z.1 i s.1
      let j ← wr z.2 i s.2
      pure (r, j)) z) fun w => ∀ i, toC w.1 w.2 i = ∑ j, D i j * (if j < i then toC w.1 w.2 j else toC z.1 z.2 j) := by
  refine Ok.mono (forUp_inv (P := fun m (w : (Fin H → ℝ) × (Fin H → ℝ)) => (∀ i : Fin H, i.val < m → toC w.1 w.2 i =
      ∑ j, D i j * (if j < i then toC w.1 w.2 j else toC z.1 z.2 j)) ∧
      ∀ i : Fin H, m ≤ i.val → w.1 i = z.1 i ∧ w.2 i = z.2 i) (Nat.zero_le H)
    ⟨fun i h => absurd h (by omega), fun i _ => ⟨rfl, rfl⟩⟩ fun m w _ hm ⟨hd, ha⟩ => ?_) fun w hw i => hw.1 i i.isLt
  refine Ok.bind (hrow w ⟨m, hm⟩) fun s hs => ?_
  rw [wr_of_lt _ hm, pure_bind, wr_of_lt _ hm, pure_bind]
  have hne : ∀ j : Fin H, j ≠ ⟨m, hm⟩ → toC (Function.update w.1 ⟨m, hm⟩ s.1) (Function.update w.2 ⟨m, hm⟩ s.2) j = toC w.1 w.2 j := fun j hj => by
    unfold toC
    rw [Function.update_of_ne hj, Function.update_of_ne hj]
  refine Ok.pure ⟨fun i hi => ?_, fun i hi => ?_⟩
  · by_cases e : i = ⟨m, hm⟩
    · subst e
      have h0 : toC (Function.update w.1 ⟨m, hm⟩ s.1) (Function.update w.2 ⟨m, hm⟩ s.2) ⟨m, hm⟩ = ⟨s.1, s.2⟩ := by
        unfold toC
        rw [Function.update_self, Function.update_self]
      dsimp only
      rw [h0, hs, Matrix.mulVec, dotProduct]
      refine sum_congr rfl fun j _ => ?_
      congr 1
      by_cases hj : j < ⟨m, hm⟩
      · rw [if_pos hj, hne j hj.ne]
      · rw [if_neg hj]
        unfold toC
        rw [(ha j (not_lt.1 hj)).1, (ha j (not_lt.1 hj)).2]
    · have him : i.val < m := by
        have : i.val ≠ m := fun h => e (Fin.ext h)
        omega
      dsimp only
      rw [hne i e, hd i him]
      refine sum_congr rfl fun j _ => ?_
      congr 1
      by_cases hj : j < i
      · have hjm : j ≠ ⟨m, hm⟩ := fun h => by
          have h2 : j.val < i.val := hj
          have h3 : j.val = m := Fin.ext_iff.1 h
          omega
        rw [if_pos hj, if_pos hj, hne j hjm]
      · rw [if_neg hj, if_neg hj]
  · have e : i ≠ ⟨m, hm⟩ := fun h => by
      have h3 : i.val = m := Fin.ext_iff.1 h
      omega
    dsimp only
    rw [Function.update_of_ne e, Function.update_of_ne e]
    exact ha i (by omega)

theorem rowsOver_iff {over : (Fin H → ℝ) × (Fin H → ℝ) → M ((Fin H → ℝ) × (Fin H → ℝ))} {D : Matrix (Fin H) (Fin H) ℂ}
    (hover : ∀ z, Ok (over z) fun w => ∀ i, toC w.1 w.2 i = ∑ j, D i j * (if j < i then toC w.1 w.2 j else toC z.1 z.2 j)) :
    (∀ z, Ok (over z) fun w => toC w.1 w.2 = D.mulVec (toC z.1 z.2)) ↔
      (Matrix.of fun i j => if j < i then D i j else 0) * D = Matrix.of fun i j => if j < i then D i j else 0 := by
  set L : Matrix (Fin H) (Fin H) ℂ := Matrix.of fun i j => if j < i then D i j else 0 with hL
  have split : ∀ (w z : Fin H → ℂ) i, ∑ j, D i j * (if j < i then w j else z j) = L.mulVec w i + (D.mulVec z i - L.mulVec z i) := fun w z i => by
    simp only [Matrix.mulVec, dotProduct]
    rw [← sum_sub_distrib, ← sum_add_distrib]
    refine sum_congr rfl fun j _ => ?_
    rw [hL, Matrix.of_apply]
    by_cases hj : j < i
    · rw [if_pos hj, if_pos hj]; ring
    · rw [if_neg hj, if_neg hj]; ring
  constructor
  · intro h
    refine Matrix.ext_of_mulVec_single fun j => ?_
    obtain ⟨w, ew, hw⟩ := h (fun i => if i = j then 1 else 0, fun _ => 0)
    obtain ⟨w', ew', hw'⟩ := hover (fun i => if i = j then 1 else 0, fun _ => 0)
    have e := pure_inj (ew.symm.trans ew')
    subst e
    have hz : toC (fun i : Fin H => if i = j then (1 : ℝ) else 0) (fun _ => 0) = Pi.single j 1 := by
      funext i
      unfold toC
      beta_reduce
      by_cases hi : i = j
      · subst hi; rw [if_pos rfl, Pi.single_eq_same]; rfl
      · rw [if_neg hi, Pi.single_eq_of_ne hi]; rfl
    dsimp only at hw hw'
    rw [hz] at hw hw'
    rw [← Matrix.mulVec_mulVec, ← hw]
    funext i
    have h1 := hw' i
    rw [split, ← hw] at h1
    linear_combination -h1
  · intro h z
    obtain ⟨w, ew, hw⟩ := hover z
    refine ⟨w, ew, ?_⟩
    have key : ∀ m, ∀ i : Fin H, i.val = m → toC w.1 w.2 i = D.mulVec (toC z.1 z.2) i := fun m => by
      induction m using Nat.strong_induction_on with
      | _ m ih =>
        intro i hi
        have e : ∑ j, D i j * (if j < i then toC w.1 w.2 j else toC z.1 z.2 j) =
            ∑ j, D i j * (if j < i then D.mulVec (toC z.1 z.2) j else toC z.1 z.2 j) := by
          refine sum_congr rfl fun j _ => ?_
          by_cases hj : j < i
          · rw [if_pos hj, if_pos hj, ih j.val (by have : j.val < i.val := hj; omega) j rfl]
          · rw [if_neg hj, if_neg hj]
        rw [hw, e, split, Matrix.mulVec_mulVec, h]
        ring
    exact funext fun i => key i i rfl

/-- C116: the product with sparse diagonals replaces row after row: row `i` of the matrix meets results in the columns before `i` and
old slots from column `i` on. -/
theorem C116_message_sparse (hH : H ≤ 2^30) (z : (Fin H → ℝ) × (Fin H → ℝ)) {Ar Ai : SparseDiagonal H S}
    (hr : InRange Ar) (ho : SameOff Ar Ai) (fr : FlagSound Ar) (fi : FlagSound Ai) :
    Ok (mvpMsgOver z Ar Ai) fun w => ∀ i, toC w.1 w.2 i =
      ∑ j, denC Ar Ai i j * (if j < i then toC w.1 w.2 j else toC z.1 z.2 j) :=
  rowsOver_spec (row := fun w i => mvpMsgRow w.1 w.2 Ar Ai i) (fun w i => mvpMsgRow_spec hH w.1 w.2 hr ho fr fi i) z

/-- C116: it applies the matrix `D` to every message exactly when the part `L` of `D` below the diagonal satisfies `L D = L`. -/
theorem C116_message_sparse_iff (hH : H ≤ 2^30) {Ar Ai : SparseDiagonal H S}
    (hr : InRange Ar) (ho : SameOff Ar Ai) (fr : FlagSound Ar) (fi : FlagSound Ai) :
    (∀ z, Ok (mvpMsgOver z Ar Ai) fun w => toC w.1 w.2 = (denC Ar Ai).mulVec (toC z.1 z.2)) ↔
      (Matrix.of fun i j => if j < i then denC Ar Ai i j else 0) * denC Ar Ai = Matrix.of fun i j => if j < i then denC Ar Ai i j else 0 :=
  rowsOver_iff fun z => C116_message_sparse hH z hr ho fr fi

/-- C116: the product of matrix.h, which has no flags, does the same. -/
theorem C116_array (hH : H ≤ 2^30) (z : (Fin H → ℝ) × (Fin H → ℝ)) {Ar Ai : SparseDiagonal H 3} (hr : InRange Ar) (ho : Ar.off = Ai.off) :
    Ok (mvpArrOver z Ar Ai) fun w => ∀ i, toC w.1 w.2 i =
      ∑ j, denC Ar Ai i j * (if j < i then toC w.1 w.2 j else toC z.1 z.2 j) :=
  rowsOver_spec (row := fun w i => mvpRow w.1 w.2 Ar Ai i) (fun w i => mvpRow_spec hH w.1 w.2 hr ho i) z

/-- C116: it applies the matrix `D` to all arrays exactly when the part `L` of `D` below the diagonal satisfies `L D = L`. -/
theorem C116_array_iff (hH : H ≤ 2^30) {Ar Ai : SparseDiagonal H 3} (hr : InRange Ar) (ho : Ar.off = Ai.off) :
    (∀ z, Ok (mvpArrOver z Ar Ai) fun w => toC w.1 w.2 = (denC Ar Ai).mulVec (toC z.1 z.2)) ↔
      (Matrix.of fun i j => if j < i then denC Ar Ai i j else 0) * denC Ar Ai = Matrix.of fun i j => if j < i then denC Ar Ai i j else 0 :=
  rowsOver_iff fun z => C116_array hH z hr ho

/-- C116: so a matrix with nothing below the diagonal is applied correctly. -/
theorem C116_message_sparse_upper (hH : H ≤ 2^30) {Ar Ai : SparseDiagonal H S}
    (hr : InRange Ar) (ho : SameOff Ar Ai) (fr : FlagSound Ar) (fi : FlagSound Ai) (hu : ∀ i j, j < i → denC Ar Ai i j = 0) (z) :
    Ok (mvpMsgOver z Ar Ai) fun w => toC w.1 w.2 = (denC Ar Ai).mulVec (toC z.1 z.2) := by
  refine (C116_message_sparse_iff hH hr ho fr fi).2 ?_ z
  have e : (Matrix.of fun i j => if j < i then denC Ar Ai i j else 0) = 0 := by
    ext i j
    rw [Matrix.of_apply]
    by_cases hj : j < i
    · rw [if_pos hj, hu i j hj]; rfl
    · rw [if_neg hj]; rfl
  rw [e, zero_mul]

end

/-- The hypotheses of `C116_plain` are met by sixteen diagonals of slots 1, `Delta = 2^40`, `LOGQ = 100`, `N = 2^15`. -/
example (pt : R_Q 100 (2^(14+1))) :
    Ok (ptMvpOver (LOGN := 14+1) pt (fun _ : Fin 16 => (fun _ => 1, fun _ => 0)) (BitVec.ofNat 64 (2^40))) fun r => ∀ i, (r i).sval = 0 := by
  have eD : (((BitVec.ofNat 64 (2^40)).toNat : ℕ) : ℝ) = 2^40 := by norm_cast
  refine C116_plain (by norm_num) (by norm_num) (by norm_num) pt _ _ 1 (fun k i => ?_) ?_ ?_
  · have : (⟨1, 0⟩ : ℂ) = 1 := rfl
    rw [this, norm_one]
  · rw [eD]; norm_num
  · rw [eD]; norm_num

/-- The hypotheses of `C116_plain_sparse` are met by three diagonals of slots 1 at offsets 0, 1 and 2^14 - 1. -/
example (pt : R_Q 100 (2^(14+1))) :
    Ok (ptMvpSparseOver (LOGN := 14+1) pt (⟨fun _ _ => 1, ![0, 1, 16383], fun _ => false⟩, ⟨fun _ _ => 0, ![0, 1, 16383], fun _ => true⟩)
      (BitVec.ofNat 64 (2^40))) fun r => ∀ i, (r i).sval = 0 := by
  have eD : (((BitVec.ofNat 64 (2^40)).toNat : ℕ) : ℝ) = 2^40 := by norm_cast
  refine C116_plain_sparse (by norm_num) (by norm_num) (by norm_num) pt _ rfl (fun k => ?_) _ 1 (fun k i => ?_) ?_ ?_
  · fin_cases k <;> norm_num
  · have : (⟨1, 0⟩ : ℂ) = 1 := rfl
    rw [this, norm_one]
  · rw [eD]; norm_num
  · rw [eD]; norm_num

/-- The hypotheses of `C116_message`, `C116_message_rows` and `C116_message_shift` are met by `N/2 = 4` and two diagonals: the shift
of 1, 2, 3, 4 becomes 2, 3, 4, 2. -/
example : Ok (Msg.mvpOver (n := 4) (![1, 2, 3, 4], fun _ => 0) fun k : Fin 2 => (fun _ => if k = 1 then 1 else 0, fun _ => 0)) fun w =>
    w.1 0 = 2 ∧ w.1 1 = 3 ∧ w.1 2 = 4 ∧ w.1 3 = 2 := by
  refine Ok.mono (C116_message_shift (by norm_num) (by norm_num [INT_MAX]) _) fun w hw => ?_
  exact ⟨(hw.1 0 (by decide)).1.trans rfl, (hw.1 1 (by decide)).1.trans rfl, (hw.1 2 (by decide)).1.trans rfl, hw.2.1⟩

/-- The hypotheses of `C116_message_sparse` and `C116_message_sparse_iff` are met by three diagonals of ones at offsets 0, 1 and 3. -/
example (z : (Fin 4 → ℝ) × (Fin 4 → ℝ)) (A B : SparseDiagonal 4 3) (hA : A = ⟨fun _ _ => 1, ![0, 1, 3], fun _ => false⟩)
    (hB : B = ⟨fun _ _ => 0, ![0, 1, 3], fun _ => true⟩) :
    Ok (mvpMsgOver z A B) fun w => ∀ i, toC w.1 w.2 i =
      ∑ j, A.denC B i j * (if j < i then toC w.1 w.2 j else toC z.1 z.2 j) := by
  subst hA hB
  refine C116_message_sparse (by norm_num) z (fun s => ?_) (fun s _ => rfl) (fun s h => ?_) (fun s _ i => rfl)
  · fin_cases s <;> simp
  · simp at h

/-- The hypotheses of `C116_message_sparse_upper` are met by one diagonal of twos at offset 0. -/
example (z : (Fin 4 → ℝ) × (Fin 4 → ℝ)) (A B : SparseDiagonal 4 1) (hA : A = ⟨fun _ _ => 2, fun _ => 0, fun _ => false⟩)
    (hB : B = ⟨fun _ _ => 0, fun _ => 0, fun _ => true⟩) :
    Ok (mvpMsgOver z A B) fun w => toC w.1 w.2 = (A.denC B).mulVec (toC z.1 z.2) := by
  refine C116_message_sparse_upper (Ar := A) (Ai := B) (by norm_num) ?_ ?_ ?_ ?_ ?_ z
  · subst hA
    intro s
    simp
  · subst hA hB
    exact fun s _ => rfl
  · subst hA
    intro s h
    simp at h
  · subst hB
    exact fun s _ i => rfl
  · subst hA hB
    intro i j hij
    have h : shift 0 i = i := Fin.ext (by
      show (((i.val : Int) + 0) % (4 : Nat)).toNat = i.val
      have := i.isLt
      omega)
    simp [SparseDiagonal.denC, SparseDiagonal.den, dg, h, hij.ne']
    rfl

/-- The hypotheses of `C116_array` and `C116_array_iff` are met by three diagonals of ones at offsets 0, 1 and 3. -/
example (z : (Fin 4 → ℝ) × (Fin 4 → ℝ)) (A B : SparseDiagonal 4 3) (hA : A = ⟨fun _ _ => 1, ![0, 1, 3], fun _ => false⟩)
    (hB : B = ⟨fun _ _ => 0, ![0, 1, 3], fun _ => true⟩) :
    Ok (mvpArrOver z A B) fun w => ∀ i, toC w.1 w.2 i =
      ∑ j, A.denC B i j * (if j < i then toC w.1 w.2 j else toC z.1 z.2 j) := by
  subst hA hB
  refine C116_array (by norm_num) z (fun s => ?_) rfl
  fin_cases s <;> simp

end EvalRound

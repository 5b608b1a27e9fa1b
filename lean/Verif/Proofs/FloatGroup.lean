import Verif.Proofs.FloatMat
import Verif.Spec.FloatBoot

/-! # Groups of sparse matrices in binary64 -/

namespace EvalRound
open Finset SparseDiagonal

variable {H S S1 S2 D : Nat}

theorem RowNearC.entry {X Y : Matrix (Fin H) (Fin H) ℂ} {e : ℝ} (h : RowNearC X Y e) (i j : Fin H) : ‖X i j - Y i j‖ ≤ e :=
  (single_le_sum (f := fun j => ‖X i j - Y i j‖) (fun _ _ => norm_nonneg _) (mem_univ j)).trans (h i)

theorem RowNearC.entry_le {X Y : Matrix (Fin H) (Fin H) ℂ} {e b : ℝ} (h : RowNearC X Y e) (hY : ∀ i j, ‖Y i j‖ ≤ b) (i j : Fin H) :
    ‖X i j‖ ≤ b + e := by
  have h1 := h.entry i j
  have h2 := norm_sub_norm_le (X i j) (Y i j)
  have h3 := hY i j
  linarith

theorem RowNearC.row_le {X Y : Matrix (Fin H) (Fin H) ℂ} {e ρ : ℝ} (h : RowNearC X Y e) (hY : ∀ i, ∑ j, ‖Y i j‖ ≤ ρ) (i : Fin H) :
    ∑ j, ‖X i j‖ ≤ ρ + e := by
  refine (sum_le_sum (g := fun j => ‖Y i j‖ + ‖X i j - Y i j‖) fun j _ => ?_).trans ?_
  · have := norm_sub_norm_le (X i j) (Y i j); linarith
  · rw [sum_add_distrib]; exact add_le_add (hY i) (h i)

theorem RowNearC.mono {X Y : Matrix (Fin H) (Fin H) ℂ} {e e' : ℝ} (h : RowNearC X Y e) (he : e ≤ e') : RowNearC X Y e' :=
  fun i => (h i).trans he

theorem RowNearC.trans {X Y Z : Matrix (Fin H) (Fin H) ℂ} {e e' : ℝ} (h : RowNearC X Y e) (h' : RowNearC Y Z e') : RowNearC X Z (e + e') := by
  intro i
  refine (sum_le_sum (g := fun j => ‖X i j - Y i j‖ + ‖Y i j - Z i j‖) fun j _ => norm_sub_le_norm_sub_add_norm_sub _ _ _).trans ?_
  rw [sum_add_distrib]; exact add_le_add (h i) (h' i)

theorem RowNearC.mul {A A' B B' : Matrix (Fin H) (Fin H) ℂ} {δA δB ρA ρB : ℝ} (hA : RowNearC A' A δA) (hB : RowNearC B' B δB)
    (rA : ∀ i, ∑ j, ‖A i j‖ ≤ ρA) (rB : ∀ i, ∑ j, ‖B i j‖ ≤ ρB) (h0 : 0 ≤ ρB) (h1 : 0 ≤ δB) :
    RowNearC (A' * B') (A * B) ((ρA + δA) * δB + δA * ρB) := by
  intro i
  have e : A' * B' - A * B = A' * (B' - B) + (A' - A) * B := by
    rw [Matrix.mul_sub, Matrix.sub_mul]; abel
  have e2 : ∀ j, (A' * B') i j - (A * B) i j = (A' * (B' - B)) i j + ((A' - A) * B) i j := fun j => by
    rw [← Matrix.sub_apply, e, Matrix.add_apply]
  have k1 := row_mul (M := A') (M' := B' - B) h1 (fun i => hA.row_le rA i) (fun i => hB i) i
  have k2 := row_mul (M := A' - A) (M' := B) h0 (fun i => hA i) rB i
  refine (sum_le_sum (g := fun j => ‖(A' * (B' - B)) i j‖ + ‖((A' - A) * B) i j‖) fun j _ => ?_).trans ?_
  · rw [e2]; exact norm_add_le _ _
  · rw [sum_add_distrib]; exact add_le_add k1 k2

/-- what the factors of a transform are in binary64: near the exact matrices `R`, whose rows sum up to at most 2 and whose products of
consecutive ones have entries up to 1 -/
structure NearFactors (A : Fin D → SD2 H 3) (R : Nat → Matrix (Fin H) (Fin H) ℂ) : Prop where
  prod : ∀ d, SDProd (A d)
  near : ∀ d : Fin D, RowNearC (denC (A d).1 (A d).2) (R d) (36 * uF)
  row : ∀ d, d < D → ∀ p, ∑ q, ‖R d p q‖ ≤ 2
  ent : ∀ d, ∀ t, d + t ≤ D → ∀ p q, ‖seqMat (fun j => R (d + j)) t p q‖ ≤ 1

theorem seqMat_one (A : Nat → Matrix (Fin H) (Fin H) ℂ) : seqMat A 1 = A 0 := by simp [seqMat]

theorem NearFactors.ent1 {A : Fin D → SD2 H 3} {R : Nat → Matrix (Fin H) (Fin H) ℂ} (h : NearFactors A R) {d : Nat} (hd : d < D)
    (p q : Fin H) : ‖R d p q‖ ≤ 1 := by
  have := h.ent d 1 (by omega) p q
  rwa [seqMat_one] at this

theorem NearFactors.rowSeq {A : Fin D → SD2 H 3} {R : Nat → Matrix (Fin H) (Fin H) ℂ} (h : NearFactors A R) {d t : Nat} (hd : d + t ≤ D)
    (p : Fin H) : ∑ q, ‖seqMat (fun j => R (d + j)) t p q‖ ≤ 2^t := by
  induction t generalizing p with
  | zero =>
    rw [seqMat, pow_zero]
    refine (sum_le_sum (g := fun j => if j = p then (1:ℝ) else 0) fun j _ => ?_).trans (le_of_eq (by simp))
    rw [Matrix.one_apply]
    by_cases hj : j = p
    · rw [if_pos hj, if_pos hj.symm, norm_one]
    · rw [if_neg hj, if_neg (Ne.symm hj), norm_zero]
  | succ t ih =>
    rw [seqMat, pow_succ']
    exact row_mul (by positivity) (h.row (d + t) (by omega)) (fun p => ih (by omega) p) p

/-- one more product in binary64 -/
theorem NearFactors.step {A : Fin D → SD2 H 3} {R : Nat → Matrix (Fin H) (Fin H) ℂ} (h : NearFactors A R) (hH : H ≤ 2^30) (hH1 : 1 ≤ H)
    {d t : Nat} (hd : d + t < D) {B : SD2 H S} (hB : SDProd B) {e e' : ℝ} (h0 : 0 ≤ e) (he : e ≤ 10000 * uF)
    (hn : RowNearC (denC B.1 B.2) (seqMat (fun j => R (d + j)) t) e) (hS : 3 * S ≤ 100)
    (he' : 2.001 * e + 36 * uF * 2^t + 3 * S * (25 * uF) ≤ e') (C0 C1 : SparseDiagonal H (3 * S)) :
    Ok (MatMulCF (A ⟨d + t, hd⟩).1 (A ⟨d + t, hd⟩).2 B.1 B.2 C0 C1) fun C => SDProd C ∧
      RowNearC (denC C.1 C.2) (seqMat (fun j => R (d + j)) (t + 1)) e' := by
  have hu := uF_pos
  have hu2 := uF_le
  have nA := h.near ⟨d + t, hd⟩
  refine Ok.mono (MatMulCF_spec hH hH1 (h.prod ⟨d + t, hd⟩) hB (by omega) ?_ ?_ ?_ C0 C1) fun C ⟨h1, h2⟩ => ⟨h1, ?_⟩
  · intro i l
    refine (nA.entry_le (h.ent1 hd) i l).trans ?_
    linarith
  · intro i
    refine (nA.row_le (h.row _ hd) i).trans ?_
    linarith
  · intro i l
    refine (hn.entry_le (h.ent d t (by omega)) i l).trans ?_
    linarith
  · have k1 := nA.mul hn (h.row _ hd) (h.rowSeq (by omega : d + t ≤ D)) (by positivity) h0
    have k2 := RowNearC.trans (X := denC C.1 C.2) h2 k1
    refine k2.mono (le_trans ?_ he')
    have : (2 + 36 * uF) * e ≤ 2.001 * e := mul_le_mul_of_nonneg_right (by linarith) h0
    push_cast
    linarith

theorem matUlp_eq (g : Nat) : matUlp g = 25 * 4^g * uF := by unfold matUlp uF; ring

theorem matUlp_nonneg (g : Nat) : 0 ≤ matUlp g := by unfold matUlp; positivity

/-- a group of `g` factors in binary64 -/
def GroupF (R : Nat → Matrix (Fin H) (Fin H) ℂ) (g i : Nat) (B : SD2 H S2) : Prop :=
  SDProd B ∧ RowNearC (denC B.1 B.2) (seqMat (fun j => R (g * i + j)) g) (matUlp g)

theorem group2F_spec (hH : H ≤ 2^30) (hH1 : 1 ≤ H) {A : Fin D → SD2 H 3} {R : Nat → Matrix (Fin H) (Fin H) ℂ} (h : NearFactors A R)
    (hD : D % 2 = 0) : Ok (group2F A) fun B => ∀ i : Fin (D/2), GroupF R 2 i (B i) := by
  unfold group2F
  have hu := uF_pos
  rw [show assertM (decide (D % 2 = 0)) = pure () by rw [hD]; rfl, pure_bind]
  refine tabM_spec (P := fun i b => GroupF R 2 i b) fun i hi => ?_
  have d0 := div_idx (j := 0) hi (by norm_num)
  have d1 := div_idx (j := 1) hi (by norm_num)
  rw [rd_of_lt A d1, pure_bind, rd_of_lt A (show 2*i < D from d0), pure_bind]
  have n0 : RowNearC (denC (A ⟨2*i, d0⟩).1 (A ⟨2*i, d0⟩).2) (seqMat (fun j => R (2*i+j)) 1) (36 * uF) := by
    rw [seqMat_one]; exact h.near ⟨2*i, d0⟩
  refine Ok.mono (h.step hH hH1 (d := 2*i) (t := 1) d1 (h.prod _) (e' := matUlp 2) (by positivity) (by linarith) n0 (by norm_num) ?_ _ _)
    fun C hC => hC
  rw [matUlp_eq]
  linarith

theorem group3F_spec (hH : H ≤ 2^30) (hH1 : 1 ≤ H) {A : Fin D → SD2 H 3} {R : Nat → Matrix (Fin H) (Fin H) ℂ} (h : NearFactors A R)
    (hD : D % 3 = 0) : Ok (group3F A) fun B => ∀ i : Fin (D/3), GroupF R 3 i (B i) := by
  unfold group3F
  have hu := uF_pos
  rw [show assertM (decide (D % 3 = 0)) = pure () by rw [hD]; rfl, pure_bind]
  refine tabM_spec (P := fun i b => GroupF R 3 i b) fun i hi => ?_
  have d0 := div_idx (j := 0) hi (by norm_num)
  have d1 := div_idx (j := 1) hi (by norm_num)
  have d2 := div_idx (j := 2) hi (by norm_num)
  rw [rd_of_lt A d1, pure_bind, rd_of_lt A (show 3*i < D from d0), pure_bind]
  have n0 : RowNearC (denC (A ⟨3*i, d0⟩).1 (A ⟨3*i, d0⟩).2) (seqMat (fun j => R (3*i+j)) 1) (36 * uF) := by
    rw [seqMat_one]; exact h.near ⟨3*i, d0⟩
  refine Ok.bind (h.step hH hH1 (d := 3*i) (t := 1) d1 (h.prod _) (e' := 370 * uF) (by positivity) (by linarith) n0 (by norm_num)
    (by push_cast; linarith) _ _) fun B ⟨hB, nB⟩ => ?_
  rw [rd_of_lt A d2, pure_bind]
  refine Ok.mono (h.step hH hH1 (d := 3*i) (t := 2) d2 hB (e' := matUlp 3) (by positivity) (by linarith) nB (by norm_num) ?_ _ _)
    fun C hC => hC
  rw [matUlp_eq]
  push_cast
  linarith

theorem group4F_spec (hH : H ≤ 2^30) (hH1 : 1 ≤ H) {A : Fin D → SD2 H 3} {R : Nat → Matrix (Fin H) (Fin H) ℂ} (h : NearFactors A R)
    (hD : D % 4 = 0) : Ok (group4F A) fun B => ∀ i : Fin (D/4), GroupF R 4 i (B i) := by
  unfold group4F
  have hu := uF_pos
  rw [show assertM (decide (D % 4 = 0)) = pure () by rw [hD]; rfl, pure_bind]
  refine tabM_spec (P := fun i b => GroupF R 4 i b) fun i hi => ?_
  have d0 := div_idx (j := 0) hi (by norm_num)
  have d1 := div_idx (j := 1) hi (by norm_num)
  have d2 := div_idx (j := 2) hi (by norm_num)
  have d3 := div_idx (j := 3) hi (by norm_num)
  rw [rd_of_lt A d1, pure_bind, rd_of_lt A (show 4*i < D from d0), pure_bind]
  have n0 : RowNearC (denC (A ⟨4*i, d0⟩).1 (A ⟨4*i, d0⟩).2) (seqMat (fun j => R (4*i+j)) 1) (36 * uF) := by
    rw [seqMat_one]; exact h.near ⟨4*i, d0⟩
  refine Ok.bind (h.step hH hH1 (d := 4*i) (t := 1) d1 (h.prod _) (e' := 370 * uF) (by positivity) (by linarith) n0 (by norm_num)
    (by push_cast; linarith) _ _) fun B ⟨hB, nB⟩ => ?_
  rw [rd_of_lt A d2, pure_bind]
  refine Ok.bind (h.step hH hH1 (d := 4*i) (t := 2) d2 hB (e' := 1560 * uF) (by positivity) (by linarith) nB (by norm_num)
    (by push_cast; linarith) _ _) fun C ⟨hC, nC⟩ => ?_
  rw [rd_of_lt A d3, pure_bind]
  refine Ok.mono (h.step hH hH1 (d := 4*i) (t := 3) d3 hC (e' := matUlp 4) (by positivity) (by linarith) nC (by norm_num) ?_ _ _)
    fun C hC => hC
  rw [matUlp_eq]
  push_cast
  linarith

end EvalRound

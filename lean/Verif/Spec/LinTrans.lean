import Verif.Spec.DFT
import Verif.Spec.Matrix
import Verif.Model.LinTrans

/-! # Linear maps on slots -/

namespace EvalRound
variable {H S D : Nat}

/-- the slots of an integer polynomial of degree below `2^(n+1)` -/
noncomputable def slots (n : Nat) (w : Fin (2^(n+1)) → Int) : Fin (2^n) → ℂ :=
  fun i => slotOf (fun k => (w k : ℝ)) i

/-- the product of the first `t` matrices of a sequence, the first one applied first -/
noncomputable def seqMat (A : Nat → Matrix (Fin H) (Fin H) ℂ) : Nat → Matrix (Fin H) (Fin H) ℂ
  | 0 => 1
  | t+1 => A t * seqMat A t

/-- the dense matrices of a sequence of pairs of sparse ones -/
noncomputable def mats (A : Fin D → SD2 H S) (d : Nat) : Matrix (Fin H) (Fin H) ℂ :=
  if h : d < D then SparseDiagonal.denC (A ⟨d, h⟩).1 (A ⟨d, h⟩).2 else 1

/-- The diagonal `s` is not skipped by `linear_transform`. -/
def Act (A : SD2 H S) (s : Fin S) : Prop := ¬ (A.1.zero s = true ∧ A.2.zero s = true)

instance (A : SD2 H S) (s : Fin S) : Decidable (Act A s) := by unfold Act; infer_instance

/-- A pair of sparse matrices, real and imaginary part, with the same offsets in `[0,H)`, zero flags
only on zero diagonals, entries up to `ρ` and row sums of absolute values up to `ρ`. -/
structure LTMat (A : SD2 H S) (ρ : ℝ) : Prop where
  off : A.1.off = A.2.off
  rng : A.1.InRange
  flag : A.1.FlagSound ∧ A.2.FlagSound
  entry : ∀ s i, ‖(⟨A.1.vec s i, A.2.vec s i⟩ : ℂ)‖ ≤ ρ
  row : ∀ i, ∑ j, ‖SparseDiagonal.denC A.1 A.2 i j‖ ≤ ρ

/-- Error of one linear transform with `S` diagonals on `2^n` slots of size up to `Z`, secret keys of
weight `h`, matrix entries up to `ρ` and scaling factor `Δ`. -/
noncomputable def ltErr (n S : Nat) (h : Nat) (ρ Δ Z : ℝ) : ℝ :=
  S * (2^n * Z + (ρ * Δ + 2^n) * (2^(n+1) * (8 * 2^(n+1) + (h + 1) / 2)))

/-- Size of the slots after `d` linear transforms with row sums up to `ρ` and entries up to `β`: each one
multiplies by at most `ρΔ` and adds its error. -/
noncomputable def ltSize (n S : Nat) (h : Nat) (ρ β Δ Z : ℝ) : Nat → ℝ
  | 0 => Z
  | d+1 => Δ * ρ * ltSize n S h ρ β Δ Z d + ltErr n S h β Δ (ltSize n S h ρ β Δ Z d)

end EvalRound

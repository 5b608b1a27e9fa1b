import Mathlib.Data.Complex.Basic
import Mathlib.Data.Matrix.Mul
import Verif.Model.Matrix

/-! # What a sparse diagonal matrix means -/

namespace EvalRound
variable {N S : Nat}

/-- the column that holds the entry of row `i` on the diagonal with offset `o`: `i+o` modulo `N` -/
def shift (o : Int) (i : Fin N) : Fin N :=
  ⟨(((i.val : Int) + o) % N).toNat, by
    have h0 := i.isLt
    have h1 := Int.emod_lt_of_pos ((i.val : Int) + o) (b := N) (by have := i.isLt; omega)
    omega⟩

/-- the dense matrix with `v` on the diagonal with offset `o` and 0 elsewhere -/
noncomputable def dg (o : Int) (v : Fin N → ℝ) : Matrix (Fin N) (Fin N) ℝ :=
  fun i j => if shift o i = j then v i else 0

/-- a complex number array from its two parts -/
def toC {n : Nat} (x y : Fin n → ℝ) : Fin n → ℂ := fun i => ⟨x i, y i⟩

namespace SparseDiagonal

/-- the dense matrix: the sum of the diagonals -/
noncomputable def den (A : SparseDiagonal N S) : Matrix (Fin N) (Fin N) ℝ :=
  fun i j => ∑ s, dg (A.off s) (A.vec s) i j

/-- the complex dense matrix of two real ones -/
noncomputable def denC (Ar Ai : SparseDiagonal N S) : Matrix (Fin N) (Fin N) ℂ :=
  fun i j => ⟨den Ar i j, den Ai i j⟩

/-- every offset lies in `[0,N)` -/
def InRange (A : SparseDiagonal N S) : Prop := ∀ s, 0 ≤ A.off s ∧ A.off s < N

/-- of two diagonals with the same offset only the first holds nonzero entries -/
def FirstOwns (A : SparseDiagonal N S) : Prop :=
  ∀ s s', s < s' → A.off s = A.off s' → ∀ i, A.vec s' i = 0

/-- a diagonal flagged zero holds only zeros -/
def FlagSound (A : SparseDiagonal N S) : Prop := ∀ s, A.zero s = true → ∀ i, A.vec s i = 0

/-- the offsets of the two parts agree wherever one of them may be nonzero -/
def SameOff (Ar Ai : SparseDiagonal N S) : Prop :=
  ∀ s, ¬ (Ar.zero s = true ∧ Ai.zero s = true) → Ar.off s = Ai.off s

end SparseDiagonal
end EvalRound

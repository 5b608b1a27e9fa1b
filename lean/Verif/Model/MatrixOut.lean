import Verif.Model.Matrix
import Verif.Model.Print
import Verif.Model.Endecode
import Verif.Model.Float

/-!
# The dense product and the output functions of matrix.h, and the output functions of util.h, message.h, simple_plaintext.h

`fmt` stands for the conversion of a `double` to text by `printf` or `std::cout`, which is not modelled.
-/

namespace EvalRound
variable {N S : Nat}

/-- The body of the loop over `k` of `matrix_product`, matrix.h:17-20, for one entry `c = (Cr[i][j], Ci[i][j])`. -/
noncomputable def mpStep (Ar Ai Br Bi : Fin N → Fin N → ℝ) (i j k : Fin N) (c : ℝ × ℝ) : ℝ × ℝ :=
  (c.1 + (Ar i k * Br k j - Ai i k * Bi k j), c.2 + (Ar i k * Bi k j + Ai i k * Br k j))

/-- `matrix_product<N>(Ar,Ai,Br,Bi,Cr,Ci)`, matrix.h:7-22, for `C` different from `A` and `B`. -/
noncomputable def matrix_product (Ar Ai Br Bi : Fin N → Fin N → ℝ) (C0 : Fin N → Fin N → ℝ × ℝ) : Fin N → Fin N → ℝ × ℝ :=
  forFin N (fun i C => forFin N (fun j C =>
    let C := Function.update C i (Function.update (C i) j (0, 0))
    forFin N (fun k C => Function.update C i (Function.update (C i) j (mpStep Ar Ai Br Bi i j k (C i j)))) C) C) C0

/-- `matrix_product<N>(Ar,Ai,Br,Bi,Ar,Ai)`, matrix.h:7-22 with the result written over the left factor `A`. -/
noncomputable def matrix_product_left (Br Bi : Fin N → Fin N → ℝ) (A : Fin N → Fin N → ℝ × ℝ) : Fin N → Fin N → ℝ × ℝ :=
  forFin N (fun i A => forFin N (fun j A =>
    let A := Function.update A i (Function.update (A i) j (0, 0))
    forFin N (fun k A =>
      -- Cr[i][j] += ... is done before Ci[i][j] += ... reads A[i][k] again
      let A := Function.update A i (Function.update (A i) j ((A i j).1 + ((A i k).1 * Br k j - (A i k).2 * Bi k j), (A i j).2))
      Function.update A i (Function.update (A i) j ((A i j).1, (A i j).2 + ((A i k).1 * Bi k j + (A i k).2 * Br k j)))) A) A) A

/-- `matrix_product<N>(Ar,Ai,Br,Bi,Cr,Ci)`, matrix.h:7-22, in binary64: the entry `i`, `j`. -/
noncomputable def mpEntryF (Ar Ai Br Bi : Fin N → Fin N → ℝ) (i j : Fin N) : M (ℝ × ℝ) :=
  forUp 0 N (fun k (c : ℝ × ℝ) => do
    let ar ← rd (Ar i) k
    let ai ← rd (Ai i) k
    let br ← rd Br k
    let bi ← rd Bi k
    let cr ← accF c.1 ar (br j) ai (bi j)
    let ci ← accF c.2 ar (bi j) (-ai) (br j)
    pure (cr, ci)) (0, 0)

/-- `matrix_product<N>(Ar,Ai,Br,Bi,Cr,Ci)`, matrix.h:7-22, in binary64, for `C` different from `A` and `B`. -/
noncomputable def matrix_productF (Ar Ai Br Bi : Fin N → Fin N → ℝ) : M (Fin N → Fin N → ℝ × ℝ) :=
  tabM N (fun i => if hi : i < N then tabM N (fun j => if hj : j < N then mpEntryF Ar Ai Br Bi ⟨i, hi⟩ ⟨j, hj⟩ else ub) else ub)

/-- `print<N>(Ar,Ai)`, matrix.h:24-37. -/
def print_dense (fmt : ℝ → Text) (Ar Ai : Fin N → Fin N → ℝ) : Text :=
  forFin N (fun i out =>
    let out := out ++ lit "["
    let out := forFin N (fun j out =>
      if (j.val : Int) < N - 1 then out ++ (fmt (Ar i j) ++ lit "+%i*" ++ fmt (Ai i j) ++ lit ",")
      else out ++ (fmt (Ar i j) ++ lit "+%i*" ++ fmt (Ai i j) ++ lit "]")) out
    if (i.val : Int) < N - 1 then out ++ lit ", \n" else out ++ lit ");\n") (lit "matrix(")

namespace SparseDiagonal

/-- The column that `print` shows for row `i` of a diagonal, matrix.h:71-72. -/
def printCol (N i : Nat) (off : Int) : M Int := do
  let t ← intM ((i : Int) + off)
  let j := Int.tmod t N
  pure (if j < 0 then j + N else j)

open Classical in
/-- `print`, matrix.h:67-76: the rows, columns and values of the lines `name[row][column]:value$`, in the order of the lines. The
first line, which makes a zero matrix, is left out. -/
noncomputable def print (A : SparseDiagonal N S) : M (List (Int × Int × ℝ)) :=
  forUp 0 S (fun s out => do
    let v ← rd A.vec s
    let off ← rd A.off s
    forUp 0 N (fun i out => do
      let j ← printCol N i off
      let x ← rd v i
      pure (if x ≠ 0 then out ++ [((i : Int) + 1, j + 1, x)] else out)) out) []

/-- `print_max`, matrix.h:245-255: the number printed. -/
noncomputable def print_max (A : SparseDiagonal N S) : ℝ :=
  forFin S (fun s mx => forFin N (fun i mx => let a := |A.vec s i|; if mx > a then mx else a) mx) 0

end SparseDiagonal

/-- `print_array<N>(A)`, util.h:47-59 (both): the entries printed. -/
def print_array {α : Type} (A : Fin N → α) : M (List α) :=
  forUp 0 (if N < 10 then N else 10) (fun i out => do
    let a ← rd A i
    pure (out ++ [a])) []

/-- `print(name,z)` on messages, message.h:78-85: the pairs printed. -/
noncomputable def print_message (LOGN : Nat) (z : CVec LOGN) : M (List (ℝ × ℝ)) :=
  forUp 0 (if 2^(LOGN-1) < 10 then 2^(LOGN-1) else 10) (fun i out => do
    let r ← rd z.1 i
    let im ← rd z.2 i
    pure (out ++ [(r, im)])) []

/-- `print(name,pt)` on simple plaintexts, simple_plaintext.h:115-121: the coefficients printed. -/
def print_simple {α : Type} (LOGN : Nat) (pt : Fin (2^LOGN) → α) : M (List α) :=
  forUp 0 (if 2^LOGN < 10 then 2^LOGN else 10) (fun i out => do
    let a ← rd pt i
    pure (out ++ [a])) []

end EvalRound

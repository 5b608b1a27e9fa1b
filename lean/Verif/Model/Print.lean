import Verif.Model.Str
import Verif.Model.Ring

/-!
# Output of numbers and polynomials: the `print` members of Z_Q.h, R_Q.h and R_Q_square.h

A printing function returns the characters it writes. When it fails, the characters written before the failure are not kept.
-/

namespace EvalRound

/-- characters written to `stdout`. R_Q.h:50-73, Z_Q.h:181-185. -/
abbrev Text := List (BitVec 8)

/-- the characters of a string literal, as in R_Q.h:52-57. -/
def lit (s : String) : Text := s.toList.map fun c => BitVec.ofNat 8 c.toNat

/-- `printf("%s",str)`: the characters before the first NUL. A buffer without one is read past its end. Not a line of the
repository, but the meaning of the call in Z_Q.h:184. -/
def printS {cap : Nat} (str : Fin cap → BitVec 8) : M Text :=
  if ∃ i, str i = 0 then pure ((List.ofFn str).takeWhile fun c => c != 0) else ub

/-- `Z_Q<LOGQ>::print_unsigned`, Z_Q.h:181-185. The buffer is indeterminate before `to_str`; `printf` reads only what
`to_str` has written. -/
def Z_Q.print_unsigned {LOGQ : Nat} (x : Z_Q LOGQ) : M Text := do
  let str : Fin 520 → BitVec 8 := fun _ => 0
  let str ← Z_Q.to_str x str
  let t ← printS str
  pure (t ++ lit "\n")

namespace R_Q
variable {LOGQ N : Nat} [NeZero LOGQ]

/-- `R_Q<LOGQ,N>::print_unsigned`, R_Q.h:50-58. -/
def print_unsigned (A : R_Q LOGQ N) : M Text := do
  let out := lit "["
  let out ← forUp 0 N (fun i out => do
    let x ← rd A i
    let t ← Z_Q.print_unsigned x
    let out := out ++ t
    pure (if (i : Int) < N - 1 then out ++ lit "," else out)) out
  pure (out ++ lit "]\n")

/-- `R_Q<LOGQ,N>::print_signed`, R_Q.h:60-74. -/
def print_signed (A : R_Q LOGQ N) : M Text := do
  let out := lit "["
  let out ← forUp 0 N (fun i out => do
    let x ← rd A i
    let out ←
      if x.is_bigger_than_halfQ then do
        let out := out ++ lit "-"
        let temp := Z_Q.copy x
        let temp := Z_Q.negate temp
        let t ← Z_Q.print_unsigned temp
        pure (out ++ t)
      else do
        let t ← Z_Q.print_unsigned x
        pure (out ++ t)
    pure (if (i : Int) < N - 1 then out ++ lit "," else out)) out
  pure (out ++ lit "]\n")

end R_Q

/-- `R_Q_square<LOGQ,N>::print`, R_Q_square.h:26-32. -/
def R_Q_square.print {LOGQ N : Nat} [NeZero LOGQ] (A : R_Q_square LOGQ N) : M Text := do
  let a ← R_Q.print_unsigned A.1
  let b ← R_Q.print_unsigned A.2
  pure (lit "[" ++ a ++ lit ",\n" ++ b ++ lit "]\n")

end EvalRound

import Mathlib.Data.Nat.Digits.Defs
import Verif.Base.Sem

/-! # Decimal text, as a user reads it -/

namespace EvalRound

/-- the decimal digits of a number, most significant first, without leading zeros -/
def decDigits (v : Nat) : List Nat := if v = 0 then [0] else (Nat.digits 10 v).reverse

/-- a decimal digit as a character -/
def chr (d : Nat) : BitVec 8 := BitVec.ofNat 8 (48 + d)

/-- the decimal text of a number -/
def decText (v : Nat) : List (BitVec 8) := (decDigits v).map chr

/-- the number written by a list of digits, most significant first -/
def readDigits (ds : List Nat) : Nat := Nat.ofDigits 10 ds.reverse

/-- the C string held by a buffer: its characters up to the first NUL -/
def cstr {cap : Nat} (s : Fin cap → BitVec 8) : List (BitVec 8) :=
  (List.ofFn s).takeWhile (fun c => c != 0)

/-- the decimal text of an integer -/
def signedText (v : Int) : List (BitVec 8) := if v < 0 then 45 :: decText v.natAbs else decText v.natAbs

/-- a list of texts as R_Q.h prints it: in brackets, each text on a line of its own, with commas between -/
def listText (ts : List (List (BitVec 8))) : List (BitVec 8) :=
  [91] ++ List.intercalate [44] (ts.map fun t => t ++ [10]) ++ [93, 10]

end EvalRound

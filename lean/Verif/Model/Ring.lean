import Verif.Model.ZQ

/-!
# Polynomials and pairs of polynomials: arith/R_Q.h and the additive part of arith/R_Q_square.h
-/

namespace EvalRound
open Z_Q

/-- `struct R_Q<LOGQ,N>`, R_Q.h:8-23: the coefficient array. -/
abbrev R_Q (LOGQ N : Nat) := Fin N → Z_Q LOGQ

namespace R_Q
variable {LOGQ N : Nat} [NeZero LOGQ]

/-- Copy constructor and assignment, R_Q.h:13-14. -/
def copy (A : R_Q LOGQ N) : R_Q LOGQ N := fun i => Z_Q.copy (A i)

/-- `operator+=`, R_Q.h:33-37, for an argument that is a different object. -/
def add (x B : R_Q LOGQ N) : R_Q LOGQ N :=
  forFin N (fun i (x : R_Q LOGQ N) => Function.update x i (Z_Q.add (x i) (B i))) x

/-- `x += x`, R_Q.h:33-37 with the argument being the object itself. -/
def addSelf (x : R_Q LOGQ N) : R_Q LOGQ N :=
  forFin N (fun i (x : R_Q LOGQ N) => Function.update x i (Z_Q.addSelf (x i))) x

/-- `operator-=`, R_Q.h:38-42. -/
def sub (x B : R_Q LOGQ N) : R_Q LOGQ N :=
  forFin N (fun i (x : R_Q LOGQ N) => Function.update x i (Z_Q.sub (x i) (B i))) x

/-- `operator*=(uint64_t)`, R_Q.h:44-48. -/
def mulW (x : R_Q LOGQ N) (a : W) : R_Q LOGQ N :=
  forFin N (fun i (x : R_Q LOGQ N) => Function.update x i (Z_Q.mulW (x i) a)) x

/-- `setzero`, R_Q.h:76-80. -/
def setzero : R_Q LOGQ N := fun _ => Z_Q.setzero

/-- `resize<LOGQfrom,LOGQto,N>`, R_Q.h:82-87. -/
def resize {LF : Nat} (LT : Nat) [NeZero LF] [NeZero LT] (A : R_Q LF N) : R_Q LT N :=
  fun i => Z_Q.resize LT (A i)

end R_Q

/-- `struct R_Q_square<LOGQ,N>`, R_Q_square.h:8-22: `data[0]` and `data[1]`. -/
abbrev R_Q_square (LOGQ N : Nat) := R_Q LOGQ N × R_Q LOGQ N

namespace R_Q_square
variable {LOGQ N : Nat} [NeZero LOGQ]

/-- Copy constructor and assignment, R_Q_square.h:12-13. -/
def copy (A : R_Q_square LOGQ N) : R_Q_square LOGQ N := (R_Q.copy A.1, R_Q.copy A.2)

/-- `operator+=`, R_Q_square.h:36-40, for an argument that is a different object. -/
def add (x B : R_Q_square LOGQ N) : R_Q_square LOGQ N := (R_Q.add x.1 B.1, R_Q.add x.2 B.2)

/-- `x += x`, R_Q_square.h:36-40 with the argument being the object itself. -/
def addSelf (x : R_Q_square LOGQ N) : R_Q_square LOGQ N := (R_Q.addSelf x.1, R_Q.addSelf x.2)

/-- `operator-=`, R_Q_square.h:42-46. -/
def sub (x B : R_Q_square LOGQ N) : R_Q_square LOGQ N := (R_Q.sub x.1 B.1, R_Q.sub x.2 B.2)

/-- `operator*=(uint64_t)`, R_Q_square.h:57-61. -/
def mulW (x : R_Q_square LOGQ N) (a : W) : R_Q_square LOGQ N := (R_Q.mulW x.1 a, R_Q.mulW x.2 a)

/-- `setzero`, R_Q_square.h:21. -/
def setzero : R_Q_square LOGQ N := (R_Q.setzero, R_Q.setzero)

/-- `resize<LOGQfrom,LOGQto,N>`, R_Q_square.h:63-68. -/
def resize {LF : Nat} (LT : Nat) [NeZero LF] [NeZero LT] (A : R_Q_square LF N) : R_Q_square LT N :=
  (R_Q.resize LT A.1, R_Q.resize LT A.2)

end R_Q_square
end EvalRound

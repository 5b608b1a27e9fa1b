import Verif.Model.InPlace

/-!
# `enc` and `dec` whose plaintext is a component of the ciphertext
-/

namespace EvalRound
open Z_Q

variable {LOGQ N : Nat} [NeZero LOGQ]

/-- `enc(ct[1],s,ct)`, core.h:29-49: line 44 reads what the loop 32-36 has written. -/
def encOver1 (RAND_MAX : Nat) (s : Fin N → Int) (ct : R_Q_square LOGQ N) (ω : Rng) : M (R_Q_square LOGQ N × Rng) := do
  let m := encMask RAND_MAX ct.2 ω
  let n : R_Q LOGQ N × Rng := encNoise m.2
  let e := R_Q.add n.1 m.1
  let c0 := R_Q.copy e
  let e ← convS s m.1
  let c0 := R_Q.sub c0 e
  pure ((c0, m.1), n.2)

/-- `dec(ct,s,ct[0])`, core.h:51-57: line 56 is `pt += pt`. Returns `ct[0]`. -/
def decOver0 (ct : R_Q_square LOGQ N) (s : Fin N → Int) : M (R_Q LOGQ N) := do
  let pt ← convS s ct.2
  pure (R_Q.addSelf pt)

/-- `dec(ct,s,ct[1])`, core.h:51-57: line 55 is `conv(s,A,A)`. Returns `ct[1]`. -/
def decOver1 (ct : R_Q_square LOGQ N) (s : Fin N → Int) : M (R_Q LOGQ N) := do
  let pt ← convSOver s ct.2
  pure (R_Q.add pt ct.1)

end EvalRound

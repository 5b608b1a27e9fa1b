import Verif.Spec.Ring

/-! # What a ciphertext means -/

namespace EvalRound
variable {LOGQ N : Nat}

/-- every entry of the key is -1, 0 or 1 -/
def Ternary (s : Fin N → Int) : Prop := ∀ k, s k = -1 ∨ s k = 0 ∨ s k = 1

/-- number of nonzero entries -/
def weight (s : Fin N → Int) : Nat := (Finset.univ.filter fun k => s k ≠ 0).card

/-- an integer polynomial modulo `2^LOGQ` -/
def red (LOGQ : Nat) (s : Fin N → Int) : Fin N → ZMod (2^LOGQ) := fun i => (s i : ZMod (2^LOGQ))

namespace R_Q_square

/-- both components are canonical -/
def Canonical (ct : R_Q_square LOGQ N) : Prop := R_Q.Canonical ct.1 ∧ R_Q.Canonical ct.2

/-- `ct[0] + ct[1]*s` modulo `2^LOGQ`: what the ciphertext holds for the key `s` -/
def phase (s : Fin N → Int) (ct : R_Q_square LOGQ N) : Fin N → ZMod (2^LOGQ) := fun i =>
  (ct.1 i).cls + negconv (red LOGQ s) (R_Q.cls ct.2) i

end R_Q_square
end EvalRound

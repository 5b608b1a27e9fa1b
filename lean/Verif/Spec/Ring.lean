import Verif.Model.Ring
import Verif.Spec.ZQ
import Verif.Spec.Negacyclic

/-! # What a coefficient array means -/

namespace EvalRound.R_Q
variable {LOGQ N : Nat}

/-- every coefficient is the least non-negative residue -/
def Canonical (A : R_Q LOGQ N) : Prop := ∀ i, (A i).Canonical

/-- the residue classes of the coefficients -/
def cls (A : R_Q LOGQ N) : Fin N → ZMod (2^LOGQ) := fun i => (A i).cls

/-- the signed representatives of the coefficients -/
def sval (A : R_Q LOGQ N) : Fin N → Int := fun i => (A i).sval

end EvalRound.R_Q

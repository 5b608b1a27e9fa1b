import Mathlib.Init

/-! # Bit reversal, as a function on numbers -/

namespace EvalRound

/-- reversal of the lowest `d` binary digits of `x` -/
def bitRev : (d x : Nat) → Nat
  | 0, _ => 0
  | d+1, x => (x % 2) * 2^d + bitRev d (x / 2)

end EvalRound

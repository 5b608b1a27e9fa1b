import Verif.Model.ZQ
import Mathlib.Algebra.BigOperators.Group.Finset.Basic
import Mathlib.Algebra.Order.Ring.Nat
import Mathlib.Data.ZMod.Basic

/-!
# What a limb array means

The number held by a little-endian array of 64-bit limbs, and the residue it stands for.
-/

namespace EvalRound

/-- digit `i` of a limb array, 0 outside -/
def dig {n : Nat} (a : Fin n → W) (i : Nat) : Nat := if h : i < n then (a ⟨i, h⟩).toNat else 0

/-- number held by the lowest `k` limbs -/
def lv {n : Nat} (a : Fin n → W) (k : Nat) : Nat := ∑ i ∈ Finset.range k, dig a i * 2^(64*i)

namespace Z_Q
variable {LOGQ : Nat}

/-- the number held by all limbs -/
def val (x : Z_Q LOGQ) : Nat := lv x.data (nlimb LOGQ)

/-- the stored number is the least non-negative residue -/
def Canonical (x : Z_Q LOGQ) : Prop := x.val < 2^LOGQ

/-- the residue class modulo `2^LOGQ` -/
def cls (x : Z_Q LOGQ) : ZMod (2^LOGQ) := (x.val : ZMod (2^LOGQ))

/-- the signed representative in `[-2^(LOGQ-1), 2^(LOGQ-1))` of the residue class -/
def sval (x : Z_Q LOGQ) : Int := Int.bmod x.val (2^LOGQ)

/-- the limb array of a number -/
def ofNat (LOGQ : Nat) (v : Nat) : Z_Q LOGQ := ⟨fun i => BitVec.ofNat 64 (v / 2^(64 * i.val))⟩

end Z_Q
end EvalRound

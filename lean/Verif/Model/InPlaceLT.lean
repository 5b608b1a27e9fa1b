import Verif.Model.InPlace
import Verif.Model.LinTrans

/-!
# Calls whose result is also the operand: `linear_transform` and `conj` of ciphertexts

Both overloads of `linear_transform` begin with `Act.setzero()`. If `Act` is the object `ct`, the loop reads its rotations from the sum
it is accumulating.
-/

namespace EvalRound
open Z_Q

section
variable {LOGQ LOGN S : Nat} [NeZero LOGQ]

/-- `linear_transform(Ar,Ai,ct,skey,ct)`, linear_transform.h:147-173. Line 154 clears the object, so its content before the call is
not an argument. -/
noncomputable def linTransOver (RAND_MAX LOGDELTA : Nat) (A : SD2 (2^(LOGN-1)) S) (skey : Fin (2^LOGN) → Int) (ω : Rng) :
    M (R_Q_square LOGQ (2^LOGN) × Rng) :=
  forUp 0 S (fun s st => if h : s < S then ltStep RAND_MAX LOGDELTA A st.1 skey ⟨s, h⟩ st else ub) (R_Q_square.setzero, ω)

/-- `linear_transform(Ar,Ai,ct,rkey,ct)` with an array of keys, linear_transform.h:124-144; line 131 clears the object. -/
noncomputable def linTransKeysOver (LOGDELTA : Nat) (A : SD2 (2^(LOGN-1)) S) (rkey : Fin S → R_Q_square (2 * LOGQ) (2^LOGN))
    (mem : Fin S → Option (R_Q_square LOGQ (2^LOGN))) : M (R_Q_square LOGQ (2^LOGN)) :=
  forUp 0 S (fun s Act => if h : s < S then ltKeysStep LOGDELTA A Act rkey mem ⟨s, h⟩ Act else ub) R_Q_square.setzero

end

section
variable {LOGQ N : Nat} [NeZero LOGQ]

/-- `conj(ct,ckey,ct)`, linear_transform.h:77-84. -/
def conj_ctOver (ct : R_Q_square LOGQ N) (ckey : R_Q_square (2 * LOGQ) N) : M (R_Q_square LOGQ N) := do
  let a ← conjOver ct.1
  let b ← conjOver ct.2
  ks ckey (a, b)

/-- `rot_ct(ct,off,rkey,ct)`, linear_transform.h:52-59. -/
def rot_ctOver (ct : R_Q_square LOGQ N) (off : Nat) (rkey : R_Q_square (2 * LOGQ) N) : M (R_Q_square LOGQ N) := do
  let a ← rotOver ct.1 off
  let b ← rotOver ct.2 off
  ks rkey (a, b)

end
end EvalRound

import Verif.Model.Endecode

/-!
# Calls of the functions on `SimplePlaintext` whose result is also an operand

The statements are those of `Verif/Model/Endecode.lean`, but the operand is read from the object that is being written.
-/

namespace EvalRound.Simple

variable {N : Nat}

/-- `rotate_once(pt,pt)`, simple_plaintext.h:88-97. -/
def rotateOnceOver (pt : Fin N → ℝ) : M (Fin N → ℝ) :=
  forUp 0 N (fun i p => do
    let t ← idxM (5 * i)
    let x ← rd p i
    let p ← wr p (t % N) x
    if t / N % 2 = 1 then do
      let y ← rd p (t % N)
      wr p (t % N) (-y)
    else pure p) pt

/-- The copying loops of `rotate`, simple_plaintext.h:102-104 (`pt_rot` and `pt` the same object) and 107-109. -/
def copyLoop (src dst : Fin N → ℝ) : M (Fin N → ℝ) :=
  forUp 0 N (fun i d => do
    let x ← rd src i
    wr d i x) dst

/-- `rotate(pt,pt,r)`, simple_plaintext.h:99-113. The copy of lines 102-104 reads the object it writes; `pt_tmp` is cleared
when it is created (simple_plaintext.h:12). -/
def rotateOver (pt : Fin N → ℝ) (r : Nat) : M (Fin N → ℝ) := do
  let pt ← forUp 0 N (fun i d => do
    let x ← rd d i
    wr d i x) pt
  let st ← forUp 0 r (fun _ (st : (Fin N → ℝ) × (Fin N → ℝ)) => do
    let tmp ← copyLoop st.2 st.1
    let p ← rotate_once tmp st.2
    pure (tmp, p)) (fun _ => 0, pt)
  pure st.2

/-- `conv(pt1,pt2,pt1)`, simple_plaintext.h:49-58. -/
noncomputable def convOver1 (a b : Fin N → ℝ) : M (Fin N → ℝ) :=
  forUp 0 N (fun i d => do
    let s ← convCoeff d b i
    wr d i s) a

/-- `conv(pt1,pt2,pt2)`, simple_plaintext.h:49-58. -/
noncomputable def convOver2 (a b : Fin N → ℝ) : M (Fin N → ℝ) :=
  forUp 0 N (fun i d => do
    let s ← convCoeff a d i
    wr d i s) b

end EvalRound.Simple

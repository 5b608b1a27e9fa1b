import Verif.Model.ZQ

/-!
# include/HEAAN/arith/conv/crt.h
-/

namespace EvalRound
open Z_Q

instance (L : Nat) : NeZero (64*(L+1)) := ⟨by omega⟩

/-- `cmpge(A,B)`, crt.h:8-14: the first differing limb from the top decides. -/
def cmpge {LOGQ : Nat} (A B : Z_Q LOGQ) : Bool :=
  (forFinDown (nlimb LOGQ) (fun i (s : Option Bool) =>
    match s with
    | some r => some r
    | none => if A.data i > B.data i then some true
              else if A.data i < B.data i then some false else none) none).getD true

/-- `struct CRT<L,LOGQ>`, crt.h:17-30. -/
structure CRT (L LOGQ : Nat) where
  Q : Z_Q (64*(L+1))
  q : Fin L → W
  Q_over_q : Fin L → Z_Q (64*(L+1))
  inv_mod_Q_over_q : Fin L → W

variable {L LOGQ : Nat}

/-- The constructor `CRT(q)`, crt.h:32-62. -/
def CRT.new (LOGQ : Nat) (q : Fin L → W) : M (CRT L LOGQ) := do
  let Q : Z_Q (64*(L+1)) := forFin L (fun i Q => mulW Q (q i)) (ofW 1)
  let Q_over_q : Fin L → Z_Q (64*(L+1)) := fun i =>
    forFin L (fun j x => if i ≠ j then mulW x (q j) else x) (ofW 1)
  let inv ← tabM L (fun i => do
    let qi ← rd q i
    let temp ← forUp 0 L (fun j temp =>
      if i ≠ j then do
        let qj ← rd q j
        mul_mod temp qj qi
      else pure temp) 1
    inv_mod temp qi)
  pure ⟨Q, q, Q_over_q, inv⟩

/-- The sign handling of `CRT::crt`, crt.h:82-91. -/
def CRT.signed (LOGQ : Nat) [NeZero LOGQ] (Q sum : Z_Q (64*(L+1))) : Z_Q LOGQ :=
  let neg_sum := sub (copy Q) sum
  let is_negative := cmpge sum neg_sum
  if is_negative then negate (resize LOGQ neg_sum) else resize LOGQ sum

/-- `CRT::crt(a_rns, A)`, crt.h:65-92. -/
def CRT.crt [NeZero LOGQ] (C : CRT L LOGQ) (a_rns : Fin L → W) : M (Z_Q LOGQ) := do
  let sum ← forUp 0 L (fun i (sum : Z_Q (64*(L+1))) => do
    let a ← rd a_rns i
    let v ← rd C.inv_mod_Q_over_q i
    let qi ← rd C.q i
    let coeff ← mul_mod a v qi
    let temp ← rd C.Q_over_q i
    let temp := mulW (copy temp) coeff
    pure (add sum temp)) setzero
  let sum ← whileM (fun sum => cmpge sum C.Q) (fun sum => pure (sub sum C.Q)) sum
  pure (CRT.signed LOGQ C.Q sum)

/-- The limb reduction loop of `icrt`, crt.h:104-107 and 114-117: `ah = A[len-1]`, then
`ah = mod(A[j], ah, q)` for `j = len-2 .. 0`. -/
def limbMod {n : Nat} (a : Fin n → W) (q : W) : M W := do
  let ah ← rd a (n - 1)
  forUp 0 (n - 1) (fun c ah => do
    let x ← rd a (n - 2 - c)
    mod x ah q) ah

/-- `CRT::icrt(A, a_rns)`, crt.h:94-121. -/
def CRT.icrt [NeZero LOGQ] (C : CRT L LOGQ) (A : Z_Q LOGQ) : M (Fin L → W) :=
  if A.is_bigger_than_halfQ then
    let A_abs := negate (copy A)
    tabM L (fun i => do
      let qi ← rd C.q i
      let ah ← limbMod A_abs.data qi
      pure (qi - ah))
  else
    tabM L (fun i => do
      let qi ← rd C.q i
      limbMod A.data qi)

end EvalRound

import Verif.Model.Conv

/-!
# `conv` on `int` arrays whose result is also an operand
-/

namespace EvalRound

variable {N : Nat}

/-- `s3[i] += x*y` for `sgn = 1` and `s3[i] -= x*y` for `sgn = -1`, conv.h:10-11, with `int` overflow undefined. -/
def accI (d : Fin N → Int) (i : Nat) (sgn x y : Int) : M (Fin N → Int) := do
  let p ← intM (x * y)
  let c ← rd d i
  let c ← intM (c + sgn * p)
  wr d i c

/-- `conv<N>(s,t,s)`, conv.h:5-13. -/
def convIOver1 (s t : Fin N → Int) : M (Fin N → Int) :=
  forUp 0 N (fun i d => do
    let d ← wr d i 0
    let d ← forUp 0 (i + 1) (fun k d => do
      let x ← rd d k
      let y ← rd t (i - k)
      accI d i 1 x y) d
    forUp (i + 1) N (fun k d => do
      let x ← rd d k
      let j ← idxM (i + N)
      let y ← rd t (j - k)
      accI d i (-1) x y) d) s

/-- `conv<N>(t,s,s)`, conv.h:5-13. -/
def convIOver2 (t s : Fin N → Int) : M (Fin N → Int) :=
  forUp 0 N (fun i d => do
    let d ← wr d i 0
    let d ← forUp 0 (i + 1) (fun k d => do
      let x ← rd t k
      let y ← rd d (i - k)
      accI d i 1 x y) d
    forUp (i + 1) N (fun k d => do
      let x ← rd t k
      let j ← idxM (i + N)
      let y ← rd d (j - k)
      accI d i (-1) x y) d) s

/-- `conv<N>(s,s,s)`, conv.h:5-13. -/
def convIOver12 (s : Fin N → Int) : M (Fin N → Int) :=
  forUp 0 N (fun i d => do
    let d ← wr d i 0
    let d ← forUp 0 (i + 1) (fun k d => do
      let x ← rd d k
      let y ← rd d (i - k)
      accI d i 1 x y) d
    forUp (i + 1) N (fun k d => do
      let x ← rd d k
      let j ← idxM (i + N)
      let y ← rd d (j - k)
      accI d i (-1) x y) d) s

end EvalRound

import Verif.Base.Par
import Verif.Model.Conv

/-!
# The four `#pragma omp parallel for` loops

The iterations of the parallel loops of arith/conv.h and arith/conv/conv.h as programs over the 64-bit
words of the arrays they share. Where the arrays lie is a parameter, so that overlapping arrays can be
described. The members of `CONV`, `CRT` and `NTT` and the key `s` are never written and are not cells.
-/

namespace EvalRound
open Z_Q

/-- A program over memory words. The memory of the objects of Z_Q.h:116-119. -/
abbrev WProg (A : Type) (α : Type) := Prog A (fun _ => W) α

variable {A : Type} {L LOGQ N : Nat}

/-- Copy the words at `p` into a local variable (the copy constructor, Z_Q.h:116-119, or the argument of a
function that reads the words of a shared object). -/
def readP {n : Nat} (p : Fin n → A) : WProg A (Fin n → W) := Prog.tab n fun j => Prog.get (p j)

/-- Store a local array in the words at `p`. As in Z_Q.h:116-119. -/
def writeP {n : Nat} (p : Fin n → A) (v : Fin n → W) : WProg A Unit :=
  Prog.forFin n (fun j _ => Prog.put (p j) (v j)) ()

/-- `remove_clutter`, Z_Q.h:202-208, on the words at `d`. -/
def clutterP [NeZero LOGQ] (d : Fin (nlimb LOGQ) → A) : WProg A Unit := do
  let r := 64 * nlimb LOGQ - LOGQ
  let x ← Prog.get (d (top LOGQ))
  Prog.put (d (top LOGQ)) (x <<< r)
  let x ← Prog.get (d (top LOGQ))
  Prog.put (d (top LOGQ)) (x >>> r)

/-- One round of the loop of `operator+=`, Z_Q.h:193-198, on the word `d`; `a` yields `A.data[i]`. -/
def addStepP (d : A) (a : WProg A W) (c : Bool) : WProg A Bool := do
  let x ← Prog.get d
  let y ← a
  Prog.put d (x + y)
  let x ← Prog.get d
  let y ← a
  let c_next : Bool := x < y
  if c then do
    let x ← Prog.get d
    Prog.put d (x + 1)
    let x ← Prog.get d
    pure (x == 0 || c_next)
  else pure c_next

/-- `operator+=`, Z_Q.h:190-200, on the words at `d`. -/
def addP [NeZero LOGQ] (d : Fin (nlimb LOGQ) → A) (a : Fin (nlimb LOGQ) → WProg A W) : WProg A Unit := do
  let _ ← Prog.forFin (nlimb LOGQ) (fun j c => addStepP (d j) (a j) c) false
  clutterP d

/-- `operator-=`, Z_Q.h:231-236, on the words at `d` with the operand at `p`: the negated copy is local. -/
def subP [NeZero LOGQ] (d p : Fin (nlimb LOGQ) → A) : WProg A Unit := do
  let y ← readP p
  let negA : Z_Q LOGQ := negate ⟨y⟩
  addP d (fun j => pure (negA.data j))

/-- The body of the loop over `k` in `conv(s,A,C)`, conv.h:21-30; `A[i]` lies at `src i`, `C[i]` at `dst i`. -/
def convSBodyP [NeZero LOGQ] (s : Fin N → Int) (src dst : Fin N → Fin (nlimb LOGQ) → A) (i : Fin N) (k : Nat) :
    WProg A Unit := do
  let sk ← Prog.lift (rd s k)
  if sk ≠ 0 then do
    let sign : Bool := sk == 1
    if k ≤ i.val then do
      let temp ← Prog.lift (rd src (i - k))
      if sign then addP (dst i) (fun j => Prog.get (temp j)) else subP (dst i) temp
    else do
      let j ← Prog.lift (idxM (N + i))
      let temp ← Prog.lift (rd src (j - k))
      if !sign then addP (dst i) (fun j => Prog.get (temp j)) else subP (dst i) temp
  else pure ()

/-- Iteration `i` of the parallel loop of `conv(s,A,C)`, conv.h:18-31. -/
def convSP [NeZero LOGQ] (s : Fin N → Int) (src dst : Fin N → Fin (nlimb LOGQ) → A) (i : Fin N) : WProg A Unit := do
  writeP (dst i) (fun _ => 0)
  Prog.forFrom (fun k _ => convSBodyP s src dst i k) 0 N ()

/-- Iteration `i` of the parallel loop of `icrt_polynomial`, conv/conv.h:55-62; `A[i]` lies at `src i` and
`A_rns[j][i]` at `dst j i`. (Each word of `A[i]` is read once; the source reads it once per prime.) -/
def icrtP [NeZero LOGQ] (C : CONV L LOGQ N) (src : Fin N → Fin (nlimb LOGQ) → A) (dst : Fin L → Fin N → A)
    (i : Fin N) : WProg A Unit := do
  let x ← readP (src i)
  let Ai_rns ← Prog.lift (C.crt.icrt ⟨x⟩)
  Prog.forFin L (fun j _ => Prog.put (dst j i) (Ai_rns j)) ()

/-- Iteration `i` of the parallel loop of `crt_polynomial`, conv/conv.h:67-74; `A_rns[j][i]` lies at `src j i`
and `A[i]` at `dst i`. (Only the final store to `A[i]` is shown, not the intermediate values that `resize` and
`negate` leave there.) -/
def crtP [NeZero LOGQ] (C : CONV L LOGQ N) (src : Fin L → Fin N → A) (dst : Fin N → Fin (nlimb LOGQ) → A)
    (i : Fin N) : WProg A Unit := do
  let Ai_rns ← readP (fun j => src j i)
  let x ← Prog.lift (C.crt.crt Ai_rns)
  writeP (dst i) x.data

/-- Iteration `i` of the parallel loop of `CONV::conv`, conv/conv.h:40-48; `A_rns[i]`, `B_rns[i]`, `C_rns[i]`
lie at `a i`, `b i`, `c i`. (A transform in place is shown as reading its row, then writing it.) -/
def rowP (C : CONV L LOGQ N) (a b c : Fin L → Fin N → A) (i : Fin L) : WProg A Unit := do
  let T := C.ntt i
  let x ← readP (a i)
  let x ← Prog.lift (T.ntt x)
  writeP (a i) x
  let y ← readP (b i)
  let y ← Prog.lift (T.ntt y)
  writeP (b i) y
  Prog.forFin N (fun j _ => do
    let x ← Prog.get (a i j)
    let y ← Prog.get (b i j)
    let z ← Prog.lift (mul_mod x y T.q)
    Prog.put (c i j) z) ()
  let z ← readP (c i)
  let z ← Prog.lift (T.intt z)
  writeP (c i) z

end EvalRound

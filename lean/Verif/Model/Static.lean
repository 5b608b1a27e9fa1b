import Verif.Model.Conv
import Verif.Model.LinTrans

/-!
# Function-local static tables

`conv` (arith/conv.h), `fftNR` and `ifftNR` (matrix/DFT.h), `CoeffToSlot` and `SlotToCoeff` (bootstrap.h)
keep tables in function-local `static` variables that the first call fills. There is one set of them for every
instance of the function template. Here these variables are explicit state, and a program is a sequence of
calls of any instances in any order; the calls that these functions make themselves (for example of `conv`
inside `CoeffToSlot`) use the models without state.
-/

namespace EvalRound
open Z_Q

/-- `theConv` and `theConv_initialized`, conv.h:144-145. -/
structure ConvStatic (LOGQ N : Nat) where
  theConv : Option (CONV (convL LOGQ) LOGQ N)
  initialized : Bool

/-- `static bool is_init` with a table, DFT.h:72-74 and 100-102, bootstrap.h:19-21. -/
structure FacStatic (LOGN : Nat) where
  is_init : Bool
  U : Fin (LOGN - 1) → Fac LOGN

/-- The static variables of `SlotToCoeff`, bootstrap.h:57-61. -/
structure StcStatic (LOGN : Nat) where
  is_init : Bool
  U : Fin (LOGN - 1) → Fac LOGN
  iU : Fin (LOGN - 1) → Fac LOGN

/-- All static variables of all instances, conv.h:144-145, DFT.h:72-74 and 100-102, bootstrap.h:19-21 and 57-61. -/
structure Statics where
  conv : (LOGQ N : Nat) → ConvStatic LOGQ N
  fft : (LOGN : Nat) → FacStatic LOGN
  ifft : (LOGN : Nat) → FacStatic LOGN
  cts : (LOGQ LOGN LOGDELTA G : Nat) → FacStatic LOGN
  stc : (LOGQ LOGN LOGDELTA G : Nat) → StcStatic LOGN

/-- The values at program start: `nullptr`, `false`, and zero-initialised tables, conv.h:144-145, DFT.h:72-74 and
100-102, bootstrap.h:19-21 and 57-61. -/
noncomputable def Statics.start : Statics where
  conv _ _ := ⟨none, false⟩
  fft LOGN := ⟨false, fac0 LOGN⟩
  ifft LOGN := ⟨false, fac0 LOGN⟩
  cts _ LOGN _ _ := ⟨false, fac0 LOGN⟩
  stc _ LOGN _ _ := ⟨false, fac0 LOGN, fac0 LOGN⟩

/-- `theConv->conv(A,B,C)`: undefined for a null pointer, conv.h:150. -/
def derefConv {L LOGQ N : Nat} [NeZero LOGQ] (p : Option (CONV L LOGQ N)) (A B : R_Q LOGQ N) : M (R_Q LOGQ N) :=
  match p with
  | some C => C.conv A B
  | none => ub

/-- `conv(A,B,C)`, conv.h:143-150. -/
def convCall {LOGQ N : Nat} [NeZero LOGQ] (st : ConvStatic LOGQ N) (A B : R_Q LOGQ N) :
    M (R_Q LOGQ N × ConvStatic LOGQ N) := do
  let st ← (if st.initialized = false then do
    let C ← theConv LOGQ N
    pure ⟨some C, true⟩ else pure st)
  let C ← derefConv st.theConv A B
  pure (C, st)

/-- `fftNR<LOGN>(m,zr,zi)`, DFT.h:71-92. -/
noncomputable def fftNRCall {LOGN : Nat} (st : FacStatic LOGN) (m : Fin (2^LOGN) → ℝ) :
    M (CVec LOGN × FacStatic LOGN) := do
  let st ← (if st.is_init = false then do
    let U ← splitU0NR LOGN st.U
    pure ⟨true, U⟩ else pure st)
  let z ← fftNRWith LOGN st.U m
  pure (z, st)

/-- The initialisation of `ifftNR`, DFT.h:104-112, in the given table. -/
noncomputable def ifftInit {LOGN : Nat} (U : Fin (LOGN - 1) → Fac LOGN) : M (Fin (LOGN - 1) → Fac LOGN) := do
  let U ← splitU0NR LOGN U
  tabM (LOGN - 1) (fun n => do
    let a ← rd U n
    adjFactor a)

/-- `ifftNR<LOGN>(zr,zi,m)`, DFT.h:99-130. -/
noncomputable def ifftNRCall {LOGN : Nat} (st : FacStatic LOGN) (z : CVec LOGN) :
    M ((Fin (2^LOGN) → ℝ) × FacStatic LOGN) := do
  let st ← (if st.is_init = false then do
    let U ← ifftInit st.U
    pure ⟨true, U⟩ else pure st)
  let m ← ifftNRWith LOGN st.U z
  pure (m, st)

/-- The initialisation of `CoeffToSlot`, bootstrap.h:24-31, in the given table. -/
noncomputable def ctsInit {LOGN : Nat} (U : Fin (LOGN - 1) → Fac LOGN) : M (Fin (LOGN - 1) → Fac LOGN) := do
  let U ← splitU0NR LOGN U
  tabM (LOGN - 1) (fun n => do
    let a ← rd U n
    ctsFactor a)

/-- `CoeffToSlot<LOGQ,LOGN,LOGDELTA,G>(ct,s,ct_)`, bootstrap.h:14-49. -/
noncomputable def ctsCall {LOGQ LOGN : Nat} [NeZero LOGQ] (RAND_MAX LOGDELTA G : Nat) (st : FacStatic LOGN)
    (ct : R_Q_square LOGQ (2^LOGN)) (s : Fin (2^LOGN) → Int) (ω : Rng) :
    M (((R_Q_square LOGQ (2^LOGN) × R_Q_square LOGQ (2^LOGN)) × Rng) × FacStatic LOGN) := do
  let st ← (if st.is_init = false then do
    let U ← ctsInit st.U
    pure ⟨true, U⟩ else pure st)
  let r ← ctsWith RAND_MAX LOGDELTA G st.U ct s ω
  pure (r, st)

/-- `U0r[i] = U0r_temp[LOGN-2-i]; U0i[i] = …`, bootstrap.h:68-71, in the given tables. -/
noncomputable def stcRealInto {LOGN : Nat} (T U : Fin (LOGN - 1) → Fac LOGN) : M (Fin (LOGN - 1) → Fac LOGN) :=
  tabM (LOGN - 1) (fun i => do
    let a ← rd T (LOGN - 2 - i)
    let u ← rd U i
    pure (a.1.copy u.1, a.2.copy u.2))

/-- The loop over `iU0r`, `iU0i`, bootstrap.h:73-82, in the given tables. -/
noncomputable def stcImagInto {LOGN : Nat} (T U : Fin (LOGN - 1) → Fac LOGN) : M (Fin (LOGN - 1) → Fac LOGN) :=
  tabM (LOGN - 1) (fun i => do
    let a ← rd T (LOGN - 2 - i)
    let u ← rd U i
    if i = 0 then pure ((a.2.copy u.1).negate, a.1.copy u.2)
    else pure (a.1.copy u.1, a.2.copy u.2))

/-- `SlotToCoeff<LOGQ,LOGN,LOGDELTA,G>(ct0,ct1,skey,ct_)`, bootstrap.h:51-90. The locals `U0r_temp`,
`U0i_temp` start as zero; `splitU0NR` overwrites them completely. -/
noncomputable def stcCall {LOGQ LOGN : Nat} [NeZero LOGQ] (RAND_MAX LOGDELTA G : Nat) (st : StcStatic LOGN)
    (ct0 ct1 : R_Q_square LOGQ (2^LOGN)) (s : Fin (2^LOGN) → Int) (ω : Rng) :
    M ((R_Q_square LOGQ (2^LOGN) × Rng) × StcStatic LOGN) := do
  let st ← (if st.is_init = false then do
    let T ← splitU0NR LOGN (fac0 LOGN)
    let U ← stcRealInto T st.U
    let iU ← stcImagInto T st.iU
    pure ⟨true, U, iU⟩ else pure st)
  let r ← stcWith RAND_MAX LOGDELTA G st.U st.iU ct0 ct1 s ω
  pure (r, st)

/-- A call of an instance of one of the five function templates, with its arguments, conv.h:143-151, DFT.h:66-131,
bootstrap.h:14-90. -/
inductive Call
  | conv (LOGQ N : Nat) (h : NeZero LOGQ) (A B : R_Q LOGQ N)
  | fft (LOGN : Nat) (m : Fin (2^LOGN) → ℝ)
  | ifft (LOGN : Nat) (z : CVec LOGN)
  | cts (LOGQ LOGN : Nat) (h : NeZero LOGQ) (RAND_MAX LOGDELTA G : Nat) (ct : R_Q_square LOGQ (2^LOGN))
      (s : Fin (2^LOGN) → Int) (ω : Rng)
  | stc (LOGQ LOGN : Nat) (h : NeZero LOGQ) (RAND_MAX LOGDELTA G : Nat) (ct0 ct1 : R_Q_square LOGQ (2^LOGN))
      (s : Fin (2^LOGN) → Int) (ω : Rng)

/-- What the call returns (for the last two also the advanced stream of `rand`), conv.h:143-151, DFT.h:66-131,
bootstrap.h:14-90. -/
def Call.Res : Call → Type
  | .conv LOGQ N _ _ _ => R_Q LOGQ N
  | .fft LOGN _ => CVec LOGN
  | .ifft LOGN _ => Fin (2^LOGN) → ℝ
  | .cts LOGQ LOGN _ _ _ _ _ _ _ => (R_Q_square LOGQ (2^LOGN) × R_Q_square LOGQ (2^LOGN)) × Rng
  | .stc LOGQ LOGN _ _ _ _ _ _ _ _ => R_Q_square LOGQ (2^LOGN) × Rng

/-- The call in a state of the static variables, conv.h:143-151, DFT.h:66-131, bootstrap.h:14-90. -/
noncomputable def Call.run (st : Statics) : (c : Call) → M (c.Res × Statics)
  | .conv LOGQ N _ A B => do
    let r ← convCall (st.conv LOGQ N) A B
    pure (r.1, { st with conv := Function.update st.conv LOGQ (Function.update (st.conv LOGQ) N r.2) })
  | .fft LOGN m => do
    let r ← fftNRCall (st.fft LOGN) m
    pure (r.1, { st with fft := Function.update st.fft LOGN r.2 })
  | .ifft LOGN z => do
    let r ← ifftNRCall (st.ifft LOGN) z
    pure (r.1, { st with ifft := Function.update st.ifft LOGN r.2 })
  | .cts LOGQ LOGN _ RAND_MAX LOGDELTA G ct s ω => do
    let r ← ctsCall RAND_MAX LOGDELTA G (st.cts LOGQ LOGN LOGDELTA G) ct s ω
    pure (r.1, { st with cts := Function.update st.cts LOGQ (Function.update (st.cts LOGQ) LOGN
      (Function.update (st.cts LOGQ LOGN) LOGDELTA (Function.update (st.cts LOGQ LOGN LOGDELTA) G r.2))) })
  | .stc LOGQ LOGN _ RAND_MAX LOGDELTA G ct0 ct1 s ω => do
    let r ← stcCall RAND_MAX LOGDELTA G (st.stc LOGQ LOGN LOGDELTA G) ct0 ct1 s ω
    pure (r.1, { st with stc := Function.update st.stc LOGQ (Function.update (st.stc LOGQ) LOGN
      (Function.update (st.stc LOGQ LOGN) LOGDELTA (Function.update (st.stc LOGQ LOGN LOGDELTA) G r.2))) })

/-- The states after a sequence of calls that all returned. Any program that calls these functions (conv.h:150,
DFT.h:75, 103, bootstrap.h:23, 63). -/
inductive Statics.After : List Call → Statics → Prop
  | start : After [] .start
  | call {cs : List Call} {st st' : Statics} (h : After cs st) (c : Call) (r : c.Res)
      (e : c.run st = pure (r, st')) : After (cs ++ [c]) st'

end EvalRound

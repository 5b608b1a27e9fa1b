import Mathlib.Analysis.SpecialFunctions.Pow.Real
import Verif.Model.Endecode
import Verif.Model.Rot

/-!
# HEAAN/linear_transform.h:86-262, CoeffToSlot and SlotToCoeff of HEAAN/bootstrap.h, and the
matrix-vector products of impl/plaintext.h

Exact real arithmetic for the matrices. A negative rotation offset runs no iteration of the power
loop of `rot`, like 0, hence `toNat`. Locals that are completely overwritten before they are read
start as zero. Function-local static tables are built at every call here; that this makes no
difference is the subject of `Verif/Model/Static.lean`. The dense `linear_transform`,
linear_transform.h:94-116, calls `rot_ct` with the wrong number of arguments, so no instance of it
compiles; it is not modelled.
-/

namespace EvalRound
open Z_Q

/-- `1ULL << LOGDELTA`: undefined from 64 on, linear_transform.h:136, poly.h:15, bootstrap.h:140. -/
def shl1 (LOGDELTA : Nat) : M W := if LOGDELTA < 64 then pure (BitVec.ofNat 64 (2^LOGDELTA)) else ub

/-- `mat_to_vecs<N>(A,V)`, linear_transform.h:86-92. -/
def mat_to_vecs {N : Nat} (A : Fin N → Fin N → ℝ) : M (Fin N → Fin N → ℝ) :=
  tabM N (fun i => tabM N (fun j => do
    let row ← rd A j
    let t ← idxM (i + j)
    rd row (t % N)))

/-- the real and the imaginary part of a sparse complex matrix, the arguments `Ar`, `Ai` in linear_transform.h:125-126. -/
abbrev SD2 (N S : Nat) := SparseDiagonal N S × SparseDiagonal N S

section
variable {LOGQ LOGN S : Nat} [NeZero LOGQ]

/-- `if (Ar.off[s] != 0) rot_ct(ct, Ar.off[s], *(rkey[s]), ct_rot);`, linear_transform.h:136-138.
`mem` is the content of the local `ct_rot`, `none` for an uninitialised one. -/
def ltKeysRot (ct : R_Q_square LOGQ (2^LOGN)) (off : Int) (rkey : R_Q_square (2 * LOGQ) (2^LOGN))
    (mem : Option (R_Q_square LOGQ (2^LOGN))) : M (Option (R_Q_square LOGQ (2^LOGN))) :=
  if off ≠ 0 then do
    let y ← rot_ct ct off.toNat rkey R_Q_square.setzero
    pure (some y)
  else pure mem

/-- reading a ciphertext that may be uninitialised, `ct_rot` in linear_transform.h:137-140. -/
def rdInit {α : Type} : Option α → M α
  | some x => pure x
  | none => ub

/-- The loop body of the overload of `linear_transform` with a key array,
linear_transform.h:132-142. -/
noncomputable def ltKeysStep (LOGDELTA : Nat) (A : SD2 (2^(LOGN-1)) S) (ct : R_Q_square LOGQ (2^LOGN))
    (rkey : Fin S → R_Q_square (2 * LOGQ) (2^LOGN)) (mem : Fin S → Option (R_Q_square LOGQ (2^LOGN)))
    (s : Fin S) (Act : R_Q_square LOGQ (2^LOGN)) : M (R_Q_square LOGQ (2^LOGN)) :=
  if A.1.zero s = false ∨ A.2.zero s = false then do
    let Delta ← shl1 LOGDELTA
    let pt ← encode LOGQ (LOGN := LOGN) (A.1.vec s, A.2.vec s) Delta
    let c ← ltKeysRot ct (A.1.off s) (rkey s) (mem s)
    let ct_rot ← rdInit c
    let ct_rot ← R_Q_square.mulR ct_rot pt
    pure (R_Q_square.add Act ct_rot)
  else pure Act

/-- `linear_transform(Ar,Ai,ct,rkey,Act)` with an array of keys, linear_transform.h:124-144. `mem s`
is the memory found by the local `ct_rot` of iteration `s`; the C++ standard gives it no value
(`none`). -/
noncomputable def linTransKeys (LOGDELTA : Nat) (A : SD2 (2^(LOGN-1)) S) (ct : R_Q_square LOGQ (2^LOGN))
    (rkey : Fin S → R_Q_square (2 * LOGQ) (2^LOGN)) (mem : Fin S → Option (R_Q_square LOGQ (2^LOGN))) :
    M (R_Q_square LOGQ (2^LOGN)) :=
  forUp 0 S (fun s Act => if h : s < S then ltKeysStep LOGDELTA A ct rkey mem ⟨s, h⟩ Act else ub)
    R_Q_square.setzero

/-- `ct_rot` of the overload with a secret key, linear_transform.h:163-169. -/
def ltRot (RAND_MAX : Nat) (ct : R_Q_square LOGQ (2^LOGN)) (off : Int) (skey : Fin (2^LOGN) → Int) (ω : Rng) :
    M (R_Q_square LOGQ (2^LOGN) × Rng) :=
  if off ≠ 0 then do
    let skey_rot ← rotI skey (fun _ => 0) off.toNat
    let rkey ← swkgen (LOGQ := LOGQ) RAND_MAX skey_rot skey R_Q_square.setzero ω
    let y ← rot_ct ct off.toNat rkey.1 (R_Q_square.copy ct)
    pure (y, rkey.2)
  else pure (R_Q_square.copy ct, ω)

/-- The loop body, linear_transform.h:156-171; state `(Act, random stream)`. -/
noncomputable def ltStep (RAND_MAX LOGDELTA : Nat) (A : SD2 (2^(LOGN-1)) S) (ct : R_Q_square LOGQ (2^LOGN))
    (skey : Fin (2^LOGN) → Int) (s : Fin S) (st : R_Q_square LOGQ (2^LOGN) × Rng) :
    M (R_Q_square LOGQ (2^LOGN) × Rng) := do
  assertM (decide (A.1.off s = A.2.off s))
  if A.1.zero s && A.2.zero s then pure st
  else do
    let Delta ← shl1 LOGDELTA
    let pt ← encode LOGQ (LOGN := LOGN) (A.1.vec s, A.2.vec s) Delta
    let r ← ltRot RAND_MAX ct (A.1.off s) skey st.2
    let ct_rot ← R_Q_square.mulR r.1 pt
    pure (R_Q_square.add st.1 ct_rot, r.2)

/-- `linear_transform(Ar,Ai,ct,skey,Act)`, linear_transform.h:147-173. -/
noncomputable def linTrans (RAND_MAX LOGDELTA : Nat) (A : SD2 (2^(LOGN-1)) S) (ct : R_Q_square LOGQ (2^LOGN))
    (skey : Fin (2^LOGN) → Int) (ω : Rng) : M (R_Q_square LOGQ (2^LOGN) × Rng) :=
  forUp 0 S (fun s st => if h : s < S then ltStep RAND_MAX LOGDELTA A ct skey ⟨s, h⟩ st else ub)
    (R_Q_square.setzero, ω)

/-- `serial_linear_transform`, linear_transform.h:175-187. -/
noncomputable def serialLT (RAND_MAX LOGDELTA : Nat) {D : Nat} (A : Fin D → SD2 (2^(LOGN-1)) S)
    (ct : R_Q_square LOGQ (2^LOGN)) (skey : Fin (2^LOGN) → Int) (ω : Rng) :
    M (R_Q_square LOGQ (2^LOGN) × Rng) :=
  forUp 0 D (fun d st => do
    let a ← rd A d
    linTrans RAND_MAX LOGDELTA a (R_Q_square.copy st.1) skey st.2) (R_Q_square.copy ct, ω)

end

/-! ## Grouping -/

section
variable {N S D : Nat}

/-- an uninitialised matrix that `MatMul` overwrites: it starts with `setzero`, `Br[i]`, `Bi[i]` in
linear_transform.h:200; matrix.h:170. -/
noncomputable def sd0 (N S : Nat) : SparseDiagonal N S := ⟨fun _ _ => 0, fun _ => 0, fun _ => false⟩

/-- The loop of `grouped2_serial_linear_transform`, linear_transform.h:196-202. -/
noncomputable def group2 (A : Fin D → SD2 N S) : M (Fin (D/2) → SD2 N (S*S)) := do
  assertM (decide (D % 2 = 0))
  tabM (D/2) (fun i => do
    let a1 ← rd A (2*i+1)
    let a0 ← rd A (2*i)
    MatMulC a1.1 a1.2 a0.1 a0.2 (sd0 N _) (sd0 N _))

/-- The loop of `grouped3_serial_linear_transform`, linear_transform.h:212-222. The source writes
the dimension as `S*S*S`. -/
noncomputable def group3 (A : Fin D → SD2 N S) : M (Fin (D/3) → SD2 N (S*(S*S))) := do
  assertM (decide (D % 3 = 0))
  tabM (D/3) (fun i => do
    let a1 ← rd A (3*i+1)
    let a0 ← rd A (3*i)
    let b ← MatMulC a1.1 a1.2 a0.1 a0.2 (sd0 N _) (sd0 N _)
    let a2 ← rd A (3*i+2)
    MatMulC a2.1 a2.2 b.1 b.2 (sd0 N _) (sd0 N _))

/-- The loop of `grouped4_serial_linear_transform`, linear_transform.h:232-243. -/
noncomputable def group4 (A : Fin D → SD2 N S) : M (Fin (D/4) → SD2 N (S*(S*(S*S)))) := do
  assertM (decide (D % 4 = 0))
  tabM (D/4) (fun i => do
    let a1 ← rd A (4*i+1)
    let a0 ← rd A (4*i)
    let b ← MatMulC a1.1 a1.2 a0.1 a0.2 (sd0 N _) (sd0 N _)
    let a2 ← rd A (4*i+2)
    let c ← MatMulC a2.1 a2.2 b.1 b.2 (sd0 N _) (sd0 N _)
    let a3 ← rd A (4*i+3)
    MatMulC a3.1 a3.2 c.1 c.2 (sd0 N _) (sd0 N _))

end

section
variable {LOGQ LOGN S : Nat} [NeZero LOGQ]

/-- `grouped_serial_linear_transform<LOGQ,LOGN,LOGDELTA,S,D,G>`, linear_transform.h:246-262, with
the three functions it calls, linear_transform.h:189-244. -/
noncomputable def groupedLT (RAND_MAX LOGDELTA G : Nat) {D : Nat} (A : Fin D → SD2 (2^(LOGN-1)) S)
    (ct : R_Q_square LOGQ (2^LOGN)) (skey : Fin (2^LOGN) → Int) (ω : Rng) :
    M (R_Q_square LOGQ (2^LOGN) × Rng) :=
  match G with
  | 1 => serialLT RAND_MAX LOGDELTA A ct skey ω
  | 2 => do
    let B ← group2 A
    serialLT RAND_MAX LOGDELTA B ct skey ω
  | 3 => do
    let B ← group3 A
    serialLT RAND_MAX LOGDELTA B ct skey ω
  | 4 => do
    let B ← group4 A
    serialLT RAND_MAX LOGDELTA B ct skey ω
  | _ => throw Fault.assertFail

/-! ## CoeffToSlot and SlotToCoeff -/

/-- One iteration of the initialisation loop of `CoeffToSlot`, bootstrap.h:26-30. -/
noncomputable def ctsFactor {LOGN : Nat} (A : Fac LOGN) : M (Fac LOGN) := do
  let r ← A.1.transpose
  let i ← A.2.transpose
  let i := i.negate
  let c : ℝ := 1 / ((2^LOGN : Nat) : ℝ) ^ ((1 : ℝ) / ((LOGN - 1 : Nat) : ℝ))
  pure (r.scale c, i.scale c)

/-- The tables of `CoeffToSlot`, bootstrap.h:19-33. -/
noncomputable def ctsTable (LOGN : Nat) : M (Fin (LOGN - 1) → Fac LOGN) := do
  let U ← splitU0NR LOGN (fac0 LOGN)
  tabM (LOGN - 1) (fun n => do
    let a ← rd U n
    ctsFactor a)

/-- `pti`, bootstrap.h:45-46: the polynomial `-X^(N/2)`. -/
def ctsPti (LOGQ LOGN : Nat) [NeZero LOGQ] : M (R_Q LOGQ (2^LOGN)) :=
  wr R_Q.setzero (2^LOGN / 2) (negate (ofW 1))

/-- `CoeffToSlot` after the tables are there, bootstrap.h:35-48. Result `(ct_[0], ct_[1])`. -/
noncomputable def ctsWith (RAND_MAX LOGDELTA G : Nat) (U : Fin (LOGN - 1) → Fac LOGN)
    (ct : R_Q_square LOGQ (2^LOGN)) (s : Fin (2^LOGN) → Int) (ω : Rng) :
    M ((R_Q_square LOGQ (2^LOGN) × R_Q_square LOGQ (2^LOGN)) × Rng) := do
  let t ← groupedLT RAND_MAX LOGDELTA G U ct s ω
  let U0ct := t.1
  let s_conj ← conjI s (fun _ => 0)
  let ckey ← swkgen (LOGQ := LOGQ) RAND_MAX s_conj s R_Q_square.setzero t.2
  let U0ct_conj ← conj_ct U0ct ckey.1 R_Q_square.setzero
  let pti ← ctsPti LOGQ LOGN
  let c0 := R_Q_square.add (R_Q_square.copy U0ct) U0ct_conj
  let c1 ← R_Q_square.mulR (R_Q_square.sub (R_Q_square.copy U0ct) U0ct_conj) pti
  pure ((c0, c1), ckey.2)

/-- `CoeffToSlot<LOGQ,LOGN,LOGDELTA,G>(ct,s,ct_)`, bootstrap.h:14-49. -/
noncomputable def CoeffToSlot (RAND_MAX LOGDELTA G : Nat) (ct : R_Q_square LOGQ (2^LOGN))
    (s : Fin (2^LOGN) → Int) (ω : Rng) :
    M ((R_Q_square LOGQ (2^LOGN) × R_Q_square LOGQ (2^LOGN)) × Rng) := do
  let U ← ctsTable LOGN
  ctsWith RAND_MAX LOGDELTA G U ct s ω

/-- `U0r`, `U0i` of `SlotToCoeff`, bootstrap.h:68-71. -/
noncomputable def stcReal {LOGN : Nat} (T : Fin (LOGN - 1) → Fac LOGN) : M (Fin (LOGN - 1) → Fac LOGN) :=
  tabM (LOGN - 1) (fun i => do
    let a ← rd T (LOGN - 2 - i)
    pure (a.1.copy (sd0 _ _), a.2.copy (sd0 _ _)))

/-- `iU0r`, `iU0i` of `SlotToCoeff`, bootstrap.h:73-82. -/
noncomputable def stcImag {LOGN : Nat} (T : Fin (LOGN - 1) → Fac LOGN) : M (Fin (LOGN - 1) → Fac LOGN) :=
  tabM (LOGN - 1) (fun i => do
    let a ← rd T (LOGN - 2 - i)
    if i = 0 then pure ((a.2.copy (sd0 _ _)).negate, a.1.copy (sd0 _ _))
    else pure (a.1.copy (sd0 _ _), a.2.copy (sd0 _ _)))

/-- The tables of `SlotToCoeff`, bootstrap.h:57-84. -/
noncomputable def stcTable (LOGN : Nat) : M ((Fin (LOGN - 1) → Fac LOGN) × (Fin (LOGN - 1) → Fac LOGN)) := do
  let T ← splitU0NR LOGN (fac0 LOGN)
  let U ← stcReal T
  let V ← stcImag T
  pure (U, V)

/-- `SlotToCoeff` after the tables are there, bootstrap.h:86-89. -/
noncomputable def stcWith (RAND_MAX LOGDELTA G : Nat) (U V : Fin (LOGN - 1) → Fac LOGN)
    (ct0 ct1 : R_Q_square LOGQ (2^LOGN)) (s : Fin (2^LOGN) → Int) (ω : Rng) :
    M (R_Q_square LOGQ (2^LOGN) × Rng) := do
  let a ← groupedLT RAND_MAX LOGDELTA G U ct0 s ω
  let b ← groupedLT RAND_MAX LOGDELTA G V ct1 s a.2
  pure (R_Q_square.add a.1 b.1, b.2)

/-- `SlotToCoeff<LOGQ,LOGN,LOGDELTA,G>(ct0,ct1,skey,ct_)`, bootstrap.h:51-90. -/
noncomputable def SlotToCoeff (RAND_MAX LOGDELTA G : Nat) (ct0 ct1 : R_Q_square LOGQ (2^LOGN))
    (s : Fin (2^LOGN) → Int) (ω : Rng) : M (R_Q_square LOGQ (2^LOGN) × Rng) := do
  let T ← stcTable LOGN
  stcWith RAND_MAX LOGDELTA G T.1 T.2 ct0 ct1 s ω

/-! ## impl/plaintext.h -/

/-- `matrix_vector_product<LOGQ,LOGN,K>(pt,A,Delta,pt_Az)`, plaintext.h:24-37. -/
noncomputable def ptMvp {K : Nat} (pt : R_Q LOGQ (2^LOGN)) (A : Fin K → CVec LOGN) (Delta : W) :
    M (R_Q LOGQ (2^LOGN)) :=
  forUp 0 K (fun k acc => do
    let a ← rd A k
    let pt_v ← encode LOGQ (LOGN := LOGN) a Delta
    let pt_rot ← rotR pt R_Q.setzero k
    let pt_conv ← conv pt_v pt_rot
    pure (R_Q.add acc pt_conv)) R_Q.setzero

/-- `matrix_vector_product<LOGQ,LOGN>(pt,Ar,Ai,Delta,pt_Az)`, plaintext.h:39-54. -/
noncomputable def ptMvpSparse (pt : R_Q LOGQ (2^LOGN)) (A : SD2 (2^(LOGN-1)) 3) (Delta : W) :
    M (R_Q LOGQ (2^LOGN)) :=
  forUp 0 3 (fun k acc => do
    let offr ← rd A.1.off k
    let offi ← rd A.2.off k
    assertM (decide (offr = offi))
    let vr ← rd A.1.vec k
    let vi ← rd A.2.vec k
    let pt_v ← encode LOGQ (LOGN := LOGN) (vr, vi) Delta
    let pt_rot ← rotR pt R_Q.setzero offr.toNat
    let pt_conv ← conv pt_v pt_rot
    pure (R_Q.add acc pt_conv)) R_Q.setzero

end
end EvalRound

import Verif.Model.Matrix

/-!
# Products of sparse diagonal matrices whose result is also a factor

`MatMul` can be called with the result as the first factor when the second has one diagonal, and with the result as the second
factor when the first has one.
-/

namespace EvalRound

section
variable {N S S1 S2 : Nat}

/-- `A.vec[s][i]`. -/
def entryM (A : SparseDiagonal N S) (s i : Nat) : M ℝ := do
  let v ← rd A.vec s
  rd v i

/-- `C.vec[s][i] += x`. -/
noncomputable def addEntry (C : SparseDiagonal N S) (s i : Nat) (x : ℝ) : M (SparseDiagonal N S) := do
  let v ← rd C.vec s
  let c ← rd v i
  let v ← wr v i (c + x)
  let vec ← wr C.vec s v
  pure { C with vec := vec }

/-- `MatMul(A,B,A)` with `B` of one diagonal, matrix.h:166-189: `A` is read from the object that is written. -/
noncomputable def MatMulOver1 (A : SparseDiagonal N S) (B : SparseDiagonal N 1) : M (SparseDiagonal N S) := do
  let st ← forUp 0 S (fun s1 st => forUp 0 1 (fun s2 (st : Nat × SparseDiagonal N S) => do
    let off1 ← rd st.2.off s1
    let off2 ← rd B.off s2
    let t ← intM (off1 + off2)
    let (s3, count, C) ← slot st (Int.tmod t N)
    let C ← forUp 0 N (fun i C => do
      let x ← entryM C s1 i
      let j ← wrapIdx N i off1
      let y ← entryM B s2 j
      addEntry C s3 i (x * y)) C
    pure (count, C)) st) (0, A.setzero)
  pure st.2

/-- `MatMul(A,B,B)` with `A` of one diagonal, matrix.h:166-189: `B` is read from the object that is written. -/
noncomputable def MatMulOver2 (A : SparseDiagonal N 1) (B : SparseDiagonal N S) : M (SparseDiagonal N S) := do
  let st ← forUp 0 1 (fun s1 st => forUp 0 S (fun s2 (st : Nat × SparseDiagonal N S) => do
    let off1 ← rd A.off s1
    let off2 ← rd st.2.off s2
    let t ← intM (off1 + off2)
    let (s3, count, C) ← slot st (Int.tmod t N)
    let C ← forUp 0 N (fun i C => do
      let x ← entryM A s1 i
      let j ← wrapIdx N i off1
      let y ← entryM C s2 j
      addEntry C s3 i (x * y)) C
    pure (count, C)) st) (0, B.setzero)
  pure st.2

/-- `MatMul(Ar,Ai,Br,Bi,Ar,Ai)` with `Br`, `Bi` of one diagonal, matrix.h:191-225. -/
noncomputable def MatMulCOver1 (Ar Ai : SparseDiagonal N S) (Br Bi : SparseDiagonal N 1) : M (SparseDiagonal N S × SparseDiagonal N S) := do
  let st ← forUp 0 S (fun s1 st => forUp 0 1 (fun s2 (st : Nat × SparseDiagonal N S × SparseDiagonal N S) => do
    let skip ← skipC st.2.1 st.2.2 Br Bi s1 s2
    if skip then pure st else do
      let off1 ← rd st.2.1.off s1
      let off1' ← rd st.2.2.off s1
      assertM (decide (off1 = off1'))
      let off2 ← rd Br.off s2
      let off2' ← rd Bi.off s2
      assertM (decide (off2 = off2'))
      let t ← intM (off1 + off2)
      let (s3, count, C) ← slotC st (Int.tmod t N)
      let C ← forUp 0 N (fun i (C : SparseDiagonal N S × SparseDiagonal N S) => do
        let j ← wrapIdx N i off1
        let br ← entryM Br s2 j
        let bi ← entryM Bi s2 j
        let x ← entryM C.1 s1 i
        let Cr ← addEntry C.1 s3 i (x * br)
        let y ← entryM C.2 s1 i
        let Cr ← addEntry Cr s3 i (-(y * bi))
        let x ← entryM Cr s1 i
        let Ci ← addEntry C.2 s3 i (x * bi)
        let y ← entryM Ci s1 i
        let Ci ← addEntry Ci s3 i (y * br)
        pure (Cr, Ci)) C
      pure (count, C)) st) (0, Ar.setzero, Ai.setzero)
  pure st.2

/-- `MatMul(Ar,Ai,Br,Bi,Br,Bi)` with `Ar`, `Ai` of one diagonal, matrix.h:191-225. -/
noncomputable def MatMulCOver2 (Ar Ai : SparseDiagonal N 1) (Br Bi : SparseDiagonal N S) : M (SparseDiagonal N S × SparseDiagonal N S) := do
  let st ← forUp 0 1 (fun s1 st => forUp 0 S (fun s2 (st : Nat × SparseDiagonal N S × SparseDiagonal N S) => do
    let skip ← skipC Ar Ai st.2.1 st.2.2 s1 s2
    if skip then pure st else do
      let off1 ← rd Ar.off s1
      let off1' ← rd Ai.off s1
      assertM (decide (off1 = off1'))
      let off2 ← rd st.2.1.off s2
      let off2' ← rd st.2.2.off s2
      assertM (decide (off2 = off2'))
      let t ← intM (off1 + off2)
      let (s3, count, C) ← slotC st (Int.tmod t N)
      let C ← forUp 0 N (fun i (C : SparseDiagonal N S × SparseDiagonal N S) => do
        let ar ← entryM Ar s1 i
        let ai ← entryM Ai s1 i
        let j ← wrapIdx N i off1
        let x ← entryM C.1 s2 j
        let Cr ← addEntry C.1 s3 i (ar * x)
        let y ← entryM C.2 s2 j
        let Cr ← addEntry Cr s3 i (-(ai * y))
        let y ← entryM C.2 s2 j
        let Ci ← addEntry C.2 s3 i (ar * y)
        let x ← entryM Cr s2 j
        let Ci ← addEntry Ci s3 i (ai * x)
        pure (Cr, Ci)) C
      pure (count, C)) st) (0, Br.setzero, Bi.setzero)
  pure st.2

end
end EvalRound

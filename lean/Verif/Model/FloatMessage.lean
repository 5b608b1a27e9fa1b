import Verif.Model.Endecode
import Verif.Model.Float

/-!
# impl/message.h with the arithmetic of `double`

As `Msg` of `Verif/Model/Endecode.lean` and `mvpMsg` of `Verif/Model/Matrix.lean`, with every operation of `double` rounded to binary64. `sqrt` is
correctly rounded, as IEEE 754 requires. Products and sums are not fused.
-/

namespace EvalRound

namespace MsgF
variable {n : Nat}

/-- `add`, message.h:30-36. -/
noncomputable def add (a b : (Fin n → ℝ) × (Fin n → ℝ)) : M ((Fin n → ℝ) × (Fin n → ℝ)) := do
  let t ← tabM n (fun i => do
    let ar ← rd a.1 i
    let br ← rd b.1 i
    let r ← fl (ar + br)
    let ai ← rd a.2 i
    let bi ← rd b.2 i
    let s ← fl (ai + bi)
    pure (r, s))
  pure (fun i => (t i).1, fun i => (t i).2)

/-- `sub`, message.h:38-44. -/
noncomputable def sub (a b : (Fin n → ℝ) × (Fin n → ℝ)) : M ((Fin n → ℝ) × (Fin n → ℝ)) := do
  let t ← tabM n (fun i => do
    let ar ← rd a.1 i
    let br ← rd b.1 i
    let r ← fl (ar - br)
    let ai ← rd a.2 i
    let bi ← rd b.2 i
    let s ← fl (ai - bi)
    pure (r, s))
  pure (fun i => (t i).1, fun i => (t i).2)

/-- `mul`, message.h:46-52, for `z3` a different object. -/
noncomputable def mul (a b : (Fin n → ℝ) × (Fin n → ℝ)) : M ((Fin n → ℝ) × (Fin n → ℝ)) := do
  let t ← tabM n (fun i => do
    let ar ← rd a.1 i
    let ai ← rd a.2 i
    let br ← rd b.1 i
    let bi ← rd b.2 i
    let p ← fl (ar * br)
    let q ← fl (ai * bi)
    let r ← fl (p - q)
    let p' ← fl (ar * bi)
    let q' ← fl (ai * br)
    let s ← fl (p' + q')
    pure (r, s))
  pure (fun i => (t i).1, fun i => (t i).2)

/-- `square_sum`, message.h:54-61. -/
noncomputable def square_sum (z : (Fin n → ℝ) × (Fin n → ℝ)) : M ℝ := forUp 0 n (fun i (s : ℝ) => do
  let r ← rd z.1 i
  let m ← rd z.2 i
  let p ← fl (r * r)
  let q ← fl (m * m)
  let t ← fl (p + q)
  fl (s + t)) 0

/-- `norm`, message.h:63-66. -/
noncomputable def norm (z : (Fin n → ℝ) × (Fin n → ℝ)) : M ℝ := do
  let s ← square_sum z
  fl (Real.sqrt s)

/-- `sup_norm`, message.h:68-76. -/
noncomputable def sup_norm (z : (Fin n → ℝ) × (Fin n → ℝ)) : M ℝ := forUp 0 n (fun i (mx : ℝ) => do
  let r ← rd z.1 i
  let m ← rd z.2 i
  let p ← fl (r * r)
  let q ← fl (m * m)
  let t ← fl (p + q)
  let a ← fl (Real.sqrt t)
  pure (if a > mx then a else mx)) 0

/-- `s += a*x - b*y`, message.h:98 and 118. -/
noncomputable def accSub (s a x b y : ℝ) : M ℝ := do
  let p ← fl (a * x)
  let q ← fl (b * y)
  let t ← fl (p - q)
  fl (s + t)

/-- `s += a*x + b*y`, message.h:99 and 119. -/
noncomputable def accAdd (s a x b y : ℝ) : M ℝ := do
  let p ← fl (a * x)
  let q ← fl (b * y)
  let t ← fl (p + q)
  fl (s + t)

/-- One row of the dense `matrix_vector_product<LOGN,K>`, message.h:94-103. -/
noncomputable def mvpRow {K : Nat} (z : (Fin n → ℝ) × (Fin n → ℝ)) (A : Fin K → (Fin n → ℝ) × (Fin n → ℝ)) (i : Nat) : M (ℝ × ℝ) :=
  forUp 0 K (fun k (s : ℝ × ℝ) => do
    let t ← idxM (i + k)
    let a ← rd A k
    let ar ← rd a.1 i
    let ai ← rd a.2 i
    let zr ← rd z.1 (t % n)
    let zi ← rd z.2 (t % n)
    let sr ← accSub s.1 ar zr ai zi
    let si ← accAdd s.2 ar zi ai zr
    pure (sr, si)) (0, 0)

/-- `matrix_vector_product<LOGN,K>`, message.h:88-104. -/
noncomputable def mvp {K : Nat} (z : (Fin n → ℝ) × (Fin n → ℝ)) (A : Fin K → (Fin n → ℝ) × (Fin n → ℝ)) : M ((Fin n → ℝ) × (Fin n → ℝ)) := do
  let rows ← tabM n (mvpRow z A)
  pure (fun i => (rows i).1, fun i => (rows i).2)

/-- Row `i` of the sparse `matrix_vector_product`, message.h:113-123. -/
noncomputable def mvpSparseRow {S : Nat} (z : (Fin n → ℝ) × (Fin n → ℝ)) (Ar Ai : SparseDiagonal n S) (i : Nat) : M (ℝ × ℝ) :=
  forUp 0 S (fun k (s : ℝ × ℝ) => do
    let fr ← rd Ar.zero k
    let fi ← rd Ai.zero k
    if !fr || !fi then do
      let offr ← rd Ar.off k
      let offi ← rd Ai.off k
      let jr ← wrapIdx n i offr
      let ji ← wrapIdx n i offi
      let vr ← rd Ar.vec k
      let ar ← rd vr i
      let vi ← rd Ai.vec k
      let ai ← rd vi i
      let zr ← rd z.1 jr
      let zi ← rd z.2 ji
      let sr ← accSub s.1 ar zr ai zi
      let si ← accAdd s.2 ar zi ai zr
      pure (sr, si)
    else pure s) (0, 0)

/-- `matrix_vector_product(z,Ar,Ai,Az)`, message.h:106-127. -/
noncomputable def mvpSparse {S : Nat} (z : (Fin n → ℝ) × (Fin n → ℝ)) (Ar Ai : SparseDiagonal n S) : M ((Fin n → ℝ) × (Fin n → ℝ)) := do
  let rows ← tabM n (mvpSparseRow z Ar Ai)
  pure (fun i => (rows i).1, fun i => (rows i).2)

end MsgF

end EvalRound

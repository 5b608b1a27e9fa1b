import Verif.Model.FloatMeasure
import Verif.Model.FloatSup

/-!
# `measure_cts_error` and `measure_sup_norm` with the arithmetic of `double`

section3/theorem_cts_error.cpp and section4/example_sup_norm.cpp. As in `Verif/Model/Measure.lean`, with every operation of `double` rounded to
binary64. The numbers that `dist(gen)` returns are a parameter. Printing and the expected values that are only printed are left out.
-/

namespace EvalRound
open Z_Q

/-- What the two programs have computed when they start to measure, theorem_cts_error.cpp:25-41. -/
structure CtsSetup (LOGN QT : Nat) [NeZero QT] where
  s : Fin (2^LOGN) → Int
  ω : Rng
  pt_q : R_Q 60 (2^LOGN)
  ct : R_Q_square QT (2^LOGN)
  pt : R_Q QT (2^LOGN)
  z_amb : CVec LOGN

section
variable (L : LibmP) (RAND_MAX LDcts G QT : Nat) [NeZero QT] {LOGN : Nat}

/-- theorem_cts_error.cpp:25-41 and example_sup_norm.cpp:63-78: from `keygen` to `decode`. -/
noncomputable def ctsSetupF (H : Int) (ρ : RealRng) (ct0 : R_Q_square 60 (2^LOGN)) (ω : Rng) : M (CtsSetup LOGN QT) := do
  let k ← keygen (2^LOGN) H ω
  let z := (set_random_message LOGN ρ).1
  let Delta ← shl1 50
  let pt_q ← encodeF L.toLibm 60 z Delta
  let ct_q ← enc RAND_MAX pt_q k.1 ct0 k.2
  let ct := R_Q_square.resize QT ct_q.1
  let pt ← dec ct k.1
  let z_amb ← decodeF L.toLibm pt Delta
  pure ⟨k.1, ct_q.2, pt_q, ct, pt, z_amb⟩

/-- theorem_cts_error.cpp:51-75 and example_sup_norm.cpp:95-118: CoeffToSlot and the two messages `e`. -/
noncomputable def ctsErrorsF (a : CtsSetup LOGN QT) : M (CVec LOGN × CVec LOGN) := do
  let Delta ← shl1 50
  let c ← CoeffToSlotF L RAND_MAX LDcts G a.ct a.s a.ω
  let z0 ← decMessageF L.toLibm (50 + (LOGN-1)/G*LDcts : Nat) c.1.1 a.s
  let z1 ← decMessageF L.toLibm (50 + (LOGN-1)/G*LDcts : Nat) c.1.2 a.s
  let x0 ← brvMessageF LOGN Delta (rdDoubleF a.pt) 0
  let x1 ← brvMessageF LOGN Delta (rdDoubleF a.pt) (2^LOGN / 2)
  let e0 ← MsgF.sub z0 x0
  let e1 ← MsgF.sub z1 x1
  pure (e0, e1)

/-- example_sup_norm.cpp:80-90: the Euclidean norm and the sup norm of the coefficients of `pt_q / Delta`. -/
noncomputable def ptNormsF {Q N : Nat} [NeZero Q] (pt : R_Q Q N) : M (ℝ × ℝ) := do
  let Delta ← shl1 50
  let p ← forUp 0 N (fun i (p : ℝ × ℝ) => do
    let x ← rd pt i
    let val ← toDoubleF x
    let a ← divDeltaF |val| Delta
    let q ← fl (a * a)
    let s ← fl (p.1 + q)
    pure (s, if a > p.2 then a else p.2)) (0, 0)
  let norm ← fl (Real.sqrt p.1)
  pure (norm, p.2)

/-- `measure_cts_error`, theorem_cts_error.cpp:6-93: `norm(z_amb)` and `norm(e_whole)`. -/
noncomputable def measure_cts_errorF (H : Int) (ρ : RealRng) (ct0 : R_Q_square 60 (2^LOGN)) (ω : Rng) : M (ℝ × ℝ) := do
  assertM ((LOGN - 1) % G = 0)
  let a ← ctsSetupF L RAND_MAX QT H ρ ct0 ω
  let z_amb_norm ← MsgF.norm a.z_amb
  let e ← ctsErrorsF L RAND_MAX LDcts G QT a
  let e_whole ← Msg.aggregate LOGN e.1 e.2
  let e_norm ← MsgF.norm e_whole
  pure (z_amb_norm, e_norm)

/-- `measure_sup_norm`, example_sup_norm.cpp:44-129: the two norms of `pt_q / Delta`, `norm(e_whole)` and `sup_norm(e_whole)`. -/
noncomputable def measure_sup_normF (H : Int) (ρ : RealRng) (ct0 : R_Q_square 60 (2^LOGN)) (ω : Rng) : M ((ℝ × ℝ) × ℝ × ℝ) := do
  assertM ((LOGN - 1) % G = 0)
  let a ← ctsSetupF L RAND_MAX QT H ρ ct0 ω
  let p ← ptNormsF a.pt_q
  let e ← ctsErrorsF L RAND_MAX LDcts G QT a
  let e_whole ← Msg.aggregate LOGN e.1 e.2
  let e_norm ← MsgF.norm e_whole
  let e_sup ← MsgF.sup_norm e_whole
  pure (p, e_norm, e_sup)

end

end EvalRound

import Verif.Model.Driver
import Verif.Model.FloatBoot

/-!
# The bootstrapping drivers with the arithmetic of `double`

test/bootstrap_test.cpp, experiment/section4/proposal.cpp and the parts of experiment/setup.h they use, as in `Verif/Model/Driver.lean`, with every
operation of `double` rounded to binary64. `sqrt` is correctly rounded, as IEEE 754 requires; `fabs`, `abs` and `max` are exact. Printing and the
logarithm applied to a printed value are left out.
-/

namespace EvalRound
open Z_Q

/-- `set_test_message`, setup.h:23-31. -/
noncomputable def set_test_messageF (L : Libm) (LOGN : Nat) : M (CVec LOGN) := do
  let t ← tabM (2^(LOGN-1)) (fun i => do
    let q ← fl ((i : ℝ) / (2^(LOGN-1) : Nat))
    let x ← fl (q * PI64)
    let s ← fl (Real.sqrt 2)
    let a ← fl (L.cos x / s)
    let b ← fl (L.sin x / s)
    pure (a, b))
  pure (fun i => (t i).1, fun i => (t i).2)

/-- `max_err_real` or `max_err_imag` of `print_max_error`, setup.h:36-40. -/
noncomputable def max_errF {H : Nat} (x y : Fin H → ℝ) : M ℝ :=
  forUp 0 H (fun i m => do
    let a ← rd x i
    let b ← rd y i
    let d ← fl (a - b)
    pure (max m |d|)) 0

/-- `operator double`, Z_Q.h:311-321. -/
noncomputable def toDoubleF {LOGQ : Nat} [NeZero LOGQ] (x : Z_Q LOGQ) : M ℝ := do
  let val := copy x
  let is_negative := val.is_bigger_than_halfQ
  let val := if is_negative then negate val else val
  let result ← fl ((val.data (bot LOGQ)).toNat : ℝ)
  if is_negative then fl (result * (-1)) else pure result

/-- `a / Delta` with a `uint64_t` that is converted; a division by zero is undefined here, proposal.cpp:65,
bootstrap_test.cpp:61, end_to_end_test.cpp:48. -/
noncomputable def divDeltaF (a : ℝ) (Delta : W) : M ℝ := do
  let d ← fl (Delta.toNat : ℝ)
  if d = 0 then ub else fl (a / d)

/-- `e_per_Delta_sup_norm`, proposal.cpp:58-68 and 136-146. -/
noncomputable def e_sup_normF {LF LT N : Nat} [NeZero LF] [NeZero LT] (Delta : W) (pt : R_Q LF N) (pt_out : R_Q LT N) : M ℝ := do
  let e : R_Q LT N := R_Q.sub (R_Q.resize LT pt) pt_out
  forUp 0 N (fun i mx => do
    let x ← rd e i
    let val ← toDoubleF x
    let a ← divDeltaF |val| Delta
    pure (if a > mx then a else mx)) 0

/-- `e_per_Delta_sup_norm` of bootstrap_test.cpp:52-64, which reads limb 0 itself. -/
noncomputable def e_sup_norm_lowF {LF LT N : Nat} [NeZero LF] [NeZero LT] (Delta : W) (pt : R_Q LF N) (pt_out : R_Q LT N) : M ℝ := do
  let e : R_Q LT N := R_Q.sub (R_Q.resize LT pt) pt_out
  forUp 0 N (fun i mx => do
    let x ← rd e i
    let val := copy x
    let val := if val.is_bigger_than_halfQ then negate val else val
    let v ← fl ((val.data (bot LT)).toNat : ℝ)
    let a ← divDeltaF v Delta
    pure (if a > mx then a else mx)) 0

/-- The drivers around the bootstrapping `boot` of a message `z`, with a key of weight `H`:
bootstrap_test.cpp:8-64, proposal.cpp:16-68 and 83-146. `LOGq = 60` and `LOGDELTA = 50` (rns.h:10-15, test.h:11-16);
`ct0` is what the uninitialised `ct` holds. -/
noncomputable def bootDriverF (L : Libm) (RAND_MAX : Nat) (H : Int) {LOGN QS : Nat} [NeZero QS] (z : CVec LOGN)
    (boot : R_Q_square 60 (2^LOGN) → (Fin (2^LOGN) → Int) → Rng → M (R_Q_square QS (2^LOGN) × Rng))
    (ct0 : R_Q_square 60 (2^LOGN)) (ω : Rng) : M (DriverOut LOGN) := do
  let k ← keygen (2^LOGN) H ω
  let Delta ← shl1 50
  let pt ← encodeF L 60 z Delta
  let ct ← enc RAND_MAX pt k.1 ct0 k.2
  let ct_boot ← boot ct.1 k.1 ct.2
  let pt_out ← dec ct_boot.1 k.1
  let z_out ← decode_logF L pt_out 50
  let re ← max_errF z.1 z_out.1
  let im ← max_errF z.2 z_out.2
  let e ← e_sup_normF Delta pt pt_out
  let el ← e_sup_norm_lowF Delta pt pt_out
  pure ⟨z_out, re, im, e, el⟩

section
variable (L : LibmP) (RAND_MAX LDcts LDstc G : Nat) (H : Int) (QT Q0 Q1 Q2 Q3 Q4 Q5 Q6 Q7 Q8 Q9 Q10 Q11 Q12 QS : Nat)
  [NeZero QT] [NeZero Q0] [NeZero Q1] [NeZero Q2] [NeZero Q3] [NeZero Q4] [NeZero Q5] [NeZero Q6] [NeZero Q7]
  [NeZero Q8] [NeZero Q9] [NeZero Q10] [NeZero Q11] [NeZero Q12] [NeZero QS]

/-- `conventional_bootstrap_test`, proposal.cpp:6-71, and `bootstrap_test`, bootstrap_test.cpp:6-66. -/
noncomputable def convDriverF {LOGN : Nat} (z : CVec LOGN) (ct0 : R_Q_square 60 (2^LOGN)) (ω : Rng) : M (DriverOut LOGN) :=
  bootDriverF L.toLibm RAND_MAX H z
    (bootConvF L RAND_MAX LDcts 60 LDstc G 24 QT Q0 Q1 Q2 Q3 Q4 Q5 Q6 Q7 Q8 Q9 Q10 Q11 Q12 QS) ct0 ω

/-- `proposed_bootstrap_test`, proposal.cpp:73-149. -/
noncomputable def propDriverF {LOGN : Nat} (z : CVec LOGN) (ct0 : R_Q_square 60 (2^LOGN)) (ω : Rng) : M (DriverOut LOGN) :=
  bootDriverF L.toLibm RAND_MAX H z
    (bootPropF L RAND_MAX LDcts 60 LDstc G 24 QT Q0 Q1 Q2 Q3 Q4 Q5 Q6 Q7 Q8 Q9 Q10 Q11 Q12 QS) ct0 ω

end

end EvalRound

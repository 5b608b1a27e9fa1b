import Verif.Model.Boot

/-!
# The bootstrapping drivers: test/bootstrap_test.cpp, experiment/section4/proposal.cpp and the parts of
experiment/setup.h they use

Exact real arithmetic for `double`. Printing and the logarithm applied to a printed value are left out.
-/

namespace EvalRound
open Z_Q

/-- `set_test_message`, setup.h:23-31. -/
noncomputable def set_test_message (LOGN : Nat) : CVec LOGN :=
  (fun i => Real.cos ((i.val : ℝ) / (2^(LOGN-1) : Nat) * Real.pi) / Real.sqrt 2,
   fun i => Real.sin ((i.val : ℝ) / (2^(LOGN-1) : Nat) * Real.pi) / Real.sqrt 2)

/-- `max_err_real` or `max_err_imag` of `print_max_error`, setup.h:36-40. -/
noncomputable def max_err {H : Nat} (x y : Fin H → ℝ) : ℝ := forFin H (fun i m => max m |x i - y i|) 0

/-- `e_per_Delta_sup_norm`, proposal.cpp:58-68 and 136-146; the uninitialised `e` is overwritten by `resize`. -/
noncomputable def e_sup_norm {LF LT N : Nat} [NeZero LF] [NeZero LT] (Delta : W) (pt : R_Q LF N) (pt_out : R_Q LT N) : ℝ :=
  let e : R_Q LT N := R_Q.sub (R_Q.resize LT pt) pt_out
  forFin N (fun i mx =>
    let val : ℝ := ((e i).toDoubleInt : ℝ)
    let a := |val| / (Delta.toNat : ℝ)
    if a > mx then a else mx) 0

/-- `e_per_Delta_sup_norm` of bootstrap_test.cpp:52-64, which reads limb 0 itself. -/
noncomputable def e_sup_norm_low {LF LT N : Nat} [NeZero LF] [NeZero LT] (Delta : W) (pt : R_Q LF N) (pt_out : R_Q LT N) : ℝ :=
  let e : R_Q LT N := R_Q.sub (R_Q.resize LT pt) pt_out
  forFin N (fun i mx =>
    let val := copy (e i)
    let val := if val.is_bigger_than_halfQ then negate val else val
    let a := ((val.data (bot LT)).toNat : ℝ) / (Delta.toNat : ℝ)
    if a > mx then a else mx) 0

/-- What a driver computes: the output message and the numbers it prints, bootstrap_test.cpp:51-65, proposal.cpp:53-69
and 131-147. -/
structure DriverOut (LOGN : Nat) where
  z_out : CVec LOGN
  max_err_real : ℝ
  max_err_imag : ℝ
  e_norm : ℝ
  e_norm_low : ℝ

/-- The drivers around the bootstrapping `boot` of a message `z`, with a key of weight `H`:
bootstrap_test.cpp:8-64, proposal.cpp:16-68 and 83-146. `LOGq = 60` and `LOGDELTA = 50` (rns.h:10-15, test.h:11-16);
`ct0` is what the uninitialised `ct` holds. -/
noncomputable def bootDriver (RAND_MAX : Nat) (H : Int) {LOGN QS : Nat} [NeZero QS] (z : CVec LOGN)
    (boot : R_Q_square 60 (2^LOGN) → (Fin (2^LOGN) → Int) → Rng → M (R_Q_square QS (2^LOGN) × Rng))
    (ct0 : R_Q_square 60 (2^LOGN)) (ω : Rng) : M (DriverOut LOGN) := do
  let k ← keygen (2^LOGN) H ω
  let Delta ← shl1 50
  let pt ← encode 60 z Delta
  let ct ← enc RAND_MAX pt k.1 ct0 k.2
  let ct_boot ← boot ct.1 k.1 ct.2
  let pt_out ← dec ct_boot.1 k.1
  let z_out ← decode_log pt_out 50
  pure ⟨z_out, max_err z.1 z_out.1, max_err z.2 z_out.2, e_sup_norm Delta pt pt_out, e_sup_norm_low Delta pt pt_out⟩

section
variable (RAND_MAX LDcts LDstc G : Nat) (H : Int) (QT Q0 Q1 Q2 Q3 Q4 Q5 Q6 Q7 Q8 Q9 Q10 Q11 Q12 QS : Nat)
  [NeZero QT] [NeZero Q0] [NeZero Q1] [NeZero Q2] [NeZero Q3] [NeZero Q4] [NeZero Q5] [NeZero Q6] [NeZero Q7]
  [NeZero Q8] [NeZero Q9] [NeZero Q10] [NeZero Q11] [NeZero Q12] [NeZero QS]

/-- `conventional_bootstrap_test`, proposal.cpp:6-71, and `bootstrap_test`, bootstrap_test.cpp:6-66. -/
noncomputable def convDriver {LOGN : Nat} (z : CVec LOGN) (ct0 : R_Q_square 60 (2^LOGN)) (ω : Rng) : M (DriverOut LOGN) :=
  bootDriver RAND_MAX H z
    (bootConv RAND_MAX LDcts 60 LDstc G 24 QT Q0 Q1 Q2 Q3 Q4 Q5 Q6 Q7 Q8 Q9 Q10 Q11 Q12 QS) ct0 ω

/-- `proposed_bootstrap_test`, proposal.cpp:73-149. -/
noncomputable def propDriver {LOGN : Nat} (z : CVec LOGN) (ct0 : R_Q_square 60 (2^LOGN)) (ω : Rng) : M (DriverOut LOGN) :=
  bootDriver RAND_MAX H z
    (bootProp RAND_MAX LDcts 60 LDstc G 24 QT Q0 Q1 Q2 Q3 Q4 Q5 Q6 Q7 Q8 Q9 Q10 Q11 Q12 QS) ct0 ω

end

end EvalRound

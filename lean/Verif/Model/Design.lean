import Mathlib.Analysis.SpecialFunctions.Log.Base
import Mathlib.Analysis.SpecialFunctions.Pow.Real
import Verif.Model.Measure

/-!
# The constants printed by the experiments: section4/design_delta_tilde.cpp, section4/design_delta_tilde_lattigo.cpp and
the expected norms of section3/theorem_cts_error.cpp

Exact real arithmetic for `double`; `LOGN` is at least 2, so that `D` is not zero. `LOGq = 60`, `LOGDELTA = 50`
(rns.h:10, 14, lattigo.h:3, 9) are written out.
-/

namespace EvalRound

/-- Conversion of a `double` to `int`: truncation towards zero, undefined when the truncated value does not fit. The
initialisations of `int` by a `double`, design_delta_tilde.cpp:18, 28, 37. -/
noncomputable def truncInt (x : ℝ) : M Int :=
  if -2^31 - 1 < x ∧ x < 2^31 then pure (if 0 ≤ x then ⌊x⌋ else ⌈x⌉) else ub

/-- `int v = ceil(log2(x))`: for `x ≤ 0` the logarithm is not finite and the conversion is undefined,
design_delta_tilde.cpp:28, 37. -/
noncomputable def ceilLog2 (x : ℝ) : M Int :=
  if 0 < x then truncInt (⌈Real.logb 2 x⌉ : ℝ) else ub

/-- `C1`, design_delta_tilde.cpp:20, theorem_cts_error.cpp:21, example_sup_norm.cpp:59. `X` is `(H+1)*Diag`. -/
noncomputable def designC1 (D : Nat) (X : Int) : ℝ := D * Real.sqrt X / 12 * (2:ℝ)^(1 / (2 * D : ℝ))

/-- `Delta_tilde_sim`, design_delta_tilde.cpp:27. -/
noncomputable def deltaSim (LOGN D : Nat) (X : Int) : ℝ :=
  designC1 D X * ((2^LOGN : Nat) : ℝ)^(1 + 1 / (2 * D : ℝ)) * 2^10

/-- `design_delta_tilde<LOGN,G>`, design_delta_tilde.cpp:6-39: `LOGDELTA_tilde_sim` and `LOGDELTA_tilde_tight`. -/
noncomputable def designDeltaTilde (H : Int) (LOGN G : Nat) : M (Int × Int) := do
  assertM (decide ((LOGN-1) % G = 0))
  let D := (LOGN-1) / G
  let Diag ← truncInt ((3:ℝ)^G)
  let X ← intM ((H+1) * Diag)
  let C2 : ℝ := 5
  let Delta_tilde_sim := deltaSim LOGN D X
  let LOGDELTA_tilde_sim ← ceilLog2 Delta_tilde_sim
  let epsilon : ℝ := 1
  -- epsilon*sqrt(N)/C2 is never 1, so there is no division by zero
  let tight_ratio := 1 / (epsilon * Real.sqrt ((2^LOGN : Nat) : ℝ) / C2 - 1)
  let Delta_tilde_tight ← truncInt (Delta_tilde_sim * tight_ratio)
  let LOGDELTA_tilde_tight ← ceilLog2 (Delta_tilde_tight : ℝ)
  pure (LOGDELTA_tilde_sim, LOGDELTA_tilde_tight)

/-- `z_amb_norm_expected` as first printed, theorem_cts_error.cpp:44-45: `(H+1)/12` is a division of `int`. -/
noncomputable def zAmbExpected (H : Int) (LOGN : Nat) : ℝ :=
  Real.sqrt ((2^LOGN / 2 : Nat) : ℝ) / 2^50 * Real.sqrt (((H+1).tdiv 12 : Int) * 2^60 * 2^60 * ((2^LOGN : Nat) : ℝ))

/-- `z_amb_norm_expected` of the sanity check, theorem_cts_error.cpp:86-87, and design_delta_tilde_lattigo.cpp:8-9. -/
noncomputable def zAmbSanity (H : Int) (LOGN : Nat) : ℝ :=
  Real.sqrt ((2^LOGN / 2 : Nat) : ℝ) / 2^50 * Real.sqrt ((H + 1) / 12 * 2^60 * 2^60 * ((2^LOGN : Nat) : ℝ))

/-- `e_norm_expected`, theorem_cts_error.cpp:78, example_sup_norm.cpp:123; `Δ` is `Delta_boot_tilde`. -/
noncomputable def eNormExpected (LOGN D : Nat) (X : Int) (Δ : ℝ) : ℝ :=
  designC1 D X / Δ * ((2^LOGN : Nat) : ℝ)^(1 + 1 / (2 * D : ℝ)) * 2^10

/-- `e_norm_expected` of the sanity check, theorem_cts_error.cpp:85-91. -/
noncomputable def eNormSanity (H : Int) (LOGN G : Nat) (Diag : Int) (Δ : ℝ) : ℝ :=
  let D := (LOGN-1) / G
  let p_U0 := Real.sqrt (Diag * ((2^LOGN : Nat) : ℝ) / 12) / Δ
  let U0_norm := (Real.sqrt 2 / ((2^LOGN : Nat) : ℝ)^(1 / ((LOGN - 1 : Nat) : ℝ)))^G
  zAmbSanity H LOGN * p_U0 * D * U0_norm^(D-1) * 2

/-- `main` of design_delta_tilde_lattigo.cpp:6-37, `LOGN = 16` and `H = 192` (lattigo.h:4-6): the numbers printed as
`error expected` and as the goal. `Δ` is `Delta_boot_tilde`, which is 2^34 there (lattigo.h:11-12). -/
noncomputable def designLattigo (Δ : ℝ) : ℝ × ℝ :=
  let N : ℝ := ((2^16 : Nat) : ℝ)
  let G : Fin 4 → Nat := ![4, 4, 4, 3]
  let Diag : Fin 4 → ℝ := fun i => 3^(G i)
  let p_A : Fin 4 → ℝ := fun i => Real.sqrt (Diag i * N / 12) / Δ
  let U0_norm_one := Real.sqrt 2 / N^(1 / ((16 - 1 : Nat) : ℝ))
  let A_norm : Fin 4 → ℝ := fun i => U0_norm_one^(G i)
  let theorem1_const := forFin 4 (fun i (t : ℝ) =>
    let norm_const := forFin 4 (fun j (c : ℝ) => if i = j then c else c * A_norm j) 1
    t + p_A i * norm_const) 0
  let e_norm_expected := zAmbSanity 192 16 * theorem1_const * 2
  (e_norm_expected * 5 / Real.sqrt N, (2:ℝ)^(-15 : ℝ) * 2^10 / 2)

end EvalRound

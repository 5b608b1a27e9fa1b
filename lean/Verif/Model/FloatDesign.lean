import Verif.Model.Design
import Verif.Model.Float

/-!
# section4/design_delta_tilde.cpp and section4/design_delta_tilde_lattigo.cpp with the arithmetic of `double`

As in `Verif/Model/Design.lean`, with every operation of `double` rounded to binary64, and with `sqrt` rounded correctly as IEEE 754
demands. `pow` and `log2` of math.h are parameters. `ceil`, the conversions of `int` and the products by a power of two are exact.
A division by zero and the conversion of a number to `int` that does not fit are undefined here.
-/

namespace EvalRound

/-- `pow` and `log2` of math.h, called in design_delta_tilde.cpp:18-37 and design_delta_tilde_lattigo.cpp:13-35. -/
structure LibmD where
  pow : ℝ → ℝ → ℝ
  log2 : ℝ → ℝ

/-- `a / b` of `double`, for example design_delta_tilde.cpp:20. -/
noncomputable def divF (a b : ℝ) : M ℝ := if b = 0 then ub else fl (a / b)

/-- `int v = ceil(log2(x))`, design_delta_tilde.cpp:28, 37: for `x ≤ 0` the logarithm is not finite and the conversion is undefined. -/
noncomputable def ceilLog2F (L : LibmD) (x : ℝ) : M Int := if 0 < x then truncInt (⌈L.log2 x⌉ : ℝ) else ub

/-- `C1`, design_delta_tilde.cpp:20. `X` is `(H+1)*Diag`. -/
noncomputable def designC1F (L : LibmD) (D : Nat) (X : Int) : M ℝ := do
  let s ← fl (Real.sqrt X)
  let a ← fl ((D : ℝ) * s)
  let b ← divF a 12
  let y ← divF 1 ((2 * D : Nat) : ℝ)
  fl (b * L.pow 2 y)

/-- `Delta_tilde_sim`, design_delta_tilde.cpp:27; `1 << (LOGq - LOGDELTA)` is 2^10 (rns.h:10, 14). -/
noncomputable def deltaSimF (L : LibmD) (LOGN D : Nat) (C1 : ℝ) : M ℝ := do
  let y ← divF 1 ((2 * D : Nat) : ℝ)
  let y ← fl (1 + y)
  let a ← fl (C1 * L.pow ((2^LOGN : Nat) : ℝ) y)
  fl (a * 2^10)

/-- `tight_ratio`, design_delta_tilde.cpp:33-35, for `C2 = 5` (line 23) and `epsilon = 1`. -/
noncomputable def tightRatioF (LOGN : Nat) : M ℝ := do
  let s ← fl (Real.sqrt ((2^LOGN : Nat) : ℝ))
  let a ← fl (1 * s)
  let b ← divF a 5
  let c ← fl (b - 1)
  divF 1 c

/-- `design_delta_tilde<LOGN,G>`, design_delta_tilde.cpp:6-39: `LOGDELTA_tilde_sim` and `LOGDELTA_tilde_tight`. -/
noncomputable def designDeltaTildeF (L : LibmD) (H : Int) (LOGN G : Nat) : M (Int × Int) := do
  assertM (decide ((LOGN-1) % G = 0))
  let D := (LOGN-1) / G
  let Diag ← truncInt (L.pow 3 G)
  let X ← intM ((H+1) * Diag)
  let C1 ← designC1F L D X
  let Delta_tilde_sim ← deltaSimF L LOGN D C1
  let LOGDELTA_tilde_sim ← ceilLog2F L Delta_tilde_sim
  let tight_ratio ← tightRatioF LOGN
  let t ← fl (Delta_tilde_sim * tight_ratio)
  let Delta_tilde_tight ← truncInt t
  let LOGDELTA_tilde_tight ← ceilLog2F L (Delta_tilde_tight : ℝ)
  pure (LOGDELTA_tilde_sim, LOGDELTA_tilde_tight)

/-- `z_amb_norm_expected`, design_delta_tilde_lattigo.cpp:8-9, with `N = 2^16`, `H = 192`, `q = 2^60` and `Delta = 2^50` (lattigo.h:3-10). -/
noncomputable def zAmbF : M ℝ := do
  let s ← fl (Real.sqrt ((2^16 / 2 : Nat) : ℝ))
  let a ← divF s (2^50)
  let h ← fl ((192 : ℝ) + 1)
  let b ← divF h 12
  let b ← fl (b * 2^60)
  let b ← fl (b * 2^60)
  let b ← fl (b * ((2^16 : Nat) : ℝ))
  let b ← fl (Real.sqrt b)
  fl (a * b)

/-- The loop over `j`, design_delta_tilde_lattigo.cpp:24-28. -/
noncomputable def normConstF (A_norm : Fin 4 → ℝ) (i : Nat) : M ℝ := forUp 0 4 (fun j (c : ℝ) => do
  if i = j then pure c else do
    let a ← rd A_norm j
    fl (c * a)) 1

/-- The number printed as `error expected`, design_delta_tilde_lattigo.cpp:6-34. `Δ` is `Delta_boot_tilde`, which is 2^34 there
(lattigo.h:11-12). -/
noncomputable def lattigoErrorF (L : LibmD) (Δ : ℝ) : M ℝ := do
  let z_amb ← zAmbF
  let G : Fin 4 → Nat := ![4, 4, 4, 3]
  let Diag ← tabM 4 (fun i => do
    let g ← rd G i
    truncInt (L.pow 3 (g : ℝ)))
  let p_A ← tabM 4 (fun i => do
    let d ← rd Diag i
    let x ← intM (d * (2^16 : Nat))
    let x ← divF (x : ℝ) 12
    let x ← fl (Real.sqrt x)
    divF x Δ)
  let s ← fl (Real.sqrt 2)
  let y ← divF 1 ((16 - 1 : Nat) : ℝ)
  let U0_norm_one ← divF s (L.pow ((2^16 : Nat) : ℝ) y)
  let A_norm ← tabM 4 (fun i => do
    let g ← rd G i
    pure (L.pow U0_norm_one (g : ℝ)))
  let theorem1_const ← forUp 0 4 (fun i (t : ℝ) => do
    let norm_const ← normConstF A_norm i
    let p ← rd p_A i
    let x ← fl (p * norm_const)
    fl (t + x)) 0
  let e ← fl (z_amb * theorem1_const)
  let e ← fl (e * 2)
  let e ← fl (e * 5)
  let s ← fl (Real.sqrt ((2^16 : Nat) : ℝ))
  divF e s

/-- The number printed as the goal, design_delta_tilde_lattigo.cpp:35-36. -/
noncomputable def lattigoGoalF (L : LibmD) : M ℝ := do
  let eps := L.pow 2 (-15)
  let x ← fl (eps * 2^10)
  divF x 2

end EvalRound

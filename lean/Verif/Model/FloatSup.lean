import Verif.Model.Measure
import Verif.Model.FloatDriver

/-!
# `check_sup_norm_bound` of section4/example_sup_norm.cpp with the arithmetic of `double`

As in `Verif/Model/Measure.lean`, with every operation of `double` rounded to binary64; `ceil` is exact. The numbers that `dist(gen)` returns are a
parameter. Printing is left out.
-/

namespace EvalRound
open Z_Q

/-- The loop of `check_sup_norm_bound`, example_sup_norm.cpp:23-31: the sum of squares and the largest absolute value. -/
noncomputable def supLoopF {LOGQ N : Nat} [NeZero LOGQ] (pt : R_Q LOGQ N) : M (ℝ × ℝ) :=
  forUp 0 N (fun i (p : ℝ × ℝ) => do
    let x ← rd pt i
    let val := copy x
    let val := if val.is_bigger_than_halfQ then negate val else val
    let a ← fl ((val.data (bot LOGQ)).toNat : ℝ)
    let q ← fl (a * a)
    let s ← fl (p.1 + q)
    pure (s, if a > p.2 then a else p.2)) (0, 0)

/-- One round of `check_sup_norm_bound`, example_sup_norm.cpp:19-34: the Euclidean norm, the sup norm and their ratio, which is not a number, `none`,
when both are zero. -/
noncomputable def supNormRoundF (L : Libm) (LOGQ : Nat) [NeZero LOGQ] {LOGN : Nat} (z : CVec LOGN) (Delta : W) : M (ℝ × ℝ × Option ℝ) := do
  let pt ← encodeF L LOGQ z Delta
  let p ← supLoopF pt
  let norm ← fl (Real.sqrt p.1)
  let sN ← fl (Real.sqrt ((2^LOGN : Nat) : ℝ))
  if sN = 0 then ub else do
  let d ← fl (norm / sN)
  if d = 0 then
    if p.2 = 0 then pure (norm, p.2, none) else ub
  else do
    let x ← fl (p.2 / d)
    pure (norm, p.2, some x)

/-- `check_sup_norm_bound`, example_sup_norm.cpp:8-42: `max_sup_norm_ratio` after `rounds` rounds and `C2_empirical`. A comparison with a ratio that is
not a number is false. -/
noncomputable def checkSupNormF (L : Libm) (LOGQ : Nat) [NeZero LOGQ] (LOGN rounds : Nat) (ρ : RealRng) : M (ℝ × ℝ) := do
  let Delta ← shl1 50
  let r ← forUp 0 rounds (fun _ (p : ℝ × RealRng) => do
    let z := set_random_message LOGN p.2
    let o ← supNormRoundF L LOGQ z.1 Delta
    let m := match o.2.2 with
      | some x => if x > p.1 then x else p.1
      | none => p.1
    pure (m, z.2)) (0, ρ)
  pure (r.1, (⌈r.1⌉ : ℝ))

end EvalRound

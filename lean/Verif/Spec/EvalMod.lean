import Verif.Spec.Poly
import Mathlib.Analysis.SpecialFunctions.Trigonometric.Basic

/-! # What `EvalMod` computes, and its error -/

namespace EvalRound

/-- the cubic polynomial `(v + v^3/6)/(2π)`: the beginning of `arcsin(v)/(2π)` -/
noncomputable def asin3 (v : ℝ) : ℝ := (v + v^3 / 6) / (2 * Real.pi)

/-- the error after the division by `K` and the shift -/
noncomputable def startErr (n h : Nat) (K ε : ℝ) : ℝ := ε / K + K + 5/4 + rsErr n h

/-- the error after the polynomial -/
noncomputable def cosErr (n h : Nat) (Δ K ε : ℝ) : ℝ := lErr n h Δ (startErr n h K ε) 3 4 + Δ * (4 / 10^14)

/-- the error after the four double angles -/
noncomputable def angleErr (n h : Nat) (Δ K ε : ℝ) : ℝ := tErr n h Δ (cosErr n h Δ K ε) 4

/-- the error of `x^2 + 6` -/
noncomputable def sixErr (n h : Nat) (Δ e : ℝ) : ℝ := (2 * Δ * e + e^2 + mulErr n h) / Δ + rsErr n h

/-- the error of `x/(12π)` -/
noncomputable def linErr (n h : Nat) (e : ℝ) : ℝ := e / (12 * Real.pi) + 1 + rsErr n h

/-- the error of their product -/
noncomputable def cubicErr (n h : Nat) (Δ e : ℝ) : ℝ :=
  (7 * Δ * linErr n h e + Δ / (12 * Real.pi) * sixErr n h Δ e + sixErr n h Δ e * linErr n h e + mulErr n h) / Δ + rsErr n h

/-- the error of `EvalMod`; `h` is the weight of the key, `Δ` the scale and `ε` the error of the input -/
noncomputable def evalModErr (n h : Nat) (Δ K ε : ℝ) : ℝ := cubicErr n h Δ (angleErr n h Δ K ε)

/-- the moduli `LOGQ`, `LOGQ - LOGDELTA`, …, `LOGQ - 12*LOGDELTA` -/
def EvalModChain (LD Q0 Q1 Q2 Q3 Q4 Q5 Q6 Q7 Q8 Q9 Q10 Q11 Q12 : Nat) : Prop :=
  Q0 = Q1 + LD ∧ Q1 = Q2 + LD ∧ Q2 = Q3 + LD ∧ Q3 = Q4 + LD ∧ Q4 = Q5 + LD ∧ Q5 = Q6 + LD ∧ Q6 = Q7 + LD ∧
    Q7 = Q8 + LD ∧ Q8 = Q9 + LD ∧ Q9 = Q10 + LD ∧ Q10 = Q11 + LD ∧ Q11 = Q12 + LD

end EvalRound

import Verif.Model.FloatBoot
import Verif.Spec.Float
import Verif.Spec.LinTrans
import Verif.Spec.EvalMod
import Verif.Spec.Boot

/-! # The errors of the linear transforms in binary64 -/

namespace EvalRound

/-- `cos` and `sin` as in `Libm.Accurate`, `pow` with a relative error of at most `2^-52` on bases from 1 to `2^27` and exponents from
0 to 2 -/
def LibmP.Accurate (L : LibmP) : Prop :=
  L.toLibm.Accurate ∧ ∀ x y : ℝ, 1 ≤ x → x ≤ 2^27 → 0 ≤ y → y ≤ 2 → |L.pow x y - x ^ y| ≤ x ^ y / 2^52

/-- In every row the moduli of the differences of the entries sum up to at most `e`. -/
def RowNearC {H : Nat} (X Y : Matrix (Fin H) (Fin H) ℂ) (e : ℝ) : Prop := ∀ i, ∑ j, ‖X i j - Y i j‖ ≤ e

/-- the error of a group of `g` factors: 25·4^g units of `2^-53` -/
noncomputable def matUlp (g : Nat) : ℝ := 25 * 4^g / 2^53

/-- Error of the slots of a vector encoded in binary64, when `b` bounds the slots times the scaling factor: `2^n` for the rounding to
integers, the rest for the operations of `double`. -/
noncomputable def encTol (n : Nat) (b : ℝ) : ℝ := 2^n + Real.sqrt 2 ^ n * ((28 * n + 6) * b / 2^53) + 1/2^900

/-- Error of one linear transform in binary64 with `S` diagonals on `2^n` slots of size up to `Z`, secret keys of weight `h`, matrix
entries up to `β` and scaling factor `Δ`. -/
noncomputable def ltErrF (n S : Nat) (h : Nat) (β Δ Z : ℝ) : ℝ :=
  S * (encTol n (β * Δ) * Z + (β * Δ + encTol n (β * Δ)) * (2^(n+1) * (8 * 2^(n+1) + (h + 1) / 2)))

/-- Size of the slots after `d` linear transforms in binary64 with row sums up to `ρ` and entries up to `β`. -/
noncomputable def ltSizeF (n S : Nat) (h : Nat) (ρ β Δ Z : ℝ) : Nat → ℝ
  | 0 => Z
  | d+1 => Δ * ρ * ltSizeF n S h ρ β Δ Z d + ltErrF n S h β Δ (ltSizeF n S h ρ β Δ Z d)

/-- the error of grouped transforms, `β` bounds the entries of a group of exact factors and `ρ` their rows -/
noncomputable def grpErrF (n h G : Nat) (ρ β Δ Z : ℝ) : ℝ :=
  ltSizeF n (3^G) h (ρ^G + matUlp G) (β + matUlp G) Δ Z (n/G) - (Δ * ρ^G)^(n/G) * Z

/-- the error of `EvalMod` in binary64 -/
noncomputable def evalModErrF (n h : Nat) (Δ K ε : ℝ) : ℝ :=
  cubicErr n h Δ ((1 + 1/2^50) * angleErr n h Δ K ((1 + 1/2^52) * ε + (K + 1) * Δ / 2^53) + 5 * Δ / 2^53)

/-! ## bootstrapping, with the notations of `Verif/Spec/Boot.lean` -/

/-- how far the slots after CoeffToSlot are from the coefficients of the raised ciphertext, in binary64 -/
noncomputable def ctsErrF (n h G : Nat) (C Z : ℝ) : ℝ := 2 * grpErrF n h G 1 ((1/2)^G) C Z / C^(n/G)

/-- the error of EvalMod after CoeffToSlot, in binary64 -/
noncomputable def modErrF (n h G : Nat) (C Δ Z B : ℝ) : ℝ :=
  evalModErrF n h Δ 24 (ctsNoise n h G C) + Δ * (117 * ((B + ctsErrF n h G C Z) / Δ)^5)

/-- the error of SlotToCoeff and the rescaling on slots of size up to `Z`, in binary64 -/
noncomputable def stcErrF (n h G : Nat) (D Z : ℝ) : ℝ := 2 * grpErrF n h G 2 1 D Z / D^(n/G) + (h + 1) / 2

/-- the error of the conventional bootstrapping, in binary64 -/
noncomputable def convErrF (n h G : Nat) (C Δ D Z B : ℝ) : ℝ :=
  stcErrF n h G D (B + ctsErrF n h G C Z + modErrF n h G C Δ Z B) + 2 * modErrF n h G C Δ Z B + ctsErrF n h G C Z

/-- the error of the proposed bootstrapping, in binary64 -/
noncomputable def propErrF (n h G : Nat) (C Δ D Z B : ℝ) : ℝ :=
  stcErrF n h G D (25 * Δ + (ctsNoise n h G C + modErrF n h G C Δ Z B)) + 2 * (ctsNoise n h G C + modErrF n h G C Δ Z B)

end EvalRound

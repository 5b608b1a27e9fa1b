import Verif.Spec.FloatBoot

/-! # The errors of the linear transforms in binary64, in the norm of the vector of slots -/

namespace EvalRound

/-- `ltErrF` where `Z` bounds the square root of the sum of the squares of the slots, and the result too -/
noncomputable def ltErr2 (n S : Nat) (h : Nat) (β Δ Z : ℝ) : ℝ :=
  S * (encTol n (β * Δ) * Z + (β * Δ + encTol n (β * Δ)) * (Real.sqrt 2 * 2^n * (8 * 2^(n+1) + (h + 1) / 2)))

/-- the norm of the slots after `d` linear transforms in binary64 that multiply norms by at most `σ`, with entries up to `β` -/
noncomputable def ltSize2 (n S : Nat) (h : Nat) (σ β Δ Z : ℝ) : Nat → ℝ
  | 0 => Z
  | d+1 => Δ * σ * ltSize2 n S h σ β Δ Z d + ltErr2 n S h β Δ (ltSize2 n S h σ β Δ Z d)

/-- the error of grouped transforms, `β` bounds the entries of a group of exact factors and every exact factor multiplies norms by at most
`σ` -/
noncomputable def grpErr2 (n h G : Nat) (σ β Δ Z : ℝ) : ℝ :=
  ltSize2 n (3^G) h (σ^G + Real.sqrt 2 ^ n * matUlp G) (β + matUlp G) Δ Z (n/G) - (Δ * σ^G)^(n/G) * Z

/-! ## bootstrapping, with the notations of `Verif/Spec/Boot.lean`, but `Z` bounds the norm of the vector of slots -/

/-- how far the slots after CoeffToSlot are from the coefficients of the raised ciphertext -/
noncomputable def ctsErr2 (n h G : Nat) (C Z : ℝ) : ℝ := 2 * grpErr2 n h G (Real.sqrt 2 / 2) ((1/2)^G) C Z / C^(n/G)

/-- the error of EvalMod after CoeffToSlot -/
noncomputable def modErr2 (n h G : Nat) (C Δ Z B : ℝ) : ℝ :=
  evalModErrF n h Δ 24 (ctsNoise n h G C) + Δ * (117 * ((B + ctsErr2 n h G C Z) / Δ)^5)

/-- the error of SlotToCoeff and the rescaling on slots each of size up to `X` -/
noncomputable def stcErr2 (n h G : Nat) (D X : ℝ) : ℝ :=
  2 * grpErr2 n h G (Real.sqrt 2) 1 D (Real.sqrt 2 ^ n * X) / (Real.sqrt 2 ^ n * D^(n/G)) + (h + 1) / 2

/-- the error of the conventional bootstrapping -/
noncomputable def convErr2 (n h G : Nat) (C Δ D Z B : ℝ) : ℝ :=
  stcErr2 n h G D (B + ctsErr2 n h G C Z + modErr2 n h G C Δ Z B) + 2 * modErr2 n h G C Δ Z B + ctsErr2 n h G C Z

/-- the error of the proposed bootstrapping -/
noncomputable def propErr2 (n h G : Nat) (C Δ D Z B : ℝ) : ℝ :=
  stcErr2 n h G D (25 * Δ + (ctsNoise n h G C + modErr2 n h G C Δ Z B)) + 2 * (ctsNoise n h G C + modErr2 n h G C Δ Z B)

end EvalRound

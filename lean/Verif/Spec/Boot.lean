import Verif.Proofs.CtS
import Verif.Spec.EvalMod

/-! # Error of bootstrapping

`n` is `LOGN-1`, `h` the weight of the key, `C`, `Δ` and `D` are the scaling factors of CoeffToSlot, EvalMod
and SlotToCoeff, `Z` bounds the slots of the raised ciphertext and `B` the coefficients of the message. -/

namespace EvalRound

/-- how far the slots after CoeffToSlot are from the coefficients of the raised ciphertext -/
noncomputable def ctsErr (n h G : Nat) (C Z : ℝ) : ℝ := 2 * grpErr n h G 1 C Z / C^(n/G)

/-- how far the ciphertexts after CoeffToSlot and rescaling are from a real vector -/
noncomputable def ctsNoise (n h G : Nat) (C : ℝ) : ℝ := ksErr n h / C^(n/G) + rsErr n h

/-- the error of EvalMod after CoeffToSlot -/
noncomputable def modErr (n h G : Nat) (C Δ Z B : ℝ) : ℝ :=
  evalModErr n h Δ 24 (ctsNoise n h G C) + Δ * (117 * ((B + ctsErr n h G C Z) / Δ)^5)

/-- the error of SlotToCoeff and the rescaling on slots of size up to `Z` -/
noncomputable def stcErr (n h G : Nat) (D Z : ℝ) : ℝ := 2 * grpErr n h G 2 D Z / D^(n/G) + (h + 1) / 2

/-- the error of the conventional bootstrapping -/
noncomputable def convErr (n h G : Nat) (C Δ D Z B : ℝ) : ℝ :=
  stcErr n h G D (B + ctsErr n h G C Z + modErr n h G C Δ Z B) + 2 * modErr n h G C Δ Z B + ctsErr n h G C Z

/-- the error of the proposed bootstrapping -/
noncomputable def propErr (n h G : Nat) (C Δ D Z B : ℝ) : ℝ :=
  stcErr n h G D (25 * Δ + (ctsNoise n h G C + modErr n h G C Δ Z B)) + 2 * (ctsNoise n h G C + modErr n h G C Δ Z B)

end EvalRound

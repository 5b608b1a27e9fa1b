import Mathlib.Data.Fin.VecNotation
import Verif.Model.CRT
import Verif.Model.NTT

/-!
# The unit tests test/mod_test.cpp, test/mul_test.cpp, test/crt_test.cpp and test/ntt_test.cpp

Each definition returns the numbers that the program prints.
-/

namespace EvalRound
open Z_Q

/-- `main` of mod_test.cpp:5-12. -/
def modTest : M W := do
  let al : W := 2487277757547979106
  let ah : W := 16209862899231289696
  let q : W := 8471933682407887875
  let expected : W := 3357710663169374592
  let m ← mod al ah q
  pure (expected - m)

/-- `main` of mod_test.cpp:5-12 with the branch of mod.h:6-21. -/
def modTestAsm : M W := do
  let al : W := 2487277757547979106
  let ah : W := 16209862899231289696
  let q : W := 8471933682407887875
  let expected : W := 3357710663169374592
  let m ← mod_asm al ah q
  pure (expected - m)

/-- `main` of mul_test.cpp:5-15. -/
def mulTest : W × W :=
  let a : W := 12473026286576736102
  let b : W := 4953360856192166699
  let lo_expected : W := 9994061768550322210
  let hi_expected : W := 3349284834185960393
  let r := mul_ a b
  (r.1 - lo_expected, r.2 - hi_expected)

/-- The moduli of crt_test.cpp:8-9. -/
def crtTestQ : Fin 5 → W := ![1152921504606847009, 1152921504606847067, 1152921504606847081, 1152921504606847123,
  1152921504606847127]

/-- `a`, crt_test.cpp:13-19. -/
def crtTestA : Z_Q (64*5) := ⟨![2496847982066394524, 6179808641469508490, 4613858499374131512, 14039320798214412288, 0]⟩

/-- `a_rns`, crt_test.cpp:21-25. -/
def crtTestRns : Fin 5 → W := ![171973778066475490, 441363031084368163, 885382643671141350, 1019151257649711462,
  1052569354770772635]

/-- `main` of crt_test.cpp:5-39. -/
def crtTest : M ((Fin 5 → W) × (Fin 5 → W)) := do
  let crt ← CRT.new (64*5) crtTestQ
  let a_rns_measured ← crt.icrt crtTestA
  let a_measured ← crt.crt crtTestRns
  pure (fun i => crtTestRns i - a_rns_measured i, fun i => crtTestA.data i - a_measured.data i)

/-- `main` of ntt_test.cpp:5-16. -/
def nttTest : M (Fin (2^10) → W) := do
  let ntt ← NTT.new (2^10) 1152921504606877697
  let a ← ntt.ntt (fun i => BitVec.ofNat 64 i)
  ntt.intt a

end EvalRound

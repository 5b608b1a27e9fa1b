import Verif.Model.Tests
import Verif.Props.CRT
import Verif.Props.NTT
import Verif.Proofs.Primes

/-!
# C62: the unit tests pass
-/

namespace EvalRound
open Z_Q

/-- Pratt certificates for the moduli of the tests -/
def testCerts : List (Nat × Nat × List (Nat × Nat)) := [
  (3, 2, [(2, 1)]),
  (5, 2, [(2, 2)]),
  (7, 3, [(2, 1), (3, 1)]),
  (11, 2, [(2, 1), (5, 1)]),
  (13, 2, [(2, 2), (3, 1)]),
  (17, 3, [(2, 4)]),
  (23, 5, [(2, 1), (11, 1)]),
  (29, 2, [(2, 2), (7, 1)]),
  (31, 3, [(2, 1), (3, 1), (5, 1)]),
  (37, 2, [(2, 2), (3, 2)]),
  (43, 3, [(2, 1), (3, 1), (7, 1)]),
  (47, 5, [(2, 1), (23, 1)]),
  (53, 2, [(2, 2), (13, 1)]),
  (67, 2, [(2, 1), (3, 1), (11, 1)]),
  (73, 5, [(2, 3), (3, 2)]),
  (89, 3, [(2, 3), (11, 1)]),
  (107, 2, [(2, 1), (53, 1)]),
  (113, 3, [(2, 4), (7, 1)]),
  (137, 3, [(2, 3), (17, 1)]),
  (151, 6, [(2, 1), (3, 1), (5, 2)]),
  (179, 2, [(2, 1), (89, 1)]),
  (181, 2, [(2, 2), (3, 2), (5, 1)]),
  (199, 3, [(2, 1), (3, 2), (11, 1)]),
  (277, 5, [(2, 2), (3, 1), (23, 1)]),
  (293, 2, [(2, 2), (73, 1)]),
  (643, 11, [(2, 1), (3, 1), (107, 1)]),
  (659, 2, [(2, 1), (7, 1), (47, 1)]),
  (683, 5, [(2, 1), (11, 1), (31, 1)]),
  (797, 2, [(2, 2), (199, 1)]),
  (1223, 5, [(2, 1), (13, 1), (47, 1)]),
  (1811, 6, [(2, 1), (5, 1), (181, 1)]),
  (2447, 5, [(2, 1), (1223, 1)]),
  (2971, 10, [(2, 1), (3, 3), (5, 1), (11, 1)]),
  (7717, 2, [(2, 2), (3, 1), (643, 1)]),
  (10837, 2, [(2, 2), (3, 2), (7, 1), (43, 1)]),
  (14683, 3, [(2, 1), (3, 1), (2447, 1)]),
  (19333, 2, [(2, 2), (3, 3), (179, 1)]),
  (30869, 2, [(2, 2), (7717, 1)]),
  (40849, 11, [(2, 4), (3, 1), (23, 1), (37, 1)]),
  (55897, 5, [(2, 3), (3, 1), (17, 1), (137, 1)]),
  (209563, 26, [(2, 1), (3, 1), (53, 1), (659, 1)]),
  (323027, 2, [(2, 1), (11, 1), (14683, 1)]),
  (4923563, 2, [(2, 1), (7, 1), (29, 1), (67, 1), (181, 1)]),
  (6350483, 2, [(2, 1), (293, 1), (10837, 1)]),
  (12700967, 5, [(2, 1), (6350483, 1)]),
  (48912491, 10, [(2, 1), (5, 1), (11, 1), (23, 1), (19333, 1)]),
  (590827561, 34, [(2, 3), (3, 1), (5, 1), (4923563, 1)]),
  (2159164391, 13, [(2, 1), (5, 1), (17, 1), (12700967, 1)]),
  (9453240977, 3, [(2, 4), (590827561, 1)]),
  (9991665401, 17, [(2, 3), (5, 2), (1223, 1), (40849, 1)]),
  (68297419829, 2, [(2, 2), (11, 1), (17, 2), (23, 1), (293, 1), (797, 1)]),
  (196075085817491, 2, [(2, 1), (5, 1), (11, 2), (277, 1), (1811, 1), (323027, 1)]),
  (6334733541795863, 5, [(2, 1), (7, 1), (209563, 1), (2159164391, 1)]),
  (1152921504606847009, 13, [(2, 5), (3, 1), (11, 2), (683, 1), (2971, 1), (48912491, 1)]),
  (1152921504606847067, 6, [(2, 1), (7, 1), (13, 1), (6334733541795863, 1)]),
  (1152921504606847081, 11, [(2, 3), (3, 1), (5, 1), (7, 2), (196075085817491, 1)]),
  (1152921504606847123, 2, [(2, 1), (3, 1), (7, 1), (89, 1), (30869, 1), (9991665401, 1)]),
  (1152921504606847127, 5, [(2, 1), (151, 1), (55897, 1), (68297419829, 1)]),
  (1152921504606877697, 3, [(2, 11), (17, 1), (31, 1), (113, 1), (9453240977, 1)])]

theorem testCerts_prime : ∀ c ∈ testCerts, c.1.Prime :=
  checkCerts_sound (known := [2]) (fun x hx => by rw [List.mem_singleton.1 hx]; exact Nat.prime_two) (by decide +kernel)

theorem test_prime (p : Nat) (h : (testCerts.any fun c => Nat.beq c.1 p) = true) : p.Prime := by
  obtain ⟨c, hc, e⟩ := List.any_eq_true.1 h
  rw [← Nat.eq_of_beq_eq_true e]; exact testCerts_prime c hc

/-- C62: mod_test prints 0, on both branches of mod.h, and mul_test prints two zeros. -/
theorem C62_mod_mul : modTest = pure 0 ∧ modTestAsm = pure 0 ∧ mulTest = (0, 0) := by
  exact ⟨rfl, rfl, by decide +kernel⟩

/-- C62: crt_test prints ten zeros. -/
theorem C62_crt : crtTest = pure (fun _ => 0, fun _ => 0) := by
  have hp : ∀ i, (crtTestQ i).toNat.Prime := by
    intro i
    refine test_prime _ ?_
    revert i; decide +kernel
  have hd : ∀ i j, i ≠ j → crtTestQ i ≠ crtTestQ j := by decide +kernel
  have hd' : ∀ i j, i ≠ j → (crtTestQ i).toNat ≠ (crtTestQ j).toNat := by decide +kernel
  obtain ⟨C, hC, hq, -⟩ := CRT_new_spec (64*5) crtTestQ (by norm_num) hp hd'
  have hA : crtTestA.Canonical := by unfold Canonical; decide +kernel
  have h := C14_roundtrip (LOGQ := 64*5) crtTestQ (by norm_num) hp hd hA (Or.inl (by norm_num)) (by decide +kernel)
  have hi : C.icrt crtTestA = pure crtTestRns := by
    unfold CRT.icrt
    rw [hq, if_neg (by decide +kernel)]
    refine tabM_eq fun i => ?_
    fin_cases i <;> rfl
  rw [hC, pure_bind, hi, pure_bind] at h
  unfold crtTest
  rw [hC, pure_bind, hi, pure_bind, h, pure_bind]
  congr 2 <;> funext i <;> exact BitVec.sub_self _

/-- C62: ntt_test prints the numbers from 0 to 1023. -/
theorem C62_ntt : nttTest = pure (fun i : Fin (2^10) => BitVec.ofNat 64 i) := by
  have h := C13_intt_ntt 10 (by norm_num) (by norm_num) 1152921504606877697 (test_prime _ (by decide +kernel)) (by decide +kernel)
  obtain ⟨T, eT, hT⟩ := h
  obtain ⟨c, ec, hc⟩ := hT (fun i => BitVec.ofNat 64 i)
  unfold nttTest
  rw [eT, pure_bind, ec]
  congr 1
  funext i
  refine BitVec.eq_of_toNat_eq ?_
  rw [hc i]
  have := i.isLt
  show (i.val % 2^64) % 1152921504606877697 = i.val % 2^64
  omega

end EvalRound

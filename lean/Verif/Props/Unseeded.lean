import Verif.Proofs.Draws
import Verif.Props.FloatCode
import Verif.Props.Core

/-!
# C110: runs that read the same random numbers

No program of the repository calls `srand`, so that `rand()` yields the same numbers in every run (C standard 7.22.2.2: as after `srand(1)`). The
messages of the drivers come from another generator. What two runs with the same numbers and different messages have in common:
the key, the mask, the noise.
-/

namespace EvalRound
open Z_Q Finset

section
variable {LOGQ N : Nat} [NeZero LOGQ]

/-- C110: two encryptions under one key with the same random numbers, whatever the previous contents of the ciphertexts: the masks agree, the streams go on in
the same way, and the difference of the first components is the difference of the plaintexts, without any noise. -/
theorem C110_enc (hN : N ≤ 2^30) (RAND_MAX : Nat) (s : Fin N → Int) (pt pt' : R_Q LOGQ N) (ct0 ct0' : R_Q_square LOGQ N) (ω : Rng) :
    Ok (enc RAND_MAX pt s ct0 ω) fun r => Ok (enc RAND_MAX pt' s ct0' ω) fun r' =>
      r'.1.2 = r.1.2 ∧ r'.2 = r.2 ∧ ∀ i, (r'.1.1 i).cls - (r.1.1 i).cls = (pt' i).cls - (pt i).cls := by
  have e : encMask RAND_MAX ct0'.2 ω = encMask RAND_MAX ct0.2 ω := by rw [encMask_eq, encMask_eq]
  unfold enc
  rw [e]
  dsimp only
  obtain ⟨p, hp, -⟩ := convS_spec hN s (encMask RAND_MAX ct0.2 ω).1
  rw [hp, pure_bind, pure_bind]
  refine Ok.pure (Ok.pure ⟨rfl, rfl, fun i => ?_⟩)
  have key : ∀ q : R_Q LOGQ N, ((R_Q.sub (R_Q.copy (R_Q.add (encNoise (encMask RAND_MAX ct0.2 ω).2).1 q)) p) i).cls =
      ((encNoise (encMask RAND_MAX ct0.2 ω).2 : R_Q LOGQ N × Rng).1 i).cls + (q i).cls - (p i).cls := fun q => by
    show R_Q.cls _ i = _
    rw [R_Q.cls_sub, R_Q.copy_eq, R_Q.cls_add]; rfl
  rw [key, key]
  ring

/-- C110: who knows the plaintext of one run gets that of the other from the two ciphertexts, exactly and without the key:
`d = ct'[0]; d -= ct[0]; d += pt;`. -/
theorem C110_recover (hN : N ≤ 2^30) (RAND_MAX : Nat) (s : Fin N → Int) (pt pt' : R_Q LOGQ N) (hpt' : R_Q.Canonical pt') (ct0 ct0' : R_Q_square LOGQ N) (ω : Rng) :
    Ok (enc RAND_MAX pt s ct0 ω) fun r => Ok (enc RAND_MAX pt' s ct0' ω) fun r' => R_Q.add (R_Q.sub r'.1.1 r.1.1) pt = pt' := by
  refine Ok.mono (C110_enc hN RAND_MAX s pt pt' ct0 ct0' ω) fun r h => Ok.mono h fun r' ⟨_, _, h3⟩ => ?_
  refine R_Q.ext_cls (R_Q.canonical_add _ _) hpt' ?_
  rw [R_Q.cls_add, R_Q.cls_sub]
  funext i
  show (r'.1.1 i).cls - (r.1.1 i).cls + (pt i).cls = (pt' i).cls
  rw [h3]; ring

end

/-- C110: two runs of the beginning of the drivers, in binary64, with messages `z` and `z'`: they have the same key, and decoding `d` gives what decoding the plaintext of
`z'` gives, before any noise. -/
theorem C110_run {LOGN LOGQ : Nat} [NeZero LOGQ] {L : Libm} (hL : L.Accurate) (h1 : 2 ≤ LOGN) (h2 : LOGN ≤ 27) (RAND_MAX : Nat) (H : Int) (z z' : CVec LOGN) (Delta : W) (hD : Delta ≠ 0)
    (LOGDELTA : Int) (B : ℝ) (hz : ∀ i : Fin (2^(LOGN-1)), ‖(⟨z.1 i, z.2 i⟩ : ℂ)‖ ≤ B) (hz' : ∀ i : Fin (2^(LOGN-1)), ‖(⟨z'.1 i, z'.2 i⟩ : ℂ)‖ ≤ B)
    (hw : B * Delta.toNat * (1 + 1/2^40) + 2 ≤ 2^64) (hq : B * Delta.toNat * (1 + 1/2^40) + 2 ≤ 2^(LOGQ-1))
    (ct0 ct0' : R_Q_square LOGQ (2^LOGN)) (ω : Rng) (k : (Fin (2^LOGN) → Int) × Rng) (hk : keygen (2^LOGN) H ω = pure k) :
    Ok (do let k ← keygen (2^LOGN) H ω
           let pt ← encodeF L LOGQ z Delta
           let ct ← enc RAND_MAX pt k.1 ct0 k.2
           pure (k.1, pt, ct)) fun r =>
    Ok (do let k ← keygen (2^LOGN) H ω
           let pt ← encodeF L LOGQ z' Delta
           let ct ← enc RAND_MAX pt k.1 ct0' k.2
           pure (k.1, pt, ct)) fun r' =>
      r'.1 = r.1 ∧ r'.2.2.1.2 = r.2.2.1.2 ∧ r'.2.2.2 = r.2.2.2 ∧
      decode_logF L (R_Q.add (R_Q.sub r'.2.2.1.1 r.2.2.1.1) r.2.1) LOGDELTA = decode_logF L r'.2.1 LOGDELTA := by
  have hN : 2^LOGN ≤ 2^30 := Nat.pow_le_pow_right (by norm_num) (by omega)
  obtain ⟨pt, ept, -⟩ := C73_encode hL h1 h2 z Delta hD B hz hw hq
  obtain ⟨pt', ept', m, y, -, hy, -⟩ := C73_encode hL h1 h2 z' Delta hD B hz' hw hq
  obtain ⟨r, er, r', er', h⟩ := C110_recover hN RAND_MAX k.1 pt pt' (fun i => (hy i).1) ct0 ct0' k.2
  obtain ⟨q, eq, q', eq', g1, g2, -⟩ := C110_enc hN RAND_MAX k.1 pt pt' ct0 ct0' k.2
  obtain rfl := pure_inj (er.symm.trans eq)
  obtain rfl := pure_inj (er'.symm.trans eq')
  rw [hk, pure_bind, pure_bind, ept, pure_bind, er, pure_bind, ept', pure_bind, er', pure_bind]
  refine Ok.pure (Ok.pure ⟨rfl, g1, g2, ?_⟩)
  simp only []
  rw [h]

/-! ## cases that meet the hypotheses -/

/-- the shape of the drivers: `N = 2^17`, weight 128, scale `2^50`, modulus `2^60`; `keygen` returns on the stream 0, 1, 2, … -/
example : (∃ k, keygen (2^17) 128 (fun i => i) = pure k) ∧ (1:ℝ) * ((2^50 : W)).toNat * (1 + 1/2^40) + 2 ≤ 2^64 ∧
    (1:ℝ) * ((2^50 : W)).toNat * (1 + 1/2^40) + 2 ≤ 2^(60-1) := by
  refine ⟨?_, ?_, ?_⟩
  · obtain ⟨k, hk, -⟩ := C19_keygen_returns (N := 2^17) 128 (by norm_num) (fun i => i) fun j n =>
      ⟨2^17 * n + j, by omega, by omega⟩
    exact ⟨k, hk⟩
  · rw [show ((2^50 : W)).toNat = 2^50 from by decide]; norm_num
  · rw [show ((2^50 : W)).toNat = 2^50 from by decide]; norm_num

/-- encrypting zero with the same numbers and subtracting shows the plaintext 5 -/
example (s : Fin 8 → Int) (ct0 : R_Q_square 100 8) (ω : Rng) :
    Ok (enc 32767 (R_Q.setzero : R_Q 100 8) s ct0 ω) fun r => Ok (enc 32767 (fun _ => ofNat 100 5) s ct0 ω) fun r' =>
      R_Q.add (R_Q.sub r'.1.1 r.1.1) R_Q.setzero = fun _ => ofNat 100 5 :=
  C110_recover (by norm_num) 32767 s _ _ (fun i => by unfold Z_Q.Canonical; rw [val_ofNat_of_lt (by norm_num)]; norm_num) ct0 ct0 ω

end EvalRound

import Verif.Props.Section3
import Verif.Proofs.FloatFFT
import Verif.Proofs.LinTransSlots

/-!
# C113: decoding simple plaintexts is linear and multiplies norms by sqrt(N/2)/Delta

`Delta ≠ 0` is asked for although the proofs of some theorems do not use it: the code would divide by zero, and the reals of Lean make
that quotient 0 where doubles give infinities or NaN.
-/

namespace EvalRound
open Z_Q Finset

variable {LOGN : Nat}

theorem simple_decode_spec (h1 : 2 ≤ LOGN) (h2 : LOGN ≤ 27) (pt : Fin (2^LOGN) → ℝ) (Delta : W) :
    Ok (Simple.decode pt Delta) fun z => ∀ i : Fin (2^(LOGN-1)), (⟨z.1 i, z.2 i⟩ : ℂ) = slotOf pt i / (Delta.toNat : ℝ) := by
  unfold Simple.decode
  refine Ok.mono (C28_fft h1 h2 _) fun z hz i => ?_
  rw [hz i]
  have h := slotOf_smul pt ((Delta.toNat : ℝ)⁻¹) i
  rw [div_eq_mul_inv, ← Complex.ofReal_inv, ← h]
  rfl

theorem simple_decode_eq (h1 : 2 ≤ LOGN) (h2 : LOGN ≤ 27) {pt : Fin (2^LOGN) → ℝ} {Delta : W} {z : CVec LOGN}
    (h : ∀ i : Fin (2^(LOGN-1)), (⟨z.1 i, z.2 i⟩ : ℂ) = slotOf pt i / (Delta.toNat : ℝ)) : Simple.decode pt Delta = pure z := by
  obtain ⟨z', e, hz⟩ := simple_decode_spec h1 h2 pt Delta
  rw [e]
  congr 1
  exact toC_inj (funext fun i => (hz i).trans (h i).symm)

/-- C113: decoding the sum or the difference of two plaintexts gives the sum or the difference of the decoded messages. -/
theorem C113_add_sub (h1 : 2 ≤ LOGN) (h2 : LOGN ≤ 27) (a b : Fin (2^LOGN) → ℝ) (Delta : W) (_hD : Delta ≠ 0) :
    ∃ za zb : CVec LOGN, Simple.decode a Delta = pure za ∧ Simple.decode b Delta = pure zb ∧
      Simple.decode (Simple.add a b) Delta = pure (Msg.add za zb) ∧
      Simple.decode (Simple.sub a b) Delta = pure (Msg.sub za zb) := by
  obtain ⟨za, ea, ha⟩ := simple_decode_spec h1 h2 a Delta
  obtain ⟨zb, eb, hb⟩ := simple_decode_spec h1 h2 b Delta
  refine ⟨za, zb, ea, eb, simple_decode_eq h1 h2 fun i => ?_, simple_decode_eq h1 h2 fun i => ?_⟩
  · have h : slotOf (Simple.add a b) i = slotOf a i + slotOf b i := slotOf_add a b i
    rw [h, add_div, ← ha, ← hb]
    rfl
  · have h : slotOf (Simple.sub a b) i + slotOf b i = slotOf a i := by
      rw [← slotOf_add]
      congr 1
      exact funext fun k => sub_add_cancel _ _
    rw [eq_sub_of_add_eq h, sub_div, ← ha, ← hb]
    rfl

/-- C113: the product of a plaintext of scale `D1` and one of scale `D2`, decoded with the scale `D1 * D2`, is the product of the
messages, slot by slot. -/
theorem C113_conv (h1 : 2 ≤ LOGN) (h2 : LOGN ≤ 27) (a b : Fin (2^LOGN) → ℝ) (D1 D2 : W)
    (_h1 : D1 ≠ 0) (_h2 : D2 ≠ 0) (hD : D1.toNat * D2.toNat < 2^64) :
    ∃ za zb : CVec LOGN, Simple.decode a D1 = pure za ∧ Simple.decode b D2 = pure zb ∧
      (do
        let c ← Simple.conv a b
        Simple.decode c (D1 * D2)) = pure (Msg.mul za zb) := by
  obtain ⟨za, ea, ha⟩ := simple_decode_spec h1 h2 a D1
  obtain ⟨zb, eb, hb⟩ := simple_decode_spec h1 h2 b D2
  refine ⟨za, zb, ea, eb, ?_⟩
  rw [simple_conv_eq, pure_bind]
  refine simple_decode_eq h1 h2 fun i => ?_
  rw [slotOf_negconv (by positivity), BitVec.toNat_mul, Nat.mod_eq_of_lt hD, Nat.cast_mul, Complex.ofReal_mul, mul_div_mul_comm,
    ← ha, ← hb]
  rfl

theorem msg_norm_decode (h1 : 2 ≤ LOGN) {pt : Fin (2^LOGN) → ℝ} {Delta : W} {z : CVec LOGN}
    (h : ∀ i : Fin (2^(LOGN-1)), (⟨z.1 i, z.2 i⟩ : ℂ) = slotOf pt i / (Delta.toNat : ℝ)) :
    Msg.norm z = Real.sqrt (2^(LOGN-1)) / Delta.toNat * Real.sqrt (∑ k, pt k ^ 2) := by
  obtain ⟨n, rfl⟩ : ∃ n, LOGN = n + 1 := ⟨LOGN - 1, by omega⟩
  rw [C45_norm, ← l2_pairC]
  have hs := slots_l2 (n := n) pt
  have hd : (0:ℝ) ≤ Delta.toNat := by positivity
  have e : ∀ i : Fin (2^n), ‖(⟨z.1 i, z.2 i⟩ : ℂ)‖^2 = ‖slotOf pt i‖^2 / (Delta.toNat:ℝ)^2 := fun i => by
    rw [h i, norm_div, div_pow, Complex.norm_real, Real.norm_of_nonneg hd]
  have e2 : (∑ i : Fin (2^(n+1-1)), ‖(⟨z.1 i, z.2 i⟩ : ℂ)‖^2) = (∑ i : Fin (2^n), ‖slotOf pt i‖^2) / (Delta.toNat:ℝ)^2 := by
    rw [sum_div]
    exact sum_congr rfl fun i _ => e i
  rw [e2, Real.sqrt_div (by positivity), Real.sqrt_sq hd]
  unfold l2 at hs
  rw [hs, Nat.add_sub_cancel, show Real.sqrt (2^n) = Real.sqrt 2 ^ n from by
    rw [Real.sqrt_eq_iff_mul_self_eq (by positivity) (by positivity), ← mul_pow, Real.mul_self_sqrt (by norm_num)]]
  unfold l2
  ring

/-- C113: the norm of the decoded message is `sqrt(N/2)/Delta` times the norm of the plaintext. -/
theorem C113_norm (h1 : 2 ≤ LOGN) (h2 : LOGN ≤ 27) (pt : Fin (2^LOGN) → ℝ) (Delta : W) (_hD : Delta ≠ 0) :
    Ok (Simple.decode pt Delta) fun z => Msg.norm z = Real.sqrt (2^(LOGN-1)) / Delta.toNat * Simple.norm pt := by
  refine Ok.mono (simple_decode_spec h1 h2 pt Delta) fun z hz => ?_
  unfold Simple.norm
  rw [simple_square_sum]
  exact msg_norm_decode h1 hz

/-- C113: `encode_raw` loses nothing, and the norm of what it writes is `Delta/sqrt(N/2)` times the norm of the message. -/
theorem C113_raw (h1 : 2 ≤ LOGN) (h2 : LOGN ≤ 27) (z : CVec LOGN) (Delta : W) (hD : Delta ≠ 0) :
    Ok (Simple.encode_raw z Delta) fun pt => Simple.decode pt Delta = pure z ∧
      Simple.norm pt = Delta.toNat / Real.sqrt (2^(LOGN-1)) * Msg.norm z := by
  have hd : (Delta.toNat : ℝ) ≠ 0 := by
    have : Delta.toNat ≠ 0 := fun h => hD (BitVec.eq_of_toNat_eq h)
    exact_mod_cast this
  obtain ⟨m, em, hs, _⟩ := ifft_slot h1 h2 z (fun _ => 0)
  have e : Simple.encode_raw z Delta = pure (fun k => m k * (Delta.toNat : ℝ)) := by
    unfold Simple.encode_raw
    rw [em, pure_bind]
  have hz : ∀ i : Fin (2^(LOGN-1)), (⟨z.1 i, z.2 i⟩ : ℂ) = slotOf (fun k => m k * (Delta.toNat : ℝ)) i / (Delta.toNat : ℝ) :=
    fun i => by
      rw [slotOf_smul, hs i, mul_div_assoc, div_self (Complex.ofReal_ne_zero.2 hd), mul_one]
  refine ⟨_, e, simple_decode_eq h1 h2 hz, ?_⟩
  have hn := msg_norm_decode h1 hz
  unfold Simple.norm
  rw [simple_square_sum, hn]
  have hq : Real.sqrt (2^(LOGN-1) : ℝ) ≠ 0 := (Real.sqrt_pos.2 (by positivity)).ne'
  generalize Real.sqrt (∑ k, (m k * (Delta.toNat : ℝ)) ^ 2) = y
  field_simp

theorem cround_nearest (x : ℝ) (w : Int) : |(cround x : ℝ) - x| ≤ |(w : ℝ) - x| := by
  by_cases h : w = cround x
  · rw [h]
  · have h1 := cround_err x
    have h2 : (1:ℝ) ≤ |((w - cround x : Int) : ℝ)| := by
      rw [← Int.cast_abs]
      exact_mod_cast Int.one_le_abs (sub_ne_zero.2 h)
    have h3 : |((w - cround x : Int) : ℝ)| ≤ |(w : ℝ) - x| + |(cround x : ℝ) - x| := by
      push_cast
      rw [abs_sub_comm (cround x : ℝ) x]
      exact abs_sub_le _ _ _
    linarith

/-- C113: the rounded encoding is a nearest one. The decoded message is within `N/(2 sqrt 2 Delta)` of the message, and no plaintext
with integer coefficients decodes to a message nearer by. -/
theorem C113_nearest (h1 : 2 ≤ LOGN) (h2 : LOGN ≤ 27) (z : CVec LOGN) (Delta : W) (hD : Delta ≠ 0) :
    ∃ z' : CVec LOGN, (do
        let pt ← Simple.encode z Delta
        Simple.decode pt Delta) = pure z' ∧
      Msg.norm (Msg.sub z' z) ≤ 2^LOGN / (2 * Real.sqrt 2 * Delta.toNat) ∧
      ∀ w : Fin (2^LOGN) → Int, Ok (Simple.decode (fun k => (w k : ℝ)) Delta) fun zw =>
        Msg.norm (Msg.sub z' z) ≤ Msg.norm (Msg.sub zw z) := by
  have hd0 : (0:ℝ) < Delta.toNat := by
    have : 0 < Delta.toNat := Nat.pos_of_ne_zero fun h => hD (BitVec.eq_of_toNat_eq h)
    exact_mod_cast this
  obtain ⟨m, em, hs, _⟩ := ifft_slot h1 h2 z (fun _ => 0)
  have key : ∀ w : Fin (2^LOGN) → ℝ, Ok (Simple.decode w Delta) fun zw => Msg.norm (Msg.sub zw z) =
      Real.sqrt (2^(LOGN-1)) / Delta.toNat * Real.sqrt (∑ k, (w k - m k * Delta.toNat) ^ 2) := fun w => by
    obtain ⟨zw, z0, ew, e0, _, es⟩ := C113_add_sub h1 h2 w (fun k => m k * (Delta.toNat : ℝ)) Delta hD
    have hz : z0 = z := by
      refine pure_inj (e0.symm.trans (simple_decode_eq h1 h2 fun i => ?_))
      rw [slotOf_smul, hs i, mul_div_assoc, div_self (Complex.ofReal_ne_zero.2 hd0.ne'), mul_one]
    rw [hz] at es
    obtain ⟨y, ey, hy⟩ := C113_norm h1 h2 (Simple.sub w (fun k => m k * (Delta.toNat : ℝ))) Delta hD
    refine ⟨zw, ew, ?_⟩
    show Msg.norm (Msg.sub zw z) = _
    rw [pure_inj (es.symm.trans ey), hy]
    unfold Simple.norm
    rw [simple_square_sum]
    rfl
  obtain ⟨z', e', hn⟩ := key fun k => (cround (m k * (Delta.toNat : ℝ)) : ℝ)
  have hc : (0:ℝ) ≤ Real.sqrt (2^(LOGN-1)) / Delta.toNat := by positivity
  refine ⟨z', ?_, ?_, fun w => ?_⟩
  · unfold Simple.encode
    rw [em, pure_bind, pure_bind]
    exact e'
  · rw [hn]
    have hb : (∑ k, ((cround (m k * (Delta.toNat : ℝ)) : ℝ) - m k * Delta.toNat) ^ 2) ≤ 2^LOGN * (1/4) := by
      refine (sum_le_card_nsmul _ _ (1/4 : ℝ) fun k _ => ?_).trans ?_
      · have := cround_err (m k * (Delta.toNat : ℝ))
        rw [← sq_abs]
        nlinarith [abs_nonneg ((cround (m k * (Delta.toNat : ℝ)) : ℝ) - m k * Delta.toNat)]
      · rw [card_univ, Fintype.card_fin, nsmul_eq_mul]
        push_cast
        exact le_rfl
    refine (mul_le_mul_of_nonneg_left (Real.sqrt_le_sqrt hb) hc).trans (le_of_eq ?_)
    obtain ⟨n, rfl⟩ : ∃ n, LOGN = n + 1 := ⟨LOGN - 1, by omega⟩
    rw [Nat.add_sub_cancel, div_mul_eq_mul_div, ← Real.sqrt_mul (by positivity), ← div_div]
    congr 1
    rw [Real.sqrt_eq_iff_mul_self_eq (by positivity) (by positivity), div_mul_div_comm,
      show 2 * Real.sqrt 2 * (2 * Real.sqrt 2) = 4 * (Real.sqrt 2 * Real.sqrt 2) from by ring, Real.mul_self_sqrt (by norm_num)]
    ring
  · refine Ok.mono (key fun k => (w k : ℝ)) fun zw hw => ?_
    rw [hn, hw]
    refine mul_le_mul_of_nonneg_left (Real.sqrt_le_sqrt (sum_le_sum fun k _ => ?_)) hc
    exact sq_le_sq.2 (cround_nearest _ _)

/-- The hypotheses hold at the parameters of the experiments: ring degree 2^15 and scale 2^50. -/
example (z : CVec 15) : ∃ z' : CVec 15, (do
        let pt ← Simple.encode z (BitVec.ofNat 64 (2^50))
        Simple.decode pt (BitVec.ofNat 64 (2^50))) = pure z' ∧
      Msg.norm (Msg.sub z' z) ≤ 2^15 / (2 * Real.sqrt 2 * (BitVec.ofNat 64 (2^50)).toNat) := by
  obtain ⟨z', e, h, _⟩ := C113_nearest (LOGN := 15) (by norm_num) (by norm_num) z (BitVec.ofNat 64 (2^50)) (by decide)
  exact ⟨z', e, h⟩

/-- The product of two plaintexts of scale 2^20 is decoded with the scale 2^40. -/
example (a b : Fin (2^15) → ℝ) : ∃ za zb : CVec 15, Simple.decode a (BitVec.ofNat 64 (2^20)) = pure za ∧
      Simple.decode b (BitVec.ofNat 64 (2^20)) = pure zb ∧
      (do
        let c ← Simple.conv a b
        Simple.decode c (BitVec.ofNat 64 (2^40))) = pure (Msg.mul za zb) :=
  C113_conv (LOGN := 15) (by norm_num) (by norm_num) a b (BitVec.ofNat 64 (2^20)) (BitVec.ofNat 64 (2^20))
    (by decide) (by decide) (by decide)

/-- A plaintext that is not zero: the constant 3 of degree 4 and scale 2 decodes to a message of norm `sqrt 2 / 2 * 3`. -/
example : Ok (Simple.decode (LOGN := 2) (fun k => if k = 0 then 3 else 0) 2) fun z => Msg.norm z = Real.sqrt 2 / 2 * 3 := by
  refine Ok.mono (C113_norm (LOGN := 2) (by norm_num) (by norm_num) _ 2 (by decide)) fun z hz => ?_
  rw [hz]
  unfold Simple.norm
  rw [simple_square_sum]
  have e : (∑ i : Fin (2^2), (if i = 0 then (3:ℝ) else 0) ^ 2) = 3^2 := by
    rw [sum_eq_single (0 : Fin (2^2))]
    · rw [if_pos rfl]
    · intro b _ hb
      rw [if_neg hb]
      norm_num
    · intro h
      exact absurd (mem_univ _) h
  rw [e, Real.sqrt_sq (by norm_num), show ((2 : W).toNat : ℝ) = 2 from by norm_cast]
  norm_num

end EvalRound

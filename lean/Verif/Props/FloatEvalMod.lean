import Verif.Proofs.FloatEvalMod
import Verif.Proofs.FloatBootNum
import Verif.Props.EvalMod

/-!
# C77: `EvalMod` in binary64
-/

namespace EvalRound
open Z_Q Finset

variable {n : Nat}

/-- C77: the 32 constants of `EvalMod`, each rounded to the nearest double, are still the leaves of an evaluation tree of
`cos(3πx)` on `[-1,1]`, up to `2.43·10^-14`. -/
theorem C77_constants (x : ℝ) (hx : |x| ≤ 1) :
    ‖treeVal (arr evalModUF) (x : ℂ) 5 0 - (Real.cos (3 * Real.pi * x) : ℝ)‖ ≤ 243 / 10^16 :=
  tree_cosF hx

/-- C77 at two points: the tree of rounded constants at `1/2`, where `cos(3πx) = 0`, and at `0`, where it is 1. -/
example : ‖treeVal (arr evalModUF) ((1/2 : ℝ) : ℂ) 5 0‖ ≤ 243 / 10^16 ∧ ‖treeVal (arr evalModUF) ((0 : ℝ) : ℂ) 5 0 - 1‖ ≤ 243 / 10^16 := by
  constructor
  · have h := C77_constants (1/2) (by rw [abs_of_pos] <;> norm_num)
    have e : Real.cos (3 * Real.pi * (1/2)) = 0 := by
      rw [show 3 * Real.pi * (1/2) = Real.pi / 2 + Real.pi by ring, Real.cos_add_pi, Real.cos_pi_div_two, neg_zero]
    rwa [e, Complex.ofReal_zero, sub_zero] at h
  · have h := C77_constants 0 (by norm_num)
    rwa [mul_zero, Real.cos_zero, Complex.ofReal_one] at h

section
variable {Q0 Q1 Q2 Q3 Q4 Q5 Q6 Q7 Q8 Q9 Q10 Q11 Q12 : Nat} [NeZero Q0] [NeZero Q1] [NeZero Q2] [NeZero Q3] [NeZero Q4] [NeZero Q5] [NeZero Q6]
  [NeZero Q7] [NeZero Q8] [NeZero Q9] [NeZero Q10] [NeZero Q11] [NeZero Q12]

/-- C77: `EvalMod` with all doubles rounded to binary64, on a ciphertext that decrypts to `2^LOGDELTA * y` up to `ε`, returns a ciphertext that
decrypts to `2^LOGDELTA * (v + v^3/6)/(2π)` with `v = cos(12π(4y-1)/K)`, up to `evalModErrF`. -/
theorem C77_EvalMod (R LOGDELTA : Nat) (hD : LOGDELTA < 62) (hn1 : 1 ≤ n) (hn : n ≤ 16)
    (hC : EvalModChain LOGDELTA Q0 Q1 Q2 Q3 Q4 Q5 Q6 Q7 Q8 Q9 Q10 Q11 Q12)
    (hlo : 65 ≤ Q11) (hhi : Q1 ≤ 1525) (s : Fin (2^(n+1)) → Int) (hs : ∀ k, s k = -1 ∨ s k = 0 ∨ s k = 1)
    (K : Int) (hK : 0 < K) (hK' : 4 * K < 2^31)
    (ct : R_Q_square Q0 (2^(n+1))) (hct : ct.Canonical) (m0 : R_Q Q0 (2^(n+1))) (hm0 : dec ct s = pure m0)
    (y : Fin (2^n) → ℝ) (hy : ∀ i, |(4 * y i - 1) / (4 * K)| ≤ 1) (ε : ℝ)
    (hε : ∀ i, ‖slots n (fun k => (m0 k).sval) i - 2^LOGDELTA * (y i : ℂ)‖ ≤ ε)
    (hw : 2^LOGDELTA / 5 + evalModErrF n (univ.filter fun k => s k ≠ 0).card (2^LOGDELTA) K ε < 2^(Q12-1)) (ω : Rng) :
    Ok (do
      let p ← EvalModKeyF R LOGDELTA K Q1 Q2 Q3 Q4 Q5 Q6 Q7 Q8 Q9 Q10 Q11 Q12 ct s ω
      dec p.1 s) fun m => ∀ i, ‖slots n (fun k => (m k).sval) i -
        2^LOGDELTA * (((Real.cos (12 * Real.pi * (4 * y i - 1) / K) +
          Real.cos (12 * Real.pi * (4 * y i - 1) / K) ^ 3 / 6) / (2 * Real.pi) : ℝ) : ℂ)‖ ≤
          evalModErrF n (univ.filter fun k => s k ≠ 0).card (2^LOGDELTA) K ε := by
  have hs' : Ternary s := hs
  refine Ok.bind (EvalModKeyF_near R hD hn hC hlo hhi hs' hK hK' (near_start hn hs' hct hm0 hε) hy ω) fun p hp => ?_
  refine near_dec (X := 2^LOGDELTA / 5) hn1 hn hs' hp (fun i => ?_) hw
  have h1 := mul_le_mul_of_nonneg_left (asin3_le (Real.abs_cos_le_one (12 * Real.pi * (4 * y i - 1) / K)))
    (show (0:ℝ) ≤ 2^LOGDELTA by positivity)
  rw [norm_mul, norm_pow, Complex.norm_ofNat, Complex.norm_real, Real.norm_eq_abs]
  unfold asin3 at h1
  linarith

/-- C77: with `K = 24`, on a ciphertext of `2^LOGDELTA * (I + e)` with `I` an integer and `-23.75 ≤ I + e ≤ 24.25`,
`EvalMod` returns a ciphertext of `2^LOGDELTA * e`, up to `evalModErrF` and the term of degree five of the arcsine. -/
theorem C77_mod (R LOGDELTA : Nat) (hD : LOGDELTA < 62) (hn1 : 1 ≤ n) (hn : n ≤ 16)
    (hC : EvalModChain LOGDELTA Q0 Q1 Q2 Q3 Q4 Q5 Q6 Q7 Q8 Q9 Q10 Q11 Q12)
    (hlo : 65 ≤ Q11) (hhi : Q1 ≤ 1525) (s : Fin (2^(n+1)) → Int) (hs : ∀ k, s k = -1 ∨ s k = 0 ∨ s k = 1)
    (ct : R_Q_square Q0 (2^(n+1))) (hct : ct.Canonical) (m0 : R_Q Q0 (2^(n+1))) (hm0 : dec ct s = pure m0)
    (I : Fin (2^n) → ℤ) (e : Fin (2^n) → ℝ) (hy : ∀ i, -95/4 ≤ I i + e i ∧ I i + e i ≤ 97/4) (ε : ℝ)
    (hε : ∀ i, ‖slots n (fun k => (m0 k).sval) i - 2^LOGDELTA * ((I i + e i : ℝ) : ℂ)‖ ≤ ε)
    (hw : 2^LOGDELTA / 5 + evalModErrF n (univ.filter fun k => s k ≠ 0).card (2^LOGDELTA) 24 ε < 2^(Q12-1)) (ω : Rng) :
    Ok (do
      let p ← EvalModKeyF R LOGDELTA 24 Q1 Q2 Q3 Q4 Q5 Q6 Q7 Q8 Q9 Q10 Q11 Q12 ct s ω
      dec p.1 s) fun m => ∀ i, ‖slots n (fun k => (m k).sval) i - 2^LOGDELTA * (e i : ℂ)‖ ≤
          evalModErrF n (univ.filter fun k => s k ≠ 0).card (2^LOGDELTA) 24 ε +
            2^LOGDELTA * (3/40 * (2 * Real.pi)^4 * |e i|^5) := by
  have hb : ∀ i, |(4 * (I i + e i) - 1) / (4 * ((24 : ℤ) : ℝ))| ≤ 1 := by
    intro i
    obtain ⟨h1, h2⟩ := hy i
    push_cast
    rw [abs_le]
    constructor
    · rw [le_div_iff₀ (by norm_num)]; linarith
    · rw [div_le_iff₀ (by norm_num)]; linarith
  refine Ok.mono (C77_EvalMod R LOGDELTA hD hn1 hn hC hlo hhi s hs 24 (by norm_num) (by norm_num) ct hct m0 hm0
    (fun i => I i + e i) hb ε hε (by exact_mod_cast hw) ω) fun m hm i => ?_
  have h1 := hm i
  have e1 : Real.cos (12 * Real.pi * (4 * (I i + e i) - 1) / ((24 : ℤ) : ℝ)) = Real.sin (2 * Real.pi * e i) := by
    have : 12 * Real.pi * (4 * ((I i : ℝ) + e i) - 1) / ((24 : ℤ) : ℝ) = (2 * Real.pi * e i - Real.pi / 2) + I i * (2 * Real.pi) := by
      push_cast; ring
    rw [this, Real.cos_add_int_mul_two_pi, Real.cos_sub_pi_div_two]
  rw [e1] at h1
  push_cast at h1 ⊢
  have h2 := asin3_sin (e i)
  have h3 : ‖(2:ℂ)^LOGDELTA * ((asin3 (Real.sin (2 * Real.pi * e i)) : ℝ) : ℂ) - 2^LOGDELTA * (e i : ℂ)‖ ≤
      2^LOGDELTA * (3/40 * (2 * Real.pi)^4 * |e i|^5) := by
    rw [← mul_sub, norm_mul, norm_pow, Complex.norm_ofNat, ← Complex.ofReal_sub, Complex.norm_real]
    exact mul_le_mul_of_nonneg_left h2 (by positivity)
  have h4 := norm_sub_le_norm_sub_add_norm_sub (slots n (fun k => (m k).sval) i)
    ((2:ℂ)^LOGDELTA * ((asin3 (Real.sin (2 * Real.pi * e i)) : ℝ) : ℂ)) (2^LOGDELTA * (e i : ℂ))
  have h5 : ‖slots n (fun k => (m k).sval) i - (2:ℂ)^LOGDELTA * ((asin3 (Real.sin (2 * Real.pi * e i)) : ℝ) : ℂ)‖ ≤
      evalModErrF n (univ.filter fun k => s k ≠ 0).card (2^LOGDELTA) 24 ε := by
    unfold asin3; push_cast; exact h1
  linarith

/-- C77 with the parameters of the drivers (`LOGDELTA_boot = 60`, `K = 24`, at most `2^17` coefficients, at most
192 non-zero coefficients in the key): an input with error at most `2^20` gives an output with error at most
`2^41` besides the term of degree five. -/
theorem C77_drivers (R : Nat) (hn1 : 1 ≤ n) (hn : n ≤ 16) (hC : EvalModChain 60 Q0 Q1 Q2 Q3 Q4 Q5 Q6 Q7 Q8 Q9 Q10 Q11 Q12)
    (hlo : 65 ≤ Q12) (hhi : Q1 ≤ 1525) (s : Fin (2^(n+1)) → Int) (hs : ∀ k, s k = -1 ∨ s k = 0 ∨ s k = 1)
    (hh : (univ.filter fun k => s k ≠ 0).card ≤ 192)
    (ct : R_Q_square Q0 (2^(n+1))) (hct : ct.Canonical) (m0 : R_Q Q0 (2^(n+1))) (hm0 : dec ct s = pure m0)
    (I : Fin (2^n) → ℤ) (e : Fin (2^n) → ℝ) (hy : ∀ i, -95/4 ≤ I i + e i ∧ I i + e i ≤ 97/4)
    (hε : ∀ i, ‖slots n (fun k => (m0 k).sval) i - 2^60 * ((I i + e i : ℝ) : ℂ)‖ ≤ 2^20) (ω : Rng) :
    Ok (do
      let p ← EvalModKeyF R 60 24 Q1 Q2 Q3 Q4 Q5 Q6 Q7 Q8 Q9 Q10 Q11 Q12 ct s ω
      dec p.1 s) fun m => ∀ i, ‖slots n (fun k => (m k).sval) i - 2^60 * (e i : ℂ)‖ ≤
          2^41 + 2^60 * (117 * |e i|^5) := by
  have h1 := evalModErrF_num (n := n) hn hh
  have h2 : (2:ℝ)^64 ≤ 2^(Q12-1) := pow_le_pow_right₀ (by norm_num) (by omega)
  have hC' := hC
  obtain ⟨_, _, _, _, _, _, _, _, _, _, _, h11⟩ := hC'
  refine Ok.mono (C77_mod R 60 (by norm_num) hn1 hn hC (by omega) hhi s hs ct hct m0 hm0 I e hy (2^20) hε ?_ ω) fun m hm i => ?_
  · refine lt_of_lt_of_le (lt_of_le_of_lt (add_le_add_right h1 _) ?_) h2
    norm_num
  · refine (hm i).trans (add_le_add h1 (mul_le_mul_of_nonneg_left (mul_le_mul_of_nonneg_right ?_ (by positivity)) (by positivity)))
    have h3 := Real.pi_lt_d4
    have h4 : (2 * Real.pi)^4 ≤ (2 * 3.1416)^4 := by gcongr
    calc 3/40 * (2 * Real.pi)^4 ≤ 3/40 * (2 * 3.1416)^4 := by gcongr
      _ ≤ 117 := by norm_num

end

/-! ## a concrete case -/

/-- C77 is not vacuous: `LOGDELTA = 60`, moduli `2^785`, …, `2^65`, four coefficients, key `exKey`, a
ciphertext of `3 + 2^-10`; the result is a ciphertext of `2^-10`. -/
example (ω : Rng) : Ok (do
      let p ← EvalModKeyF 7 60 24 725 665 605 545 485 425 365 305 245 185 125 65 (constCt 785 (BitVec.ofNat 64 (3 * 2^60 + 2^50))) exKey ω
      dec p.1 exKey) fun m => ∀ i, ‖slots 1 (fun k => (m k).sval) i - 2^60 * (((2:ℝ)^(-10 : ℤ) : ℝ) : ℂ)‖ ≤
          2^41 + 2^60 * (117 * |(2:ℝ)^(-10 : ℤ)|^5) := by
  obtain ⟨m0, hm0, hsl⟩ := constCt_dec (Q := 785) (by norm_num) (BitVec.ofNat 64 (3 * 2^60 + 2^50))
  have hcard : (univ.filter fun k => exKey k ≠ 0).card = 2 := by decide
  refine C77_drivers (Q0 := 785) 7 (le_refl 1) (by norm_num) (by unfold EvalModChain; norm_num) (by norm_num) (by norm_num)
    exKey exKey_tern (by rw [hcard]; norm_num) _ (constCt_canonical (by norm_num) _) m0 hm0 (fun _ => 3)
    (fun _ => (2:ℝ)^(-10 : ℤ)) (fun i => by constructor <;> norm_num) (fun i => ?_) ω
  rw [hsl i]
  have e : (BitVec.ofNat 64 (3 * 2^60 + 2^50)).toNat = 3 * 2^60 + 2^50 := rfl
  rw [e]
  norm_num

end EvalRound

import Verif.Proofs.EvalMod
import Verif.Proofs.EvalModNum

/-!
# C48, C49, C50: `EvalMod`
-/

namespace EvalRound
open Z_Q Finset

variable {n : Nat}

/-! ## C48: what `EvalMod` computes -/

/-- C48: the 32 constants of `EvalMod` are the leaves of an evaluation tree of `cos(3πx)` on `[-1,1]`,
up to `2.33·10^-14`. -/
theorem C48_constants (x : ℝ) (hx : |x| ≤ 1) :
    ‖treeVal (arr evalModU) (x : ℂ) 5 0 - (Real.cos (3 * Real.pi * x) : ℝ)‖ ≤ 233 / 10^16 :=
  tree_cos_sharp hx

/-- C48 is not vacuous: at `x = 1/2` the polynomial of the constants has modulus at most `2.33·10^-14`, at
`x = 0` it is close to 1. -/
example : ‖treeVal (arr evalModU) ((1/2 : ℝ) : ℂ) 5 0‖ ≤ 233 / 10^16 ∧ ‖treeVal (arr evalModU) ((0 : ℝ) : ℂ) 5 0 - 1‖ ≤ 233 / 10^16 := by
  constructor
  · have h := C48_constants (1/2) (by rw [abs_of_pos] <;> norm_num)
    have e : Real.cos (3 * Real.pi * (1/2)) = 0 := by
      rw [show 3 * Real.pi * (1/2) = Real.pi / 2 + Real.pi by ring, Real.cos_add_pi, Real.cos_pi_div_two, neg_zero]
    rwa [e, Complex.ofReal_zero, sub_zero] at h
  · have h := C48_constants 0 (by norm_num)
    rwa [mul_zero, Real.cos_zero, Complex.ofReal_one] at h

theorem asin3_le {v : ℝ} (hv : |v| ≤ 1) : |asin3 v| ≤ 1/5 := by
  have hpi := Real.pi_gt_three
  unfold asin3
  rw [abs_div, abs_of_pos (show 0 < 2 * Real.pi by positivity), div_le_iff₀ (by positivity)]
  have h3 : |v^3 / 6| ≤ 1/6 := by
    rw [abs_div, abs_pow, abs_of_pos (show (0:ℝ) < 6 by norm_num)]
    exact div_le_div_of_nonneg_right (pow_le_one₀ (abs_nonneg _) hv) (by norm_num)
  have := abs_add_le v (v^3/6)
  linarith

/-- decryption of a ciphertext that holds `x` up to `e` -/
theorem near_dec {Q : Nat} [NeZero Q] (hn1 : 1 ≤ n) (hn : n ≤ 16) {s : Fin (2^(n+1)) → Int} (hs : Ternary s)
    {p : R_Q_square Q (2^(n+1))} {x : Fin (2^n) → ℂ} {X e : ℝ} (hp : Near s p x e) (hx : ∀ i, ‖x i‖ ≤ X)
    (hw : X + e < 2^(Q-1)) : Ok (dec p s) fun m => ∀ i, ‖slots n (fun k => (m k).sval) i - x i‖ ≤ e := by
  obtain ⟨_, w, hw1, hw2⟩ := hp
  refine Ok.mono (dec_lift hn1 hn hs hw1) fun m ⟨_, hm⟩ i => ?_
  have h3 := hm (X + e) (fun i => ?_) hw
  · rw [h3]; exact hw2 i
  · have g1 := norm_sub_norm_le (slots n w i) (x i)
    have g2 := hw2 i
    have g3 := hx i
    linarith

section
variable {Q0 Q1 Q2 Q3 Q4 Q5 Q6 Q7 Q8 Q9 Q10 Q11 Q12 : Nat} [NeZero Q0] [NeZero Q1] [NeZero Q2] [NeZero Q3] [NeZero Q4] [NeZero Q5] [NeZero Q6]
  [NeZero Q7] [NeZero Q8] [NeZero Q9] [NeZero Q10] [NeZero Q11] [NeZero Q12]

/-- C48: `EvalMod`, on a ciphertext that decrypts to `2^LOGDELTA * y` up to `ε`, returns a ciphertext that
decrypts to `2^LOGDELTA * (v + v^3/6)/(2π)` with `v = cos(12π(4y-1)/K)`, up to `evalModErr`. -/
theorem C48_EvalMod (R LOGDELTA : Nat) (hD : LOGDELTA < 62) (hn1 : 1 ≤ n) (hn : n ≤ 16)
    (hC : EvalModChain LOGDELTA Q0 Q1 Q2 Q3 Q4 Q5 Q6 Q7 Q8 Q9 Q10 Q11 Q12)
    (hlo : 65 ≤ Q11) (hhi : Q1 ≤ 1525) (s : Fin (2^(n+1)) → Int) (hs : ∀ k, s k = -1 ∨ s k = 0 ∨ s k = 1)
    (K : Int) (hK : 0 < K) (hK' : 4 * K < 2^31)
    (ct : R_Q_square Q0 (2^(n+1))) (hct : ct.Canonical) (m0 : R_Q Q0 (2^(n+1))) (hm0 : dec ct s = pure m0)
    (y : Fin (2^n) → ℝ) (hy : ∀ i, |(4 * y i - 1) / (4 * K)| ≤ 1) (ε : ℝ)
    (hε : ∀ i, ‖slots n (fun k => (m0 k).sval) i - 2^LOGDELTA * (y i : ℂ)‖ ≤ ε)
    (hw : 2^LOGDELTA / 5 + evalModErr n (univ.filter fun k => s k ≠ 0).card (2^LOGDELTA) K ε < 2^(Q12-1)) (ω : Rng) :
    Ok (do
      let p ← EvalModKey R LOGDELTA K Q1 Q2 Q3 Q4 Q5 Q6 Q7 Q8 Q9 Q10 Q11 Q12 ct s ω
      dec p.1 s) fun m => ∀ i, ‖slots n (fun k => (m k).sval) i -
        2^LOGDELTA * (((Real.cos (12 * Real.pi * (4 * y i - 1) / K) +
          Real.cos (12 * Real.pi * (4 * y i - 1) / K) ^ 3 / 6) / (2 * Real.pi) : ℝ) : ℂ)‖ ≤
          evalModErr n (univ.filter fun k => s k ≠ 0).card (2^LOGDELTA) K ε := by
  have hs' : Ternary s := hs
  refine Ok.bind (EvalModKey_near R hD hn hC hlo hhi hs' hK hK' (near_start hn hs' hct hm0 hε) hy ω) fun p hp => ?_
  refine near_dec (X := 2^LOGDELTA / 5) hn1 hn hs' hp (fun i => ?_) hw
  have h1 := mul_le_mul_of_nonneg_left (asin3_le (Real.abs_cos_le_one (12 * Real.pi * (4 * y i - 1) / K)))
    (show (0:ℝ) ≤ 2^LOGDELTA by positivity)
  rw [norm_mul, norm_pow, Complex.norm_ofNat, Complex.norm_real, Real.norm_eq_abs]
  unfold asin3 at h1
  linarith

/-! ## C49: reduction modulo `q` -/

/-- C49: with `K = 24`, on a ciphertext of `2^LOGDELTA * (I + e)` with `I` an integer and `-23.75 ≤ I + e ≤ 24.25`,
`EvalMod` returns a ciphertext of `2^LOGDELTA * e`, up to `evalModErr` and the term of degree five of the arcsine. -/
theorem C49_mod (R LOGDELTA : Nat) (hD : LOGDELTA < 62) (hn1 : 1 ≤ n) (hn : n ≤ 16)
    (hC : EvalModChain LOGDELTA Q0 Q1 Q2 Q3 Q4 Q5 Q6 Q7 Q8 Q9 Q10 Q11 Q12)
    (hlo : 65 ≤ Q11) (hhi : Q1 ≤ 1525) (s : Fin (2^(n+1)) → Int) (hs : ∀ k, s k = -1 ∨ s k = 0 ∨ s k = 1)
    (ct : R_Q_square Q0 (2^(n+1))) (hct : ct.Canonical) (m0 : R_Q Q0 (2^(n+1))) (hm0 : dec ct s = pure m0)
    (I : Fin (2^n) → ℤ) (e : Fin (2^n) → ℝ) (hy : ∀ i, -95/4 ≤ I i + e i ∧ I i + e i ≤ 97/4) (ε : ℝ)
    (hε : ∀ i, ‖slots n (fun k => (m0 k).sval) i - 2^LOGDELTA * ((I i + e i : ℝ) : ℂ)‖ ≤ ε)
    (hw : 2^LOGDELTA / 5 + evalModErr n (univ.filter fun k => s k ≠ 0).card (2^LOGDELTA) 24 ε < 2^(Q12-1)) (ω : Rng) :
    Ok (do
      let p ← EvalModKey R LOGDELTA 24 Q1 Q2 Q3 Q4 Q5 Q6 Q7 Q8 Q9 Q10 Q11 Q12 ct s ω
      dec p.1 s) fun m => ∀ i, ‖slots n (fun k => (m k).sval) i - 2^LOGDELTA * (e i : ℂ)‖ ≤
          evalModErr n (univ.filter fun k => s k ≠ 0).card (2^LOGDELTA) 24 ε +
            2^LOGDELTA * (3/40 * (2 * Real.pi)^4 * |e i|^5) := by
  have hb : ∀ i, |(4 * (I i + e i) - 1) / (4 * ((24 : ℤ) : ℝ))| ≤ 1 := by
    intro i
    obtain ⟨h1, h2⟩ := hy i
    push_cast
    rw [abs_le]
    constructor
    · rw [le_div_iff₀ (by norm_num)]; linarith
    · rw [div_le_iff₀ (by norm_num)]; linarith
  refine Ok.mono (C48_EvalMod R LOGDELTA hD hn1 hn hC hlo hhi s hs 24 (by norm_num) (by norm_num) ct hct m0 hm0
    (fun i => I i + e i) hb ε hε (by exact_mod_cast hw) ω) fun m hm i => ?_
  have h1 := hm i
  have e1 : Real.cos (12 * Real.pi * (4 * (I i + e i) - 1) / ((24 : ℤ) : ℝ)) = Real.sin (2 * Real.pi * e i) := by
    have : 12 * Real.pi * (4 * ((I i : ℝ) + e i) - 1) / ((24 : ℤ) : ℝ) = (2 * Real.pi * e i - Real.pi / 2) + I i * (2 * Real.pi) := by
      push_cast; ring
    rw [this, Real.cos_add_int_mul_two_pi, Real.cos_sub_pi_div_two]
  rw [e1] at h1
  push_cast at h1 ⊢
  have h2 := asin3_sin (e i)
  have h3 : ‖(2:ℂ)^LOGDELTA * ((asin3 (Real.sin (2 * Real.pi * e i)) : ℝ) : ℂ) - 2^LOGDELTA * (e i : ℂ)‖ ≤
      2^LOGDELTA * (3/40 * (2 * Real.pi)^4 * |e i|^5) := by
    rw [← mul_sub, norm_mul, norm_pow, Complex.norm_ofNat, ← Complex.ofReal_sub, Complex.norm_real]
    exact mul_le_mul_of_nonneg_left h2 (by positivity)
  have h4 := norm_sub_le_norm_sub_add_norm_sub (slots n (fun k => (m k).sval) i)
    ((2:ℂ)^LOGDELTA * ((asin3 (Real.sin (2 * Real.pi * e i)) : ℝ) : ℂ)) (2^LOGDELTA * (e i : ℂ))
  have h5 : ‖slots n (fun k => (m k).sval) i - (2:ℂ)^LOGDELTA * ((asin3 (Real.sin (2 * Real.pi * e i)) : ℝ) : ℂ)‖ ≤
      evalModErr n (univ.filter fun k => s k ≠ 0).card (2^LOGDELTA) 24 ε := by
    unfold asin3; push_cast; exact h1
  linarith

/-- C49 with the parameters of the drivers (`LOGDELTA_boot = 60`, `K = 24`, at most `2^17` coefficients, at most
192 non-zero coefficients in the key): an input with error at most `2^20` gives an output with error at most
`2^41` besides the term of degree five. -/
theorem C49_drivers (R : Nat) (hn1 : 1 ≤ n) (hn : n ≤ 16) (hC : EvalModChain 60 Q0 Q1 Q2 Q3 Q4 Q5 Q6 Q7 Q8 Q9 Q10 Q11 Q12)
    (hlo : 65 ≤ Q12) (hhi : Q1 ≤ 1525) (s : Fin (2^(n+1)) → Int) (hs : ∀ k, s k = -1 ∨ s k = 0 ∨ s k = 1)
    (hh : (univ.filter fun k => s k ≠ 0).card ≤ 192)
    (ct : R_Q_square Q0 (2^(n+1))) (hct : ct.Canonical) (m0 : R_Q Q0 (2^(n+1))) (hm0 : dec ct s = pure m0)
    (I : Fin (2^n) → ℤ) (e : Fin (2^n) → ℝ) (hy : ∀ i, -95/4 ≤ I i + e i ∧ I i + e i ≤ 97/4)
    (hε : ∀ i, ‖slots n (fun k => (m0 k).sval) i - 2^60 * ((I i + e i : ℝ) : ℂ)‖ ≤ 2^20) (ω : Rng) :
    Ok (do
      let p ← EvalModKey R 60 24 Q1 Q2 Q3 Q4 Q5 Q6 Q7 Q8 Q9 Q10 Q11 Q12 ct s ω
      dec p.1 s) fun m => ∀ i, ‖slots n (fun k => (m k).sval) i - 2^60 * (e i : ℂ)‖ ≤
          2^41 + 2^60 * (117 * |e i|^5) := by
  have h1 := evalModErr_num (ε := 2^20) hn hh (by positivity) le_rfl
  have h2 : (2:ℝ)^64 ≤ 2^(Q12-1) := pow_le_pow_right₀ (by norm_num) (by omega)
  have hC' := hC
  obtain ⟨_, _, _, _, _, _, _, _, _, _, _, h11⟩ := hC'
  refine Ok.mono (C49_mod R 60 (by norm_num) hn1 hn hC (by omega) hhi s hs ct hct m0 hm0 I e hy (2^20) hε ?_ ω) fun m hm i => ?_
  · refine lt_of_lt_of_le (lt_of_le_of_lt (add_le_add_right h1 _) ?_) h2
    norm_num
  · refine (hm i).trans (add_le_add h1 (mul_le_mul_of_nonneg_left (mul_le_mul_of_nonneg_right ?_ (by positivity)) (by positivity)))
    have h3 := Real.pi_lt_d4
    have h4 : (2 * Real.pi)^4 ≤ (2 * 3.1416)^4 := by gcongr
    calc 3/40 * (2 * Real.pi)^4 ≤ 3/40 * (2 * 3.1416)^4 := by gcongr
      _ ≤ 117 := by norm_num

/-! ## C50: the value of `K` -/

/-- C50: `EvalMod` with `K = 12` on a ciphertext of zero returns a ciphertext of about `-0.186 * 2^LOGDELTA`. -/
theorem C50_twelve (R : Nat) (hn1 : 1 ≤ n) (hn : n ≤ 16) (LOGDELTA : Nat) (hD : LOGDELTA < 62)
    (hC : EvalModChain LOGDELTA Q0 Q1 Q2 Q3 Q4 Q5 Q6 Q7 Q8 Q9 Q10 Q11 Q12)
    (hlo : 65 ≤ Q11) (hhi : Q1 ≤ 1525) (s : Fin (2^(n+1)) → Int) (hs : ∀ k, s k = -1 ∨ s k = 0 ∨ s k = 1)
    (ct : R_Q_square Q0 (2^(n+1))) (hct : ct.Canonical) (m0 : R_Q Q0 (2^(n+1))) (hm0 : dec ct s = pure m0) (ε : ℝ)
    (hε : ∀ i, ‖slots n (fun k => (m0 k).sval) i‖ ≤ ε)
    (hw : 2^LOGDELTA / 5 + evalModErr n (univ.filter fun k => s k ≠ 0).card (2^LOGDELTA) 12 ε < 2^(Q12-1)) (ω : Rng) :
    Ok (do
      let p ← EvalModKey R LOGDELTA 12 Q1 Q2 Q3 Q4 Q5 Q6 Q7 Q8 Q9 Q10 Q11 Q12 ct s ω
      dec p.1 s) fun m => ∀ i, ‖slots n (fun k => (m k).sval) i + 2^LOGDELTA * (7 / (12 * Real.pi) : ℝ)‖ ≤
          evalModErr n (univ.filter fun k => s k ≠ 0).card (2^LOGDELTA) 12 ε := by
  refine Ok.mono (C48_EvalMod R LOGDELTA hD hn1 hn hC hlo hhi s hs 12 (by norm_num) (by norm_num) ct hct m0 hm0
    (fun _ => 0) (fun i => by norm_num [abs_le]) ε (fun i => by
      rw [Complex.ofReal_zero, mul_zero, sub_zero]; exact hε i) (by exact_mod_cast hw) ω) fun m hm i => ?_
  have h1 := hm i
  have e1 : Real.cos (12 * Real.pi * (4 * 0 - 1) / ((12 : ℤ) : ℝ)) = -1 := by
    rw [← Real.cos_pi, ← Real.cos_neg]
    congr 1
    push_cast; ring
  rw [e1] at h1
  have e2 : ((-1 + (-1)^3/6) / (2 * Real.pi) : ℝ) = -(7 / (12 * Real.pi)) := by
    have := Real.pi_pos
    field_simp; norm_num
  rw [e2, Complex.ofReal_neg, mul_neg, sub_neg_eq_add] at h1
  exact_mod_cast h1

end

/-! ## a concrete case -/

/-- the ciphertext with first component the constant polynomial `w` and second component zero -/
def constCt (Q : Nat) [NeZero Q] (w : W) : R_Q_square Q (2^(1+1)) :=
  (Function.update R_Q.setzero 0 (ofW w), R_Q.setzero)

theorem constCt_canonical {Q : Nat} [NeZero Q] (hQ : 64 ≤ Q) (w : W) : (constCt Q w).Canonical := by
  refine ⟨fun k => ?_, fun k => canonical_setzero⟩
  unfold constCt
  simp only [Function.update_apply]
  split_ifs
  · exact ofW_canonical hQ _
  · exact canonical_setzero

theorem constCt_dec {Q : Nat} [NeZero Q] (hQ : 66 ≤ Q) (w : W) :
    ∃ m0, dec (constCt Q w) exKey = pure m0 ∧ ∀ i, slots 1 (fun k => (m0 k).sval) i = (w.toNat : ℂ) := by
  obtain ⟨m0, h, _, hc⟩ := dec_spec (by norm_num) exKey_tern (constCt Q w)
  refine ⟨m0, h, fun i => ?_⟩
  have hw : (w.toNat : ℤ) < 2^64 := by exact_mod_cast w.isLt
  have hp : (2:ℤ)^64 ≤ 2^(Q-1) := pow_le_pow_right₀ (by norm_num) (by omega)
  have hp0 : (0:ℤ) < 2^(Q-1) := by positivity
  have e : (fun k => (m0 k).sval) = Pi.single 0 (w.toNat : ℤ) := by
    funext k
    refine sval_eq_of_cls ?_ ?_ ?_
    · have h1 := congrFun hc k
      rw [phase_eq] at h1
      have h2 : R_Q.cls (constCt Q w).2 = 0 := R_Q.cls_setzero
      have h3 : negconv (red Q exKey) (0 : Fin (2^(1+1)) → ZMod (2^Q)) = 0 := by
        have := negconv_add (red Q exKey) 0 0
        rw [add_zero] at this
        exact left_eq_add.1 this
      rw [h2, h3, add_zero] at h1
      refine Eq.trans h1 ?_
      unfold constCt
      simp only [R_Q.cls, Function.update_apply]
      by_cases hk : k = 0
      · subst hk
        rw [if_pos rfl, cls_ofW, Pi.single_eq_same]
        push_cast; rfl
      · rw [if_neg hk, Pi.single_eq_of_ne hk]
        simp [R_Q.setzero, cls_setzero]
    · by_cases hk : k = 0
      · subst hk; rw [Pi.single_eq_same]; linarith [Int.natCast_nonneg w.toNat]
      · rw [Pi.single_eq_of_ne hk]; linarith
    · by_cases hk : k = 0
      · subst hk; rw [Pi.single_eq_same]; linarith
      · rw [Pi.single_eq_of_ne hk]; linarith
  rw [e, slots_single]
  push_cast; rfl

/-- C48, C49 are not vacuous: `LOGDELTA = 60`, moduli `2^785`, …, `2^65`, four coefficients, key `exKey`, a
ciphertext of `3 + 2^-10`; the result is a ciphertext of `2^-10`. -/
example (ω : Rng) : Ok (do
      let p ← EvalModKey 7 60 24 725 665 605 545 485 425 365 305 245 185 125 65 (constCt 785 (BitVec.ofNat 64 (3 * 2^60 + 2^50))) exKey ω
      dec p.1 exKey) fun m => ∀ i, ‖slots 1 (fun k => (m k).sval) i - 2^60 * (((2:ℝ)^(-10 : ℤ) : ℝ) : ℂ)‖ ≤
          2^41 + 2^60 * (117 * |(2:ℝ)^(-10 : ℤ)|^5) := by
  obtain ⟨m0, hm0, hsl⟩ := constCt_dec (Q := 785) (by norm_num) (BitVec.ofNat 64 (3 * 2^60 + 2^50))
  have hcard : (univ.filter fun k => exKey k ≠ 0).card = 2 := by decide
  refine C49_drivers (Q0 := 785) 7 (le_refl 1) (by norm_num) (by unfold EvalModChain; norm_num) (by norm_num) (by norm_num)
    exKey exKey_tern (by rw [hcard]; norm_num) _ (constCt_canonical (by norm_num) _) m0 hm0 (fun _ => 3)
    (fun _ => (2:ℝ)^(-10 : ℤ)) (fun i => by constructor <;> norm_num) (fun i => ?_) ω
  rw [hsl i]
  have e : (BitVec.ofNat 64 (3 * 2^60 + 2^50)).toNat = 3 * 2^60 + 2^50 := rfl
  rw [e]
  norm_num

/-- C50: the function that `EvalMod` approximates is the reduction modulo 1 near 0 only for `K = 24`. -/
theorem C50_only (K : Int) (hK : 0 < K)
    (h : ∀ e : ℝ, |e| ≤ 1/100 → |(Real.cos (12 * Real.pi * (4 * e - 1) / K) +
      Real.cos (12 * Real.pi * (4 * e - 1) / K) ^ 3 / 6) / (2 * Real.pi) - e| ≤ 3/40 * (2 * Real.pi)^4 * |e|^5) : K = 24 := by
  have hpi := Real.pi_pos
  have hKr : (0:ℝ) < K := by exact_mod_cast hK
  have h0 := h 0 (by norm_num)
  rw [abs_zero, sub_zero, zero_pow (by norm_num), mul_zero (3 / 40 * (2 * Real.pi)^4)] at h0
  have h1 := abs_nonpos_iff.1 h0
  have h2 : Real.cos (12 * Real.pi * (4 * 0 - 1) / K) = 0 := by
    rw [div_eq_zero_iff] at h1
    rcases h1 with h1 | h1
    · have : Real.cos (12 * Real.pi * (4 * 0 - 1) / K) * (1 + Real.cos (12 * Real.pi * (4 * 0 - 1) / K)^2/6) = 0 := by
        linarith
      rcases mul_eq_zero.1 this with h3 | h3
      · exact h3
      · have := sq_nonneg (Real.cos (12 * Real.pi * (4 * 0 - 1) / K)); linarith
    · linarith
  obtain ⟨m, hm⟩ := Real.cos_eq_zero_iff.1 h2
  have h3 : (-24 : ℝ) = (2 * m + 1) * K := by
    have : 12 * Real.pi * (4 * 0 - 1) = (2 * m + 1) * Real.pi / 2 * K := by
      rw [div_eq_iff hKr.ne'] at hm; exact hm
    have e : Real.pi * (-24) = Real.pi * ((2 * m + 1) * K) := by linarith
    exact mul_left_cancel₀ hpi.ne' e
  have h4 : (-24 : ℤ) = (2 * m + 1) * K := by exact_mod_cast h3
  have hKd : K ∣ 24 := by
    have : K ∣ -24 := ⟨2 * m + 1, by rw [h4]; ring⟩
    simpa using this
  have hle : K ≤ 24 := Int.le_of_dvd (by norm_num) hKd
  have hK8 : K = 8 ∨ K = 24 := by
    interval_cases K <;> omega
  rcases hK8 with rfl | rfl
  · exfalso
    have h5 := h (1/100) (by norm_num [abs_of_pos])
    have e1 : Real.cos (12 * Real.pi * (4 * (1/100) - 1) / ((8 : ℤ) : ℝ)) = -Real.sin (6 * Real.pi / 100) := by
      have : 12 * Real.pi * (4 * (1/100) - 1) / ((8 : ℤ) : ℝ) = (6 * Real.pi / 100 + Real.pi / 2) - 2 * Real.pi := by
        push_cast; ring
      rw [this, Real.cos_sub_two_pi, Real.cos_add_pi_div_two]
    rw [e1] at h5
    have hs : 0 ≤ Real.sin (6 * Real.pi / 100) := Real.sin_nonneg_of_nonneg_of_le_pi (by positivity) (by linarith)
    have h6 : (-Real.sin (6 * Real.pi / 100) + (-Real.sin (6 * Real.pi / 100))^3 / 6) / (2 * Real.pi) ≤ 0 := by
      apply div_nonpos_of_nonpos_of_nonneg _ (by positivity)
      have : 0 ≤ Real.sin (6 * Real.pi / 100)^3 := pow_nonneg hs 3
      nlinarith [this]
    rw [abs_of_nonpos (by linarith), abs_of_pos (by norm_num)] at h5
    have h7 : (2 * Real.pi)^4 ≤ (2 * 4)^4 := by
      have := Real.pi_le_four
      gcongr
    have h8 : 3/40 * (2 * Real.pi)^4 * (1/100 : ℝ)^5 ≤ 3/40 * (2*4)^4 * (1/100)^5 := by gcongr
    norm_num at h8 h5
    linarith
  · rfl

/-- C50 is not vacuous: `K = 24` does satisfy the hypothesis. -/
theorem C50_exists (e : ℝ) : |(Real.cos (12 * Real.pi * (4 * e - 1) / ((24 : ℤ) : ℝ)) +
      Real.cos (12 * Real.pi * (4 * e - 1) / ((24 : ℤ) : ℝ)) ^ 3 / 6) / (2 * Real.pi) - e| ≤ 3/40 * (2 * Real.pi)^4 * |e|^5 := by
  have e1 : Real.cos (12 * Real.pi * (4 * e - 1) / ((24 : ℤ) : ℝ)) = Real.sin (2 * Real.pi * e) := by
    have : 12 * Real.pi * (4 * e - 1) / ((24 : ℤ) : ℝ) = 2 * Real.pi * e - Real.pi / 2 := by push_cast; ring
    rw [this, Real.cos_sub_pi_div_two]
  rw [e1]
  exact asin3_sin e

end EvalRound

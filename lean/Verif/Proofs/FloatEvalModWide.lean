import Verif.Proofs.EvalModWide
import Verif.Proofs.FloatEvalMod

/-! # `EvalMod` in binary64 with scale `2^60` and `K = 24` on messages up to `24.5` -/

namespace EvalRound
open Z_Q Finset

variable {n : Nat}

theorem tree_cosF_wide {x : ℝ} (hx : |x| ≤ 733/725) :
    ‖treeVal (arr evalModUF) (x : ℂ) 5 0 - (Real.cos (3 * Real.pi * x) : ℝ)‖ ≤ 2 / 10^12 := by
  have h1 := tree_cos_wide' hx
  have h2 : ‖treeVal (arr evalModUF) (x : ℂ) 5 0 - treeVal (arr evalModU) (x : ℂ) 5 0‖ ≤ 13/10^15 := by
    rw [treeVal_sub]
    have e : (fun i => arr evalModUF i - arr evalModU i) = arr fun i => evalModUF i - evalModU i := by
      funext i; unfold arr; split <;> simp
    rw [e]
    refine (treeVal_wide _ hx 5 0).trans ?_
    have h3 : ∑ i ∈ range (2^5), |arr (fun i => evalModUF i - evalModU i) (2^5 * 0 + i)| ≤ 1/10^15 := by
      simp only [mul_zero, zero_add]
      have := arr_sum (u := fun i => evalModUF i - evalModU i)
      exact this.le.trans evalModUF_sub
    have h4 : ∏ i ∈ range 5, wB i ≤ 13 := by
      simp only [prod_range_succ, range_zero, prod_empty]; unfold wB; norm_num
    calc _ ≤ 13 * (1/10^15) := mul_le_mul h4 h3 (sum_nonneg fun _ _ => abs_nonneg _) (by norm_num)
      _ = 13 / 10^15 := by norm_num
  have h3 := norm_sub_le_norm_sub_add_norm_sub (treeVal (arr evalModUF) (x : ℂ) 5 0) (treeVal (arr evalModU) (x : ℂ) 5 0)
    ((Real.cos (3 * Real.pi * x) : ℝ) : ℂ)
  refine h3.trans ((add_le_add h2 h1).trans (by norm_num))

section
variable {LF LT : Nat} [NeZero LF] [NeZero LT]

theorem startF_wide (hL : LF = LT + 60) {s : Fin (2^(n+1)) → Int} (hs : Ternary s)
    {ct : R_Q_square LF (2^(n+1))} {y : Fin (2^n) → ℝ} {ε E : ℝ}
    (hct : Near s ct (fun i => 2^60 * (y i : ℂ)) ε) (hy : ∀ i, |(4 * y i - 1) / 96| ≤ 733/725)
    (hU : Unit60 n (weight s) E) (hE : ε / 24 + 200 + rsErr n (weight s) ≤ E) :
    Ok (evalModStartF (Q1 := LT) 60 24 ct) fun c => Near s c (fun i => 2^60 * (((4 * y i - 1) / 96 : ℝ) : ℂ)) (1 * E) := by
  have hε := hct.nonneg
  obtain ⟨D, eD, hDv⟩ := shl1_ok (show 60 < 64 by norm_num)
  obtain ⟨w, ew, hw1, hw2⟩ := divKF_ok (LD := 60) (by norm_num) hDv (show (0:ℤ) < 24 by norm_num) (by norm_num)
  obtain ⟨q, eq, hq1, _⟩ := divKF_ok (LD := 60) (by norm_num) hDv (show (0:ℤ) < 4 * 24 by norm_num) (by norm_num)
  have hη : etaF ≤ 1/10^9 := etaF_le_uF.trans (by have := uF_le; have := uF_pos; norm_num at *; linarith)
  have hw1' : |(w.toNat : ℝ) - 2^60 / ((24:ℤ):ℝ)| ≤ 6.4 := by
    refine hw1.trans ?_
    rw [uF_eq]
    norm_num at hη ⊢
    linarith
  have hq1' : |(q.toNat : ℝ) - 2^60 / ((4 * 24 : ℤ) : ℝ)| ≤ 3 := by
    refine hq1.trans ?_
    rw [uF_eq]
    norm_num at hη ⊢
    linarith
  have hw2' : (w.toNat : ℝ) ≤ (1 + 1/2^50) * (2^60 / 24) := by
    refine hw2.trans ?_
    rw [uF_eq]
    norm_num at hη ⊢
    linarith
  have hp : (0:ℝ) < 2^60 := by positivity
  have hd : LF - LT = 60 := by omega
  unfold evalModStartF
  rw [eD, pure_bind, ew, pure_bind]
  simp only []
  have hc1 : Near s (R_Q_square.mulW (R_Q_square.copy ct) w) _ _ := hct.mulW w
  have key := Near.rs (LF := LF) (LT := LT) (by omega) hs hc1 R_Q_square.setzero
  rw [hd] at key
  refine Ok.bind key fun c hc => ?_
  rw [show intM (4 * 24) = pure (4 * 24) from rfl, pure_bind, eq, pure_bind]
  refine Ok.mono (hc.wr0 (f := fun x => sub x (ofW q)) (a := -(q.toNat : Int)) fun z => ⟨canonical_sub _ _, by
    rw [cls_sub, cls_ofW]; push_cast; ring⟩) fun r hr => ?_
  refine hr.approx (δ := 163) (fun i => ?_) ?_
  · have hyK : |y i| ≤ 25 := by
      have h1 := hy i
      rw [abs_div, div_le_iff₀ (by norm_num), abs_of_pos (show (0:ℝ) < 96 by norm_num)] at h1
      rw [abs_le] at h1 ⊢
      constructor <;> linarith [h1.1, h1.2]
    have e1 : (w.toNat : ℂ) * (2^60 * (y i : ℂ)) / 2^60 + ((-(q.toNat : Int) : Int) : ℂ) -
        2^60 * (((4 * y i - 1) / 96 : ℝ) : ℂ) =
        (((w.toNat : ℝ) - 2^60 / ((24:ℤ):ℝ)) * y i - ((q.toNat : ℝ) - 2^60 / ((4 * 24 : ℤ) : ℝ)) : ℝ) := by
      push_cast
      field_simp
      ring
    rw [e1, Complex.norm_real, Real.norm_eq_abs]
    refine (abs_sub _ _).trans ?_
    rw [abs_mul]
    have := mul_le_mul hw1' hyK (abs_nonneg _) (by norm_num)
    norm_num at this hq1' ⊢
    linarith
  · have h1 : (w.toNat : ℝ) * ε / 2^60 ≤ (1 + 1/2^50) * (ε / 24) := by
      rw [div_le_iff₀ hp]
      refine (mul_le_mul_of_nonneg_right hw2' hε).trans (le_of_eq ?_)
      ring
    have h2 : ε / 24 ≤ 2^25 := by
      have := hU.hi
      have := rsErr_nonneg n (weight s)
      linarith
    norm_num at h1 h2 ⊢
    linarith

end

/-! ## the whole -/

section
variable {Q0 Q1 Q2 Q3 Q4 Q5 Q6 Q7 Q8 Q9 Q10 Q11 Q12 : Nat} [NeZero Q0] [NeZero Q1] [NeZero Q2] [NeZero Q3] [NeZero Q4] [NeZero Q5] [NeZero Q6] [NeZero Q7] [NeZero Q8] [NeZero Q9] [NeZero Q10] [NeZero Q11] [NeZero Q12]

set_option maxHeartbeats 2000000 in
theorem EvalModF_wide (hn : n ≤ 16) (hC : EvalModChain 60 Q0 Q1 Q2 Q3 Q4 Q5 Q6 Q7 Q8 Q9 Q10 Q11 Q12)
    (hlo : 65 ≤ Q11) (hhi : Q1 ≤ 1525) {s : Fin (2^(n+1)) → Int} (hs : Ternary s)
    {ct : R_Q_square Q0 (2^(n+1))} {y : Fin (2^n) → ℝ} {ε E : ℝ}
    (hct : Near s ct (fun i => 2^60 * (y i : ℂ)) ε) (hy : ∀ i, |(4 * y i - 1) / 96| ≤ 733/725)
    (hE : Unit60 n (weight s) E) (hεE : ε / 24 + 200 + rsErr n (weight s) ≤ E)
    {evk1 : R_Q_square (2 * Q1) (2^(n+1))} (hev1 : IsEvk s evk1)
    {evk2 : R_Q_square (2 * Q2) (2^(n+1))} (hev2 : IsEvk s evk2)
    {evk3 : R_Q_square (2 * Q3) (2^(n+1))} (hev3 : IsEvk s evk3)
    {evk4 : R_Q_square (2 * Q4) (2^(n+1))} (hev4 : IsEvk s evk4)
    {evk5 : R_Q_square (2 * Q5) (2^(n+1))} (hev5 : IsEvk s evk5)
    {evk6 : R_Q_square (2 * Q6) (2^(n+1))} (hev6 : IsEvk s evk6)
    {evk7 : R_Q_square (2 * Q7) (2^(n+1))} (hev7 : IsEvk s evk7)
    {evk8 : R_Q_square (2 * Q8) (2^(n+1))} (hev8 : IsEvk s evk8)
    {evk9 : R_Q_square (2 * Q9) (2^(n+1))} (hev9 : IsEvk s evk9)
    {evk10 : R_Q_square (2 * Q10) (2^(n+1))} (hev10 : IsEvk s evk10)
    {evk11 : R_Q_square (2 * Q11) (2^(n+1))} (hev11 : IsEvk s evk11) :
    Ok (EvalModF (Q12 := Q12) 60 24 ct evk1 evk2 evk3 evk4 evk5 evk6 evk7 evk8 evk9 evk10 evk11) fun p =>
      Near s p (fun i => 2^60 * ((asin3 (Real.cos (12 * Real.pi * (4 * y i - 1) / 24)) : ℝ) : ℂ)) (637100 * E) := by
  obtain ⟨hL0, hL1, hL2, hL3, hL4, hL5, hL6, hL7, hL8, hL9, hL10, hL11⟩ := hC
  have hp : (0:ℝ) < 2^60 := by positivity
  have hpi := Real.pi_pos
  have g1 : GoodQ Q1 := Or.inr (Or.inl ⟨by omega, by omega⟩)
  have g2 : GoodQ Q2 := Or.inr (Or.inl ⟨by omega, by omega⟩)
  have g3 : GoodQ Q3 := Or.inr (Or.inl ⟨by omega, by omega⟩)
  have g4 : GoodQ Q4 := Or.inr (Or.inl ⟨by omega, by omega⟩)
  have g5 : GoodQ Q5 := Or.inr (Or.inl ⟨by omega, by omega⟩)
  have g6 : GoodQ Q6 := Or.inr (Or.inl ⟨by omega, by omega⟩)
  have g7 : GoodQ Q7 := Or.inr (Or.inl ⟨by omega, by omega⟩)
  have g8 : GoodQ Q8 := Or.inr (Or.inl ⟨by omega, by omega⟩)
  have g9 : GoodQ Q9 := Or.inr (Or.inl ⟨by omega, by omega⟩)
  have g10 : GoodQ Q10 := Or.inr (Or.inl ⟨by omega, by omega⟩)
  have g11 : GoodQ Q11 := Or.inr (Or.inl ⟨by omega, by omega⟩)
  unfold EvalModF
  refine Ok.bind (startF_wide hL0 hs hct hy hE hεE) fun c1 h1 => ?_
  rw [deg31F_eq (by norm_num)]
  refine Ok.bind (deg31_wide hn g1 g2 g3 g4 g5 (by omega) hL1 hL2 hL3 hL4 hL5 hs (evalModUF_lt (by norm_num)) evalModUF_sum hy hE h1
    hev1 hev2 hev3 hev4 hev5) fun c2 h2 => ?_
  have hv : ∀ (j : Nat) (i : Fin (2^n)), ‖chebT (2^j) ((Real.cos (3 * Real.pi * ((4 * y i - 1) / 96)) : ℝ) : ℂ)‖ ≤ 1 :=
    fun j i => chebT_abs _ (Real.abs_cos_le_one _)
  have h2' : Near s c2 (fun i => 2^60 * chebT (2^0) ((Real.cos (3 * Real.pi * ((4 * y i - 1) / 96)) : ℝ) : ℂ)) (9952 * E) := by
    refine h2.approx (δ := 2^60 * (2 / 10^12)) (fun i => ?_) ?_
    · rw [pow_zero, chebT_one, ← mul_sub, norm_mul, norm_pow, Complex.norm_ofNat]
      exact mul_le_mul_of_nonneg_left (tree_cosF_wide (hy i)) hp.le
    · have := hE.lo
      norm_num
      linarith
  refine Ok.bind (polyT_wide g6.one g6.two hn hL6 hs hev6 hE (d := 39810) (by norm_num) 0 (hv 0) h2' (by norm_num)) fun c3 h3 => ?_
  refine Ok.bind (polyT_wide g7.one g7.two hn hL7 hs hev7 hE (d := 159242) (by norm_num) 1 (hv 1) h3 (by norm_num)) fun c4 h4 => ?_
  refine Ok.bind (polyT_wide g8.one g8.two hn hL8 hs hev8 hE (d := 636971) (by norm_num) 2 (hv 2) h4 (by norm_num)) fun c5 h5 => ?_
  refine Ok.bind (polyT_wide g9.one g9.two hn hL9 hs hev9 hE (d := 2547909) (by norm_num) 3 (hv 3) h5 (by norm_num)) fun c6 h6 => ?_
  have hw : ∀ i, |Real.cos (12 * Real.pi * (4 * y i - 1) / 24)| ≤ 1 := fun i => Real.abs_cos_le_one _
  have h6' : Near s c6 (fun i => 2^60 * ((Real.cos (12 * Real.pi * (4 * y i - 1) / 24) : ℝ) : ℂ)) (2547909 * E) := by
    refine h6.mono (fun i => ?_) le_rfl
    rw [chebT_cos]
    congr 4
    push_cast
    ring
  set a : ℝ := 2547909 * E with ha
  have ha0 : 0 ≤ a := h6'.nonneg
  have h6s : Near s c6 (fun i => 2^60 * ((Real.cos (12 * Real.pi * (4 * y i - 1) / 24) : ℝ) : ℂ)) ((1 + 1/2^50) * a + 5 * 2^60 / 2^53) :=
    h6'.mono (fun _ => rfl) (by
      have : 0 ≤ 5 * (2:ℝ)^60 / 2^53 := by positivity
      linarith)
  refine Ok.bind (evalModSix_spec g10.one g10.two hn (by norm_num) hL10 hs hev10 hw h6s) fun c7 h7 => ?_
  refine Ok.bind (evalModLinF_spec (by norm_num) hL10 hs hw h6'.nonneg h6') fun c8 h8 => ?_
  have hX : ∀ i, ‖(2:ℂ)^60 * ((Real.cos (12 * Real.pi * (4 * y i - 1) / 24) ^ 2 + 6 : ℝ) : ℂ)‖ ≤ 7 * 2^60 := by
    intro i
    rw [norm_mul, norm_pow, Complex.norm_ofNat, Complex.norm_real, Real.norm_eq_abs, abs_of_nonneg (by positivity), mul_comm]
    refine mul_le_mul_of_nonneg_right ?_ hp.le
    have := Real.cos_sq_le_one (12 * Real.pi * (4 * y i - 1) / 24)
    linarith
  have hY : ∀ i, ‖(2:ℂ)^60 * ((Real.cos (12 * Real.pi * (4 * y i - 1) / 24) / (12 * Real.pi) : ℝ) : ℂ)‖ ≤ 2^60 / (12 * Real.pi) := by
    intro i
    rw [norm_mul, norm_pow, Complex.norm_ofNat, Complex.norm_real, Real.norm_eq_abs, abs_div, abs_of_pos (show 0 < 12 * Real.pi by positivity),
      div_eq_mul_one_div (2^60)]
    exact mul_le_mul_of_nonneg_left (div_le_div_of_nonneg_right (hw i) (by positivity)) hp.le
  refine Ok.bind (Near.mul g11.one g11.two hn hs hev11 h7 h8 hX hY R_Q_square.setzero) fun c9 h9 => ?_
  have key := Near.rs (LF := Q11) (LT := Q12) (by omega) hs h9 R_Q_square.setzero
  rw [show Q11 - Q12 = 60 by omega] at key
  refine Ok.mono key fun r hr => hr.mono (fun i => ?_) (le_trans (le_of_eq ?_) (cubic_wide hE h6s.nonneg (by
    have := hE.lo
    have := hE.hi
    rw [ha]
    norm_num
    linarith)))
  · unfold asin3
    have hpic : (Real.pi : ℂ) ≠ 0 := by exact_mod_cast hpi.ne'
    push_cast
    field_simp
    ring
  · unfold cubicErr
    ring

theorem EvalModKeyF_wide (R : Nat) (hn : n ≤ 16)
    (hC : EvalModChain 60 Q0 Q1 Q2 Q3 Q4 Q5 Q6 Q7 Q8 Q9 Q10 Q11 Q12)
    (hlo : 65 ≤ Q11) (hhi : Q1 ≤ 1525) {s : Fin (2^(n+1)) → Int} (hs : Ternary s)
    {ct : R_Q_square Q0 (2^(n+1))} {a : Fin (2^n) → ℝ} {I : Fin (2^n) → ℤ} {ε η E : ℝ}
    (hct : Near s ct (fun i => (a i : ℂ)) ε) (hy : ∀ i, -24.01 * 2^60 ≤ a i ∧ a i ≤ 24.5 * 2^60)
    (hη : ∀ i, |a i - 2^60 * I i| ≤ η)
    (hE : Unit60 n (weight s) E) (hεE : ε / 24 + 200 + rsErr n (weight s) ≤ E) (ω : Rng) :
    Ok (EvalModKeyF R 60 24 Q1 Q2 Q3 Q4 Q5 Q6 Q7 Q8 Q9 Q10 Q11 Q12 ct s ω) fun p =>
      Near s p.1 (fun i => ((a i - 2^60 * I i : ℝ) : ℂ)) (637100 * E + 2^60 * (117 * (η / 2^60)^5)) := by
  have hN : 2^(n+1) ≤ 2^17 := Nat.pow_le_pow_right (by norm_num) (by omega)
  have hp : (0:ℝ) < 2^60 := by positivity
  have hb : ∀ i, |(4 * (a i / 2^60) - 1) / 96| ≤ 733/725 := by
    intro i
    obtain ⟨h1, h2⟩ := hy i
    have g1 : -24.01 ≤ a i / 2^60 := by rw [le_div_iff₀ hp]; exact h1
    have g2 : a i / 2^60 ≤ 24.5 := by rw [div_le_iff₀ hp]; exact h2
    rw [abs_le]
    constructor
    · rw [le_div_iff₀ (by norm_num)]; linarith
    · rw [div_le_iff₀ (by norm_num)]; linarith
  have hct' : Near s ct (fun i => 2^60 * ((a i / 2^60 : ℝ) : ℂ)) ε := by
    refine hct.mono (fun i => ?_) le_rfl
    push_cast
    field_simp
  unfold EvalModKeyF
  rw [convI_spec (by omega) s s hs.abs_le hs.abs_le, pure_bind]
  refine Ok.bind (swk_evk R hn hs R_Q_square.setzero _) fun k1 e1 => ?_
  refine Ok.bind (swk_evk R hn hs R_Q_square.setzero _) fun k2 e2 => ?_
  refine Ok.bind (swk_evk R hn hs R_Q_square.setzero _) fun k3 e3 => ?_
  refine Ok.bind (swk_evk R hn hs R_Q_square.setzero _) fun k4 e4 => ?_
  refine Ok.bind (swk_evk R hn hs R_Q_square.setzero _) fun k5 e5 => ?_
  refine Ok.bind (swk_evk R hn hs R_Q_square.setzero _) fun k6 e6 => ?_
  refine Ok.bind (swk_evk R hn hs R_Q_square.setzero _) fun k7 e7 => ?_
  refine Ok.bind (swk_evk R hn hs R_Q_square.setzero _) fun k8 e8 => ?_
  refine Ok.bind (swk_evk R hn hs R_Q_square.setzero _) fun k9 e9 => ?_
  refine Ok.bind (swk_evk R hn hs R_Q_square.setzero _) fun k10 e10 => ?_
  refine Ok.bind (swk_evk R hn hs R_Q_square.setzero _) fun k11 e11 => ?_
  refine Ok.bind (EvalModF_wide hn hC hlo hhi hs hct' hb hE hεE e1 e2 e3 e4 e5 e6 e7 e8 e9 e10 e11) fun p hp' => ?_
  refine Ok.pure (hp'.approx (δ := 2^60 * (117 * (η / 2^60)^5)) (fun i => ?_) le_rfl)
  set e : ℝ := a i / 2^60 - I i with he
  have e1 : Real.cos (12 * Real.pi * (4 * (a i / 2^60) - 1) / 24) = Real.sin (2 * Real.pi * e) := by
    have : 12 * Real.pi * (4 * (a i / 2^60) - 1) / 24 = (2 * Real.pi * e - Real.pi / 2) + I i * (2 * Real.pi) := by
      rw [he]; push_cast; ring
    rw [this, Real.cos_add_int_mul_two_pi, Real.cos_sub_pi_div_two]
  rw [e1]
  have h2 := asin3_sin e
  have e2 : ((a i - 2^60 * I i : ℝ) : ℂ) = 2^60 * (e : ℂ) := by
    rw [he]; push_cast; field_simp
  rw [e2, ← mul_sub, norm_mul, norm_pow, Complex.norm_ofNat, ← Complex.ofReal_sub, Complex.norm_real]
  refine mul_le_mul_of_nonneg_left (h2.trans ?_) hp.le
  have h5 : |e| ≤ η / 2^60 := by
    rw [le_div_iff₀ hp]
    nth_rw 1 [← abs_of_pos hp]
    rw [← abs_mul]
    refine le_trans (le_of_eq ?_) (hη i)
    rw [he]; congr 1; field_simp
  have hpi := Real.pi_lt_d4
  have hpi0 := Real.pi_pos
  have h6 : 3/40 * (2 * Real.pi)^4 ≤ 117 := by
    calc 3/40 * (2 * Real.pi)^4 ≤ 3/40 * (2 * 3.1416)^4 := by gcongr
      _ ≤ _ := by norm_num
  gcongr

end

end EvalRound

import Verif.Props.HomTests

/-!
# C66: the program evalMod_test
-/

namespace EvalRound
open Z_Q Finset

variable {n : Nat}

theorem sum_mod_24 (m : Nat) : 2 * ∑ i ∈ range m, i % 24 + m % 24 * (24 - m % 24) = 23 * m := by
  induction m with
  | zero => rfl
  | succ m ih =>
    rw [sum_range_succ]
    have h : m % 24 < 24 := Nat.mod_lt _ (by norm_num)
    have h2 : (m+1) % 24 = if m % 24 = 23 then 0 else m % 24 + 1 := by split <;> omega
    rw [h2]
    generalize ∑ i ∈ range m, i % 24 = S at *
    generalize hr : m % 24 = r at *
    clear hr h2
    interval_cases r <;> simp at ih ⊢ <;> omega

/-- the mean of the slots of the message -/
theorem evalmod_mean (n : Nat) : (∑ i : Fin (2^n), ‖(⟨(set_evalmod_message (n+1)).1 i, (set_evalmod_message (n+1)).2 i⟩ : ℂ)‖) / 2^n ≤
    115001 / 10000 := by
  have hp : (0:ℝ) < 2^n := by positivity
  have e : ∀ i : Fin (2^n), ‖(⟨(set_evalmod_message (n+1)).1 i, (set_evalmod_message (n+1)).2 i⟩ : ℂ)‖ =
      1/10000 + ((i.val % 24 : Nat) : ℝ) := by
    intro i
    have : (⟨(set_evalmod_message (n+1)).1 i, (set_evalmod_message (n+1)).2 i⟩ : ℂ) =
        ((1/10000 + ((i.val % 24 : Nat) : ℝ) : ℝ) : ℂ) := rfl
    rw [this, Complex.norm_real, Real.norm_of_nonneg (by positivity)]
  rw [div_le_iff₀ hp, sum_congr rfl fun i _ => e i, sum_add_distrib, sum_const, card_univ, Fintype.card_fin, nsmul_eq_mul]
  have h1 := sum_mod_24 (2^n)
  have h2 : ((∑ i ∈ range (2^n), i % 24 : ℕ) : ℝ) = ∑ i : Fin (2^n), ((i.val % 24 : Nat) : ℝ) := by
    rw [Nat.cast_sum, ← Fin.sum_univ_eq_sum_range (fun i => ((i % 24 : ℕ) : ℝ))]
  have h3 : 2 * ∑ i ∈ range (2^n), i % 24 ≤ 23 * 2^n := by omega
  have h4 : (2:ℝ) * ((∑ i ∈ range (2^n), i % 24 : ℕ) : ℝ) ≤ 23 * 2^n := by exact_mod_cast h3
  rw [h2] at h4
  push_cast at h4 ⊢
  linarith

theorem evalModErr_fresh {h : Nat} (hn3 : 3 ≤ n) (hn : n ≤ 16) (hh : h ≤ 128) :
    evalModErr n h (2^60) 24 (17 * 2^n) ≤ 130276 * (135 * 2^n) := by
  have h2 : (h:ℝ) ≤ 128 := by exact_mod_cast hh
  have hn8 : (2:ℝ)^3 ≤ 2^n := pow_le_pow_right₀ (by norm_num) hn3
  have hn16 : (2:ℝ)^n ≤ 2^16 := pow_le_pow_right₀ (by norm_num) hn
  norm_num at hn8 hn16
  have hr : rsErr n h ≤ 129 * 2^n := by
    unfold rsErr
    have : (2:ℝ)^n * (h + 1) ≤ 2^n * 129 := by gcongr; linarith
    linarith
  refine evalModErr_lin (E := 135 * 2^n) (by linarith) (by norm_num; linarith) (by linarith) ?_ (by positivity) ?_
  · exact (mulErr_num hn (by omega)).trans (by norm_num)
  · unfold startErr
    generalize rsErr n h = y at *
    generalize (2:ℝ)^n = t at *
    linarith

section
variable {Q0 Q1 Q2 Q3 Q4 Q5 Q6 Q7 Q8 Q9 Q10 Q11 Q12 : Nat} [NeZero Q0] [NeZero Q1] [NeZero Q2] [NeZero Q3] [NeZero Q4]
  [NeZero Q5] [NeZero Q6] [NeZero Q7] [NeZero Q8] [NeZero Q9] [NeZero Q10] [NeZero Q11] [NeZero Q12]

/-- C66: `EvalMod_test` prints the message `0.0001 + i%24` and, in every slot, `0.0001` up to the error of EvalMod. -/
theorem C66_EvalMod_test (R : Nat) (hn3 : 3 ≤ n) (hn : n ≤ 16) (hC : EvalModChain 60 Q0 Q1 Q2 Q3 Q4 Q5 Q6 Q7 Q8 Q9 Q10 Q11 Q12)
    (hlo : 65 ≤ Q12) (hhi : Q1 ≤ 1525) (H : Int) (hH : H ≤ (2^(n+1) : Nat)) (hH2 : H ≤ 128) (ct0 : R_Q_square Q0 (2^(n+1)))
    (ω : Rng) (hω : ∀ (j : Fin (2^(n+1))) (l : Nat), ∃ m, l ≤ m ∧ ω m % 2^(n+1) = j) :
    Ok (EvalMod_test (LOGN := n+1) R 60 H 24 Q1 Q2 Q3 Q4 Q5 Q6 Q7 Q8 Q9 Q10 Q11 Q12 ct0 ω) fun o => ∀ i : Fin (2^n),
      o.1.1 i = 1/10000 + ((i.val % 24 : Nat) : ℝ) ∧ o.1.2 i = 0 ∧
      ‖(⟨o.2.1 i, o.2.2 i⟩ : ℂ) - 1/10000‖ ≤ 130276 * 135 * 2^n / 2^60 + 117 / 10^20 := by
  have hC' := hC
  obtain ⟨_, _, _, _, _, _, _, _, _, _, _, _⟩ := hC'
  unfold EvalMod_test
  dsimp only
  refine Ok.bind (C19_keygen_returns H hH ω hω) fun k ⟨hs, hw⟩ => ?_
  have hs' : Ternary k.1 := hs
  have hwt : weight k.1 = H.toNat := hw
  rw [shl1_eq (by norm_num), pure_bind]
  have h64 : (2:ℝ)^64 ≤ 2^(Q12-1) := pow_le_pow_right₀ (by norm_num) (by omega)
  have h64' : (2:ℝ)^64 ≤ 2^(Q0-1) := pow_le_pow_right₀ (by norm_num) (by omega)
  obtain ⟨pt, r, m, e, ept, hpc, hm, hmB, hpt, er, hrc, he, hph, hsl⟩ := fresh_coeff (Q := Q0) (n := n) R (by omega)
    (by omega) (D := 60) (by norm_num) (z := set_evalmod_message (n+1)) (B := 115001/10000)
    (fun m hm k => by
      refine (coeff_le_mean (by omega) (by omega) m k).trans ?_
      rw [sum_congr rfl fun i _ => congrArg norm (hm i)]
      exact evalmod_mean n) (by norm_num)
    (lt_of_lt_of_le (by norm_num) h64') hs' ct0 k.2
  rw [ept, pure_bind, er, pure_bind]
  have hnear : Near k.1 r.1 (fun i : Fin (2^n) => ((2^60 * (1/10000 + ((i.val % 24 : Nat) : ℝ)) : ℝ) : ℂ)) (17 * 2^n) := by
    refine ⟨hrc, _, hph, fun i => ?_⟩
    refine le_trans (le_of_eq ?_) (hsl i)
    congr 2
    have : (⟨(set_evalmod_message (n+1)).1 i, (set_evalmod_message (n+1)).2 i⟩ : ℂ) =
        ((1/10000 + ((i.val % 24 : Nat) : ℝ) : ℝ) : ℂ) := rfl
    rw [this]
    beta_reduce
    rw [Complex.ofReal_mul, Complex.ofReal_pow, Complex.ofReal_ofNat]
  have hr24 : ∀ i : Fin (2^n), (0:ℝ) ≤ ((i.val % 24 : Nat) : ℝ) ∧ ((i.val % 24 : Nat) : ℝ) ≤ 23 := fun i => by
    refine ⟨Nat.cast_nonneg _, ?_⟩
    have : i.val % 24 ≤ 23 := by omega
    exact_mod_cast this
  refine Ok.bind (evalMod_reduce R (by norm_num) hn hC (by omega) hhi hs' (I := fun i => ((i.val % 24 : Nat) : ℤ)) (η := 2^60/10000) hnear
    (fun i => ?_) (fun i => ?_) r.2) fun c hc => ?_
  · obtain ⟨h1, h2⟩ := hr24 i
    constructor <;> linarith
  · rw [Int.cast_natCast]
    have e : (2:ℝ)^60 * (1/10000 + ((i.val % 24 : Nat) : ℝ)) - 2^60 * ((i.val % 24 : Nat) : ℝ) = 2^60/10000 := by ring
    rw [e, abs_of_pos (by positivity)]
  have herr : evalModErr n (weight k.1) (2^60) 24 (17 * 2^n) + 2^60 * (117 * (2^60/10000/2^60)^5) ≤
      130276 * (135 * 2^n) + 2^60 * (117 / 10^20) := by
    refine add_le_add (evalModErr_fresh hn3 hn ?_) (by norm_num)
    rw [hwt]; omega
  have hc2 : Near k.1 c.1 (fun _ : Fin (2^n) => ((2^60/10000 : ℝ) : ℂ)) (130276 * (135 * 2^n) + 2^60 * (117 / 10^20)) := by
    refine hc.mono (fun i => ?_) herr
    rw [Int.cast_natCast]
    congr 1; ring
  have hn16 : (2:ℝ)^n ≤ 2^16 := pow_le_pow_right₀ (by norm_num) hn
  obtain ⟨z1, ez1, hz1⟩ := near_out (D := 60) (X := 2^60) (by omega) (by omega) (by omega) (by norm_num) hs' hc2 (fun i => by
    rw [Complex.norm_real, Real.norm_of_nonneg (by positivity)]; norm_num) (by
    refine lt_of_lt_of_le ?_ h64
    norm_num at hn16 ⊢
    linarith)
  obtain ⟨p1, ep1, ez1⟩ := bind_eq_pure ez1
  rw [ep1, pure_bind, ez1, pure_bind]
  refine Ok.pure fun i => ⟨rfl, rfl, ?_⟩
  have g := hz1 i
  have e1 : ((2^60/10000 : ℝ) : ℂ) / 2^60 = 1/10000 := by push_cast; norm_num
  rw [e1] at g
  refine g.trans (le_of_eq ?_)
  rw [add_div]
  congr 1
  · ring
  · norm_num

end

set_option maxRecDepth 4000 in
/-- C66 is not vacuous: at the parameters of test.h the program returns `0.0001` up to `4e-9`. -/
example (ct0 : R_Q_square 1450 (2^(8+1))) :
    Ok (EvalMod_test (LOGN := 8+1) (2^31-1) 60 128 24 1390 1330 1270 1210 1150 1090 1030 970 910 850 790 730 ct0 id) fun o =>
      ∀ i : Fin (2^8), ‖(⟨o.2.1 i, o.2.2 i⟩ : ℂ) - 1/10000‖ ≤ 4 / 10^9 := by
  refine Ok.mono (C66_EvalMod_test (2^31-1) (by norm_num) (by norm_num) (by unfold EvalModChain; norm_num) (by norm_num)
    (by norm_num) 128 (by norm_num) (by norm_num) ct0 id
    (fun j l => ⟨2^(8+1) * l + j, by omega, by have := j.isLt; simp only [id]; omega⟩)) fun o ho i => ((ho i).2.2).trans ?_
  norm_num

end EvalRound

import Verif.Model.BEvalmod
import Verif.Proofs.EvalModWide
import Verif.Proofs.Fresh
import Verif.Proofs.Measure
import Verif.Props.ModTest

/-!
# C71: the program measure_b_evalmod
-/

namespace EvalRound
open Z_Q Finset

variable {n : Nat}

/-- `eps_num` is positive from `LOGN = 9` on -/
theorem epsNum_pos (hn : 8 ≤ n) : 2 ≤ epsNum (n+1) ∧ 49 * (2 * epsNum (n+1) + 1).toNat ≤ 2^n := by
  have h : 2^8 ≤ 2^n := Nat.pow_le_pow_right (by norm_num) hn
  unfold epsNum
  rw [pow_succ, Nat.mul_div_cancel _ (by norm_num), Int.tdiv_eq_ediv_of_nonneg (by omega)]
  omega

/-- what `z.r` holds in the end -/
noncomputable def bR (e : Int) (i : Nat) : ℝ :=
  if i < 49 * (2 * e + 1).toNat then (((i / (2 * e + 1).toNat : Nat) : ℤ) - 24 : ℤ) * 2^10 + (((i % (2 * e + 1).toNat : Nat) : ℤ) - e : ℤ) / (e : ℝ) else 0

/-- what `z_evalmod_exact.r` holds in the end -/
noncomputable def bX (e : Int) (i : Nat) : ℝ :=
  if i < 49 * (2 * e + 1).toNat then (((i % (2 * e + 1).toNat : Nat) : ℤ) - e : ℤ) / (e : ℝ) else 0

theorem update_below {N : Nat} {z : Fin N → ℝ} {f : Nat → ℝ} {t : Nat} (ht : t < N)
    (hz : ∀ i : Fin N, z i = if i.val < t then f i else 0) (i : Fin N) :
    Function.update z ⟨t, ht⟩ (f t) i = if i.val < t+1 then f i else 0 := by
  by_cases h : i = ⟨t, ht⟩
  · subst h; simp
  · rw [Function.update_of_ne h, hz i]
    have : i.val ≠ t := fun e => h (Fin.ext e)
    by_cases h1 : i.val < t
    · rw [if_pos h1, if_pos (by omega)]
    · rw [if_neg h1, if_neg (by omega)]

set_option maxHeartbeats 1000000 in
/-- C71: the message of the driver, from `LOGN = 9` on. -/
theorem C71_message (hn : 8 ≤ n) : Ok (bMessage (n+1)) fun b => ∀ i : Fin (2^n),
    b.1 i = bR (epsNum (n+1)) i ∧ b.2 i = bX (epsNum (n+1)) i := by
  obtain ⟨h2, hm⟩ := epsNum_pos hn
  unfold bMessage bR bX
  dsimp only
  generalize epsNum (n+1) = e at *
  generalize hmm : (2 * e + 1).toNat = m at *
  have hm0 : 0 < m := by omega
  let f : Nat → ℝ := fun i => (((i / m : Nat) : ℤ) - 24 : ℤ) * 2^10 + (((i % m : Nat) : ℤ) - e : ℤ) / (e : ℝ)
  let g : Nat → ℝ := fun i => (((i % m : Nat) : ℤ) - e : ℤ) / (e : ℝ)
  let S := Nat × (Fin (2^(n+1-1)) → ℝ) × (Fin (2^(n+1-1)) → ℝ)
  let I : Nat → S → Prop := fun t s => s.1 = t ∧ ∀ i : Fin (2^n), s.2.1 i = (if i.val < t then f i else 0) ∧ s.2.2 i = (if i.val < t then g i else 0)
  refine Ok.bind (forUp_inv (by norm_num) (fun i (s : S) => I (m * i) s) ⟨by simp, fun i => by simp⟩ fun a s _ ha hs => ?_) fun r hr => ?_
  · have hin := forUp_inv (lo := 0) (hi := m) (s := s) (body := fun j (s : S) => do
      if e = 0 then ub else do
      let q : ℝ := (((j : Int) - e : Int) : ℝ) / (e : ℝ)
      let zr ← wr s.2.1 s.1 ((((a : Int) - 24 : Int) : ℝ) * 2^10 + q)
      let er ← wr s.2.2 s.1 q
      pure (s.1 + 1, zr, er)) (by omega) (fun j (s : S) => I (m * a + j) s) (by simpa using hs) fun j s _ hj hs => by
        obtain ⟨h1, h3⟩ := hs
        have hlt : m * a + j < 2^n := by
          have : m * (a+1) ≤ m * 49 := Nat.mul_le_mul_left _ (by omega)
          rw [mul_add, mul_one] at this
          omega
        have e1 : (m * a + j) / m = a := by rw [Nat.mul_add_div hm0, Nat.div_eq_of_lt hj, add_zero]
        have e2 : (m * a + j) % m = j := by rw [Nat.mul_add_mod, Nat.mod_eq_of_lt hj]
        have ef : f (m * a + j) = (((a : Int) - 24 : Int) : ℝ) * 2^10 + (((j : Int) - e : Int) : ℝ) / (e : ℝ) := by
          show (((((m * a + j) / m : Nat) : ℤ) - 24 : ℤ) : ℝ) * 2^10 + (((((m * a + j) % m : Nat) : ℤ) - e : ℤ) : ℝ) / (e : ℝ) = _
          rw [e1, e2]
        have eg : g (m * a + j) = (((j : Int) - e : Int) : ℝ) / (e : ℝ) := by
          show (((((m * a + j) % m : Nat) : ℤ) - e : ℤ) : ℝ) / (e : ℝ) = _
          rw [e2]
        beta_reduce
        rw [if_neg (by omega), h1]
        dsimp only
        rw [wr_of_lt _ hlt, pure_bind, wr_of_lt _ hlt, pure_bind]
        refine Ok.pure ⟨rfl, fun i => ⟨?_, ?_⟩⟩
        · rw [← ef]
          exact update_below hlt (fun i => (h3 i).1) i
        · rw [← eg]
          exact update_below hlt (fun i => (h3 i).2) i
    refine Ok.mono hin fun s hs => ?_
    have : m * (a + 1) = m * a + m := by ring
    beta_reduce
    rw [this]
    exact hs
  · refine Ok.pure fun i => ?_
    have := hr.2 i
    rw [mul_comm 49 m]
    exact this

/-- a driver of `LOGN ≤ 8` divides by `eps_num = 0` -/
theorem C71_small : ∀ LOGN ≤ 8, bMessage LOGN = ub := by
  intro L hL
  have h0 : epsNum L = 0 := by interval_cases L <;> rfl
  unfold bMessage
  rw [h0]
  rfl

/-! ## bounds of the message -/

theorem sum_div (f : Nat → ℝ) {m : Nat} (hm : 0 < m) (a : Nat) : ∑ i ∈ range (a * m), f (i / m) = m * ∑ i ∈ range a, f i := by
  induction a with
  | zero => simp
  | succ a ih =>
    rw [add_mul, one_mul, sum_range_add, ih, sum_range_succ, mul_add]
    congr 1
    rw [sum_congr rfl (g := fun _ => f a) fun i hi => by
      rw [mul_comm, Nat.mul_add_div hm, Nat.div_eq_of_lt (mem_range.1 hi), add_zero]]
    simp

section
variable {e : Int}

theorem bX_le (he : 1 ≤ e) (i : Nat) : |bX e i| ≤ 1 := by
  unfold bX
  have he' : (0:ℝ) < e := by exact_mod_cast he
  split
  · rw [abs_div, abs_of_pos he', div_le_one he']
    have h := Nat.mod_lt i (show 0 < (2 * e + 1).toNat by omega)
    have : |(((i % (2 * e + 1).toNat : Nat) : ℤ) - e : ℤ)| ≤ e := by rw [abs_le]; constructor <;> omega
    exact_mod_cast this
  · simp

theorem bR_eq (i : Nat) : ∃ I : ℤ, |I| ≤ 24 ∧ bR e i = I * 2^10 + bX e i := by
  unfold bR bX
  split
  · refine ⟨((i / (2 * e + 1).toNat : Nat) : ℤ) - 24, ?_, rfl⟩
    have : i / (2 * e + 1).toNat < 49 := Nat.div_lt_of_lt_mul (by rw [mul_comm]; assumption)
    generalize i / (2 * e + 1).toNat = q at *
    rw [abs_le]; constructor <;> omega
  · exact ⟨0, by norm_num, by simp⟩

theorem b_mean (he : 1 ≤ e) (hm : 49 * (2 * e + 1).toNat ≤ 2^n) : (∑ i : Fin (2^n), |bR e i|) / 2^n ≤ 12540 := by
  rw [Fin.sum_univ_eq_sum_range (fun i => |bR e i|)]
  have hp : (0:ℝ) < 2^n := by positivity
  have hm0 : 0 < (2 * e + 1).toNat := by omega
  rw [div_le_iff₀ hp]
  have h1 : ∑ i ∈ range (2^n), |bR e i| = ∑ i ∈ range (49 * (2 * e + 1).toNat), |bR e i| := by
    refine (sum_subset (range_mono hm) fun i _ hi => ?_).symm
    unfold bR
    rw [if_neg (fun h => hi (mem_range.2 h)), abs_zero]
  have h2 : ∀ i ∈ range (49 * (2 * e + 1).toNat), |bR e i| ≤ (fun q : Nat => ((|(q : ℤ) - 24| * 1024 + 1 : ℤ) : ℝ)) (i / (2 * e + 1).toNat) := by
    intro i hi
    have hx := bX_le he i
    unfold bX at hx
    unfold bR
    rw [if_pos (mem_range.1 hi)] at hx ⊢
    refine (abs_add_le _ _).trans ?_
    push_cast at hx ⊢
    rw [abs_mul]
    norm_num at hx ⊢
    exact hx
  have h3 : (((2 * e + 1).toNat * ∑ q ∈ range 49, (|(q : ℤ) - 24| * 1024 + 1) : ℤ) : ℝ) ≤ 12540 * 2^n := by
    have e1 : ∑ q ∈ range 49, (|(q : ℤ) - 24| * 1024 + 1) = 614449 := by decide
    rw [e1]
    have : (((2 * e + 1).toNat : Nat) : ℤ) * 614449 ≤ 12540 * 2^n := by
      have : (49 * ((2 * e + 1).toNat : Nat) : ℤ) ≤ 2^n := by exact_mod_cast hm
      linarith
    exact_mod_cast this
  rw [h1]
  refine (sum_le_sum h2).trans ?_
  rw [sum_div (fun q : Nat => ((|(q : ℤ) - 24| * 1024 + 1 : ℤ) : ℝ)) hm0]
  refine le_trans (le_of_eq ?_) h3
  push_cast
  rfl

end

theorem unit60 {h : Nat} (hn8 : 8 ≤ n) (hn : n ≤ 16) (hh : h ≤ 128) : Unit60 n h (130 * 2^n) ∧ 17 * 2^n / 24 + 26 + rsErr n h ≤ 130 * 2^n := by
  have h2 : (h:ℝ) ≤ 128 := by exact_mod_cast hh
  have hn8 : (2:ℝ)^8 ≤ 2^n := pow_le_pow_right₀ (by norm_num) hn8
  have hn16 : (2:ℝ)^n ≤ 2^16 := pow_le_pow_right₀ (by norm_num) hn
  norm_num at hn8 hn16
  have hr : rsErr n h ≤ 129 * 2^n := by
    unfold rsErr
    have : (2:ℝ)^n * (h + 1) ≤ 2^n * 129 := by gcongr; linarith
    linarith
  refine ⟨⟨by linarith, by norm_num; linarith, by linarith, (mulErr_num hn (by omega)).trans (by norm_num)⟩, ?_⟩
  linarith

section
variable {Q0 Q1 Q2 Q3 Q4 Q5 Q6 Q7 Q8 Q9 Q10 Q11 Q12 : Nat} [NeZero Q0] [NeZero Q1] [NeZero Q2] [NeZero Q3] [NeZero Q4]
  [NeZero Q5] [NeZero Q6] [NeZero Q7] [NeZero Q8] [NeZero Q9] [NeZero Q10] [NeZero Q11] [NeZero Q12]

set_option maxHeartbeats 1000000 in
/-- C71: `measure_b_evalmod` returns, and prints at most `637100·130·2^(LOGN-1)/2^50` and a cubic error below `2e-10`. -/
theorem C71_measure_b_evalmod (R : Nat) (hn8 : 8 ≤ n) (hn : n ≤ 16) (hC : EvalModChain 60 Q0 Q1 Q2 Q3 Q4 Q5 Q6 Q7 Q8 Q9 Q10 Q11 Q12)
    (hlo : 65 ≤ Q12) (hhi : Q1 ≤ 1525) (H : Int) (hH : H ≤ (2^(n+1) : Nat)) (hH2 : H ≤ 128) (ct0 : R_Q_square Q0 (2^(n+1)))
    (ω : Rng) (hω : ∀ (j : Fin (2^(n+1))) (l : Nat), ∃ m, l ≤ m ∧ ω m % 2^(n+1) = j) :
    Ok (measure_b_evalmod (LOGN := n+1) R 50 60 H 24 Q1 Q2 Q3 Q4 Q5 Q6 Q7 Q8 Q9 Q10 Q11 Q12 ct0 ω) fun r =>
      r ≤ 637100 * 130 * 2^n / 2^50 + 2 / 10^10 := by
  have hC' := hC
  obtain ⟨_, _, _, _, _, _, _, _, _, _, _, _⟩ := hC'
  obtain ⟨hep, hm⟩ := epsNum_pos hn8
  unfold measure_b_evalmod
  refine Ok.bind (C19_keygen_returns H hH ω hω) fun k ⟨hs, hw⟩ => ?_
  have hs' : Ternary k.1 := hs
  have hwt : weight k.1 = H.toNat := hw
  refine Ok.bind (C71_message hn8) fun b hb => ?_
  dsimp only
  generalize epsNum (n+1) = e at *
  rw [shl1_eq (by norm_num), pure_bind]
  have h64 : (2:ℝ)^64 ≤ 2^(Q12-1) := pow_le_pow_right₀ (by norm_num) (by omega)
  have h64' : (2:ℝ)^64 ≤ 2^(Q0-1) := pow_le_pow_right₀ (by norm_num) (by omega)
  have hbc : ∀ i : Fin (2^n), (⟨b.1 i, 0⟩ : ℂ) = ((bR e i : ℝ) : ℂ) := fun i => by rw [(hb i).1]; rfl
  obtain ⟨pt, r, m, er', ept, hpc, hmm, hmB, hpt, er, hrc, he, hph, hsl⟩ := fresh_coeff (Q := Q0) (n := n) R (by omega)
    (by omega) (D := 50) (by norm_num) (z := (b.1, fun _ => 0)) (B := 12540)
    (fun m hm' k => by
      refine (coeff_le_mean (by omega) (by omega) m k).trans ?_
      rw [sum_congr rfl fun i _ => (congrArg norm (hm' i)).trans ((congrArg norm (hbc i)).trans (Complex.norm_real _))]
      exact b_mean (by omega) hm) (by norm_num)
    (lt_of_lt_of_le (by norm_num) h64') hs' ct0 k.2
  rw [ept, pure_bind, er, pure_bind]
  choose I hI1 hI2 using fun i : Fin (2^n) => bR_eq (e := e) i
  have hI1' : ∀ i, |(I i : ℝ)| ≤ 24 := fun i => by exact_mod_cast hI1 i
  have hX1 : ∀ i : Fin (2^n), |bX e i| ≤ 1 := fun i => bX_le (by omega) i
  have hnear : Near k.1 r.1 (fun i : Fin (2^n) => ((2^50 * bR e i : ℝ) : ℂ)) (17 * 2^n) := by
    refine ⟨hrc, _, hph, fun i => ?_⟩
    refine le_trans (le_of_eq ?_) (hsl i)
    congr 2
    beta_reduce
    rw [hbc i, Complex.ofReal_mul, Complex.ofReal_pow, Complex.ofReal_ofNat]
  obtain ⟨hU, hεE⟩ := unit60 (h := weight k.1) hn8 hn (by rw [hwt]; omega)
  have hem : ∀ ω', Ok (EvalModKey R 60 24 Q1 Q2 Q3 Q4 Q5 Q6 Q7 Q8 Q9 Q10 Q11 Q12 r.1 k.1 ω') fun p =>
      Near k.1 p.1 (fun i : Fin (2^n) => ((2^50 * bX e i : ℝ) : ℂ)) (637100 * (130 * 2^n) + 2^60 * (117 * (2^50 / 2^60)^5)) := by
    intro ω'
    refine Ok.mono (EvalModKey_wide R hn hC (by omega) hhi hs' (I := I) (η := 2^50) hnear (fun i => ?_) (fun i => ?_) hU hεE ω')
      fun p hp => hp.mono (fun i => ?_) le_rfl
    · rw [hI2 i]
      have h1 := abs_le.1 (hI1' i)
      have h2 := abs_le.1 (hX1 i)
      constructor
      · norm_num; linarith
      · norm_num; linarith
    · rw [hI2 i, show (2:ℝ)^50 * (I i * 2^10 + bX e i) - 2^60 * I i = 2^50 * bX e i by ring, abs_mul, abs_of_pos (by positivity)]
      have := hX1 i
      have hp : (0:ℝ) < 2^50 := by positivity
      nlinarith
    · rw [hI2 i]; congr 1; ring
  refine Ok.bind (hem _) fun c1 _ => ?_
  refine Ok.bind (hem _) fun c hc => ?_
  have hn16 : (2:ℝ)^n ≤ 2^16 := pow_le_pow_right₀ (by norm_num) hn
  obtain ⟨z1, ez1, hz1⟩ := near_out (D := 50) (X := 2^50) (by omega) (by omega) (by omega) (by norm_num) hs' hc (fun i => by
    rw [Complex.norm_real, Real.norm_eq_abs, abs_mul, abs_of_pos (by positivity)]
    have := hX1 i
    have hp : (0:ℝ) < 2^50 := by positivity
    nlinarith) (by
    refine lt_of_lt_of_le ?_ h64
    norm_num at hn16 ⊢
    linarith)
  obtain ⟨p1, ep1, ez1⟩ := bind_eq_pure ez1
  rw [ep1, pure_bind, ez1, pure_bind]
  refine Ok.pure (sup_norm_le (by positivity) fun i => ?_)
  have g := hz1 i
  have e1 : ((2^50 * bX e i : ℝ) : ℂ) / 2^50 = ((bX e i : ℝ) : ℂ) := by push_cast; field_simp
  rw [e1] at g
  have e2 := (Complex.abs_re_le_norm _).trans g
  have e3 : (((⟨z1.1 i, z1.2 i⟩ : ℂ) - ((bX e i : ℝ) : ℂ)).re) = z1.1 i - bX e i := by simp
  rw [e3] at e2
  have e4 : (⟨(Msg.sub (b.2, fun _ => 0) z1).1 i, 0⟩ : ℂ) = ((bX e i - z1.1 i : ℝ) : ℂ) := by
    show (⟨b.2 i - z1.1 i, 0⟩ : ℂ) = _
    rw [(hb i).2]
    rfl
  show ‖(⟨(Msg.sub (b.2, fun _ => 0) z1).1 i, 0⟩ : ℂ)‖ ≤ _
  rw [e4, Complex.norm_real, Real.norm_eq_abs, abs_sub_comm]
  refine e2.trans ?_
  rw [add_div]
  refine add_le_add (le_of_eq (by ring)) (by norm_num)

end

set_option maxRecDepth 4000 in
/-- C71 is not vacuous: the drivers of rns.h print at most `2e-5` for `LOGN = 9`, -/
example (ct0 : R_Q_square 1450 (2^(8+1))) :
    Ok (measure_b_evalmod (LOGN := 8+1) (2^31-1) 50 60 128 24 1390 1330 1270 1210 1150 1090 1030 970 910 850 790 730 ct0 id) fun r =>
      r ≤ 2 / 10^5 := by
  refine Ok.mono (C71_measure_b_evalmod (2^31-1) (by norm_num) (by norm_num) (by unfold EvalModChain; norm_num) (by norm_num)
    (by norm_num) 128 (by norm_num) (by norm_num) ct0 id
    (fun j l => ⟨2^(8+1) * l + j, by omega, by have := j.isLt; simp only [id]; omega⟩)) fun r hr => hr.trans ?_
  norm_num

set_option maxRecDepth 4000 in
/-- `3.1e-4` for `LOGN = 13`, -/
example (ct0 : R_Q_square 1450 (2^(12+1))) :
    Ok (measure_b_evalmod (LOGN := 12+1) (2^31-1) 50 60 128 24 1390 1330 1270 1210 1150 1090 1030 970 910 850 790 730 ct0 id) fun r =>
      r ≤ 31 / 10^5 := by
  refine Ok.mono (C71_measure_b_evalmod (2^31-1) (by norm_num) (by norm_num) (by unfold EvalModChain; norm_num) (by norm_num)
    (by norm_num) 128 (by norm_num) (by norm_num) ct0 id
    (fun j l => ⟨2^(12+1) * l + j, by omega, by have := j.isLt; simp only [id]; omega⟩)) fun r hr => hr.trans ?_
  norm_num

set_option maxRecDepth 4000 in
/-- and `5e-3` for `LOGN = 17`. -/
example (ct0 : R_Q_square 1450 (2^(16+1))) :
    Ok (measure_b_evalmod (LOGN := 16+1) (2^31-1) 50 60 128 24 1390 1330 1270 1210 1150 1090 1030 970 910 850 790 730 ct0 id) fun r =>
      r ≤ 5 / 10^3 := by
  refine Ok.mono (C71_measure_b_evalmod (2^31-1) (by norm_num) (by norm_num) (by unfold EvalModChain; norm_num) (by norm_num)
    (by norm_num) 128 (by norm_num) (by norm_num) ct0 id
    (fun j l => ⟨2^(16+1) * l + j, by omega, by have := j.isLt; simp only [id]; omega⟩)) fun r hr => hr.trans ?_
  norm_num

/-- C71: the first slot of the message is `-24 - 1/1024` in units of `2^60`, below the `-23.75` where the argument
`(4y-1)/96` of the Chebyshev polynomial leaves `[-1, 1]`. -/
theorem C71_outside (hn : 8 ≤ n) : Ok (bMessage (n+1)) fun b => b.1 ⟨0, Nat.two_pow_pos _⟩ = -24 * 1024 - 1 ∧
    (4 * (b.1 ⟨0, Nat.two_pow_pos _⟩ / 1024) - 1) / 96 < -1 := by
  obtain ⟨h2, hm⟩ := epsNum_pos hn
  refine Ok.mono (C71_message hn) fun b hb => ?_
  have h := (hb ⟨0, Nat.two_pow_pos _⟩).1
  unfold bR at h
  rw [if_pos (by show 0 < _; omega)] at h
  have h0 : ((epsNum (n+1) : ℤ) : ℝ) ≠ 0 := by
    have : epsNum (n+1) ≠ 0 := by omega
    exact_mod_cast this
  have e : b.1 ⟨0, Nat.two_pow_pos _⟩ = -24 * 1024 - 1 := by
    refine h.trans ?_
    simp only [Nat.zero_div, Nat.zero_mod]
    push_cast
    field_simp
    ring
  rw [e]
  norm_num

end EvalRound

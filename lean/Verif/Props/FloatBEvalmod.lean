import Verif.Model.FloatBEvalmod
import Verif.Proofs.FloatEvalModWide
import Verif.Proofs.FloatTests
import Verif.Props.BEvalmod
import Verif.Props.FloatMat
import Verif.Props.FloatMessage
import Verif.Props.FloatTests

/-!
# C90: the program measure_b_evalmod in binary64
-/

namespace EvalRound
open Z_Q Finset

variable {n : Nat}

theorem fl_small_int {k : ℤ} (h : |k| ≤ 2^20) : fl (k : ℝ) = pure (k : ℝ) :=
  fl_exact (k := k) (e := 0) (lt_of_le_of_lt h (by norm_num)) (by norm_num) (by norm_num) (by simp)

/-- one entry of the message and of the expected result -/
theorem b_entryF {P : ℝ} (hP : |P - 1024| ≤ 1024/2^52) {i j e : ℤ} (hi : |i| ≤ 24) (hj : |j| ≤ e) (he0 : 0 < e) (he : e ≤ 2^20) :
    ∃ p q v : ℝ, fl (i : ℝ) = pure (i : ℝ) ∧ fl ((i : ℝ) * P) = pure p ∧ fl (j : ℝ) = pure (j : ℝ) ∧ fl (e : ℝ) = pure (e : ℝ) ∧
      fl ((j : ℝ) / e) = pure q ∧ fl (p + q) = pure v ∧ |v - (i * 2^10 + j / (e : ℝ))| ≤ 1/2^36 ∧ |q - j / (e : ℝ)| ≤ 1/2^52 := by
  have hu := uF_pos.le
  have hη : etaF ≤ 1/1000 * uF := by have := etaF_le_uF; have := uF_pos; norm_num at *; linarith
  have hir : |(i:ℝ)| ≤ 24 := by exact_mod_cast hi
  have her : (0:ℝ) < e := by exact_mod_cast he0
  have hjr : |(j:ℝ) / e| ≤ 1 := by
    rw [abs_div, abs_of_pos her, div_le_one her]
    exact_mod_cast hj
  have big : ∀ x : ℝ, x ≤ 2^20 → x ≤ 2^1020 := fun x hx => hx.trans (pow_le_pow_right₀ (by norm_num) (by norm_num))
  have hP' : |P| ≤ 1025 := by
    have := abs_sub_abs_le_abs_sub P 1024
    rw [abs_of_pos (show (0:ℝ) < 1024 by norm_num)] at this
    norm_num at hP this ⊢
    linarith
  have hiP : |(i:ℝ) * P| ≤ 24 * 1025 := by
    rw [abs_mul]; exact mul_le_mul hir hP' (abs_nonneg _) (by norm_num)
  obtain ⟨p, ep, hp⟩ := fl_near (x := (i:ℝ) * P) (big _ (hiP.trans (by norm_num)))
  obtain ⟨q, eq, hq⟩ := fl_near (x := (j:ℝ) / e) (big _ (hjr.trans (by norm_num)))
  have hp1 : |p - i * P| ≤ 24601 * uF := by
    refine hp.trans ?_
    have := mul_le_mul_of_nonneg_left hiP hu
    linarith
  have hq1 : |q - j / e| ≤ 1.001 * uF := by
    refine hq.trans ?_
    have := mul_le_mul_of_nonneg_left hjr hu
    norm_num at hη ⊢
    linarith
  have hu2 := uF_le
  have hpq : |p + q| ≤ 24603 := by
    have a1 := abs_sub_abs_le_abs_sub p (i * P)
    have a2 := abs_sub_abs_le_abs_sub q ((j:ℝ) / e)
    have a3 := abs_add_le p q
    norm_num at hu2 hq1
    generalize |(i:ℝ) * P| = x at *
    linarith
  obtain ⟨v, ev, hv⟩ := fl_near (x := p + q) (big _ (hpq.trans (by norm_num)))
  have hv1 : |v - (p + q)| ≤ 24604 * uF := by
    refine hv.trans ?_
    have := mul_le_mul_of_nonneg_left hpq hu
    linarith
  refine ⟨p, q, v, fl_small_int (hi.trans (by norm_num)), ep, fl_small_int (hj.trans he), fl_small_int (by rw [abs_of_pos he0]; exact he), eq, ev, ?_, ?_⟩
  · have hiP2 : |(i:ℝ) * P - i * 1024| ≤ 49152 * uF := by
      rw [← mul_sub, abs_mul]
      refine (mul_le_mul hir hP (abs_nonneg _) (by norm_num)).trans (le_of_eq ?_)
      rw [uF_eq]; norm_num
    have e1 : v - (i * 2^10 + j / (e : ℝ)) = (v - (p + q)) + (p - i * P) + (q - j / e) + (i * P - i * 1024) := by ring
    rw [e1]
    refine (abs_add_le _ _).trans ((add_le_add ((abs_add_le _ _).trans (add_le_add ((abs_add_le _ _).trans (add_le_add hv1 hp1)) hq1)) hiP2).trans ?_)
    rw [uF_eq]; norm_num
  · refine hq1.trans ?_
    rw [uF_eq]; norm_num

set_option maxHeartbeats 1000000 in
/-- C90: the message of the driver and the expected result in binary64, from `LOGN = 9` on. -/
theorem C90_message {L : LibmP} (hP : |L.pow 2 10 - 1024| ≤ 1024/2^52) (hn : 8 ≤ n) (hn2 : n ≤ 20) : Ok (bMessageF L (n+1)) fun b => ∀ i : Fin (2^n),
    |b.1 i - bR (epsNum (n+1)) i| ≤ 1/2^36 ∧ |b.2 i - bX (epsNum (n+1)) i| ≤ 1/2^52 := by
  obtain ⟨h2, hm⟩ := epsNum_pos hn
  have hn3 : 2^n ≤ 2^20 := Nat.pow_le_pow_right (by norm_num) hn2
  unfold bMessageF bR bX
  dsimp only
  generalize epsNum (n+1) = e at *
  generalize hmm : (2 * e + 1).toNat = m at *
  have hm0 : 0 < m := by omega
  have he20 : e ≤ 2^20 := by omega
  have key : ∀ a j : Nat, ∃ p q v : ℝ, a < 49 → j < m → fl (((a : ℤ) - 24 : ℤ) : ℝ) = pure (((a : ℤ) - 24 : ℤ) : ℝ) ∧
      fl ((((a : ℤ) - 24 : ℤ) : ℝ) * L.pow 2 10) = pure p ∧ fl (((j : ℤ) - e : ℤ) : ℝ) = pure (((j : ℤ) - e : ℤ) : ℝ) ∧
      fl (e : ℝ) = pure (e : ℝ) ∧ fl ((((j : ℤ) - e : ℤ) : ℝ) / e) = pure q ∧ fl (p + q) = pure v ∧
      |v - ((((a : ℤ) - 24 : ℤ) : ℝ) * 2^10 + (((j : ℤ) - e : ℤ) : ℝ) / (e : ℝ))| ≤ 1/2^36 ∧ |q - (((j : ℤ) - e : ℤ) : ℝ) / (e : ℝ)| ≤ 1/2^52 := by
    intro a j
    by_cases h : a < 49 ∧ j < m
    · obtain ⟨p, q, v, hh⟩ := b_entryF hP (i := (a : ℤ) - 24) (j := (j : ℤ) - e) (e := e) (by rw [abs_le]; omega)
        (by rw [abs_le]; omega) (by omega) he20
      exact ⟨p, q, v, fun _ _ => hh⟩
    · exact ⟨0, 0, 0, fun h1 h2 => absurd ⟨h1, h2⟩ h⟩
  choose p q v hk using key
  let f : Nat → ℝ := fun i => v (i / m) (i % m)
  let g : Nat → ℝ := fun i => q (i / m) (i % m)
  let S := Nat × (Fin (2^(n+1-1)) → ℝ) × (Fin (2^(n+1-1)) → ℝ)
  let I : Nat → S → Prop := fun t s => s.1 = t ∧ ∀ i : Fin (2^n), s.2.1 i = (if i.val < t then f i else 0) ∧ s.2.2 i = (if i.val < t then g i else 0)
  refine Ok.bind (forUp_inv (by norm_num) (fun i (s : S) => I (m * i) s) ⟨by simp, fun i => by simp⟩ fun a s _ ha hs => ?_) fun r hr => ?_
  · have hin := forUp_inv (lo := 0) (hi := m) (s := s) (body := fun j (s : S) => do
      if e = 0 then ub else do
      let ii ← fl (((a : Int) - 24 : Int) : ℝ)
      let p ← fl (ii * L.pow 2 10)
      let jj ← fl (((j : Int) - e : Int) : ℝ)
      let ee ← fl (e : ℝ)
      let q ← fl (jj / ee)
      let v ← fl (p + q)
      let zr ← wr s.2.1 s.1 v
      let er ← wr s.2.2 s.1 q
      pure (s.1 + 1, zr, er)) (by omega) (fun j (s : S) => I (m * a + j) s) (by simpa using hs) fun j s _ hj hs => by
        obtain ⟨h1, h3⟩ := hs
        obtain ⟨k1, k2, k3, k4, k5, k6, -, -⟩ := hk a j ha hj
        have hlt : m * a + j < 2^n := by
          have : m * (a+1) ≤ m * 49 := Nat.mul_le_mul_left _ (by omega)
          rw [mul_add, mul_one] at this
          omega
        have e1 : (m * a + j) / m = a := by rw [Nat.mul_add_div hm0, Nat.div_eq_of_lt hj, add_zero]
        have e2 : (m * a + j) % m = j := by rw [Nat.mul_add_mod, Nat.mod_eq_of_lt hj]
        have ef : f (m * a + j) = v a j := by
          show v ((m * a + j) / m) ((m * a + j) % m) = _
          rw [e1, e2]
        have eg : g (m * a + j) = q a j := by
          show q ((m * a + j) / m) ((m * a + j) % m) = _
          rw [e1, e2]
        beta_reduce
        rw [if_neg (by omega), h1, k1, pure_bind, k2, pure_bind, k3, pure_bind, k4, pure_bind, k5, pure_bind, k6, pure_bind,
          wr_of_lt _ hlt, pure_bind, wr_of_lt _ hlt, pure_bind]
        refine Ok.pure ⟨rfl, fun i => ⟨?_, ?_⟩⟩
        · rw [← ef]
          exact update_below hlt (fun i => (h3 i).1) i
        · rw [← eg]
          exact update_below hlt (fun i => (h3 i).2) i
    refine Ok.mono hin fun s hs => ?_
    have : m * (a + 1) = m * a + m := by ring
    beta_reduce
    rw [this]
    exact hs
  · refine Ok.pure fun i => ?_
    have h := hr.2 i
    rw [mul_comm m 49] at h
    have h1 : r.2.1 i = if i.val < 49 * m then f i else 0 := h.1
    have h3 : r.2.2 i = if i.val < 49 * m then g i else 0 := h.2
    rw [h1, h3]
    by_cases hlt : i.val < 49 * m
    · rw [if_pos hlt, if_pos hlt, if_pos hlt, if_pos hlt]
      obtain ⟨-, -, -, -, -, -, k7, k8⟩ := hk (i.val / m) (i.val % m) (Nat.div_lt_of_lt_mul (by rw [mul_comm]; exact hlt)) (Nat.mod_lt _ hm0)
      exact ⟨k7, k8⟩
    · rw [if_neg hlt, if_neg hlt, if_neg hlt, if_neg hlt]
      norm_num

/-- the unit of the errors: the rounding errors of the integers, and those of the encoding in binary64 -/
noncomputable def bUnit (n : Nat) : ℝ := 130 * 2^n + 130 * (28 * n + 6) * Real.sqrt 2 ^ n + 1000

theorem unitF60 {h : Nat} (hn8 : 8 ≤ n) (hn : n ≤ 16) (hh : h ≤ 128) : Unit60 n h (bUnit n) ∧
    (encTol n (24578 * 2^50) + 16 * 2^n + 2^14) / 24 + 200 + rsErr n h ≤ bUnit n ∧ bUnit n ≤ 24000000 := by
  obtain ⟨⟨lo, hi, rs, mul⟩, h2⟩ := unit60 (h := h) hn8 hn hh
  have hn' : (n:ℝ) ≤ 16 := by exact_mod_cast hn
  have hn0 : (0:ℝ) ≤ n := Nat.cast_nonneg _
  have hs0 : (0:ℝ) ≤ Real.sqrt 2 ^ n := by positivity
  have hs : Real.sqrt 2 ^ n ≤ 2^8 := by
    have : Real.sqrt 2 ^ n ≤ Real.sqrt 2 ^ 16 := pow_le_pow_right₀ (by rw [Real.one_le_sqrt]; norm_num) hn
    rwa [show 16 = 2 * 8 by norm_num, pow_mul, Real.sq_sqrt (by norm_num)] at this
  have hpn : (2:ℝ)^n ≤ 2^16 := pow_le_pow_right₀ (by norm_num) hn
  have hk0 : 0 ≤ (28 * n + 6) * Real.sqrt 2 ^ n := by positivity
  have hk : (28 * n + 6) * Real.sqrt 2 ^ n ≤ 454 * 2^8 := mul_le_mul (by linarith) hs hs0 (by norm_num)
  have ht : (1:ℝ)/2^900 ≤ 1 := by
    rw [div_le_one (by positivity)]
    exact one_le_pow₀ (by norm_num)
  have e : bUnit n = 130 * 2^n + 130 * ((28 * n + 6) * Real.sqrt 2 ^ n) + 1000 := by unfold bUnit; ring
  have e2 : encTol n (24578 * 2^50) ≤ 2^n + 24578/8 * ((28 * n + 6) * Real.sqrt 2 ^ n) + 1 := by
    unfold encTol
    refine add_le_add (le_of_eq ?_) ht
    ring
  rw [e]
  clear e ht
  generalize (28 * (n:ℝ) + 6) * Real.sqrt 2 ^ n = κ at *
  norm_num at lo hi rs h2 hpn hk e2 ⊢
  refine ⟨⟨by linarith, by norm_num; linarith, by linarith, mul⟩, by linarith, by linarith⟩

theorem b_total {U E T : ℝ} (hn : n ≤ 16) (hU : U ≤ 24000000) (hE : E = 637100 * U + 2^60 * (117 * (2^50 / 2^60)^5)) (hE0 : 0 ≤ E)
    (hT : T = E / 2^50 + decTol n (1 + E / 2^50) + 1/2^52) : T ≤ 637100 * U / 2^50 + 13/10^11 ∧ T ≤ 1 := by
  have hn' : (n:ℝ) ≤ 16 := by exact_mod_cast hn
  have hs : Real.sqrt 2 ^ n ≤ 2^8 := by
    have : Real.sqrt 2 ^ n ≤ Real.sqrt 2 ^ 16 := pow_le_pow_right₀ (by rw [Real.one_le_sqrt]; norm_num) hn
    rwa [show 16 = 2 * 8 by norm_num, pow_mul, Real.sq_sqrt (by norm_num)] at this
  have hx : E / 2^50 ≤ 1/64 := by rw [hE]; norm_num; linarith
  have hx0 : 0 ≤ E / 2^50 := by positivity
  have ht : (1:ℝ)/2^900 ≤ 1/2^100 := one_div_le_one_div_of_le (by positivity) (pow_le_pow_right₀ (by norm_num) (by norm_num))
  have hd : decTol n (1 + E / 2^50) ≤ 2^8 * ((28 * 16 + 8) * (1 + 1/64) / 2^53) + 1/2^100 := by
    unfold decTol
    refine add_le_add (mul_le_mul hs ?_ (by positivity) (by norm_num)) ht
    refine div_le_div_of_nonneg_right (mul_le_mul (by linarith) (by linarith) (by linarith) (by norm_num)) (by norm_num)
  have hE' : E / 2^50 = 637100 * U / 2^50 + 117 / 2^40 := by rw [hE]; ring
  constructor
  · rw [hT, hE']
    rw [hE'] at hd
    generalize decTol n (1 + (637100 * U / 2^50 + 117 / 2^40)) = δ at *
    norm_num at hd ⊢
    linarith
  · rw [hT]
    generalize decTol n (1 + E / 2^50) = δ at *
    generalize E / 2^50 = x at *
    norm_num at hd hx ⊢
    linarith

theorem b_slack {a b : ℂ} {T : ℝ} (h : ‖a - b‖ ≤ 1/2^53 * ‖b‖ + 1/2^1074) (hb : ‖b‖ ≤ T) (hT : T ≤ 1) : ‖a‖ ≤ T + 1/2^50 := by
  have h1 := norm_sub_norm_le a b
  have ht : (1:ℝ)/2^1074 ≤ 1/2^100 := one_div_le_one_div_of_le (by positivity) (pow_le_pow_right₀ (by norm_num) (by norm_num))
  have h2 := h.trans (add_le_add le_rfl ht)
  clear h ht
  generalize ‖a - b‖ = x at *
  generalize ‖a‖ = y at *
  generalize ‖b‖ = z at *
  norm_num at h2 ⊢
  linarith

theorem b_le_500 {T : ℝ} (hT : T ≤ 1) : T + 1/2^50 ≤ 2^500 := by
  have ht : (2:ℝ)^1 ≤ 2^500 := pow_le_pow_right₀ (by norm_num) (by norm_num)
  refine le_trans ?_ ht
  norm_num
  linarith

theorem b_final {U T S x : ℝ} (hT : T ≤ 637100 * U / 2^50 + 13/10^11) (hT1 : T ≤ 1) (hS : S ≤ T + 1/2^50) (hx : |x - S| ≤ 4/2^53 * S + 1/2^530) :
    x ≤ 637100 * U / 2^50 + 2/10^10 := by
  have ht : (1:ℝ)/2^530 ≤ 1/2^100 := one_div_le_one_div_of_le (by positivity) (pow_le_pow_right₀ (by norm_num) (by norm_num))
  have h2 := (le_abs_self _).trans (hx.trans (add_le_add le_rfl ht))
  clear hx ht
  norm_num at hT hS h2 ⊢
  linarith

section
variable {Q0 Q1 Q2 Q3 Q4 Q5 Q6 Q7 Q8 Q9 Q10 Q11 Q12 : Nat} [NeZero Q0] [NeZero Q1] [NeZero Q2] [NeZero Q3] [NeZero Q4]
  [NeZero Q5] [NeZero Q6] [NeZero Q7] [NeZero Q8] [NeZero Q9] [NeZero Q10] [NeZero Q11] [NeZero Q12]

set_option maxHeartbeats 1000000 in
/-- C90: `measure_b_evalmod` in binary64 returns, and prints at most `637100` units and a cubic error below `2e-10`. -/
theorem C90_measure_b_evalmod {L : LibmP} (hL : L.Accurate) (hP : |L.pow 2 10 - 2^10| ≤ 2^10/2^52) (R : Nat) (hn8 : 8 ≤ n) (hn : n ≤ 16)
    (hC : EvalModChain 60 Q0 Q1 Q2 Q3 Q4 Q5 Q6 Q7 Q8 Q9 Q10 Q11 Q12)
    (hlo : 65 ≤ Q12) (hhi : Q1 ≤ 1525) (H : Int) (hH : H ≤ (2^(n+1) : Nat)) (hH2 : H ≤ 128) (ct0 : R_Q_square Q0 (2^(n+1)))
    (ω : Rng) (hω : ∀ (j : Fin (2^(n+1))) (l : Nat), ∃ m, l ≤ m ∧ ω m % 2^(n+1) = j) :
    Ok (measure_b_evalmodF (LOGN := n+1) L R 50 60 H 24 Q1 Q2 Q3 Q4 Q5 Q6 Q7 Q8 Q9 Q10 Q11 Q12 ct0 ω) fun r =>
      r ≤ 637100 * (130 * 2^n + 130 * (28 * n + 6) * Real.sqrt 2 ^ n + 1000) / 2^50 + 2 / 10^10 := by
  have hC' := hC
  obtain ⟨_, _, _, _, _, _, _, _, _, _, _, _⟩ := hC'
  obtain ⟨hep, hm⟩ := epsNum_pos hn8
  unfold measure_b_evalmodF
  refine Ok.bind (C19_keygen_returns H hH ω hω) fun k ⟨hs, hw⟩ => ?_
  have hs' : Ternary k.1 := hs
  have hwt : weight k.1 = H.toNat := hw
  refine Ok.bind (C90_message (by norm_num at hP ⊢; exact hP) hn8 (by omega)) fun b hb => ?_
  dsimp only
  generalize epsNum (n+1) = e at *
  rw [shl1_eq (by norm_num), pure_bind]
  have h64 : (2:ℝ)^64 ≤ 2^(Q12-1) := pow_le_pow_right₀ (by norm_num) (by omega)
  have h64' : (2:ℝ)^64 ≤ 2^(Q0-1) := pow_le_pow_right₀ (by norm_num) (by omega)
  choose I hI1 hI2 using fun i : Fin (2^n) => bR_eq (e := e) i
  have hI1' : ∀ i, |(I i : ℝ)| ≤ 24 := fun i => by exact_mod_cast hI1 i
  have hX1 : ∀ i : Fin (2^n), |bX e i| ≤ 1 := fun i => bX_le (by omega) i
  have hbR : ∀ i : Fin (2^n), |bR e i| ≤ 24577 := fun i => by
    rw [hI2 i]
    have h1 := abs_le.1 (hI1' i)
    have h2 := abs_le.1 (hX1 i)
    rw [abs_le]
    constructor <;> linarith [h1.1, h1.2, h2.1, h2.2]
  have hbc : ∀ i : Fin (2^n), ‖(⟨b.1 i, 0⟩ : ℂ) - ((bR e i : ℝ) : ℂ)‖ ≤ 1/2^36 := fun i => by
    have : (⟨b.1 i, 0⟩ : ℂ) - ((bR e i : ℝ) : ℂ) = ((b.1 i - bR e i : ℝ) : ℂ) := by apply Complex.ext <;> simp
    rw [this, Complex.norm_real]
    exact (hb i).1
  have hbn : ∀ i : Fin (2^n), ‖(⟨b.1 i, 0⟩ : ℂ)‖ ≤ |bR e i| + 1/2^36 := fun i => by
    have g := norm_sub_norm_le (⟨b.1 i, 0⟩ : ℂ) ((bR e i : ℝ) : ℂ)
    rw [Complex.norm_real, Real.norm_eq_abs] at g
    have := hbc i
    linarith
  have hmean : (∑ i : Fin (2^n), ‖(⟨b.1 i, 0⟩ : ℂ)‖) / 2^n ≤ 12541 := by
    have hp : (0:ℝ) < 2^n := by positivity
    have h1 := b_mean (n := n) (e := e) (by omega) hm
    rw [div_le_iff₀ hp] at h1 ⊢
    have h2 : ∑ i : Fin (2^n), ‖(⟨b.1 i, 0⟩ : ℂ)‖ ≤ ∑ i : Fin (2^n), (|bR e i| + 1/2^36) := sum_le_sum fun i _ => hbn i
    rw [sum_add_distrib, sum_const, card_univ, Fintype.card_fin, nsmul_eq_mul] at h2
    push_cast at h2
    have h3 : (2:ℝ)^n * (1/2^36) ≤ 2^n * 1 := mul_le_mul_of_nonneg_left (by norm_num) hp.le
    linarith
  obtain ⟨pt, r, m, er', ept, hpc, hmm, hmB, hpt, er, hrc, he, hph, hsl⟩ := fresh_coeffF (Q := Q0) (n := n) hL.1 R (by omega)
    (by omega) (D := 50) (by norm_num) (z := (b.1, fun _ => 0)) (B := 24578) (C := 12541)
    (fun i => (hbn i).trans (by have := hbR i; norm_num; linarith))
    (fun m hm' k => by
      refine (coeff_le_mean (by omega) (by omega) m k).trans ?_
      rw [sum_congr rfl fun i _ => congrArg norm (hm' i)]
      exact hmean) (by norm_num) (by norm_num) (by norm_num)
    (le_trans (by norm_num) h64') hs' ct0 k.2
  rw [ept, pure_bind, er, pure_bind]
  have hnear : Near k.1 r.1 (fun i : Fin (2^n) => ((2^50 * bR e i : ℝ) : ℂ)) (encTol n (24578 * 2^50) + 16 * 2^n + 2^14) := by
    refine ⟨hrc, _, hph, fun i => ?_⟩
    have g2 := norm_sub_le_norm_sub_add_norm_sub (slots n (R_Q.sval pt + er') i) (2^50 * ⟨b.1 i, 0⟩) ((2^50 * bR e i : ℝ) : ℂ)
    refine g2.trans (add_le_add (hsl i) ?_)
    rw [Complex.ofReal_mul, Complex.ofReal_pow, Complex.ofReal_ofNat, ← mul_sub, norm_mul, norm_pow, Complex.norm_ofNat]
    refine (mul_le_mul_of_nonneg_left (hbc i) (by positivity)).trans ?_
    norm_num
  obtain ⟨hU, hεE, hUB⟩ := unitF60 (h := weight k.1) hn8 hn (by rw [hwt]; omega)
  have hem : ∀ ω', Ok (EvalModKeyF R 60 24 Q1 Q2 Q3 Q4 Q5 Q6 Q7 Q8 Q9 Q10 Q11 Q12 r.1 k.1 ω') fun p =>
      Near k.1 p.1 (fun i : Fin (2^n) => 2^50 * ((bX e i : ℝ) : ℂ)) (637100 * bUnit n + 2^60 * (117 * (2^50 / 2^60)^5)) := by
    intro ω'
    refine Ok.mono (EvalModKeyF_wide R hn hC (by omega) hhi hs' (I := I) (η := 2^50) hnear (fun i => ?_) (fun i => ?_) hU hεE ω')
      fun p hp => hp.mono (fun i => ?_) le_rfl
    · rw [hI2 i]
      have h1 := abs_le.1 (hI1' i)
      have h2 := abs_le.1 (hX1 i)
      constructor
      · norm_num; linarith
      · norm_num; linarith
    · rw [hI2 i, show (2:ℝ)^50 * (I i * 2^10 + bX e i) - 2^60 * I i = 2^50 * bX e i by ring, abs_mul, abs_of_pos (by positivity)]
      have := hX1 i
      have hp : (0:ℝ) < 2^50 := by positivity
      nlinarith
    · rw [hI2 i]; push_cast; ring
  refine Ok.bind (hem _) fun c1 _ => ?_
  refine Ok.bind (hem _) fun c hc => ?_
  obtain ⟨E, hE⟩ : ∃ E : ℝ, E = 637100 * bUnit n + 2^60 * (117 * (2^50 / 2^60)^5) := ⟨_, rfl⟩
  rw [← hE] at hc
  have hE0 := hc.nonneg
  have hE2 : E ≤ 2^44 := by rw [hE]; norm_num; linarith
  obtain ⟨z1, ez1, hz1⟩ := near_outS (D := 50) (Y := 1) hL.1 (by omega) (by omega) (by omega) (by norm_num) hs' hc (fun i => by
    rw [Complex.norm_real, Real.norm_eq_abs]; exact hX1 i) (by
    refine lt_of_lt_of_le ?_ h64
    norm_num at hE2 ⊢
    linarith) one_800 (small_800 (hE2.trans (by norm_num)) _)
  obtain ⟨p1, ep1, ez1⟩ := bind_eq_pure ez1
  rw [ep1, pure_bind, ez1, pure_bind]
  obtain ⟨T, hT⟩ : ∃ T : ℝ, T = E / 2^50 + decTol n (1 + E / 2^50) + 1/2^52 := ⟨_, rfl⟩
  have hT1 : T ≤ 637100 * bUnit n / 2^50 + 13/10^11 ∧ T ≤ 1 := b_total hn hUB hE hE0 hT
  have hT0 : 0 ≤ T := by
    rw [hT]; unfold decTol; positivity
  have hd : ∀ i : Fin (2^n), ‖Complex.mk (b.2 i) 0 - Complex.mk (z1.1 i) (z1.2 i)‖ ≤ T := fun i => by
    have h1 : ‖Complex.mk (b.2 i) 0 - ((bX e i : ℝ) : ℂ)‖ ≤ 1/2^52 := by
      have : Complex.mk (b.2 i) 0 - ((bX e i : ℝ) : ℂ) = ((b.2 i - bX e i : ℝ) : ℂ) := by apply Complex.ext <;> simp
      rw [this, Complex.norm_real]
      exact (hb i).2
    have h2 := hz1 i
    rw [norm_sub_rev] at h2
    refine (norm_sub_le_norm_sub_add_norm_sub _ ((bX e i : ℝ) : ℂ) _).trans ((add_le_add h1 h2).trans (le_of_eq ?_))
    rw [hT]; ring
  refine Ok.bind (C84_sub (n := 2^n) (b.2, fun _ => 0) z1 fun i => (hd i).trans (hT1.2.trans (one_le_pow₀ (by norm_num)))) fun d hdd => ?_
  have hv : ∀ i : Fin (2^n), ‖Complex.mk (d.1 i) 0‖ ≤ T + 1/2^50 := fun i => by
    have h1 : ‖Complex.mk (d.1 i) 0‖ ≤ ‖Complex.mk (d.1 i) (d.2 i)‖ := by
      have : Complex.mk (d.1 i) 0 = (((Complex.mk (d.1 i) (d.2 i)).re : ℝ) : ℂ) := by apply Complex.ext <;> simp
      rw [this, Complex.norm_real]
      exact Complex.abs_re_le_norm _
    refine h1.trans (b_slack (hdd i) (hd i) hT1.2)
  have hsup : (⨆ i : Fin (2^n), ‖Complex.mk (d.1 i) 0‖) ≤ T + 1/2^50 := ciSup_le hv
  refine Ok.mono (C84_sup_norm (n := 2^n) (d.1, fun _ => 0) fun i => (hv i).trans (b_le_500 hT1.2)) fun x hx => ?_
  have hx' : |x - ⨆ i : Fin (2^n), ‖Complex.mk (d.1 i) 0‖| ≤ 4/2^53 * (⨆ i : Fin (2^n), ‖Complex.mk (d.1 i) 0‖) + 1/2^530 := hx
  exact b_final hT1.1 hT1.2 hsup hx'

end

/-! ## The parameters of the driver; the libm that rounds the exact values meets the hypotheses -/

theorem exact_pow10 : |exactLibmP.pow 2 10 - 2^10| ≤ 2^10/2^52 := by
  have h : exactLibmP.pow 2 10 = rnd (((2:ℝ)) ^ (10:ℝ)) := rfl
  have e : ((2:ℝ)) ^ (10:ℝ) = 2^10 := by rw [← Real.rpow_natCast]; norm_num
  rw [h, e]
  have h2 : |rnd ((2:ℝ)^10) - 2^10| ≤ uF * |(2:ℝ)^10| + etaF := by rw [uF_eq, etaF_eq]; exact rnd_err _
  have h3 := etaF_le_uF
  have h4 := uF_pos
  refine h2.trans ?_
  rw [abs_of_pos (by positivity), show (2:ℝ)^10/2^52 = 2^11 * uF by rw [uF_eq]; norm_num]
  norm_num at h3 ⊢
  linarith

theorem bUnit_even (k : Nat) : 130 * 2^(2*k) + 130 * (28 * ((2*k : ℕ):ℝ) + 6) * Real.sqrt 2 ^ (2*k) + 1000 =
    130 * (2^k)^2 + 130 * (28 * (2*k) + 6) * 2^k + 1000 := by
  rw [pow_mul (Real.sqrt 2), Real.sq_sqrt (by norm_num), mul_comm 2 k, pow_mul]
  push_cast
  ring

set_option maxRecDepth 4000 in
/-- `3e-4` for `LOGN = 9`, -/
example (ct0 : R_Q_square 1450 (2^(8+1))) :
    Ok (measure_b_evalmodF (LOGN := 8+1) exactLibmP (2^31-1) 50 60 128 24 1390 1330 1270 1210 1150 1090 1030 970 910 850 790 730 ct0 id) fun r =>
      r ≤ 3 / 10^4 := by
  refine Ok.mono (C90_measure_b_evalmod exactLibmP_accurate exact_pow10 (2^31-1) (by norm_num) (by norm_num) (by unfold EvalModChain; norm_num)
    (by norm_num) (by norm_num) 128 (by norm_num) (by norm_num) ct0 id
    (fun j l => ⟨2^(8+1) * l + j, by omega, by have := j.isLt; simp only [id]; omega⟩)) fun r hr => hr.trans ?_
  rw [bUnit_even 4]
  norm_num

set_option maxRecDepth 4000 in
/-- `2e-3` for `LOGN = 13`, -/
example (ct0 : R_Q_square 1450 (2^(12+1))) :
    Ok (measure_b_evalmodF (LOGN := 12+1) exactLibmP (2^31-1) 50 60 128 24 1390 1330 1270 1210 1150 1090 1030 970 910 850 790 730 ct0 id) fun r =>
      r ≤ 2 / 10^3 := by
  refine Ok.mono (C90_measure_b_evalmod exactLibmP_accurate exact_pow10 (2^31-1) (by norm_num) (by norm_num) (by unfold EvalModChain; norm_num)
    (by norm_num) (by norm_num) 128 (by norm_num) (by norm_num) ct0 id
    (fun j l => ⟨2^(12+1) * l + j, by omega, by have := j.isLt; simp only [id]; omega⟩)) fun r hr => hr.trans ?_
  rw [bUnit_even 6]
  norm_num

set_option maxRecDepth 4000 in
/-- and `1.4e-2` for `LOGN = 17`. -/
example (ct0 : R_Q_square 1450 (2^(16+1))) :
    Ok (measure_b_evalmodF (LOGN := 16+1) exactLibmP (2^31-1) 50 60 128 24 1390 1330 1270 1210 1150 1090 1030 970 910 850 790 730 ct0 id) fun r =>
      r ≤ 14 / 10^3 := by
  refine Ok.mono (C90_measure_b_evalmod exactLibmP_accurate exact_pow10 (2^31-1) (by norm_num) (by norm_num) (by unfold EvalModChain; norm_num)
    (by norm_num) (by norm_num) 128 (by norm_num) (by norm_num) ct0 id
    (fun j l => ⟨2^(16+1) * l + j, by omega, by have := j.isLt; simp only [id]; omega⟩)) fun r hr => hr.trans ?_
  rw [bUnit_even 8]
  norm_num

/-- C90: the first slot of the message stays below `-23.75` units of `2^60` in binary64 too: the Chebyshev polynomial is
evaluated outside of `[-1, 1]`. -/
theorem C90_outside {L : LibmP} (hP : |L.pow 2 10 - 2^10| ≤ 2^10/2^52) (hn : 8 ≤ n) (hn2 : n ≤ 20) : Ok (bMessageF L (n+1)) fun b =>
    (4 * (b.1 ⟨0, Nat.two_pow_pos _⟩ / 1024) - 1) / 96 < -1 := by
  obtain ⟨h2, hm⟩ := epsNum_pos hn
  refine Ok.mono (C90_message (by norm_num at hP ⊢; exact hP) hn hn2) fun b hb => ?_
  have h := (hb ⟨0, Nat.two_pow_pos _⟩).1
  obtain ⟨b', eb, h'⟩ := C71_outside hn
  obtain ⟨b'', eb2, h''⟩ := C71_message hn
  have := pure_inj (eb2.symm.trans eb)
  subst this
  rw [← (h'' _).1, h'.1, abs_le] at h
  have h3 := h.2
  norm_num at h3
  linarith

/-- C90: a driver of `LOGN ≤ 8` divides by `eps_num = 0`: `0.0 / 0.0` is a NaN, which the model counts as a fault -/
theorem C90_small {L : LibmP} : ∀ LOGN ≤ 8, bMessageF L LOGN = ub := by
  intro N hN
  have h0 : epsNum N = 0 := by interval_cases N <;> rfl
  unfold bMessageF
  rw [h0]
  rfl

end EvalRound

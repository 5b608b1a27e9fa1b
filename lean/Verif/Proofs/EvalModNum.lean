import Verif.Spec.EvalMod
import Mathlib.Analysis.Real.Pi.Bounds

/-! # A numerical bound for the error of `EvalMod` -/

namespace EvalRound

/-! ## the error with the parameters of the drivers -/

section
variable {n h : Nat}

theorem rsErr_num (hn : n ≤ 16) (hh : h ≤ 192) : rsErr n h ≤ 12648448 := by
  unfold rsErr
  have h1 : (2:ℝ)^n ≤ 2^16 := pow_le_pow_right₀ (by norm_num) hn
  have h2 : (h:ℝ) ≤ 192 := by exact_mod_cast hh
  calc (2:ℝ)^n * (h + 1) ≤ 2^16 * (192 + 1) := by gcongr
    _ = _ := by norm_num

theorem mulErr_num (hn : n ≤ 16) (hh : h ≤ 192) : mulErr n h ≤ 68732125184 := by
  unfold mulErr
  have h1 : (2:ℝ)^(n+1) ≤ 2^17 := pow_le_pow_right₀ (by norm_num) (by omega)
  have h2 : (h:ℝ) ≤ 192 := by exact_mod_cast hh
  calc (2:ℝ)^(n+1) * (4 * 2^(n+1) + (h + 1) / 2) ≤ 2^17 * (4 * 2^17 + (192 + 1) / 2) := by gcongr
    _ = _ := by norm_num

theorem rsErr_nonneg (n h : Nat) : 0 ≤ rsErr n h := by unfold rsErr; positivity

theorem mulErr_nonneg (n h : Nat) : 0 ≤ mulErr n h := by unfold mulErr; positivity

theorem tErr_nonneg {Δ ε : ℝ} (hΔ : 0 ≤ Δ) (hε : 0 ≤ ε) : ∀ j, 0 ≤ tErr n h Δ ε j
  | 0 => hε
  | j+1 => by
    have h1 := tErr_nonneg hΔ hε j
    have h2 := rsErr_nonneg n h
    have h3 := mulErr_nonneg n h
    rw [tErr]; positivity

theorem lErr_nonneg {Δ ε U : ℝ} (hΔ : 0 ≤ Δ) (hε : 0 ≤ ε) (hU : 0 ≤ U) : ∀ j, 0 ≤ lErr n h Δ ε U j
  | 0 => by
    have h2 := rsErr_nonneg n h
    rw [lErr]; positivity
  | j+1 => by
    have h0 := lErr_nonneg hΔ hε hU j
    have h1 := tErr_nonneg (n := n) (h := h) hΔ hε (j+1)
    have h2 := rsErr_nonneg n h
    have h3 := mulErr_nonneg n h
    rw [lErr]; positivity

theorem tErr_step {ε a b : ℝ} {j : Nat} (hn : n ≤ 16) (hh : h ≤ 192) (hε : 0 ≤ ε) (ha : tErr n h (2^60) ε j ≤ a)
    (hb : 2 * (2 * 2^60 * a + a^2 + 68732125184) / 2^60 + 12648448 ≤ b) : tErr n h (2^60) ε (j+1) ≤ b := by
  have h0 := tErr_nonneg (n := n) (h := h) (Δ := 2^60) (by positivity) hε j
  have h1 := rsErr_num hn hh
  have h2 := mulErr_num hn hh
  refine le_trans ?_ hb
  rw [tErr]
  gcongr

theorem lErr_step {ε a l b : ℝ} {j : Nat} (hn : n ≤ 16) (hh : h ≤ 192) (hε : 0 ≤ ε) (ha : tErr n h (2^60) ε (j+1) ≤ a)
    (hl : lErr n h (2^60) ε 3 j ≤ l)
    (hb : ((2^60 + a) * l + 2^60 * 3 * a + 68732125184 + 2^60 * l) / 2^60 + 12648448 ≤ b) : lErr n h (2^60) ε 3 (j+1) ≤ b := by
  have h0 := tErr_nonneg (n := n) (h := h) (Δ := 2^60) (by positivity) hε (j+1)
  have h3 := lErr_nonneg (n := n) (h := h) (Δ := 2^60) (U := 3) (by positivity) hε (by norm_num) j
  have h4 : 0 ≤ a := h0.trans ha
  have h1 := rsErr_num hn hh
  have h2 := mulErr_num hn hh
  refine le_trans ?_ hb
  rw [lErr]
  gcongr

theorem evalModErr_num {ε : ℝ} (hn : n ≤ 16) (hh : h ≤ 192) (hε : 0 ≤ ε) (hε' : ε ≤ 2^20) :
    evalModErr n h (2^60) 24 ε ≤ 2^41 := by
  have hR := rsErr_num hn hh
  have hM := mulErr_num hn hh
  have hR0 := rsErr_nonneg n h
  have hM0 := mulErr_nonneg n h
  have hs0 : 0 ≤ startErr n h 24 ε := by unfold startErr; positivity
  have hs : startErr n h 24 ε ≤ 12692164 := by unfold startErr; linarith
  have t0 : tErr n h (2^60) (startErr n h 24 ε) 0 ≤ 12692164 := hs
  have t1 : tErr n h (2^60) (startErr n h 24 ε) 1 ≤ 63417105 := tErr_step hn hh hs0 t0 (by norm_num)
  have t2 : tErr n h (2^60) (startErr n h 24 ε) 2 ≤ 266316869 := tErr_step hn hh hs0 t1 (by norm_num)
  have t3 : tErr n h (2^60) (startErr n h 24 ε) 3 ≤ 1077915925 := tErr_step hn hh hs0 t2 (by norm_num)
  have t4 : tErr n h (2^60) (startErr n h 24 ε) 4 ≤ 4324312151 := tErr_step hn hh hs0 t3 (by norm_num)
  have l0 : lErr n h (2^60) (startErr n h 24 ε) 3 0 ≤ 50724942 := by rw [lErr]; linarith
  have l1 : lErr n h (2^60) (startErr n h 24 ε) 3 1 ≤ 304349648 := lErr_step hn hh hs0 t1 l0 (by norm_num)
  have l2 : lErr n h (2^60) (startErr n h 24 ε) 3 2 ≤ 1420298352 := lErr_step hn hh hs0 t2 l1 (by norm_num)
  have l3 : lErr n h (2^60) (startErr n h 24 ε) 3 3 ≤ 6086992929 := lErr_step hn hh hs0 t3 l2 (by norm_num)
  have l4 : lErr n h (2^60) (startErr n h 24 ε) 3 4 ≤ 25159570782 := lErr_step hn hh hs0 t4 l3 (by norm_num)
  have c0 : 0 ≤ cosErr n h (2^60) 24 ε := by
    have := lErr_nonneg (n := n) (h := h) (Δ := 2^60) (U := 3) (by positivity) hs0 (by norm_num) 4
    unfold cosErr; positivity
  have a0 : tErr n h (2^60) (cosErr n h (2^60) 24 ε) 0 ≤ 25159616899 := by
    have e : (2:ℝ)^60 * (4 / 10^14) ≤ 46117 := by norm_num
    exact (add_le_add l4 e).trans (by norm_num)
  have a1 : tErr n h (2^60) (cosErr n h (2^60) 24 ε) 1 ≤ 100651117143 := tErr_step hn hh c0 a0 (by norm_num)
  have a2 : tErr n h (2^60) (cosErr n h (2^60) 24 ε) 2 ≤ 402617134594 := tErr_step hn hh c0 a1 (by norm_num)
  have a3 : tErr n h (2^60) (cosErr n h (2^60) 24 ε) 3 ≤ 1610481468024 := tErr_step hn hh c0 a2 (by norm_num)
  have a4 : tErr n h (2^60) (cosErr n h (2^60) 24 ε) 4 ≤ 6441943019811 := tErr_step hn hh c0 a3 (by norm_num)
  have ha0 : 0 ≤ angleErr n h (2^60) 24 ε := tErr_nonneg (by positivity) c0 4
  have ha : angleErr n h (2^60) 24 ε ≤ 6441943019811 := a4
  unfold evalModErr
  generalize angleErr n h (2^60) 24 ε = a at *
  have hpi := Real.pi_gt_three
  have x0 : 0 ≤ sixErr n h (2^60) a := by unfold sixErr; positivity
  have x1 : sixErr n h (2^60) a ≤ 12883934682394 := by
    unfold sixErr
    calc _ ≤ ((2:ℝ) * 2^60 * 6441943019811 + 6441943019811^2 + 68732125184) / 2^60 + 12648448 := by gcongr
      _ ≤ _ := by norm_num
  have y0 : 0 ≤ linErr n h a := by unfold linErr; positivity
  have y1 : linErr n h a ≤ 178955510111 := by
    unfold linErr
    calc _ ≤ (6441943019811 : ℝ) / (12 * 3) + 1 + 12648448 := by gcongr
      _ ≤ _ := by norm_num
  unfold cubicErr
  calc _ ≤ ((7:ℝ) * 2^60 * 178955510111 + 2^60 / (12 * 3) * 12883934682394 + 12883934682394 * 178955510111 + 68732125184) / 2^60 + 12648448 := by gcongr
    _ ≤ _ := by norm_num

/-! ## a bound that is linear in the error of the input -/

theorem tErr_lin {ε E c d : ℝ} {j : Nat} (hE : 1000 ≤ E) (hE' : E ≤ 2^24) (hR : rsErr n h ≤ E) (hM : mulErr n h ≤ 2^37)
    (hc : 0 ≤ c) (hε : 0 ≤ ε) (ha : tErr n h (2^60) ε j ≤ c * E)
    (hb : 4 * c + 2 * c^2 / 2^36 + 1 / 2^30 + 1 ≤ d) : tErr n h (2^60) ε (j+1) ≤ d * E := by
  have h0 := tErr_nonneg (n := n) (h := h) (Δ := 2^60) (by positivity) hε j
  have hE0 : 0 ≤ E := by linarith
  rw [tErr]
  have h2 : tErr n h (2^60) ε j ^ 2 ≤ c^2 * (2^24 * E) := by
    calc tErr n h (2^60) ε j ^ 2 ≤ (c * E)^2 := by gcongr
      _ = c^2 * (E * E) := by ring
      _ ≤ c^2 * (2^24 * E) := by gcongr
  calc _ ≤ 2 * (2 * 2^60 * (c * E) + c^2 * (2^24 * E) + 2^37 / 1000 * E) / 2^60 + E := by
        gcongr
        linarith
    _ = (4 * c + 2 * c^2 / 2^36 + 2^38 / 1000 / 2^60 + 1) * E := by ring
    _ ≤ d * E := mul_le_mul_of_nonneg_right (le_trans (by norm_num) hb) hE0

theorem lErr_lin {ε E a l d : ℝ} {j : Nat} (hE : 1000 ≤ E) (hE' : E ≤ 2^24) (hR : rsErr n h ≤ E) (hM : mulErr n h ≤ 2^37)
    (ha0 : 0 ≤ a) (hl0 : 0 ≤ l) (hε : 0 ≤ ε) (ha : tErr n h (2^60) ε (j+1) ≤ a * E) (hl : lErr n h (2^60) ε 3 j ≤ l * E)
    (hb : 2 * l + a * l / 2^36 + 3 * a + 1 / 2^30 + 1 ≤ d) : lErr n h (2^60) ε 3 (j+1) ≤ d * E := by
  have h0 := tErr_nonneg (n := n) (h := h) (Δ := 2^60) (by positivity) hε (j+1)
  have h3 := lErr_nonneg (n := n) (h := h) (Δ := 2^60) (U := 3) (by positivity) hε (by norm_num) j
  have hE0 : 0 ≤ E := by linarith
  rw [lErr]
  have h2 : tErr n h (2^60) ε (j+1) * lErr n h (2^60) ε 3 j ≤ a * l * (2^24 * E) := by
    calc _ ≤ (a * E) * (l * E) := by gcongr
      _ = a * l * (E * E) := by ring
      _ ≤ a * l * (2^24 * E) := by gcongr
  have e : (2^60 + tErr n h (2^60) ε (j+1)) * lErr n h (2^60) ε 3 j = 2^60 * lErr n h (2^60) ε 3 j +
      tErr n h (2^60) ε (j+1) * lErr n h (2^60) ε 3 j := by ring
  rw [e]
  calc _ ≤ (2^60 * (l * E) + a * l * (2^24 * E) + 2^60 * 3 * (a * E) + 2^37 / 1000 * E + 2^60 * (l * E)) / 2^60 + E := by
        gcongr
        linarith
    _ = (2 * l + a * l / 2^36 + 3 * a + 2^37 / 1000 / 2^60 + 1) * E := by ring
    _ ≤ d * E := mul_le_mul_of_nonneg_right (le_trans (by norm_num) hb) hE0

theorem evalModErr_lin {ε E : ℝ} (hE : 1000 ≤ E) (hE' : E ≤ 2^24) (hR : rsErr n h ≤ E) (hM : mulErr n h ≤ 2^37)
    (hε : 0 ≤ ε) (hs : startErr n h 24 ε ≤ E) : evalModErr n h (2^60) 24 ε ≤ 130276 * E := by
  have hR0 := rsErr_nonneg n h
  have hM0 := mulErr_nonneg n h
  have hE0 : 0 ≤ E := by linarith
  have hs0 : 0 ≤ startErr n h 24 ε := by unfold startErr; positivity
  have t0 : tErr n h (2^60) (startErr n h 24 ε) 0 ≤ 1 * E := by rw [one_mul]; exact hs
  have t1 : tErr n h (2^60) (startErr n h 24 ε) 1 ≤ (501/100) * E := tErr_lin hE hE' hR hM (by norm_num) hs0 t0 (by norm_num)
  have t2 : tErr n h (2^60) (startErr n h 24 ε) 2 ≤ (421/20) * E := tErr_lin hE hE' hR hM (by norm_num) hs0 t1 (by norm_num)
  have t3 : tErr n h (2^60) (startErr n h 24 ε) 3 ≤ (8521/100) * E := tErr_lin hE hE' hR hM (by norm_num) hs0 t2 (by norm_num)
  have t4 : tErr n h (2^60) (startErr n h 24 ε) 4 ≤ (6837/20) * E := tErr_lin hE hE' hR hM (by norm_num) hs0 t3 (by norm_num)
  have l0 : lErr n h (2^60) (startErr n h 24 ε) 3 0 ≤ (401/100) * E := by rw [lErr]; linarith
  have l1 : lErr n h (2^60) (startErr n h 24 ε) 3 1 ≤ (1203/50) * E := lErr_lin hE hE' hR hM (by norm_num) (by norm_num) hs0 t1 l0 (by norm_num)
  have l2 : lErr n h (2^60) (startErr n h 24 ε) 3 2 ≤ (2807/25) * E := lErr_lin hE hE' hR hM (by norm_num) (by norm_num) hs0 t2 l1 (by norm_num)
  have l3 : lErr n h (2^60) (startErr n h 24 ε) 3 3 ≤ (2406/5) * E := lErr_lin hE hE' hR hM (by norm_num) (by norm_num) hs0 t3 l2 (by norm_num)
  have l4 : lErr n h (2^60) (startErr n h 24 ε) 3 4 ≤ (49724/25) * E := lErr_lin hE hE' hR hM (by norm_num) (by norm_num) hs0 t4 l3 (by norm_num)
  have c0 : 0 ≤ cosErr n h (2^60) 24 ε := by
    have := lErr_nonneg (n := n) (h := h) (Δ := 2^60) (U := 3) (by positivity) hs0 (by norm_num) 4
    unfold cosErr; positivity
  have a0 : tErr n h (2^60) (cosErr n h (2^60) 24 ε) 0 ≤ (50877/25) * E := by
    have e : (2:ℝ)^60 * (4 / 10^14) ≤ 46117 / 1000 * E := by
      have : (2:ℝ)^60 * (4 / 10^14) ≤ 46117 := by norm_num
      linarith
    exact (add_le_add l4 e).trans (by rw [← add_mul]; exact mul_le_mul_of_nonneg_right (by norm_num) hE0)
  have a1 : tErr n h (2^60) (cosErr n h (2^60) 24 ε) 1 ≤ (814133/100) * E := tErr_lin hE hE' hR hM (by norm_num) c0 a0 (by norm_num)
  have a2 : tErr n h (2^60) (cosErr n h (2^60) 24 ε) 2 ≤ (3256633/100) * E := tErr_lin hE hE' hR hM (by norm_num) c0 a1 (by norm_num)
  have a3 : tErr n h (2^60) (cosErr n h (2^60) 24 ε) 3 ≤ (3256659/25) * E := tErr_lin hE hE' hR hM (by norm_num) c0 a2 (by norm_num)
  have a4 : tErr n h (2^60) (cosErr n h (2^60) 24 ε) 4 ≤ (26053347/50) * E := tErr_lin hE hE' hR hM (by norm_num) c0 a3 (by norm_num)
  have ha0 : 0 ≤ angleErr n h (2^60) 24 ε := tErr_nonneg (by positivity) c0 4
  have ha : angleErr n h (2^60) 24 ε ≤ (26053347/50) * E := a4
  unfold evalModErr
  generalize angleErr n h (2^60) 24 ε = a at *
  have hpi := Real.pi_gt_three
  have x0 : 0 ≤ sixErr n h (2^60) a := by unfold sixErr; positivity
  have x1 : sixErr n h (2^60) a ≤ (26053471/25) * E := by
    have h2 : a^2 ≤ (26053347/50)^2 * (2^24 * E) := by
      calc a^2 ≤ ((26053347/50) * E)^2 := by gcongr
        _ = (26053347/50)^2 * (E * E) := by ring
        _ ≤ _ := by gcongr
    unfold sixErr
    calc _ ≤ (2 * 2^60 * ((26053347/50) * E) + (26053347/50)^2 * (2^24 * E) + 2^37 / 1000 * E) / 2^60 + E := by
          gcongr
          linarith
      _ = (2 * (26053347/50) + (26053347/50)^2 / 2^36 + 2^37 / 1000 / 2^60 + 1) * E := by ring
      _ ≤ _ := by gcongr; norm_num
  have y0 : 0 ≤ linErr n h a := by unfold linErr; positivity
  have y1 : linErr n h a ≤ (1447509/100) * E := by
    unfold linErr
    calc _ ≤ ((26053347/50) * E) / (12 * 3) + 1 / 1000 * E + E := by
          gcongr
          linarith
      _ = ((26053347/50) / 36 + 1 / 1000 + 1) * E := by ring
      _ ≤ _ := by gcongr; norm_num
  have z1 : sixErr n h (2^60) a * linErr n h a ≤ (26053471/25) * (1447509/100) * (2^24 * E) := by
    calc _ ≤ ((26053471/25) * E) * ((1447509/100) * E) := by gcongr
      _ = (26053471/25) * (1447509/100) * (E * E) := by ring
      _ ≤ _ := by gcongr
  unfold cubicErr
  calc _ ≤ (7 * 2^60 * ((1447509/100) * E) + 2^60 / (12 * 3) * ((26053471/25) * E) + (26053471/25) * (1447509/100) * (2^24 * E) + 2^37 / 1000 * E) / 2^60 + E := by
        gcongr
        linarith
    _ = (7 * (1447509/100) + (26053471/25) / 36 + (26053471/25) * (1447509/100) / 2^36 + 2^37 / 1000 / 2^60 + 1) * E := by ring
    _ ≤ _ := by gcongr; norm_num

end

end EvalRound

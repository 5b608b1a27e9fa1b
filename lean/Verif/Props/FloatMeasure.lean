import Verif.Proofs.FloatMeasure

/-!
# C91: the errors printed by end_to_end_test in binary64
-/

namespace EvalRound
open Z_Q Finset

section
variable {n QT Q0 Q1 Q2 Q3 Q4 Q5 Q6 Q7 Q8 Q9 Q10 Q11 Q12 QS : Nat} [NeZero QT] [NeZero Q0] [NeZero Q1] [NeZero Q2] [NeZero Q3]
  [NeZero Q4] [NeZero Q5] [NeZero Q6] [NeZero Q7] [NeZero Q8] [NeZero Q9] [NeZero Q10] [NeZero Q11] [NeZero Q12] [NeZero QS]

theorem boot_nums2 {G b b' h LDs : Nat} (hp : BootParam2 n G b b') (hh : h ≤ 128) (hs : LDs = 50 ∨ LDs = 60) :
    ∃ E c d : ℝ, E = ctsErr2 n h G (2^60) (Real.sqrt 2 * 2^n * (25 * 2^60)) ∧ c = ctsNoise n h G (2^60) ∧
      d = modErr2 n h G (2^60) (2^60) (Real.sqrt 2 * 2^n * (25 * 2^60)) (2^51) ∧ 0 ≤ E ∧ 0 ≤ c ∧ 0 ≤ d ∧ E ≤ 2^47 ∧
      E + c + 2^30 ≤ 2^b ∧ E + d + 8 + 2^30 ≤ 2^b ∧ c + d + 8 + 2^30 ≤ 2^(n+25) ∧
      stcErr2 n h G (2^LDs) (25 * 2^60 + (c + d)) + 2 * (c + d) ≤ 2^b := by
  have h0 := ctsErr2_nonneg (n := n) (h := h) (G := G) (C := 2^60) (Z := Real.sqrt 2 * 2^n * (25 * 2^60)) (by positivity) (by positivity)
  have h1 := ctsErr2_num hp hh
  obtain ⟨bb, hp'⟩ := hp.old
  have h2 := modErr2_num hp' hh h0 h1
  have h5 := ctsNoise_num hp' hh
  have h6 := ctsNoise_nonneg (n := n) (h := h) (G := G) (C := 2^60) (by positivity)
  have h8 := modErr2_nonneg hp' h6 h0 (show (0:ℝ) ≤ 2^51 by positivity)
  have h9 : propErr2 n h G (2^60) (2^60) (2^LDs) (Real.sqrt 2 * 2^n * (25 * 2^60)) (2^51) ≤ 2^b := by
    rcases hs with rfl | rfl
    · exact propErr2_num50 hp hh
    · refine (propErr2_num hp hh).trans (pow_le_pow_right₀ (by norm_num) ?_)
      rcases hp with ⟨rfl, rfl, rfl, rfl⟩ | ⟨rfl, rfl, rfl, rfl⟩ | ⟨rfl, rfl, rfl, rfl⟩ <;> norm_num
  have h7 : ctsErr2 n h G (2^60) (Real.sqrt 2 * 2^n * (25 * 2^60)) ≤ 41/64 * 2^b := by
    rcases hp with ⟨rfl, rfl, rfl, rfl⟩ | ⟨rfl, rfl, rfl, rfl⟩ | ⟨rfl, rfl, rfl, rfl⟩
    · exact (ctsErr2_8 hh).trans (by norm_num)
    · exact (ctsErr2_12 hh).trans (by norm_num)
    · exact (ctsErr2_16 hh).trans (by norm_num)
  unfold propErr2 at h9
  refine ⟨_, _, _, rfl, rfl, rfl, h0, h6, h8, h1, ?_, ?_, ?_, h9⟩ <;> clear h9 <;>
  generalize ctsErr2 n h G (2^60) (Real.sqrt 2 * 2^n * (25 * 2^60)) = E at * <;>
  generalize modErr2 n h G (2^60) (2^60) (Real.sqrt 2 * 2^n * (25 * 2^60)) (2^51) = d at * <;>
  generalize ctsNoise n h G (2^60) = c at * <;>
  rcases hp with ⟨rfl, rfl, rfl, rfl⟩ | ⟨rfl, rfl, rfl, rfl⟩ | ⟨rfl, rfl, rfl, rfl⟩ <;> norm_num at h2 h5 h7 ⊢ <;> linarith

set_option maxHeartbeats 2000000 in
/-- C91: the numbers printed by `end_to_end_test` in binary64, with `LOGDELTA_cts = 60` and `LOGDELTA_stc` 50 or 60. `pt` is the plaintext,
`m` and `M` are the messages of the ciphertext and of the raised ciphertext. -/
theorem C91_errors {L : LibmP} (hLib : L.Accurate) (R : Nat) {G b b' LDs : Nat} (hp : BootParam2 n G b b') (hLDs : LDs = 50 ∨ LDs = 60)
    (hQ0 : QT = Q0 + n/G * 60) (hC : EvalModChain 60 Q0 Q1 Q2 Q3 Q4 Q5 Q6 Q7 Q8 Q9 Q10 Q11 Q12) (hQS : Q12 = QS + n/G * LDs)
    (hlo : 65 ≤ QS) (hhi : QT ≤ 1525)
    (s : Fin (2^(n+1)) → Int) (hs : ∀ k, s k = -1 ∨ s k = 0 ∨ s k = 1) (hh : (univ.filter fun k => s k ≠ 0).card ≤ 128)
    (ct : R_Q_square 60 (2^(n+1))) (hct : ct.Canonical) (m : R_Q 60 (2^(n+1))) (hm : dec ct s = pure m)
    (M : R_Q QT (2^(n+1))) (hM : dec (mod_raise QT ct) s = pure M) (hB : ∀ k, |(m k).sval| ≤ 2^51)
    (hr : ∀ k, -237 * 2^60 ≤ 10 * (M k).sval ∧ 10 * (M k).sval ≤ 242 * 2^60)
    (pt : R_Q 60 (2^(n+1))) (hpt : pt.Canonical) (hd : ∀ k, |(m k).sval - (pt k).sval| ≤ 8) (ω : Rng) :
    Ok (endToEndRunF (LOGN := n+1) L R 60 LDs G QT Q0 Q1 Q2 Q3 Q4 Q5 Q6 Q7 Q8 Q9 Q10 Q11 Q12 QS (BitVec.ofNat 64 (2^50)) pt ct s ω)
      fun o =>
        o.evalmod_error ≤ 2^b / 2^50 ∧
        ((∀ k, |(M k).sval| < 2^64) → o.cts_error ≤ 2^b / 2^50 ∧ o.evalqI_error ≤ 2^(n+25) / 2^50) ∧
        ((∀ k, |(M k).sval| ≤ 2^64 - 2^59) → o.stc_error ≤ 2^(b+1) / 2^50) ∧
        ((∃ k, 2^64 ≤ |(M k).sval|) → 16000 ≤ o.cts_error ∧ 16000 ≤ o.evalqI_error) ∧
        o.pt_out.Canonical ∧ ∀ k, |(o.pt_out k).sval - (pt k).sval| ≤ 2^b + 8 := by
  have hs' : Ternary s := hs
  have hn : 8 ≤ n ∧ n ≤ 16 ∧ 1 ≤ G ∧ G ≤ 4 ∧ n % G = 0 ∧ n/G = 4 ∧ b ≤ 47 ∧ n + 25 ≤ b + 1 := by
    rcases hp with ⟨rfl, rfl, rfl, rfl⟩ | ⟨rfl, rfl, rfl, rfl⟩ | ⟨rfl, rfl, rfl, rfl⟩ <;> norm_num
  obtain ⟨hn8, hn16, hG1, hG4, hG, hdd, hb47, hnb⟩ := hn
  have hLs : LDs ≤ 60 ∧ 50 ≤ LDs := by omega
  have hN : 2^(n+1) ≤ 2^30 := Nat.pow_le_pow_right (by norm_num) (by omega)
  have hC' := hC
  unfold EvalModChain at hC'
  rw [hdd] at hQ0 hQS
  have hQ12 : 265 ≤ Q12 := by omega
  obtain ⟨E, c, d, eE, ec, ed, hE0, hc0, hd0, hE48, hEc, hEd, hcd, hE'⟩ := boot_nums2 (n := n) hp hh hLDs
  have hr' : ∀ k, -237/10 * 2^60 ≤ ((M k).sval : ℝ) ∧ ((M k).sval : ℝ) ≤ 242/10 * 2^60 := by
    intro k
    obtain ⟨h1, h2⟩ := hr k
    have h1' : (-237 * 2^60 : ℝ) ≤ 10 * (M k).sval := by exact_mod_cast h1
    have h2' : (10 : ℝ) * (M k).sval ≤ 242 * 2^60 := by exact_mod_cast h2
    constructor <;> linarith
  have hMa : ∀ k, |((M k).sval : ℝ)| ≤ 25 * 2^60 := by
    intro k
    have := hr' k
    rw [abs_le]
    constructor <;> linarith
  have hB' : ∀ k, |((m k).sval : ℝ)| ≤ 2^51 := fun k => by exact_mod_cast hB k
  obtain ⟨hp1, I, hI⟩ := mod_raise_diff hN (by omega) hs' hct hm hM
  have eM : (fun k => (M k).sval) = fun k => (m k).sval + 2^60 * I k := funext hI
  have hp' : R_Q_square.phase s (mod_raise QT ct) = red QT fun k => (m k).sval + 2^60 * I k := hp1.trans (congrArg _ eM)
  have hMc : M.Canonical := by
    obtain ⟨M', e', hc', -⟩ := dec_spec hN hs' (mod_raise QT ct)
    rw [pure_inj (hM.symm.trans e')] at *
    exact hc'
  have hmr : (mod_raise QT ct).Canonical := ⟨fun i => canonical_resize _, fun i => canonical_resize _⟩
  obtain ⟨b0, hb0, hb1, e, he, c0, c1, h0, h1⟩ := bootToEvalModF_near2 hLib R 60 (by norm_num) (by omega)
    (Or.inr (Or.inl ⟨by omega, by omega⟩)) (by norm_num) (by omega) hn16 hG1 hG4 hG (by rw [hdd]; exact hQ0) hC (by omega) (by omega) hs' hp'
    (Z := Real.sqrt 2 * 2^n * (25 * 2^60)) (B := 2^51)
    (l2_slots_le fun k => by rw [← hI k]; exact hMa k) hB' (fun k => by
      have := hr' k
      rw [← hI k]
      show _ + ctsErr2 n (univ.filter fun k => s k ≠ 0).card G (2^60) _ ≤ _ ∧ _ ≤ _ - ctsErr2 n (univ.filter fun k => s k ≠ 0).card G (2^60) _
      rw [← eE]
      norm_num at this hE48 ⊢
      constructor <;> linarith) ω
  have e1 : ctsErr2 n (weight s) G (2^60) (Real.sqrt 2 * 2^n * (25 * 2^60)) = E := eE.symm
  have e2 : ctsNoise n (weight s) G (2^60) = c := ec.symm
  have e3 : modErr2 n (weight s) G (2^60) (2^60) (Real.sqrt 2 * 2^n * (25 * 2^60)) (2^51) = d := ed.symm
  rw [e1] at he
  rw [e2] at c0 c1
  rw [e3] at h0 h1
  have hIM : ∀ k, (2:ℝ)^60 * I k = (M k).sval - (m k).sval := by
    intro k
    have : ((M k).sval : ℝ) = (m k).sval + 2^60 * I k := by exact_mod_cast hI k
    linarith
  have hI25 : ∀ k, |(I k : ℝ)| ≤ 25 := by
    intro k
    have a1 := hr' k
    have a2 := abs_le.1 (hB' k)
    have a3 := hIM k
    rw [abs_le]
    constructor <;> linarith
  have hb57' : (2:ℝ)^b ≤ 2^47 := pow_le_pow_right₀ (by norm_num) hb47
  have hn41 : (2:ℝ)^(n+25) ≤ 2^41 := pow_le_pow_right₀ (by norm_num) (by omega)
  have he51 : ∀ k, |e k| ≤ 2^52 := by
    intro k
    have a1 := abs_le.1 (he k)
    have a2 := abs_le.1 (hB' k)
    norm_num at hE48 a1 a2 ⊢
    rw [abs_le]
    constructor <;> linarith
  have d0 := ((c0.resize (LT := Q12) (by omega)).sub h0).mono (y := fun i => ((2^60 * I (loIdx i) : ℝ) : ℂ)) (fun i => by push_cast; ring) le_rfl
  have d1 := ((c1.resize (LT := Q12) (by omega)).sub h1).mono (y := fun i => ((2^60 * I (hiIdx i) : ℝ) : ℂ)) (fun i => by push_cast; ring) le_rfl
  have hX : ∀ k, |(2:ℝ)^60 * I k| ≤ 25 * 2^60 := by
    intro k
    rw [abs_mul, abs_of_nonneg (a := (2:ℝ)^60) (by positivity), mul_comm]
    exact mul_le_mul_of_nonneg_right (hI25 k) (by positivity)
  have hX26 : ∀ k, |(2:ℝ)^60 * I k| ≤ 26 * 2^60 := fun k => (hX k).trans (by norm_num)
  -- the pieces of the run
  unfold bootToEvalModF at hb0
  obtain ⟨r, er, hb0⟩ := bind_eq_pure hb0
  obtain ⟨r0, er0, hb0⟩ := bind_eq_pure hb0
  obtain ⟨r1, er1, hb0⟩ := bind_eq_pure hb0
  obtain ⟨v0, ev0, hb0⟩ := bind_eq_pure hb0
  obtain ⟨v1, ev1, hb0⟩ := bind_eq_pure hb0
  obtain rfl := pure_inj hb0
  dsimp only at c0 c1 h0 h1 d0 d1
  obtain ⟨⟨q, ω'⟩, hst, hqc, w, hw, hwk⟩ := stcF_coeff2 hLib.1 R LDs (by omega) (Or.inr (Or.inl ⟨by omega, by omega⟩)) (by omega) (by omega) hn16 hs' hG1 hG4 hG
    (f := fun k => 2^60 * (I k : ℝ)) d0 d1 hX (QS := QS) (by rw [hdd]; exact hQS) v1.2
  obtain ⟨t, et, hst⟩ := bind_eq_pure hst
  obtain ⟨q', eq', hst⟩ := bind_eq_pure hst
  have hinj := pure_inj hst
  simp only [Prod.mk.injEq] at hinj
  obtain ⟨rfl, rfl⟩ := hinj
  dsimp only at hqc hw
  have hwk' : ∀ k, |(w k : ℝ) - 2^60 * I k| ≤ 2^b := fun k => (hwk k).trans hE'
  have hptb : ∀ k, |(pt k).sval| < 2^64 := fun k => lt_of_le_of_lt (abs_sval_le _) (by norm_num)
  have hpte : ∀ k, (((pt k).sval.sign * ((pt k).sval.natAbs % 2^64 : Nat) : ℤ)) = (pt k).sval := by
    exact fun k => low_small (hptb k)
  have hd' : ∀ k, |((m k).sval : ℝ) - (pt k).sval| ≤ 8 := fun k => by exact_mod_cast hd k
  obtain ⟨ptq, eptq, hptqc, hptq⟩ := dec_spec hN hs' q'
  have hptqs : ∀ k, |w k| < 2^64 → (ptq k).sval = w k := by
    intro k hk
    have hQSb : (2:ℤ)^64 ≤ 2^(QS-1) := pow_le_pow_right₀ (by norm_num) (by omega)
    have h4 := abs_lt.1 hk
    exact sval_eq_of_cls (congrFun (hptq.trans hw) k) (by linarith [h4.1]) (by linarith [h4.2])
  have hlow : ∀ {Q : Nat} [NeZero Q] (P : R_Q Q (2^(n+1))) (k : Fin (2^(n+1))), |(((P k).sval.sign * ((P k).sval.natAbs % 2^64 : Nat) : ℤ) : ℝ)| ≤ 2^65 :=
    fun P k => (low_abs _).trans (by norm_num)
  -- the checks
  obtain ⟨z0, z1, x0, x1, y1, f1, f2, f3, f4, f4', k1, k2⟩ := check_specF hLib.1 (n := n) (x := fun k => e k + 2^60 * I k) (by omega) (by omega)
    (by omega) (by omega) hs' hc0 c0 c1 (fun k => (abs_add_le _ _).trans (by
      have a1 := he51 k
      have a2 := hX k
      norm_num at a1 a2 ⊢
      linarith)) (by norm_num at hEc hb57' ⊢; linarith) (hlow M) (rdDoubleF_14 hMc)
  obtain ⟨z2, z3, x2, x3, y2, f5, f6, f7, f8, f8', k3, k4⟩ := check_specF hLib.1 (n := n) (by omega) (by omega)
    (by omega) (by omega) hs' hd0 h0 h1 (fun k => (he51 k).trans (by norm_num)) (by norm_num at hEd hb57' ⊢; linarith) (hlow pt) (rdDoubleF_14 hpt)
  have hgq : ∀ k, |(((M k).sval.sign * ((M k).sval.natAbs % 2^64 : Nat) : ℤ) : ℝ) - (pt k).sval| ≤ 2^65 := by
    intro k
    have a1 := low_abs (M k).sval
    have a2 : |((pt k).sval : ℝ)| ≤ 2^64 := by exact_mod_cast (hptb k).le
    refine (abs_sub _ _).trans ((add_le_add a1 a2).trans (by norm_num))
  obtain ⟨z4, z5, x4, x5, y3, f9, f10, f11, f12, f12', k5, k6⟩ := check_specF hLib.1 (n := n) (x := fun k => 2^60 * (I k : ℝ))
    (by omega) (by omega) (by omega) (by omega) hs' (add_nonneg hc0 hd0) d0 d1 hX26 (by norm_num at hcd hn41 ⊢; linarith) hgq (diffDoubleF_spec hMc hpt)
  obtain ⟨z6, z7, x6, x7, y4, f13, f14, f15, f16, f16', k7, k8⟩ := check_specF hLib.1 (n := n) (x := fun k => 2^60 * (I k : ℝ))
    (by omega) (by omega) (by omega) (by omega) hs' (add_nonneg hc0 hd0) d0 d1 hX26 (by norm_num at hcd hn41 ⊢; linarith) (hlow ptq) (rdDoubleF_14 hptqc)
  -- the output
  obtain ⟨g1, g2⟩ := resize_phase (LT := QS) (by omega) hmr hp'
  obtain ⟨u, hu⟩ : ∃ u : Fin (2^(n+1)) → ℤ, u = (fun k => (m k).sval + 2^60 * I k) - w := ⟨_, rfl⟩
  have hph : R_Q_square.phase s (R_Q_square.sub (R_Q_square.resize QS (mod_raise QT ct)) q') =
      red QS u := by rw [hu, phase_sub, g2, hw, red_sub]
  have hout : ∀ k, |((u k : ℤ) : ℝ) - (m k).sval| ≤ 2^b := by
    intro k
    have h5 := abs_le.1 (hwk' k)
    have h6 : ((u k : ℤ) : ℝ) = (m k).sval + 2^60 * I k - w k := by
      simp only [hu, Pi.sub_apply, Int.cast_sub, Int.cast_add, Int.cast_mul, Int.cast_pow, Int.cast_ofNat]
    rw [h6, abs_le]
    constructor <;> linarith
  have hQSb : (2:ℝ)^64 ≤ 2^(QS-1) := pow_le_pow_right₀ (by norm_num) (by omega)
  obtain ⟨mo, emo, hmo⟩ := dec_close hN hs' hph (m := fun k => (m k).sval) hB' hout (lt_of_lt_of_le (show (2:ℝ)^51 + 2^b < 2^64 by norm_num at hb57' ⊢; linarith) hQSb)
  obtain ⟨mo', emo', hmoc, -⟩ := dec_spec hN hs' (R_Q_square.sub (R_Q_square.resize QS (mod_raise QT ct)) q')
  obtain rfl := pure_inj (emo.symm.trans emo')
  clear hQSb
  unfold endToEndRunF
  dsimp only
  rw [er, pure_bind, er0, pure_bind, er1, pure_bind]
  have t1 : ctsTestF (LOGN := n+1) L.toLibm (BitVec.ofNat 64 (2^50)) r0 r1 (mod_raise QT ct) s = pure y1 := by
    unfold ctsTestF
    rw [f1, pure_bind, f2, pure_bind, hM, pure_bind, f3, pure_bind, f4, pure_bind, f4']
  have t2 : evalmodTestF (LOGN := n+1) L.toLibm (BitVec.ofNat 64 (2^50)) v0.1 v1.1 pt s = pure y2 := by
    unfold evalmodTestF
    rw [f5, pure_bind, f6, pure_bind, f7, pure_bind, f8, pure_bind, f8']
  have t3 : evalqITestF (LOGN := n+1) L.toLibm (BitVec.ofNat 64 (2^50)) (R_Q_square.sub (R_Q_square.resize Q12 r0) v0.1)
      (R_Q_square.sub (R_Q_square.resize Q12 r1) v1.1) (mod_raise QT ct) pt s = pure y3 := by
    unfold evalqITestF
    rw [f9, pure_bind, f10, pure_bind, hM, pure_bind, f11, pure_bind, f12, pure_bind, f12']
  have t4 : stcTestF (LOGN := n+1) L.toLibm (BitVec.ofNat 64 (2^50)) (R_Q_square.sub (R_Q_square.resize Q12 r0) v0.1)
      (R_Q_square.sub (R_Q_square.resize Q12 r1) v1.1) q' s = pure y4 := by
    unfold stcTestF
    rw [f13, pure_bind, f14, pure_bind, eptq, pure_bind, f15, pure_bind, f16, pure_bind, f16']
  rw [t1, pure_bind, ev0, pure_bind, ev1, pure_bind, t2, pure_bind, t3, pure_bind, et, pure_bind, eq', pure_bind, t4, pure_bind,
    emo, pure_bind]
  have fin : ∀ {a y B : ℝ}, y ≤ a / 2^50 + 1/2^20 → a + 2^30 ≤ B → y ≤ B / 2^50 := by
    intro a y B h3 h4
    refine h3.trans ?_
    rw [show a / 2^50 + 1/2^20 = (a + 2^30) / 2^50 by norm_num; ring]
    exact div_le_div_of_nonneg_right h4 (by positivity)
  refine Ok.pure ⟨?_, fun hsm => ⟨?_, ?_⟩, fun hsm => ?_, fun ⟨k, hk⟩ => ⟨?_, ?_⟩, hmoc, ?_⟩
  · refine fin (k3 (E + 8) fun k => ?_) (by linarith)
    rw [hpte k]
    have a1 := abs_le.1 (he k)
    have a2 := abs_le.1 (hd' k)
    rw [abs_le]
    constructor <;> linarith
  · refine fin (k1 E fun k => ?_) (by linarith)
    rw [low_small (hsm k)]
    have a1 := abs_le.1 (he k)
    have a2 := hIM k
    rw [abs_le]
    constructor <;> linarith
  · refine fin (k5 8 fun k => ?_) (by linarith)
    rw [low_small (hsm k)]
    have a1 := abs_le.1 (hd' k)
    have a2 := hIM k
    rw [abs_le]
    constructor <;> linarith
  · have hw64 : ∀ k, |w k| < 2^64 := by
      intro k
      have a1 := abs_le.1 (hwk' k)
      have a2 := hIM k
      have a3 := abs_le.1 (hB' k)
      have a4 : |((M k).sval : ℝ)| ≤ 2^64 - 2^59 := by exact_mod_cast hsm k
      have a5 := abs_le.1 a4
      have : |(w k : ℝ)| < 2^64 := by
        norm_num at a1 a2 a3 a5 hb57' ⊢
        rw [abs_lt]
        constructor <;> linarith
      exact_mod_cast this
    refine fin (k7 (2^b) fun k => ?_) ?_
    · have a0 := hw64 k
      rw [hptqs k a0, low_small a0, abs_sub_comm]
      exact hwk' k
    · have : (2:ℝ)^(n+25) ≤ 2^b := pow_le_pow_right₀ (by norm_num) (by
        rcases hp with ⟨rfl, rfl, rfl, rfl⟩ | ⟨rfl, rfl, rfl, rfl⟩ | ⟨rfl, rfl, rfl, rfl⟩ <;> norm_num)
      rw [pow_succ (2:ℝ) b]; linarith
  · refine le_trans ?_ (k2 k)
    have a0 := low_gap hk
    have a1 := abs_le.1 (he k)
    have a2 := hIM k
    generalize (((M k).sval.sign * ((M k).sval.natAbs % 2^64 : Nat) : ℤ) : ℝ) = v at a0 ⊢
    have a3 : |((M k).sval : ℝ) - v| ≤ |e k + 2^60 * I k - v| + E := by
      have h5 := abs_sub_le ((M k).sval : ℝ) (e k + 2^60 * I k) v
      have h6 : |((M k).sval : ℝ) - (e k + 2^60 * I k)| ≤ E := by
        rw [abs_le]
        constructor <;> linarith
      linarith
    rw [le_sub_iff_add_le, le_div_iff₀ (by positivity)]
    norm_num at a0 a3 hb57' hEc ⊢
    linarith
  · refine le_trans ?_ (k6 k)
    have a0 := low_gap hk
    have a1 := hd' k
    have a2 := hIM k
    generalize (((M k).sval.sign * ((M k).sval.natAbs % 2^64 : Nat) : ℤ) : ℝ) = v at a0 ⊢
    have a3 : |((M k).sval : ℝ) - v| ≤ |2^60 * (I k : ℝ) - (v - (pt k).sval)| + 8 := by
      have e5 : ((M k).sval : ℝ) - v = (2^60 * (I k : ℝ) - (v - (pt k).sval)) + ((m k).sval - (pt k).sval) := by
        rw [a2]; ring
      rw [e5]
      exact (abs_add_le _ _).trans (by linarith)
    rw [le_sub_iff_add_le, le_div_iff₀ (by positivity)]
    norm_num at a0 a3 hn41 hcd ⊢
    linarith
  · intro k
    have a1 := abs_le.1 (hmo k)
    have a2 := abs_le.1 (hd' k)
    have : |((mo k).sval : ℝ) - (pt k).sval| ≤ 2^b + 8 := by
      rw [abs_le]
      constructor <;> linarith
    exact_mod_cast this

/-- C91: the whole of `end_to_end_test` in binary64, with a key of at most 29 entries: every number printed is below its bound. -/
theorem C91_driver {L : LibmP} (hLib : L.Accurate) (R : Nat) {G b b' LDs : Nat} (hp : BootParam2 n G b b') (hLDs : LDs = 50 ∨ LDs = 60)
    (hQ0 : QT = Q0 + n/G * 60) (hC : EvalModChain 60 Q0 Q1 Q2 Q3 Q4 Q5 Q6 Q7 Q8 Q9 Q10 Q11 Q12) (hQS : Q12 = QS + n/G * LDs)
    (hlo : 65 ≤ QS) (hhi : QT ≤ 1525) (H : Int) (hH : H ≤ 29)
    (z : CVec (n+1)) (hz : ∀ i : Fin (2^n), ‖(⟨z.1 i, z.2 i⟩ : ℂ)‖ ≤ 1) (ct0 : R_Q_square 60 (2^(n+1))) (ω : Rng)
    (hω : ∀ (j : Fin (2^(n+1))) (l : Nat), ∃ m, l ≤ m ∧ ω m % 2^(n+1) = j) :
    Ok (endToEndDriverF L R 60 LDs G QT Q0 Q1 Q2 Q3 Q4 Q5 Q6 Q7 Q8 Q9 Q10 Q11 Q12 QS H z ct0 ω) fun o =>
      o.cts_error ≤ 2^b / 2^50 ∧ o.evalmod_error ≤ 2^b / 2^50 ∧ o.evalqI_error ≤ 2^(n+25) / 2^50 ∧
      o.stc_error ≤ 2^(b+1) / 2^50 ∧ o.e_norm ≤ 2^b / 2^50 * (1 + 1/2^20) ∧
      o.max_err_real ≤ 2^(n+1) * 2^b / 2^50 * (1 + 1/2^20) ∧ o.max_err_imag ≤ 2^(n+1) * 2^b / 2^50 * (1 + 1/2^20) := by
  have hn : 8 ≤ n ∧ n ≤ 16 ∧ b ≤ 47 ∧ 35 ≤ b := by rcases hp with ⟨rfl, rfl, rfl, rfl⟩ | ⟨rfl, rfl, rfl, rfl⟩ | ⟨rfl, rfl, rfl, rfl⟩ <;> norm_num
  have hN : 2^(n+1) ≤ 2^30 := Nat.pow_le_pow_right (by norm_num) (by omega)
  have hN' : 2^8 ≤ 2^(n+1) := Nat.pow_le_pow_right (by norm_num) (by omega)
  have hHN : H ≤ ((2^(n+1) : Nat) : Int) := by
    have : ((2^8 : Nat) : Int) ≤ ((2^(n+1) : Nat) : Int) := by exact_mod_cast hN'
    norm_num at this ⊢
    omega
  have hq : 66 ≤ QT ∧ QS ≤ 2^29 := by unfold EvalModChain at hC; omega
  obtain ⟨⟨s, ω1⟩, hk, hs, hw⟩ := C19_keygen_returns H hHN ω hω
  have hδ : (((BitVec.ofNat 64 (2^50)).toNat : ℕ) : ℝ) = 2^50 := toNat_scale (by norm_num)
  unfold endToEndDriverF
  rw [hk, pure_bind, show shl1 50 = pure (BitVec.ofNat 64 (2^50)) from rfl, pure_bind]
  obtain ⟨pt, ept, mz, y, -, hy, -⟩ := encodeF_l2 (n := n) (Q := 60) hLib.1 (by omega) (by omega) z (BitVec.ofNat 64 (2^50))
    (scale_ne_zero (by norm_num)) (B := 1) hz (by rw [hδ]; norm_num) (by rw [hδ]; norm_num)
  obtain ⟨⟨ct, ω2⟩, ect, -⟩ := enc_spec R hN hs pt ct0 ω1
  obtain ⟨hct, m, edm, hms, hmB⟩ := fresh_decF hLib.1 R (by omega) (by omega) hz hs ept ect
  obtain ⟨M, eM, -⟩ := dec_spec hN hs (mod_raise QT ct)
  rw [ept, pure_bind, ect, pure_bind]
  have hsm := raised_small hN hq.1 hs (by rw [hw]; omega) hct edm hmB eM
  refine Ok.bind (C91_errors hLib R hp hLDs hQ0 hC hQS hlo hhi s hs (by rw [hw]; omega) ct hct m edm M eM hmB
    (fresh_rangeF hLib.1 R (by omega) (by omega) hq.1 hz hs (by rw [hw]; omega) pt ct ω2 M ept ect eM) pt (fun k => (hy k).1) hms ω2)
    fun o ⟨h1, h2, h3, _, h5, h6⟩ => ?_
  obtain ⟨h7, h8⟩ := h2 fun k => lt_of_le_of_lt (hsm k) (by norm_num)
  obtain ⟨out, eout, -, g2, g3, g4, -⟩ := driver_tailF hLib.1 (by omega) (by omega) hq.2 hlo z hz ept h5 (E := 2^b)
    (Nat.pow_le_pow_right (by norm_num) hn.2.2.2) (Nat.pow_le_pow_right (by norm_num) hn.2.2.1) (fun k => by push_cast; exact h6 k)
  obtain ⟨zo, ezo, eout⟩ := bind_eq_pure eout
  obtain ⟨re, ere, eout⟩ := bind_eq_pure eout
  obtain ⟨im, eim, eout⟩ := bind_eq_pure eout
  obtain ⟨en, een, eout⟩ := bind_eq_pure eout
  obtain ⟨el, eel, eout⟩ := bind_eq_pure eout
  obtain rfl := pure_inj eout
  rw [ezo, pure_bind, een, pure_bind, ere, pure_bind, eim, pure_bind]
  push_cast at g2 g3 g4
  exact Ok.pure ⟨h7, h1, h8, h3 hsm, g4, g2, g3⟩

end

/-- `C91_driver` is not vacuous: LOGN = 9, the moduli of the driver, its test message, a key of 29 entries, the stream 0, 1, 2, … and the exact functions
of the reals for the mathematical library. This run also meets the hypotheses of `C91_errors`, with all `|M_k| < 2^64`. -/
example (ct0 : R_Q_square 60 (2^(8+1))) :
    Ok (do
      let z ← set_test_messageF exactLibmP.toLibm (8+1)
      endToEndDriverF exactLibmP (2^31-1) 60 60 2 1450 1210 1150 1090 1030 970 910 850 790 730 670 610 550 490 250 29 z ct0 id) fun o =>
      o.cts_error ≤ 1/32768 ∧ o.stc_error ≤ 1/16384 := by
  refine Ok.bind (C79_test_message exactLibmP_accurate.1 (by norm_num)) fun z hz => ?_
  refine Ok.mono (C91_driver exactLibmP_accurate (n := 8) (QT := 1450) (QS := 250) (2^31-1) (Or.inl ⟨rfl, rfl, rfl, rfl⟩) (Or.inr rfl) (by norm_num)
    (by unfold EvalModChain; norm_num) (by norm_num) (by norm_num) (by norm_num) 29 (by norm_num) z
    (fun i => (hz i).2) ct0 id (fun j l => ⟨j + 2^(8+1) * l, by
      have : 1 ≤ 2^(8+1) := by norm_num
      nlinarith, ?_⟩)) fun o h => ⟨h.1.trans (by norm_num), h.2.2.2.1.trans (by norm_num)⟩
  have := j.isLt
  simp only [id]
  rw [Nat.add_mul_mod_self_left, Nat.mod_eq_of_lt this]

/-- C91: the errors printed can be wrong in binary64 too. There are a key and a ciphertext for which, whatever the random numbers and whatever accurate
mathematical library, the checks of CoeffToSlot and EvalqI print an error of at least 16000, although the bootstrapped plaintext is right up to `2^36`,
which is `2^-14` at the scale `2^50`. -/
theorem C91_wrong : ∃ (s : Fin (2^(8+1)) → Int) (ct : R_Q_square 60 (2^(8+1))) (pt : R_Q 60 (2^(8+1))), dec ct s = pure pt ∧
    ∀ (L : LibmP), L.Accurate → ∀ (R : Nat) (ω : Rng),
      Ok (endToEndRunF (LOGN := 8+1) L R 60 60 2 1450 1210 1150 1090 1030 970 910 850 790 730 670 610 550 490 250
        (BitVec.ofNat 64 (2^50)) pt ct s ω) fun o => 16000 ≤ o.cts_error ∧ 16000 ≤ o.evalqI_error ∧ ∀ k, |(o.pt_out k).sval - (pt k).sval| ≤ 2^36 := by
  have hN : 2^(8+1) ≤ 2^30 := by norm_num
  obtain ⟨s, ct, m, M, hs, hw, hct, hmc, em, eM, hm0, hbig⟩ := large_raised (QT := 1450) (by norm_num)
  have hB : ∀ k, |(m k).sval| ≤ 2^51 := fun k => by rw [hm0 k]; norm_num
  obtain ⟨M', eM', hr⟩ := raised_range (QT := 1450) hN (by norm_num) hs hw hct em hB
  obtain rfl := pure_inj (eM.symm.trans eM')
  refine ⟨s, ct, m, em, fun L hLib R ω => Ok.mono (C91_errors hLib (n := 8) (QT := 1450) (QS := 250) R (Or.inl ⟨rfl, rfl, rfl, rfl⟩) (Or.inr rfl) (by norm_num)
    (by unfold EvalModChain; norm_num) (by norm_num) (by norm_num) (by norm_num) s hs (by omega) ct hct m em M eM hB hr m hmc
    (fun k => by simp) ω) fun o h => ⟨(h.2.2.2.1 hbig).1, (h.2.2.2.1 hbig).2, fun k => (h.2.2.2.2.2 k).trans (by norm_num)⟩⟩

end EvalRound

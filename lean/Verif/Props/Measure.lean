import Verif.Proofs.Measure

/-!
# C57: the errors printed by end_to_end_test
-/

namespace EvalRound
open Z_Q Finset

section
variable {n QT Q0 Q1 Q2 Q3 Q4 Q5 Q6 Q7 Q8 Q9 Q10 Q11 Q12 QS : Nat} [NeZero QT] [NeZero Q0] [NeZero Q1] [NeZero Q2] [NeZero Q3]
  [NeZero Q4] [NeZero Q5] [NeZero Q6] [NeZero Q7] [NeZero Q8] [NeZero Q9] [NeZero Q10] [NeZero Q11] [NeZero Q12] [NeZero QS]

/-- reading the low limb of a number of more than 64 bits changes it by at least `2^64` -/
theorem low_gap {x : ℤ} (h : 2^64 ≤ |x|) : (2:ℝ)^64 ≤ |(x : ℝ) - ((x.sign * (x.natAbs % 2^64 : Nat) : ℤ) : ℝ)| := by
  have h1 : 2^64 ≤ |x - x.sign * (x.natAbs % 2^64 : Nat)| := by
    have h2 : 2^64 ≤ x.natAbs := by rw [Int.abs_eq_natAbs] at h; exact_mod_cast h
    have h3 : x - x.sign * (x.natAbs % 2^64 : Nat) = x.sign * ((x.natAbs : ℤ) - (x.natAbs % 2^64 : Nat)) := by
      rw [mul_sub, Int.sign_mul_natAbs]
    rw [h3, abs_mul, Int.abs_sign_of_ne_zero (by rintro rfl; simp at h2), one_mul]
    have h4 := Nat.mod_add_div x.natAbs (2^64)
    have h5 : 1 ≤ x.natAbs / 2^64 := Nat.div_pos h2 (by norm_num)
    have h6 : (x.natAbs : ℤ) - (x.natAbs % 2^64 : Nat) = 2^64 * (x.natAbs / 2^64 : Nat) := by
      have : (x.natAbs : ℤ) = ((x.natAbs % 2^64 + 2^64 * (x.natAbs / 2^64) : Nat) : ℤ) := by exact_mod_cast h4.symm
      push_cast at this ⊢
      omega
    rw [h6, abs_of_nonneg (by positivity)]
    have : (1:ℤ) ≤ (x.natAbs / 2^64 : Nat) := by exact_mod_cast h5
    linarith
  exact_mod_cast h1

theorem boot_nums {G b h : Nat} (hp : BootParam n G b) (hh : h ≤ 128) :
    ∃ E c d : ℝ, E = ctsErr n h G (2^60) (2^(n+1) * (25 * 2^60)) ∧ c = ctsNoise n h G (2^60) ∧
      d = modErr n h G (2^60) (2^60) (2^(n+1) * (25 * 2^60)) (2^51) ∧ 0 ≤ E ∧ 0 ≤ c ∧ E ≤ 2^48 ∧
      E + c ≤ 2^b ∧ E + d + 8 ≤ 2^b ∧ c + d + 8 ≤ 2^(n+25) := by
  have h0 := boot_param_ctsErr0 (h := h) hp
  have h1 := boot_param_ctsErr hp hh
  have h2 := modErr_num hp hh h0 h1
  have h5 := ctsNoise_num hp hh
  have h6 : 0 ≤ ctsNoise n h G (2^60) := by unfold ctsNoise ksErr rsErr; positivity
  have h7 : ctsErr n h G (2^60) (2^(n+1) * (25 * 2^60)) ≤ 2^(b-5) := by
    rcases hp with ⟨rfl, rfl, rfl⟩ | ⟨rfl, rfl, rfl⟩ | ⟨rfl, rfl, rfl⟩
    · exact ctsErr_8 hh
    · exact (ctsErr_12 hh).trans (by norm_num)
    · exact (ctsErr_16 hh).trans (by norm_num)
  refine ⟨_, _, _, rfl, rfl, rfl, h0, h6, h1, ?_⟩
  generalize ctsErr n h G (2^60) (2^(n+1) * (25 * 2^60)) = E at *
  generalize modErr n h G (2^60) (2^60) (2^(n+1) * (25 * 2^60)) (2^51) = d at *
  generalize ctsNoise n h G (2^60) = c at *
  rcases hp with ⟨rfl, rfl, rfl⟩ | ⟨rfl, rfl, rfl⟩ | ⟨rfl, rfl, rfl⟩ <;> norm_num at h2 h5 h7 ⊢ <;>
    refine ⟨?_, ?_, ?_⟩ <;> linarith

set_option maxHeartbeats 2000000 in
/-- C57: the numbers printed by `end_to_end_test` with `LOGDELTA_cts = LOGDELTA_stc = 60`. `pt` is the plaintext,
`m` and `M` are the messages of the ciphertext and of the raised ciphertext. -/
theorem C57_errors (R : Nat) {G b : Nat} (hp : BootParam n G b)
    (hQ0 : QT = Q0 + n/G * 60) (hC : EvalModChain 60 Q0 Q1 Q2 Q3 Q4 Q5 Q6 Q7 Q8 Q9 Q10 Q11 Q12) (hQS : Q12 = QS + n/G * 60)
    (hlo : 65 ≤ QS) (hhi : QT ≤ 1525)
    (s : Fin (2^(n+1)) → Int) (hs : ∀ k, s k = -1 ∨ s k = 0 ∨ s k = 1) (hh : (univ.filter fun k => s k ≠ 0).card ≤ 128)
    (ct : R_Q_square 60 (2^(n+1))) (hct : ct.Canonical) (m : R_Q 60 (2^(n+1))) (hm : dec ct s = pure m)
    (M : R_Q QT (2^(n+1))) (hM : dec (mod_raise QT ct) s = pure M) (hB : ∀ k, |(m k).sval| ≤ 2^51)
    (hr : ∀ k, -237 * 2^60 ≤ 10 * (M k).sval ∧ 10 * (M k).sval ≤ 242 * 2^60)
    (pt : R_Q 60 (2^(n+1))) (hpt : pt.Canonical) (hd : ∀ k, |(m k).sval - (pt k).sval| ≤ 8) (ω : Rng) :
    Ok (endToEndRun (LOGN := n+1) R 60 60 G QT Q0 Q1 Q2 Q3 Q4 Q5 Q6 Q7 Q8 Q9 Q10 Q11 Q12 QS (BitVec.ofNat 64 (2^50)) pt ct s ω)
      fun o =>
        o.evalmod_error ≤ 2^b / 2^50 ∧
        ((∀ k, |(M k).sval| < 2^64) → o.cts_error ≤ 2^b / 2^50 ∧ o.evalqI_error ≤ 2^(n+25) / 2^50) ∧
        ((∀ k, |(M k).sval| ≤ 2^64 - 2^59) → o.stc_error ≤ 2^(b+1) / 2^50) ∧
        ((∃ k, 2^64 ≤ |(M k).sval|) → 16000 ≤ o.cts_error ∧ 16000 ≤ o.evalqI_error) ∧
        o.e_norm ≤ (2^b + 8) / 2^50 ∧
        ∀ i : Fin (2^n), ‖(⟨o.z_out.1 i, o.z_out.2 i⟩ : ℂ) - slotOf (fun k => ((pt k).sval : ℝ) / 2^50) i‖ ≤
          2^(n+1) * (2^b + 8) / 2^50 := by
  have hs' : Ternary s := hs
  have hn : 8 ≤ n ∧ n ≤ 16 ∧ 1 ≤ G ∧ G ≤ 4 ∧ n % G = 0 ∧ n/G = 4 ∧ b ≤ 57 := by
    rcases hp with ⟨rfl, rfl, rfl⟩ | ⟨rfl, rfl, rfl⟩ | ⟨rfl, rfl, rfl⟩ <;> norm_num
  obtain ⟨hn8, hn16, hG1, hG4, hG, hdd, hb57⟩ := hn
  have hN : 2^(n+1) ≤ 2^30 := Nat.pow_le_pow_right (by norm_num) (by omega)
  have hC' := hC
  unfold EvalModChain at hC'
  rw [hdd] at hQ0 hQS
  have hE := propErr_num hp hh
  obtain ⟨E, c, d, eE, ec, ed, hE0, hc0, hE48, hEc, hEd, hcd⟩ := boot_nums (n := n) hp hh
  have hr' : ∀ k, -237/10 * 2^60 ≤ ((M k).sval : ℝ) ∧ ((M k).sval : ℝ) ≤ 242/10 * 2^60 := by
    intro k
    obtain ⟨h1, h2⟩ := hr k
    have h1' : (-237 * 2^60 : ℝ) ≤ 10 * (M k).sval := by exact_mod_cast h1
    have h2' : (10 : ℝ) * (M k).sval ≤ 242 * 2^60 := by exact_mod_cast h2
    constructor <;> linarith
  have hMa : ∀ k, |((M k).sval : ℝ)| ≤ 25 * 2^60 := by
    intro k
    have := hr' k
    rw [abs_le]
    constructor <;> linarith
  have hB' : ∀ k, |((m k).sval : ℝ)| ≤ 2^51 := fun k => by exact_mod_cast hB k
  obtain ⟨hp1, I, hI⟩ := mod_raise_diff hN (by omega) hs' hct hm hM
  have eM : (fun k => (M k).sval) = fun k => (m k).sval + 2^60 * I k := funext hI
  have hp' : R_Q_square.phase s (mod_raise QT ct) = red QT fun k => (m k).sval + 2^60 * I k := hp1.trans (congrArg _ eM)
  have hMc : M.Canonical := by
    obtain ⟨M', e', hc', -⟩ := dec_spec hN hs' (mod_raise QT ct)
    rw [pure_inj (hM.symm.trans e')] at *
    exact hc'
  have hmr : (mod_raise QT ct).Canonical := ⟨fun i => canonical_resize _, fun i => canonical_resize _⟩
  obtain ⟨b0, hb0, hb1, e, he, c0, c1, h0, h1⟩ := bootToEvalMod_near R 60 (by norm_num) (by omega)
    (Or.inr (Or.inl ⟨by omega, by omega⟩)) (by norm_num) (by omega) hn16 hG1 hG4 hG (by rw [hdd]; exact hQ0) hC (by omega) (by omega) hs' hp'
    (Z := 2^(n+1) * (25 * 2^60)) (B := 2^51)
    (fun i => norm_slots_le (fun k => by rw [← hI k]; exact hMa k) i) hB' (fun k => by
      have := hr' k
      rw [← hI k]
      show _ + ctsErr n (univ.filter fun k => s k ≠ 0).card G (2^60) _ ≤ _ ∧ _ ≤ _ - ctsErr n (univ.filter fun k => s k ≠ 0).card G (2^60) _
      rw [← eE]
      norm_num at this hE48 ⊢
      constructor <;> linarith) ω
  have e1 : ctsErr n (weight s) G (2^60) (2^(n+1) * (25 * 2^60)) = E := eE.symm
  have e2 : ctsNoise n (weight s) G (2^60) = c := ec.symm
  have e3 : modErr n (weight s) G (2^60) (2^60) (2^(n+1) * (25 * 2^60)) (2^51) = d := ed.symm
  rw [e1] at he
  rw [e2] at c0 c1
  rw [e3] at h0 h1
  have hIM : ∀ k, (2:ℝ)^60 * I k = (M k).sval - (m k).sval := by
    intro k
    have : ((M k).sval : ℝ) = (m k).sval + 2^60 * I k := by exact_mod_cast hI k
    linarith
  have hI25 : ∀ k, |(I k : ℝ)| ≤ 25 := by
    intro k
    have a1 := hr' k
    have a2 := abs_le.1 (hB' k)
    have a3 := hIM k
    rw [abs_le]
    constructor <;> linarith
  have hb57' : (2:ℝ)^b ≤ 2^57 := pow_le_pow_right₀ (by norm_num) hb57
  have hn41 : (2:ℝ)^(n+25) ≤ 2^41 := pow_le_pow_right₀ (by norm_num) (by omega)
  have hd0 : 0 ≤ d := by
    obtain ⟨_, w, _, hw⟩ := h0
    exact (norm_nonneg _).trans (hw 0)
  have hQ12b : (2:ℝ)^66 ≤ 2^(Q12-1) := pow_le_pow_right₀ (by norm_num) (by omega)
  have hQ0b : (2:ℝ)^66 ≤ 2^(Q0-1) := pow_le_pow_right₀ (by norm_num) (by omega)
  norm_num at hQ12b hQ0b
  have he51 : ∀ k, |e k| ≤ 2^52 := by
    intro k
    have a1 := abs_le.1 (he k)
    have a2 := abs_le.1 (hB' k)
    norm_num at hE48 a1 a2 ⊢
    rw [abs_le]
    constructor <;> linarith
  have d0 := ((c0.resize (LT := Q12) (by omega)).sub h0).mono (y := fun i => ((2^60 * I (loIdx i) : ℝ) : ℂ)) (fun i => by push_cast; ring) le_rfl
  have d1 := ((c1.resize (LT := Q12) (by omega)).sub h1).mono (y := fun i => ((2^60 * I (hiIdx i) : ℝ) : ℂ)) (fun i => by push_cast; ring) le_rfl
  have hX : ∀ k, |(2:ℝ)^60 * I k| ≤ 25 * 2^60 := by
    intro k
    rw [abs_mul, abs_of_nonneg (a := (2:ℝ)^60) (by positivity), mul_comm]
    exact mul_le_mul_of_nonneg_right (hI25 k) (by positivity)
  -- the pieces of the run
  unfold bootToEvalMod at hb0
  obtain ⟨r, er, hb0⟩ := bind_eq_pure hb0
  obtain ⟨r0, er0, hb0⟩ := bind_eq_pure hb0
  obtain ⟨r1, er1, hb0⟩ := bind_eq_pure hb0
  obtain ⟨v0, ev0, hb0⟩ := bind_eq_pure hb0
  obtain ⟨v1, ev1, hb0⟩ := bind_eq_pure hb0
  obtain rfl := pure_inj hb0
  dsimp only at c0 c1 h0 h1 d0 d1
  obtain ⟨⟨q, ω'⟩, hst, hqc, w, hw, hwk⟩ := stc_coeff R 60 (by norm_num) (Or.inr (Or.inl ⟨by omega, by omega⟩)) (by omega) (by omega) hn16 hs' hG1 hG4 hG
    (f := fun k => 2^60 * (I k : ℝ)) d0 d1 hX (QS := QS) (by rw [hdd]; exact hQS) v1.2
  obtain ⟨t, et, hst⟩ := bind_eq_pure hst
  obtain ⟨q', eq', hst⟩ := bind_eq_pure hst
  have hinj := pure_inj hst
  simp only [Prod.mk.injEq] at hinj
  obtain ⟨rfl, rfl⟩ := hinj
  dsimp only at hqc hw
  have hE' : stcErr n (weight s) G (2^60) (25 * 2^60 + (c + d)) + 2 * (c + d) ≤ 2^b := by
    have := hE
    unfold propErr at this
    rw [show (univ.filter fun k => s k ≠ 0).card = weight s from rfl, e2, e3] at this
    exact this
  have hwk' : ∀ k, |(w k : ℝ) - 2^60 * I k| ≤ 2^b := fun k => (hwk k).trans hE'
  have hptb : ∀ k, |(pt k).sval| < 2^64 := fun k => lt_of_le_of_lt (abs_sval_le _) (by norm_num)
  have hd' : ∀ k, |((m k).sval : ℝ) - (pt k).sval| ≤ 8 := fun k => by exact_mod_cast hd k
  obtain ⟨ptq, eptq, hptqc, hptq⟩ := dec_spec hN hs' q'
  have hptqs : ∀ k, |w k| < 2^64 → (ptq k).sval = w k := by
    intro k hk
    have hQSb : (2:ℤ)^64 ≤ 2^(QS-1) := pow_le_pow_right₀ (by norm_num) (by omega)
    have h4 := abs_lt.1 hk
    exact sval_eq_of_cls (congrFun (hptq.trans hw) k) (by linarith [h4.1]) (by linarith [h4.2])
  -- the checks
  obtain ⟨z0, z1, x0, x1, f1, f2, f3, f4, k1, k2⟩ := check_spec (n := n) (x := fun k => e k + 2^60 * I k) (X := 26 * 2^60) (by omega) (by omega)
    (by omega) hs' c0 c1 (fun k => (abs_add_le _ _).trans (by
      have a1 := he51 k
      have a2 := hX k
      norm_num at a1 a2 ⊢
      linarith)) (by norm_num at hEc hb57' ⊢; linarith) (rdDouble_spec hMc)
  obtain ⟨z2, z3, x2, x3, f5, f6, f7, f8, k3, k4⟩ := check_spec (n := n) (X := 2^52) (by omega) (by omega)
    (by omega) hs' h0 h1 he51 (by norm_num at hEd hb57' ⊢; linarith) (fun k => rdDouble_small hpt k (hptb k))
  obtain ⟨z4, z5, x4, x5, f9, f10, f11, f12, k5, k6⟩ := check_spec (n := n) (x := fun k => 2^60 * (I k : ℝ)) (X := 25 * 2^60)
    (by omega) (by omega) (by omega) hs' d0 d1 hX (by norm_num at hcd hn41 ⊢; linarith)
    (f := fun k => do
      let x ← rdDouble M k
      let y ← rdDouble pt k
      pure (x - y))
    (fun k => by rw [rdDouble_spec hMc, pure_bind, rdDouble_small hpt k (hptb k), pure_bind])
  obtain ⟨z6, z7, x6, x7, f13, f14, f15, f16, k7, k8⟩ := check_spec (n := n) (x := fun k => 2^60 * (I k : ℝ)) (X := 25 * 2^60)
    (by omega) (by omega) (by omega) hs' d0 d1 hX (by norm_num at hcd hn41 ⊢; linarith) (rdDouble_spec hptqc)
  -- the output
  obtain ⟨g1, g2⟩ := resize_phase (LT := QS) (by omega) hmr hp'
  obtain ⟨u, hu⟩ : ∃ u : Fin (2^(n+1)) → ℤ, u = (fun k => (m k).sval + 2^60 * I k) - w := ⟨_, rfl⟩
  have hph : R_Q_square.phase s (R_Q_square.sub (R_Q_square.resize QS (mod_raise QT ct)) q') =
      red QS u := by rw [hu, phase_sub, g2, hw, red_sub]
  have hout : ∀ k, |((u k : ℤ) : ℝ) - (m k).sval| ≤ 2^b := by
    intro k
    have h5 := abs_le.1 (hwk' k)
    have h6 : ((u k : ℤ) : ℝ) = (m k).sval + 2^60 * I k - w k := by
      simp only [hu, Pi.sub_apply, Int.cast_sub, Int.cast_add, Int.cast_mul, Int.cast_pow, Int.cast_ofNat]
    rw [h6, abs_le]
    constructor <;> linarith
  have hQSb : (2:ℝ)^64 ≤ 2^(QS-1) := pow_le_pow_right₀ (by norm_num) (by omega)
  obtain ⟨mo, emo, hmo⟩ := dec_close hN hs' hph (m := fun k => (m k).sval) hB' hout (lt_of_lt_of_le (show (2:ℝ)^51 + 2^b < 2^64 by norm_num at hb57' ⊢; linarith) hQSb)
  obtain ⟨mo', emo', hmoc, -⟩ := dec_spec hN hs' (R_Q_square.sub (R_Q_square.resize QS (mod_raise QT ct)) q')
  obtain rfl := pure_inj (emo.symm.trans emo')
  obtain ⟨zo, ezo, hzo⟩ := decode_log_slot (LOGN := n+1) (by omega) (by omega) (by omega) hmoc
  unfold endToEndRun
  dsimp only
  rw [er, pure_bind, er0, pure_bind, er1, pure_bind]
  have t1 : ctsTest (LOGN := n+1) (BitVec.ofNat 64 (2^50)) r0 r1 (mod_raise QT ct) s = pure (supErr z0 z1 x0 x1) := by
    unfold ctsTest
    rw [f1, pure_bind, f2, pure_bind, hM, pure_bind, f3, pure_bind, f4, pure_bind]
  have t2 : evalmodTest (LOGN := n+1) (BitVec.ofNat 64 (2^50)) v0.1 v1.1 pt s = pure (supErr z2 z3 x2 x3) := by
    unfold evalmodTest
    rw [f5, pure_bind, f6, pure_bind, f7, pure_bind, f8, pure_bind]
  have t3 : evalqITest (LOGN := n+1) (BitVec.ofNat 64 (2^50)) (R_Q_square.sub (R_Q_square.resize Q12 r0) v0.1)
      (R_Q_square.sub (R_Q_square.resize Q12 r1) v1.1) (mod_raise QT ct) pt s = pure (supErr z4 z5 x4 x5) := by
    unfold evalqITest
    rw [f9, pure_bind, f10, pure_bind, hM, pure_bind]
    dsimp only
    rw [f11, pure_bind, f12, pure_bind]
  have t4 : stcTest (LOGN := n+1) (BitVec.ofNat 64 (2^50)) (R_Q_square.sub (R_Q_square.resize Q12 r0) v0.1)
      (R_Q_square.sub (R_Q_square.resize Q12 r1) v1.1) q' s = pure (supErr z6 z7 x6 x7) := by
    unfold stcTest
    rw [f13, pure_bind, f14, pure_bind, eptq, pure_bind, f15, pure_bind, f16, pure_bind]
  rw [t1, pure_bind, ev0, pure_bind, ev1, pure_bind, t2, pure_bind, t3, pure_bind, et, pure_bind, eq', pure_bind, t4, pure_bind,
    emo, pure_bind, ezo, pure_bind]
  refine Ok.pure ⟨?_, fun hsm => ⟨?_, ?_⟩, fun hsm => ?_, fun ⟨k, hk⟩ => ⟨?_, ?_⟩, ?_, ?_⟩
  · refine (k3 (E + 8) fun k => ?_).trans (div_le_div_of_nonneg_right (by linarith) (by positivity))
    have a1 := abs_le.1 (he k)
    have a2 := abs_le.1 (hd' k)
    rw [abs_le]
    constructor <;> linarith
  · refine (k1 E fun k => ?_).trans (div_le_div_of_nonneg_right (by linarith) (by positivity))
    have a0 := hsm k
    rw [Int.abs_eq_natAbs] at a0
    rw [Nat.mod_eq_of_lt (by omega), Int.sign_mul_natAbs]
    have a1 := abs_le.1 (he k)
    have a2 := hIM k
    rw [abs_le]
    constructor <;> linarith
  · refine (k5 8 fun k => ?_).trans (div_le_div_of_nonneg_right (by linarith) (by positivity))
    have a0 := hsm k
    rw [Int.abs_eq_natAbs] at a0
    rw [Nat.mod_eq_of_lt (by omega), Int.sign_mul_natAbs]
    have a1 := abs_le.1 (hd' k)
    have a2 := hIM k
    rw [abs_le]
    constructor <;> linarith
  · have hw64 : ∀ k, |w k| < 2^64 := by
      intro k
      have a1 := abs_le.1 (hwk' k)
      have a2 := hIM k
      have a3 := abs_le.1 (hB' k)
      have a4 : |((M k).sval : ℝ)| ≤ 2^64 - 2^59 := by exact_mod_cast hsm k
      have a5 := abs_le.1 a4
      have : |(w k : ℝ)| < 2^64 := by
        norm_num at a1 a2 a3 a5 hb57' ⊢
        rw [abs_lt]
        constructor <;> linarith
      exact_mod_cast this
    refine (k7 (2^b) fun k => ?_).trans (div_le_div_of_nonneg_right ?_ (by positivity))
    · have a0 := hw64 k
      rw [hptqs k a0]
      rw [Int.abs_eq_natAbs] at a0
      rw [Nat.mod_eq_of_lt (by omega), Int.sign_mul_natAbs, abs_sub_comm]
      exact hwk' k
    · have : (2:ℝ)^(n+25) ≤ 2^b := pow_le_pow_right₀ (by norm_num) (by
        rcases hp with ⟨rfl, rfl, rfl⟩ | ⟨rfl, rfl, rfl⟩ | ⟨rfl, rfl, rfl⟩ <;> norm_num)
      rw [pow_succ]; linarith
  · refine le_trans ?_ (k2 k)
    have a0 := low_gap hk
    have a1 := abs_le.1 (he k)
    have a2 := hIM k
    generalize (((M k).sval.sign * ((M k).sval.natAbs % 2^64 : Nat) : ℤ) : ℝ) = v at a0 ⊢
    have a3 : |((M k).sval : ℝ) - v| ≤ |e k + 2^60 * I k - v| + E := by
      have h5 := abs_sub_le ((M k).sval : ℝ) (e k + 2^60 * I k) v
      have h6 : |((M k).sval : ℝ) - (e k + 2^60 * I k)| ≤ E := by
        rw [abs_le]
        constructor <;> linarith
      linarith
    rw [le_div_iff₀ (by positivity)]
    norm_num at a0 a3 hb57' hEc ⊢
    linarith
  · refine le_trans ?_ (k6 k)
    have a0 := low_gap hk
    have a1 := hd' k
    have a2 := hIM k
    generalize (((M k).sval.sign * ((M k).sval.natAbs % 2^64 : Nat) : ℤ) : ℝ) = v at a0 ⊢
    have a3 : |((M k).sval : ℝ) - v| ≤ |2^60 * (I k : ℝ) - (v - (pt k).sval)| + 8 := by
      have e5 : ((M k).sval : ℝ) - v = (2^60 * (I k : ℝ) - (v - (pt k).sval)) + ((m k).sval - (pt k).sval) := by
        rw [a2]; ring
      rw [e5]
      exact (abs_add_le _ _).trans (by linarith)
    rw [le_div_iff₀ (by positivity)]
    norm_num at a0 a3 hn41 hcd ⊢
    linarith
  · have hsv : ∀ k, |((pt k).sval : ℝ) - (mo k).sval| ≤ 2^b + 8 := by
      intro k
      have a1 := abs_le.1 (hmo k)
      have a2 := abs_le.1 (hd' k)
      rw [abs_le]
      constructor <;> linarith
    have hsv' : ∀ k, (Z_Q.sub (Z_Q.resize QS (pt k)) (mo k)).sval = (pt k).sval - (mo k).sval := by
      intro k
      have a1 : |((pt k).sval : ℝ) - (mo k).sval| < 2^64 := lt_of_le_of_lt (hsv k) (by norm_num at hb57' ⊢; linarith)
      have a2 : |(pt k).sval - (mo k).sval| < 2^64 := by exact_mod_cast a1
      have a3 := abs_lt.1 a2
      have a4 : (2:ℤ)^64 ≤ 2^(QS-1) := by exact_mod_cast hQSb
      refine sval_eq_of_cls ?_ (by linarith [a3.1]) (by linarith [a3.2])
      rw [cls_sub, cls_resize (hpt k), Int.cast_sub, sval_cls (mo k)]
    obtain ⟨k, hk⟩ := (C56_norm_true (BitVec.ofNat 64 (2^50)) pt mo (fun k => by
      have a1 : |((pt k).sval : ℝ) - (mo k).sval| < 2^64 := lt_of_le_of_lt (hsv k) (by norm_num at hb57' ⊢; linarith)
      rw [hsv' k]
      exact_mod_cast a1)).2 (by positivity)
    have hδ : (((BitVec.ofNat 64 (2^50)).toNat : ℕ) : ℝ) = 2^50 := by
      rw [show (BitVec.ofNat 64 (2^50)).toNat = 2^50 from rfl]; norm_num
    rw [hk, hδ, hsv' k]
    push_cast
    exact div_le_div_of_nonneg_right (hsv k) (by positivity)
  · intro i
    have a1 := hzo i
    dsimp only
    rw [a1]
    refine (slotOf_sub_le (ε := (2^b + 8) / 2^50) (fun k => ?_) i).trans (le_of_eq (by push_cast; ring))
    rw [← sub_div, abs_div, abs_of_pos (a := (2:ℝ)^50) (by positivity)]
    refine div_le_div_of_nonneg_right ?_ (by positivity)
    have a1 := abs_le.1 (hmo k)
    have a2 := abs_le.1 (hd' k)
    rw [abs_le]
    constructor <;> linarith

/-- with at most 29 non-zero coefficients in the key, the raised message stays below `2^64` -/
theorem raised_small {N : Nat} (hN : N ≤ 2^30) (hq : 66 ≤ QT) {s : Fin N → Int}
    (hs : Ternary s) (hh : (univ.filter fun k => s k ≠ 0).card ≤ 29) {ct : R_Q_square 60 N} (hct : ct.Canonical)
    {m : R_Q 60 N} (hm : dec ct s = pure m) (hB : ∀ k, |(m k).sval| ≤ 2^51) {M : R_Q QT N}
    (hM : dec (mod_raise QT ct) s = pure M) (k : Fin N) : |(M k).sval| ≤ 2^64 - 2^59 := by
  obtain ⟨m', h1, _, h3⟩ := dec_spec hN hs ct
  obtain ⟨M', g1, _, g3⟩ := dec_spec hN hs (mod_raise QT ct)
  obtain rfl := pure_inj (hm.symm.trans h1)
  obtain rfl := pure_inj (hM.symm.trans g1)
  obtain ⟨_, I, hI, h⟩ := mod_raise_phase (LT := QT) hct s (R_Q.sval m) (by rw [← cls_red_sval, h3]) (fun i => abs_sval_le _)
  have h4 := hs.sum_abs
  unfold weight at h4
  have h5 := hI k
  rw [h4] at h5
  have h6 : |I k| ≤ 15 := by omega
  have h7 := abs_le.1 h6
  have h8 := abs_le.1 (hB k)
  have hp : (2:ℤ)^65 ≤ 2^(QT-1) := pow_le_pow_right₀ (by norm_num) (by omega)
  have e : (M k).sval = (m k).sval + 2^60 * I k := by
    refine sval_eq_of_cls (t := (m k).sval + 2^60 * I k) (congrFun (g3.trans h) k) ?_ ?_
    · refine (neg_le_neg hp).trans ?_
      norm_num at h8 ⊢
      omega
    · refine lt_of_lt_of_le ?_ hp
      norm_num at h8 ⊢
      omega
  rw [e, abs_le]
  norm_num at h8 ⊢
  omega

/-- C57: the whole of `end_to_end_test`, with a key of at most 29 entries: every number printed is below its bound and the
output is close to the message. -/
theorem C57_driver (R : Nat) {G b : Nat} (hp : BootParam n G b)
    (hQ0 : QT = Q0 + n/G * 60) (hC : EvalModChain 60 Q0 Q1 Q2 Q3 Q4 Q5 Q6 Q7 Q8 Q9 Q10 Q11 Q12) (hQS : Q12 = QS + n/G * 60)
    (hlo : 65 ≤ QS) (hhi : QT ≤ 1525) (H : Int) (hH : H ≤ 29)
    (z : CVec (n+1)) (hz : ∀ i : Fin (2^n), ‖(⟨z.1 i, z.2 i⟩ : ℂ)‖ ≤ 1) (ct0 : R_Q_square 60 (2^(n+1))) (ω : Rng)
    (hω : ∀ (j : Fin (2^(n+1))) (l : Nat), ∃ m, l ≤ m ∧ ω m % 2^(n+1) = j) :
    Ok (endToEndDriver R 60 60 G QT Q0 Q1 Q2 Q3 Q4 Q5 Q6 Q7 Q8 Q9 Q10 Q11 Q12 QS H z ct0 ω) fun o =>
      o.cts_error ≤ 2^b / 2^50 ∧ o.evalmod_error ≤ 2^b / 2^50 ∧ o.evalqI_error ≤ 2^(n+25) / 2^50 ∧
      o.stc_error ≤ 2^(b+1) / 2^50 ∧ o.e_norm ≤ (2^b + 8) / 2^50 ∧
      ∀ i : Fin (2^n), ‖(⟨o.z_out.1 i, o.z_out.2 i⟩ : ℂ) - ⟨z.1 i, z.2 i⟩‖ ≤ 2^(n+1) * (2^b + 9) / 2^50 := by
  have hn : 8 ≤ n ∧ n ≤ 16 ∧ b ≤ 57 := by rcases hp with ⟨rfl, rfl, rfl⟩ | ⟨rfl, rfl, rfl⟩ | ⟨rfl, rfl, rfl⟩ <;> norm_num
  have hN : 2^(n+1) ≤ 2^30 := Nat.pow_le_pow_right (by norm_num) (by omega)
  have hN' : 2^8 ≤ 2^(n+1) := Nat.pow_le_pow_right (by norm_num) (by omega)
  have hHN : H ≤ ((2^(n+1) : Nat) : Int) := by
    have : ((2^8 : Nat) : Int) ≤ ((2^(n+1) : Nat) : Int) := by exact_mod_cast hN'
    norm_num at this ⊢
    omega
  have hq : 66 ≤ QT := by unfold EvalModChain at hC; omega
  obtain ⟨⟨s, ω1⟩, hk, hs, hw⟩ := C19_keygen_returns H hHN ω hω
  unfold endToEndDriver
  rw [hk, pure_bind, show shl1 50 = pure (BitVec.ofNat 64 (2^50)) from rfl, pure_bind]
  obtain ⟨pt, ept, mz, hmz, hpt⟩ := encode_close (LOGN := n+1) (by omega) (by omega) z hz
  obtain ⟨⟨ct, ω2⟩, ect, -⟩ := enc_spec R hN hs pt ct0 ω1
  obtain ⟨hct, m, edm, hms, hmB⟩ := fresh_dec R (by omega) (by omega) hz hs ept ect
  obtain ⟨M, eM, -⟩ := dec_spec hN hs (mod_raise QT ct)
  rw [ept, pure_bind, ect, pure_bind]
  have hsm := raised_small hN hq hs (by rw [hw]; omega) hct edm hmB eM
  refine Ok.mono (C57_errors R hp hQ0 hC hQS hlo hhi s hs (by rw [hw]; omega) ct hct m edm M eM hmB
    (fresh_range R (by omega) (by omega) hq hz hs (by rw [hw]; omega) pt ct ω2 M ept ect eM) pt (fun k => (hpt k).1) hms ω2)
    fun o ⟨h1, h2, h3, _, h5, h6⟩ => ?_
  obtain ⟨h7, h8⟩ := h2 fun k => lt_of_le_of_lt (hsm k) (by norm_num)
  refine ⟨h7, h1, h8, h3 hsm, h5, fun i => ?_⟩
  have h9 : ‖slotOf (fun k => ((pt k).sval : ℝ) / 2^50) i - ⟨z.1 i, z.2 i⟩‖ ≤ 2^(n+1) * (1 / 2^50) := by
    have h10 := hmz i
    rw [← h10]
    refine (slotOf_sub_le (ε := 1 / 2^50) (fun k => ?_) i).trans (le_of_eq (by push_cast; ring))
    have h11 := (hpt k).2.1
    have e : ((pt k).sval : ℝ) / 2^50 - mz k = ((pt k).sval - mz k * 2^50) / 2^50 := by ring
    rw [e, abs_div, abs_of_pos (a := (2:ℝ)^50) (by positivity)]
    exact div_le_div_of_nonneg_right (h11.trans (by norm_num)) (by positivity)
  have h12 := norm_sub_le_norm_sub_add_norm_sub (⟨o.z_out.1 i, o.z_out.2 i⟩ : ℂ) (slotOf (fun k => ((pt k).sval : ℝ) / 2^50) i) ⟨z.1 i, z.2 i⟩
  have h13 := h6 i
  have e : (2:ℝ)^(n+1) * (2^b + 9) / 2^50 = 2^(n+1) * (2^b + 8) / 2^50 + 2^(n+1) * (1 / 2^50) := by ring
  rw [e]; linarith

end

/-- `C57_driver` is not vacuous: LOGN = 9, the moduli of the driver, a key of 29 entries and the stream 0, 1, 2, …. This run
also meets the hypotheses of `C57_errors`, with all `|M_k| < 2^64`. -/
example (ct0 : R_Q_square 60 (2^(8+1))) :
    Ok (endToEndDriver (2^31-1) 60 60 2 1450 1210 1150 1090 1030 970 910 850 790 730 670 610 550 490 250 29
      (set_test_message (8+1)) ct0 id) fun o => o.cts_error ≤ 1/65536 ∧ o.stc_error ≤ 1/32768 := by
  refine Ok.mono (C57_driver (n := 8) (QT := 1450) (QS := 250) (2^31-1) (Or.inl ⟨rfl, rfl, rfl⟩) (by norm_num)
    (by unfold EvalModChain; norm_num) (by norm_num) (by norm_num) (by norm_num) 29 (by norm_num) _
    (test_message_norm (8+1)) ct0 id (fun j l => ⟨j + 2^(8+1) * l, by
      have : 1 ≤ 2^(8+1) := by norm_num
      nlinarith, ?_⟩)) fun o h => ⟨h.1.trans (by norm_num), h.2.2.2.1.trans (by norm_num)⟩
  have := j.isLt
  simp only [id]
  rw [Nat.add_mul_mod_self_left, Nat.mod_eq_of_lt this]

theorem mod_raise_sval {N LF QT : Nat} [NeZero LF] [NeZero QT] {ct : R_Q_square LF N} (hct : ct.Canonical) (s : Fin N → Int) :
    R_Q_square.phase s (mod_raise QT ct) = red QT (R_Q.sval ct.1 + negconv s (R_Q.sval ct.2)) := by
  have h1 : R_Q.cls (mod_raise QT ct).1 = red QT (R_Q.sval ct.1) := funext fun i => cls_resize (hct.1 i)
  have h2 : R_Q.cls (mod_raise QT ct).2 = red QT (R_Q.sval ct.2) := funext fun i => cls_resize (hct.2 i)
  rw [phase_eq, red_add, red_negconv, h1, h2]

/-- an encryption of zero whose raised message has a coefficient of at least `2^64` -/
theorem large_raised {QT : Nat} [NeZero QT] (hq : 66 ≤ QT) : ∃ (s : Fin (2^(8+1)) → Int) (ct : R_Q_square 60 (2^(8+1))) (m : R_Q 60 (2^(8+1)))
    (M : R_Q QT (2^(8+1))), (∀ k, s k = -1 ∨ s k = 0 ∨ s k = 1) ∧ (univ.filter fun k => s k ≠ 0).card ≤ 45 ∧ ct.Canonical ∧
      m.Canonical ∧ dec ct s = pure m ∧ dec (mod_raise QT ct) s = pure M ∧ (∀ k, (m k).sval = 0) ∧ ∃ k, 2^64 ≤ |(M k).sval| := by
  have hN : 2^(8+1) ≤ 2^30 := by norm_num
  let s : Fin (2^(8+1)) → Int := fun j => if j.val < 45 then 1 else 0
  let a : R_Q 60 (2^(8+1)) := fun j => if j.val < 45 then Z_Q.ofNat 60 (2^59-1) else setzero
  have hs : Ternary s := fun k => by dsimp only [s]; split <;> simp
  have ha : ∀ j, (a j).Canonical ∧ (a j).sval = if j.val < 45 then 2^59-1 else 0 := by
    intro j
    dsimp only [a]
    split
    · exact ⟨by unfold Canonical; decide +kernel, by decide +kernel⟩
    · exact ⟨canonical_setzero, by decide +kernel⟩
  obtain ⟨p, ep, hpc, hp⟩ := dec_spec hN hs (R_Q.setzero, a)
  have hct : R_Q_square.Canonical (R_Q.sub R_Q.setzero p, a) := ⟨R_Q.canonical_sub _ _, fun j => (ha j).1⟩
  obtain ⟨m, em, hmc, hm⟩ := dec_spec hN hs (R_Q.sub R_Q.setzero p, a)
  obtain ⟨M, eM, hMc, hM⟩ := dec_spec hN hs (mod_raise QT (R_Q.sub R_Q.setzero p, a))
  refine ⟨s, (R_Q.sub R_Q.setzero p, a), m, M, hs, by decide +kernel, hct, hmc, em, eM, fun k => ?_, ⟨44, by norm_num⟩, ?_⟩
  · have h1 : R_Q.cls m = 0 := by
      rw [phase_eq] at hm hp
      dsimp only at hm hp
      rw [hm, R_Q.cls_sub, hp, R_Q.cls_setzero]
      simp
    exact sval_eq_of_cls (t := 0) (by rw [show (m k).cls = R_Q.cls m k from rfl, h1]; simp) (by norm_num) (by norm_num)
  · have h1 : R_Q.cls M = red QT (R_Q.sval (R_Q.sub R_Q.setzero p) + negconv s (R_Q.sval a)) := by
      rw [hM]; exact mod_raise_sval hct s
    have h2 : negconv s (R_Q.sval a) ⟨44, by norm_num⟩ = 45 * (2^59-1) := by
      unfold negconv
      rw [Finset.sum_congr rfl (g := fun j : Fin (2^(8+1)) => if j.val < 45 then (2^59-1 : ℤ) else 0) (fun j _ => ?_)]
      · rw [← Finset.sum_filter, Finset.sum_const,
          show (univ.filter fun j : Fin (2^(8+1)) => j.val < 45).card = 45 by decide +kernel]
        norm_num
      · by_cases hj : j.val < 45
        · rw [dif_pos (show j ≤ (⟨44, by norm_num⟩ : Fin (2^(8+1))) from (by omega : j.val ≤ 44)), if_pos hj]
          show s j * (a _).sval = _
          rw [(ha _).2, if_pos (show 44 - j.val < 45 by omega)]
          dsimp only [s]
          rw [if_pos hj, one_mul]
        · rw [dif_neg (show ¬ j ≤ (⟨44, by norm_num⟩ : Fin (2^(8+1))) from (by omega : ¬ j.val ≤ 44)), if_neg hj]
          dsimp only [s]
          rw [if_neg hj, zero_mul, neg_zero]
    have h3 := abs_le.1 (abs_sval_le (R_Q.sub R_Q.setzero p ⟨44, by norm_num⟩))
    have hp : (2:ℤ)^65 ≤ 2^(QT-1) := pow_le_pow_right₀ (by norm_num) (by omega)
    have h4 : (M ⟨44, by norm_num⟩).sval = (R_Q.sub R_Q.setzero p ⟨44, by norm_num⟩).sval + 45 * (2^59-1) := by
      refine sval_eq_of_cls ((congrFun h1 ⟨44, by norm_num⟩).trans ?_) ?_ ?_
      · show ((_ + negconv s (R_Q.sval a) ⟨44, by norm_num⟩ : ℤ) : ZMod (2^QT)) = _
        rw [h2]; rfl
      · refine (neg_le_neg hp).trans ?_
        norm_num at h3 ⊢
        linarith [h3.1, h3.2]
      · refine lt_of_lt_of_le ?_ hp
        norm_num at h3 ⊢
        linarith [h3.1, h3.2]
    rw [h4, le_abs]
    left
    norm_num at h3 ⊢
    linarith [h3.1, h3.2]

/-- C57: the errors printed can be wrong. There are a key and a ciphertext for which, whatever the random numbers, the check
of CoeffToSlot prints an error of at least 16000, although the bootstrapped plaintext is right up to `2^-15`. -/
theorem C57_wrong : ∃ (s : Fin (2^(8+1)) → Int) (ct : R_Q_square 60 (2^(8+1))) (pt : R_Q 60 (2^(8+1))), dec ct s = pure pt ∧
    ∀ (R : Nat) (ω : Rng), Ok (endToEndRun (LOGN := 8+1) R 60 60 2 1450 1210 1150 1090 1030 970 910 850 790 730 670 610 550 490 250
      (BitVec.ofNat 64 (2^50)) pt ct s ω) fun o => 16000 ≤ o.cts_error ∧ 16000 ≤ o.evalqI_error ∧ o.e_norm ≤ 1 / 2^15 := by
  have hN : 2^(8+1) ≤ 2^30 := by norm_num
  obtain ⟨s, ct, m, M, hs, hw, hct, hmc, em, eM, hm0, hbig⟩ := large_raised (QT := 1450) (by norm_num)
  have hB : ∀ k, |(m k).sval| ≤ 2^51 := fun k => by rw [hm0 k]; norm_num
  obtain ⟨M', eM', hr⟩ := raised_range (QT := 1450) hN (by norm_num) hs hw hct em hB
  obtain rfl := pure_inj (eM.symm.trans eM')
  refine ⟨s, ct, m, em, fun R ω => Ok.mono (C57_errors (n := 8) (QT := 1450) (QS := 250) R (Or.inl ⟨rfl, rfl, rfl⟩) (by norm_num)
    (by unfold EvalModChain; norm_num) (by norm_num) (by norm_num) (by norm_num) s hs (by omega) ct hct m em M eM hB hr m hmc
    (fun k => by simp) ω) fun o h => ⟨(h.2.2.2.1 hbig).1, (h.2.2.2.1 hbig).2, h.2.2.2.2.1.trans (by norm_num)⟩⟩

end EvalRound

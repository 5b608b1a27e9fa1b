import Verif.Proofs.SafeCheck
import Verif.Props.EndToEndProb

/-!
# C106: end_to_end_test returns on every run, and its first check tells whether the rest is right

C91 and C104 speak of the runs whose raised message is in the range of `EvalMod`. Here nothing is assumed of the mask: the six calls of the program with
`LOGDELTA_cts = 60` return on every run, and unless the error printed after CoeffToSlot is at least 16000 every other
error is within the bounds of C91.
-/

namespace EvalRound
open Z_Q Finset

section
variable {n QT Q0 Q1 Q2 Q3 Q4 Q5 Q6 Q7 Q8 Q9 Q10 Q11 Q12 QS : Nat} [NeZero QT] [NeZero Q0] [NeZero Q1] [NeZero Q2] [NeZero Q3]
  [NeZero Q4] [NeZero Q5] [NeZero Q6] [NeZero Q7] [NeZero Q8] [NeZero Q9] [NeZero Q10] [NeZero Q11] [NeZero Q12] [NeZero QS]

set_option maxHeartbeats 1000000 in
/-- the part of the run after the encryption, when a coefficient of the raised message does not fit into 64 bits -/
theorem run_outside {L : LibmP} (hLib : L.Accurate) (R : Nat) {G b b' LDs : Nat} (hp : BootParam2 n G b b') (hLDs : LDs < 63)
    (hQ0 : QT = Q0 + n/G * 60) (hC : EvalModChain 60 Q0 Q1 Q2 Q3 Q4 Q5 Q6 Q7 Q8 Q9 Q10 Q11 Q12) (hQS : QS ≤ Q12)
    (hlo : 68 ≤ Q12) (hhi : QT ≤ 1450)
    {s : Fin (2^(n+1)) → Int} (hs : Ternary s) (hh : (univ.filter fun k => s k ≠ 0).card ≤ 128)
    {ct : R_Q_square 60 (2^(n+1))} (hct : ct.Canonical) {m : R_Q 60 (2^(n+1))} (hm : dec ct s = pure m)
    {M : R_Q QT (2^(n+1))} (hM : dec (mod_raise QT ct) s = pure M) (hB : ∀ k, |(m k).sval| ≤ 2^51)
    (hr : ∃ k, 2^64 ≤ |(M k).sval|) {pt : R_Q 60 (2^(n+1))} (hpt : pt.Canonical) (ω : Rng) :
    Ok (endToEndRunF (LOGN := n+1) L R 60 LDs G QT Q0 Q1 Q2 Q3 Q4 Q5 Q6 Q7 Q8 Q9 Q10 Q11 Q12 QS (BitVec.ofNat 64 (2^50)) pt ct s ω)
      fun o => 16000 ≤ o.cts_error ∧ o.pt_out.Canonical := by
  have hn : 8 ≤ n ∧ n ≤ 16 ∧ 1 ≤ G ∧ G ≤ 4 ∧ n % G = 0 ∧ n/G = 4 := by
    rcases hp with ⟨rfl, rfl, rfl, rfl⟩ | ⟨rfl, rfl, rfl, rfl⟩ | ⟨rfl, rfl, rfl, rfl⟩ <;> norm_num
  obtain ⟨hn8, hn16, hG1, hG4, hG, hdd⟩ := hn
  have hN : 2^(n+1) ≤ 2^30 := Nat.pow_le_pow_right (by norm_num) (by omega)
  have hC' := hC
  unfold EvalModChain at hC'
  have hQ0' : QT = Q0 + 240 := by rw [hdd] at hQ0; omega
  have hMa : ∀ k, |((M k).sval : ℝ)| ≤ 66 * 2^60 := fun k => by
    exact_mod_cast raised_128 hN (by omega) hs hh hct hm hB hM k
  obtain ⟨M', e', hMc, hph⟩ := dec_spec hN hs (mod_raise QT ct)
  obtain rfl := pure_inj (hM.symm.trans e')
  have hph' : R_Q_square.phase s (mod_raise QT ct) = red QT fun k => (M k).sval := by rw [← hph]; exact cls_red_sval _
  have hmr : (mod_raise QT ct).Canonical := ⟨fun i => canonical_resize _, fun i => canonical_resize _⟩
  have hE := ctsErr2_wide hp hh
  obtain ⟨bb, hp'⟩ := hp.old
  have hc := ctsNoise_num hp' hh
  have hc0 := ctsNoise_nonneg (n := n) (h := (univ.filter fun k => s k ≠ 0).card) (G := G) (C := 2^60) (by positivity)
  have hn17 : (2:ℝ)^n ≤ 2^16 := pow_le_pow_right₀ (by norm_num) hn16
  obtain ⟨⟨r0, r1, ω1⟩, hrun, a, ha, n0, n1⟩ := ctsF_near2 hLib R 60 (by norm_num) (Or.inr (Or.inl ⟨by omega, by omega⟩)) (by omega) (by omega) hn16 hs hG1 hG4 hG
    hmr hph' (Z := Real.sqrt 2 * 2^n * (66 * 2^60)) (l2_slots_le hMa) (Q0 := Q0) hQ0 ω
  obtain ⟨r, er, hrun⟩ := bind_eq_pure hrun
  obtain ⟨r0', er0, hrun⟩ := bind_eq_pure hrun
  obtain ⟨r1', er1, hrun⟩ := bind_eq_pure hrun
  have hinj := pure_inj hrun
  simp only [Prod.mk.injEq] at hinj
  obtain ⟨rfl, rfl, rfl⟩ := hinj
  simp only [] at n0 n1
  have ha' : ∀ k, |a k - ((M k).sval : ℝ)| ≤ 2^50 := fun k => (ha k).trans hE
  have haX : ∀ k, |a k| ≤ 67 * 2^60 := fun k => by
    have a1 := abs_le.1 (ha' k)
    have a2 := abs_le.1 (hMa k)
    rw [abs_le]
    norm_num at a1 a2 ⊢
    constructor <;> linarith
  have hε : ctsNoise n (univ.filter fun k => s k ≠ 0).card G (2^60) ≤ 2^48 := by
    refine hc.trans ?_
    norm_num at hn17 ⊢
    linarith
  have hlow : ∀ {Q : Nat} [NeZero Q] (P : R_Q Q (2^(n+1))) (k : Fin (2^(n+1))), |(((P k).sval.sign * ((P k).sval.natAbs % 2^64 : Nat) : ℤ) : ℝ)| ≤ 2^65 :=
    fun P k => (low_abs _).trans (by norm_num)
  obtain ⟨z0, z1, x0, x1, y1, f1, f2, f3, f4, f4', k2⟩ := check_wideF hLib.1 (n := n) (x := a) (by omega) hn16
    (by omega) (by omega) hs hc0 n0 n1 haX hε (hlow M) (rdDoubleF_14 hMc)
  have t1 : ctsTestF (LOGN := n+1) L.toLibm (BitVec.ofNat 64 (2^50)) r0' r1' (mod_raise QT ct) s = pure y1 := by
    unfold ctsTestF
    rw [f1, pure_bind, f2, pure_bind, hM, pure_bind, f3, pure_bind, f4, pure_bind, f4']
  have hy1 : 16000 ≤ y1 := by
    obtain ⟨k, hk⟩ := hr
    refine le_trans ?_ (k2 k)
    have a0 := low_gap hk
    have a1 := ha' k
    generalize (((M k).sval.sign * ((M k).sval.natAbs % 2^64 : Nat) : ℤ) : ℝ) = v at a0 ⊢
    have a3 := abs_sub_le ((M k).sval : ℝ) (a k) v
    rw [abs_sub_comm _ (a k)] at a3
    rw [le_sub_iff_add_le, le_div_iff₀ (by positivity)]
    norm_num at a0 a1 a3 hε ⊢
    linarith
  unfold endToEndRunF
  dsimp only
  rw [er, pure_bind, er0, pure_bind, er1, pure_bind, t1, pure_bind]
  refine Ok.bind (EvalModKeyF_safe R (by norm_num) hn16 hC (by omega) (by omega) hs (by norm_num) (by norm_num) r0' _) fun v0 hv0 => ?_
  refine Ok.bind (EvalModKeyF_safe R (by norm_num) hn16 hC (by omega) (by omega) hs (by norm_num) (by norm_num) r1' _) fun v1 hv1 => ?_
  obtain ⟨z2, z3, x2, x3, y2, f5, f6, f7, f8, f8'⟩ := check_safeF hLib.1 (n := n) (by omega) hn16 (by omega) hs v0.1 v1.1 (hlow pt) (rdDoubleF_14 hpt)
  have t2 : evalmodTestF (LOGN := n+1) L.toLibm (BitVec.ofNat 64 (2^50)) v0.1 v1.1 pt s = pure y2 := by
    unfold evalmodTestF
    rw [f5, pure_bind, f6, pure_bind, f7, pure_bind, f8, pure_bind, f8']
  rw [t2, pure_bind]
  have hptb : ∀ k, |((pt k).sval : ℝ)| ≤ 2^64 := fun k => by
    have : |(pt k).sval| ≤ 2^64 := (abs_sval_le (pt k)).trans (by norm_num)
    exact_mod_cast this
  have hgq : ∀ k, |(((M k).sval.sign * ((M k).sval.natAbs % 2^64 : Nat) : ℤ) : ℝ) - (pt k).sval| ≤ 2^65 := fun k =>
    (abs_sub _ _).trans ((add_le_add (low_abs (M k).sval) (hptb k)).trans (by norm_num))
  obtain ⟨q0, hq0⟩ : ∃ c, c = R_Q_square.sub (R_Q_square.resize Q12 r0') v0.1 := ⟨_, rfl⟩
  obtain ⟨q1, hq1⟩ : ∃ c, c = R_Q_square.sub (R_Q_square.resize Q12 r1') v1.1 := ⟨_, rfl⟩
  have cq0 : q0.Canonical := by rw [hq0]; exact sub_can _ _
  have cq1 : q1.Canonical := by rw [hq1]; exact sub_can _ _
  rw [← hq0, ← hq1]
  obtain ⟨z4, z5, x4, x5, y3, f9, f10, f11, f12, f12'⟩ := check_safeF hLib.1 (n := n) (by omega) hn16 (by omega) hs q0 q1 hgq (diffDoubleF_spec hMc hpt)
  have t3 : evalqITestF (LOGN := n+1) L.toLibm (BitVec.ofNat 64 (2^50)) q0 q1 (mod_raise QT ct) pt s = pure y3 := by
    unfold evalqITestF
    rw [f9, pure_bind, f10, pure_bind, hM, pure_bind, f11, pure_bind, f12, pure_bind, f12']
  rw [t3, pure_bind]
  refine Ok.bind (stcF_safe hLib.1 R LDs hLDs (Or.inr (Or.inl ⟨by omega, by omega⟩)) (by omega) (by omega) hn16 hs hG1 hG4 hG cq0 cq1 _) fun t ht => ?_
  refine Ok.bind (RS_canonical hQS _ ht _) fun q' _ => ?_
  obtain ⟨ptq, eptq, hptqc, -⟩ := dec_spec hN hs q'
  obtain ⟨z6, z7, x6, x7, y4, f13, f14, f15, f16, f16'⟩ := check_safeF hLib.1 (n := n) (by omega) hn16 (by omega) hs q0 q1 (hlow ptq) (rdDoubleF_14 hptqc)
  have t4 : stcTestF (LOGN := n+1) L.toLibm (BitVec.ofNat 64 (2^50)) q0 q1 q' s = pure y4 := by
    unfold stcTestF
    rw [f13, pure_bind, f14, pure_bind, eptq, pure_bind, f15, pure_bind, f16, pure_bind, f16']
  rw [t4, pure_bind]
  exact Ok.bind (dec_spec hN hs _) fun mo ⟨hmo, _⟩ => Ok.pure ⟨hy1, hmo⟩

/-- C106: `end_to_end_test` with `LOGDELTA_cts = 60` returns on every run, whatever the mask and the noise, and either the error printed after CoeffToSlot
is at least 16000 or every error but that of SlotToCoeff is within the bounds of C91. `hω` says that the random numbers reach every index, without which
`keygen` diverges (C19). -/
theorem C106_returns {L : LibmP} (hLib : L.Accurate) (R : Nat) {G b b' LDs : Nat} (hp : BootParam2 n G b b') (hLDs : LDs = 50 ∨ LDs = 60)
    (hQ0 : QT = Q0 + n/G * 60) (hC : EvalModChain 60 Q0 Q1 Q2 Q3 Q4 Q5 Q6 Q7 Q8 Q9 Q10 Q11 Q12) (hQS : Q12 = QS + n/G * LDs)
    (hlo : 65 ≤ QS) (hhi : QT ≤ 1450) (H : Int) (hH : H ≤ 128)
    (z : CVec (n+1)) (hz : ∀ i : Fin (2^n), ‖(⟨z.1 i, z.2 i⟩ : ℂ)‖ ≤ 1) (ct0 : R_Q_square 60 (2^(n+1))) (ω : Rng)
    (hω : ∀ (j : Fin (2^(n+1))) (l : Nat), ∃ m, l ≤ m ∧ ω m % 2^(n+1) = j) :
    Ok (endToEndDriverF L R 60 LDs G QT Q0 Q1 Q2 Q3 Q4 Q5 Q6 Q7 Q8 Q9 Q10 Q11 Q12 QS H z ct0 ω) fun o =>
      16000 ≤ o.cts_error ∨ ResultClose b o ∧ StepsClose b o := by
  have hn : 8 ≤ n ∧ n ≤ 16 ∧ n/G = 4 := by rcases hp with ⟨rfl, rfl, rfl, rfl⟩ | ⟨rfl, rfl, rfl, rfl⟩ | ⟨rfl, rfl, rfl, rfl⟩ <;> norm_num
  have hN : 2^(n+1) ≤ 2^30 := Nat.pow_le_pow_right (by norm_num) (by omega)
  have hHN : H ≤ ((2^(n+1) : Nat) : Int) := by
    have : ((2^8 : Nat) : Int) ≤ ((2^(n+1) : Nat) : Int) := by exact_mod_cast Nat.pow_le_pow_right (by norm_num) (by omega)
    norm_num at this ⊢
    omega
  have hq : QS ≤ 900 ∧ QS ≤ Q12 ∧ 68 ≤ Q12 := by rw [hn.2.2] at hQS hQ0; unfold EvalModChain at hC; omega
  obtain ⟨⟨s, ω1⟩, hk, hs, hw⟩ := C19_keygen_returns H hHN ω hω
  have hδ : (((BitVec.ofNat 64 (2^50)).toNat : ℕ) : ℝ) = 2^50 := toNat_scale (by norm_num)
  have hne : BitVec.ofNat 64 (2^50) ≠ 0 := scale_ne_zero (by norm_num)
  obtain ⟨pt, ept, mz, y, -, hy, -⟩ := encodeF_l2 (n := n) (Q := 60) hLib.1 (by omega) (by omega) z (BitVec.ofNat 64 (2^50))
    hne (B := 1) hz (by rw [hδ]; norm_num) (by rw [hδ]; norm_num)
  obtain ⟨⟨ct, ω2⟩, ect, -⟩ := enc_spec R hN hs pt ct0 ω1
  obtain ⟨hct, m, edm, hms, hmB⟩ := fresh_decF hLib.1 R (by omega) (by omega) hz hs ept ect
  obtain ⟨M, eM, -⟩ := dec_spec hN hs (mod_raise QT ct)
  by_cases hr : ∃ k, 2^64 ≤ |(M k).sval|
  · unfold endToEndDriverF
    rw [hk, pure_bind, show shl1 50 = pure (BitVec.ofNat 64 (2^50)) from rfl, pure_bind, ept, pure_bind, ect, pure_bind]
    refine Ok.bind (run_outside hLib R hp (by omega) hQ0 hC hq.2.1 hq.2.2 hhi hs (by rw [hw]; omega) hct edm eM hmB hr (fun k => (hy k).1) ω2)
      fun o ⟨ho, hoc⟩ => ?_
    refine Ok.bind (decode_size hLib.1 (by omega) hn.2.1 hq.1 o.pt_out hoc) fun zo hzo => ?_
    obtain ⟨en, een, -⟩ := C79_norm (BitVec.ofNat 64 (2^50)) hne pt o.pt_out
    rw [een, pure_bind]
    have hsz : ∀ i : Fin (2^n), |z.1 i - zo.1 i| ≤ 2^1020 ∧ |z.2 i - zo.2 i| ≤ 2^1020 := fun i => by
      have a1 := Complex.abs_re_le_norm ((⟨z.1 i, z.2 i⟩ : ℂ) - ⟨zo.1 i, zo.2 i⟩)
      have a2 := Complex.abs_im_le_norm ((⟨z.1 i, z.2 i⟩ : ℂ) - ⟨zo.1 i, zo.2 i⟩)
      have a3 := norm_sub_le (⟨z.1 i, z.2 i⟩ : ℂ) ⟨zo.1 i, zo.2 i⟩
      have a4 : (1:ℝ) + 2^1000 ≤ 2^1020 := by
        rw [show (2:ℝ)^1020 = 2^20 * 2^1000 by rw [← pow_add]]
        have : (1:ℝ) ≤ 2^1000 := one_le_pow₀ (by norm_num)
        generalize (2:ℝ)^1000 = X at *
        norm_num
        linarith
      have a7 : ‖(⟨z.1 i, z.2 i⟩ : ℂ) - ⟨zo.1 i, zo.2 i⟩‖ ≤ 2^1020 := a3.trans ((add_le_add (hz i) (hzo i)).trans a4)
      exact ⟨a1.trans a7, a2.trans a7⟩
    refine Ok.bind (max_errF_reports z.1 zo.1 fun i => (hsz i).1) fun re _ => ?_
    exact Ok.bind (max_errF_reports z.2 zo.2 fun i => (hsz i).2) fun im _ => Ok.pure (Or.inl ho)
  · have hsm : ∀ k, |(M k).sval| < 2^64 := fun k => not_le.1 fun h => hr ⟨k, h⟩
    refine Ok.mono (end_to_end_of_range hLib R hp hLDs hQ0 hC hQS hlo (by omega) H hH z hz ct0 hk ept ect eM fun k => ?_)
      fun o h => Or.inr ⟨h.1, h.2.1 hsm⟩
    have := abs_lt.1 (hsm k)
    constructor <;> omega

end

/-- C106: the six calls of `main` with `LOGDELTA_cts = 60`, end_to_end_test.cpp:196, 198 and 200, with the moduli of rns.h, their message and their key
weight. -/
theorem C106_main {n G b b' LDs : Nat} (hp : BootParam2 n G b b') (hLDs : LDs = 50 ∨ LDs = 60)
    {QT Q0 Q1 Q2 Q3 Q4 Q5 Q6 Q7 Q8 Q9 Q10 Q11 Q12 QS : Nat} [NeZero QT] [NeZero Q0] [NeZero Q1] [NeZero Q2] [NeZero Q3]
    [NeZero Q4] [NeZero Q5] [NeZero Q6] [NeZero Q7] [NeZero Q8] [NeZero Q9] [NeZero Q10] [NeZero Q11] [NeZero Q12] [NeZero QS]
    (hQT : QT = 1450) (hQ0 : QT = Q0 + n/G * 60) (hC : EvalModChain 60 Q0 Q1 Q2 Q3 Q4 Q5 Q6 Q7 Q8 Q9 Q10 Q11 Q12) (hQS : Q12 = QS + n/G * LDs)
    {L : LibmP} (hLib : L.Accurate) (R : Nat) (ct0 : R_Q_square 60 (2^(n+1))) (ω : Rng)
    (hω : ∀ (j : Fin (2^(n+1))) (l : Nat), ∃ m, l ≤ m ∧ ω m % 2^(n+1) = j) :
    Ok (do
      let z ← set_test_messageF L.toLibm (n+1)
      endToEndDriverF L R 60 LDs G QT Q0 Q1 Q2 Q3 Q4 Q5 Q6 Q7 Q8 Q9 Q10 Q11 Q12 QS 128 z ct0 ω) fun o =>
        16000 ≤ o.cts_error ∨ ResultClose b o ∧ StepsClose b o := by
  have hn : 8 ≤ n ∧ n ≤ 16 ∧ n/G = 4 ∧ b ≤ 47 := by
    rcases hp with ⟨rfl, rfl, rfl, rfl⟩ | ⟨rfl, rfl, rfl, rfl⟩ | ⟨rfl, rfl, rfl, rfl⟩ <;> norm_num
  have hlo : 65 ≤ QS := by
    have hC' := hC
    unfold EvalModChain at hC'
    rw [hn.2.2.1] at hQ0 hQS
    omega
  refine Ok.bind (C79_test_message hLib.1 (by omega)) fun z hz => ?_
  exact C106_returns hLib R hp hLDs hQ0 hC hQS hlo (by omega) 128 (by norm_num) z (fun i => (hz i).2) ct0 ω hω

/-- `<9,60,50,2>`, with the stream 0, 1, 2, …: C106 is not vacuous. -/
example (ct0 : R_Q_square 60 (2^(8+1))) :
    Ok (do
      let z ← set_test_messageF exactLibmP.toLibm (8+1)
      endToEndDriverF exactLibmP (2^31-1) 60 50 2 1450 1210 1150 1090 1030 970 910 850 790 730 670 610 550 490 290 128 z ct0 id) fun o =>
        16000 ≤ o.cts_error ∨ o.cts_error ≤ 1/32768 ∧ o.evalmod_error ≤ 1/32768 ∧ o.evalqI_error ≤ 1/131072 ∧ o.e_norm ≤ 1/32767 ∧
          o.max_err_real ≤ 1/63 ∧ o.max_err_imag ≤ 1/63 := by
  refine Ok.mono (C106_main (n := 8) (Or.inl ⟨rfl, rfl, rfl, rfl⟩) (Or.inl rfl) rfl (by norm_num) (by unfold EvalModChain; norm_num) (by norm_num) exactLibmP_accurate
    (2^31-1) ct0 id (stream_id 8)) fun o h => h.imp id fun ⟨⟨h1, h2, h3, h4⟩, h5, h6⟩ => ?_
  norm_num at h1 h2 h3 h4 h5 h6 ⊢
  refine ⟨?_, ?_, ?_, ?_, ?_, ?_⟩ <;> linarith

/-- `<17,60,60,4>`, with the stream 0, 1, 2, …. -/
example (n : Nat) (hn : n = 16) (z : CVec (n+1)) (hz : ∀ i : Fin (2^n), ‖(⟨z.1 i, z.2 i⟩ : ℂ)‖ ≤ 1) (ct0 : R_Q_square 60 (2^(n+1))) :
    Ok (endToEndDriverF exactLibmP (2^31-1) 60 60 4 1450 1210 1150 1090 1030 970 910 850 790 730 670 610 550 490 250 128 z ct0 id) fun o =>
      16000 ≤ o.cts_error ∨ ResultClose 47 o ∧ StepsClose 47 o :=
  C106_returns exactLibmP_accurate (2^31-1) (b' := 45) (Or.inr (Or.inr ⟨hn, rfl, rfl, rfl⟩)) (Or.inr rfl) (by subst hn; norm_num)
    (by unfold EvalModChain; norm_num) (by subst hn; norm_num) (by norm_num) (by norm_num) 128 (by norm_num) z hz ct0 id (stream_id n)

end EvalRound

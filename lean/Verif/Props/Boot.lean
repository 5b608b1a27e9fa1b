import Verif.Proofs.Boot
import Verif.Proofs.BootNum
import Verif.Props.EvalMod

/-!
# C51, C52: bootstrapping
-/

namespace EvalRound
open Z_Q Finset

variable {n : Nat}

/-- decryption of a ciphertext with a message close to a small one -/
theorem dec_close {Q N : Nat} [NeZero Q] (hN : N ≤ 2^30) {s : Fin N → Int} (hs : Ternary s) {c : R_Q_square Q N}
    {w m : Fin N → Int} (hw : R_Q_square.phase s c = red Q w) {e B : ℝ} (hB : ∀ k, |(m k : ℝ)| ≤ B)
    (he : ∀ k, |(w k : ℝ) - m k| ≤ e) (hQ : B + e < 2^(Q-1)) :
    Ok (dec c s) fun m' => ∀ k, |((m' k).sval : ℝ) - m k| ≤ e := by
  refine Ok.mono (dec_spec hN hs c) fun p ⟨_, hp⟩ k => ?_
  have h1 := abs_sub_abs_le_abs_sub (w k : ℝ) (m k)
  have h2 : |(w k : ℝ)| < 2^(Q-1) := by linarith [hB k, he k]
  have h3 : |w k| < 2^(Q-1) := by exact_mod_cast h2
  have h4 := abs_lt.1 h3
  rw [sval_eq_of_cls (congrFun (hp.trans hw) k) h4.1.le h4.2]
  exact he k

/-- raising the modulus adds a multiple of the old modulus -/
theorem mod_raise_diff {LF QT N : Nat} [NeZero LF] [NeZero QT] (hN : N ≤ 2^30) (hl : LF ≤ QT)
    {s : Fin N → Int} (hs : Ternary s) {ct : R_Q_square LF N} (hct : ct.Canonical) {m : R_Q LF N} (hm : dec ct s = pure m)
    {M : R_Q QT N} (hM : dec (mod_raise QT ct) s = pure M) :
    R_Q_square.phase s (mod_raise QT ct) = red QT (R_Q.sval M) ∧
      ∃ I : Fin N → Int, ∀ k, (M k).sval = (m k).sval + 2^LF * I k := by
  obtain ⟨m', h1, _, h3⟩ := dec_spec hN hs ct
  obtain ⟨M', g1, _, g3⟩ := dec_spec hN hs (mod_raise QT ct)
  obtain rfl := pure_inj (hm.symm.trans h1)
  obtain rfl := pure_inj (hM.symm.trans g1)
  have hM1 : R_Q_square.phase s (mod_raise QT ct) = red QT (R_Q.sval M) := by rw [← g3, cls_red_sval]
  refine ⟨hM1, ?_⟩
  obtain ⟨_, I, _, h⟩ := mod_raise_phase (LT := QT) hct s (R_Q.sval m) (by rw [← cls_red_sval, h3]) (fun i => abs_sval_le _)
  have h5 : ∀ k, ∃ t : Int, (M k).sval - (m k).sval = 2^LF * t := by
    intro k
    have e := congrFun (hM1.symm.trans h) k
    simp only [red] at e
    rw [ZMod.intCast_eq_intCast_iff_dvd_sub] at e
    push_cast at e
    have e2 : (2:Int)^LF ∣ (R_Q.sval m + (2^LF : Int) • I) k - R_Q.sval M k := dvd_trans (pow_dvd_pow _ hl) e
    obtain ⟨t, ht⟩ := e2
    simp only [Pi.add_apply, Pi.smul_apply, smul_eq_mul, R_Q.sval] at ht
    exact ⟨I k - t, by rw [mul_sub]; linarith⟩
  choose J hJ using h5
  exact ⟨J, fun k => by linarith [hJ k]⟩

/-- with at most 45 non-zero coefficients in the key, the raised message is in the range of EvalMod -/
theorem raised_range {QT N : Nat} [NeZero QT] (hN : N ≤ 2^30) (hq : 66 ≤ QT) {s : Fin N → Int}
    (hs : Ternary s) (hh : (univ.filter fun k => s k ≠ 0).card ≤ 45) {ct : R_Q_square 60 N} (hct : ct.Canonical)
    {m : R_Q 60 N} (hm : dec ct s = pure m) (hB : ∀ k, |(m k).sval| ≤ 2^51) :
    ∃ M, dec (mod_raise QT ct) s = pure M ∧ ∀ k, -237 * 2^60 ≤ 10 * (M k).sval ∧ 10 * (M k).sval ≤ 242 * 2^60 := by
  obtain ⟨m', h1, _, h3⟩ := dec_spec hN hs ct
  obtain ⟨M, g1, _, g3⟩ := dec_spec hN hs (mod_raise QT ct)
  obtain rfl := pure_inj (hm.symm.trans h1)
  refine ⟨M, g1, fun k => ?_⟩
  obtain ⟨_, I, hI, h⟩ := mod_raise_phase (LT := QT) hct s (R_Q.sval m) (by rw [← cls_red_sval, h3]) (fun i => abs_sval_le _)
  have h4 := hs.sum_abs
  unfold weight at h4
  have h5 := hI k
  rw [h4] at h5
  have h6 : |I k| ≤ 23 := by omega
  have h7 := abs_le.1 h6
  have h8 := abs_le.1 (hB k)
  have hp : (2:ℤ)^65 ≤ 2^(QT-1) := pow_le_pow_right₀ (by norm_num) (by omega)
  have e : (M k).sval = (m k).sval + 2^60 * I k := by
    refine sval_eq_of_cls (t := (m k).sval + 2^60 * I k) (congrFun (g3.trans h) k) ?_ ?_
    · refine (neg_le_neg hp).trans ?_
      norm_num at h8 ⊢
      omega
    · refine lt_of_lt_of_le ?_ hp
      norm_num at h8 ⊢
      omega
  rw [e]
  norm_num at h8 ⊢
  omega

section
variable {LOGq QT Q0 Q1 Q2 Q3 Q4 Q5 Q6 Q7 Q8 Q9 Q10 Q11 Q12 QS : Nat} [NeZero LOGq] [NeZero QT] [NeZero Q0] [NeZero Q1] [NeZero Q2] [NeZero Q3]
  [NeZero Q4] [NeZero Q5] [NeZero Q6] [NeZero Q7] [NeZero Q8] [NeZero Q9] [NeZero Q10] [NeZero Q11] [NeZero Q12] [NeZero QS]

/-- C51: the conventional bootstrapping of a ciphertext with modulus `2^LOGq` returns a ciphertext with modulus
`2^QS` of the same message, up to `convErr`. `M` is the message of the raised ciphertext, which must be in the range
of EvalMod. -/
theorem C51_conventional (R LDcts LDstc G : Nat) (hLc : LDcts < 63) (hLs : LDstc < 63) (hq : LOGq < 62)
    (hn1 : 1 ≤ n) (hn : n ≤ 16) (hG1 : 1 ≤ G) (hG : G ≤ 4) (hG' : n % G = 0)
    (hQT : GoodQ QT) (hQ12 : GoodQ Q12) (hQ0 : QT = Q0 + n/G * LDcts)
    (hC : EvalModChain LOGq Q0 Q1 Q2 Q3 Q4 Q5 Q6 Q7 Q8 Q9 Q10 Q11 Q12) (hQS : Q12 = QS + n/G * LDstc)
    (hlo : 65 ≤ Q11) (hhi : Q1 ≤ 1525) (hl1 : LDcts + 1 < QT) (hl2 : LDstc + 1 < Q12)
    (s : Fin (2^(n+1)) → Int) (hs : ∀ k, s k = -1 ∨ s k = 0 ∨ s k = 1)
    (ct : R_Q_square LOGq (2^(n+1))) (hct : ct.Canonical) (m : R_Q LOGq (2^(n+1))) (hm : dec ct s = pure m)
    (M : R_Q QT (2^(n+1))) (hM : dec (mod_raise QT ct) s = pure M) (Z B : ℝ)
    (hZ : ∀ i, ‖slots n (fun k => (M k).sval) i‖ ≤ Z) (hB : ∀ k, |((m k).sval : ℝ)| ≤ B)
    (hr : ∀ k, -95/4 * 2^LOGq + ctsErr n (univ.filter fun k => s k ≠ 0).card G (2^LDcts) Z ≤ ((M k).sval : ℝ) ∧
      ((M k).sval : ℝ) ≤ 97/4 * 2^LOGq - ctsErr n (univ.filter fun k => s k ≠ 0).card G (2^LDcts) Z)
    (hw : B + convErr n (univ.filter fun k => s k ≠ 0).card G (2^LDcts) (2^LOGq) (2^LDstc) Z B < 2^(QS-1)) (ω : Rng) :
    Ok (do
      let p ← bootConv (LOGN := n+1) R LDcts LOGq LDstc G 24 QT Q0 Q1 Q2 Q3 Q4 Q5 Q6 Q7 Q8 Q9 Q10 Q11 Q12 QS ct s ω
      dec p.1 s) fun m' => ∀ k, |((m' k).sval : ℝ) - (m k).sval| ≤
        convErr n (univ.filter fun k => s k ≠ 0).card G (2^LDcts) (2^LOGq) (2^LDstc) Z B := by
  have hs' : Ternary s := hs
  have hN : 2^(n+1) ≤ 2^30 := Nat.pow_le_pow_right (by norm_num) (by omega)
  have hl : LOGq ≤ QT := by
    unfold EvalModChain at hC; rw [hQ0]; omega
  obtain ⟨hp, I, hI⟩ := mod_raise_diff hN hl hs' hct hm hM
  have eM : (fun k => (M k).sval) = fun k => (m k).sval + 2^LOGq * I k := funext hI
  have hp' : R_Q_square.phase s (mod_raise QT ct) = red QT fun k => (m k).sval + 2^LOGq * I k := hp.trans (congrArg _ eM)
  rw [eM] at hZ
  obtain ⟨b, hb, -, e, he, -, -, h0, h1⟩ := bootToEvalMod_near R LDcts hLc hl1 hQT hq hn1 hn hG1 hG hG' hQ0 hC hlo hhi hs' hp'
    (Z := Z) (B := B) hZ hB (fun k => by rw [← hI k]; exact hr k) ω
  obtain ⟨p, hp1, _, w, hw1, hw2⟩ := bootConvTail_coeff R LDstc hLs hl2 hQ12 hn1 hn hG1 hG hG' (QS := QS) hQS hs' hB he h0 h1
  unfold bootConv
  rw [hb, pure_bind, hp1, pure_bind]
  exact dec_close hN hs' hw1 hB hw2 hw

/-- C52: the proposed bootstrapping of a ciphertext with modulus `2^LOGq` returns a ciphertext with modulus
`2^QS` of the same message, up to `propErr`. -/
theorem C52_proposed (R LDcts LDstc G : Nat) (hLc : LDcts < 63) (hLs : LDstc < 63) (hq : LOGq < 62)
    (hn1 : 1 ≤ n) (hn : n ≤ 16) (hG1 : 1 ≤ G) (hG : G ≤ 4) (hG' : n % G = 0)
    (hQT : GoodQ QT) (hQ12 : GoodQ Q12) (hQ0 : QT = Q0 + n/G * LDcts)
    (hC : EvalModChain LOGq Q0 Q1 Q2 Q3 Q4 Q5 Q6 Q7 Q8 Q9 Q10 Q11 Q12) (hQS : Q12 = QS + n/G * LDstc)
    (hlo : 65 ≤ Q11) (hhi : Q1 ≤ 1525) (hl1 : LDcts + 1 < QT) (hl2 : LDstc + 1 < Q12)
    (s : Fin (2^(n+1)) → Int) (hs : ∀ k, s k = -1 ∨ s k = 0 ∨ s k = 1)
    (ct : R_Q_square LOGq (2^(n+1))) (hct : ct.Canonical) (m : R_Q LOGq (2^(n+1))) (hm : dec ct s = pure m)
    (M : R_Q QT (2^(n+1))) (hM : dec (mod_raise QT ct) s = pure M) (Z B : ℝ)
    (hZ : ∀ i, ‖slots n (fun k => (M k).sval) i‖ ≤ Z) (hB : ∀ k, |((m k).sval : ℝ)| ≤ B)
    (hr : ∀ k, -95/4 * 2^LOGq + ctsErr n (univ.filter fun k => s k ≠ 0).card G (2^LDcts) Z ≤ ((M k).sval : ℝ) ∧
      ((M k).sval : ℝ) ≤ 97/4 * 2^LOGq - ctsErr n (univ.filter fun k => s k ≠ 0).card G (2^LDcts) Z)
    (hw : B + propErr n (univ.filter fun k => s k ≠ 0).card G (2^LDcts) (2^LOGq) (2^LDstc) Z B < 2^(QS-1)) (ω : Rng) :
    Ok (do
      let p ← bootProp (LOGN := n+1) R LDcts LOGq LDstc G 24 QT Q0 Q1 Q2 Q3 Q4 Q5 Q6 Q7 Q8 Q9 Q10 Q11 Q12 QS ct s ω
      dec p.1 s) fun m' => ∀ k, |((m' k).sval : ℝ) - (m k).sval| ≤
        propErr n (univ.filter fun k => s k ≠ 0).card G (2^LDcts) (2^LOGq) (2^LDstc) Z B := by
  have hs' : Ternary s := hs
  have hN : 2^(n+1) ≤ 2^30 := Nat.pow_le_pow_right (by norm_num) (by omega)
  have hC' := hC
  unfold EvalModChain at hC'
  have hl : LOGq ≤ QT := by rw [hQ0]; omega
  obtain ⟨hp, I, hI⟩ := mod_raise_diff hN hl hs' hct hm hM
  have eM : (fun k => (M k).sval) = fun k => (m k).sval + 2^LOGq * I k := funext hI
  have hp' : R_Q_square.phase s (mod_raise QT ct) = red QT fun k => (m k).sval + 2^LOGq * I k := hp.trans (congrArg _ eM)
  rw [eM] at hZ
  obtain ⟨b, hb, hb1, e, he, c0, c1, h0, h1⟩ := bootToEvalMod_near R LDcts hLc hl1 hQT hq hn1 hn hG1 hG hG' hQ0 hC hlo hhi hs' hp'
    (Z := Z) (B := B) hZ hB (fun k => by rw [← hI k]; exact hr k) ω
  have hI25 : ∀ k, |(I k : ℝ)| ≤ 25 := by
    intro k
    have a0 := (abs_nonneg _).trans (he k)
    obtain ⟨a1, a2⟩ := hr k
    have a3 : |((m k).sval : ℝ)| ≤ 2^(LOGq-1) := by exact_mod_cast abs_sval_le (m k)
    have a4 : (2:ℝ)^LOGq = 2 * 2^(LOGq-1) := by exact_mod_cast two_mul_half LOGq
    have a5 : ((M k).sval : ℝ) = (m k).sval + 2^LOGq * I k := by exact_mod_cast hI k
    have a6 := abs_le.1 a3
    have a7 : (0:ℝ) < 2^LOGq := by positivity
    unfold weight at a0
    rw [abs_le]
    constructor
    · by_contra hcon
      push Not at hcon
      have := mul_lt_mul_of_pos_left hcon a7
      linarith [a6.1, a6.2]
    · by_contra hcon
      push Not at hcon
      have := mul_lt_mul_of_pos_left hcon a7
      linarith [a6.1, a6.2]
  obtain ⟨p, hp1, _, w, hw1, hw2⟩ := bootPropTail_coeff R LDstc hLs hl2 hQ12 hn1 hn hG1 hG hG' (QS := QS) hQS (by omega) (by omega) hs' hI25
    (by rw [hb1]; exact ⟨fun i => canonical_resize _, fun i => canonical_resize _⟩) (by rw [hb1]; exact hp') c0 c1 h0 h1
  unfold bootProp
  rw [hb, pure_bind, hp1, pure_bind]
  exact dec_close hN hs' hw1 hB hw2 hw

/-- C51 with the parameters of the drivers with `LOGDELTA_cts = 60` (`LOGN` 9, 13 or 17, `LOGDELTA_stc = 50`, at most 128
non-zero coefficients in the key): a message up to `2^51` is recovered up to `2^34`, `2^44` or `2^57`. -/
theorem C51_drivers (R : Nat) {G b : Nat} (hp : BootParam n G b)
    (hQ0 : QT = Q0 + n/G * 60) (hC : EvalModChain 60 Q0 Q1 Q2 Q3 Q4 Q5 Q6 Q7 Q8 Q9 Q10 Q11 Q12) (hQS : Q12 = QS + n/G * 50)
    (hlo : 65 ≤ QS) (hhi : QT ≤ 1525)
    (s : Fin (2^(n+1)) → Int) (hs : ∀ k, s k = -1 ∨ s k = 0 ∨ s k = 1) (hh : (univ.filter fun k => s k ≠ 0).card ≤ 128)
    (ct : R_Q_square 60 (2^(n+1))) (hct : ct.Canonical) (m : R_Q 60 (2^(n+1))) (hm : dec ct s = pure m)
    (M : R_Q QT (2^(n+1))) (hM : dec (mod_raise QT ct) s = pure M) (hB : ∀ k, |(m k).sval| ≤ 2^51)
    (hr : ∀ k, -237 * 2^60 ≤ 10 * (M k).sval ∧ 10 * (M k).sval ≤ 242 * 2^60) (ω : Rng) :
    Ok (do
      let p ← bootConv (LOGN := n+1) R 60 60 50 G 24 QT Q0 Q1 Q2 Q3 Q4 Q5 Q6 Q7 Q8 Q9 Q10 Q11 Q12 QS ct s ω
      dec p.1 s) fun m' => ∀ k, |(m' k).sval - (m k).sval| ≤ 2^b := by
  have hn : 8 ≤ n ∧ n ≤ 16 ∧ 1 ≤ G ∧ G ≤ 4 ∧ n % G = 0 ∧ n/G = 4 ∧ b ≤ 57 := by
    rcases hp with ⟨rfl, rfl, rfl⟩ | ⟨rfl, rfl, rfl⟩ | ⟨rfl, rfl, rfl⟩ <;> norm_num
  obtain ⟨hn8, hn16, hG1, hG4, hG, hd, hb⟩ := hn
  have hC' := hC
  unfold EvalModChain at hC'
  have hc := boot_param_ctsErr hp hh
  have he := convErr_num hp hh
  have hr' : ∀ k, -237/10 * 2^60 ≤ ((M k).sval : ℝ) ∧ ((M k).sval : ℝ) ≤ 242/10 * 2^60 := by
    intro k
    obtain ⟨h1, h2⟩ := hr k
    have h1' : (-237 * 2^60 : ℝ) ≤ 10 * (M k).sval := by exact_mod_cast h1
    have h2' : (10 : ℝ) * (M k).sval ≤ 242 * 2^60 := by exact_mod_cast h2
    constructor <;> linarith
  have hB' : ∀ k, |((m k).sval : ℝ)| ≤ 2^51 := fun k => by exact_mod_cast hB k
  have hb57 : (2:ℝ)^b ≤ 2^57 := pow_le_pow_right₀ (by norm_num) hb
  have hS : (2:ℝ)^64 ≤ 2^(QS-1) := pow_le_pow_right₀ (by norm_num) (by omega)
  refine Ok.mono (C51_conventional (LOGq := 60) R 60 50 G (by norm_num) (by norm_num) (by norm_num) (by omega) hn16 hG1 hG4 hG
    (Or.inr (Or.inl ⟨by omega, by omega⟩)) (Or.inr (Or.inl ⟨by omega, by omega⟩)) hQ0 hC hQS (by omega) (by omega) (by omega)
    (by omega) s hs ct hct m hm M hM (2^(n+1) * (25 * 2^60)) (2^51) (fun i => norm_slots_le (fun k => ?_) i) hB' (fun k => ?_) ?_ ω)
    fun m' hm' k => ?_
  · rw [abs_le]
    have := hr' k
    constructor <;> linarith
  · have := hr' k
    norm_num at this hc ⊢
    constructor <;> linarith
  · refine lt_of_le_of_lt (add_le_add_right he _) (lt_of_lt_of_le ?_ hS)
    exact lt_of_le_of_lt (add_le_add_right hb57 _) (by norm_num)
  · have := (hm' k).trans he
    exact_mod_cast this

/-- C52 with the parameters of the drivers with `LOGDELTA_cts = 60` (`LOGN` 9, 13 or 17, `LOGDELTA_stc = 60`, at most 128
non-zero coefficients in the key). -/
theorem C52_drivers (R : Nat) {G b : Nat} (hp : BootParam n G b)
    (hQ0 : QT = Q0 + n/G * 60) (hC : EvalModChain 60 Q0 Q1 Q2 Q3 Q4 Q5 Q6 Q7 Q8 Q9 Q10 Q11 Q12) (hQS : Q12 = QS + n/G * 60)
    (hlo : 65 ≤ QS) (hhi : QT ≤ 1525)
    (s : Fin (2^(n+1)) → Int) (hs : ∀ k, s k = -1 ∨ s k = 0 ∨ s k = 1) (hh : (univ.filter fun k => s k ≠ 0).card ≤ 128)
    (ct : R_Q_square 60 (2^(n+1))) (hct : ct.Canonical) (m : R_Q 60 (2^(n+1))) (hm : dec ct s = pure m)
    (M : R_Q QT (2^(n+1))) (hM : dec (mod_raise QT ct) s = pure M) (hB : ∀ k, |(m k).sval| ≤ 2^51)
    (hr : ∀ k, -237 * 2^60 ≤ 10 * (M k).sval ∧ 10 * (M k).sval ≤ 242 * 2^60) (ω : Rng) :
    Ok (do
      let p ← bootProp (LOGN := n+1) R 60 60 60 G 24 QT Q0 Q1 Q2 Q3 Q4 Q5 Q6 Q7 Q8 Q9 Q10 Q11 Q12 QS ct s ω
      dec p.1 s) fun m' => ∀ k, |(m' k).sval - (m k).sval| ≤ 2^b := by
  have hn : 8 ≤ n ∧ n ≤ 16 ∧ 1 ≤ G ∧ G ≤ 4 ∧ n % G = 0 ∧ n/G = 4 ∧ b ≤ 57 := by
    rcases hp with ⟨rfl, rfl, rfl⟩ | ⟨rfl, rfl, rfl⟩ | ⟨rfl, rfl, rfl⟩ <;> norm_num
  obtain ⟨hn8, hn16, hG1, hG4, hG, hd, hb⟩ := hn
  have hC' := hC
  unfold EvalModChain at hC'
  have hc := boot_param_ctsErr hp hh
  have he := propErr_num hp hh
  have hr' : ∀ k, -237/10 * 2^60 ≤ ((M k).sval : ℝ) ∧ ((M k).sval : ℝ) ≤ 242/10 * 2^60 := by
    intro k
    obtain ⟨h1, h2⟩ := hr k
    have h1' : (-237 * 2^60 : ℝ) ≤ 10 * (M k).sval := by exact_mod_cast h1
    have h2' : (10 : ℝ) * (M k).sval ≤ 242 * 2^60 := by exact_mod_cast h2
    constructor <;> linarith
  have hB' : ∀ k, |((m k).sval : ℝ)| ≤ 2^51 := fun k => by exact_mod_cast hB k
  have hb57 : (2:ℝ)^b ≤ 2^57 := pow_le_pow_right₀ (by norm_num) hb
  have hS : (2:ℝ)^64 ≤ 2^(QS-1) := pow_le_pow_right₀ (by norm_num) (by omega)
  refine Ok.mono (C52_proposed (LOGq := 60) R 60 60 G (by norm_num) (by norm_num) (by norm_num) (by omega) hn16 hG1 hG4 hG
    (Or.inr (Or.inl ⟨by omega, by omega⟩)) (Or.inr (Or.inl ⟨by omega, by omega⟩)) hQ0 hC hQS (by omega) (by omega) (by omega)
    (by omega) s hs ct hct m hm M hM (2^(n+1) * (25 * 2^60)) (2^51) (fun i => norm_slots_le (fun k => ?_) i) hB' (fun k => ?_) ?_ ω)
    fun m' hm' k => ?_
  · rw [abs_le]
    have := hr' k
    constructor <;> linarith
  · have := hr' k
    norm_num at this hc ⊢
    constructor <;> linarith
  · refine lt_of_le_of_lt (add_le_add_right he _) (lt_of_lt_of_le ?_ hS)
    exact lt_of_le_of_lt (add_le_add_right hb57 _) (by norm_num)
  · have := (hm' k).trans he
    exact_mod_cast this

/-- C51 without a hypothesis on the raised ciphertext: a key with at most 45 non-zero coefficients. -/
theorem C51_sparse (R : Nat) {G b : Nat} (hp : BootParam n G b)
    (hQ0 : QT = Q0 + n/G * 60) (hC : EvalModChain 60 Q0 Q1 Q2 Q3 Q4 Q5 Q6 Q7 Q8 Q9 Q10 Q11 Q12) (hQS : Q12 = QS + n/G * 50)
    (hlo : 65 ≤ QS) (hhi : QT ≤ 1525)
    (s : Fin (2^(n+1)) → Int) (hs : ∀ k, s k = -1 ∨ s k = 0 ∨ s k = 1) (hh : (univ.filter fun k => s k ≠ 0).card ≤ 45)
    (ct : R_Q_square 60 (2^(n+1))) (hct : ct.Canonical) (m : R_Q 60 (2^(n+1))) (hm : dec ct s = pure m)
    (hB : ∀ k, |(m k).sval| ≤ 2^51) (ω : Rng) :
    Ok (do
      let p ← bootConv (LOGN := n+1) R 60 60 50 G 24 QT Q0 Q1 Q2 Q3 Q4 Q5 Q6 Q7 Q8 Q9 Q10 Q11 Q12 QS ct s ω
      dec p.1 s) fun m' => ∀ k, |(m' k).sval - (m k).sval| ≤ 2^b := by
  have hn : n ≤ 16 := by rcases hp with ⟨rfl, rfl, rfl⟩ | ⟨rfl, rfl, rfl⟩ | ⟨rfl, rfl, rfl⟩ <;> norm_num
  have hN : 2^(n+1) ≤ 2^30 := Nat.pow_le_pow_right (by norm_num) (by omega)
  have hq : 66 ≤ QT := by unfold EvalModChain at hC; omega
  obtain ⟨M, hM, hr⟩ := raised_range hN hq hs hh hct hm hB
  exact C51_drivers R hp hQ0 hC hQS hlo hhi s hs (by omega) ct hct m hm M hM hB hr ω

/-- C52 without a hypothesis on the raised ciphertext: a key with at most 45 non-zero coefficients. -/
theorem C52_sparse (R : Nat) {G b : Nat} (hp : BootParam n G b)
    (hQ0 : QT = Q0 + n/G * 60) (hC : EvalModChain 60 Q0 Q1 Q2 Q3 Q4 Q5 Q6 Q7 Q8 Q9 Q10 Q11 Q12) (hQS : Q12 = QS + n/G * 60)
    (hlo : 65 ≤ QS) (hhi : QT ≤ 1525)
    (s : Fin (2^(n+1)) → Int) (hs : ∀ k, s k = -1 ∨ s k = 0 ∨ s k = 1) (hh : (univ.filter fun k => s k ≠ 0).card ≤ 45)
    (ct : R_Q_square 60 (2^(n+1))) (hct : ct.Canonical) (m : R_Q 60 (2^(n+1))) (hm : dec ct s = pure m)
    (hB : ∀ k, |(m k).sval| ≤ 2^51) (ω : Rng) :
    Ok (do
      let p ← bootProp (LOGN := n+1) R 60 60 60 G 24 QT Q0 Q1 Q2 Q3 Q4 Q5 Q6 Q7 Q8 Q9 Q10 Q11 Q12 QS ct s ω
      dec p.1 s) fun m' => ∀ k, |(m' k).sval - (m k).sval| ≤ 2^b := by
  have hn : n ≤ 16 := by rcases hp with ⟨rfl, rfl, rfl⟩ | ⟨rfl, rfl, rfl⟩ | ⟨rfl, rfl, rfl⟩ <;> norm_num
  have hN : 2^(n+1) ≤ 2^30 := Nat.pow_le_pow_right (by norm_num) (by omega)
  have hq : 66 ≤ QT := by unfold EvalModChain at hC; omega
  obtain ⟨M, hM, hr⟩ := raised_range hN hq hs hh hct hm hB
  exact C52_drivers R hp hQ0 hC hQS hlo hhi s hs (by omega) ct hct m hm M hM hB hr ω

end

/-! ## a concrete case -/

/-- the polynomial with constant coefficient `w` -/
def bootPoly (w : W) : R_Q 60 (2^(8+1)) := fun k => if k.val = 0 then ofW w else setzero

/-- the key `1` -/
def bootKey : Fin (2^(8+1)) → Int := fun k => if k.val = 0 then 1 else 0

theorem bootKey_tern : ∀ k, bootKey k = -1 ∨ bootKey k = 0 ∨ bootKey k = 1 := by
  intro k; unfold bootKey; split_ifs <;> simp

theorem bootKey_card : (univ.filter fun k => bootKey k ≠ 0).card = 1 := by decide +kernel

theorem bootPoly_canonical {w : W} (hw : w.toNat < 2^59) (k : Fin (2^(8+1))) : (bootPoly w k).Canonical := by
  unfold bootPoly
  split_ifs
  · unfold Canonical; rw [val_setLow]; omega
  · exact canonical_setzero

theorem bootPoly_sval {w : W} (hw : w.toNat < 2^59) :
    R_Q.sval (bootPoly w) = fun k => (w.toNat : ℤ) * if k.val = 0 then 1 else 0 := by
  funext k
  have hw' : (w.toNat : ℤ) < 2^59 := by exact_mod_cast hw
  refine sval_eq_of_cls (L := 60) ?_ ?_ ?_
  · unfold bootPoly
    split_ifs
    · rw [cls_ofW]; push_cast; rw [mul_one]
    · rw [cls_setzero]; simp
  · split_ifs
    · norm_num
    · norm_num
  · split_ifs
    · rw [mul_one]; exact hw'
    · norm_num

theorem bootKey_phase {Q : Nat} [NeZero Q] {c d : R_Q Q (2^(8+1))} {a b : ℤ}
    (hc : R_Q.cls c = red Q fun k => a * if k.val = 0 then 1 else 0)
    (hd : R_Q.cls d = red Q fun k => b * if k.val = 0 then 1 else 0) :
    R_Q_square.phase bootKey (c, d) = red Q fun k => (a + b) * if k.val = 0 then 1 else 0 := by
  have h1 : R_Q.cls d = red Q (b • bootKey) := by
    rw [hd]; congr 1
  have h2 : negconv bootKey (b • bootKey) = fun k => b * if k.val = 0 then 1 else 0 := funext fun k =>
    (by
      have := negconv_one_right (b • bootKey) k
      rw [negconv_comm] at this
      exact this)
  rw [phase_eq, hc, h1, ← red_negconv, h2, ← red_add]
  have h3 : ((fun k : Fin (2^(8+1)) => a * if k.val = 0 then 1 else 0) + fun k => b * if k.val = 0 then 1 else 0) =
      fun k => (a + b) * if k.val = 0 then 1 else 0 := funext fun k => by simp only [Pi.add_apply]; ring
  rw [h3]

theorem bootKey_raise {QT : Nat} [NeZero QT] {c d : R_Q 60 (2^(8+1))} (kc : ∀ k, (c k).Canonical) (kd : ∀ k, (d k).Canonical) {a b : ℤ}
    (hc : R_Q.sval c = fun k => a * if k.val = 0 then 1 else 0) (hd : R_Q.sval d = fun k => b * if k.val = 0 then 1 else 0) :
    R_Q_square.phase bootKey (mod_raise QT (c, d)) = red QT fun k => (a + b) * if k.val = 0 then 1 else 0 := by
  have h1 : R_Q.cls (mod_raise QT (c, d)).1 = red QT (R_Q.sval c) := funext fun i => cls_resize (kc i)
  have h2 : R_Q.cls (mod_raise QT (c, d)).2 = red QT (R_Q.sval d) := funext fun i => cls_resize (kd i)
  rw [hc] at h1
  rw [hd] at h2
  exact bootKey_phase h1 h2

theorem boot_dec {Q : Nat} [NeZero Q] {c : R_Q_square Q (2^(8+1))} {a : ℤ} (ha : |a| < 2^(Q-1))
    (hc : R_Q_square.phase bootKey c = red Q fun k => a * if k.val = 0 then 1 else 0) :
    ∃ m, dec c bootKey = pure m ∧ ∀ k, (m k).sval = a * if k.val = 0 then 1 else 0 := by
  obtain ⟨m, h, _, hm⟩ := dec_spec (by norm_num) bootKey_tern c
  have h1 := abs_lt.1 ha
  have h0 : (0:ℤ) < 2^(Q-1) := by positivity
  refine ⟨m, h, fun k => sval_eq_of_cls (congrFun (hm.trans hc) k) ?_ ?_⟩
  · split_ifs <;> (try simp); omega
  · split_ifs <;> (try simp); omega

/-- C51, C52 are not vacuous: 512 coefficients, a ciphertext whose two components have constant coefficient
`2^59-1` and `2^59-2^49`. Its message is `-2^49-1`, that of the raised ciphertext `2^60-2^49-1`. -/
example (ω : Rng) : Ok (do
      let p ← bootConv (LOGN := 8+1) 7 60 60 50 2 24 1450 1210 1150 1090 1030 970 910 850 790 730 670 610 550 490 290
        (bootPoly (BitVec.ofNat 64 (2^59-1)), bootPoly (BitVec.ofNat 64 (2^59-2^49))) bootKey ω
      dec p.1 bootKey) (fun m' => ∀ k, |(m' k).sval - (-2^49-1) * (if k.val = 0 then 1 else 0)| ≤ 2^34) ∧
    Ok (do
      let p ← bootProp (LOGN := 8+1) 7 60 60 60 2 24 1450 1210 1150 1090 1030 970 910 850 790 730 670 610 550 490 250
        (bootPoly (BitVec.ofNat 64 (2^59-1)), bootPoly (BitVec.ofNat 64 (2^59-2^49))) bootKey ω
      dec p.1 bootKey) (fun m' => ∀ k, |(m' k).sval - (-2^49-1) * (if k.val = 0 then 1 else 0)| ≤ 2^34) := by
  have e0 : (BitVec.ofNat 64 (2^59-1)).toNat = 2^59-1 := rfl
  have e1 : (BitVec.ofNat 64 (2^59-2^49)).toNat = 2^59-2^49 := rfl
  have l0 : (BitVec.ofNat 64 (2^59-1)).toNat < 2^59 := by rw [e0]; norm_num
  have l1 : (BitVec.ofNat 64 (2^59-2^49)).toNat < 2^59 := by rw [e1]; norm_num
  have c0 := bootPoly_sval l0
  have c1 := bootPoly_sval l1
  have k0 := bootPoly_canonical l0
  have k1 := bootPoly_canonical l1
  rw [e0] at c0
  rw [e1] at c1
  generalize bootPoly (BitVec.ofNat 64 (2^59-1)) = p0 at *
  generalize bootPoly (BitVec.ofNat 64 (2^59-2^49)) = p1 at *
  have hph : R_Q_square.phase bootKey (p0, p1) = red 60 fun k => (-2^49-1) * if k.val = 0 then 1 else 0 := by
    rw [bootKey_phase ((cls_red_sval p0).trans (by rw [c0])) ((cls_red_sval p1).trans (by rw [c1]))]
    funext k
    simp only [red]
    rw [ZMod.intCast_eq_intCast_iff_dvd_sub]
    split_ifs <;> norm_num
  have hpM := bootKey_raise (QT := 1450) k0 k1 c0 c1
  rw [show (((2^59-1 : ℕ) : ℤ) + ((2^59-2^49 : ℕ) : ℤ)) = 2^60-2^49-1 by norm_num] at hpM
  obtain ⟨m, hm, em⟩ := boot_dec (by norm_num [abs_of_neg]) hph
  have hbig : |(2^60-2^49-1 : ℤ)| < 2^(1450-1) :=
    lt_of_lt_of_le (b := 2^60) (by norm_num) (pow_le_pow_right₀ (by norm_num) (by norm_num))
  obtain ⟨M, hM, eM⟩ := boot_dec hbig hpM
  have hp : BootParam 8 2 34 := Or.inl ⟨rfl, rfl, rfl⟩
  have hch : EvalModChain 60 1210 1150 1090 1030 970 910 850 790 730 670 610 550 490 := by unfold EvalModChain; norm_num
  have hcan : R_Q_square.Canonical (p0, p1) := ⟨k0, k1⟩
  have hB : ∀ k, |(m k).sval| ≤ 2^51 := fun k => by rw [em k]; split_ifs <;> norm_num [abs_of_neg]
  have hr : ∀ k, -237 * 2^60 ≤ 10 * (M k).sval ∧ 10 * (M k).sval ≤ 242 * 2^60 := fun k => by
    rw [eM k]; split_ifs <;> norm_num
  constructor
  · refine Ok.mono (C51_drivers (QT := 1450) (QS := 290) 7 hp (by norm_num) hch (by norm_num) (by norm_num) (by norm_num)
      bootKey bootKey_tern (by rw [bootKey_card]; norm_num) _ hcan m hm M hM hB hr ω) fun m' h k => ?_
    have := h k
    rwa [em k] at this
  · refine Ok.mono (C52_drivers (QT := 1450) (QS := 250) 7 hp (by norm_num) hch (by norm_num) (by norm_num) (by norm_num)
      bootKey bootKey_tern (by rw [bootKey_card]; norm_num) _ hcan m hm M hM hB hr ω) fun m' h k => ?_
    have := h k
    rwa [em k] at this

end EvalRound

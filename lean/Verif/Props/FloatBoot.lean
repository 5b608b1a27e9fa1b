import Verif.Proofs.FloatBoot
import Verif.Proofs.FloatBootNum
import Verif.Props.Boot
import Verif.Props.FloatStC

/-!
# C78: bootstrapping in binary64
-/

namespace EvalRound
open Z_Q Finset

variable {n : Nat}

section
variable {LOGq QT Q0 Q1 Q2 Q3 Q4 Q5 Q6 Q7 Q8 Q9 Q10 Q11 Q12 QS : Nat} [NeZero LOGq] [NeZero QT] [NeZero Q0] [NeZero Q1] [NeZero Q2] [NeZero Q3]
  [NeZero Q4] [NeZero Q5] [NeZero Q6] [NeZero Q7] [NeZero Q8] [NeZero Q9] [NeZero Q10] [NeZero Q11] [NeZero Q12] [NeZero QS]

/-- C78: the conventional bootstrapping, all doubles rounded to binary64, of a ciphertext with modulus `2^LOGq` returns a ciphertext with modulus
`2^QS` of the same message, up to `convErrF`. `M` is the message of the raised ciphertext, which must be in the range
of EvalMod. -/
theorem C78_conventional {L : LibmP} (hLib : L.Accurate) (R LDcts LDstc G : Nat) (hLc : LDcts < 63) (hLs : LDstc < 63) (hq : LOGq < 62)
    (hn1 : 1 ≤ n) (hn : n ≤ 16) (hG1 : 1 ≤ G) (hG : G ≤ 4) (hG' : n % G = 0)
    (hQT : GoodQ QT) (hQ12 : GoodQ Q12) (hQ0 : QT = Q0 + n/G * LDcts)
    (hC : EvalModChain LOGq Q0 Q1 Q2 Q3 Q4 Q5 Q6 Q7 Q8 Q9 Q10 Q11 Q12) (hQS : Q12 = QS + n/G * LDstc)
    (hlo : 65 ≤ Q11) (hhi : Q1 ≤ 1525) (hl1 : LDcts + 2 < QT) (hl2 : LDstc + 2 < Q12)
    (s : Fin (2^(n+1)) → Int) (hs : ∀ k, s k = -1 ∨ s k = 0 ∨ s k = 1)
    (ct : R_Q_square LOGq (2^(n+1))) (hct : ct.Canonical) (m : R_Q LOGq (2^(n+1))) (hm : dec ct s = pure m)
    (M : R_Q QT (2^(n+1))) (hM : dec (mod_raise QT ct) s = pure M) (Z B : ℝ)
    (hZ : ∀ i, ‖slots n (fun k => (M k).sval) i‖ ≤ Z) (hB : ∀ k, |((m k).sval : ℝ)| ≤ B)
    (hr : ∀ k, -95/4 * 2^LOGq + ctsErrF n (univ.filter fun k => s k ≠ 0).card G (2^LDcts) Z ≤ ((M k).sval : ℝ) ∧
      ((M k).sval : ℝ) ≤ 97/4 * 2^LOGq - ctsErrF n (univ.filter fun k => s k ≠ 0).card G (2^LDcts) Z)
    (hw : B + convErrF n (univ.filter fun k => s k ≠ 0).card G (2^LDcts) (2^LOGq) (2^LDstc) Z B < 2^(QS-1)) (ω : Rng) :
    Ok (do
      let p ← bootConvF (LOGN := n+1) L R LDcts LOGq LDstc G 24 QT Q0 Q1 Q2 Q3 Q4 Q5 Q6 Q7 Q8 Q9 Q10 Q11 Q12 QS ct s ω
      dec p.1 s) fun m' => ∀ k, |((m' k).sval : ℝ) - (m k).sval| ≤
        convErrF n (univ.filter fun k => s k ≠ 0).card G (2^LDcts) (2^LOGq) (2^LDstc) Z B := by
  have hs' : Ternary s := hs
  have hN : 2^(n+1) ≤ 2^30 := Nat.pow_le_pow_right (by norm_num) (by omega)
  have hl : LOGq ≤ QT := by
    unfold EvalModChain at hC; rw [hQ0]; omega
  obtain ⟨hp, I, hI⟩ := mod_raise_diff hN hl hs' hct hm hM
  have eM : (fun k => (M k).sval) = fun k => (m k).sval + 2^LOGq * I k := funext hI
  have hp' : R_Q_square.phase s (mod_raise QT ct) = red QT fun k => (m k).sval + 2^LOGq * I k := hp.trans (congrArg _ eM)
  rw [eM] at hZ
  obtain ⟨b, hb, -, e, he, -, -, h0, h1⟩ := bootToEvalModF_near hLib R LDcts hLc hl1 hQT hq hn1 hn hG1 hG hG' hQ0 hC hlo hhi hs' hp'
    (Z := Z) (B := B) hZ hB (fun k => by rw [← hI k]; exact hr k) ω
  obtain ⟨p, hp1, _, w, hw1, hw2⟩ := bootConvTailF_coeff hLib.1 R LDstc hLs hl2 hQ12 hn1 hn hG1 hG hG' (QS := QS) hQS hs' hB he h0 h1
  unfold bootConvF
  rw [hb, pure_bind, hp1, pure_bind]
  exact dec_close hN hs' hw1 hB hw2 hw

/-- C78: the proposed bootstrapping, all doubles rounded to binary64, of a ciphertext with modulus `2^LOGq` returns a ciphertext with modulus
`2^QS` of the same message, up to `propErrF`. -/
theorem C78_proposed {L : LibmP} (hLib : L.Accurate) (R LDcts LDstc G : Nat) (hLc : LDcts < 63) (hLs : LDstc < 63) (hq : LOGq < 62)
    (hn1 : 1 ≤ n) (hn : n ≤ 16) (hG1 : 1 ≤ G) (hG : G ≤ 4) (hG' : n % G = 0)
    (hQT : GoodQ QT) (hQ12 : GoodQ Q12) (hQ0 : QT = Q0 + n/G * LDcts)
    (hC : EvalModChain LOGq Q0 Q1 Q2 Q3 Q4 Q5 Q6 Q7 Q8 Q9 Q10 Q11 Q12) (hQS : Q12 = QS + n/G * LDstc)
    (hlo : 65 ≤ Q11) (hhi : Q1 ≤ 1525) (hl1 : LDcts + 2 < QT) (hl2 : LDstc + 2 < Q12)
    (s : Fin (2^(n+1)) → Int) (hs : ∀ k, s k = -1 ∨ s k = 0 ∨ s k = 1)
    (ct : R_Q_square LOGq (2^(n+1))) (hct : ct.Canonical) (m : R_Q LOGq (2^(n+1))) (hm : dec ct s = pure m)
    (M : R_Q QT (2^(n+1))) (hM : dec (mod_raise QT ct) s = pure M) (Z B : ℝ)
    (hZ : ∀ i, ‖slots n (fun k => (M k).sval) i‖ ≤ Z) (hB : ∀ k, |((m k).sval : ℝ)| ≤ B)
    (hr : ∀ k, -95/4 * 2^LOGq + ctsErrF n (univ.filter fun k => s k ≠ 0).card G (2^LDcts) Z ≤ ((M k).sval : ℝ) ∧
      ((M k).sval : ℝ) ≤ 97/4 * 2^LOGq - ctsErrF n (univ.filter fun k => s k ≠ 0).card G (2^LDcts) Z)
    (hw : B + propErrF n (univ.filter fun k => s k ≠ 0).card G (2^LDcts) (2^LOGq) (2^LDstc) Z B < 2^(QS-1)) (ω : Rng) :
    Ok (do
      let p ← bootPropF (LOGN := n+1) L R LDcts LOGq LDstc G 24 QT Q0 Q1 Q2 Q3 Q4 Q5 Q6 Q7 Q8 Q9 Q10 Q11 Q12 QS ct s ω
      dec p.1 s) fun m' => ∀ k, |((m' k).sval : ℝ) - (m k).sval| ≤
        propErrF n (univ.filter fun k => s k ≠ 0).card G (2^LDcts) (2^LOGq) (2^LDstc) Z B := by
  have hs' : Ternary s := hs
  have hN : 2^(n+1) ≤ 2^30 := Nat.pow_le_pow_right (by norm_num) (by omega)
  have hC' := hC
  unfold EvalModChain at hC'
  have hl : LOGq ≤ QT := by rw [hQ0]; omega
  obtain ⟨hp, I, hI⟩ := mod_raise_diff hN hl hs' hct hm hM
  have eM : (fun k => (M k).sval) = fun k => (m k).sval + 2^LOGq * I k := funext hI
  have hp' : R_Q_square.phase s (mod_raise QT ct) = red QT fun k => (m k).sval + 2^LOGq * I k := hp.trans (congrArg _ eM)
  rw [eM] at hZ
  obtain ⟨b, hb, hb1, e, he, c0, c1, h0, h1⟩ := bootToEvalModF_near hLib R LDcts hLc hl1 hQT hq hn1 hn hG1 hG hG' hQ0 hC hlo hhi hs' hp'
    (Z := Z) (B := B) hZ hB (fun k => by rw [← hI k]; exact hr k) ω
  have hI25 : ∀ k, |(I k : ℝ)| ≤ 25 := by
    intro k
    have a0 := (abs_nonneg _).trans (he k)
    obtain ⟨a1, a2⟩ := hr k
    have a3 : |((m k).sval : ℝ)| ≤ 2^(LOGq-1) := by exact_mod_cast abs_sval_le (m k)
    have a4 : (2:ℝ)^LOGq = 2 * 2^(LOGq-1) := by exact_mod_cast two_mul_half LOGq
    have a5 : ((M k).sval : ℝ) = (m k).sval + 2^LOGq * I k := by exact_mod_cast hI k
    have a6 := abs_le.1 a3
    have a7 : (0:ℝ) < 2^LOGq := by positivity
    unfold weight at a0
    rw [abs_le]
    constructor
    · by_contra hcon
      push Not at hcon
      have := mul_lt_mul_of_pos_left hcon a7
      linarith [a6.1, a6.2]
    · by_contra hcon
      push Not at hcon
      have := mul_lt_mul_of_pos_left hcon a7
      linarith [a6.1, a6.2]
  obtain ⟨p, hp1, _, w, hw1, hw2⟩ := bootPropTailF_coeff hLib.1 R LDstc hLs hl2 hQ12 hn1 hn hG1 hG hG' (QS := QS) hQS (by omega) (by omega) hs' hI25
    (by rw [hb1]; exact ⟨fun i => canonical_resize _, fun i => canonical_resize _⟩) (by rw [hb1]; exact hp') c0 c1 h0 h1
  unfold bootPropF
  rw [hb, pure_bind, hp1, pure_bind]
  exact dec_close hN hs' hw1 hB hw2 hw

/-- C78 with the parameters of the drivers with `LOGDELTA_cts = 60` (`LOGN` 9, 13 or 17, `LOGDELTA_stc = 50`, at most 128
non-zero coefficients in the key): a message up to `2^51` is recovered up to `2^37`, `2^45` or `2^57`. -/
theorem C78_conventional_drivers {L : LibmP} (hLib : L.Accurate) (R : Nat) {G b : Nat} (hp : BootParamF n G b)
    (hQ0 : QT = Q0 + n/G * 60) (hC : EvalModChain 60 Q0 Q1 Q2 Q3 Q4 Q5 Q6 Q7 Q8 Q9 Q10 Q11 Q12) (hQS : Q12 = QS + n/G * 50)
    (hlo : 65 ≤ QS) (hhi : QT ≤ 1525)
    (s : Fin (2^(n+1)) → Int) (hs : ∀ k, s k = -1 ∨ s k = 0 ∨ s k = 1) (hh : (univ.filter fun k => s k ≠ 0).card ≤ 128)
    (ct : R_Q_square 60 (2^(n+1))) (hct : ct.Canonical) (m : R_Q 60 (2^(n+1))) (hm : dec ct s = pure m)
    (M : R_Q QT (2^(n+1))) (hM : dec (mod_raise QT ct) s = pure M) (hB : ∀ k, |(m k).sval| ≤ 2^51)
    (hr : ∀ k, -237 * 2^60 ≤ 10 * (M k).sval ∧ 10 * (M k).sval ≤ 242 * 2^60) (ω : Rng) :
    Ok (do
      let p ← bootConvF (LOGN := n+1) L R 60 60 50 G 24 QT Q0 Q1 Q2 Q3 Q4 Q5 Q6 Q7 Q8 Q9 Q10 Q11 Q12 QS ct s ω
      dec p.1 s) fun m' => ∀ k, |(m' k).sval - (m k).sval| ≤ 2^b := by
  have hn : 8 ≤ n ∧ n ≤ 16 ∧ 1 ≤ G ∧ G ≤ 4 ∧ n % G = 0 ∧ n/G = 4 ∧ b ≤ 57 := by
    rcases hp with ⟨rfl, rfl, rfl⟩ | ⟨rfl, rfl, rfl⟩ | ⟨rfl, rfl, rfl⟩ <;> norm_num
  obtain ⟨hn8, hn16, hG1, hG4, hG, hd, hb⟩ := hn
  have hC' := hC
  unfold EvalModChain at hC'
  have hc := boot_paramF_ctsErr hp hh
  have he := convErrF_num hp hh
  have hr' : ∀ k, -237/10 * 2^60 ≤ ((M k).sval : ℝ) ∧ ((M k).sval : ℝ) ≤ 242/10 * 2^60 := by
    intro k
    obtain ⟨h1, h2⟩ := hr k
    have h1' : (-237 * 2^60 : ℝ) ≤ 10 * (M k).sval := by exact_mod_cast h1
    have h2' : (10 : ℝ) * (M k).sval ≤ 242 * 2^60 := by exact_mod_cast h2
    constructor <;> linarith
  have hB' : ∀ k, |((m k).sval : ℝ)| ≤ 2^51 := fun k => by exact_mod_cast hB k
  have hb57 : (2:ℝ)^b ≤ 2^57 := pow_le_pow_right₀ (by norm_num) hb
  have hS : (2:ℝ)^64 ≤ 2^(QS-1) := pow_le_pow_right₀ (by norm_num) (by omega)
  refine Ok.mono (C78_conventional hLib (LOGq := 60) R 60 50 G (by norm_num) (by norm_num) (by norm_num) (by omega) hn16 hG1 hG4 hG
    (Or.inr (Or.inl ⟨by omega, by omega⟩)) (Or.inr (Or.inl ⟨by omega, by omega⟩)) hQ0 hC hQS (by omega) (by omega) (by omega)
    (by omega) s hs ct hct m hm M hM (2^(n+1) * (25 * 2^60)) (2^51) (fun i => norm_slots_le (fun k => ?_) i) hB' (fun k => ?_) ?_ ω)
    fun m' hm' k => ?_
  · rw [abs_le]
    have := hr' k
    constructor <;> linarith
  · have := hr' k
    norm_num at this hc ⊢
    constructor <;> linarith
  · refine lt_of_le_of_lt (add_le_add_right he _) (lt_of_lt_of_le ?_ hS)
    exact lt_of_le_of_lt (add_le_add_right hb57 _) (by norm_num)
  · have := (hm' k).trans he
    exact_mod_cast this

/-- C78 with the parameters of the drivers with `LOGDELTA_cts = 60` (`LOGN` 9, 13 or 17, `LOGDELTA_stc = 60`, at most 128
non-zero coefficients in the key). -/
theorem C78_proposed_drivers {L : LibmP} (hLib : L.Accurate) (R : Nat) {G b : Nat} (hp : BootParamF n G b)
    (hQ0 : QT = Q0 + n/G * 60) (hC : EvalModChain 60 Q0 Q1 Q2 Q3 Q4 Q5 Q6 Q7 Q8 Q9 Q10 Q11 Q12) (hQS : Q12 = QS + n/G * 60)
    (hlo : 65 ≤ QS) (hhi : QT ≤ 1525)
    (s : Fin (2^(n+1)) → Int) (hs : ∀ k, s k = -1 ∨ s k = 0 ∨ s k = 1) (hh : (univ.filter fun k => s k ≠ 0).card ≤ 128)
    (ct : R_Q_square 60 (2^(n+1))) (hct : ct.Canonical) (m : R_Q 60 (2^(n+1))) (hm : dec ct s = pure m)
    (M : R_Q QT (2^(n+1))) (hM : dec (mod_raise QT ct) s = pure M) (hB : ∀ k, |(m k).sval| ≤ 2^51)
    (hr : ∀ k, -237 * 2^60 ≤ 10 * (M k).sval ∧ 10 * (M k).sval ≤ 242 * 2^60) (ω : Rng) :
    Ok (do
      let p ← bootPropF (LOGN := n+1) L R 60 60 60 G 24 QT Q0 Q1 Q2 Q3 Q4 Q5 Q6 Q7 Q8 Q9 Q10 Q11 Q12 QS ct s ω
      dec p.1 s) fun m' => ∀ k, |(m' k).sval - (m k).sval| ≤ 2^b := by
  have hn : 8 ≤ n ∧ n ≤ 16 ∧ 1 ≤ G ∧ G ≤ 4 ∧ n % G = 0 ∧ n/G = 4 ∧ b ≤ 57 := by
    rcases hp with ⟨rfl, rfl, rfl⟩ | ⟨rfl, rfl, rfl⟩ | ⟨rfl, rfl, rfl⟩ <;> norm_num
  obtain ⟨hn8, hn16, hG1, hG4, hG, hd, hb⟩ := hn
  have hC' := hC
  unfold EvalModChain at hC'
  have hc := boot_paramF_ctsErr hp hh
  have he := propErrF_num hp hh
  have hr' : ∀ k, -237/10 * 2^60 ≤ ((M k).sval : ℝ) ∧ ((M k).sval : ℝ) ≤ 242/10 * 2^60 := by
    intro k
    obtain ⟨h1, h2⟩ := hr k
    have h1' : (-237 * 2^60 : ℝ) ≤ 10 * (M k).sval := by exact_mod_cast h1
    have h2' : (10 : ℝ) * (M k).sval ≤ 242 * 2^60 := by exact_mod_cast h2
    constructor <;> linarith
  have hB' : ∀ k, |((m k).sval : ℝ)| ≤ 2^51 := fun k => by exact_mod_cast hB k
  have hb57 : (2:ℝ)^b ≤ 2^57 := pow_le_pow_right₀ (by norm_num) hb
  have hS : (2:ℝ)^64 ≤ 2^(QS-1) := pow_le_pow_right₀ (by norm_num) (by omega)
  refine Ok.mono (C78_proposed hLib (LOGq := 60) R 60 60 G (by norm_num) (by norm_num) (by norm_num) (by omega) hn16 hG1 hG4 hG
    (Or.inr (Or.inl ⟨by omega, by omega⟩)) (Or.inr (Or.inl ⟨by omega, by omega⟩)) hQ0 hC hQS (by omega) (by omega) (by omega)
    (by omega) s hs ct hct m hm M hM (2^(n+1) * (25 * 2^60)) (2^51) (fun i => norm_slots_le (fun k => ?_) i) hB' (fun k => ?_) ?_ ω)
    fun m' hm' k => ?_
  · rw [abs_le]
    have := hr' k
    constructor <;> linarith
  · have := hr' k
    norm_num at this hc ⊢
    constructor <;> linarith
  · refine lt_of_le_of_lt (add_le_add_right he _) (lt_of_lt_of_le ?_ hS)
    exact lt_of_le_of_lt (add_le_add_right hb57 _) (by norm_num)
  · have := (hm' k).trans he
    exact_mod_cast this

/-- C78 without a hypothesis on the raised ciphertext: a key with at most 45 non-zero coefficients. -/
theorem C78_conventional_sparse {L : LibmP} (hLib : L.Accurate) (R : Nat) {G b : Nat} (hp : BootParamF n G b)
    (hQ0 : QT = Q0 + n/G * 60) (hC : EvalModChain 60 Q0 Q1 Q2 Q3 Q4 Q5 Q6 Q7 Q8 Q9 Q10 Q11 Q12) (hQS : Q12 = QS + n/G * 50)
    (hlo : 65 ≤ QS) (hhi : QT ≤ 1525)
    (s : Fin (2^(n+1)) → Int) (hs : ∀ k, s k = -1 ∨ s k = 0 ∨ s k = 1) (hh : (univ.filter fun k => s k ≠ 0).card ≤ 45)
    (ct : R_Q_square 60 (2^(n+1))) (hct : ct.Canonical) (m : R_Q 60 (2^(n+1))) (hm : dec ct s = pure m)
    (hB : ∀ k, |(m k).sval| ≤ 2^51) (ω : Rng) :
    Ok (do
      let p ← bootConvF (LOGN := n+1) L R 60 60 50 G 24 QT Q0 Q1 Q2 Q3 Q4 Q5 Q6 Q7 Q8 Q9 Q10 Q11 Q12 QS ct s ω
      dec p.1 s) fun m' => ∀ k, |(m' k).sval - (m k).sval| ≤ 2^b := by
  have hn : n ≤ 16 := by rcases hp with ⟨rfl, rfl, rfl⟩ | ⟨rfl, rfl, rfl⟩ | ⟨rfl, rfl, rfl⟩ <;> norm_num
  have hN : 2^(n+1) ≤ 2^30 := Nat.pow_le_pow_right (by norm_num) (by omega)
  have hq : 66 ≤ QT := by unfold EvalModChain at hC; omega
  obtain ⟨M, hM, hr⟩ := raised_range hN hq hs hh hct hm hB
  exact C78_conventional_drivers hLib R hp hQ0 hC hQS hlo hhi s hs (by omega) ct hct m hm M hM hB hr ω

/-- C78 without a hypothesis on the raised ciphertext: a key with at most 45 non-zero coefficients. -/
theorem C78_proposed_sparse {L : LibmP} (hLib : L.Accurate) (R : Nat) {G b : Nat} (hp : BootParamF n G b)
    (hQ0 : QT = Q0 + n/G * 60) (hC : EvalModChain 60 Q0 Q1 Q2 Q3 Q4 Q5 Q6 Q7 Q8 Q9 Q10 Q11 Q12) (hQS : Q12 = QS + n/G * 60)
    (hlo : 65 ≤ QS) (hhi : QT ≤ 1525)
    (s : Fin (2^(n+1)) → Int) (hs : ∀ k, s k = -1 ∨ s k = 0 ∨ s k = 1) (hh : (univ.filter fun k => s k ≠ 0).card ≤ 45)
    (ct : R_Q_square 60 (2^(n+1))) (hct : ct.Canonical) (m : R_Q 60 (2^(n+1))) (hm : dec ct s = pure m)
    (hB : ∀ k, |(m k).sval| ≤ 2^51) (ω : Rng) :
    Ok (do
      let p ← bootPropF (LOGN := n+1) L R 60 60 60 G 24 QT Q0 Q1 Q2 Q3 Q4 Q5 Q6 Q7 Q8 Q9 Q10 Q11 Q12 QS ct s ω
      dec p.1 s) fun m' => ∀ k, |(m' k).sval - (m k).sval| ≤ 2^b := by
  have hn : n ≤ 16 := by rcases hp with ⟨rfl, rfl, rfl⟩ | ⟨rfl, rfl, rfl⟩ | ⟨rfl, rfl, rfl⟩ <;> norm_num
  have hN : 2^(n+1) ≤ 2^30 := Nat.pow_le_pow_right (by norm_num) (by omega)
  have hq : 66 ≤ QT := by unfold EvalModChain at hC; omega
  obtain ⟨M, hM, hr⟩ := raised_range hN hq hs hh hct hm hB
  exact C78_proposed_drivers hLib R hp hQ0 hC hQS hlo hhi s hs (by omega) ct hct m hm M hM hB hr ω

end

/-! ## a concrete case -/

/-- C78 is not vacuous, with the functions of the exact reals for the mathematical library: 512 coefficients, a ciphertext whose two components have constant coefficient
`2^59-1` and `2^59-2^49`. Its message is `-2^49-1`, that of the raised ciphertext `2^60-2^49-1`. -/
example (ω : Rng) : Ok (do
      let p ← bootConvF (LOGN := 8+1) exactLibmP 7 60 60 50 2 24 1450 1210 1150 1090 1030 970 910 850 790 730 670 610 550 490 290
        (bootPoly (BitVec.ofNat 64 (2^59-1)), bootPoly (BitVec.ofNat 64 (2^59-2^49))) bootKey ω
      dec p.1 bootKey) (fun m' => ∀ k, |(m' k).sval - (-2^49-1) * (if k.val = 0 then 1 else 0)| ≤ 2^37) ∧
    Ok (do
      let p ← bootPropF (LOGN := 8+1) exactLibmP 7 60 60 60 2 24 1450 1210 1150 1090 1030 970 910 850 790 730 670 610 550 490 250
        (bootPoly (BitVec.ofNat 64 (2^59-1)), bootPoly (BitVec.ofNat 64 (2^59-2^49))) bootKey ω
      dec p.1 bootKey) (fun m' => ∀ k, |(m' k).sval - (-2^49-1) * (if k.val = 0 then 1 else 0)| ≤ 2^37) := by
  have e0 : (BitVec.ofNat 64 (2^59-1)).toNat = 2^59-1 := rfl
  have e1 : (BitVec.ofNat 64 (2^59-2^49)).toNat = 2^59-2^49 := rfl
  have l0 : (BitVec.ofNat 64 (2^59-1)).toNat < 2^59 := by rw [e0]; norm_num
  have l1 : (BitVec.ofNat 64 (2^59-2^49)).toNat < 2^59 := by rw [e1]; norm_num
  have c0 := bootPoly_sval l0
  have c1 := bootPoly_sval l1
  have k0 := bootPoly_canonical l0
  have k1 := bootPoly_canonical l1
  rw [e0] at c0
  rw [e1] at c1
  generalize bootPoly (BitVec.ofNat 64 (2^59-1)) = p0 at *
  generalize bootPoly (BitVec.ofNat 64 (2^59-2^49)) = p1 at *
  have hph : R_Q_square.phase bootKey (p0, p1) = red 60 fun k => (-2^49-1) * if k.val = 0 then 1 else 0 := by
    rw [bootKey_phase ((cls_red_sval p0).trans (by rw [c0])) ((cls_red_sval p1).trans (by rw [c1]))]
    funext k
    simp only [red]
    rw [ZMod.intCast_eq_intCast_iff_dvd_sub]
    split_ifs <;> norm_num
  have hpM := bootKey_raise (QT := 1450) k0 k1 c0 c1
  rw [show (((2^59-1 : ℕ) : ℤ) + ((2^59-2^49 : ℕ) : ℤ)) = 2^60-2^49-1 by norm_num] at hpM
  obtain ⟨m, hm, em⟩ := boot_dec (by norm_num [abs_of_neg]) hph
  have hbig : |(2^60-2^49-1 : ℤ)| < 2^(1450-1) :=
    lt_of_lt_of_le (b := 2^60) (by norm_num) (pow_le_pow_right₀ (by norm_num) (by norm_num))
  obtain ⟨M, hM, eM⟩ := boot_dec hbig hpM
  have hp : BootParamF 8 2 37 := Or.inl ⟨rfl, rfl, rfl⟩
  have hch : EvalModChain 60 1210 1150 1090 1030 970 910 850 790 730 670 610 550 490 := by unfold EvalModChain; norm_num
  have hcan : R_Q_square.Canonical (p0, p1) := ⟨k0, k1⟩
  have hB : ∀ k, |(m k).sval| ≤ 2^51 := fun k => by rw [em k]; split_ifs <;> norm_num [abs_of_neg]
  have hr : ∀ k, -237 * 2^60 ≤ 10 * (M k).sval ∧ 10 * (M k).sval ≤ 242 * 2^60 := fun k => by
    rw [eM k]; split_ifs <;> norm_num
  constructor
  · refine Ok.mono (C78_conventional_drivers exactLibmP_accurate (QT := 1450) (QS := 290) 7 hp (by norm_num) hch (by norm_num) (by norm_num) (by norm_num)
      bootKey bootKey_tern (by rw [bootKey_card]; norm_num) _ hcan m hm M hM hB hr ω) fun m' h k => ?_
    have := h k
    rwa [em k] at this
  · refine Ok.mono (C78_proposed_drivers exactLibmP_accurate (QT := 1450) (QS := 250) 7 hp (by norm_num) hch (by norm_num) (by norm_num) (by norm_num)
      bootKey bootKey_tern (by rw [bootKey_card]; norm_num) _ hcan m hm M hM hB hr ω) fun m' h k => ?_
    have := h k
    rwa [em k] at this

end EvalRound

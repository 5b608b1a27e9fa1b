import Verif.Proofs.Safe
import Verif.Props.FloatDriver

/-!
# C102: the bootstrapping drivers return on every run

C78, C79 and C80 speak of the runs whose raised message stays in the range of `EvalMod`, and need `LOGDELTA_cts = 60`. Here nothing is assumed of the raised
message: whatever the key, the mask, the noise and the two scales, no array is read out of range, no conversion from `double` leaves the type it goes to, no value
of `double` overflows, no assertion fails and no loop diverges.
-/

namespace EvalRound
open Z_Q Finset

section
variable {n Q0 Q1 Q2 Q3 Q4 Q5 Q6 Q7 Q8 Q9 Q10 Q11 Q12 : Nat} [NeZero Q0] [NeZero Q1] [NeZero Q2] [NeZero Q3]
  [NeZero Q4] [NeZero Q5] [NeZero Q6] [NeZero Q7] [NeZero Q8] [NeZero Q9] [NeZero Q10] [NeZero Q11] [NeZero Q12]

/-- C102: `EvalMod` returns a canonical ciphertext on every ciphertext, also on one whose slots are far outside `[-K, K]`. -/
theorem C102_evalmod (R : Nat) {LD : Nat} (hD : LD < 63) (hn : n ≤ 16) (hC : EvalModChain LD Q0 Q1 Q2 Q3 Q4 Q5 Q6 Q7 Q8 Q9 Q10 Q11 Q12)
    (hlo : 65 ≤ Q11) (hhi : Q1 ≤ 1525) (s : Fin (2^(n+1)) → Int) (hs : ∀ k, s k = -1 ∨ s k = 0 ∨ s k = 1) (K : Int) (hK : 0 < K)
    (hK' : 4 * K < 2^31) (ct : R_Q_square Q0 (2^(n+1))) (ω : Rng) :
    Ok (EvalModKeyF R LD K Q1 Q2 Q3 Q4 Q5 Q6 Q7 Q8 Q9 Q10 Q11 Q12 ct s ω) fun p => p.1.Canonical :=
  EvalModKeyF_safe R hD hn hC hlo hhi hs hK hK' ct ω

end

/-- The slots of a decryption of at most 950 bits and what `decode` makes of them stay far below the largest `double`. -/
theorem decode_size {L : Libm} (hL : L.Accurate) {n QS : Nat} [NeZero QS] (h1 : 1 ≤ n) (h2 : n ≤ 16) (hQ : QS ≤ 900) (mo : R_Q QS (2^(n+1)))
    (hmo : mo.Canonical) : Ok (decode_logF L mo 50) fun z => ∀ i : Fin (2^n), ‖(⟨z.1 i, z.2 i⟩ : ℂ)‖ ≤ 2^1000 := by
  have hsv : ∀ k, |((mo k).sval : ℝ)| ≤ 2^900 := fun k => by
    have h3 : |((mo k).sval : ℝ)| ≤ 2^(QS-1) := by exact_mod_cast abs_sval_le (mo k)
    exact h3.trans (pow_le_pow_right₀ (by norm_num) (by omega))
  have hsl : ∀ i : Fin (2^n), ‖slotOf (fun k => ((mo k).sval : ℝ) / 2^50) i‖ ≤ 2^17 * 2^900 := fun i => by
    refine (norm_slotOf_le (ε := 2^900) (fun k => ?_) i).trans ?_
    · rw [abs_div, abs_of_pos (show (0:ℝ) < 2^50 by positivity)]
      exact (div_le_self (abs_nonneg _) (one_le_pow₀ (by norm_num))).trans (hsv k)
    · refine mul_le_mul_of_nonneg_right ?_ (by positivity)
      push_cast
      exact pow_le_pow_right₀ (by norm_num) (by omega)
  refine Ok.mono (C73_decode hL (LOGN := n+1) (by omega) (by omega) (by omega) 50 (by norm_num) mo hmo fun k =>
    (hsv k).trans (le_mul_of_one_le_right (by positivity) (one_le_pow₀ (by norm_num)))) fun z hz i => ?_
  have e1 : l2 (fun i : Fin (2^n) => slotOf (fun k => ((mo k).sval : ℝ) / 2^50) i) ≤ Real.sqrt 2 ^ n * (2^17 * 2^900) := l2_sup hsl
  have e2 : ‖(⟨z.1 i, z.2 i⟩ : ℂ) - slotOf (fun k => ((mo k).sval : ℝ) / 2^50) i‖ ≤
      l2 (fun i : Fin (2^n) => (⟨z.1 i, z.2 i⟩ : ℂ) - slotOf (fun k => ((mo k).sval : ℝ) / 2^50) i) :=
    le_l2 (fun i : Fin (2^n) => (⟨z.1 i, z.2 i⟩ : ℂ) - slotOf (fun k => ((mo k).sval : ℝ) / 2^50) i) i
  have e3 : l2 (fun i : Fin (2^n) => (⟨z.1 i, z.2 i⟩ : ℂ) - slotOf (fun k => ((mo k).sval : ℝ) / 2^50) i) ≤
      (28 * (((n+1 : ℕ) : ℝ) - 1) + 8) / 2^53 * l2 (fun i : Fin (2^n) => slotOf (fun k => ((mo k).sval : ℝ) / 2^50) i) + 1/2^900 := hz
  have e4 := norm_le_norm_sub_add (⟨z.1 i, z.2 i⟩ : ℂ) (slotOf (fun k => ((mo k).sval : ℝ) / 2^50) i)
  have e5 : Real.sqrt 2 ^ n ≤ 2^16 := by
    calc Real.sqrt 2 ^ n ≤ Real.sqrt 2 ^ 16 := pow_le_pow_right₀ (by rw [Real.one_le_sqrt]; norm_num) h2
      _ ≤ 2^16 := pow_le_pow_left₀ (Real.sqrt_nonneg _) (by rw [Real.sqrt_le_left (by norm_num)]; norm_num) 16
  have e6 : (28 * (((n+1 : ℕ) : ℝ) - 1) + 8) / 2^53 ≤ 1 := by
    have : (n:ℝ) ≤ 16 := by exact_mod_cast h2
    rw [div_le_one (by positivity)]
    push_cast
    norm_num
    linarith
  have e7 := hsl i
  have e8 : (28 * (((n+1 : ℕ) : ℝ) - 1) + 8) / 2^53 * l2 (fun i : Fin (2^n) => slotOf (fun k => ((mo k).sval : ℝ) / 2^50) i) ≤
      1 * (2^16 * (2^17 * 2^900)) := by
    refine mul_le_mul e6 (e1.trans (mul_le_mul_of_nonneg_right e5 (by positivity))) (l2_nonneg _) (by norm_num)
  have e9 : (1:ℝ)/2^900 ≤ 2^900 := (div_le_self (by norm_num) (one_le_pow₀ (by norm_num))).trans (one_le_pow₀ (by norm_num))
  have e10 : (2:ℝ)^1000 = 2^100 * 2^900 := by rw [← pow_add]
  refine e4.trans ((add_le_add (e2.trans (e3.trans (add_le_add e8 e9))) e7).trans ?_)
  rw [e10]
  have hX : (0:ℝ) ≤ 2^900 := by positivity
  clear e1 e2 e3 e4 e7 e8 e9 e10 hz hsl hsv
  generalize (2:ℝ)^900 = X at *
  norm_num
  linarith

/-- What is said of the numbers a driver prints (setup.h:33-42, proposal.cpp:58-68, bootstrap_test.cpp:52-64), whatever the bootstrapping did: the two greatest
errors are those of the slots it returns, the two norms agree, and they lie below `2^14`, because only the low limb of the difference is read. -/
def Reports {n : Nat} (z : CVec (n+1)) (o : DriverOut (n+1)) : Prop :=
  (∀ i : Fin (2^n), |z.1 i - o.z_out.1 i| ≤ (1 + 1/2^52) * o.max_err_real + 1/2^1074) ∧
  (∀ i : Fin (2^n), |z.2 i - o.z_out.2 i| ≤ (1 + 1/2^52) * o.max_err_imag + 1/2^1074) ∧
  o.e_norm ≤ 2^14 * (1 + 1/2^50) ∧ o.e_norm_low = o.e_norm

theorem max_errF_reports {H : Nat} (x y : Fin H → ℝ) (h : ∀ i, |x i - y i| ≤ 2^1020) :
    Ok (max_errF x y) fun m => ∀ i, |x i - y i| ≤ (1 + 1/2^52) * m + 1/2^1074 := by
  refine Ok.mono (C79_max_err x y h) fun m hm i => ?_
  have h1 := (C56_max_err x y).1 i
  have h2 := (abs_le.1 hm).1
  have h0 := (abs_nonneg _).trans h1
  have e : (1:ℝ)/2^1074 = 2 * (1/2^1075) := by
    rw [show (2:ℝ)^1075 = 2^1074 * 2 from pow_succ _ _]; field_simp
  rw [e]
  have hη : (0:ℝ) ≤ 1/2^1075 := by positivity
  clear hm h e
  generalize (1:ℝ)/2^1075 = η at *
  generalize max_err x y = w at *
  have : w * (1 - 1/2^53) ≤ m + η := by linarith
  have h3 : w ≤ (1 + 1/2^52) * (m + η) := by
    have := mul_le_mul_of_nonneg_left this (show (0:ℝ) ≤ 1 + 1/2^52 by norm_num)
    have h4 : w * 1 ≤ w * ((1 + 1/2^52) * (1 - 1/2^53)) := mul_le_mul_of_nonneg_left (by norm_num) h0
    linarith
  norm_num at *
  linarith

/-- The run of a driver around any `boot` that returns. -/
theorem driver_safeF {L : Libm} (hL : L.Accurate) (R : Nat) {H : Int} {n QS : Nat} [NeZero QS] (h1 : 1 ≤ n) (h2 : n ≤ 16) (hQ : QS ≤ 900)
    (z : CVec (n+1)) (hz : ∀ i : Fin (2^n), ‖(⟨z.1 i, z.2 i⟩ : ℂ)‖ ≤ 1)
    (boot : R_Q_square 60 (2^(n+1)) → (Fin (2^(n+1)) → Int) → Rng → M (R_Q_square QS (2^(n+1)) × Rng))
    (ct0 : R_Q_square 60 (2^(n+1))) (ω ω1 : Rng) (s : Fin (2^(n+1)) → Int) (hs : ∀ k, s k = -1 ∨ s k = 0 ∨ s k = 1)
    (hk : keygen (2^(n+1)) H ω = pure (s, ω1)) (hb : ∀ ct ω2, Ok (boot ct s ω2) fun p => p.1.Canonical) :
    Ok (bootDriverF L R H z boot ct0 ω) (Reports z) := by
  have hN : 2^(n+1) ≤ 2^30 := Nat.pow_le_pow_right (by norm_num) (by omega)
  have hδ : (((BitVec.ofNat 64 (2^50)).toNat : ℕ) : ℝ) = 2^50 := toNat_scale (by norm_num)
  have hne : BitVec.ofNat 64 (2^50) ≠ 0 := scale_ne_zero (by norm_num)
  unfold bootDriverF
  rw [hk, pure_bind, show shl1 50 = pure (BitVec.ofNat 64 (2^50)) from rfl, pure_bind]
  obtain ⟨pt, ept, -⟩ := encodeF_l2 (n := n) (Q := 60) hL (by omega) (by omega) z (BitVec.ofNat 64 (2^50))
    hne (B := 1) hz (by rw [hδ]; norm_num) (by rw [hδ]; norm_num)
  rw [ept, pure_bind]
  refine Ok.bind (enc_spec R hN hs pt ct0 ω1) fun c _ => ?_
  refine Ok.bind (hb c.1 c.2) fun p _ => ?_
  refine Ok.bind (dec_spec hN hs p.1) fun mo ⟨hmo, _⟩ => ?_
  refine Ok.bind (decode_size hL h1 h2 hQ mo hmo) fun zo hzo => ?_
  have hsz : ∀ i : Fin (2^n), |z.1 i - zo.1 i| ≤ 2^1020 ∧ |z.2 i - zo.2 i| ≤ 2^1020 := fun i => by
    have a1 := Complex.abs_re_le_norm ((⟨z.1 i, z.2 i⟩ : ℂ) - ⟨zo.1 i, zo.2 i⟩)
    have a2 := Complex.abs_im_le_norm ((⟨z.1 i, z.2 i⟩ : ℂ) - ⟨zo.1 i, zo.2 i⟩)
    have a3 := norm_sub_le (⟨z.1 i, z.2 i⟩ : ℂ) ⟨zo.1 i, zo.2 i⟩
    have a4 : (1:ℝ) + 2^1000 ≤ 2^1020 := by
      rw [show (2:ℝ)^1020 = 2^20 * 2^1000 by rw [← pow_add]]
      have : (1:ℝ) ≤ 2^1000 := one_le_pow₀ (by norm_num)
      generalize (2:ℝ)^1000 = X at *
      norm_num
      linarith
    have a5 := hz i
    have a6 := hzo i
    have a7 : ‖(⟨z.1 i, z.2 i⟩ : ℂ) - ⟨zo.1 i, zo.2 i⟩‖ ≤ 2^1020 := a3.trans ((add_le_add a5 a6).trans a4)
    exact ⟨a1.trans a7, a2.trans a7⟩
  refine Ok.bind (max_errF_reports z.1 zo.1 fun i => (hsz i).1) fun re hre => ?_
  refine Ok.bind (max_errF_reports z.2 zo.2 fun i => (hsz i).2) fun im him => ?_
  rw [C79_norm_low]
  obtain ⟨en, een, hen⟩ := C79_norm (BitVec.ofNat 64 (2^50)) hne pt mo
  rw [een, pure_bind, pure_bind]
  refine Ok.pure ⟨hre, him, ?_, rfl⟩
  obtain ⟨k, hk'⟩ := (C56_norm (BitVec.ofNat 64 (2^50)) pt mo).2.1 (by positivity)
  have a1 : e_sup_norm (BitVec.ofNat 64 (2^50)) pt mo ≤ 2^14 := by
    rw [hk', hδ, div_le_iff₀ (by positivity)]
    have := Nat.mod_lt (Z_Q.sub (Z_Q.resize QS (pt k)) (mo k)).sval.natAbs (show 0 < 2^64 by norm_num)
    have h3 : (((Z_Q.sub (Z_Q.resize QS (pt k)) (mo k)).sval.natAbs % 2^64 : ℕ) : ℝ) ≤ ((2^64 : ℕ) : ℝ) := by exact_mod_cast this.le
    exact h3.trans (by norm_num)
  have a2 := (abs_le.1 hen).2
  have hη : (1:ℝ)/2^1075 ≤ 1/2^60 := one_div_le_one_div_of_le (by positivity) (pow_le_pow_right₀ (by norm_num) (by norm_num))
  show en ≤ _
  clear hsz hre him hen hk' een
  generalize e_sup_norm (BitVec.ofNat 64 (2^50)) pt mo = w at *
  generalize (1:ℝ)/2^1075 = η at *
  norm_num at *
  linarith

section
variable {n QT Q0 Q1 Q2 Q3 Q4 Q5 Q6 Q7 Q8 Q9 Q10 Q11 Q12 QS : Nat} [NeZero QT] [NeZero Q0] [NeZero Q1] [NeZero Q2] [NeZero Q3]
  [NeZero Q4] [NeZero Q5] [NeZero Q6] [NeZero Q7] [NeZero Q8] [NeZero Q9] [NeZero Q10] [NeZero Q11] [NeZero Q12] [NeZero QS]

/-- C102: the conventional driver returns on every run. `hω` says that the random numbers reach every index, without which `keygen` diverges (C19). -/
theorem C102_conventional {L : LibmP} (hLib : L.Accurate) (R : Nat) {LDcts LDstc G : Nat} (hc : LDcts < 63) (hst : LDstc < 63) (hn1 : 1 ≤ n) (hn : n ≤ 16)
    (hG1 : 1 ≤ G) (hG : G ≤ 4) (hnG : n % G = 0) (hQ0 : QT = Q0 + n/G * LDcts)
    (hC : EvalModChain 60 Q0 Q1 Q2 Q3 Q4 Q5 Q6 Q7 Q8 Q9 Q10 Q11 Q12) (hQS : Q12 = QS + n/G * LDstc) (hlo : 65 ≤ Q12) (hhi : QT ≤ 1525)
    (H : Int) (hH : H ≤ (2^(n+1) : Nat)) (z : CVec (n+1)) (hz : ∀ i : Fin (2^n), ‖(⟨z.1 i, z.2 i⟩ : ℂ)‖ ≤ 1)
    (ct0 : R_Q_square 60 (2^(n+1))) (ω : Rng) (hω : ∀ (j : Fin (2^(n+1))) (l : Nat), ∃ m, l ≤ m ∧ ω m % 2^(n+1) = j) :
    Ok (convDriverF L R LDcts LDstc G H QT Q0 Q1 Q2 Q3 Q4 Q5 Q6 Q7 Q8 Q9 Q10 Q11 Q12 QS z ct0 ω) (Reports z) := by
  obtain ⟨⟨s, ω1⟩, hk, hs, -⟩ := C19_keygen_returns H hH ω hω
  have hC' := hC
  unfold EvalModChain at hC'
  have b1 : Q0 ≤ QT := by omega
  have b2 : LDcts + 2 < QT := by omega
  have b3 : QS ≤ Q12 := by omega
  have b4 : QS ≤ 900 := by omega
  exact driver_safeF hLib.1 R hn1 hn b4 z hz _ ct0 ω ω1 s hs hk fun ct ω2 =>
    bootConvF_safe hLib R hc (by norm_num) hst hn1 hn hG1 hG hnG b1 b2 hC b3 hlo hhi (by norm_num) (by norm_num) hs ct ω2

/-- C102: and so does the proposed driver. -/
theorem C102_proposed {L : LibmP} (hLib : L.Accurate) (R : Nat) {LDcts LDstc G : Nat} (hc : LDcts < 63) (hst : LDstc < 63) (hn1 : 1 ≤ n) (hn : n ≤ 16)
    (hG1 : 1 ≤ G) (hG : G ≤ 4) (hnG : n % G = 0) (hQ0 : QT = Q0 + n/G * LDcts)
    (hC : EvalModChain 60 Q0 Q1 Q2 Q3 Q4 Q5 Q6 Q7 Q8 Q9 Q10 Q11 Q12) (hQS : Q12 = QS + n/G * LDstc) (hlo : 65 ≤ Q12) (hhi : QT ≤ 1525)
    (H : Int) (hH : H ≤ (2^(n+1) : Nat)) (z : CVec (n+1)) (hz : ∀ i : Fin (2^n), ‖(⟨z.1 i, z.2 i⟩ : ℂ)‖ ≤ 1)
    (ct0 : R_Q_square 60 (2^(n+1))) (ω : Rng) (hω : ∀ (j : Fin (2^(n+1))) (l : Nat), ∃ m, l ≤ m ∧ ω m % 2^(n+1) = j) :
    Ok (propDriverF L R LDcts LDstc G H QT Q0 Q1 Q2 Q3 Q4 Q5 Q6 Q7 Q8 Q9 Q10 Q11 Q12 QS z ct0 ω) (Reports z) := by
  obtain ⟨⟨s, ω1⟩, hk, hs, -⟩ := C19_keygen_returns H hH ω hω
  have hC' := hC
  unfold EvalModChain at hC'
  have b1 : Q0 ≤ QT := by omega
  have b2 : LDcts + 2 < QT := by omega
  have b3 : QS ≤ Q12 := by omega
  have b4 : QS ≤ 900 := by omega
  exact driver_safeF hLib.1 R hn1 hn b4 z hz _ ct0 ω ω1 s hs hk fun ct ω2 =>
    bootPropF_safe hLib R hc (by norm_num) hst hn1 hn hG1 hG hnG b1 b2 hC b3 hlo hhi (by norm_num) (by norm_num) hs ct ω2

end

/-- `LOGN - 1`, `LOGDELTA_cts` and `G` of the calls in `main`, proposal.cpp:153-158. -/
def MainCall (n c G : Nat) : Prop := (n = 8 ∧ G = 2 ∧ (c = 22 ∨ c = 60)) ∨ (n = 12 ∧ G = 3 ∧ (c = 25 ∨ c = 60)) ∨ (n = 16 ∧ G = 4 ∧ (c = 29 ∨ c = 60))

/-- C102: the twelve calls of `main` with their message, their moduli and their key weight. -/
theorem C102_main {n c G : Nat} (hp : MainCall n c G) {QT Q0 Q1 Q2 Q3 Q4 Q5 Q6 Q7 Q8 Q9 Q10 Q11 Q12 QS QP : Nat} [NeZero QT] [NeZero Q0] [NeZero Q1] [NeZero Q2]
    [NeZero Q3] [NeZero Q4] [NeZero Q5] [NeZero Q6] [NeZero Q7] [NeZero Q8] [NeZero Q9] [NeZero Q10] [NeZero Q11] [NeZero Q12] [NeZero QS] [NeZero QP]
    (hQT : QT = 1450) (hQ0 : QT = Q0 + n/G * c) (hC : EvalModChain 60 Q0 Q1 Q2 Q3 Q4 Q5 Q6 Q7 Q8 Q9 Q10 Q11 Q12) (hQS : Q12 = QS + n/G * 50)
    (hQP : Q12 = QP + n/G * 60) {L : LibmP} (hLib : L.Accurate) (R : Nat) (ct0 : R_Q_square 60 (2^(n+1))) (ω : Rng)
    (hω : ∀ (j : Fin (2^(n+1))) (l : Nat), ∃ m, l ≤ m ∧ ω m % 2^(n+1) = j) :
    Ok (do
      let z ← set_test_messageF L.toLibm (n+1)
      let o ← convDriverF L R c 50 G 128 QT Q0 Q1 Q2 Q3 Q4 Q5 Q6 Q7 Q8 Q9 Q10 Q11 Q12 QS z ct0 ω
      pure (z, o)) (fun p => Reports p.1 p.2) ∧
    Ok (do
      let z ← set_test_messageF L.toLibm (n+1)
      let o ← propDriverF L R c 60 G 128 QT Q0 Q1 Q2 Q3 Q4 Q5 Q6 Q7 Q8 Q9 Q10 Q11 Q12 QP z ct0 ω
      pure (z, o)) fun p => Reports p.1 p.2 := by
  have hn : 8 ≤ n ∧ n ≤ 16 ∧ 1 ≤ G ∧ G ≤ 4 ∧ n % G = 0 ∧ n / G = 4 ∧ c < 63 := by
    rcases hp with ⟨rfl, rfl, rfl | rfl⟩ | ⟨rfl, rfl, rfl | rfl⟩ | ⟨rfl, rfl, rfl | rfl⟩ <;> norm_num
  obtain ⟨a1, a2, a3, a4, a5, a6, a7⟩ := hn
  have hC' := hC
  unfold EvalModChain at hC'
  have hlo : 65 ≤ Q12 := by rw [a6] at hQ0; omega
  have hH : (128 : Int) ≤ (2^(n+1) : Nat) := by
    have : 2^9 ≤ 2^(n+1) := Nat.pow_le_pow_right (by norm_num) (by omega)
    have : ((2^9 : Nat) : Int) ≤ (2^(n+1) : Nat) := by exact_mod_cast this
    norm_num at this ⊢
    omega
  constructor
  · refine Ok.bind (C79_test_message hLib.1 (by omega)) fun z hz => ?_
    exact Ok.bind (C102_conventional hLib R a7 (by norm_num) (by omega) a2 a3 a4 a5 hQ0 hC hQS hlo (by omega) 128 hH z (fun i => (hz i).2) ct0 ω hω)
      fun o h => Ok.pure h
  · refine Ok.bind (C79_test_message hLib.1 (by omega)) fun z hz => ?_
    exact Ok.bind (C102_proposed hLib R a7 (by norm_num) (by omega) a2 a3 a4 a5 hQ0 hC hQP hlo (by omega) 128 hH z (fun i => (hz i).2) ct0 ω hω)
      fun o h => Ok.pure h

/-- The streams that reach every index are not empty. -/
theorem stream_id (n : Nat) (j : Fin (2^(n+1))) (l : Nat) : ∃ m, l ≤ m ∧ (id : Nat → Nat) m % 2^(n+1) = j := by
  refine ⟨j + 2^(n+1) * l, ?_, ?_⟩
  · have : 1 ≤ 2^(n+1) := Nat.one_le_two_pow
    nlinarith
  · have := j.isLt
    simp only [id]
    rw [Nat.add_mul_mod_self_left, Nat.mod_eq_of_lt this]

/-- C102 is not vacuous: the calls `<9,22,50,2>` and `<9,22,60,2>` with the stream 0, 1, 2, …. -/
example (ct0 : R_Q_square 60 (2^(8+1))) :
    Ok (do
      let z ← set_test_messageF exactLibmP.toLibm (8+1)
      let o ← convDriverF exactLibmP (2^31-1) 22 50 2 128 1450 1362 1302 1242 1182 1122 1062 1002 942 882 822 762 702 642 442 z ct0 id
      pure (z, o)) (fun p => Reports p.1 p.2) ∧
    Ok (do
      let z ← set_test_messageF exactLibmP.toLibm (8+1)
      let o ← propDriverF exactLibmP (2^31-1) 22 60 2 128 1450 1362 1302 1242 1182 1122 1062 1002 942 882 822 762 702 642 402 z ct0 id
      pure (z, o)) fun p => Reports p.1 p.2 :=
  C102_main (n := 8) (Or.inl ⟨rfl, rfl, Or.inl rfl⟩) rfl (by norm_num) (by unfold EvalModChain; norm_num) (by norm_num) (by norm_num)
    exactLibmP_accurate (2^31-1) ct0 id (stream_id 8)

/-- `<13,25,60,3>`. -/
example (ct0 : R_Q_square 60 (2^(12+1))) (z : CVec (12+1)) (hz : ∀ i : Fin (2^12), ‖(⟨z.1 i, z.2 i⟩ : ℂ)‖ ≤ 1) :
    Ok (propDriverF exactLibmP (2^31-1) 25 60 3 128 1450 1350 1290 1230 1170 1110 1050 990 930 870 810 750 690 630 390 z ct0 id) (Reports z) :=
  C102_proposed exactLibmP_accurate (n := 12) (2^31-1) (by norm_num) (by norm_num) (by norm_num) (by norm_num) (by norm_num)
    (by norm_num) (by norm_num) (by norm_num) (by unfold EvalModChain; norm_num) (by norm_num) (by norm_num) (by norm_num) 128 (by norm_num) z
    hz ct0 id (stream_id 12)

/-- `<17,29,60,4>`. -/
example (n : Nat) (hn : n = 16) (z : CVec (n+1)) (hz : ∀ i : Fin (2^n), ‖(⟨z.1 i, z.2 i⟩ : ℂ)‖ ≤ 1) (ct0 : R_Q_square 60 (2^(n+1))) :
    Ok (propDriverF exactLibmP (2^31-1) 29 60 4 128 1450 1334 1274 1214 1154 1094 1034 974 914 854 794 734 674 614 374 z ct0 id) (Reports z) :=
  C102_proposed exactLibmP_accurate (n := n) (2^31-1) (by norm_num) (by norm_num) (by omega) (by omega) (by norm_num)
    (by norm_num) (by omega) (by subst hn; norm_num) (by unfold EvalModChain; norm_num) (by subst hn; norm_num) (by norm_num) (by norm_num) 128
    (by subst hn; norm_num) z hz ct0 id (stream_id n)

/-- `EvalMod` of any ciphertext at all, with the key 0: the hypotheses of `C102_evalmod` are met. -/
example (ct : R_Q_square 1362 (2^(8+1))) (ω : Rng) :
    Ok (EvalModKeyF (2^31-1) 60 24 1302 1242 1182 1122 1062 1002 942 882 822 762 702 642 ct (fun _ => 0) ω) fun p => p.1.Canonical :=
  C102_evalmod (n := 8) (2^31-1) (by norm_num) (by norm_num) (by unfold EvalModChain; norm_num) (by norm_num) (by norm_num) (fun _ => 0)
    (fun _ => Or.inr (Or.inl rfl)) 24 (by norm_num) (by norm_num) ct ω

end EvalRound

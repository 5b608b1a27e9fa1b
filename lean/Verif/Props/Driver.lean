import Verif.Model.Driver
import Verif.Props.Boot
import Verif.Props.Core
import Verif.Props.ZQ

/-!
# C55, C56: the bootstrapping drivers from the key to the printed numbers
-/

namespace EvalRound
open Z_Q Finset

/-! ## the numbers printed -/

/-- a loop that takes the maximum of numbers that are not negative -/
theorem forFin_max {n : Nat} (a : Fin n → ℝ) (ha : ∀ i, 0 ≤ a i) (f : Fin n → ℝ → ℝ) (hf : ∀ i m, f i m = max m (a i)) :
    (∀ i, a i ≤ forFin n f 0) ∧ (0 < n → ∃ i, forFin n f 0 = a i) ∧ (n = 0 → forFin n f 0 = 0) := by
  have h := forFin_inv (n := n) (s := (0:ℝ)) (f := f)
    (P := fun k s => 0 ≤ s ∧ (∀ j : Fin n, j.val < k → a j ≤ s) ∧ ((s = 0) ∨ ∃ j : Fin n, s = a j))
    ⟨le_refl _, fun j hj => by omega, Or.inl rfl⟩ (fun k s ⟨h0, h1, h2⟩ => by
      rw [hf]
      refine ⟨h0.trans (le_max_left _ _), fun j hj => ?_, ?_⟩
      · by_cases e : j = k
        · rw [e]; exact le_max_right _ _
        · have : j.val ≠ k.val := fun h => e (Fin.ext h)
          exact (h1 j (by omega)).trans (le_max_left _ _)
      · rcases le_total s (a k) with h | h
        · rw [max_eq_right h]; exact Or.inr ⟨k, rfl⟩
        · rw [max_eq_left h]; exact h2)
  refine ⟨fun i => h.2.1 i i.isLt, fun hn => ?_, fun hn => by subst hn; rfl⟩
  rcases h.2.2 with h0 | h0
  · exact ⟨⟨0, hn⟩, le_antisymm (by rw [h0]; exact ha _) (h.2.1 _ hn)⟩
  · exact h0

theorem ite_max (a m : ℝ) : (if a > m then a else m) = max m a := by
  split
  · rename_i h; rw [max_eq_right h.le]
  · rename_i h; rw [max_eq_left (not_lt.1 h)]

/-- C56: `print_max_error` finds the largest difference. -/
theorem C56_max_err {H : Nat} (x y : Fin H → ℝ) :
    (∀ i, |x i - y i| ≤ max_err x y) ∧ (0 < H → ∃ i, max_err x y = |x i - y i|) := by
  have h := forFin_max (fun i => |x i - y i|) (fun i => abs_nonneg _) _ (fun i m => rfl)
  exact ⟨h.1, h.2.1⟩

section
variable {LF LT N : Nat} [NeZero LF] [NeZero LT]

theorem e_sup_norm_eq (Delta : W) (pt : R_Q LF N) (pt_out : R_Q LT N) :
    e_sup_norm Delta pt pt_out = forFin N (fun i mx => max mx
      (((Z_Q.sub (Z_Q.resize LT (pt i)) (pt_out i)).sval.natAbs % 2^64 : Nat) / (Delta.toNat : ℝ))) 0 := by
  unfold e_sup_norm
  simp only [R_Q.sub_eq]
  congr 1
  funext i mx
  rw [ite_max, toDoubleInt_spec (canonical_sub _ _)]
  congr 2
  show |(_ : ℝ)| = (((Z_Q.sub (R_Q.resize LT pt i) (pt_out i)).sval.natAbs % 2^64 : Nat) : ℝ)
  generalize (Z_Q.sub (R_Q.resize LT pt i) (pt_out i)).sval = x
  rw [← Int.cast_abs, ← Int.cast_natCast (R := ℝ)]
  congr 1
  rw [abs_mul, abs_of_nonneg (a := ((x.natAbs % 2^64 : Nat) : ℤ)) (by positivity)]
  rcases eq_or_ne x 0 with h | h
  · subst h; rfl
  · rw [Int.abs_sign_of_ne_zero h, one_mul]

theorem natAbs_toDoubleInt (u : Z_Q LT) : (toDoubleInt u).natAbs =
    ((if (copy u).is_bigger_than_halfQ then negate (copy u) else copy u).data (bot LT)).toNat := by
  unfold toDoubleInt
  dsimp only
  cases (copy u).is_bigger_than_halfQ
  · simp
  · simp only [if_true]
    rw [Int.natAbs_mul]
    simp only [Int.natAbs_natCast, Int.natAbs_neg, Int.natAbs_one, mul_one]

/-- C56: both drivers print the largest value of `|e_k| mod 2^64`, divided by Delta, where `e_k` are the signed
coefficients of the difference of the plaintexts. -/
theorem C56_norm (Delta : W) (pt : R_Q LF N) (pt_out : R_Q LT N) :
    let a : Fin N → ℝ := fun k =>
      ((Z_Q.sub (Z_Q.resize LT (pt k)) (pt_out k)).sval.natAbs % 2^64 : Nat) / (Delta.toNat : ℝ)
    (∀ k, a k ≤ e_sup_norm Delta pt pt_out) ∧ (0 < N → ∃ k, e_sup_norm Delta pt pt_out = a k) ∧
      e_sup_norm_low Delta pt pt_out = e_sup_norm Delta pt pt_out := by
  intro a
  have h := forFin_max a (fun i => by positivity) _ (fun i m => rfl)
  rw [e_sup_norm_eq]
  refine ⟨h.1, h.2.1, ?_⟩
  unfold e_sup_norm_low
  simp only [R_Q.sub_eq]
  congr 1
  funext i mx
  rw [ite_max]
  congr 3
  have hd := congrArg Int.natAbs (toDoubleInt_spec (canonical_sub (Z_Q.resize LT (pt i)) (pt_out i)))
  have hr : ∀ x : ℤ, (x.sign * ((x.natAbs % 2^64 : Nat) : ℤ)).natAbs = x.natAbs % 2^64 := by
    intro x
    rw [Int.natAbs_mul, Int.natAbs_natCast]
    rcases eq_or_ne x 0 with h | h
    · subst h; rfl
    · rw [Int.natAbs_sign_of_ne_zero h, one_mul]
  rw [hr] at hd
  rw [← hd, natAbs_toDoubleInt]
  rfl

/-- C56: so the number printed is the sup norm of the error when every coefficient is below `2^64`. -/
theorem C56_norm_true (Delta : W) (pt : R_Q LF N) (pt_out : R_Q LT N)
    (h : ∀ k, |(Z_Q.sub (Z_Q.resize LT (pt k)) (pt_out k)).sval| < 2^64) :
    (∀ k, |((Z_Q.sub (Z_Q.resize LT (pt k)) (pt_out k)).sval : ℝ)| / Delta.toNat ≤ e_sup_norm Delta pt pt_out) ∧
    (0 < N → ∃ k, e_sup_norm Delta pt pt_out = |((Z_Q.sub (Z_Q.resize LT (pt k)) (pt_out k)).sval : ℝ)| / Delta.toNat) := by
  obtain ⟨h1, h2, -⟩ := C56_norm Delta pt pt_out
  have e : ∀ k, (((Z_Q.sub (Z_Q.resize LT (pt k)) (pt_out k)).sval.natAbs % 2^64 : Nat) : ℝ) =
      |((Z_Q.sub (Z_Q.resize LT (pt k)) (pt_out k)).sval : ℝ)| := by
    intro k
    have := h k
    rw [Int.abs_eq_natAbs] at this
    rw [Nat.mod_eq_of_lt (by omega), Nat.cast_natAbs, Int.cast_abs]
  simp only [e] at h1 h2
  exact ⟨h1, h2⟩

end

/-- C56: with an error of `2^64` in every coefficient, the number printed is 0. -/
theorem C56_norm_wrong : ∃ (pt : R_Q 60 2) (pt_out : R_Q 290 2),
    (∀ k, (Z_Q.sub (Z_Q.resize 290 (pt k)) (pt_out k)).sval = 2^64) ∧ ∀ Delta, e_sup_norm Delta pt pt_out = 0 := by
  have hs : ∀ k : Fin 2, (Z_Q.sub (Z_Q.resize 290 ((fun _ => setzero : R_Q 60 2) k))
      ((fun _ => Z_Q.ofNat 290 (2^290 - 2^64) : R_Q 290 2) k)).sval = 2^64 := by
    intro k
    show (Z_Q.sub (Z_Q.resize 290 (setzero : Z_Q 60)) (Z_Q.ofNat 290 (2^290 - 2^64))).sval = 2^64
    decide +kernel
  refine ⟨fun _ => setzero, fun _ => Z_Q.ofNat 290 (2^290 - 2^64), hs, fun Delta => ?_⟩
  obtain ⟨-, h2, -⟩ := C56_norm Delta (fun _ => setzero : R_Q 60 2) (fun _ => Z_Q.ofNat 290 (2^290 - 2^64) : R_Q 290 2)
  obtain ⟨k, hk⟩ := h2 (by norm_num)
  rw [hk]
  simp only [hs k]
  norm_num

/-! ## the message -/

/-- the slots of the test message have absolute value `1/√2` -/
theorem test_message_norm (LOGN : Nat) (i : Fin (2^(LOGN-1))) :
    ‖(⟨(set_test_message LOGN).1 i, (set_test_message LOGN).2 i⟩ : ℂ)‖ ≤ 1 := by
  have h2 : (0:ℝ) < Real.sqrt 2 := Real.sqrt_pos.2 (by norm_num)
  have h3 : Real.sqrt 2 * Real.sqrt 2 = 2 := Real.mul_self_sqrt (by norm_num)
  rw [Complex.norm_def, Complex.normSq_mk, Real.sqrt_le_left (by norm_num), one_pow]
  unfold set_test_message
  simp only []
  generalize (i.val : ℝ) / (2^(LOGN-1) : Nat) * Real.pi = x
  have h4 := Real.sin_sq_add_cos_sq x
  have : Real.cos x / Real.sqrt 2 * (Real.cos x / Real.sqrt 2) + Real.sin x / Real.sqrt 2 * (Real.sin x / Real.sqrt 2) =
      (Real.sin x^2 + Real.cos x^2) / (Real.sqrt 2 * Real.sqrt 2) := by ring
  rw [this, h4, h3]; norm_num

/-! ## the whole run -/

theorem encode_close {LOGN : Nat} (h1 : 2 ≤ LOGN) (h2 : LOGN ≤ 27) (z : CVec LOGN)
    (hz : ∀ i : Fin (2^(LOGN-1)), ‖(⟨z.1 i, z.2 i⟩ : ℂ)‖ ≤ 1) :
    Ok (encode 60 z (BitVec.ofNat 64 (2^50))) fun pt => ∃ m : Fin (2^LOGN) → ℝ,
      (∀ i : Fin (2^(LOGN-1)), slotOf m i = ⟨z.1 i, z.2 i⟩) ∧
      ∀ k, (pt k).Canonical ∧ |((pt k).sval : ℝ) - m k * 2^50| ≤ 1/2 ∧ |((pt k).sval : ℝ)| ≤ 2^50 + 1/2 := by
  have hδ : (((BitVec.ofNat 64 (2^50)).toNat : ℕ) : ℝ) = 2^50 := by
    rw [show (BitVec.ofNat 64 (2^50)).toNat = 2^50 from rfl]; norm_num
  unfold encode
  refine Ok.bind (ifft_slot h1 h2 z _) fun m ⟨hs, hb⟩ => ?_
  refine Ok.mono (tabM_spec (P := fun i p => ∀ h : i < 2^LOGN, p.Canonical ∧ |(p.sval : ℝ) - m ⟨i, h⟩ * 2^50| ≤ 1/2)
    fun i hi => ?_) fun pt hpt => ⟨m, hs, fun k => ⟨(hpt k k.isLt).1, (hpt k k.isLt).2, ?_⟩⟩
  · rw [rd_of_lt _ hi, pure_bind]
    have hw : (1:ℝ) * ((BitVec.ofNat 64 (2^50)).toNat : ℕ) + 1/2 < 2^64 := by rw [hδ]; norm_num
    have hq : (1:ℝ) * ((BitVec.ofNat 64 (2^50)).toNat : ℕ) + 1/2 < 2^(60-1) := by rw [hδ]; norm_num
    have h0 : (0:ℝ) ≤ ((BitVec.ofNat 64 (2^50)).toNat : ℕ) := Nat.cast_nonneg _
    refine Ok.mono (encodeCoeff_spec (scaled_bound h0 (hb 1 hz _) hw)) fun p hp _ => ?_
    obtain ⟨c, e⟩ := hp.2 (scaled_bound h0 (hb 1 hz _) hq)
    refine ⟨c, ?_⟩
    rw [e, ← hδ]
    exact cround_err _
  · have h3 := (hpt k k.isLt).2
    have h4 := hb 1 hz k
    rw [abs_le] at h3 h4 ⊢
    constructor <;> nlinarith [h3.1, h3.2, h4.1, h4.2]

theorem decode_log_slot {LOGN Q : Nat} [NeZero Q] (h1 : 2 ≤ LOGN) (h2 : LOGN ≤ 27) (hQ : Q ≤ 2^29)
    {pt : R_Q Q (2^LOGN)} (hpt : pt.Canonical) :
    Ok (decode_log pt 50) fun z => ∀ i : Fin (2^(LOGN-1)),
      (⟨z.1 i, z.2 i⟩ : ℂ) = slotOf (fun k => ((pt k).sval : ℝ) / 2^50) i := by
  unfold decode_log
  refine Ok.bind (tabM_spec (P := fun i (x : ℝ) => ∀ h : i < 2^LOGN, x = ((pt ⟨i, h⟩).sval : ℝ) / 2^50) fun i hi => ?_)
    fun m hm => ?_
  · rw [rd_of_lt _ hi, pure_bind, decodeLogCoeff_spec (hpt _) hQ (by norm_num) (by norm_num)]
    exact Ok.pure fun _ => rfl
  · rw [show m = fun k => ((pt k).sval : ℝ) / 2^50 from funext fun k => hm k k.isLt]
    exact C28_fft h1 h2 _

/-- a fresh ciphertext decrypts to the plaintext up to 8 -/
theorem fresh_dec (R : Nat) {LOGN : Nat} (h1 : 2 ≤ LOGN) (h2 : LOGN ≤ 27) {z : CVec LOGN}
    (hz : ∀ i : Fin (2^(LOGN-1)), ‖(⟨z.1 i, z.2 i⟩ : ℂ)‖ ≤ 1) {ct0 : R_Q_square 60 (2^LOGN)} {ω1 ω2 : Rng}
    {s : Fin (2^LOGN) → Int} (hs : ∀ k, s k = -1 ∨ s k = 0 ∨ s k = 1) {pt : R_Q 60 (2^LOGN)} {ct : R_Q_square 60 (2^LOGN)}
    (ept : encode 60 z (BitVec.ofNat 64 (2^50)) = pure pt) (ect : enc R pt s ct0 ω1 = pure (ct, ω2)) :
    ct.Canonical ∧ ∃ m, dec ct s = pure m ∧ (∀ k, |(m k).sval - (pt k).sval| ≤ 8) ∧ ∀ k, |(m k).sval| ≤ 2^51 := by
  have hN : 2^LOGN ≤ 2^30 := Nat.pow_le_pow_right (by norm_num) (by omega)
  obtain ⟨pt', ept', mz, hmz, hpt⟩ := encode_close h1 h2 z hz
  obtain rfl := pure_inj (ept.symm.trans ept')
  obtain ⟨ct', ect', hct, e, he, hph⟩ := enc_spec R hN hs pt ct0 ω1
  obtain rfl := pure_inj (ect.symm.trans ect')
  obtain ⟨m, edm, hmc, hm⟩ := dec_spec hN hs ct
  have hpi : ∀ k, |(pt k).sval| ≤ 2^50 := by
    intro k
    have h3 := (hpt k).2.2
    have h4 : |((pt k).sval : ℝ)| < 2^50 + 1 := by linarith
    have h5 : |(pt k).sval| < 2^50 + 1 := by exact_mod_cast h4
    omega
  have hms : ∀ k, (m k).sval = (pt k).sval + e k := by
    intro k
    have h3 := abs_le.1 (hpi k)
    have h4 := abs_le.1 (he k)
    refine sval_eq_of_cls (L := 60) ?_ (by norm_num; omega) (by norm_num; omega)
    have h5 := congrFun (hm.trans hph) k
    rw [show (m k).cls = R_Q.cls m k from rfl, h5]
    show (pt k).cls + ((e k : ℤ) : ZMod (2^60)) = _
    rw [← sval_cls, Int.cast_add]
  refine ⟨hct, m, edm, fun k => ?_, fun k => ?_⟩
  · rw [hms k, add_sub_cancel_left]; exact he k
  · have h3 := abs_le.1 (hpi k)
    have h4 := abs_le.1 (he k)
    rw [hms k, abs_le]
    constructor <;> omega

/-- the range of the raised message of a fresh ciphertext, for keys of weight at most 45 -/
theorem fresh_range (R : Nat) {LOGN QT : Nat} [NeZero QT] (h1 : 2 ≤ LOGN) (h2 : LOGN ≤ 27) (hq : 66 ≤ QT) {z : CVec LOGN}
    (hz : ∀ i : Fin (2^(LOGN-1)), ‖(⟨z.1 i, z.2 i⟩ : ℂ)‖ ≤ 1) {ct0 : R_Q_square 60 (2^LOGN)} {ω1 : Rng}
    {s : Fin (2^LOGN) → Int} (hs : ∀ k, s k = -1 ∨ s k = 0 ∨ s k = 1) (hh : (univ.filter fun k => s k ≠ 0).card ≤ 45)
    (pt : R_Q 60 (2^LOGN)) (ct : R_Q_square 60 (2^LOGN)) (ω2 : Rng) (M : R_Q QT (2^LOGN))
    (ept : encode 60 z (BitVec.ofNat 64 (2^50)) = pure pt) (ect : enc R pt s ct0 ω1 = pure (ct, ω2))
    (eM : dec (mod_raise QT ct) s = pure M) (k : Fin (2^LOGN)) :
    -237 * 2^60 ≤ 10 * (M k).sval ∧ 10 * (M k).sval ≤ 242 * 2^60 := by
  have hN : 2^LOGN ≤ 2^30 := Nat.pow_le_pow_right (by norm_num) (by omega)
  obtain ⟨hct, m, hm, -, hB⟩ := fresh_dec R h1 h2 hz hs ept ect
  obtain ⟨M', hM', hr⟩ := raised_range hN hq hs hh hct hm hB
  obtain rfl := pure_inj (eM.symm.trans hM')
  exact hr k

/-- The run of a driver around any `boot` that keeps the message up to `E`. -/
theorem driver_run (R : Nat) {H : Int} {LOGN QS : Nat} [NeZero QS] (h1 : 2 ≤ LOGN) (h2 : LOGN ≤ 27) (hQ : QS ≤ 2^29) (hQ' : 65 ≤ QS)
    (z : CVec LOGN) (hz : ∀ i : Fin (2^(LOGN-1)), ‖(⟨z.1 i, z.2 i⟩ : ℂ)‖ ≤ 1)
    (boot : R_Q_square 60 (2^LOGN) → (Fin (2^LOGN) → Int) → Rng → M (R_Q_square QS (2^LOGN) × Rng))
    (ct0 : R_Q_square 60 (2^LOGN)) (ω ω1 : Rng) (s : Fin (2^LOGN) → Int) (hs : ∀ k, s k = -1 ∨ s k = 0 ∨ s k = 1)
    (hk : keygen (2^LOGN) H ω = pure (s, ω1)) {E : ℕ} (hE : E ≤ 2^57)
    (hb : ∀ pt ct ω2 m, encode 60 z (BitVec.ofNat 64 (2^50)) = pure pt → enc R pt s ct0 ω1 = pure (ct, ω2) → ct.Canonical →
      dec ct s = pure m → (∀ k, |(m k).sval| ≤ 2^51) →
      Ok (boot ct s ω2 >>= fun p => dec p.1 s) fun m' => ∀ k, |(m' k).sval - (m k).sval| ≤ E) :
    Ok (bootDriver R H z boot ct0 ω) fun o =>
      (∀ i : Fin (2^(LOGN-1)), ‖(⟨o.z_out.1 i, o.z_out.2 i⟩ : ℂ) - ⟨z.1 i, z.2 i⟩‖ ≤ 2^LOGN * (E + 9) / 2^50) ∧
      o.max_err_real ≤ 2^LOGN * (E + 9) / 2^50 ∧ o.max_err_imag ≤ 2^LOGN * (E + 9) / 2^50 ∧
      o.e_norm ≤ (E + 8) / 2^50 ∧ o.e_norm_low = o.e_norm := by
  have hN : 2^LOGN ≤ 2^30 := Nat.pow_le_pow_right (by norm_num) (by omega)
  have hδ : (((BitVec.ofNat 64 (2^50)).toNat : ℕ) : ℝ) = 2^50 := by
    rw [show (BitVec.ofNat 64 (2^50)).toNat = 2^50 from rfl]; norm_num
  unfold bootDriver
  rw [hk, pure_bind, show shl1 50 = pure (BitVec.ofNat 64 (2^50)) from rfl, pure_bind]
  obtain ⟨pt, ept, mz, hmz, hpt⟩ := encode_close h1 h2 z hz
  obtain ⟨⟨ct, ω2⟩, ect, -⟩ := enc_spec R hN hs pt ct0 ω1
  obtain ⟨hct, m, edm, hms, hmB⟩ := fresh_dec R h1 h2 hz hs ept ect
  obtain ⟨mo, emo, hmo⟩ := hb pt ct ω2 m ept ect hct edm hmB
  obtain ⟨⟨cb, ω3⟩, ecb, emo⟩ := bind_eq_pure emo
  obtain ⟨mo', emo', hmoc, -⟩ := dec_spec hN hs cb
  obtain rfl := pure_inj (emo.symm.trans emo')
  have hE' : (E : ℤ) ≤ 2^57 := by exact_mod_cast hE
  have hd : ∀ k, |(mo k).sval - (pt k).sval| ≤ E + 8 := by
    intro k
    have h3 := abs_le.1 (hmo k)
    have h4 := abs_le.1 (hms k)
    rw [abs_le]
    constructor <;> omega
  rw [ept, pure_bind, ect, pure_bind]
  show Ok (boot ct s ω2 >>= _) _
  rw [ecb, pure_bind]
  show Ok (dec cb s >>= _) _
  rw [emo, pure_bind]
  refine Ok.bind (decode_log_slot h1 h2 hQ hmoc) fun zo hzo => Ok.pure ?_
  have hmain : ∀ i : Fin (2^(LOGN-1)), ‖(⟨zo.1 i, zo.2 i⟩ : ℂ) - ⟨z.1 i, z.2 i⟩‖ ≤ 2^LOGN * (E + 9) / 2^50 := by
    intro i
    rw [hzo i, ← hmz i]
    refine (slotOf_sub_le (ε := (E + 9) / 2^50) (fun k => ?_) i).trans (le_of_eq ?_)
    · have h3 : |((mo k).sval : ℝ) - (pt k).sval| ≤ E + 8 := by exact_mod_cast hd k
      have h4 := (hpt k).2.1
      rw [abs_le] at h3 h4 ⊢
      constructor
      · rw [← sub_nonneg]
        have : ((mo k).sval : ℝ) / 2^50 - mz k - -((E + 9) / 2^50) = ((mo k).sval - mz k * 2^50 + (E + 9)) / 2^50 := by ring
        rw [this]
        exact div_nonneg (by linarith [h3.1, h4.1]) (by positivity)
      · rw [← sub_nonneg]
        have : (E + 9 : ℝ) / 2^50 - (((mo k).sval : ℝ) / 2^50 - mz k) = (mz k * 2^50 - (mo k).sval + (E + 9)) / 2^50 := by ring
        rw [this]
        exact div_nonneg (by linarith [h3.2, h4.2]) (by positivity)
    · push_cast; ring
  have hre : ∀ i : Fin (2^(LOGN-1)), |z.1 i - zo.1 i| ≤ 2^LOGN * (E + 9) / 2^50 ∧ |z.2 i - zo.2 i| ≤ 2^LOGN * (E + 9) / 2^50 := by
    intro i
    have h3 := Complex.abs_re_le_norm ((⟨zo.1 i, zo.2 i⟩ : ℂ) - ⟨z.1 i, z.2 i⟩)
    have h4 := Complex.abs_im_le_norm ((⟨zo.1 i, zo.2 i⟩ : ℂ) - ⟨z.1 i, z.2 i⟩)
    rw [abs_sub_comm (z.1 i), abs_sub_comm (z.2 i)]
    exact ⟨h3.trans (hmain i), h4.trans (hmain i)⟩
  have hp : 0 < 2^(LOGN-1) := by positivity
  refine ⟨hmain, ?_, ?_, ?_, (C56_norm _ _ _).2.2⟩
  · obtain ⟨i, hi⟩ := (C56_max_err z.1 zo.1).2 hp
    show max_err z.1 zo.1 ≤ _
    rw [hi]; exact (hre i).1
  · obtain ⟨i, hi⟩ := (C56_max_err z.2 zo.2).2 hp
    show max_err z.2 zo.2 ≤ _
    rw [hi]; exact (hre i).2
  · have hq : (2:ℤ)^64 ≤ 2^(QS-1) := pow_le_pow_right₀ (by norm_num) (by omega)
    have hsv : ∀ k, (Z_Q.sub (Z_Q.resize QS (pt k)) (mo k)).sval = (pt k).sval - (mo k).sval := by
      intro k
      have h3 := abs_le.1 (hd k)
      refine sval_eq_of_cls ?_ (by omega) (by omega)
      rw [cls_sub, cls_resize (hpt k).1, Int.cast_sub, sval_cls (mo k)]
    obtain ⟨k, hk⟩ := (C56_norm_true (BitVec.ofNat 64 (2^50)) pt mo (fun k => by
      rw [hsv k, abs_sub_comm]
      have := hd k
      omega)).2 (by positivity)
    show e_sup_norm (BitVec.ofNat 64 (2^50)) pt mo ≤ _
    rw [hk, hδ, hsv k]
    have h3 : |(((pt k).sval - (mo k).sval : ℤ) : ℝ)| ≤ E + 8 := by
      have := hd k
      rw [abs_sub_comm] at this
      exact_mod_cast this
    gcongr

section
variable {n QT Q0 Q1 Q2 Q3 Q4 Q5 Q6 Q7 Q8 Q9 Q10 Q11 Q12 QS : Nat} [NeZero QT] [NeZero Q0] [NeZero Q1] [NeZero Q2] [NeZero Q3]
  [NeZero Q4] [NeZero Q5] [NeZero Q6] [NeZero Q7] [NeZero Q8] [NeZero Q9] [NeZero Q10] [NeZero Q11] [NeZero Q12] [NeZero QS]

/-- C55: the conventional driver. -/
theorem C55_conventional (R : Nat) {G b : Nat} (hp : BootParam n G b)
    (hQ0 : QT = Q0 + n/G * 60) (hC : EvalModChain 60 Q0 Q1 Q2 Q3 Q4 Q5 Q6 Q7 Q8 Q9 Q10 Q11 Q12) (hQS : Q12 = QS + n/G * 50)
    (hlo : 65 ≤ QS) (hhi : QT ≤ 1525) (H : Int) (hH : H ≤ 128)
    (z : CVec (n+1)) (hz : ∀ i : Fin (2^n), ‖(⟨z.1 i, z.2 i⟩ : ℂ)‖ ≤ 1) (ct0 : R_Q_square 60 (2^(n+1))) (ω ω1 : Rng)
    (s : Fin (2^(n+1)) → Int) (hk : keygen (2^(n+1)) H ω = pure (s, ω1))
    (hr : ∀ pt ct ω2 M, encode 60 z (BitVec.ofNat 64 (2^50)) = pure pt → enc R pt s ct0 ω1 = pure (ct, ω2) →
      dec (mod_raise QT ct) s = pure M → ∀ k, -237 * 2^60 ≤ 10 * (M k).sval ∧ 10 * (M k).sval ≤ 242 * 2^60) :
    Ok (convDriver R 60 50 G H QT Q0 Q1 Q2 Q3 Q4 Q5 Q6 Q7 Q8 Q9 Q10 Q11 Q12 QS z ct0 ω) fun o =>
      (∀ i : Fin (2^n), ‖(⟨o.z_out.1 i, o.z_out.2 i⟩ : ℂ) - ⟨z.1 i, z.2 i⟩‖ ≤ 2^(n+1) * (2^b + 9) / 2^50) ∧
      o.max_err_real ≤ 2^(n+1) * (2^b + 9) / 2^50 ∧ o.max_err_imag ≤ 2^(n+1) * (2^b + 9) / 2^50 ∧
      o.e_norm ≤ (2^b + 8) / 2^50 ∧ o.e_norm_low = o.e_norm := by
  have hn : 8 ≤ n ∧ n ≤ 16 ∧ b ≤ 57 := by rcases hp with ⟨rfl, rfl, rfl⟩ | ⟨rfl, rfl, rfl⟩ | ⟨rfl, rfl, rfl⟩ <;> norm_num
  have hN : 2^(n+1) ≤ 2^30 := Nat.pow_le_pow_right (by norm_num) (by omega)
  have hQS' : QS ≤ 1525 := by unfold EvalModChain at hC; omega
  obtain ⟨hs, hw⟩ := C19_keygen_weight H ω ω1 s hk
  have := driver_run R (by omega) (by omega) (by omega) hlo z hz
    (bootConv R 60 60 50 G 24 QT Q0 Q1 Q2 Q3 Q4 Q5 Q6 Q7 Q8 Q9 Q10 Q11 Q12 QS) ct0 ω ω1 s hs hk
    (E := 2^b) (Nat.pow_le_pow_right (by norm_num) hn.2.2) (fun pt ct ω2 m e1 e2 hct hm hB => by
      obtain ⟨M, hM, -⟩ := dec_spec hN hs (mod_raise QT ct)
      have := C51_drivers R hp hQ0 hC hQS hlo hhi s hs (by omega) ct hct m hm M hM hB (hr pt ct ω2 M e1 e2 hM) ω2
      exact_mod_cast this)
  exact_mod_cast this

/-- C55: the proposed driver. -/
theorem C55_proposed (R : Nat) {G b : Nat} (hp : BootParam n G b)
    (hQ0 : QT = Q0 + n/G * 60) (hC : EvalModChain 60 Q0 Q1 Q2 Q3 Q4 Q5 Q6 Q7 Q8 Q9 Q10 Q11 Q12) (hQS : Q12 = QS + n/G * 60)
    (hlo : 65 ≤ QS) (hhi : QT ≤ 1525) (H : Int) (hH : H ≤ 128)
    (z : CVec (n+1)) (hz : ∀ i : Fin (2^n), ‖(⟨z.1 i, z.2 i⟩ : ℂ)‖ ≤ 1) (ct0 : R_Q_square 60 (2^(n+1))) (ω ω1 : Rng)
    (s : Fin (2^(n+1)) → Int) (hk : keygen (2^(n+1)) H ω = pure (s, ω1))
    (hr : ∀ pt ct ω2 M, encode 60 z (BitVec.ofNat 64 (2^50)) = pure pt → enc R pt s ct0 ω1 = pure (ct, ω2) →
      dec (mod_raise QT ct) s = pure M → ∀ k, -237 * 2^60 ≤ 10 * (M k).sval ∧ 10 * (M k).sval ≤ 242 * 2^60) :
    Ok (propDriver R 60 60 G H QT Q0 Q1 Q2 Q3 Q4 Q5 Q6 Q7 Q8 Q9 Q10 Q11 Q12 QS z ct0 ω) fun o =>
      (∀ i : Fin (2^n), ‖(⟨o.z_out.1 i, o.z_out.2 i⟩ : ℂ) - ⟨z.1 i, z.2 i⟩‖ ≤ 2^(n+1) * (2^b + 9) / 2^50) ∧
      o.max_err_real ≤ 2^(n+1) * (2^b + 9) / 2^50 ∧ o.max_err_imag ≤ 2^(n+1) * (2^b + 9) / 2^50 ∧
      o.e_norm ≤ (2^b + 8) / 2^50 ∧ o.e_norm_low = o.e_norm := by
  have hn : 8 ≤ n ∧ n ≤ 16 ∧ b ≤ 57 := by rcases hp with ⟨rfl, rfl, rfl⟩ | ⟨rfl, rfl, rfl⟩ | ⟨rfl, rfl, rfl⟩ <;> norm_num
  have hN : 2^(n+1) ≤ 2^30 := Nat.pow_le_pow_right (by norm_num) (by omega)
  have hQS' : QS ≤ 1525 := by unfold EvalModChain at hC; omega
  obtain ⟨hs, hw⟩ := C19_keygen_weight H ω ω1 s hk
  have := driver_run R (by omega) (by omega) (by omega) hlo z hz
    (bootProp R 60 60 60 G 24 QT Q0 Q1 Q2 Q3 Q4 Q5 Q6 Q7 Q8 Q9 Q10 Q11 Q12 QS) ct0 ω ω1 s hs hk
    (E := 2^b) (Nat.pow_le_pow_right (by norm_num) hn.2.2) (fun pt ct ω2 m e1 e2 hct hm hB => by
      obtain ⟨M, hM, -⟩ := dec_spec hN hs (mod_raise QT ct)
      have := C52_drivers R hp hQ0 hC hQS hlo hhi s hs (by omega) ct hct m hm M hM hB (hr pt ct ω2 M e1 e2 hM) ω2
      exact_mod_cast this)
  exact_mod_cast this

/-- C55: with a key of at most 45 entries the range of the raised message need not be assumed; it is enough that the
random numbers reach every index, so that `keygen` returns. -/
theorem C55_sparse (R : Nat) {G b : Nat} (hp : BootParam n G b)
    (hQ0 : QT = Q0 + n/G * 60) (hC : EvalModChain 60 Q0 Q1 Q2 Q3 Q4 Q5 Q6 Q7 Q8 Q9 Q10 Q11 Q12) (hQS : Q12 = QS + n/G * 50)
    (hlo : 65 ≤ QS) (hhi : QT ≤ 1525) (H : Int) (hH : H ≤ 45)
    (z : CVec (n+1)) (hz : ∀ i : Fin (2^n), ‖(⟨z.1 i, z.2 i⟩ : ℂ)‖ ≤ 1) (ct0 : R_Q_square 60 (2^(n+1))) (ω : Rng)
    (hω : ∀ (j : Fin (2^(n+1))) (l : Nat), ∃ m, l ≤ m ∧ ω m % 2^(n+1) = j) :
    Ok (convDriver R 60 50 G H QT Q0 Q1 Q2 Q3 Q4 Q5 Q6 Q7 Q8 Q9 Q10 Q11 Q12 QS z ct0 ω) fun o =>
      (∀ i : Fin (2^n), ‖(⟨o.z_out.1 i, o.z_out.2 i⟩ : ℂ) - ⟨z.1 i, z.2 i⟩‖ ≤ 2^(n+1) * (2^b + 9) / 2^50) ∧
      o.max_err_real ≤ 2^(n+1) * (2^b + 9) / 2^50 ∧ o.max_err_imag ≤ 2^(n+1) * (2^b + 9) / 2^50 ∧
      o.e_norm ≤ (2^b + 8) / 2^50 ∧ o.e_norm_low = o.e_norm := by
  have hn : 8 ≤ n ∧ n ≤ 16 ∧ b ≤ 57 := by rcases hp with ⟨rfl, rfl, rfl⟩ | ⟨rfl, rfl, rfl⟩ | ⟨rfl, rfl, rfl⟩ <;> norm_num
  have hN' : 2^8 ≤ 2^(n+1) := Nat.pow_le_pow_right (by norm_num) (by omega)
  have hHN : H ≤ ((2^(n+1) : Nat) : Int) := by
    have : ((2^8 : Nat) : Int) ≤ ((2^(n+1) : Nat) : Int) := by exact_mod_cast hN'
    norm_num at this ⊢
    omega
  obtain ⟨⟨s, ω1⟩, hk, hs, hw⟩ := C19_keygen_returns H hHN ω hω
  exact C55_conventional R hp hQ0 hC hQS hlo hhi H (by omega) z hz ct0 ω ω1 s hk
    (fresh_range R (by omega) (by omega) (by unfold EvalModChain at hC; omega) hz hs (by rw [hw]; omega))

theorem C55_sparse_proposed (R : Nat) {G b : Nat} (hp : BootParam n G b)
    (hQ0 : QT = Q0 + n/G * 60) (hC : EvalModChain 60 Q0 Q1 Q2 Q3 Q4 Q5 Q6 Q7 Q8 Q9 Q10 Q11 Q12) (hQS : Q12 = QS + n/G * 60)
    (hlo : 65 ≤ QS) (hhi : QT ≤ 1525) (H : Int) (hH : H ≤ 45)
    (z : CVec (n+1)) (hz : ∀ i : Fin (2^n), ‖(⟨z.1 i, z.2 i⟩ : ℂ)‖ ≤ 1) (ct0 : R_Q_square 60 (2^(n+1))) (ω : Rng)
    (hω : ∀ (j : Fin (2^(n+1))) (l : Nat), ∃ m, l ≤ m ∧ ω m % 2^(n+1) = j) :
    Ok (propDriver R 60 60 G H QT Q0 Q1 Q2 Q3 Q4 Q5 Q6 Q7 Q8 Q9 Q10 Q11 Q12 QS z ct0 ω) fun o =>
      (∀ i : Fin (2^n), ‖(⟨o.z_out.1 i, o.z_out.2 i⟩ : ℂ) - ⟨z.1 i, z.2 i⟩‖ ≤ 2^(n+1) * (2^b + 9) / 2^50) ∧
      o.max_err_real ≤ 2^(n+1) * (2^b + 9) / 2^50 ∧ o.max_err_imag ≤ 2^(n+1) * (2^b + 9) / 2^50 ∧
      o.e_norm ≤ (2^b + 8) / 2^50 ∧ o.e_norm_low = o.e_norm := by
  have hn : 8 ≤ n ∧ n ≤ 16 ∧ b ≤ 57 := by rcases hp with ⟨rfl, rfl, rfl⟩ | ⟨rfl, rfl, rfl⟩ | ⟨rfl, rfl, rfl⟩ <;> norm_num
  have hN' : 2^8 ≤ 2^(n+1) := Nat.pow_le_pow_right (by norm_num) (by omega)
  have hHN : H ≤ ((2^(n+1) : Nat) : Int) := by
    have : ((2^8 : Nat) : Int) ≤ ((2^(n+1) : Nat) : Int) := by exact_mod_cast hN'
    norm_num at this ⊢
    omega
  obtain ⟨⟨s, ω1⟩, hk, hs, hw⟩ := C19_keygen_returns H hHN ω hω
  exact C55_proposed R hp hQ0 hC hQS hlo hhi H (by omega) z hz ct0 ω ω1 s hk
    (fresh_range R (by omega) (by omega) (by unfold EvalModChain at hC; omega) hz hs (by rw [hw]; omega))

end

/-- C55 is not vacuous: `bootstrap_test` with its test message and its moduli, a key of 45 entries and the stream
0, 1, 2, …: the output differs from the message by less than 1/127 in every slot. `C55_conventional` and `C55_proposed` are used in
the sparse theorems, so these cases meet their hypotheses too. -/
example (ct0 : R_Q_square 60 (2^(8+1))) :
    Ok (convDriver (2^31-1) 60 50 2 45 1450 1210 1150 1090 1030 970 910 850 790 730 670 610 550 490 290
      (set_test_message (8+1)) ct0 id) fun o => ∀ i : Fin (2^8),
        ‖(⟨o.z_out.1 i, o.z_out.2 i⟩ : ℂ) - ⟨(set_test_message (8+1)).1 i, (set_test_message (8+1)).2 i⟩‖ ≤ 1/127 := by
  refine Ok.mono (C55_sparse (n := 8) (QT := 1450) (QS := 290) (2^31-1) (Or.inl ⟨rfl, rfl, rfl⟩) (by norm_num)
    (by unfold EvalModChain; norm_num) (by norm_num) (by norm_num) (by norm_num) 45 (by norm_num) _
    (test_message_norm (8+1)) ct0 id (fun j l => ⟨j + 2^(8+1) * l, by
      have : 1 ≤ 2^(8+1) := by norm_num
      nlinarith, ?_⟩)) fun o h i => (h.1 i).trans (by norm_num)
  have := j.isLt
  simp only [id]
  rw [Nat.add_mul_mod_self_left, Nat.mod_eq_of_lt this]

/-- The same for the proposed driver. -/
example (ct0 : R_Q_square 60 (2^(8+1))) :
    Ok (propDriver (2^31-1) 60 60 2 45 1450 1210 1150 1090 1030 970 910 850 790 730 670 610 550 490 250
      (set_test_message (8+1)) ct0 id) fun o => ∀ i : Fin (2^8),
        ‖(⟨o.z_out.1 i, o.z_out.2 i⟩ : ℂ) - ⟨(set_test_message (8+1)).1 i, (set_test_message (8+1)).2 i⟩‖ ≤ 1/127 := by
  refine Ok.mono (C55_sparse_proposed (n := 8) (QT := 1450) (QS := 250) (2^31-1) (Or.inl ⟨rfl, rfl, rfl⟩) (by norm_num)
    (by unfold EvalModChain; norm_num) (by norm_num) (by norm_num) (by norm_num) 45 (by norm_num) _
    (test_message_norm (8+1)) ct0 id (fun j l => ⟨j + 2^(8+1) * l, by
      have : 1 ≤ 2^(8+1) := by norm_num
      nlinarith, ?_⟩)) fun o h i => (h.1 i).trans (by norm_num)
  have := j.isLt
  simp only [id]
  rw [Nat.add_mul_mod_self_left, Nat.mod_eq_of_lt this]

end EvalRound

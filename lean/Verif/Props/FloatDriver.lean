import Verif.Proofs.FloatDriver
import Verif.Props.FloatBoot2
import Verif.Props.FloatCode

/-!
# C79: the bootstrapping drivers in binary64, from the key to the printed numbers
-/

namespace EvalRound
open Z_Q Finset

/-! ## the numbers printed -/

/-- C79: `print_max_error` in binary64 finds the largest difference, up to one rounding. -/
theorem C79_max_err {H : Nat} (x y : Fin H → ℝ) (h : ∀ i, |x i - y i| ≤ 2^1020) :
    Ok (max_errF x y) fun m => |m - max_err x y| ≤ 1/2^53 * max_err x y + 1/2^1075 := by
  have hm := forFin_max (fun i => |x i - y i|) (fun i => abs_nonneg _) (fun i m => max m |x i - y i|) (fun i m => rfl)
  rw [← uF_eq, ← etaF_eq]
  unfold max_errF max_err
  refine forUp_maxF (a := fun i => |x i - y i|) (fun i => abs_nonneg _) uF_pos.le etaF_pos.le (fun i hi m h0 => ?_) hm.1 hm.2.1 hm.2.2
  rw [rd_of_lt _ hi, pure_bind, rd_of_lt _ hi, pure_bind]
  refine Ok.bind (fl_near (h ⟨i, hi⟩)) fun d hd => Ok.pure ⟨|d|, abs_nonneg _, rfl, ?_⟩
  exact (abs_abs_sub_abs_le_abs_sub _ _).trans hd

section
variable {LF LT N : Nat} [NeZero LF] [NeZero LT]

/-- C79: both drivers compute the same number, rounding included. -/
theorem C79_norm_low (Delta : W) (pt : R_Q LF N) (pt_out : R_Q LT N) : e_sup_norm_lowF Delta pt pt_out = e_sup_normF Delta pt pt_out := by
  unfold e_sup_norm_lowF e_sup_normF
  dsimp only
  congr 1
  funext i mx
  congr 1
  funext x
  obtain ⟨r, e, h, -⟩ := toDoubleF_abs x
  rw [e, h, pure_bind, pure_bind]

/-- C79: and it is the number of exact arithmetic up to a relative error of `2^-51`. -/
theorem C79_norm (Delta : W) (hD : Delta ≠ 0) (pt : R_Q LF N) (pt_out : R_Q LT N) :
    Ok (e_sup_normF Delta pt pt_out) fun m => |m - e_sup_norm Delta pt pt_out| ≤ 1/2^51 * e_sup_norm Delta pt pt_out + 1/2^1075 := by
  have hm := forFin_max (fun i => (((if (copy (R_Q.sub (R_Q.resize LT pt) pt_out i)).is_bigger_than_halfQ then
      negate (copy (R_Q.sub (R_Q.resize LT pt) pt_out i)) else copy (R_Q.sub (R_Q.resize LT pt) pt_out i)).data (bot LT)).toNat : ℝ) / (Delta.toNat : ℝ))
    (fun i => by positivity) (fun i mx => if (((if (copy (R_Q.sub (R_Q.resize LT pt) pt_out i)).is_bigger_than_halfQ then
      negate (copy (R_Q.sub (R_Q.resize LT pt) pt_out i)) else copy (R_Q.sub (R_Q.resize LT pt) pt_out i)).data (bot LT)).toNat : ℝ) / (Delta.toNat : ℝ) > mx then
      (((if (copy (R_Q.sub (R_Q.resize LT pt) pt_out i)).is_bigger_than_halfQ then
      negate (copy (R_Q.sub (R_Q.resize LT pt) pt_out i)) else copy (R_Q.sub (R_Q.resize LT pt) pt_out i)).data (bot LT)).toNat : ℝ) / (Delta.toNat : ℝ) else mx)
      (fun i m => ite_max _ _)
  rw [← (C56_norm Delta pt pt_out).2.2, show (1:ℝ)/2^51 = 4 * uF by rw [uF_eq]; norm_num, ← etaF_eq]
  unfold e_sup_normF e_sup_norm_low
  refine forUp_maxF (fun i => by positivity) (mul_nonneg (by norm_num) uF_pos.le) etaF_pos.le (fun i hi m h0 => ?_) hm.1 hm.2.1 hm.2.2
  rw [rd_of_lt _ hi, pure_bind]
  obtain ⟨r, e, -, hr⟩ := toDoubleF_abs (R_Q.sub (R_Q.resize LT pt) pt_out ⟨i, hi⟩)
  rw [e, pure_bind]
  refine Ok.bind (divDeltaF_near (Nat.cast_nonneg _) (by exact_mod_cast (BitVec.isLt _).le) (abs_nonneg _) hr hD) fun a ⟨ha0, ha⟩ =>
    Ok.pure ⟨a, ha0, ite_max _ _, ha⟩

end

/-- C79: a driver would print the sup norm of a difference of `2^53+1` as that of `2^53`: the last bit is lost. -/
theorem C79_norm_rounded : ∃ (pt : R_Q 60 2) (pt_out : R_Q 290 2), e_sup_norm 1 pt pt_out = 2^53 + 1 ∧ e_sup_normF 1 pt pt_out = pure (2^53) := by
  have hs : ∀ k : Fin 2, (Z_Q.sub (Z_Q.resize 290 ((fun _ => Z_Q.ofNat 60 (2^53+1) : R_Q 60 2) k)) ((fun _ => setzero : R_Q 290 2) k)).sval = 2^53+1 := by
    intro k
    show (Z_Q.sub (Z_Q.resize 290 (Z_Q.ofNat 60 (2^53+1))) (setzero : Z_Q 290)).sval = 2^53+1
    decide +kernel
  have hw : ((if (copy (Z_Q.sub (Z_Q.resize 290 (Z_Q.ofNat 60 (2^53+1))) (setzero : Z_Q 290))).is_bigger_than_halfQ then
      negate (copy (Z_Q.sub (Z_Q.resize 290 (Z_Q.ofNat 60 (2^53+1))) (setzero : Z_Q 290))) else
      copy (Z_Q.sub (Z_Q.resize 290 (Z_Q.ofNat 60 (2^53+1))) (setzero : Z_Q 290))).data (bot 290)).toNat = 2^53+1 := by decide +kernel
  refine ⟨fun _ => Z_Q.ofNat 60 (2^53+1), fun _ => setzero, ?_, ?_⟩
  · obtain ⟨-, h2, -⟩ := C56_norm 1 (fun _ => Z_Q.ofNat 60 (2^53+1) : R_Q 60 2) (fun _ => setzero : R_Q 290 2)
    obtain ⟨k, hk⟩ := h2 (by norm_num)
    rw [hk]
    simp only [hs k, show ((1 : W).toNat : ℕ) = 1 from rfl]
    norm_num
  · rw [← C79_norm_low]
    have hd : divDeltaF (2^53) 1 = pure (2^53) := by
      unfold divDeltaF
      have e1 : fl (((1 : W).toNat : ℕ) : ℝ) = pure 1 := by
        rw [show ((1 : W).toNat : ℕ) = 1 from rfl]
        exact_mod_cast C74_word (w := 1) (by norm_num)
      rw [e1, pure_bind, if_neg one_ne_zero, div_one]
      have := C74_word (w := 2^53) (le_refl _)
      exact_mod_cast this
    have h := forUp_inv (lo := 0) (hi := 2) (s := (0:ℝ)) (by norm_num) (fun k m => m = if k = 0 then 0 else (2:ℝ)^53) rfl
      (body := fun i mx => do
        let x ← rd (R_Q.sub (R_Q.resize 290 (fun _ => Z_Q.ofNat 60 (2^53+1) : R_Q 60 2)) (fun _ => setzero : R_Q 290 2)) i
        let val := copy x
        let val := if val.is_bigger_than_halfQ then negate val else val
        let v ← fl ((val.data (bot 290)).toNat : ℝ)
        let a ← divDeltaF v 1
        pure (if a > mx then a else mx)) fun i m _ hi hm => by
          rw [rd_of_lt _ hi, pure_bind, R_Q.sub_eq]
          dsimp only
          have e : R_Q.resize 290 (fun _ => Z_Q.ofNat 60 (2^53+1) : R_Q 60 2) ⟨i, hi⟩ = Z_Q.resize 290 (Z_Q.ofNat 60 (2^53+1)) := rfl
          rw [e, hw, fl_odd53, pure_bind, hd, pure_bind]
          refine Ok.pure ?_
          rw [hm, if_neg (Nat.succ_ne_zero _)]
          split_ifs <;> first | rfl | (exfalso; simp_all)
    obtain ⟨r, er, hr⟩ := h
    rw [if_neg (by norm_num)] at hr
    rw [← hr]
    exact er

/-! ## the message -/

/-- C79: the test message, the exact one up to 12 units of `2^-53`. -/
theorem C79_test_message {L : Libm} (hL : L.Accurate) {LOGN : Nat} (hn : LOGN ≤ 27) :
    Ok (set_test_messageF L LOGN) fun z => ∀ i : Fin (2^(LOGN-1)),
      ‖(⟨z.1 i, z.2 i⟩ : ℂ) - ⟨(set_test_message LOGN).1 i, (set_test_message LOGN).2 i⟩‖ ≤ 12/2^53 ∧ ‖(⟨z.1 i, z.2 i⟩ : ℂ)‖ ≤ 1 := by
  refine Ok.mono (test_messageF_near hL hn) fun z hz i => ?_
  obtain ⟨h1, h2⟩ := hz i
  have hu := uF_pos
  have k : ‖(⟨z.1 i, z.2 i⟩ : ℂ) - ⟨(set_test_message LOGN).1 i, (set_test_message LOGN).2 i⟩‖ ≤ 12/2^53 := by
    have e : (12:ℝ)/2^53 = 12 * uF := by rw [uF_eq]; norm_num
    rw [e, Complex.norm_def, Real.sqrt_le_left (by positivity), Complex.normSq_apply]
    simp only [Complex.sub_re, Complex.sub_im]
    have a1 := sq_le_sq' (abs_le.1 h1).1 (abs_le.1 h1).2
    have a2 := sq_le_sq' (abs_le.1 h2).1 (abs_le.1 h2).2
    nlinarith [sq_nonneg uF]
  refine ⟨k, ?_⟩
  have k2 := test_message_norm' LOGN i
  have k3 := norm_add_le ((⟨z.1 i, z.2 i⟩ : ℂ) - ⟨(set_test_message LOGN).1 i, (set_test_message LOGN).2 i⟩) ⟨(set_test_message LOGN).1 i, (set_test_message LOGN).2 i⟩
  rw [sub_add_cancel] at k3
  have : (12:ℝ)/2^53 ≤ 0.1 := by norm_num
  linarith

/-! ## the whole run -/

/-- a fresh ciphertext decrypts to the plaintext up to 8 -/
theorem fresh_decF {L : Libm} (hL : L.Accurate) (R : Nat) {LOGN : Nat} (h1 : 2 ≤ LOGN) (h2 : LOGN ≤ 27) {z : CVec LOGN}
    (hz : ∀ i : Fin (2^(LOGN-1)), ‖(⟨z.1 i, z.2 i⟩ : ℂ)‖ ≤ 1) {ct0 : R_Q_square 60 (2^LOGN)} {ω1 ω2 : Rng}
    {s : Fin (2^LOGN) → Int} (hs : ∀ k, s k = -1 ∨ s k = 0 ∨ s k = 1) {pt : R_Q 60 (2^LOGN)} {ct : R_Q_square 60 (2^LOGN)}
    (ept : encodeF L 60 z (BitVec.ofNat 64 (2^50)) = pure pt) (ect : enc R pt s ct0 ω1 = pure (ct, ω2)) :
    ct.Canonical ∧ ∃ m, dec ct s = pure m ∧ (∀ k, |(m k).sval - (pt k).sval| ≤ 8) ∧ ∀ k, |(m k).sval| ≤ 2^51 := by
  obtain ⟨n, rfl⟩ : ∃ n, LOGN = n + 1 := ⟨LOGN - 1, by omega⟩
  have hN : 2^(n+1) ≤ 2^30 := Nat.pow_le_pow_right (by norm_num) (by omega)
  have hδ : (((BitVec.ofNat 64 (2^50)).toNat : ℕ) : ℝ) = 2^50 := toNat_scale (by norm_num)
  obtain ⟨pt', ept', mz, y, hmz, hy, hl⟩ := encodeF_l2 (n := n) (Q := 60) hL (by omega) (by omega) z (BitVec.ofNat 64 (2^50))
    (scale_ne_zero (by norm_num)) (B := 1) hz (by rw [hδ]; norm_num) (by rw [hδ]; norm_num)
  obtain rfl := pure_inj (ept.symm.trans ept')
  rw [hδ] at hl
  obtain ⟨ct', ect', hct, e, he, hph⟩ := enc_spec R hN hs pt ct0 ω1
  obtain rfl := pure_inj (ect.symm.trans ect')
  obtain ⟨m, edm, hmc, hm⟩ := dec_spec hN hs ct
  have hpi : ∀ k, |(pt k).sval| ≤ 2^50 + 2^20 := by
    intro k
    have h3 := code_size (by omega) hz hmz hl (hy k).2
    have h4 : |((pt k).sval : ℝ)| ≤ 2^50 + 2^20 := h3.trans (by norm_num)
    exact_mod_cast h4
  have hms : ∀ k, (m k).sval = (pt k).sval + e k := by
    intro k
    have h3 := abs_le.1 (hpi k)
    have h4 := abs_le.1 (he k)
    refine sval_eq_of_cls (L := 60) ?_ (by norm_num; omega) (by norm_num; omega)
    have h5 := congrFun (hm.trans hph) k
    rw [show (m k).cls = R_Q.cls m k from rfl, h5]
    show (pt k).cls + ((e k : ℤ) : ZMod (2^60)) = _
    rw [← sval_cls, Int.cast_add]
  refine ⟨hct, m, edm, fun k => ?_, fun k => ?_⟩
  · rw [hms k, add_sub_cancel_left]; exact he k
  · have h3 := abs_le.1 (hpi k)
    have h4 := abs_le.1 (he k)
    rw [hms k, abs_le]
    constructor <;> omega

/-- the range of the raised message of a fresh ciphertext, for keys of weight at most 45 -/
theorem fresh_rangeF {L : Libm} (hL : L.Accurate) (R : Nat) {LOGN QT : Nat} [NeZero QT] (h1 : 2 ≤ LOGN) (h2 : LOGN ≤ 27) (hq : 66 ≤ QT) {z : CVec LOGN}
    (hz : ∀ i : Fin (2^(LOGN-1)), ‖(⟨z.1 i, z.2 i⟩ : ℂ)‖ ≤ 1) {ct0 : R_Q_square 60 (2^LOGN)} {ω1 : Rng}
    {s : Fin (2^LOGN) → Int} (hs : ∀ k, s k = -1 ∨ s k = 0 ∨ s k = 1) (hh : (univ.filter fun k => s k ≠ 0).card ≤ 45)
    (pt : R_Q 60 (2^LOGN)) (ct : R_Q_square 60 (2^LOGN)) (ω2 : Rng) (M : R_Q QT (2^LOGN))
    (ept : encodeF L 60 z (BitVec.ofNat 64 (2^50)) = pure pt) (ect : enc R pt s ct0 ω1 = pure (ct, ω2))
    (eM : dec (mod_raise QT ct) s = pure M) (k : Fin (2^LOGN)) :
    -237 * 2^60 ≤ 10 * (M k).sval ∧ 10 * (M k).sval ≤ 242 * 2^60 := by
  have hN : 2^LOGN ≤ 2^30 := Nat.pow_le_pow_right (by norm_num) (by omega)
  obtain ⟨hct, m, hm, -, hB⟩ := fresh_decF hL R h1 h2 hz hs ept ect
  obtain ⟨M', hM', hr⟩ := raised_range hN hq hs hh hct hm hB
  obtain rfl := pure_inj (eM.symm.trans hM')
  exact hr k

theorem slot_num {n : Nat} (hn : n ≤ 26) {E : ℝ} (hE : 2^35 ≤ E) :
    2 * (E + 17/2) * 2^n / 2^50 * (1 + 1/2^40) + Real.sqrt 2 ^ n * ((56 * n + 15) * uF * 1) + 1/2^900 ≤ 2^(n+1) * E / 2^50 * (1 + 1/2^25) := by
  have hn' : (n:ℝ) ≤ 26 := by exact_mod_cast hn
  have hP : (1:ℝ) ≤ 2^n := one_le_pow₀ (by norm_num)
  have h2 : Real.sqrt 2 ^ n ≤ 2^n := pow_le_pow_left₀ (Real.sqrt_nonneg _) (by linarith [sqrt2_bounds.2]) n
  have h9 : (1:ℝ)/2^900 ≤ 1/2^60 := one_div_le_one_div_of_le (by positivity) (pow_le_pow_right₀ (by norm_num) (by norm_num))
  have hu : (56 * n + 15) * uF * 1 ≤ 1/2^42 := by
    have : (56 * (n:ℝ) + 15) * uF ≤ 1471 * uF := mul_le_mul_of_nonneg_right (by linarith) uF_pos.le
    rw [uF_eq] at this ⊢
    norm_num at this ⊢
    linarith
  have h3 : Real.sqrt 2 ^ n * ((56 * n + 15) * uF * 1) ≤ 2^n * (1/2^42) :=
    mul_le_mul h2 hu (by have := uF_pos; positivity) (by positivity)
  rw [show (2:ℝ)^(n+1) = 2^n * 2 from pow_succ _ _]
  generalize (2:ℝ)^n = P at *
  generalize Real.sqrt 2 ^ n * ((56 * n + 15) * uF * 1) = X at *
  generalize (1:ℝ)/2^900 = Y at *
  have h4 : 2^35 * P ≤ E * P := mul_le_mul_of_nonneg_right hE (by linarith)
  have h5 : 2 * (E + 17/2) * P / 2^50 * (1 + 1/2^40) = 2 * (E * P) / 2^50 * (1 + 1/2^40) + 17 * P / 2^50 * (1 + 1/2^40) := by ring
  have h6 : P * 2 * E / 2^50 * (1 + 1/2^25) = 2 * (E * P) / 2^50 * (1 + 1/2^25) := by ring
  rw [h5, h6]
  generalize E * P = F at *
  norm_num at *
  linarith

theorem le_2_60 {E : ℝ} (h : E ≤ 2^47) : E + 17/2 ≤ 2^60 := by
  norm_num at h ⊢
  linarith

theorem norm_num_le {E w en η : ℝ} (h0 : 2^35 ≤ E) (h1 : w ≤ (E + 8) / 2^50) (h2 : en - w ≤ 1/2^51 * w + η) (h3 : η ≤ 1/2^60) :
    en ≤ E / 2^50 * (1 + 1/2^20) := by
  norm_num at *
  linarith

set_option maxHeartbeats 1000000 in
/-- The end of a driver: the decoding and the printed numbers, for a plaintext `mo` that is the encoding `pt` of `z` up to `E + 8`. -/
theorem driver_tailF {L : Libm} (hL : L.Accurate) {n QS : Nat} [NeZero QS] (h1 : 1 ≤ n) (h2 : n ≤ 26) (hQ : QS ≤ 2^29) (hQ' : 65 ≤ QS)
    (z : CVec (n+1)) (hz : ∀ i : Fin (2^n), ‖(⟨z.1 i, z.2 i⟩ : ℂ)‖ ≤ 1) {pt : R_Q 60 (2^(n+1))}
    (ept : encodeF L 60 z (BitVec.ofNat 64 (2^50)) = pure pt) {mo : R_Q QS (2^(n+1))} (hmoc : mo.Canonical)
    {E : ℕ} (hE0 : 2^35 ≤ E) (hE : E ≤ 2^47) (hd : ∀ k, |(mo k).sval - (pt k).sval| ≤ E + 8) :
    Ok (do
      let z_out ← decode_logF L mo 50
      let re ← max_errF z.1 z_out.1
      let im ← max_errF z.2 z_out.2
      let e ← e_sup_normF (BitVec.ofNat 64 (2^50)) pt mo
      let el ← e_sup_norm_lowF (BitVec.ofNat 64 (2^50)) pt mo
      pure (⟨z_out, re, im, e, el⟩ : DriverOut (n+1))) fun o =>
      (∀ i : Fin (2^n), ‖(⟨o.z_out.1 i, o.z_out.2 i⟩ : ℂ) - ⟨z.1 i, z.2 i⟩‖ ≤ 2^(n+1) * E / 2^50 * (1 + 1/2^20)) ∧
      o.max_err_real ≤ 2^(n+1) * E / 2^50 * (1 + 1/2^20) ∧ o.max_err_imag ≤ 2^(n+1) * E / 2^50 * (1 + 1/2^20) ∧
      o.e_norm ≤ E / 2^50 * (1 + 1/2^20) ∧ o.e_norm_low = o.e_norm := by
  have hN : 2^(n+1) ≤ 2^30 := Nat.pow_le_pow_right (by norm_num) (by omega)
  have hδ : (((BitVec.ofNat 64 (2^50)).toNat : ℕ) : ℝ) = 2^50 := toNat_scale (by norm_num)
  have hne : BitVec.ofNat 64 (2^50) ≠ 0 := scale_ne_zero (by norm_num)
  obtain ⟨pt', ept', mz, y, hmz, hy, hl⟩ := encodeF_l2 (n := n) (Q := 60) hL (by omega) (by omega) z (BitVec.ofNat 64 (2^50))
    hne (B := 1) hz (by rw [hδ]; norm_num) (by rw [hδ]; norm_num)
  obtain rfl := pure_inj (ept.symm.trans ept')
  rw [hδ] at hl
  have hE' : (E : ℤ) ≤ 2^47 := by exact_mod_cast hE
  have hEr : (E : ℝ) ≤ 2^47 := by exact_mod_cast hE
  have hEr0 : (2:ℝ)^35 ≤ E := by exact_mod_cast hE0
  refine Ok.bind (code_out (n := n) (D := 50) hL h1 h2 hQ (by norm_num) hz (by norm_num) hmz hl mo hmoc (E := E + 17/2) (fun k => ?_) ?_)
    fun zo hzo => ?_
  · have h3 : |((mo k).sval : ℝ) - (pt k).sval| ≤ E + 8 := by exact_mod_cast hd k
    have h4 := (hy k).2
    have h5 := abs_add_le (((mo k).sval : ℝ) - (pt k).sval) ((pt k).sval - y k)
    rw [sub_add_sub_cancel] at h5
    linarith
  · exact le_2_60 hEr
  have hmain : ∀ i : Fin (2^n), ‖(⟨zo.1 i, zo.2 i⟩ : ℂ) - ⟨z.1 i, z.2 i⟩‖ ≤ 2^(n+1) * E / 2^50 * (1 + 1/2^25) :=
    fun i => (hzo i).trans (slot_num h2 hEr0)
  obtain ⟨T, hT⟩ : ∃ T : ℝ, T = 2^(n+1) * E / 2^50 := ⟨_, rfl⟩
  have hP1 : (1:ℝ) ≤ 2^(n+1) := one_le_pow₀ (by norm_num)
  have hP2 : (2:ℝ)^(n+1) ≤ 2^30 := by exact_mod_cast hN
  have hT1 : 1/2^15 ≤ T := by
    have : 1 * (2:ℝ)^35 ≤ 2^(n+1) * E := mul_le_mul hP1 hEr0 (by positivity) (by positivity)
    rw [hT, le_div_iff₀ (by positivity)]
    exact le_trans (by norm_num) this
  have hT2 : T ≤ 2^40 := by
    rw [hT, div_le_iff₀ (by positivity)]
    exact (mul_le_mul hP2 hEr (Nat.cast_nonneg _) (by positivity)).trans (by norm_num)
  rw [← hT] at hmain ⊢
  have hre : ∀ i : Fin (2^n), |z.1 i - zo.1 i| ≤ T * (1 + 1/2^25) ∧ |z.2 i - zo.2 i| ≤ T * (1 + 1/2^25) := by
    intro i
    have h3 := Complex.abs_re_le_norm ((⟨zo.1 i, zo.2 i⟩ : ℂ) - ⟨z.1 i, z.2 i⟩)
    have h4 := Complex.abs_im_le_norm ((⟨zo.1 i, zo.2 i⟩ : ℂ) - ⟨z.1 i, z.2 i⟩)
    rw [abs_sub_comm (z.1 i), abs_sub_comm (z.2 i)]
    exact ⟨h3.trans (hmain i), h4.trans (hmain i)⟩
  have hT3 : T * (1 + 1/2^25) ≤ 2^50 := by norm_num at hT2 ⊢; linarith
  have hT4 : T * (1 + 1/2^25) ≤ 2^1020 := big_le (by norm_num) hT3
  have hp : 0 < 2^n := by positivity
  have hη : (1:ℝ)/2^1075 ≤ 1/2^60 := one_div_le_one_div_of_le (by positivity) (pow_le_pow_right₀ (by norm_num) (by norm_num))
  have hmx : ∀ x y : Fin (2^n) → ℝ, (∀ i, |x i - y i| ≤ T * (1 + 1/2^25)) → Ok (max_errF x y) fun m => m ≤ T * (1 + 1/2^20) := by
    intro x y hxy
    refine Ok.mono (C79_max_err x y fun i => (hxy i).trans hT4) fun m hm => ?_
    obtain ⟨i, hi⟩ := (C56_max_err x y).2 hp
    have a1 : max_err x y ≤ T * (1 + 1/2^25) := by rw [hi]; exact hxy i
    have a2 := (abs_le.1 hm).2
    clear hT4 hm
    generalize (1:ℝ)/2^1075 = η at *
    generalize max_err x y = w at *
    norm_num at *
    linarith
  refine Ok.bind (hmx z.1 zo.1 fun i => (hre i).1) fun re hre' => ?_
  refine Ok.bind (hmx z.2 zo.2 fun i => (hre i).2) fun im him' => ?_
  rw [C79_norm_low]
  obtain ⟨en, een, hen⟩ := C79_norm (BitVec.ofNat 64 (2^50)) hne pt mo
  rw [een, pure_bind, pure_bind]
  refine Ok.pure ⟨fun i => (hmain i).trans ?_, hre', him', ?_, rfl⟩
  · have : 0 ≤ T := le_trans (by positivity) hT1
    exact mul_le_mul_of_nonneg_left (by norm_num) this
  have hq : (2:ℤ)^64 ≤ 2^(QS-1) := pow_le_pow_right₀ (by norm_num) (by omega)
  have hsv : ∀ k, (Z_Q.sub (Z_Q.resize QS (pt k)) (mo k)).sval = (pt k).sval - (mo k).sval := by
    intro k
    have h3 := abs_le.1 (hd k)
    refine sval_eq_of_cls ?_ (by omega) (by omega)
    rw [cls_sub, cls_resize (hy k).1, Int.cast_sub, sval_cls (mo k)]
  obtain ⟨k, hk⟩ := (C56_norm_true (BitVec.ofNat 64 (2^50)) pt mo (fun k => by
    rw [hsv k, abs_sub_comm]
    have := hd k
    omega)).2 (by positivity)
  have h3 : |(((pt k).sval - (mo k).sval : ℤ) : ℝ)| ≤ E + 8 := by
    have := hd k
    rw [abs_sub_comm] at this
    exact_mod_cast this
  rw [hδ, hsv k] at hk
  have a1 : e_sup_norm (BitVec.ofNat 64 (2^50)) pt mo ≤ (E + 8) / 2^50 := by
    rw [hk]; gcongr
  have a2 := (abs_le.1 hen).2
  show en ≤ _
  exact norm_num_le hEr0 a1 a2 hη

set_option maxHeartbeats 1000000 in
/-- The run of a driver around any `boot` that keeps the message up to `E`. -/
theorem driver_runF {L : Libm} (hL : L.Accurate) (R : Nat) {H : Int} {n QS : Nat} [NeZero QS] (h1 : 1 ≤ n) (h2 : n ≤ 26) (hQ : QS ≤ 2^29) (hQ' : 65 ≤ QS)
    (z : CVec (n+1)) (hz : ∀ i : Fin (2^n), ‖(⟨z.1 i, z.2 i⟩ : ℂ)‖ ≤ 1)
    (boot : R_Q_square 60 (2^(n+1)) → (Fin (2^(n+1)) → Int) → Rng → M (R_Q_square QS (2^(n+1)) × Rng))
    (ct0 : R_Q_square 60 (2^(n+1))) (ω ω1 : Rng) (s : Fin (2^(n+1)) → Int) (hs : ∀ k, s k = -1 ∨ s k = 0 ∨ s k = 1)
    (hk : keygen (2^(n+1)) H ω = pure (s, ω1)) {E : ℕ} (hE0 : 2^35 ≤ E) (hE : E ≤ 2^47)
    (hb : ∀ pt ct ω2 m, encodeF L 60 z (BitVec.ofNat 64 (2^50)) = pure pt → enc R pt s ct0 ω1 = pure (ct, ω2) → ct.Canonical →
      dec ct s = pure m → (∀ k, |(m k).sval| ≤ 2^51) →
      Ok (boot ct s ω2 >>= fun p => dec p.1 s) fun m' => ∀ k, |(m' k).sval - (m k).sval| ≤ E) :
    Ok (bootDriverF L R H z boot ct0 ω) fun o =>
      (∀ i : Fin (2^n), ‖(⟨o.z_out.1 i, o.z_out.2 i⟩ : ℂ) - ⟨z.1 i, z.2 i⟩‖ ≤ 2^(n+1) * E / 2^50 * (1 + 1/2^20)) ∧
      o.max_err_real ≤ 2^(n+1) * E / 2^50 * (1 + 1/2^20) ∧ o.max_err_imag ≤ 2^(n+1) * E / 2^50 * (1 + 1/2^20) ∧
      o.e_norm ≤ E / 2^50 * (1 + 1/2^20) ∧ o.e_norm_low = o.e_norm := by
  have hN : 2^(n+1) ≤ 2^30 := Nat.pow_le_pow_right (by norm_num) (by omega)
  have hδ : (((BitVec.ofNat 64 (2^50)).toNat : ℕ) : ℝ) = 2^50 := toNat_scale (by norm_num)
  unfold bootDriverF
  rw [hk, pure_bind, show shl1 50 = pure (BitVec.ofNat 64 (2^50)) from rfl, pure_bind]
  obtain ⟨pt, ept, -⟩ := encodeF_l2 (n := n) (Q := 60) hL (by omega) (by omega) z (BitVec.ofNat 64 (2^50))
    (scale_ne_zero (by norm_num)) (B := 1) hz (by rw [hδ]; norm_num) (by rw [hδ]; norm_num)
  obtain ⟨⟨ct, ω2⟩, ect, -⟩ := enc_spec R hN hs pt ct0 ω1
  obtain ⟨hct, m, edm, hms, hmB⟩ := fresh_decF hL R (by omega) (by omega) hz hs ept ect
  obtain ⟨mo, emo, hmo⟩ := hb pt ct ω2 m ept ect hct edm hmB
  obtain ⟨⟨cb, ω3⟩, ecb, emo⟩ := bind_eq_pure emo
  obtain ⟨mo', emo', hmoc, -⟩ := dec_spec hN hs cb
  obtain rfl := pure_inj (emo.symm.trans emo')
  rw [ept, pure_bind, ect, pure_bind]
  show Ok (boot ct s ω2 >>= _) _
  rw [ecb, pure_bind]
  show Ok (dec cb s >>= _) _
  rw [emo, pure_bind]
  refine driver_tailF hL h1 h2 hQ hQ' z hz ept hmoc hE0 hE fun k => ?_
  have h3 := abs_le.1 (hmo k)
  have h4 := abs_le.1 (hms k)
  rw [abs_le]
  constructor <;> omega

section
variable {n QT Q0 Q1 Q2 Q3 Q4 Q5 Q6 Q7 Q8 Q9 Q10 Q11 Q12 QS : Nat} [NeZero QT] [NeZero Q0] [NeZero Q1] [NeZero Q2] [NeZero Q3]
  [NeZero Q4] [NeZero Q5] [NeZero Q6] [NeZero Q7] [NeZero Q8] [NeZero Q9] [NeZero Q10] [NeZero Q11] [NeZero Q12] [NeZero QS]

/-- C79: the conventional driver in binary64. -/
theorem C79_conventional {L : LibmP} (hLib : L.Accurate) (R : Nat) {G b b' : Nat} (hp : BootParam2 n G b b')
    (hQ0 : QT = Q0 + n/G * 60) (hC : EvalModChain 60 Q0 Q1 Q2 Q3 Q4 Q5 Q6 Q7 Q8 Q9 Q10 Q11 Q12) (hQS : Q12 = QS + n/G * 50)
    (hlo : 65 ≤ QS) (hhi : QT ≤ 1525) (H : Int) (hH : H ≤ 128)
    (z : CVec (n+1)) (hz : ∀ i : Fin (2^n), ‖(⟨z.1 i, z.2 i⟩ : ℂ)‖ ≤ 1) (ct0 : R_Q_square 60 (2^(n+1))) (ω ω1 : Rng)
    (s : Fin (2^(n+1)) → Int) (hk : keygen (2^(n+1)) H ω = pure (s, ω1))
    (hr : ∀ pt ct ω2 M, encodeF L.toLibm 60 z (BitVec.ofNat 64 (2^50)) = pure pt → enc R pt s ct0 ω1 = pure (ct, ω2) →
      dec (mod_raise QT ct) s = pure M → ∀ k, -237 * 2^60 ≤ 10 * (M k).sval ∧ 10 * (M k).sval ≤ 242 * 2^60) :
    Ok (convDriverF L R 60 50 G H QT Q0 Q1 Q2 Q3 Q4 Q5 Q6 Q7 Q8 Q9 Q10 Q11 Q12 QS z ct0 ω) fun o =>
      (∀ i : Fin (2^n), ‖(⟨o.z_out.1 i, o.z_out.2 i⟩ : ℂ) - ⟨z.1 i, z.2 i⟩‖ ≤ 2^(n+1) * 2^b / 2^50 * (1 + 1/2^20)) ∧
      o.max_err_real ≤ 2^(n+1) * 2^b / 2^50 * (1 + 1/2^20) ∧ o.max_err_imag ≤ 2^(n+1) * 2^b / 2^50 * (1 + 1/2^20) ∧
      o.e_norm ≤ 2^b / 2^50 * (1 + 1/2^20) ∧ o.e_norm_low = o.e_norm := by
  have hn : 8 ≤ n ∧ n ≤ 16 ∧ b ≤ 47 ∧ 35 ≤ b := by rcases hp with ⟨rfl, rfl, rfl, rfl⟩ | ⟨rfl, rfl, rfl, rfl⟩ | ⟨rfl, rfl, rfl, rfl⟩ <;> norm_num
  have hN : 2^(n+1) ≤ 2^30 := Nat.pow_le_pow_right (by norm_num) (by omega)
  have hQS' : QS ≤ 1525 := by unfold EvalModChain at hC; omega
  obtain ⟨hs, hw⟩ := C19_keygen_weight H ω ω1 s hk
  have := driver_runF hLib.1 R (by omega) (by omega) (by omega) hlo z hz
    (bootConvF L R 60 60 50 G 24 QT Q0 Q1 Q2 Q3 Q4 Q5 Q6 Q7 Q8 Q9 Q10 Q11 Q12 QS) ct0 ω ω1 s hs hk
    (E := 2^b) (Nat.pow_le_pow_right (by norm_num) hn.2.2.2) (Nat.pow_le_pow_right (by norm_num) hn.2.2.1) (fun pt ct ω2 m e1 e2 hct hm hB => by
      obtain ⟨M, hM, -⟩ := dec_spec hN hs (mod_raise QT ct)
      have := C80_conventional_drivers hLib R hp hQ0 hC hQS hlo hhi s hs (by omega) ct hct m hm M hM hB (hr pt ct ω2 M e1 e2 hM) ω2
      exact_mod_cast this)
  exact_mod_cast this

/-- C79: the proposed driver in binary64. -/
theorem C79_proposed {L : LibmP} (hLib : L.Accurate) (R : Nat) {G b b' : Nat} (hp : BootParam2 n G b b')
    (hQ0 : QT = Q0 + n/G * 60) (hC : EvalModChain 60 Q0 Q1 Q2 Q3 Q4 Q5 Q6 Q7 Q8 Q9 Q10 Q11 Q12) (hQS : Q12 = QS + n/G * 60)
    (hlo : 65 ≤ QS) (hhi : QT ≤ 1525) (H : Int) (hH : H ≤ 128)
    (z : CVec (n+1)) (hz : ∀ i : Fin (2^n), ‖(⟨z.1 i, z.2 i⟩ : ℂ)‖ ≤ 1) (ct0 : R_Q_square 60 (2^(n+1))) (ω ω1 : Rng)
    (s : Fin (2^(n+1)) → Int) (hk : keygen (2^(n+1)) H ω = pure (s, ω1))
    (hr : ∀ pt ct ω2 M, encodeF L.toLibm 60 z (BitVec.ofNat 64 (2^50)) = pure pt → enc R pt s ct0 ω1 = pure (ct, ω2) →
      dec (mod_raise QT ct) s = pure M → ∀ k, -237 * 2^60 ≤ 10 * (M k).sval ∧ 10 * (M k).sval ≤ 242 * 2^60) :
    Ok (propDriverF L R 60 60 G H QT Q0 Q1 Q2 Q3 Q4 Q5 Q6 Q7 Q8 Q9 Q10 Q11 Q12 QS z ct0 ω) fun o =>
      (∀ i : Fin (2^n), ‖(⟨o.z_out.1 i, o.z_out.2 i⟩ : ℂ) - ⟨z.1 i, z.2 i⟩‖ ≤ 2^(n+1) * 2^b' / 2^50 * (1 + 1/2^20)) ∧
      o.max_err_real ≤ 2^(n+1) * 2^b' / 2^50 * (1 + 1/2^20) ∧ o.max_err_imag ≤ 2^(n+1) * 2^b' / 2^50 * (1 + 1/2^20) ∧
      o.e_norm ≤ 2^b' / 2^50 * (1 + 1/2^20) ∧ o.e_norm_low = o.e_norm := by
  have hn : 8 ≤ n ∧ n ≤ 16 ∧ b' ≤ 47 ∧ 35 ≤ b' := by rcases hp with ⟨rfl, rfl, rfl, rfl⟩ | ⟨rfl, rfl, rfl, rfl⟩ | ⟨rfl, rfl, rfl, rfl⟩ <;> norm_num
  have hN : 2^(n+1) ≤ 2^30 := Nat.pow_le_pow_right (by norm_num) (by omega)
  have hQS' : QS ≤ 1525 := by unfold EvalModChain at hC; omega
  obtain ⟨hs, hw⟩ := C19_keygen_weight H ω ω1 s hk
  have := driver_runF hLib.1 R (by omega) (by omega) (by omega) hlo z hz
    (bootPropF L R 60 60 60 G 24 QT Q0 Q1 Q2 Q3 Q4 Q5 Q6 Q7 Q8 Q9 Q10 Q11 Q12 QS) ct0 ω ω1 s hs hk
    (E := 2^b') (Nat.pow_le_pow_right (by norm_num) hn.2.2.2) (Nat.pow_le_pow_right (by norm_num) hn.2.2.1) (fun pt ct ω2 m e1 e2 hct hm hB => by
      obtain ⟨M, hM, -⟩ := dec_spec hN hs (mod_raise QT ct)
      have := C80_proposed_drivers hLib R hp hQ0 hC hQS hlo hhi s hs (by omega) ct hct m hm M hM hB (hr pt ct ω2 M e1 e2 hM) ω2
      exact_mod_cast this)
  exact_mod_cast this

/-- C79: with a key of at most 45 entries the range of the raised message need not be assumed; it is enough that the
random numbers reach every index, so that `keygen` returns. -/
theorem C79_sparse {L : LibmP} (hLib : L.Accurate) (R : Nat) {G b b' : Nat} (hp : BootParam2 n G b b')
    (hQ0 : QT = Q0 + n/G * 60) (hC : EvalModChain 60 Q0 Q1 Q2 Q3 Q4 Q5 Q6 Q7 Q8 Q9 Q10 Q11 Q12) (hQS : Q12 = QS + n/G * 50)
    (hlo : 65 ≤ QS) (hhi : QT ≤ 1525) (H : Int) (hH : H ≤ 45)
    (z : CVec (n+1)) (hz : ∀ i : Fin (2^n), ‖(⟨z.1 i, z.2 i⟩ : ℂ)‖ ≤ 1) (ct0 : R_Q_square 60 (2^(n+1))) (ω : Rng)
    (hω : ∀ (j : Fin (2^(n+1))) (l : Nat), ∃ m, l ≤ m ∧ ω m % 2^(n+1) = j) :
    Ok (convDriverF L R 60 50 G H QT Q0 Q1 Q2 Q3 Q4 Q5 Q6 Q7 Q8 Q9 Q10 Q11 Q12 QS z ct0 ω) fun o =>
      (∀ i : Fin (2^n), ‖(⟨o.z_out.1 i, o.z_out.2 i⟩ : ℂ) - ⟨z.1 i, z.2 i⟩‖ ≤ 2^(n+1) * 2^b / 2^50 * (1 + 1/2^20)) ∧
      o.max_err_real ≤ 2^(n+1) * 2^b / 2^50 * (1 + 1/2^20) ∧ o.max_err_imag ≤ 2^(n+1) * 2^b / 2^50 * (1 + 1/2^20) ∧
      o.e_norm ≤ 2^b / 2^50 * (1 + 1/2^20) ∧ o.e_norm_low = o.e_norm := by
  have hn : 8 ≤ n ∧ n ≤ 16 ∧ b ≤ 47 ∧ 35 ≤ b := by rcases hp with ⟨rfl, rfl, rfl, rfl⟩ | ⟨rfl, rfl, rfl, rfl⟩ | ⟨rfl, rfl, rfl, rfl⟩ <;> norm_num
  have hN' : 2^8 ≤ 2^(n+1) := Nat.pow_le_pow_right (by norm_num) (by omega)
  have hHN : H ≤ ((2^(n+1) : Nat) : Int) := by
    have : ((2^8 : Nat) : Int) ≤ ((2^(n+1) : Nat) : Int) := by exact_mod_cast hN'
    norm_num at this ⊢
    omega
  obtain ⟨⟨s, ω1⟩, hk, hs, hw⟩ := C19_keygen_returns H hHN ω hω
  exact C79_conventional hLib R hp hQ0 hC hQS hlo hhi H (by omega) z hz ct0 ω ω1 s hk
    (fresh_rangeF hLib.1 R (by omega) (by omega) (by unfold EvalModChain at hC; omega) hz hs (by rw [hw]; omega))

theorem C79_sparse_proposed {L : LibmP} (hLib : L.Accurate) (R : Nat) {G b b' : Nat} (hp : BootParam2 n G b b')
    (hQ0 : QT = Q0 + n/G * 60) (hC : EvalModChain 60 Q0 Q1 Q2 Q3 Q4 Q5 Q6 Q7 Q8 Q9 Q10 Q11 Q12) (hQS : Q12 = QS + n/G * 60)
    (hlo : 65 ≤ QS) (hhi : QT ≤ 1525) (H : Int) (hH : H ≤ 45)
    (z : CVec (n+1)) (hz : ∀ i : Fin (2^n), ‖(⟨z.1 i, z.2 i⟩ : ℂ)‖ ≤ 1) (ct0 : R_Q_square 60 (2^(n+1))) (ω : Rng)
    (hω : ∀ (j : Fin (2^(n+1))) (l : Nat), ∃ m, l ≤ m ∧ ω m % 2^(n+1) = j) :
    Ok (propDriverF L R 60 60 G H QT Q0 Q1 Q2 Q3 Q4 Q5 Q6 Q7 Q8 Q9 Q10 Q11 Q12 QS z ct0 ω) fun o =>
      (∀ i : Fin (2^n), ‖(⟨o.z_out.1 i, o.z_out.2 i⟩ : ℂ) - ⟨z.1 i, z.2 i⟩‖ ≤ 2^(n+1) * 2^b' / 2^50 * (1 + 1/2^20)) ∧
      o.max_err_real ≤ 2^(n+1) * 2^b' / 2^50 * (1 + 1/2^20) ∧ o.max_err_imag ≤ 2^(n+1) * 2^b' / 2^50 * (1 + 1/2^20) ∧
      o.e_norm ≤ 2^b' / 2^50 * (1 + 1/2^20) ∧ o.e_norm_low = o.e_norm := by
  have hn : 8 ≤ n ∧ n ≤ 16 ∧ b' ≤ 47 ∧ 35 ≤ b' := by rcases hp with ⟨rfl, rfl, rfl, rfl⟩ | ⟨rfl, rfl, rfl, rfl⟩ | ⟨rfl, rfl, rfl, rfl⟩ <;> norm_num
  have hN' : 2^8 ≤ 2^(n+1) := Nat.pow_le_pow_right (by norm_num) (by omega)
  have hHN : H ≤ ((2^(n+1) : Nat) : Int) := by
    have : ((2^8 : Nat) : Int) ≤ ((2^(n+1) : Nat) : Int) := by exact_mod_cast hN'
    norm_num at this ⊢
    omega
  obtain ⟨⟨s, ω1⟩, hk, hs, hw⟩ := C19_keygen_returns H hHN ω hω
  exact C79_proposed hLib R hp hQ0 hC hQS hlo hhi H (by omega) z hz ct0 ω ω1 s hk
    (fresh_rangeF hLib.1 R (by omega) (by omega) (by unfold EvalModChain at hC; omega) hz hs (by rw [hw]; omega))

end

/-- C79 is not vacuous: `bootstrap_test` with its test message and its moduli, a key of 45 entries, the stream
0, 1, 2, … and the exact functions of the reals for the mathematical library: the output differs from the message by less than 1/63 in every slot.
`C79_conventional` and `C79_proposed` are used in the sparse theorems, so these cases meet their hypotheses too. -/
example (ct0 : R_Q_square 60 (2^(8+1))) :
    Ok (do
      let z ← set_test_messageF exactLibmP.toLibm (8+1)
      let o ← convDriverF exactLibmP (2^31-1) 60 50 2 45 1450 1210 1150 1090 1030 970 910 850 790 730 670 610 550 490 290 z ct0 id
      pure (z, o)) fun p => ∀ i : Fin (2^8), ‖(⟨p.2.z_out.1 i, p.2.z_out.2 i⟩ : ℂ) - ⟨p.1.1 i, p.1.2 i⟩‖ ≤ 1/63 := by
  refine Ok.bind (C79_test_message exactLibmP_accurate.1 (by norm_num)) fun z hz => ?_
  refine Ok.bind (C79_sparse exactLibmP_accurate (n := 8) (QT := 1450) (QS := 290) (2^31-1) (Or.inl ⟨rfl, rfl, rfl, rfl⟩) (by norm_num)
    (by unfold EvalModChain; norm_num) (by norm_num) (by norm_num) (by norm_num) 45 (by norm_num) z
    (fun i => (hz i).2) ct0 id (fun j l => ⟨j + 2^(8+1) * l, by
      have : 1 ≤ 2^(8+1) := by norm_num
      nlinarith, ?_⟩)) fun o h => Ok.pure fun i => (h.1 i).trans (by norm_num)
  have := j.isLt
  simp only [id]
  rw [Nat.add_mul_mod_self_left, Nat.mod_eq_of_lt this]

/-- The same for the proposed driver. -/
example (ct0 : R_Q_square 60 (2^(8+1))) :
    Ok (do
      let z ← set_test_messageF exactLibmP.toLibm (8+1)
      let o ← propDriverF exactLibmP (2^31-1) 60 60 2 45 1450 1210 1150 1090 1030 970 910 850 790 730 670 610 550 490 250 z ct0 id
      pure (z, o)) fun p => ∀ i : Fin (2^8), ‖(⟨p.2.z_out.1 i, p.2.z_out.2 i⟩ : ℂ) - ⟨p.1.1 i, p.1.2 i⟩‖ ≤ 1/63 := by
  refine Ok.bind (C79_test_message exactLibmP_accurate.1 (by norm_num)) fun z hz => ?_
  refine Ok.bind (C79_sparse_proposed exactLibmP_accurate (n := 8) (QT := 1450) (QS := 250) (2^31-1) (Or.inl ⟨rfl, rfl, rfl, rfl⟩) (by norm_num)
    (by unfold EvalModChain; norm_num) (by norm_num) (by norm_num) (by norm_num) 45 (by norm_num) z
    (fun i => (hz i).2) ct0 id (fun j l => ⟨j + 2^(8+1) * l, by
      have : 1 ≤ 2^(8+1) := by norm_num
      nlinarith, ?_⟩)) fun o h => Ok.pure fun i => (h.1 i).trans (by norm_num)
  have := j.isLt
  simp only [id]
  rw [Nat.add_mul_mod_self_left, Nat.mod_eq_of_lt this]

end EvalRound

import Verif.Props.RaiseProb
import Verif.Props.FloatMeasure

/-!
# C104: end_to_end_test with its key of 128 entries, over the draws of the mask
-/

namespace EvalRound
open Finset Z_Q

/-- the product with the key has a coefficient of at least `T` -/
def Exceeds {N : Nat} (T : ℤ) (s : Fin N → Int) (a : R_Q 60 N) : Prop := ¬ ∀ k, |negconv s (R_Q.sval a) k| < T

open Classical in
/-- few polynomials have a product with a sparse key that exceeds a bound -/
theorem count_masks_bound {N : Nat} (hN : N ≤ 2^30) {s : Fin N → Int} (hs : Ternary s) {h : ℕ} (hh : (univ.filter fun k => s k ≠ 0).card ≤ h)
    {t : ℝ} (ht : 0 ≤ t) {T : ℤ} (hT : t * 2^60 + 2^29 ≤ (T:ℝ)) :
    ((univ.filter fun a : Fin N → Fin (2*2^(60-1)) => Exceeds T s (polyOf (LOGQ := 60) a)).card : ℝ) ≤
      2 * N * Real.exp (-(6 * t^2) / (h:ℝ)) * ((2*2^(60-1) : ℕ):ℝ)^N := by
  have hhN : (univ.filter fun k => s k ≠ 0).card ≤ N := (card_filter_le _ _).trans (by simp)
  have hsq := sq_sum_weight hs
  generalize (univ.filter fun k => s k ≠ 0).card = w at *
  have hc := count_large (2^(60-1)) (by positivity) (fun k => (s k : ℝ)) (12 * t / h) t (by positivity)
  rw [hsq] at hc
  have hexp : Real.exp ((w:ℝ) * (12 * t / h)^2/24 - 12 * t / h * t) ≤ Real.exp (-(6 * t^2) / (h:ℝ)) := by
    refine Real.exp_le_exp.2 ?_
    have hw : (w:ℝ) * (12 * t / h)^2 ≤ h * (12 * t / h)^2 := mul_le_mul_of_nonneg_right (by exact_mod_cast hh) (sq_nonneg _)
    refine le_trans (sub_le_sub_right (div_le_div_of_nonneg_right hw (by norm_num)) _) ?_
    rcases Nat.eq_zero_or_pos h with e | e
    · rw [e]; norm_num
    · have e' : (0:ℝ) < h := by exact_mod_cast e
      rw [show (h:ℝ) * (12 * t / h)^2/24 - 12 * t / h * t = -(6 * t^2) / h by field_simp; ring]
  refine le_trans ?_ (hc.trans ?_)
  · refine Nat.cast_le.2 (card_le_card fun a ha => ?_)
    have ha' := (mem_filter.1 ha).2
    unfold Exceeds at ha'
    push Not at ha'
    obtain ⟨k, hk⟩ := ha'
    refine mem_filter.2 ⟨mem_univ _, k, ?_⟩
    have e1 : ((negconv s (R_Q.sval (polyOf (LOGQ := 60) a)) k : ℤ) : ℝ) =
        ∑ j, convMat (fun k => (s k : ℝ)) k j * (centred (2^(60-1)) (a j) : ℝ) := by
      rw [negconv_comm]
      have := negconv_map (Int.castRingHom ℝ) (R_Q.sval (polyOf (LOGQ := 60) a)) s k
      simp only [eq_intCast] at this
      rw [this, negconv_mat]
      exact sum_congr rfl fun j _ => by rw [R_Q.sval, polyOf_sval]
    have e2 : ∑ j, convMat (fun k => (s k : ℝ)) k j * (((centred (2^(60-1)) (a j) : ℝ) + 1/2) / (2 * ((2^(60-1) : ℕ) : ℝ))) =
        ((negconv s (R_Q.sval (polyOf (LOGQ := 60) a)) k : ℤ) : ℝ) / 2^60 + (∑ j, convMat (fun k => (s k : ℝ)) k j) / 2^61 := by
      rw [e1, sum_div, sum_div, ← sum_add_distrib]
      refine sum_congr rfl fun j _ => ?_
      norm_num
      ring
    have e3 : |∑ j, convMat (fun k => (s k : ℝ)) k j| ≤ 2^30 := by
      refine (abs_sum_le_sum_abs _ _).trans ((sum_le_sum (g := fun j => convMat (fun k => (s k : ℝ)) k j ^ 2) fun j _ => ?_).trans ?_)
      · unfold convMat
        split
        · rcases hs ⟨k - j, by omega⟩ with h | h | h <;> simp only [h] <;> norm_num
        · rcases hs ⟨N + k - j, by omega⟩ with h | h | h <;> simp only [h] <;> norm_num
      · rw [convMat_sq, hsq]
        exact_mod_cast hhN.trans hN
    have hk' : (T : ℝ) ≤ |((negconv s (R_Q.sval (polyOf (LOGQ := 60) a)) k : ℤ) : ℝ)| := by
      rw [← Int.cast_abs]; exact_mod_cast hk
    have hk2 := hT.trans hk'
    rw [e2]
    have h1 := abs_sub_abs_le_abs_sub (((negconv s (R_Q.sval (polyOf (LOGQ := 60) a)) k : ℤ) : ℝ) / 2^60)
      (-((∑ j, convMat (fun k => (s k : ℝ)) k j) / 2^61))
    rw [sub_neg_eq_add, abs_neg, abs_div, abs_div, abs_of_pos (by positivity : (0:ℝ) < 2^60), abs_of_pos (by positivity : (0:ℝ) < 2^61)] at h1
    refine le_trans ?_ h1
    clear h1 e1 e2 hk hk' hc hexp hT
    generalize |((negconv s (R_Q.sval (polyOf (LOGQ := 60) a)) k : ℤ) : ℝ)| = X at *
    generalize |∑ j, convMat (fun k => (s k : ℝ)) k j| = Y at *
    norm_num at *
    linarith
  · exact mul_le_mul_of_nonneg_right (mul_le_mul_of_nonneg_left hexp (by positivity)) (by positivity)

/-- what the raised message is bounded by if the product of the key and the mask is bounded -/
theorem raised_small_of_mask {QT N : Nat} [NeZero QT] (hN : N ≤ 2^30) (hq : 66 ≤ QT) {s : Fin N → Int}
    (hs : Ternary s) {ct : R_Q_square 60 N} (hct : ct.Canonical)
    {m : R_Q 60 N} (hm : dec ct s = pure m) (hB : ∀ k, |(m k).sval| ≤ 2^51)
    (ha : ∀ k, |negconv s (R_Q.sval ct.2) k| < 31 * 2^59 - 2^51) {M : R_Q QT N}
    (hM : dec (mod_raise QT ct) s = pure M) (k : Fin N) : |(M k).sval| ≤ 15 * 2^60 + 2^51 := by
  obtain ⟨m', h1, _, h3⟩ := dec_spec hN hs ct
  obtain ⟨M', g1, _, g3⟩ := dec_spec hN hs (mod_raise QT ct)
  obtain rfl := pure_inj (hm.symm.trans h1)
  obtain rfl := pure_inj (hM.symm.trans g1)
  obtain ⟨I, hI, h⟩ := mod_raise_multiple (LT := QT) hct s (R_Q.sval m) (by rw [← cls_red_sval, h3])
  have h5 := hI k
  have h9 := abs_le.1 (abs_sval_le (ct.1 k))
  have h10 := abs_lt.1 (ha k)
  have h8 := abs_le.1 (hB k)
  have hp : (2:ℤ)^65 ≤ 2^(QT-1) := pow_le_pow_right₀ (by norm_num) (by omega)
  have e0 : R_Q.sval m k = (m k).sval := rfl
  rw [e0] at h5
  have h7 : -15 ≤ I k ∧ I k ≤ 15 := by
    norm_num at h5 h8 h9 h10
    omega
  have e : (M k).sval = (m k).sval + 2^60 * I k := by
    refine sval_eq_of_cls (t := (m k).sval + 2^60 * I k) (congrFun (g3.trans h) k) ?_ ?_
    · refine (neg_le_neg hp).trans ?_
      norm_num at h8 ⊢
      omega
    · refine lt_of_lt_of_le ?_ hp
      norm_num at h8 ⊢
      omega
  rw [e]
  refine abs_le.2 ?_
  norm_num at h8 ⊢
  omega

open Classical in
/-- C104: whatever the key with at most `h` nonzero entries, the message, the previous content of the ciphertext and the other random numbers, of the draws
that `enc` makes for the mask all but a fraction `2N exp(-1441/h)` give a ciphertext whose raised message stays below `16 q`, `q = 2^60`: then the low 64
bits of it, which are what the checks of end_to_end_test read, and its sign determine it. -/
theorem C104_small {QT N : Nat} [NeZero QT] (RAND_MAX k : Nat) (hR : RAND_MAX + 1 = 2^k) (hk : 13 ≤ k) (hN : N ≤ 2^30) (hq : 66 ≤ QT)
    (s : Fin N → Int) (hs : ∀ k, s k = -1 ∨ s k = 0 ∨ s k = 1) {h : ℕ} (hh : (univ.filter fun k => s k ≠ 0).card ≤ h) (pt : R_Q 60 N) (hpt : ∀ k, |(pt k).sval| + 8 ≤ 2^51)
    (ct0 : R_Q_square 60 N) (ρ : Rng) :
    ((univ.filter fun t : Fin N → Fin (nlimb 60) → Fin 5 → Fin (RAND_MAX+1) =>
      ¬ Ok (do
        let ct ← enc RAND_MAX pt s ct0 (maskStream t ρ)
        dec (mod_raise QT ct.1) s) fun M => ∀ k, |(M k).sval| ≤ 15 * 2^60 + 2^51).card : ℝ) ≤
      2 * N * Real.exp (-1441 / (h:ℝ)) *
        Fintype.card (Fin N → Fin (nlimb 60) → Fin 5 → Fin (RAND_MAX+1)) := by
  have hs' : Ternary s := hs
  obtain ⟨T, hT⟩ : ∃ T : ℤ, T = 31 * 2^59 - 2^51 := ⟨_, rfl⟩
  have hcount := count_masks_bound hN hs' hh (t := 15.498) (by norm_num) (T := T) (by rw [hT]; push_cast; norm_num)
  have he : Real.exp (-(6 * 15.498^2) / (h:ℝ)) ≤ Real.exp (-1441 / (h:ℝ)) :=
    Real.exp_le_exp.2 (div_le_div_of_nonneg_right (by norm_num) (Nat.cast_nonneg h))
  have hcount2 := hcount.trans (mul_le_mul_of_nonneg_right (mul_le_mul_of_nonneg_left he (by positivity)) (by positivity))
  refine le_trans (Nat.cast_le.2 (card_le_card fun t ht => ?_))
    (mask_fraction RAND_MAX k hR hk ct0.2 ρ (Exceeds T s) hcount2)
  refine mem_filter.2 ⟨mem_univ _, by_contra fun hn => (mem_filter.1 ht).2 ?_⟩
  have ha := not_not.1 hn
  obtain ⟨ct, ect, hct, e, he, hph⟩ := enc_spec RAND_MAX hN hs' pt ct0 (maskStream t ρ)
  have e2 : ct.1.2 = (encMask RAND_MAX ct0.2 (maskStream t ρ)).1 := by
    unfold enc at ect
    obtain ⟨c, ec, _⟩ := convS_spec hN s (encMask RAND_MAX ct0.2 (maskStream t ρ)).1
    simp only [ec, pure_bind] at ect
    exact (congrArg (fun r => r.1.2) (pure_inj ect)).symm
  rw [ect, pure_bind]
  obtain ⟨m, hm, _, h3⟩ := dec_spec hN hs' ct.1
  obtain ⟨M, hM, _⟩ := dec_spec hN hs' (mod_raise QT ct.1)
  refine ⟨M, hM, raised_small_of_mask hN hq hs' hct hm (fun k => ?_) (by rw [e2, ← hT]; exact ha) hM⟩
  have h4 := hpt k
  have h5 := he k
  have e3 : (m k).sval = (pt k).sval + e k := by
    have := congrFun (h3.trans hph) k
    have h6 := abs_le.1 (by linarith [abs_nonneg (e k)] : |(pt k).sval| ≤ 2^51)
    have h7 := abs_le.1 h5
    refine sval_eq_of_cls (this.trans ?_) ?_ ?_
    · simp only [Pi.add_apply, R_Q.cls, red]
      push_cast
      rw [sval_cls]
    · norm_num at h6 ⊢; linarith
    · norm_num at h6 ⊢; linarith
  rw [e3]
  exact (abs_add_le _ _).trans (by linarith)

section
variable {n QT Q0 Q1 Q2 Q3 Q4 Q5 Q6 Q7 Q8 Q9 Q10 Q11 Q12 QS : Nat} [NeZero QT] [NeZero Q0] [NeZero Q1] [NeZero Q2] [NeZero Q3]
  [NeZero Q4] [NeZero Q5] [NeZero Q6] [NeZero Q7] [NeZero Q8] [NeZero Q9] [NeZero Q10] [NeZero Q11] [NeZero Q12] [NeZero QS]

/-- What end_to_end_test prints at its end, the errors of the bootstrapped message, and the error after EvalMod are within the bounds of C91. -/
def ResultClose {n : Nat} (b : Nat) (o : EndToEndOutF (n+1)) : Prop :=
  o.evalmod_error ≤ 2^b / 2^50 ∧ o.e_norm ≤ 2^b / 2^50 * (1 + 1/2^20) ∧
  o.max_err_real ≤ 2^(n+1) * 2^b / 2^50 * (1 + 1/2^20) ∧ o.max_err_imag ≤ 2^(n+1) * 2^b / 2^50 * (1 + 1/2^20)

/-- The errors that end_to_end_test prints after CoeffToSlot and EvalqI are within the bounds of C91. -/
def StepsClose {n : Nat} (b : Nat) (o : EndToEndOutF (n+1)) : Prop :=
  o.cts_error ≤ 2^b / 2^50 ∧ o.evalqI_error ≤ 2^(n+25) / 2^50

/-- the driver on a ciphertext that is in the range of EvalMod -/
theorem end_to_end_of_range {L : LibmP} (hLib : L.Accurate) (R : Nat) {G b b' LDs : Nat} (hp : BootParam2 n G b b') (hLDs : LDs = 50 ∨ LDs = 60)
    (hQ0 : QT = Q0 + n/G * 60) (hC : EvalModChain 60 Q0 Q1 Q2 Q3 Q4 Q5 Q6 Q7 Q8 Q9 Q10 Q11 Q12) (hQS : Q12 = QS + n/G * LDs)
    (hlo : 65 ≤ QS) (hhi : QT ≤ 1525) (H : Int) (hH : H ≤ 128)
    (z : CVec (n+1)) (hz : ∀ i : Fin (2^n), ‖(⟨z.1 i, z.2 i⟩ : ℂ)‖ ≤ 1) (ct0 : R_Q_square 60 (2^(n+1))) {ω ω1 ω2 : Rng}
    {s : Fin (2^(n+1)) → Int} (hk : keygen (2^(n+1)) H ω = pure (s, ω1)) {pt : R_Q 60 (2^(n+1))} {ct : R_Q_square 60 (2^(n+1))}
    {M : R_Q QT (2^(n+1))} (ept : encodeF L.toLibm 60 z (BitVec.ofNat 64 (2^50)) = pure pt) (ect : enc R pt s ct0 ω1 = pure (ct, ω2))
    (eM : dec (mod_raise QT ct) s = pure M) (hr : ∀ k, -237 * 2^60 ≤ 10 * (M k).sval ∧ 10 * (M k).sval ≤ 242 * 2^60) :
    Ok (endToEndDriverF L R 60 LDs G QT Q0 Q1 Q2 Q3 Q4 Q5 Q6 Q7 Q8 Q9 Q10 Q11 Q12 QS H z ct0 ω) fun o =>
      ResultClose b o ∧ ((∀ k, |(M k).sval| < 2^64) → StepsClose b o) ∧
      ((∀ k, |(M k).sval| ≤ 2^64 - 2^59) → o.stc_error ≤ 2^(b+1) / 2^50) ∧
      ((∃ k, 2^64 ≤ |(M k).sval|) → 16000 ≤ o.cts_error ∧ 16000 ≤ o.evalqI_error) := by
  have hn : 8 ≤ n ∧ n ≤ 16 ∧ b ≤ 47 ∧ 35 ≤ b := by rcases hp with ⟨rfl, rfl, rfl, rfl⟩ | ⟨rfl, rfl, rfl, rfl⟩ | ⟨rfl, rfl, rfl, rfl⟩ <;> norm_num
  have hN : 2^(n+1) ≤ 2^30 := Nat.pow_le_pow_right (by norm_num) (by omega)
  have hq : QS ≤ 2^29 := by unfold EvalModChain at hC; omega
  obtain ⟨hs, hw⟩ := C19_keygen_weight H ω ω1 s hk
  have hδ : (((BitVec.ofNat 64 (2^50)).toNat : ℕ) : ℝ) = 2^50 := toNat_scale (by norm_num)
  unfold endToEndDriverF
  rw [hk, pure_bind, show shl1 50 = pure (BitVec.ofNat 64 (2^50)) from rfl, pure_bind]
  obtain ⟨pt', ept', mz, y, -, hy, -⟩ := encodeF_l2 (n := n) (Q := 60) hLib.1 (by omega) (by omega) z (BitVec.ofNat 64 (2^50))
    (scale_ne_zero (by norm_num)) (B := 1) hz (by rw [hδ]; norm_num) (by rw [hδ]; norm_num)
  obtain rfl := pure_inj (ept.symm.trans ept')
  obtain ⟨hct, m, edm, hms, hmB⟩ := fresh_decF hLib.1 R (by omega) (by omega) hz hs ept ect
  rw [ept, pure_bind, ect, pure_bind]
  refine Ok.bind (C91_errors hLib R hp hLDs hQ0 hC hQS hlo hhi s hs (by omega) ct hct m edm M eM hmB hr pt (fun k => (hy k).1) hms ω2)
    fun o ⟨h1, h2, h3, h4, h5, h6⟩ => ?_
  obtain ⟨out, eout, -, g2, g3, g4, -⟩ := driver_tailF hLib.1 (by omega) (by omega) hq hlo z hz ept h5 (E := 2^b)
    (Nat.pow_le_pow_right (by norm_num) hn.2.2.2) (Nat.pow_le_pow_right (by norm_num) hn.2.2.1) (fun k => by push_cast; exact h6 k)
  obtain ⟨zo, ezo, eout⟩ := bind_eq_pure eout
  obtain ⟨re, ere, eout⟩ := bind_eq_pure eout
  obtain ⟨im, eim, eout⟩ := bind_eq_pure eout
  obtain ⟨en, een, eout⟩ := bind_eq_pure eout
  obtain ⟨el, eel, eout⟩ := bind_eq_pure eout
  obtain rfl := pure_inj eout
  rw [ezo, pure_bind, een, pure_bind, ere, pure_bind, eim, pure_bind]
  push_cast at g2 g3 g4
  exact Ok.pure ⟨⟨h1, g4, g2, g3⟩, h2, h3, h4⟩

open Classical in
/-- `C104_result` for a number `c` of draws that `keygen` makes -/
theorem result_fraction {L : LibmP} (hLib : L.Accurate) (R k : Nat) (hR : R + 1 = 2^k) (hk13 : 13 ≤ k) {G b b' LDs : Nat} (hp : BootParam2 n G b b')
    (hLDs : LDs = 50 ∨ LDs = 60)
    (hQ0 : QT = Q0 + n/G * 60) (hC : EvalModChain 60 Q0 Q1 Q2 Q3 Q4 Q5 Q6 Q7 Q8 Q9 Q10 Q11 Q12) (hQS : Q12 = QS + n/G * LDs)
    (hlo : 65 ≤ QS) (hhi : QT ≤ 1525) (H : Int) (hH : H ≤ 128)
    (z : CVec (n+1)) (hz : ∀ i : Fin (2^n), ‖(⟨z.1 i, z.2 i⟩ : ℂ)‖ ≤ 1) (ct0 : R_Q_square 60 (2^(n+1))) (ω : Rng)
    (s : Fin (2^(n+1)) → Int) (c : Nat) (hc : ∀ σ, keygen (2^(n+1)) H (splice c ω σ) = pure (s, σ)) (ρ : Rng) :
      ((univ.filter fun t : Fin (2^(n+1)) → Fin (nlimb 60) → Fin 5 → Fin (R+1) =>
        ¬ Ok (endToEndDriverF L R 60 LDs G QT Q0 Q1 Q2 Q3 Q4 Q5 Q6 Q7 Q8 Q9 Q10 Q11 Q12 QS H z ct0 (splice c ω (maskStream t ρ))) fun o =>
          ResultClose b o ∧ (StepsClose b o ∨ 16000 ≤ o.cts_error ∧ 16000 ≤ o.evalqI_error)).card : ℝ) ≤
        2^(n+1) / 2^36 * Fintype.card (Fin (2^(n+1)) → Fin (nlimb 60) → Fin 5 → Fin (R+1)) := by
  have hn : 8 ≤ n ∧ n ≤ 16 := by rcases hp with ⟨rfl, rfl, rfl, rfl⟩ | ⟨rfl, rfl, rfl, rfl⟩ | ⟨rfl, rfl, rfl, rfl⟩ <;> norm_num
  have hN : 2^(n+1) ≤ 2^30 := Nat.pow_le_pow_right (by norm_num) (by omega)
  have hq : 66 ≤ QT := by unfold EvalModChain at hC; omega
  obtain ⟨hs, hw⟩ := C19_keygen_weight H _ ρ s (hc ρ)
  obtain ⟨pt, ept, hpt⟩ := encode_sizeF hLib.1 (n := n) (by omega) (by omega) hz
  have h := C85_range_128 (QT := QT) R k hR hk13 hN hq s hs (by omega) pt hpt ct0 ρ
  rw [show ((2^(n+1) : ℕ) : ℝ) = 2^(n+1) by push_cast; rfl] at h
  refine le_trans (Nat.cast_le.2 (card_le_card fun t ht => ?_)) h
  refine mem_filter.2 ⟨mem_univ _, fun hok => (mem_filter.1 ht).2 ?_⟩
  obtain ⟨⟨ct, ω2⟩, ect, -⟩ := enc_spec R hN hs pt ct0 (maskStream t ρ)
  rw [ect, pure_bind] at hok
  obtain ⟨M, eM, hr⟩ := hok
  refine Ok.mono (end_to_end_of_range hLib R hp hLDs hQ0 hC hQS hlo hhi H hH z hz ct0 (hc _) ept ect eM hr) fun o ⟨h1, h2, _, h4⟩ => ⟨h1, ?_⟩
  by_cases hM : ∀ k, |(M k).sval| < 2^64
  · exact Or.inl (h2 hM)
  · push Not at hM
    exact Or.inr (h4 hM)

open Classical in
/-- `C104_printed` for a number `c` of draws that `keygen` makes -/
theorem printed_fraction {L : LibmP} (hLib : L.Accurate) (R k : Nat) (hR : R + 1 = 2^k) (hk13 : 13 ≤ k) {G b b' LDs : Nat} (hp : BootParam2 n G b b')
    (hLDs : LDs = 50 ∨ LDs = 60)
    (hQ0 : QT = Q0 + n/G * 60) (hC : EvalModChain 60 Q0 Q1 Q2 Q3 Q4 Q5 Q6 Q7 Q8 Q9 Q10 Q11 Q12) (hQS : Q12 = QS + n/G * LDs)
    (hlo : 65 ≤ QS) (hhi : QT ≤ 1525) (H : Int) (h : ℕ) (hH : H ≤ h) (hh : h ≤ 128)
    (z : CVec (n+1)) (hz : ∀ i : Fin (2^n), ‖(⟨z.1 i, z.2 i⟩ : ℂ)‖ ≤ 1) (ct0 : R_Q_square 60 (2^(n+1))) (ω : Rng)
    (s : Fin (2^(n+1)) → Int) (c : Nat) (hc : ∀ σ, keygen (2^(n+1)) H (splice c ω σ) = pure (s, σ)) (ρ : Rng) :
      ((univ.filter fun t : Fin (2^(n+1)) → Fin (nlimb 60) → Fin 5 → Fin (R+1) =>
        ¬ Ok (endToEndDriverF L R 60 LDs G QT Q0 Q1 Q2 Q3 Q4 Q5 Q6 Q7 Q8 Q9 Q10 Q11 Q12 QS H z ct0 (splice c ω (maskStream t ρ))) fun o =>
          ResultClose b o ∧ StepsClose b o ∧ o.stc_error ≤ 2^(b+1) / 2^50).card : ℝ) ≤
        2 * 2^(n+1) * Real.exp (-1441 / (h:ℝ)) * Fintype.card (Fin (2^(n+1)) → Fin (nlimb 60) → Fin 5 → Fin (R+1)) := by
  have hn : 8 ≤ n ∧ n ≤ 16 := by rcases hp with ⟨rfl, rfl, rfl, rfl⟩ | ⟨rfl, rfl, rfl, rfl⟩ | ⟨rfl, rfl, rfl, rfl⟩ <;> norm_num
  have hN : 2^(n+1) ≤ 2^30 := Nat.pow_le_pow_right (by norm_num) (by omega)
  have hq : 66 ≤ QT := by unfold EvalModChain at hC; omega
  obtain ⟨hs, hw⟩ := C19_keygen_weight H _ ρ s (hc ρ)
  obtain ⟨pt, ept, hpt⟩ := encode_sizeF hLib.1 (n := n) (by omega) (by omega) hz
  have h' := C104_small (QT := QT) R k hR hk13 hN hq s hs (h := h) (by omega) pt hpt ct0 ρ
  rw [show ((2^(n+1) : ℕ) : ℝ) = 2^(n+1) by push_cast; rfl] at h'
  refine le_trans (Nat.cast_le.2 (card_le_card fun t ht => ?_)) h'
  refine mem_filter.2 ⟨mem_univ _, fun hok => (mem_filter.1 ht).2 ?_⟩
  obtain ⟨⟨ct, ω2⟩, ect, -⟩ := enc_spec R hN hs pt ct0 (maskStream t ρ)
  rw [ect, pure_bind] at hok
  obtain ⟨M, eM, hM⟩ := hok
  refine Ok.mono (end_to_end_of_range hLib R hp hLDs hQ0 hC hQS hlo hhi H (by omega) z hz ct0 (hc _) ept ect eM fun k => ?_)
    fun o ⟨h1, h2, h3, _⟩ => ⟨h1, h2 fun k => lt_of_le_of_lt (hM k) (by norm_num), h3 fun k => (hM k).trans (by norm_num)⟩
  have := abs_le.1 (hM k)
  norm_num at this ⊢
  omega

open Classical in
/-- C104: for end_to_end_test with a key of weight at most 128, whatever numbers `keygen` draws and whatever follows, on all but a fraction `N/2^36` of the
draws for the mask the program returns, the errors of the bootstrapped message and the error after EvalMod are within the bounds of C91, and the errors
printed after CoeffToSlot and EvalqI are either both within the bounds of C91 or both at least 16000. -/
theorem C104_result {L : LibmP} (hLib : L.Accurate) (R k : Nat) (hR : R + 1 = 2^k) (hk13 : 13 ≤ k) {G b b' LDs : Nat} (hp : BootParam2 n G b b')
    (hLDs : LDs = 50 ∨ LDs = 60)
    (hQ0 : QT = Q0 + n/G * 60) (hC : EvalModChain 60 Q0 Q1 Q2 Q3 Q4 Q5 Q6 Q7 Q8 Q9 Q10 Q11 Q12) (hQS : Q12 = QS + n/G * LDs)
    (hlo : 65 ≤ QS) (hhi : QT ≤ 1525) (H : Int) (hH : H ≤ 128)
    (z : CVec (n+1)) (hz : ∀ i : Fin (2^n), ‖(⟨z.1 i, z.2 i⟩ : ℂ)‖ ≤ 1) (ct0 : R_Q_square 60 (2^(n+1))) (ω ω1 : Rng)
    (s : Fin (2^(n+1)) → Int) (hk : keygen (2^(n+1)) H ω = pure (s, ω1)) :
    ∃ c, (∀ σ, keygen (2^(n+1)) H (splice c ω σ) = pure (s, σ)) ∧ ∀ ρ,
      ((univ.filter fun t : Fin (2^(n+1)) → Fin (nlimb 60) → Fin 5 → Fin (R+1) =>
        ¬ Ok (endToEndDriverF L R 60 LDs G QT Q0 Q1 Q2 Q3 Q4 Q5 Q6 Q7 Q8 Q9 Q10 Q11 Q12 QS H z ct0 (splice c ω (maskStream t ρ))) fun o =>
          ResultClose b o ∧ (StepsClose b o ∨ 16000 ≤ o.cts_error ∧ 16000 ≤ o.evalqI_error)).card : ℝ) ≤
        2^(n+1) / 2^36 * Fintype.card (Fin (2^(n+1)) → Fin (nlimb 60) → Fin 5 → Fin (R+1)) := by
  obtain ⟨c, hc⟩ := keygen_local H ω hk
  exact ⟨c, hc, fun ρ => result_fraction hLib R k hR hk13 hp hLDs hQ0 hC hQS hlo hhi H hH z hz ct0 ω s c hc ρ⟩

open Classical in
/-- C104: for end_to_end_test with a key of weight at most `h`, `h ≤ 128`, on all but a fraction `2N exp(-1441/h)` of the draws for the mask every error
that the program prints is within the bounds of C91. -/
theorem C104_printed {L : LibmP} (hLib : L.Accurate) (R k : Nat) (hR : R + 1 = 2^k) (hk13 : 13 ≤ k) {G b b' LDs : Nat} (hp : BootParam2 n G b b')
    (hLDs : LDs = 50 ∨ LDs = 60)
    (hQ0 : QT = Q0 + n/G * 60) (hC : EvalModChain 60 Q0 Q1 Q2 Q3 Q4 Q5 Q6 Q7 Q8 Q9 Q10 Q11 Q12) (hQS : Q12 = QS + n/G * LDs)
    (hlo : 65 ≤ QS) (hhi : QT ≤ 1525) (H : Int) (h : ℕ) (hH : H ≤ h) (hh : h ≤ 128)
    (z : CVec (n+1)) (hz : ∀ i : Fin (2^n), ‖(⟨z.1 i, z.2 i⟩ : ℂ)‖ ≤ 1) (ct0 : R_Q_square 60 (2^(n+1))) (ω ω1 : Rng)
    (s : Fin (2^(n+1)) → Int) (hk : keygen (2^(n+1)) H ω = pure (s, ω1)) :
    ∃ c, (∀ σ, keygen (2^(n+1)) H (splice c ω σ) = pure (s, σ)) ∧ ∀ ρ,
      ((univ.filter fun t : Fin (2^(n+1)) → Fin (nlimb 60) → Fin 5 → Fin (R+1) =>
        ¬ Ok (endToEndDriverF L R 60 LDs G QT Q0 Q1 Q2 Q3 Q4 Q5 Q6 Q7 Q8 Q9 Q10 Q11 Q12 QS H z ct0 (splice c ω (maskStream t ρ))) fun o =>
          ResultClose b o ∧ StepsClose b o ∧ o.stc_error ≤ 2^(b+1) / 2^50).card : ℝ) ≤
        2 * 2^(n+1) * Real.exp (-1441 / (h:ℝ)) * Fintype.card (Fin (2^(n+1)) → Fin (nlimb 60) → Fin 5 → Fin (R+1)) := by
  obtain ⟨c, hc⟩ := keygen_local H ω hk
  exact ⟨c, hc, fun ρ => printed_fraction hLib R k hR hk13 hp hLDs hQ0 hC hQS hlo hhi H h hH hh z hz ct0 ω s c hc ρ⟩

end

open Classical in
theorem fraction_mono {T α : Type} [Fintype T] {f : T → M α} {P Q : α → Prop} (h : ∀ o, P o → Q o) {x : ℝ}
    (hx : ((univ.filter fun t => ¬ Ok (f t) P).card : ℝ) ≤ x) : ((univ.filter fun t => ¬ Ok (f t) Q).card : ℝ) ≤ x :=
  le_trans (Nat.cast_le.2 (card_le_card fun t ht => mem_filter.2 ⟨mem_univ t, mt (Ok.mono · h) (mem_filter.1 ht).2⟩)) hx

open Classical in
theorem exists_of_fraction {T α : Type} [Fintype T] [Nonempty T] {f : T → M α} {P : α → Prop} {x : ℝ} (hx : x < 1)
    (h : ((univ.filter fun t => ¬ Ok (f t) P).card : ℝ) ≤ x * Fintype.card T) : ∃ t, Ok (f t) P := by
  by_contra hcon
  push Not at hcon
  rw [filter_true_of_mem fun t _ => hcon t, card_univ] at h
  have : (0:ℝ) < Fintype.card T := by exact_mod_cast Fintype.card_pos
  nlinarith

theorem exp_1441 : 2 * 2^(8+1) * Real.exp (-1441 / ((128:ℕ):ℝ)) ≤ 1/73 := by
  have h2 : Real.exp (-1441 / ((128:ℕ):ℝ)) ≤ Real.exp (-11.2578) := Real.exp_le_exp.2 (by norm_num)
  have h3 : (2 * 2^(8+1) * 73 : ℝ) ≤ Real.exp 11.2578 := by
    rw [show (11.2578:ℝ) = (11:ℕ) * 1 + 0.2578 by norm_num, Real.exp_add, Real.exp_nat_mul]
    have e1 := pow_le_pow_left₀ (by norm_num) Real.exp_one_gt_d9.le 11
    have e2 := Real.add_one_le_exp (0.2578 : ℝ)
    have e3 := mul_le_mul e1 e2 (by norm_num) (by positivity)
    refine le_trans ?_ e3
    norm_num
  have h4 : Real.exp (-11.2578) ≤ 1/(2 * 2^(8+1) * 73) := by
    rw [Real.exp_neg, ← one_div]
    exact one_div_le_one_div_of_le (by positivity) h3
  refine (mul_le_mul_of_nonneg_left (h2.trans h4) (by norm_num)).trans ?_
  norm_num

open Classical in
/-- C104 for `end_to_end_test<9,60,60,2>` as it stands, end_to_end_test.cpp:196 with the parameters of rns.h, the test message and a key of 128 entries: all but one draw of the mask
in 73 lead to errors within the bounds of C91, and all but one in `2^27` to a bootstrapped message within them. -/
theorem C104_test {L : LibmP} (hLib : L.Accurate) (R k : Nat) (hR : R + 1 = 2^k) (hk13 : 13 ≤ k) (z : CVec (8+1))
    (ez : set_test_messageF L.toLibm (8+1) = pure z) (ct0 : R_Q_square 60 (2^(8+1))) (ω ω1 : Rng)
    (s : Fin (2^(8+1)) → Int) (hk : keygen (2^(8+1)) 128 ω = pure (s, ω1)) :
    ∃ c, (∀ σ, keygen (2^(8+1)) 128 (splice c ω σ) = pure (s, σ)) ∧ ∀ ρ,
      ((univ.filter fun t : Fin (2^(8+1)) → Fin (nlimb 60) → Fin 5 → Fin (R+1) =>
        ¬ Ok (endToEndDriverF L R 60 60 2 1450 1210 1150 1090 1030 970 910 850 790 730 670 610 550 490 250 128 z ct0 (splice c ω (maskStream t ρ)))
          fun o => o.cts_error ≤ 1/32768 ∧ o.evalmod_error ≤ 1/32768 ∧ o.evalqI_error ≤ 1/131072 ∧ o.stc_error ≤ 1/16384 ∧
            o.e_norm ≤ 1/32767 ∧ o.max_err_real ≤ 1/63 ∧ o.max_err_imag ≤ 1/63).card : ℝ) ≤
        1/73 * Fintype.card (Fin (2^(8+1)) → Fin (nlimb 60) → Fin 5 → Fin (R+1)) ∧
      ((univ.filter fun t : Fin (2^(8+1)) → Fin (nlimb 60) → Fin 5 → Fin (R+1) =>
        ¬ Ok (endToEndDriverF L R 60 60 2 1450 1210 1150 1090 1030 970 910 850 790 730 670 610 550 490 250 128 z ct0 (splice c ω (maskStream t ρ)))
          fun o => o.evalmod_error ≤ 1/32768 ∧ o.e_norm ≤ 1/32767 ∧ o.max_err_real ≤ 1/63 ∧ o.max_err_imag ≤ 1/63).card : ℝ) ≤
        1/2^27 * Fintype.card (Fin (2^(8+1)) → Fin (nlimb 60) → Fin 5 → Fin (R+1)) := by
  obtain ⟨z', ez', hz⟩ := C79_test_message hLib.1 (LOGN := 8+1) (by norm_num)
  obtain rfl := pure_inj (ez.symm.trans ez')
  have hz' : ∀ i : Fin (2^8), ‖(⟨z.1 i, z.2 i⟩ : ℂ)‖ ≤ 1 := fun i => (hz i).2
  obtain ⟨c, hc⟩ := keygen_local 128 ω hk
  refine ⟨c, hc, fun ρ => ⟨?_, ?_⟩⟩
  · have h1 := printed_fraction hLib (n := 8) (QT := 1450) (Q0 := 1210) (Q1 := 1150) (Q2 := 1090) (Q3 := 1030) (Q4 := 970)
      (Q5 := 910) (Q6 := 850) (Q7 := 790) (Q8 := 730) (Q9 := 670) (Q10 := 610) (Q11 := 550) (Q12 := 490) (QS := 250) R k hR hk13
      (Or.inl ⟨rfl, rfl, rfl, rfl⟩) (Or.inr rfl) (by norm_num) (by unfold EvalModChain; norm_num) (by norm_num) (by norm_num) (by norm_num) 128 128
      (by norm_num) (by norm_num) z hz' ct0 ω s c hc ρ
    refine fraction_mono ?_ (h1.trans (mul_le_mul_of_nonneg_right exp_1441 (Nat.cast_nonneg _)))
    exact fun o ⟨⟨g1, g2, g3, g4⟩, ⟨g5, g6⟩, g7⟩ => ⟨g5.trans (by norm_num), g1.trans (by norm_num), g6.trans (by norm_num),
      g7.trans (by norm_num), g2.trans (by norm_num), g3.trans (by norm_num), g4.trans (by norm_num)⟩
  · have h2 := result_fraction hLib (n := 8) (QT := 1450) (Q0 := 1210) (Q1 := 1150) (Q2 := 1090) (Q3 := 1030) (Q4 := 970)
      (Q5 := 910) (Q6 := 850) (Q7 := 790) (Q8 := 730) (Q9 := 670) (Q10 := 610) (Q11 := 550) (Q12 := 490) (QS := 250) R k hR hk13
      (Or.inl ⟨rfl, rfl, rfl, rfl⟩) (Or.inr rfl) (by norm_num) (by unfold EvalModChain; norm_num) (by norm_num) (by norm_num) (by norm_num) 128
      (by norm_num) z hz' ct0 ω s c hc ρ
    refine fraction_mono ?_ (h2.trans (mul_le_mul_of_nonneg_right (by norm_num) (Nat.cast_nonneg _)))
    exact fun o ⟨⟨g1, g2, g3, g4⟩, _⟩ => ⟨g1.trans (by norm_num), g2.trans (by norm_num), g3.trans (by norm_num), g4.trans (by norm_num)⟩

/-- `C104_test` is not vacuous: the generator 0, 1, 2, … gives a key, and there are draws of the mask for which every error printed is small. -/
example (ct0 : R_Q_square 60 (2^(8+1))) :
    ∃ z, set_test_messageF exactLibmP.toLibm (8+1) = pure z ∧ ∃ ω : Rng,
      Ok (endToEndDriverF exactLibmP (2^31-1) 60 60 2 1450 1210 1150 1090 1030 970 910 850 790 730 670 610 550 490 250 128 z ct0 ω) fun o =>
        o.cts_error ≤ 1/32768 ∧ o.stc_error ≤ 1/16384 ∧ o.max_err_real ≤ 1/63 := by
  classical
  obtain ⟨z, ez, hz⟩ := C79_test_message exactLibmP_accurate.1 (LOGN := 8+1) (by norm_num)
  obtain ⟨⟨s, ω1⟩, hk, -, -⟩ := C19_keygen_returns (N := 2^(8+1)) 128 (by norm_num) id (fun j l => ⟨j + 2^(8+1) * l, by
      have : 1 ≤ 2^(8+1) := by norm_num
      nlinarith, by
      simp only [id]
      rw [Nat.add_mul_mod_self_left, Nat.mod_eq_of_lt j.isLt]⟩)
  obtain ⟨c, -, h⟩ := C104_test exactLibmP_accurate (2^31-1) 31 (by norm_num) (by norm_num) z ez ct0 id ω1 s hk
  have : Nonempty (Fin (2^(8+1)) → Fin (nlimb 60) → Fin 5 → Fin (2^31-1+1)) := ⟨fun _ _ _ => ⟨0, by norm_num⟩⟩
  obtain ⟨t, ht⟩ := exists_of_fraction (by norm_num) (h id).1
  exact ⟨z, ez, _, Ok.mono ht fun o ho => ⟨ho.1, ho.2.2.2.1, ho.2.2.2.2.2.1⟩⟩

end EvalRound

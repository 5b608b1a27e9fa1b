import Verif.Props.EndToEndProb
import Verif.Props.Raise

/-!
# C105: the draws that lead out of the range are reachable for every key
-/

namespace EvalRound
open Finset Z_Q

/-- every polynomial with small coefficients is a mask that `enc` can draw -/
theorem exists_mask {N : Nat} (R k : Nat) (hR : R + 1 = 2^k) (hk : 13 ≤ k) (A0 : R_Q 60 N) (ρ : Rng) (v : Fin N → ℤ)
    (hv : ∀ i, -2^59 ≤ v i ∧ v i < 2^59) :
    ∃ t : Fin N → Fin (nlimb 60) → Fin 5 → Fin (R+1), R_Q.sval (encMask R A0 (maskStream t ρ)).1 = v := by
  classical
  have h1 : ∀ i, ∃ x : Fin (2*2^(60-1)), centred (2^(60-1)) x = v i := by
    intro i
    obtain ⟨h1, h2⟩ := hv i
    by_cases h : 0 ≤ v i
    · refine ⟨⟨(v i).toNat, by norm_num at *; omega⟩, ?_⟩
      unfold centred
      rw [if_pos (by norm_num at *; omega)]
      simp only
      omega
    · refine ⟨⟨(v i + 2^60).toNat, by norm_num at *; omega⟩, ?_⟩
      unfold centred
      rw [if_neg (by norm_num at *; omega)]
      norm_num at *
      omega
  choose a ha using h1
  have h2 := C54_mask_uniform R k hR hk A0 ρ (polyOf (LOGQ := 60) a) (polyOf_canonical a)
  have h3 : 0 < (univ.filter fun t : Fin N → Fin (nlimb 60) → Fin 5 → Fin (R+1) => (encMask R A0 (maskStream t ρ)).1 = polyOf (LOGQ := 60) a).card := by
    rw [h2]; positivity
  obtain ⟨t, ht⟩ := card_pos.1 h3
  refine ⟨t, ?_⟩
  rw [(mem_filter.1 ht).2]
  funext i
  rw [R_Q.sval, polyOf_sval, ha]

/-- the raised message is the multiple of the modulus next to the product of the key and the mask -/
theorem raised_near_mask {QT N : Nat} [NeZero QT] (hN : N ≤ 2^30) (hq : 68 ≤ QT) {s : Fin N → Int}
    (hs : Ternary s) {ct : R_Q_square 60 N} (hct : ct.Canonical)
    {m : R_Q 60 N} (hm : dec ct s = pure m) (hB : ∀ k, |(m k).sval| ≤ 2^51) {k : Fin N}
    (ha : |negconv s (R_Q.sval ct.2) k| ≤ 2^66) {M : R_Q QT N}
    (hM : dec (mod_raise QT ct) s = pure M) :
    ∃ I : ℤ, (M k).sval = (m k).sval + 2^60 * I ∧ |2^60 * I - negconv s (R_Q.sval ct.2) k| ≤ 2^59 + 2^51 := by
  obtain ⟨m', h1, _, h3⟩ := dec_spec hN hs ct
  obtain ⟨M', g1, _, g3⟩ := dec_spec hN hs (mod_raise QT ct)
  obtain rfl := pure_inj (hm.symm.trans h1)
  obtain rfl := pure_inj (hM.symm.trans g1)
  obtain ⟨I, hI, h⟩ := mod_raise_multiple (LT := QT) hct s (R_Q.sval m) (by rw [← cls_red_sval, h3])
  have h5 := hI k
  have h9 := abs_le.1 (abs_sval_le (ct.1 k))
  have h10 := abs_le.1 ha
  have h8 := abs_le.1 (hB k)
  have hp : (2:ℤ)^67 ≤ 2^(QT-1) := pow_le_pow_right₀ (by norm_num) (by omega)
  have e0 : R_Q.sval m k = (m k).sval := rfl
  rw [e0] at h5
  refine ⟨I k, ?_, ?_⟩
  · refine sval_eq_of_cls (t := (m k).sval + 2^60 * I k) (congrFun (g3.trans h) k) ?_ ?_
    · refine (neg_le_neg hp).trans ?_
      norm_num at h5 h8 h9 h10 ⊢
      omega
    · refine lt_of_lt_of_le ?_ hp
      norm_num at h5 h8 h9 h10 ⊢
      omega
  · refine abs_le.2 ?_
    norm_num at h5 h8 h9 h10 ⊢
    omega

/-- the product of a key with the mask that is aligned with it -/
theorem aligned_product {N : Nat} {s : Fin N → Int} (hs : Ternary s) (x : ℤ) (k : Fin N) (hk : k.val + 1 = N) :
    negconv s (fun i => x * s ⟨N - 1 - i, by omega⟩) k = x * ((univ.filter fun k => s k ≠ 0).card : ℤ) := by
  unfold negconv
  rw [card_eq_sum_ones, sum_filter, Nat.cast_sum, mul_sum]
  refine sum_congr rfl fun j _ => ?_
  have hj := j.isLt
  rw [dif_pos (by rw [Fin.le_def]; omega)]
  have e : (⟨N - 1 - (k.val - j.val), by omega⟩ : Fin N) = j := Fin.ext (by simp only; omega)
  simp only [e]
  rcases hs j with h | h | h <;> rw [h] <;> norm_num

theorem aligned_bound {N : Nat} {s : Fin N → Int} (hs : Ternary s) {x : ℤ} (hx : 0 ≤ x) (i : Fin N) : |x * s i| ≤ x := by
  rw [abs_mul, abs_of_nonneg hx]
  rcases hs i with h | h | h <;> rw [h] <;> simp [hx]

theorem sum_abs_weight {N : Nat} {s : Fin N → Int} (hs : Ternary s) : ∑ k, |s k| = ((univ.filter fun k => s k ≠ 0).card : ℤ) := by
  rw [card_eq_sum_ones, sum_filter, Nat.cast_sum]
  refine sum_congr rfl fun k _ => ?_
  rcases hs k with h | h | h <;> rw [h] <;> norm_num

/-- what an encryption with a mask aligned with the key raises to -/
theorem exists_raised {QT N : Nat} [NeZero QT] (R k : Nat) (hR : R + 1 = 2^k) (hk : 13 ≤ k) (hN : N ≤ 2^30) (hq : 68 ≤ QT)
    {s : Fin N → Int} (hs : Ternary s) (pt : R_Q 60 N) (hpt : ∀ k, |(pt k).sval| + 8 ≤ 2^51) (ct0 : R_Q_square 60 N) (ρ : Rng)
    {x : ℤ} (hx : 0 ≤ x) (hx2 : x < 2^59) (σ : ℤ) (hσ : σ = 1 ∨ σ = -1) (hw : x * ((univ.filter fun k => s k ≠ 0).card : ℤ) ≤ 2^66) :
    ∃ t : Fin N → Fin (nlimb 60) → Fin 5 → Fin (R+1), Ok (do
        let ct ← enc R pt s ct0 (maskStream t ρ)
        dec (mod_raise QT ct.1) s) fun M =>
      (∀ k, |(M k).sval| ≤ x * ((univ.filter fun k => s k ≠ 0).card : ℤ) + 2^59 + 2^52) ∧
      ∀ k : Fin N, k.val + 1 = N → ∃ I : ℤ, |(M k).sval - 2^60 * I| ≤ 2^51 ∧
        |2^60 * I - σ * (x * ((univ.filter fun k => s k ≠ 0).card : ℤ))| ≤ 2^59 + 2^51 := by
  have hv : ∀ i : Fin N, |σ * (x * s ⟨N - 1 - i, by omega⟩)| ≤ x := by
    intro i
    have := aligned_bound hs hx ⟨N - 1 - i, by omega⟩
    rcases hσ with e | e
    · rw [e, one_mul]; exact this
    · rw [e, neg_one_mul, abs_neg]; exact this
  obtain ⟨t, ht⟩ := exists_mask R k hR hk ct0.2 ρ (fun i => σ * (x * s ⟨N - 1 - i, by omega⟩)) (fun i => by
    have := abs_le.1 (hv i)
    exact ⟨by linarith, by linarith⟩)
  refine ⟨t, ?_⟩
  obtain ⟨ct, ect, hct, e, he, hph⟩ := enc_spec R hN hs pt ct0 (maskStream t ρ)
  have e2 : ct.1.2 = (encMask R ct0.2 (maskStream t ρ)).1 := by
    unfold enc at ect
    obtain ⟨c, ec, _⟩ := convS_spec hN s (encMask R ct0.2 (maskStream t ρ)).1
    simp only [ec, pure_bind] at ect
    exact (congrArg (fun r => r.1.2) (pure_inj ect)).symm
  rw [ect, pure_bind]
  obtain ⟨m, hm, _, h3⟩ := dec_spec hN hs ct.1
  obtain ⟨M, hM, _⟩ := dec_spec hN hs (mod_raise QT ct.1)
  have hmB : ∀ k, |(m k).sval| ≤ 2^51 := by
    intro k
    have h4 := hpt k
    have h5 := he k
    have e3 : (m k).sval = (pt k).sval + e k := by
      have := congrFun (h3.trans hph) k
      have h6 := abs_le.1 (by linarith [abs_nonneg (e k)] : |(pt k).sval| ≤ 2^51)
      have h7 := abs_le.1 h5
      refine sval_eq_of_cls (this.trans ?_) ?_ ?_
      · simp only [Pi.add_apply, R_Q.cls, red]
        push_cast
        rw [sval_cls]
      · norm_num at h6 ⊢; linarith
      · norm_num at h6 ⊢; linarith
    rw [e3]
    exact (abs_add_le _ _).trans (by linarith)
  have e4 : R_Q.sval ct.1.2 = fun i : Fin N => σ * (x * s ⟨N - 1 - i, by omega⟩) := by rw [e2, ht]
  have hall : ∀ k, |negconv s (R_Q.sval ct.1.2) k| ≤ x * ((univ.filter fun k => s k ≠ 0).card : ℤ) := by
    intro k
    rw [e4]
    have := negconv_abs_le s (fun i : Fin N => σ * (x * s ⟨N - 1 - i, by omega⟩)) hv k
    rwa [sum_abs_weight hs, mul_comm] at this
  refine ⟨M, hM, fun k => ?_, fun k hk => ?_⟩
  · obtain ⟨I, h1, h2⟩ := raised_near_mask hN hq hs hct hm hmB ((hall k).trans hw) hM
    have h5 := abs_le.1 (hall k)
    have h6 := abs_le.1 (hmB k)
    have h7 := abs_le.1 h2
    rw [h1]
    generalize x * ((univ.filter fun k => s k ≠ 0).card : ℤ) = X at *
    refine abs_le.2 ?_
    norm_num at h6 h7 ⊢
    omega
  · obtain ⟨I, h1, h2⟩ := raised_near_mask hN hq hs hct hm hmB ((hall k).trans hw) hM
    refine ⟨I, ?_, ?_⟩
    · rw [h1, add_sub_cancel_right]; exact hmB k
    · have e5 : negconv s (R_Q.sval ct.1.2) k = σ * (x * ((univ.filter fun k => s k ≠ 0).card : ℤ)) := by
        rw [e4, show (fun i : Fin N => σ * (x * s ⟨N - 1 - i, by omega⟩)) = fun i : Fin N => (σ * x) * s ⟨N - 1 - i, by omega⟩ from
          funext fun i => (mul_assoc _ _ _).symm, aligned_product hs _ k hk, mul_assoc]
      rwa [e5] at h2

/-- C105: for every ternary key with 49 to 128 nonzero entries, every message, every previous content of the ciphertext and every rest of the random stream
there are draws of the mask for which the raised message leaves the range of EvalMod. -/
theorem C105_leaves {QT N : Nat} [NeZero QT] (hN0 : 0 < N) (R k : Nat) (hR : R + 1 = 2^k) (hk : 13 ≤ k) (hN : N ≤ 2^30) (hq : 68 ≤ QT)
    (s : Fin N → Int) (hs : ∀ k, s k = -1 ∨ s k = 0 ∨ s k = 1) (h1 : 49 ≤ (univ.filter fun k => s k ≠ 0).card)
    (h2 : (univ.filter fun k => s k ≠ 0).card ≤ 128) (pt : R_Q 60 N) (hpt : ∀ k, |(pt k).sval| + 8 ≤ 2^51) (ct0 : R_Q_square 60 N) (ρ : Rng) :
    ∃ t : Fin N → Fin (nlimb 60) → Fin 5 → Fin (R+1), Ok (do
        let ct ← enc R pt s ct0 (maskStream t ρ)
        dec (mod_raise QT ct.1) s) fun M => ∃ k, 10 * (M k).sval < -237 * 2^60 := by
  have h1' : (49:ℤ) ≤ ((univ.filter fun k => s k ≠ 0).card : ℤ) := by exact_mod_cast h1
  have h2' : ((univ.filter fun k => s k ≠ 0).card : ℤ) ≤ 128 := by exact_mod_cast h2
  obtain ⟨t, ht⟩ := exists_raised (QT := QT) R k hR hk hN hq hs pt hpt ct0 ρ (x := 2^59-1) (by norm_num) (by norm_num) (-1) (Or.inr rfl) (by
    generalize ((univ.filter fun k => s k ≠ 0).card : ℤ) = w at *
    norm_num
    omega)
  refine ⟨t, Ok.mono ht fun M ⟨_, hM⟩ => ⟨⟨N-1, by omega⟩, ?_⟩⟩
  obtain ⟨I, h3, h4⟩ := hM ⟨N-1, by omega⟩ (by simp only; omega)
  have h5 := abs_le.1 h3
  have h6 := abs_le.1 h4
  generalize ((univ.filter fun k => s k ≠ 0).card : ℤ) = w at *
  norm_num at h5 h6 ⊢
  omega

section
variable {n QT Q0 Q1 Q2 Q3 Q4 Q5 Q6 Q7 Q8 Q9 Q10 Q11 Q12 QS : Nat} [NeZero QT] [NeZero Q0] [NeZero Q1] [NeZero Q2] [NeZero Q3]
  [NeZero Q4] [NeZero Q5] [NeZero Q6] [NeZero Q7] [NeZero Q8] [NeZero Q9] [NeZero Q10] [NeZero Q11] [NeZero Q12] [NeZero QS]

/-- C105: whatever key of 37 to 128 entries `keygen` returns in end_to_end_test, and whatever is drawn after the mask, there are draws of the mask for which
the program prints errors of at least 16000 after CoeffToSlot and EvalqI, although the bootstrapped message is within the bounds of C91. -/
theorem C105_wrong_print {L : LibmP} (hLib : L.Accurate) (R k : Nat) (hR : R + 1 = 2^k) (hk13 : 13 ≤ k) {G b b' LDs : Nat} (hp : BootParam2 n G b b')
    (hLDs : LDs = 50 ∨ LDs = 60)
    (hQ0 : QT = Q0 + n/G * 60) (hC : EvalModChain 60 Q0 Q1 Q2 Q3 Q4 Q5 Q6 Q7 Q8 Q9 Q10 Q11 Q12) (hQS : Q12 = QS + n/G * LDs)
    (hlo : 65 ≤ QS) (hhi : QT ≤ 1525) (H : Int) (hH0 : 37 ≤ H) (hH : H ≤ 128)
    (z : CVec (n+1)) (hz : ∀ i : Fin (2^n), ‖(⟨z.1 i, z.2 i⟩ : ℂ)‖ ≤ 1) (ct0 : R_Q_square 60 (2^(n+1))) (ω ω1 : Rng)
    (s : Fin (2^(n+1)) → Int) (hk : keygen (2^(n+1)) H ω = pure (s, ω1)) :
    ∃ c, (∀ σ, keygen (2^(n+1)) H (splice c ω σ) = pure (s, σ)) ∧ ∀ ρ, ∃ t : Fin (2^(n+1)) → Fin (nlimb 60) → Fin 5 → Fin (R+1),
      Ok (endToEndDriverF L R 60 LDs G QT Q0 Q1 Q2 Q3 Q4 Q5 Q6 Q7 Q8 Q9 Q10 Q11 Q12 QS H z ct0 (splice c ω (maskStream t ρ))) fun o =>
        ResultClose b o ∧ 16000 ≤ o.cts_error ∧ 16000 ≤ o.evalqI_error := by
  have hn : 8 ≤ n ∧ n ≤ 16 := by rcases hp with ⟨rfl, rfl, rfl, rfl⟩ | ⟨rfl, rfl, rfl, rfl⟩ | ⟨rfl, rfl, rfl, rfl⟩ <;> norm_num
  have hN : 2^(n+1) ≤ 2^30 := Nat.pow_le_pow_right (by norm_num) (by omega)
  have hpos : 0 < 2^(n+1) := by positivity
  have hq : 68 ≤ QT := by unfold EvalModChain at hC; omega
  obtain ⟨c, hc⟩ := keygen_local H ω hk
  obtain ⟨hs, hw⟩ := C19_keygen_weight H ω ω1 s hk
  obtain ⟨pt, ept, hpt⟩ := encode_sizeF hLib.1 (n := n) (by omega) (by omega) hz
  refine ⟨c, hc, fun ρ => ?_⟩
  have hwz : ((univ.filter fun k => s k ≠ 0).card : ℤ) = H := by rw [hw]; omega
  have hd := Int.mul_ediv_add_emod (18 * 2^60) H
  have hd1 := Int.emod_nonneg (18 * 2^60) (by omega : H ≠ 0)
  have hd2 := Int.emod_lt_of_pos (18 * 2^60) (by omega : 0 < H)
  have hx0 : 0 ≤ 18 * 2^60 / H := Int.ediv_nonneg (by norm_num) (by omega)
  have hx1 : 18 * 2^60 / H < 2^59 := Int.ediv_lt_of_lt_mul (by omega) (by norm_num; omega)
  rw [mul_comm] at hd
  generalize (18 * 2^60 : ℤ) / H = x at *
  generalize (18 * 2^60 : ℤ) % H = r at *
  have hX1 : x * H ≤ 18 * 2^60 := by omega
  have hX2 : 18 * 2^60 - 128 < x * H := by omega
  obtain ⟨t, ht⟩ := exists_raised (QT := QT) R k hR hk13 hN hq hs pt hpt ct0 ρ hx0 hx1 1 (Or.inl rfl) (by rw [hwz]; exact hX1.trans (by norm_num))
  refine ⟨t, ?_⟩
  obtain ⟨⟨ct, ω2⟩, ect, -⟩ := enc_spec R hN hs pt ct0 (maskStream t ρ)
  rw [ect, pure_bind] at ht
  obtain ⟨M, eM, hM1, hM2⟩ := ht
  rw [hwz] at hM1 hM2
  refine Ok.mono (end_to_end_of_range hLib R hp hLDs hQ0 hC hQS hlo hhi H hH z hz ct0 (hc _) ept ect eM fun k => ?_)
    fun o ⟨h1, _, _, h4⟩ => ⟨h1, h4 ⟨⟨2^(n+1)-1, by omega⟩, ?_⟩⟩
  · have := abs_le.1 (hM1 k)
    norm_num at this hX1 ⊢
    omega
  · obtain ⟨I, h5, h6⟩ := hM2 ⟨2^(n+1)-1, by omega⟩ (by simp only; omega)
    have h7 := abs_le.1 h5
    have h8 := abs_le.1 h6
    refine le_abs.2 (Or.inl ?_)
    norm_num at h7 h8 hX1 hX2 ⊢
    omega

end

/-- `C105_leaves` is not vacuous: the message 0 and the key with 128 leading ones, at LOGN = 9 and the raised modulus of rns.h. -/
example (ct0 : R_Q_square 60 (2^(8+1))) (ρ : Rng) :
    ∃ t : Fin (2^(8+1)) → Fin (nlimb 60) → Fin 5 → Fin (2^31-1+1), Ok (do
        let ct ← enc (2^31-1) (fun _ => Z_Q.ofNat 60 0) (onesKey (2^(8+1)) 128) ct0 (maskStream t ρ)
        dec (mod_raise 1450 ct.1) (onesKey (2^(8+1)) 128)) fun M => ∃ k, 10 * (M k).sval < -237 * 2^60 := by
  have hw : (univ.filter fun k => onesKey (2^(8+1)) 128 k ≠ 0).card = 128 := onesKey_weight (by norm_num)
  refine C105_leaves (by norm_num) (2^31-1) 31 (by norm_num) (by norm_num) (by norm_num) (by norm_num) _ onesKey_tern (by rw [hw]; norm_num)
    (by rw [hw]) _ (fun k => ?_) ct0 ρ
  have : (Z_Q.ofNat 60 0).sval = 0 := by decide +kernel
  rw [this]; norm_num

/-- C105 for `end_to_end_test<9,60,60,2>` as it stands, end_to_end_test.cpp:196 with the parameters of rns.h, the test message and its key of 128 entries. -/
theorem C105_test {L : LibmP} (hLib : L.Accurate) (R k : Nat) (hR : R + 1 = 2^k) (hk13 : 13 ≤ k) (z : CVec (8+1))
    (ez : set_test_messageF L.toLibm (8+1) = pure z) (ct0 : R_Q_square 60 (2^(8+1))) :
    ∃ ω : Rng, Ok (endToEndDriverF L R 60 60 2 1450 1210 1150 1090 1030 970 910 850 790 730 670 610 550 490 250 128 z ct0 ω) fun o =>
      16000 ≤ o.cts_error ∧ 16000 ≤ o.evalqI_error ∧ o.evalmod_error ≤ 1/32768 ∧ o.e_norm ≤ 1/32767 ∧ o.max_err_real ≤ 1/63 ∧
        o.max_err_imag ≤ 1/63 := by
  obtain ⟨z', ez', hz⟩ := C79_test_message hLib.1 (LOGN := 8+1) (by norm_num)
  obtain rfl := pure_inj (ez.symm.trans ez')
  obtain ⟨⟨s, ω1⟩, hk, -, -⟩ := C19_keygen_returns (N := 2^(8+1)) 128 (by norm_num) id (fun j l => ⟨j + 2^(8+1) * l, by
      have : 1 ≤ 2^(8+1) := by norm_num
      nlinarith, by
      simp only [id]
      rw [Nat.add_mul_mod_self_left, Nat.mod_eq_of_lt j.isLt]⟩)
  obtain ⟨c, -, h⟩ := C105_wrong_print hLib (n := 8) (QT := 1450) (Q0 := 1210) (Q1 := 1150) (Q2 := 1090) (Q3 := 1030) (Q4 := 970)
    (Q5 := 910) (Q6 := 850) (Q7 := 790) (Q8 := 730) (Q9 := 670) (Q10 := 610) (Q11 := 550) (Q12 := 490) (QS := 250) R k hR hk13
    (Or.inl ⟨rfl, rfl, rfl, rfl⟩) (Or.inr rfl) (by norm_num) (by unfold EvalModChain; norm_num) (by norm_num) (by norm_num) (by norm_num) 128
    (by norm_num) (by norm_num) z (fun i => (hz i).2) ct0 id ω1 s hk
  obtain ⟨t, ht⟩ := h id
  exact ⟨_, Ok.mono ht fun o ⟨⟨g1, g2, g3, g4⟩, g5, g6⟩ => ⟨g5, g6, g1.trans (by norm_num), g2.trans (by norm_num), g3.trans (by norm_num),
    g4.trans (by norm_num)⟩⟩

-- the hypotheses of `C105_test` hold for the exact functions of the reals
example : ∃ z, set_test_messageF exactLibmP.toLibm (8+1) = pure z ∧ ((2^31-1 : Nat) + 1 = 2^31) :=
  have ⟨z, ez, _⟩ := C79_test_message exactLibmP_accurate.1 (LOGN := 8+1) (by norm_num)
  ⟨z, ez, by norm_num⟩

end EvalRound

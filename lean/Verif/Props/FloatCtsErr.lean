import Verif.Proofs.FloatCtsErr
import Verif.Props.FloatMeasure
import Verif.Props.FloatSup

/-!
# C97: `measure_cts_error` and `measure_sup_norm` in binary64
-/

namespace EvalRound
open Z_Q Finset

variable {n G b : Nat} {L : LibmP} {QT : Nat} [NeZero QT]

/-- the raised message, for keys of weight at most 128 -/
theorem raised_66 {N : Nat} (hN : N ≤ 2^30) (hq : 69 ≤ QT) {s : Fin N → Int}
    (hs : Ternary s) (hh : weight s ≤ 128) {ct : R_Q_square 60 N} (hct : ct.Canonical)
    {m : R_Q 60 N} (hm : dec ct s = pure m) (hB : ∀ k, |(m k).sval| ≤ 2^51) {M : R_Q QT N}
    (hM : dec (mod_raise QT ct) s = pure M) :
    ∃ I : Fin N → Int, ∀ k, (M k).sval = (m k).sval + 2^60 * I k ∧ |(M k).sval| ≤ 66 * 2^60 ∧ |I k| ≤ 65 := by
  obtain ⟨m', h1, _, h3⟩ := dec_spec hN hs ct
  obtain ⟨M', g1, _, g3⟩ := dec_spec hN hs (mod_raise QT ct)
  obtain rfl := pure_inj (hm.symm.trans h1)
  obtain rfl := pure_inj (hM.symm.trans g1)
  obtain ⟨_, I, hI, h⟩ := mod_raise_phase (LT := QT) hct s (R_Q.sval m) (by rw [← cls_red_sval, h3]) (fun i => abs_sval_le _)
  have h4 := hs.sum_abs
  refine ⟨I, fun k => ?_⟩
  have h5 := hI k
  rw [h4] at h5
  have h6 : |I k| ≤ 65 := by omega
  have h7 := abs_le.1 h6
  have h8 := abs_le.1 (hB k)
  have hp : (2:ℤ)^68 ≤ 2^(QT-1) := pow_le_pow_right₀ (by norm_num) (by omega)
  have e : (M k).sval = (m k).sval + 2^60 * I k := by
    refine sval_eq_of_cls (t := (m k).sval + 2^60 * I k) (congrFun (g3.trans h) k) ?_ ?_
    · refine (neg_le_neg hp).trans ?_
      norm_num at h8 ⊢
      omega
    · refine lt_of_lt_of_le ?_ hp
      norm_num at h8 ⊢
      omega
  refine ⟨e, ?_, h6⟩
  rw [e, abs_le]
  norm_num at h8 ⊢
  omega

/-- a coefficient that does not fit a word is far from its low word -/
theorem low_large {x : ℤ} (h : 2^64 ≤ |x|) : 2^64 ≤ |x - x.sign * (x.natAbs % 2^64 : Nat)| := by
  rcases le_total 0 x with hx | hx
  · have h0 : 0 < x := by
      rw [abs_of_nonneg hx] at h
      exact lt_of_lt_of_le (by norm_num) h
    rw [abs_of_nonneg hx] at h
    rw [Int.sign_eq_one_of_pos h0]
    refine le_trans ?_ (le_abs_self _)
    omega
  · have h0 : x < 0 := by
      rw [abs_of_nonpos hx] at h
      omega
    rw [abs_of_nonpos hx] at h
    rw [Int.sign_eq_neg_one_of_neg h0]
    refine le_trans ?_ (neg_le_abs _)
    omega

theorem natAbs_near {x y : ℤ} (h1 : |x - y| ≤ 8) (h2 : |x| ≤ 2^51) : y.natAbs < 2^53 := by
  have h3 : |y| < 2^53 := by
    have h4 := abs_sub_abs_le_abs_sub y x
    rw [abs_sub_comm] at h4
    calc |y| ≤ 2^51 + 8 := by linarith
      _ < 2^53 := by norm_num
  rw [Int.abs_eq_natAbs] at h3
  exact_mod_cast h3

/-- the norm of a decoded message -/
theorem norm_decodedF (hn : n ≤ 16) {z : CVec (n+1)} {y : Fin (2^n) → ℂ} {S : ℝ} (hS : S = Real.sqrt (∑ i, ‖y i‖^2)) (hS2 : S ≤ 2^100)
    (hz : Real.sqrt (∑ i : Fin (2^n), ‖(⟨z.1 i, z.2 i⟩ : ℂ) - y i‖^2) ≤ (28 * n + 8) / 2^53 * S + 1/2^900) :
    Ok (MsgF.norm z) fun r => |r - S| ≤ 1/2^36 * S + 1/2^500 := by
  have hS0 : 0 ≤ S := by rw [hS]; exact Real.sqrt_nonneg _
  have hn' : (n:ℝ) ≤ 16 := by exact_mod_cast hn
  obtain ⟨T, hT⟩ : ∃ T : ℝ, T = Real.sqrt (∑ i : Fin (2^n), ‖(⟨z.1 i, z.2 i⟩ : ℂ)‖^2) := ⟨_, rfl⟩
  have hT0 : 0 ≤ T := by rw [hT]; exact Real.sqrt_nonneg _
  have h1 : |T - S| ≤ (28 * n + 8) / 2^53 * S + 1/2^900 := by
    rw [hT, hS]
    rw [hS] at hz
    exact (l2_sub_abs (fun i : Fin (2^n) => (⟨z.1 i, z.2 i⟩ : ℂ)) y).trans hz
  have h2 : ((28 * n + 8) / 2^53 : ℝ) * S ≤ 1/2^44 * S := by
    refine mul_le_mul_of_nonneg_right ?_ hS0
    rw [div_le_iff₀ (by positivity)]
    norm_num
    linarith
  have t9 : (1:ℝ)/2^900 ≤ 1/2^502 := one_div_le_one_div_of_le (by positivity) (pow_le_pow_right₀ (by norm_num) (by norm_num))
  have t5 : (1:ℝ)/2^519 ≤ 1/2^502 := one_div_le_one_div_of_le (by positivity) (pow_le_pow_right₀ (by norm_num) (by norm_num))
  have t6 : (1:ℝ)/2^500 = 4 * (1/2^502) := by rw [show 502 = 2 + 500 by norm_num, pow_add]; field_simp; norm_num
  have t7 : (1:ℝ)/2^502 ≤ 1 := by
    rw [div_le_one (by positivity)]
    exact one_le_pow₀ (by norm_num)
  have t8 : (0:ℝ) ≤ 1/2^502 := by positivity
  have h3 : T ≤ (1 + 1/2^44) * S + 1/2^502 := by
    have := (abs_le.1 h1).2
    linarith
  have hT2 : T ≤ 2^102 := by
    clear t5 t6
    generalize (1:ℝ)/2^502 = X at *
    norm_num at h3 hS2 ⊢
    linarith
  have hsq : ∑ i : Fin (2^n), ‖(⟨z.1 i, z.2 i⟩ : ℂ)‖^2 ≤ 2^1000 := by
    have e : T^2 = ∑ i : Fin (2^n), ‖(⟨z.1 i, z.2 i⟩ : ℂ)‖^2 := by
      rw [hT]
      exact Real.sq_sqrt (sum_nonneg fun _ _ => sq_nonneg _)
    rw [← e]
    refine (pow_le_pow_left₀ hT0 hT2 2).trans ?_
    rw [← pow_mul]
    exact pow_le_pow_right₀ (by norm_num) (by norm_num)
  have hN : 2^n ≤ 2^20 := Nat.pow_le_pow_right (by norm_num) (by omega)
  refine Ok.mono (C84_norm (n := 2^n) hN z hsq) fun r ⟨_, hr⟩ => ?_
  rw [← hT] at hr
  have h4 : ((1.1 * ((2^n : Nat) : ℝ) + 5) / 2^53) * T ≤ 0.6 / 2^36 * T := by
    refine mul_le_mul_of_nonneg_right ?_ hT0
    have h5 : ((2^n : Nat) : ℝ) ≤ 2^16 := by
      have h6 : (2:Nat)^n ≤ 2^16 := Nat.pow_le_pow_right (by norm_num) hn
      exact_mod_cast h6
    rw [div_le_iff₀ (by positivity)]
    norm_num at h5 ⊢
    linarith
  have h5 : |r - S| ≤ |r - T| + |T - S| := abs_sub_le _ _ _
  have h6 : |r - T| ≤ 0.6 / 2^36 * T + 1/2^502 := by linarith
  have h7 : |T - S| ≤ 1/2^44 * S + 1/2^502 := by linarith
  rw [t6]
  clear hr t5 t9 t6 h1 h2 hsq hz hT2
  generalize (1:ℝ)/2^502 = X at *
  norm_num at h3 h6 h7 ⊢
  linarith

/-- C97: what `measure_cts_error` and `measure_sup_norm` compute in binary64 before the out-of-bounds read of `C97_ub`. The raised message `a.pt` is
the encoded one, up to the encryption error, plus a multiple of `2^60`. The printed `norm(z_amb)` is near the norm of its slots, and the two norms of
`pt_q/Delta` near the exact ones. The two messages `e` are at most `2^b/Delta` when the coefficients of `a.pt` fit a word; but as soon as one does not,
the conversion to `double` keeps its low word only, and `e` has an entry above 16000. -/
theorem C97_measured (hLib : L.Accurate) (R : Nat) (hp : CtsParam n G b) (h1 : 512 ≤ QT) (h2 : QT ≤ 1525) {H : Int} (hH : H ≤ 128) {ρ : RealRng}
    (hρ : ∀ j, |ρ j| ≤ 1 / Real.sqrt 2) (ct0 : R_Q_square 60 (2^(n+1))) {ω ω1 : Rng} {s : Fin (2^(n+1)) → Int}
    (hk : keygen (2^(n+1)) H ω = pure (s, ω1)) :
    Ok (ctsSetupF (LOGN := n+1) L R QT H ρ ct0 ω) fun a => a.s = s ∧
      (∃ I : Fin (2^(n+1)) → Int, ∀ k, |(a.pt k).sval - (a.pt_q k).sval - 2^60 * I k| ≤ 8 ∧ |I k| ≤ 65) ∧
      (Ok (MsgF.norm a.z_amb) fun r => |r - Real.sqrt (∑ i : Fin (2^n), ‖slotOf (fun k => ((a.pt k).sval : ℝ) / 2^50) i‖^2)| ≤
        1/2^36 * Real.sqrt (∑ i : Fin (2^n), ‖slotOf (fun k => ((a.pt k).sval : ℝ) / 2^50) i‖^2) + 1/2^500) ∧
      (Ok (ptNormsF a.pt_q) fun p =>
        |p.1 - Real.sqrt (∑ k, (((a.pt_q k).sval : ℝ) / 2^50)^2)| ≤
          (1.1 * 2^(n+1) + 5)/2^53 * Real.sqrt (∑ k, (((a.pt_q k).sval : ℝ) / 2^50)^2) + 1/2^519 ∧
        (∀ k, |((a.pt_q k).sval : ℝ)| / 2^50 ≤ p.2) ∧ ∃ k, p.2 = |((a.pt_q k).sval : ℝ)| / 2^50) ∧
      Ok (ctsErrorsF L R 50 G QT a) fun e =>
        ((∀ k, |(a.pt k).sval| < 2^64) → ∀ i : Fin (2^n), ‖(⟨e.1.1 i, e.1.2 i⟩ : ℂ)‖ ≤ 2^b / 2^50 ∧ ‖(⟨e.2.1 i, e.2.2 i⟩ : ℂ)‖ ≤ 2^b / 2^50) ∧
        ((∃ k, 2^64 ≤ |(a.pt k).sval|) → ∃ i : Fin (2^n), 16000 ≤ ‖(⟨e.1.1 i, e.1.2 i⟩ : ℂ)‖ ∨ 16000 ≤ ‖(⟨e.2.1 i, e.2.2 i⟩ : ℂ)‖) := by
  have hn : 8 ≤ n ∧ n ≤ 16 ∧ 37 ≤ b ∧ b ≤ 52 := by
    rcases hp with ⟨rfl, rfl, rfl⟩ | ⟨rfl, rfl, rfl⟩ | ⟨rfl, rfl, rfl⟩ <;> norm_num
  obtain ⟨hn8, hn16, hb37, hb52⟩ := hn
  have hN : 2^(n+1) ≤ 2^30 := Nat.pow_le_pow_right (by norm_num) (by omega)
  have hN20 : 2^(n+1) ≤ 2^20 := Nat.pow_le_pow_right (by norm_num) (by omega)
  obtain ⟨hs, hw⟩ := C19_keygen_weight H ω ω1 s hk
  have hs : Ternary s := hs
  have hw : weight s ≤ 128 := by
    have : weight s = H.toNat := hw
    omega
  have hz := random_message_norm (n+1) hρ
  have hδ : (((BitVec.ofNat 64 (2^50)).toNat : ℕ) : ℝ) = 2^50 := toNat_scale (by norm_num)
  obtain ⟨z, hzz⟩ : ∃ z, z = (set_random_message (n+1) ρ).1 := ⟨_, rfl⟩
  rw [← hzz] at hz
  obtain ⟨pt, ept, hpc, -⟩ := encode_diagF (LOGQ := 60) hLib.1 (by omega) hn16 (by norm_num) z fun i => (hz i).trans (by norm_num)
  obtain ⟨⟨ct, ω2⟩, ect, -, -⟩ := enc_spec R hN hs pt ct0 ω1
  obtain ⟨hct, m, em, hm8, hm51⟩ := fresh_decF hLib.1 R (LOGN := n+1) (by omega) (by omega) hz hs ept ect
  obtain ⟨M, eM, hMc, -⟩ := dec_spec hN hs (mod_raise QT ct)
  obtain ⟨I, hI⟩ := raised_66 hN (by omega) hs hw hct em hm51 eM
  have hM : ∀ k, |((M k).sval : ℝ)| ≤ 66 * 2^60 := fun k => by exact_mod_cast (hI k).2.1
  have hM900 : ∀ k, |((M k).sval : ℝ)| ≤ 2^900 := fun k => by
    refine (hM k).trans (le_trans (b := (2:ℝ)^67) (by norm_num) (pow_le_pow_right₀ (by norm_num) (by norm_num)))
  obtain ⟨za, eza, hza⟩ := C73_decode_plain hLib.1 (LOGN := n+1) (by omega) (by omega) (BitVec.ofNat 64 (2^50)) (scale_ne_zero (by norm_num)) M hMc hM900
  rw [hδ] at hza
  unfold ctsSetupF
  rw [hk, pure_bind, show shl1 50 = pure (BitVec.ofNat 64 (2^50)) from rfl, pure_bind]
  dsimp only
  rw [← hzz, ept, pure_bind, ect, pure_bind]
  dsimp only
  rw [show dec (R_Q_square.resize QT ct) s = pure M from eM, pure_bind, eza, pure_bind]
  refine Ok.pure ⟨rfl, ⟨I, fun k => ?_⟩, ?_, ?_, ?_⟩
  · dsimp only
    have g1 := hm8 k
    obtain ⟨g3, -, g4⟩ := hI k
    rw [g3, show (m k).sval + 2^60 * I k - (pt k).sval - 2^60 * I k = (m k).sval - (pt k).sval by ring]
    exact ⟨g1, g4⟩
  · dsimp only
    refine norm_decodedF hn16 rfl ?_ ?_
    · refine Real.sqrt_le_iff.2 ⟨by norm_num, ?_⟩
      have g : ∀ i : Fin (2^n), ‖slotOf (fun k => ((M k).sval : ℝ) / 2^50) i‖^2 ≤ (2^34)^2 := fun i => by
        refine pow_le_pow_left₀ (norm_nonneg _) ?_ 2
        refine (norm_slotOf_le (ε := 2^17) (fun k => ?_) i).trans ?_
        · rw [abs_div, abs_of_pos (show (0:ℝ) < 2^50 by norm_num), div_le_iff₀ (by norm_num)]
          exact (hM k).trans (by norm_num)
        · have : (((2^(n+1) : Nat)) : ℝ) ≤ 2^17 := by
            have h6 : (2:Nat)^(n+1) ≤ 2^17 := Nat.pow_le_pow_right (by norm_num) (by omega)
            exact_mod_cast h6
          norm_num at this ⊢
          linarith
      refine (sum_le_sum fun i _ => g i).trans ?_
      rw [sum_const, card_univ, Fintype.card_fin, nsmul_eq_mul]
      have : (((2^n : Nat)) : ℝ) ≤ 2^16 := by
        have h6 : (2:Nat)^n ≤ 2^16 := Nat.pow_le_pow_right (by norm_num) hn16
        exact_mod_cast h6
      refine (mul_le_mul_of_nonneg_right this (by norm_num)).trans (by norm_num)
    · have e : (28 * (((n+1 : Nat) : ℝ) - 1) + 8 : ℝ) = 28 * n + 8 := by push_cast; ring
      rw [e] at hza
      exact hza
  · dsimp only
    refine Ok.mono (ptNormsF_ok hN20 pt hpc fun k => ?_) fun p ⟨⟨_, g1⟩, g2, g3⟩ => ⟨?_, g2, g3 (Nat.two_pow_pos _)⟩
    · exact natAbs_near (hm8 k) (hm51 k)
    · rw [Nat.cast_pow, Nat.cast_ofNat] at g1
      exact g1
  · refine Ok.mono (ctsErrorsF_ok hLib R hp h1 h2 ⟨s, ω2, pt, mod_raise QT ct, M, za⟩ hs hw
      ⟨fun i => canonical_resize _, fun i => canonical_resize _⟩ eM hM) fun e ⟨x, hx, he⟩ => ?_
    dsimp only at hx he ⊢
    obtain ⟨low, hlow⟩ : ∃ low : Fin (2^(n+1)) → ℤ, low = fun k => (M k).sval.sign * ((M k).sval.natAbs % 2^64 : Nat) := ⟨_, rfl⟩
    have he : ∀ i : Fin (2^n), abs (‖(⟨e.1.1 i, e.1.2 i⟩ : ℂ)‖ - |x (loIdx i) - low (loIdx i)| / 2^50) ≤ 1/2^19 ∧
        abs (‖(⟨e.2.1 i, e.2.2 i⟩ : ℂ)‖ - |x (hiIdx i) - low (hiIdx i)| / 2^50) ≤ 1/2^19 := by
      rw [hlow]
      exact he
    have hlow := congrFun hlow
    have hbl : (2:ℝ)^37 ≤ 2^b := pow_le_pow_right₀ (by norm_num) hb37
    have hbu : (2:ℝ)^b ≤ 2^52 := pow_le_pow_right₀ (by norm_num) hb52
    generalize (2:ℝ)^b = B at *
    constructor
    · intro hsm
      have key : ∀ k, |x k - low k| / 2^50 ≤ 63/64 * B / 2^50 := fun k => by
        rw [hlow, low_small (hsm k)]
        exact div_le_div_of_nonneg_right (hx k) (by norm_num)
      intro i
      obtain ⟨g1, g2⟩ := he i
      have k1 := key (loIdx i)
      have k2 := key (hiIdx i)
      have g1 := (abs_le.1 g1).2
      have g2 := (abs_le.1 g2).2
      have hB : 63/64 * B / 2^50 + 1/2^19 ≤ B / 2^50 := by
        rw [div_add_div _ _ (by norm_num) (by norm_num), div_le_div_iff₀ (by norm_num) (by norm_num)]
        norm_num at hbl ⊢
        linarith
      constructor <;> linarith
    · rintro ⟨k, hk⟩
      have key : (16001:ℝ) ≤ |x k - low k| / 2^50 := by
        have g3 : (2:ℤ)^64 ≤ |(M k).sval - low k| := by
          rw [hlow]
          exact low_large hk
        have g4 : (2:ℝ)^64 ≤ |((M k).sval : ℝ) - low k| := by exact_mod_cast g3
        rw [le_div_iff₀ (by norm_num)]
        have g5 := abs_sub_le ((M k).sval : ℝ) (x k) (low k)
        have g6 := hx k
        rw [abs_sub_comm] at g6
        norm_num at g4 g6 hbu ⊢
        linarith
      have h19 : (1:ℝ)/2^19 ≤ 1 := by norm_num
      clear hk
      revert key
      refine lo_hi (P := fun k => (16001:ℝ) ≤ |x k - low k| / 2^50 →
        ∃ i : Fin (2^n), 16000 ≤ ‖(⟨e.1.1 i, e.1.2 i⟩ : ℂ)‖ ∨ 16000 ≤ ‖(⟨e.2.1 i, e.2.2 i⟩ : ℂ)‖) (fun i h => ?_) (fun i h => ?_) k
      · refine ⟨i, Or.inl ?_⟩
        have := (abs_le.1 (he i).1).1
        linarith
      · refine ⟨i, Or.inr ?_⟩
        have := (abs_le.1 (he i).2).1
        linarith

/-- C97: in binary64 too, neither program gets to its last lines: `aggregate` reads outside of an array. -/
theorem C97_ub (hLib : L.Accurate) (R : Nat) (hp : CtsParam n G b) (h1 : 512 ≤ QT) (h2 : QT ≤ 1525) {H : Int} (hH : H ≤ 128) {ρ : RealRng}
    (hρ : ∀ j, |ρ j| ≤ 1 / Real.sqrt 2) (ct0 : R_Q_square 60 (2^(n+1))) {ω ω1 : Rng} {s : Fin (2^(n+1)) → Int}
    (hk : keygen (2^(n+1)) H ω = pure (s, ω1)) :
    measure_cts_errorF (LOGN := n+1) L R 50 G QT H ρ ct0 ω = ub ∧ measure_sup_normF (LOGN := n+1) L R 50 G QT H ρ ct0 ω = ub := by
  have hG : assertM (decide ((n + 1 - 1) % G = 0)) = pure () := by
    rcases hp with ⟨rfl, rfl, rfl⟩ | ⟨rfl, rfl, rfl⟩ | ⟨rfl, rfl, rfl⟩ <;> rfl
  obtain ⟨a, ea, -, -, ⟨r, er, -⟩, ⟨p, ep, -⟩, ⟨e, ee, -⟩⟩ := C97_measured hLib R hp h1 h2 hH hρ ct0 hk
  constructor
  · unfold measure_cts_errorF
    rw [hG, pure_bind, ea, pure_bind, er, pure_bind, ee, pure_bind, C40_aggregate (by omega), ub_bind]
  · unfold measure_sup_normF
    rw [hG, pure_bind, ea, pure_bind, ep, pure_bind, ee, pure_bind, C40_aggregate (by omega), ub_bind]

/-- The drivers meet the hypotheses of `C97_measured` and `C97_ub`: LOGN = 9, with a stream from which `keygen` returns a key of weight 128. -/
example (ct0 : R_Q_square 60 (2^(8+1))) :
    measure_cts_errorF (LOGN := 8+1) exactLibmP (2^31-1) 50 2 1450 128 (fun _ => 1/2) ct0 id = ub ∧
    measure_sup_normF (LOGN := 8+1) exactLibmP (2^31-1) 50 2 1450 128 (fun _ => 1/2) ct0 id = ub := by
  obtain ⟨⟨s, ω1⟩, hk, -⟩ := C19_keygen_returns (N := 2^(8+1)) 128 (by norm_num) id (fun j l => ⟨j + 2^(8+1) * l, by
      have : 1 ≤ 2^(8+1) := by norm_num
      nlinarith, by
      have := j.isLt
      simp only [id]
      rw [Nat.add_mul_mod_self_left, Nat.mod_eq_of_lt this]⟩)
  refine C97_ub (n := 8) (G := 2) (b := 37) exactLibmP_accurate (2^31-1) (Or.inl ⟨rfl, rfl, rfl⟩) (by norm_num) (by norm_num) (H := 128) (by norm_num)
    (ρ := fun _ => 1/2) (fun _ => ?_) ct0 hk
  rw [abs_of_pos (by norm_num), div_le_div_iff₀ (by norm_num) (Real.sqrt_pos.2 (by norm_num)), one_mul, one_mul,
    Real.sqrt_le_left (by norm_num)]
  norm_num

end EvalRound

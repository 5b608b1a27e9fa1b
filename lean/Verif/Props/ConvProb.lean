import Verif.Props.FloatTests
import Verif.Props.RaiseProb
import Verif.Proofs.SwitchProb

/-! # C103: ctxt_conv_test in binary64, over the draws of the evaluation key and of the encryption -/

set_option linter.unusedSectionVars false

namespace EvalRound
open Finset Z_Q

variable {n LOGQ : Nat} [NeZero LOGQ] {L : LibmP}

open Classical in
/-- two blocks of draws: few of the second are bad, and for each of the others few of the first -/
theorem two_blocks {α β : Type} [Fintype α] [Fintype β] {good : α × β → Prop} {bad : β → Prop} {a b : ℝ} (hb0 : 0 ≤ b)
    (ha : ((univ.filter fun q => bad q).card : ℝ) ≤ a * Fintype.card β)
    (hb : ∀ q, ¬ bad q → ((univ.filter fun p => ¬ good (p, q)).card : ℝ) ≤ b * Fintype.card α) :
    ((univ.filter fun x => ¬ good x).card : ℝ) ≤ (a + b) * Fintype.card (α × β) := by
  have h1 : (univ.filter fun x => ¬ good x) ⊆ (univ ×ˢ univ.filter fun q => bad q) ∪ univ.filter fun x : α × β => ¬ good x ∧ ¬ bad x.2 := by
    intro x hx
    simp only [mem_filter, mem_univ, true_and, mem_union, mem_product] at hx ⊢
    tauto
  have h2 : ((univ.filter fun x : α × β => ¬ good x ∧ ¬ bad x.2).card : ℝ) ≤ b * Fintype.card α * Fintype.card β := by
    rw [card_filter, Fintype.sum_prod_type_right]
    push_cast
    refine (sum_le_card_nsmul _ _ (b * Fintype.card α) fun q _ => ?_).trans (le_of_eq ?_)
    · by_cases hq : bad q
      · simp only [hq, not_true_eq_false, and_false, if_false, sum_const_zero]
        positivity
      · simp only [hq, not_false_eq_true, and_true]
        have := hb q hq
        rw [card_filter] at this
        push_cast at this
        exact this
    · rw [card_univ, nsmul_eq_mul]; ring
  have h3 := (card_le_card h1).trans (card_union_le _ _)
  rw [card_product, card_univ] at h3
  have h4 : ((univ.filter fun x => ¬ good x).card : ℝ) ≤ Fintype.card α * (univ.filter fun q => bad q).card +
      (univ.filter fun x : α × β => ¬ good x ∧ ¬ bad x.2).card := by exact_mod_cast h3
  have h5 : (Fintype.card α : ℝ) * (univ.filter fun q => bad q).card ≤ Fintype.card α * (a * Fintype.card β) :=
    mul_le_mul_of_nonneg_left ha (Nat.cast_nonneg _)
  rw [Fintype.card_prod, Nat.cast_mul]
  nlinarith

/-- `enc` on the draws `t`, `u`: the error of the slots is the one of the encoding and the noise of `u` -/
theorem enc_noiseS {R : Nat} (hn : n ≤ 26) {s : Fin (2^(n+1)) → Int} (hs : Ternary s) (pt : R_Q LOGQ (2^(n+1)))
    {x : Fin (2^n) → ℂ} {ε T : ℝ} (hx : ∀ i, ‖slots n (R_Q.sval pt) i - x i‖ ≤ ε) (ct0 : R_Q_square LOGQ (2^(n+1))) (ρ : Rng)
    (t : Fin (2^(n+1)) → Fin (nlimb LOGQ) → Fin 5 → Fin (R+1)) (u : Fin (2^(n+1)) → Fin 2 → Fin (R+1))
    (hT : ∀ i < 2^(n+1)/2, ‖slotOf (fun k => (noiseVal (u k 0) (u k 1) : ℝ)) i‖ < T) :
    Ok (enc R pt s ct0 (maskStream t (noiseStream u ρ))) fun r => Near s r.1 x (ε + T) := by
  have hN : 2^(n+1) ≤ 2^30 := Nat.pow_le_pow_right (by norm_num) (by omega)
  obtain ⟨r, hr, -, -, m, hm, hm2⟩ := C98_enc hN t u ρ pt s hs ct0
  obtain ⟨r', hr', hc, -⟩ := enc_spec R hN hs pt ct0 (maskStream t (noiseStream u ρ))
  obtain rfl := pure_inj (hr.symm.trans hr')
  obtain ⟨m', hm', -, hph⟩ := dec_spec hN hs r.1
  obtain rfl := pure_inj (hm.symm.trans hm')
  refine ⟨r, hr, hc, R_Q.sval pt + fun k => noiseVal (u k 0) (u k 1), ?_, fun i => ?_⟩
  · rw [← hph, red_add, ← cls_red_sval]
    funext i
    exact (hm2 i).2
  · rw [slots_add, add_sub_right_comm]
    refine (norm_add_le _ _).trans (add_le_add (hx i) (hT i ?_).le)
    have := i.isLt
    rw [pow_succ]; omega

/-- `Near.mul` with the noise of the key in view -/
theorem mul_noiseS {R : Nat} (h1 : ConvLOGQ LOGQ) (h2 : ConvLOGQ (2 * LOGQ)) (hn : n ≤ 16) {s : Fin (2^(n+1)) → Int} (hs : Ternary s)
    {c d : R_Q_square LOGQ (2^(n+1))} {x y : Fin (2^n) → ℂ} {ε δ X Y : ℝ}
    (hc : Near s c x ε) (hd : Near s d y δ) (hx : ∀ i, ‖x i‖ ≤ X) (hy : ∀ i, ‖y i‖ ≤ Y)
    (evk0 : R_Q_square (2 * LOGQ) (2^(n+1))) (ct30 : R_Q_square LOGQ (2^(n+1))) {U : ℝ} :
    ∃ w : Fin (2^(n+1)) → Int, (∀ i, |w i| ≤ 2^(LOGQ-1)) ∧ ∀ (t : Fin (2^(n+1)) → Fin (nlimb (2 * LOGQ)) → Fin 5 → Fin (R+1))
      (u : Fin (2^(n+1)) → Fin 2 → Fin (R+1)) (ρ : Rng),
      (∀ i, |((negconv (fun j => noiseVal (u j 0) (u j 1)) w i : Int) : ℝ)| < 2 * U * 2^(LOGQ-1)) →
      Ok (swkgen (LOGQ := LOGQ) R (negconv s s) s evk0 (maskStream t (noiseStream u ρ))) fun r => r.2 = ρ ∧
        Ok (Mul c d r.1 ct30) fun r => Near s r (fun i => x i * y i)
          (X * δ + Y * ε + ε * δ + 2^(n+1) * (U + (weight s + 1) / 2)) := by
  have hN : 2^(n+1) ≤ 2^30 := Nat.pow_le_pow_right (by norm_num) (by omega)
  have hN17 : 2^(n+1) ≤ 2^17 := Nat.pow_le_pow_right (by norm_num) (by omega)
  have hb : ∀ i, -2^31 < negconv s s i ∧ negconv s s i < 2^31 := by
    intro i
    have h3 := negconv_abs_le' s s (A := 1) (B := 1) hs.abs_le (by norm_num) hs.abs_le i
    have h4 : ((2^(n+1) : Nat) : Int) ≤ 2^17 := by exact_mod_cast hN17
    have h5 := abs_le.1 h3
    constructor <;> omega
  obtain ⟨hc1, w, hw, hwe⟩ := hc
  obtain ⟨hd1, v, hv, hve⟩ := hd
  obtain ⟨g, hg, hMul⟩ := Mul_err h1 h2 (by omega) (by omega) hc1 hd1
  refine ⟨g, hg, fun t u ρ hu => ?_⟩
  refine Ok.mono (swkgen_stream hN hb hs evk0 t u ρ) fun r ⟨hr, hρ, hph⟩ => ⟨hρ, ?_⟩
  refine Ok.mono (hMul hr (red_negconv s s) hph ct30) fun z ⟨hz, E, hE, hp⟩ => ⟨hz, negconv w v + E, ?_, fun i => ?_⟩
  · rw [hp, hw, hv, red_add, red_negconv]
  · rw [slots_add, slots_negconv]
    have e1 : slots n w i * slots n v i + slots n E i - x i * y i =
        (x i * (slots n v i - y i) + y i * (slots n w i - x i) + (slots n w i - x i) * (slots n v i - y i)) +
          slots n E i := by ring
    rw [e1]
    have hE' : ‖slots n E i‖ ≤ 2^(n+1) * (U + (weight s + 1) / 2) := by
      refine norm_slots_le (fun k => ?_) i
      have h7 := hE k
      rw [hs.sum_abs] at h7
      have e2 : (2:ℝ)^LOGQ = 2 * 2^(LOGQ-1) := by exact_mod_cast two_mul_half LOGQ
      have h8 := err_scale (L := LOGQ) (T := U) h7 ((hu k).trans_le (le_of_eq (by rw [e2]; ring)))
      linarith
    have a1 := hwe i
    have a2 := hve i
    have hX0 : 0 ≤ X := (norm_nonneg _).trans (hx i)
    have hY0 : 0 ≤ Y := (norm_nonneg _).trans (hy i)
    have hε0 : 0 ≤ ε := (norm_nonneg _).trans a1
    refine (norm_add_le _ _).trans (add_le_add ((norm_add₃_le).trans ?_) hE')
    rw [norm_mul, norm_mul, norm_mul]
    exact add_le_add (add_le_add (mul_le_mul (hx i) a2 (norm_nonneg _) hX0) (mul_le_mul (hy i) a1 (norm_nonneg _) hY0))
      (mul_le_mul a1 a2 (norm_nonneg _) hε0)

open Classical in
/-- C103: `ctxt_conv_test`. Whatever key `keygen` returns, all but a fraction `2N·exp(-3T²/(136N)) + 2N·exp(-3U²/(34N))` of the draws of
`swkgen` and of `enc` lead to two printed messages within the stated errors of the square. (In the worst case, C87, `T` is `8N` and `U` is
`4N`.) -/
theorem C103_ctxt_conv_test (hL : L.Accurate) (R : Nat) (hR : 2 ∣ R + 1) (h1 : 65 ≤ LOGQ) (h2 : LOGQ ≤ 1525) (hn1 : 1 ≤ n) (hn : n ≤ 16)
    (LOGDELTA : Nat) (hD : LOGDELTA < 63) (hDQ : LOGDELTA + 3 ≤ LOGQ) (H : Int)
    (evk0 : R_Q_square (2 * LOGQ) (2^(n+1))) (ct0 ct_sq0 : R_Q_square LOGQ (2^(n+1)))
    (ρ : RealRng) (hρ : ∀ j, |ρ j| ≤ 1 / Real.sqrt 2) (ω ω1 : Rng) (s : Fin (2^(n+1)) → Int) (hk : keygen (2^(n+1)) H ω = pure (s, ω1))
    {T U : ℝ} (hT : 0 ≤ T) (hU : 0 ≤ U) (A E : ℝ) (hA : A = encTol n (2^LOGDELTA) + T)
    (hE : E = 2 * 2^LOGDELTA * A + A^2 + 2^(n+1) * (U + (H.toNat + 1) / 2)) (hq : 2^(2 * LOGDELTA) + E < 2^(LOGQ-1)) (hb : E ≤ 2^200) :
    ∃ c, (∀ σ, keygen (2^(n+1)) H (splice c ω σ) = pure (s, σ)) ∧ ∀ τ : Rng,
      ((univ.filter fun d : ((Fin (2^(n+1)) → Fin (nlimb (2 * LOGQ)) → Fin 5 → Fin (R+1)) × (Fin (2^(n+1)) → Fin 2 → Fin (R+1))) ×
          ((Fin (2^(n+1)) → Fin (nlimb LOGQ) → Fin 5 → Fin (R+1)) × (Fin (2^(n+1)) → Fin 2 → Fin (R+1))) =>
        ¬ Ok (ctxtConvTestF L R LOGDELTA H evk0 ct0 ct_sq0 ρ
            (splice c ω (maskStream d.1.1 (noiseStream d.1.2 (maskStream d.2.1 (noiseStream d.2.2 τ)))))) fun o => ∀ i : Fin (2^n),
          ‖(⟨o.1.1 i, o.1.2 i⟩ : ℂ) - ⟨ρ i, ρ (2^n + i)⟩ ^ 2‖ ≤ 1/2^51 ∧
          ‖(⟨o.2.1 i, o.2.2 i⟩ : ℂ) - ⟨ρ i, ρ (2^n + i)⟩ ^ 2‖ ≤ E / 2^(2 * LOGDELTA) + decTol n (1 + E / 2^(2 * LOGDELTA))).card : ℝ) ≤
        (2 * 2^(n+1) * Real.exp (-(3*T^2 / (136*2^(n+1)))) + 2 * 2^(n+1) * Real.exp (-(3*U^2 / (34*2^(n+1))))) *
          Fintype.card (((Fin (2^(n+1)) → Fin (nlimb (2 * LOGQ)) → Fin 5 → Fin (R+1)) × (Fin (2^(n+1)) → Fin 2 → Fin (R+1))) ×
            ((Fin (2^(n+1)) → Fin (nlimb LOGQ) → Fin 5 → Fin (R+1)) × (Fin (2^(n+1)) → Fin 2 → Fin (R+1)))) := by
  have hN : 2^(n+1) ≤ 2^17 := Nat.pow_le_pow_right (by norm_num) (by omega)
  have ha : ∀ i : Fin (2^n), ‖(⟨(set_random_message (n+1) ρ).1.1 i, (set_random_message (n+1) ρ).1.2 i⟩ : ℂ)‖ ≤ 1 :=
    random_message_norm (n+1) hρ
  have ea : ∀ i : Fin (2^n), (⟨(set_random_message (n+1) ρ).1.1 i, (set_random_message (n+1) ρ).1.2 i⟩ : ℂ) =
    ⟨ρ i, ρ (2^n + i)⟩ := fun _ => rfl
  obtain ⟨c, hc⟩ := keygen_local H ω hk
  obtain ⟨hs, hw⟩ := C19_keygen_weight H ω ω1 s hk
  have hs' : Ternary s := hs
  have hwt : weight s = H.toNat := hw
  refine ⟨c, hc, fun τ => ?_⟩
  obtain ⟨a, hadef⟩ : ∃ a, a = (set_random_message (n+1) ρ).1 := ⟨_, rfl⟩
  rw [← hadef] at ha ea
  have hΔ : (0:ℝ) < 2^LOGDELTA := by positivity
  have hδ := toNat_scale (D := LOGDELTA) (by omega)
  obtain ⟨pt, ept, -, hsl, -⟩ := encodeF_slotsc (Q := LOGQ) hL.1 hn1 (by omega) a (BitVec.ofNat 64 (2^LOGDELTA)) (scale_ne_zero (by omega))
    (B := 1) (C := 1) ha (fun m hm => coeff_le_slots hn1 (by omega) (fun i => by rw [hm i]; exact ha i)) le_rfl
    (by rw [hδ]; exact unit_hB hD) (by rw [hδ]; exact unit_hw hD) (by rw [hδ]; exact unit_hq (by omega))
  have hδ' : (((BitVec.ofNat 64 (2^LOGDELTA)).toNat : ℕ) : ℂ) = 2^LOGDELTA := by
    have : ((((BitVec.ofNat 64 (2^LOGDELTA)).toNat : ℕ) : ℝ) : ℂ) = ((2^LOGDELTA : ℝ) : ℂ) := by rw [hδ]
    push_cast at this; exact this
  rw [hδ, hδ', one_mul] at hsl
  have hX : ∀ i : Fin (2^n), ‖(2:ℂ)^LOGDELTA * ⟨a.1 i, a.2 i⟩‖ ≤ 2^LOGDELTA := by
    intro i
    rw [norm_mul, norm_pow, Complex.norm_ofNat]
    exact mul_le_of_le_one_right hΔ.le (ha i)
  have hX2 : ∀ i : Fin (2^n), ‖(⟨a.1 i, a.2 i⟩ : ℂ) ^ 2‖ ≤ 1 := fun i => by
    rw [norm_pow]; exact pow_le_one₀ (norm_nonneg _) (ha i)
  refine two_blocks (bad := fun q => ∃ i < 2^(n+1)/2, T ≤ ‖slotOf (fun k => (noiseVal (q.2 k 0) (q.2 k 1) : ℝ)) i‖) (by positivity) ?_ ?_
  · refine le_trans (Nat.cast_le.2 (card_le_card (t := univ ×ˢ univ.filter fun u : Fin (2^(n+1)) → Fin 2 → Fin (R+1) =>
        ∃ i < 2^(n+1)/2, T ≤ ‖slotOf (fun k => (noiseVal (u k 0) (u k 1) : ℝ)) i‖) fun p hp => ?_)) ?_
    · simp only [mem_filter, mem_univ, true_and, mem_product] at hp ⊢
      exact hp
    · rw [card_product, card_univ, Fintype.card_prod, Nat.cast_mul, Nat.cast_mul]
      have h := slots_tail (N := 2^(n+1)) (b := R+1) hR (Nat.two_pow_pos _) (dvd_pow_self 2 (by omega)) hT
      refine (mul_le_mul_of_nonneg_left h (Nat.cast_nonneg _)).trans (le_of_eq ?_)
      push_cast
      ring
  intro q hbq
  push Not at hbq
  obtain ⟨r, er, hr⟩ := enc_noiseS (by omega) hs' pt hsl ct0 τ q.1 q.2 hbq
  rw [← hA] at hr
  obtain ⟨w, hw2, hMul⟩ := mul_noiseS (R := R) (U := U) (Or.inr (by omega)) (Or.inr (by omega)) hn hs' hr hr hX hX evk0 ct_sq0
  have e34 : 3*U^2 / (34*(2:ℝ)^(n+1)) = 3*(2*U)^2 / (136*((2^(n+1) : ℕ):ℝ)) := by
    push_cast
    rw [div_eq_div_iff (by positivity) (by positivity)]
    ring
  rw [e34, show (2:ℝ) * 2^(n+1) = 2 * ((2^(n+1) : ℕ) : ℝ) by push_cast; rfl]
  refine draws_tail hR (by positivity) w (C := 2^(LOGQ-1)) (by positivity) (fun i => by exact_mod_cast hw2 i) (by linarith) _ fun p hp => ?_
  unfold ctxtConvTestF
  simp only []
  rw [← hadef]
  refine Ok.bind (unit_mulF ha ha) fun o hqq => ?_
  rw [hc, pure_bind, convI_spec (by omega) s s hs'.abs_le hs'.abs_le, pure_bind]
  refine Ok.bind (hMul p.1 p.2 _ hp) fun evk ⟨hev, hmul⟩ => ?_
  rw [shl1_eq (by omega), pure_bind, ept, pure_bind, hev, er, pure_bind]
  refine Ok.bind hmul fun y hy => ?_
  have hc2 : Near s y (fun i : Fin (2^n) => 2^(2 * LOGDELTA) * ((⟨a.1 i, a.2 i⟩ : ℂ) ^ 2)) E := by
    refine hy.mono (fun i => ?_) (le_of_eq ?_)
    · rw [two_mul, pow_add]; ring
    · rw [hwt, hE]; ring
  obtain ⟨z, ez, hz⟩ := near_outS (D := 2 * LOGDELTA) hL.1 hn1 (by omega) (by omega) (by omega) hs' hc2 hX2 (by rw [mul_one]; exact hq)
    one_800 (small_800 hb _)
  obtain ⟨p, ep, ez⟩ := bind_eq_pure ez
  rw [ep, pure_bind, ez, pure_bind]
  refine Ok.pure fun i => ?_
  dsimp only
  have h3 := hqq i
  rw [← sq] at h3
  rw [← ea]
  exact ⟨h3, hz i⟩

theorem exp_180 : 2 * (2:ℝ)^17 * Real.exp (-180) ≤ 1/2^200 := by
  have h4 : (2:ℝ)^220 ≤ Real.exp 180 := by
    rw [show (180:ℝ) = ((180:ℕ):ℝ) * 1 by norm_num, Real.exp_nat_mul]
    have h3 : (2.7:ℝ) ≤ Real.exp 1 := by have := Real.exp_one_gt_d9; linarith
    refine le_trans ?_ (pow_le_pow_left₀ (by norm_num) h3 180)
    norm_num
  have h5 : (Real.exp 180)⁻¹ ≤ ((2:ℝ)^220)⁻¹ := inv_anti₀ (by positivity) h4
  rw [Real.exp_neg]
  refine (mul_le_mul_of_nonneg_left h5 (by positivity)).trans ?_
  norm_num

open Classical in
/-- C103: for `LOGN = 17`, the scale `2^50` of test.h and a key of weight at most 128, all but a fraction `2^-199` of the draws lead to a
printed square within `2^-32` of the exact one in every slot. -/
theorem C103_seventeen (hL : L.Accurate) (R : Nat) (hR : 2 ∣ R + 1) (h1 : 103 ≤ LOGQ) (h2 : LOGQ ≤ 1525) (hn : n = 16) (H : Int) (hH : H ≤ 128)
    (evk0 : R_Q_square (2 * LOGQ) (2^(n+1))) (ct0 ct_sq0 : R_Q_square LOGQ (2^(n+1)))
    (ρ : RealRng) (hρ : ∀ j, |ρ j| ≤ 1 / Real.sqrt 2) (ω ω1 : Rng) (s : Fin (2^(n+1)) → Int) (hk : keygen (2^(n+1)) H ω = pure (s, ω1)) :
    ∃ c, (∀ σ, keygen (2^(n+1)) H (splice c ω σ) = pure (s, σ)) ∧ ∀ τ : Rng,
      ((univ.filter fun d : ((Fin (2^(n+1)) → Fin (nlimb (2 * LOGQ)) → Fin 5 → Fin (R+1)) × (Fin (2^(n+1)) → Fin 2 → Fin (R+1))) ×
          ((Fin (2^(n+1)) → Fin (nlimb LOGQ) → Fin 5 → Fin (R+1)) × (Fin (2^(n+1)) → Fin 2 → Fin (R+1))) =>
        ¬ Ok (ctxtConvTestF L R 50 H evk0 ct0 ct_sq0 ρ
            (splice c ω (maskStream d.1.1 (noiseStream d.1.2 (maskStream d.2.1 (noiseStream d.2.2 τ)))))) fun o => ∀ i : Fin (2^n),
          ‖(⟨o.1.1 i, o.1.2 i⟩ : ℂ) - ⟨ρ i, ρ (2^n + i)⟩ ^ 2‖ ≤ 1/2^51 ∧
          ‖(⟨o.2.1 i, o.2.2 i⟩ : ℂ) - ⟨ρ i, ρ (2^n + i)⟩ ^ 2‖ ≤ 1/2^32).card : ℝ) ≤
        1/2^199 *
          Fintype.card (((Fin (2^(n+1)) → Fin (nlimb (2 * LOGQ)) → Fin 5 → Fin (R+1)) × (Fin (2^(n+1)) → Fin 2 → Fin (R+1))) ×
            ((Fin (2^(n+1)) → Fin (nlimb LOGQ) → Fin 5 → Fin (R+1)) × (Fin (2^(n+1)) → Fin 2 → Fin (R+1)))) := by
  have h3 : Real.sqrt 2 ^ 16 = 2^8 := by rw [show 16 = 2 * 8 by norm_num, pow_mul, Real.sq_sqrt (by norm_num)]
  have h900 : (1:ℝ)/2^900 ≤ 1/2^60 := one_div_le_one_div_of_le (by positivity) (pow_le_pow_right₀ (by norm_num) (by norm_num))
  have h900' : (0:ℝ) < 1/2^900 := by positivity
  obtain ⟨A, hA⟩ : ∃ A, A = encTol n (2^50) + 2^15 := ⟨_, rfl⟩
  obtain ⟨E, hE⟩ : ∃ E, E = 2 * 2^50 * A + A^2 + 2^(n+1) * ((2:ℝ)^14 + (H.toNat + 1) / 2) := ⟨_, rfl⟩
  have hA1 : A ≤ 112840 := by
    rw [hA, hn]; unfold encTol; rw [h3]
    generalize (1:ℝ)/2^900 = t at *
    norm_num at *; linarith
  have hA0 : 0 ≤ A := by
    rw [hA, hn]; unfold encTol; rw [h3]
    generalize (1:ℝ)/2^900 = t at *
    norm_num at *; linarith
  have hH1 : ((H.toNat : ℕ) : ℝ) ≤ 128 := by
    have : H.toNat ≤ 128 := by omega
    exact_mod_cast this
  have hE1 : E ≤ 2 * 2^50 * 112840 + 112840^2 + 2^17 * ((2:ℝ)^14 + (128 + 1) / 2) := by
    rw [hE, hn]; gcongr
  have hE2 : E ≤ 2^100 * (225681 / 2^50) := hE1.trans (by norm_num)
  have hq : (2:ℝ)^(2 * 50) + E < 2^(LOGQ-1) :=
    lt_of_lt_of_le (lt_of_le_of_lt (add_le_add le_rfl hE2) (by norm_num : (2:ℝ)^(2*50) + 2^100 * (225681 / 2^50) < 2^102))
      (pow_le_pow_right₀ (by norm_num) (by omega))
  obtain ⟨c, hc, h⟩ := C103_ctxt_conv_test hL R hR (by omega) h2 (by omega) (by omega) 50 (by norm_num) (by omega) H evk0 ct0 ct_sq0 ρ hρ ω ω1 s hk
    (T := 2^15) (U := 2^14) (by norm_num) (by norm_num) A E hA hE hq (hE2.trans (by norm_num))
  have hx : E / 2^(2*50) ≤ 225681 / 2^50 := by
    rw [div_le_iff₀ (by positivity)]
    exact hE2.trans (le_of_eq (by norm_num))
  have hdec : E / 2^(2*50) + decTol n (1 + E / 2^(2*50)) ≤ 1/2^32 := by
    rw [hn]; unfold decTol; rw [h3]
    generalize E / 2^(2*50) = x at *
    generalize (1:ℝ)/2^900 = t at *
    norm_num at *; linarith
  refine ⟨c, hc, fun τ => le_trans ?_ ((h τ).trans (mul_le_mul_of_nonneg_right ?_ (Nat.cast_nonneg _)))⟩
  · refine Nat.cast_le.2 (card_le_card fun t ht => ?_)
    exact mem_filter.2 ⟨mem_univ _, fun hok => (mem_filter.1 ht).2 (Ok.mono hok fun m hm i => ⟨(hm i).1, (hm i).2.trans hdec⟩)⟩
  · rw [hn]
    have e1 : Real.exp (-(3*((2:ℝ)^15)^2 / (136*2^(16+1)))) ≤ Real.exp (-180) := Real.exp_le_exp.2 (by norm_num)
    have e2 : Real.exp (-(3*((2:ℝ)^14)^2 / (34*2^(16+1)))) ≤ Real.exp (-180) := Real.exp_le_exp.2 (by norm_num)
    have e3 := exp_180
    have e4 := mul_le_mul_of_nonneg_left e1 (show (0:ℝ) ≤ 2 * 2^17 by norm_num)
    have e5 := mul_le_mul_of_nonneg_left e2 (show (0:ℝ) ≤ 2 * 2^17 by norm_num)
    have e6 : (2:ℝ)^(16+1) = 2^17 := by norm_num
    rw [e6] at *
    refine (add_le_add (e4.trans e3) (e5.trans e3)).trans (le_of_eq ?_)
    norm_num

/-- The hypotheses hold for the modulus of test.h, the counting stream (on which `keygen` returns) and a constant message. -/
example (n : Nat) (hn : n = 16) : ∃ (s : Fin (2^(n+1)) → Int) (ω1 : Rng), keygen (2^(n+1)) 128 (fun i => i) = pure (s, ω1) ∧
    (∀ j, |(fun _ => 1/2 : RealRng) j| ≤ 1 / Real.sqrt 2) ∧ exactLibmP.Accurate ∧ 2 ∣ 2147483647 + 1 ∧ 103 ≤ 1450 ∧ 1450 ≤ 1525 := by
  have hp : 128 ≤ 2^(n+1) := by rw [hn]; norm_num
  obtain ⟨r, hr, -⟩ := C19_keygen_returns (N := 2^(n+1)) 128 (by exact_mod_cast hp) (fun i => i) fun j m =>
    ⟨2^(n+1) * m + j, by have := Nat.one_le_two_pow (n := n+1); nlinarith, by rw [Nat.mul_add_mod, Nat.mod_eq_of_lt j.isLt]⟩
  refine ⟨r.1, r.2, hr, fun _ => ?_, exactLibmP_accurate, by norm_num, by norm_num, by norm_num⟩
  have h2 : Real.sqrt 2 ≤ 2 := by rw [Real.sqrt_le_left (by norm_num)]; norm_num
  have h0 : (0:ℝ) < Real.sqrt 2 := by positivity
  simp only [abs_of_pos (show (0:ℝ) < 1/2 by norm_num)]
  exact one_div_le_one_div_of_le h0 h2

end EvalRound

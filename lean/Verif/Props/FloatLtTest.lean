import Verif.Props.FloatTests
import Verif.Props.LtTest

/-!
# C88: the program matmul_test in binary64
-/

namespace EvalRound
open Z_Q Finset SparseDiagonal

variable {n LOGQ : Nat} [NeZero LOGQ] {L : LibmP}

/-- the exact adjoint factor -/
noncomputable def adjR (n d : Nat) : Matrix (Fin (2^n)) (Fin (2^n)) ℂ := (bfly (2^n) (2^(n-1-d)) (ctw n (n-1-d))).conjTranspose

theorem adjR_row (d : Nat) (p : Fin (2^n)) : ∑ q, ‖adjR n d p q‖ ≤ 2 :=
  bfly_row_adj (H := 2^n) (Nat.two_pow_pos (n-1-d)) (norm_ctw n (n-1-d)) p

theorem adjR_entry {d t : Nat} (h : d + t ≤ n) (p q : Fin (2^n)) : ‖seqMat (fun j => adjR n (d + j)) t p q‖ ≤ 1 := by
  have e : seqMat (fun j => adjR n (d + j)) t =
      seqMat (fun j => (bfly (2^n) (2^(n-d-1-j)) (ctw n (n-d-1-j))).conjTranspose) t := by
    refine seqMat_congr fun j _ => ?_
    unfold adjR
    rw [show n - 1 - (d + j) = n - d - 1 - j by omega]
  rw [e, seqMat_adj (fun k => bfly (2^n) (2^k) (ctw n k)) (by omega : t ≤ n - d),
    Matrix.conjTranspose_apply, norm_star]
  have k := bfly_seq (d := n - d - t) (A := fun j => bfly (2^n) (2^(n-d-t+j)) (ctw n (n-d-t+j))) (c := fun _ => 1)
    (ω := fun j => ctw n (n-d-t+j)) (g := t) (fun j _ => (one_smul _ _).symm) (fun _ => norm_one) (fun _ => norm_ctw _ _) q p
  exact k.trans (by split <;> norm_num)

theorem adjR_seq (t : Nat) : seqMat (adjR n) t = ifftMat n t := by
  induction t with
  | zero => rfl
  | succ t ih => rw [seqMat, ih, adjR, ifftMat]

theorem adjR_apply (m : Fin (2^(n+1)) → ℝ) :
    (seqMat (adjR n) n).mulVec (fun i => slotOf m i) = fun i => 2^n * brvPair n m i := by
  have e : (fun i : Fin (2^n) => slotOf m i) = (fftMat n n).mulVec (brvPair n m) := by
    funext i; exact (fftMat_slot m i).symm
  rw [e, Matrix.mulVec_mulVec, adjR_seq, ifftMat_eq,
    adj_mul_of_mul_adj (pow_ne_zero n two_ne_zero) (fftMat_adj (le_refl n)), Matrix.smul_mulVec, Matrix.one_mulVec]
  rfl

theorem set_test_U0F_spec {L : Libm} (hL : L.Accurate) (hn : n ≤ 26) (A0 : Fin n → Fac (n+1)) :
    Ok (set_test_U0_matrixF L (n+1) A0) fun U => NearFactors (H := 2^n) U (adjR n) := by
  unfold set_test_U0_matrixF
  refine Ok.bind (splitU0NRF_spec hL hn _) fun U hU => ?_
  refine Ok.mono (tabM_spec (P := fun d A => SDProd (H := 2^n) A ∧ RowNearC (denC (N := 2^n) A.1 A.2) (adjR n d) (24 * uF))
    fun d hd => ?_) fun V hV => ⟨fun d => (hV d).1, fun d => (hV d).2.mono (by have := uF_pos; linarith), fun d _ p => adjR_row d p,
      fun d t h p q => adjR_entry h p q⟩
  rw [rd_of_lt U hd, pure_bind]
  exact adjFactorF_prod (by omega) hd (hU ⟨d, hd⟩)


theorem lt_outF {L : Libm} (hL : L.Accurate) (hn1 : 1 ≤ n) (hn : n ≤ 16) (hQ29 : LOGQ ≤ 2^29) {LD G : Nat} (hLD : LD < 63) {s : Fin (2^(n+1)) → Int} (hs : Ternary s)
    {w : Fin (2^(n+1)) → Int} {m : Fin (2^(n+1)) → ℝ} {c : ℝ}
    (hwm : ∀ k, |(w k : ℝ) - m k * 2^LD| ≤ c) (hm : ∀ k, |m k| ≤ 1) {E : ℝ}
    {ct : R_Q_square LOGQ (2^(n+1))} (hc : ct.Canonical) {v : Fin (2^(n+1)) → Int} (hv : R_Q_square.phase s ct = red LOGQ v)
    (he : ∀ i, ‖slots n v i - (2^LD)^(n/G) * (seqMat (adjR n) n).mulVec (slots n w) i‖ ≤ E)
    {C T : ℝ} (hC : C = 2^LD * (2^LD)^(n/G)) (hT : T = (E + (2^LD)^(n/G) * (2 * c * 2^n)) / C)
    (hq : C * (2 * 2^n + T) < 2^(LOGQ-1)) (hb : T ≤ 2^200) :
    Ok (dec ct s >>= fun pt => decode_logF (LOGN := n+1) L pt (LD + n/G * LD : ℕ)) fun z => ∀ i : Fin (2^n),
      ‖(⟨z.1 i, z.2 i⟩ : ℂ) - 2^n * (m (loIdx i) + m (hiIdx i) * Complex.I)‖ ≤ T + decTol n (2 * 2^n + T) := by
  have hΔ : (0:ℝ) < 2^LD := by positivity
  have hCt : (0:ℝ) < (2^LD)^(n/G) := by positivity
  have hC0 : 0 < C := by rw [hC]; positivity
  have happ : ∀ i, (seqMat (adjR n) n).mulVec (slots n w) i = 2^n * brvPair n (fun k => (w k : ℝ)) i :=
    fun i => congrFun (adjR_apply (fun k => (w k : ℝ))) i
  have hsR : (2:ℝ)^(LD + n/G * LD) = C := by rw [scale_pow, hC]
  have hsc : ∀ x : ℂ, (2:ℂ)^(LD + n/G * LD) * (2^n * x) = (2^LD)^(n/G) * (2^n * (2^LD * x)) := by
    intro x; rw [scale_powC]; ring
  have hTC : E + (2^LD)^(n/G) * (2 * c * 2^n) = C * T := by rw [hT]; field_simp
  have hx : ∀ i, ‖slots n v i - 2^(LD + n/G * LD) * (2^n * (m (loIdx i) + m (hiIdx i) * Complex.I))‖ ≤ C * T := by
    intro i
    rw [hsc, ← hTC]
    have g1 := he i
    rw [happ] at g1
    have g2 : ‖brvPair n (fun k => (w k : ℝ)) i - 2^LD * (m (loIdx i) + m (hiIdx i) * Complex.I)‖ ≤ 2 * c := by
      have e1 : brvPair n (fun k => (w k : ℝ)) i - 2^LD * (m (loIdx i) + m (hiIdx i) * Complex.I) =
          (((w (loIdx i) : ℝ) - m (loIdx i) * 2^LD : ℝ) : ℂ) + (((w (hiIdx i) : ℝ) - m (hiIdx i) * 2^LD : ℝ) : ℂ) * Complex.I := by
        have e2 : brvPair n (fun k => (w k : ℝ)) i = ((w (loIdx i) : ℝ) : ℂ) + ((w (hiIdx i) : ℝ) : ℂ) * Complex.I :=
          (Complex.re_add_im (brvPair n (fun k => (w k : ℝ)) i)).symm
        rw [e2]; push_cast; ring
      rw [e1]
      refine (norm_add_le _ _).trans ?_
      rw [norm_mul, Complex.norm_I, mul_one, Complex.norm_real, Complex.norm_real, Real.norm_eq_abs, Real.norm_eq_abs]
      have := hwm (loIdx i)
      have := hwm (hiIdx i)
      linarith
    have g3 := norm_sub_le_norm_sub_add_norm_sub (slots n v i) ((2^LD)^(n/G) * (2^n * brvPair n (fun k => (w k : ℝ)) i))
      ((2^LD)^(n/G) * (2^n * (2^LD * (m (loIdx i) + m (hiIdx i) * Complex.I))))
    rw [← mul_sub, ← mul_sub, norm_mul (((2:ℂ)^LD)^(n/G)) (2^n * _), norm_mul ((2:ℂ)^n) (_ - _), norm_pow, norm_pow, norm_pow,
      Complex.norm_ofNat] at g3
    have g4 : (2^LD)^(n/G) * (2^n * ‖brvPair n (fun k => (w k : ℝ)) i - 2^LD * (m (loIdx i) + m (hiIdx i) * Complex.I)‖) ≤
        (2^LD)^(n/G) * (2 * c * 2^n) := by
      refine mul_le_mul_of_nonneg_left ?_ hCt.le
      rw [mul_comm (2 * c)]
      exact mul_le_mul_of_nonneg_left g2 (by positivity)
    linarith
  have hX : ∀ i : Fin (2^n), ‖(2:ℂ)^n * (m (loIdx i) + m (hiIdx i) * Complex.I)‖ ≤ 2 * 2^n := by
    intro i
    rw [norm_mul, norm_pow, Complex.norm_ofNat, mul_comm (2:ℝ) (2^n)]
    have g : ‖(m (loIdx i) : ℂ) + m (hiIdx i) * Complex.I‖ ≤ 2 := by
      refine (norm_add_le _ _).trans ?_
      rw [norm_mul, Complex.norm_I, mul_one, Complex.norm_real, Complex.norm_real, Real.norm_eq_abs, Real.norm_eq_abs]
      have := hm (loIdx i)
      have := hm (hiIdx i)
      linarith
    gcongr
  have hDD : LD + n/G * LD ≤ 2^30 := by
    have : n/G ≤ 16 := (Nat.div_le_self _ _).trans hn
    nlinarith
  have hY : (2:ℝ) * 2^n ≤ 2^800 := by
    rw [← pow_succ']; exact pow_le_pow_right₀ (by norm_num) (by omega)
  have hE8 : C * T ≤ 2^800 * 2^(LD + n/G * LD) := by
    rw [hsR, mul_comm C]
    exact mul_le_mul_of_nonneg_right (hb.trans (pow_le_pow_right₀ (by norm_num) (by norm_num))) hC0.le
  have hTT : C * T / C = T := by field_simp
  have := near_outS hL hn1 (by omega) hQ29 hDD hs ⟨hc, v, hv, hx⟩ hX (by rw [hsR, ← mul_add]; exact hq) hY hE8
  rw [hsR, hTT] at this
  exact this

set_option maxHeartbeats 1000000 in
/-- C88: the three results of `linear_transform_test` in binary64 are all the product of the adjoint factors with the message, which is
`N/2` times its coefficients in bit reversed order. `Z` bounds the slots of the ciphertext, `E G` is the error of the product of the
matrices grouped by `G` and `T G` that of the decrypted result. -/
theorem C88_linear_transform_test (hL : L.Accurate) (R LOGDELTA : Nat) (hD : LOGDELTA < 63) (hQ : GoodQ LOGQ)
    (hDQ : LOGDELTA + 3 ≤ LOGQ) (H : Int) (hH : H ≤ (2^(8+1) : Nat)) (A0 : Fin 8 → Fac (8+1)) (ct0 : R_Q_square LOGQ (2^(8+1)))
    (ρ : RealRng) (hρ : ∀ j, |ρ j| ≤ 1 / Real.sqrt 2) (ω : Rng)
    (hω : ∀ (j : Fin (2^(8+1))) (l : Nat), ∃ m, l ≤ m ∧ ω m % 2^(8+1) = j)
    (Z c : ℝ) (E C T : Nat → ℝ) (hZ : Z = 2^LOGDELTA + (encTol 8 (1 * 2^LOGDELTA) + 16 * 2^8))
    (hc : c = 9 + (28 * 8 + 6) * 2^LOGDELTA / 2^53)
    (hE : ∀ G, E G = grpErrF 8 H.toNat G 2 1 (2^LOGDELTA) Z) (hC : ∀ G, C G = 2^LOGDELTA * (2^LOGDELTA)^(8/G))
    (hT : ∀ G, T G = (E G + (2^LOGDELTA)^(8/G) * (2 * c * 2^8)) / C G)
    (hq : ∀ G, G = 1 ∨ G = 2 ∨ G = 4 → C G * (2 * 2^8 + T G) < 2^(LOGQ-1) ∧ T G ≤ 2^200) :
    Ok (linear_transform_testF (LOGN := 8+1) L R LOGDELTA H A0 ct0 ρ ω) fun o => ∃ m : Fin (2^(8+1)) → ℝ,
      (∀ i : Fin (2^8), slotOf m i = ⟨ρ i, ρ (2^8 + i)⟩) ∧
      ∀ (i : Fin (2^8)) (h0 : bitRev 8 i < 2^(8+1)) (h1 : bitRev 8 i + 2^8 < 2^(8+1)),
        ‖(⟨o.1.1 i, o.1.2 i⟩ : ℂ) - 2^8 * (m ⟨_, h0⟩ + m ⟨_, h1⟩ * Complex.I)‖ ≤ T 1 + decTol 8 (2 * 2^8 + T 1) ∧
        ‖(⟨o.2.1.1 i, o.2.1.2 i⟩ : ℂ) - 2^8 * (m ⟨_, h0⟩ + m ⟨_, h1⟩ * Complex.I)‖ ≤ T 2 + decTol 8 (2 * 2^8 + T 2) ∧
        ‖(⟨o.2.2.1 i, o.2.2.2 i⟩ : ℂ) - 2^8 * (m ⟨_, h0⟩ + m ⟨_, h1⟩ * Complex.I)‖ ≤ T 4 + decTol 8 (2 * 2^8 + T 4) := by
  have hLQ29 : LOGQ ≤ 2^29 := by rcases hQ.one with h | h <;> omega
  have ha : ∀ i : Fin (2^8), ‖(⟨(set_random_message (8+1) ρ).1.1 i, (set_random_message (8+1) ρ).1.2 i⟩ : ℂ)‖ ≤ 1 :=
    random_message_norm (8+1) hρ
  have ea : ∀ i : Fin (2^8), (⟨(set_random_message (8+1) ρ).1.1 i, (set_random_message (8+1) ρ).1.2 i⟩ : ℂ) =
    ⟨ρ i, ρ (2^8 + i)⟩ := fun _ => rfl
  unfold linear_transform_testF
  dsimp only
  generalize (set_random_message (8+1) ρ).1 = a at *
  refine Ok.bind (set_test_U0F_spec (n := 8) hL.1 (by norm_num) A0) fun U hU => ?_
  refine Ok.bind (C19_keygen_returns H hH ω hω) fun k ⟨hs, hw⟩ => ?_
  have hs' : Ternary k.1 := hs
  have hwt : weight k.1 = H.toNat := hw
  rw [shl1_eq (by omega), pure_bind]
  obtain ⟨pt, r, m, e, ept, hpc, hm, hmB, hpt, er, hrc, he, hph, hsl⟩ := fresh_coeffF (Q := LOGQ) (n := 8) hL.1 R (by norm_num)
    (by norm_num) (D := LOGDELTA) (by omega) (z := a) (B := 1) (C := 1) ha
    (fun m hm => coeff_le_slots (by norm_num) (by norm_num) (fun i => by rw [hm i]; exact ha i)) le_rfl
    (unit_hB hD) (unit_hw hD) (unit_hq (by omega)) hs' ct0 k.2
  rw [ept, pure_bind, er, pure_bind]
  have hΔ : (0:ℝ) < 2^LOGDELTA := by positivity
  have hZs : ∀ i, ‖slots 8 (R_Q.sval pt + e) i‖ ≤ Z := fun i => by rw [hZ]; exact slots_le (ha i) (hsl i)
  have hct := (coeffTol_le (n := 8) (by norm_num) hD).1
  have hwm : ∀ k, |(((R_Q.sval pt + e) k : ℤ) : ℝ) - m k * 2^LOGDELTA| ≤ c := by
    intro k
    have g1 := (hpt k).trans hct
    have g2 : |((e k : ℤ) : ℝ)| ≤ 8 := by exact_mod_cast he k
    have e1 : (((R_Q.sval pt + e) k : ℤ) : ℝ) - m k * 2^LOGDELTA = (((pt k).sval : ℝ) - m k * 2^LOGDELTA) + e k := by
      show ((((pt k).sval + e k : ℤ)) : ℝ) - _ = _
      push_cast; ring
    rw [e1, hc]
    refine (abs_add_le _ _).trans ?_
    push_cast at g1
    linarith
  generalize R_Q.sval pt + e = w at *
  have key : ∀ (G : Nat) (ω : Rng), G = 1 ∨ G = 2 ∨ G = 4 → Ok (groupedLTF (LOGN := 8+1) L.toLibm R LOGDELTA G U r.1 k.1 ω) fun c =>
      Ok (dec c.1 k.1 >>= fun pt => decode_logF (LOGN := 8+1) L.toLibm pt (LOGDELTA + 8/G * LOGDELTA : ℕ)) fun z => ∀ i : Fin (2^8),
      ‖(⟨z.1 i, z.2 i⟩ : ℂ) - 2^8 * (m (loIdx i) + m (hiIdx i) * Complex.I)‖ ≤ T G + decTol 8 (2 * 2^8 + T G) := by
    intro G ω hG
    have hG1 : 1 ≤ G := by omega
    have hG4 : G ≤ 4 := by omega
    have hGd : 8 % G = 0 := by rcases hG with rfl | rfl | rfl <;> rfl
    refine Ok.mono (groupedLTF_slots hL.1 R LOGDELTA (by omega) hQ.one hQ.two (by norm_num) (by norm_num) hs' (D := 8) (A := U) hU zero_le_two
      (fun d _ => adjR_row d) hG1 hG4 hGd zero_le_one (fun i hi => adjR_entry (div_blk hGd hi))
      (twoF_hw le_rfl hG4 (by omega)) (twoF_hq le_rfl hG4 (by omega)) hrc hph ω) fun c ⟨hc, v, hv, hve⟩ => ?_
    have g := hve _ hZs
    rw [hwt] at g
    exact lt_outF hL.1 (by norm_num) (by norm_num) hLQ29 (by omega) hs' hwm hmB hc hv (fun i => by rw [hE G]; exact g i) (hC G) (hT G)
      (hq G hG).1 (hq G hG).2
  have key1 : ∀ ω : Rng, Ok (serialLTF (LOGN := 8+1) L.toLibm R LOGDELTA U r.1 k.1 ω) fun c =>
      Ok (dec c.1 k.1 >>= fun pt => decode_logF (LOGN := 8+1) L.toLibm pt (LOGDELTA + 8/1 * LOGDELTA : ℕ)) fun z => ∀ i : Fin (2^8),
      ‖(⟨z.1 i, z.2 i⟩ : ℂ) - 2^8 * (m (loIdx i) + m (hiIdx i) * Complex.I)‖ ≤ T 1 + decTol 8 (2 * 2^8 + T 1) :=
    fun ω => key 1 ω (Or.inl rfl)
  refine Ok.bind (key1 _) fun c1 o1 => ?_
  refine Ok.bind (key 2 _ (by norm_num)) fun c2 o2 => ?_
  refine Ok.bind (key 4 _ (by norm_num)) fun c4 o4 => ?_
  obtain ⟨z1, ez1, hz1⟩ := o1
  obtain ⟨z2, ez2, hz2⟩ := o2
  obtain ⟨z4, ez4, hz4⟩ := o4
  obtain ⟨p1, ep1, ez1⟩ := bind_eq_pure ez1
  obtain ⟨p2, ep2, ez2⟩ := bind_eq_pure ez2
  obtain ⟨p4, ep4, ez4⟩ := bind_eq_pure ez4
  rw [ep1, pure_bind, show decode_logF L.toLibm p1 ((LOGDELTA + 8 * LOGDELTA : ℕ) : ℤ) = pure z1 from ez1, pure_bind,
    ep2, pure_bind, show decode_logF L.toLibm p2 ((LOGDELTA + 4 * LOGDELTA : ℕ) : ℤ) = pure z2 from ez2, pure_bind,
    ep4, pure_bind, show decode_logF L.toLibm p4 ((LOGDELTA + 2 * LOGDELTA : ℕ) : ℤ) = pure z4 from ez4, pure_bind]
  exact Ok.pure ⟨m, fun i => by rw [hm i, ea i], fun i h0 h1 => ⟨hz1 i, hz2 i, hz4 i⟩⟩

set_option exponentiation.threshold 2000 in
set_option maxRecDepth 4000 in
set_option maxHeartbeats 1000000 in
/-- C88 at the parameters of test.h: the three printed messages agree up to `2^-13`. -/
theorem C88_parameters (hL : L.Accurate) (R : Nat) (A0 : Fin 8 → Fac (8+1)) (ct0 : R_Q_square 1450 (2^(8+1))) (ρ : RealRng)
    (hρ : ∀ j, |ρ j| ≤ 1 / Real.sqrt 2) (ω : Rng)
    (hω : ∀ (j : Fin (2^(8+1))) (l : Nat), ∃ m, l ≤ m ∧ ω m % 2^(8+1) = j) :
    Ok (linear_transform_testF (LOGN := 8+1) L R 50 128 A0 ct0 ρ ω) fun o => ∀ i : Fin (2^8),
      ‖(⟨o.1.1 i, o.1.2 i⟩ : ℂ) - ⟨o.2.1.1 i, o.2.1.2 i⟩‖ ≤ 1 / 2^13 ∧
      ‖(⟨o.1.1 i, o.1.2 i⟩ : ℂ) - ⟨o.2.2.1 i, o.2.2.2 i⟩‖ ≤ 1 / 2^13 := by
  have hQ : GoodQ 1450 := Or.inr (Or.inl (by norm_num))
  have h128 : Int.toNat 128 = 128 := rfl
  have h1449 : ((2:ℝ)^200)^4 ≤ 2^(1450-1) := by rw [← pow_mul]; exact pow_le_pow_right₀ (by norm_num) (by norm_num)
  refine Ok.mono (C88_linear_transform_test hL R 50 (by norm_num) hQ (by norm_num) 128 (by norm_num) A0 ct0 ρ hρ ω hω _ _ _ _ _ rfl rfl
    (fun _ => rfl) (fun _ => rfl) (fun _ => rfl) ?_) ?_
  · intro G hG
    refine ⟨lt_of_lt_of_le ?_ h1449, ?_⟩ <;> rw [h128] <;>
    rcases hG with rfl | rfl | rfl <;> norm_num [grpErrF, ltSizeF, ltErrF, encTol, matUlp, sqrt2_pow8]
  · rintro o ⟨m, -, hm⟩ i
    have hb := bitRev_lt 8 i
    obtain ⟨h1, h2, h4⟩ := hm i (by omega) (by omega)
    rw [h128] at h1 h2 h4
    have t : ∀ {x y z : ℂ} {d e : ℝ}, ‖x - z‖ ≤ d → ‖y - z‖ ≤ e → ‖x - y‖ ≤ d + e := by
      intro x y z d e hx hy
      have := norm_sub_le_norm_sub_add_norm_sub x z y
      rw [norm_sub_rev z y] at this
      linarith
    exact ⟨(t h1 h2).trans (by norm_num [grpErrF, ltSizeF, ltErrF, encTol, matUlp, sqrt2_pow8, decTol]),
      (t h1 h4).trans (by norm_num [grpErrF, ltSizeF, ltErrF, encTol, matUlp, sqrt2_pow8, decTol])⟩

/-- C88 is not vacuous: correctly rounded library functions, all random numbers of the message 1/2, the stream 0, 1, 2, … for the key
and the encryption. -/
example : exactLibmP.Accurate ∧ (∀ _ : Nat, |(1:ℝ)/2| ≤ 1 / Real.sqrt 2) ∧
    ∀ (j : Fin (2^(8+1))) (l : Nat), ∃ m, l ≤ m ∧ (id : Rng) m % 2^(8+1) = j := by
  refine ⟨exactLibmP_accurate, fun _ => ?_, fun j l => ⟨2^(8+1) * l + j, by omega, by have := j.isLt; simp only [id]; omega⟩⟩
  rw [abs_of_pos (by norm_num)]
  exact one_div_le_one_div_of_le (Real.sqrt_pos.2 (by norm_num)) ((Real.sqrt_le_left (by norm_num)).2 (by norm_num))

end EvalRound

import Verif.Props.CtsTests

/-!
# C64: the program matmul_test
-/

namespace EvalRound
open Z_Q Finset SparseDiagonal

variable {n LOGQ : Nat} [NeZero LOGQ]

theorem IsAdj.lt {d : Nat} {A : Fac (n+1)} (h : IsAdj n d A) : LTMat (H := 2^n) A 2 := by
  have hs : SDProd (H := 2^n) A :=
    ⟨⟨h.rng, fun s _ => congrFun h.off s, h.flag.1, h.flag.2⟩, h.off, h.own.1, h.own.2⟩
  refine hs.lt fun i => ?_
  have e : denC (N := 2^n) A.1 A.2 = (bfly (2^n) (2^(n-1-d)) (ctw n (n-1-d))).conjTranspose := h.den
  rw [e]
  exact bfly_row_adj (H := 2^n) (Nat.two_pow_pos (n-1-d)) (norm_ctw n (n-1-d)) i

theorem adj_seq {U : Fin n → Fac (n+1)} (hU : ∀ d : Fin n, IsAdj n d (U d)) {t : Nat} (ht : t ≤ n) :
    seqMat (mats (H := 2^n) U) t = ifftMat n t := by
  induction t with
  | zero => rfl
  | succ t ih =>
    have : t < n := ht
    have e : denC (N := 2^n) (U ⟨t, this⟩).1 (U ⟨t, this⟩).2 = _ := (hU ⟨t, this⟩).den
    rw [seqMat, ih (by omega), mats_lt _ this, e, ifftMat]

theorem adj_apply {U : Fin n → Fac (n+1)} (hU : ∀ d : Fin n, IsAdj n d (U d)) (m : Fin (2^(n+1)) → ℝ) :
    (seqMat (mats (H := 2^n) U) n).mulVec (fun i => slotOf m i) = fun i => 2^n * brvPair n m i := by
  have e : (fun i : Fin (2^n) => slotOf m i) = (fftMat n n).mulVec (brvPair n m) := by
    funext i; exact (fftMat_slot m i).symm
  rw [e, Matrix.mulVec_mulVec, adj_seq hU (le_refl n), ifftMat_eq,
    adj_mul_of_mul_adj (pow_ne_zero n two_ne_zero) (fftMat_adj (le_refl n)), Matrix.smul_mulVec, Matrix.one_mulVec]
  rfl

theorem set_test_U0_spec (hn : n ≤ 26) (A0 : Fin n → Fac (n+1)) :
    Ok (set_test_U0_matrix (n+1) A0) fun U => ∀ d : Fin n, IsAdj n d (U d) := by
  unfold set_test_U0_matrix
  refine Ok.bind (splitU0NR_spec hn _) fun U hU => ?_
  refine tabM_spec (P := fun d A => IsAdj n d A) fun d hd => ?_
  rw [rd_of_lt U hd, pure_bind]
  exact adjFactor_spec (by omega) hd (hU ⟨d, hd⟩)

/-- the error of the product of the matrices grouped by `G`: `Z` bounds the slots of the ciphertext -/
noncomputable def ltTestErr (n h G : Nat) (Δ Z : ℝ) : ℝ :=
  ltSize n (3^G) h (2^G) (2^G) Δ Z (n/G) - (Δ * 2^G)^(n/G) * Z

theorem lt_out (hn1 : 1 ≤ n) (hn : n ≤ 16) (hQ29 : LOGQ ≤ 2^29) {LD G : Nat} (hLD : LD < 63) {s : Fin (2^(n+1)) → Int} (hs : Ternary s)
    {U : Fin n → Fac (n+1)} (hU : ∀ d : Fin n, IsAdj n d (U d)) {w : Fin (2^(n+1)) → Int} {m : Fin (2^(n+1)) → ℝ}
    (hwm : ∀ k, |(w k : ℝ) - m k * 2^LD| ≤ 17/2) (hm : ∀ k, |m k| ≤ 1) {E : ℝ}
    {c : R_Q_square LOGQ (2^(n+1))} (hc : c.Canonical) {v : Fin (2^(n+1)) → Int} (hv : R_Q_square.phase s c = red LOGQ v)
    (he : ∀ i, ‖slots n v i - (2^LD)^(n/G) * (seqMat (mats (H := 2^n) U) n).mulVec (slots n w) i‖ ≤ E)
    (hq : (2^LD)^(n/G) * (2^n * (2 * 2^LD)) + (E + (2^LD)^(n/G) * (17 * 2^n)) < 2^(LOGQ-1)) :
    Ok (dec c s >>= fun pt => decode_log (LOGN := n+1) pt (LD + n/G * LD : ℕ)) fun z => ∀ i : Fin (2^n),
      ‖(⟨z.1 i, z.2 i⟩ : ℂ) - 2^n * (m (loIdx i) + m (hiIdx i) * Complex.I)‖ ≤ (17 * 2^n + E / (2^LD)^(n/G)) / 2^LD := by
  have hΔ : (0:ℝ) < 2^LD := by positivity
  have hC : (0:ℝ) < (2^LD)^(n/G) := by positivity
  have happ : ∀ i, (seqMat (mats (H := 2^n) U) n).mulVec (slots n w) i = 2^n * brvPair n (fun k => (w k : ℝ)) i :=
    fun i => congrFun (adj_apply hU (fun k => (w k : ℝ))) i
  have hx : ∀ i, ‖slots n v i - (2^LD)^(n/G) * (2^n * (2^LD * (m (loIdx i) + m (hiIdx i) * Complex.I)))‖ ≤
      E + (2^LD)^(n/G) * (17 * 2^n) := by
    intro i
    have g1 := he i
    rw [happ] at g1
    have g2 : ‖brvPair n (fun k => (w k : ℝ)) i - 2^LD * (m (loIdx i) + m (hiIdx i) * Complex.I)‖ ≤ 17 := by
      have e1 : brvPair n (fun k => (w k : ℝ)) i - 2^LD * (m (loIdx i) + m (hiIdx i) * Complex.I) =
          (((w (loIdx i) : ℝ) - m (loIdx i) * 2^LD : ℝ) : ℂ) + (((w (hiIdx i) : ℝ) - m (hiIdx i) * 2^LD : ℝ) : ℂ) * Complex.I := by
        have e2 : brvPair n (fun k => (w k : ℝ)) i = ((w (loIdx i) : ℝ) : ℂ) + ((w (hiIdx i) : ℝ) : ℂ) * Complex.I :=
          (Complex.re_add_im (brvPair n (fun k => (w k : ℝ)) i)).symm
        rw [e2]; push_cast; ring
      rw [e1]
      refine (norm_add_le _ _).trans ?_
      rw [norm_mul, Complex.norm_I, mul_one, Complex.norm_real, Complex.norm_real, Real.norm_eq_abs, Real.norm_eq_abs]
      have := hwm (loIdx i)
      have := hwm (hiIdx i)
      linarith
    have g3 := norm_sub_le_norm_sub_add_norm_sub (slots n v i) ((2^LD)^(n/G) * (2^n * brvPair n (fun k => (w k : ℝ)) i))
      ((2^LD)^(n/G) * (2^n * (2^LD * (m (loIdx i) + m (hiIdx i) * Complex.I))))
    rw [← mul_sub, ← mul_sub, norm_mul (((2:ℂ)^LD)^(n/G)) (2^n * _), norm_mul ((2:ℂ)^n) (_ - _), norm_pow, norm_pow, norm_pow,
      Complex.norm_ofNat] at g3
    have g4 : (2^LD)^(n/G) * (2^n * ‖brvPair n (fun k => (w k : ℝ)) i - 2^LD * (m (loIdx i) + m (hiIdx i) * Complex.I)‖) ≤
        (2^LD)^(n/G) * (17 * 2^n) := by
      refine mul_le_mul_of_nonneg_left ?_ hC.le
      rw [mul_comm (17:ℝ)]
      exact mul_le_mul_of_nonneg_left g2 (by positivity)
    linarith
  have hX : ∀ i : Fin (2^n), ‖((2:ℂ)^LD)^(n/G) * (2^n * (2^LD * (m (loIdx i) + m (hiIdx i) * Complex.I)))‖ ≤
      (2^LD)^(n/G) * (2^n * (2 * 2^LD)) := by
    intro i
    rw [norm_mul, norm_mul, norm_mul, norm_pow, norm_pow, norm_pow, Complex.norm_ofNat, mul_comm (2:ℝ) (2^LD)]
    have g : ‖(m (loIdx i) : ℂ) + m (hiIdx i) * Complex.I‖ ≤ 2 := by
      refine (norm_add_le _ _).trans ?_
      rw [norm_mul, Complex.norm_I, mul_one, Complex.norm_real, Complex.norm_real, Real.norm_eq_abs, Real.norm_eq_abs]
      have := hm (loIdx i)
      have := hm (hiIdx i)
      linarith
    gcongr
  have hDD : LD + n/G * LD ≤ 2^30 := by
    have : n/G ≤ 16 := (Nat.div_le_self _ _).trans hn
    nlinarith
  refine Ok.mono (near_out hn1 (by omega) hQ29 hDD hs ⟨hc, v, hv, hx⟩ hX hq) fun z hz i => ?_
  have g := hz i
  have h2 : (2:ℂ)^LD ≠ 0 := pow_ne_zero _ two_ne_zero
  have e1 : ((2:ℂ)^LD)^(n/G) * (2^n * (2^LD * (m (loIdx i) + m (hiIdx i) * Complex.I))) / 2^(LD + n/G * LD) =
      2^n * (m (loIdx i) + m (hiIdx i) * Complex.I) := by
    rw [pow_add (2:ℂ) LD, mul_comm (n/G), pow_mul (2:ℂ) LD]
    field_simp
  have e2 : (E + (2^LD)^(n/G) * (17 * 2^n)) / 2^(LD + n/G * LD) = (17 * 2^n + E / (2^LD)^(n/G)) / 2^LD := by
    rw [pow_add (2:ℝ) LD, mul_comm (n/G), pow_mul (2:ℝ) LD]
    field_simp
    ring
  rw [e1, e2] at g
  exact g

set_option maxHeartbeats 1000000 in
/-- C64: the three results of `linear_transform_test` are all the product of the adjoint factors with the message, which is
`N/2` times its coefficients in bit reversed order. -/
theorem C64_linear_transform_test (R LOGDELTA : Nat) (hD : LOGDELTA < 59) (hQ : GoodQ LOGQ)
    (hDQ : LOGDELTA + 6 ≤ LOGQ) (H : Int) (hH : H ≤ (2^(8+1) : Nat)) (A0 : Fin 8 → Fac (8+1)) (ct0 : R_Q_square LOGQ (2^(8+1)))
    (ρ : RealRng) (hρ : ∀ j, |ρ j| ≤ 1 / Real.sqrt 2) (ω : Rng)
    (hω : ∀ (j : Fin (2^(8+1))) (l : Nat), ∃ m, l ≤ m ∧ ω m % 2^(8+1) = j)
    (E : Nat → ℝ) (hE : ∀ G, E G = ltTestErr 8 H.toNat G (2^LOGDELTA) (2^LOGDELTA + 17 * 2^8))
    (hq : ∀ G, G = 1 ∨ G = 2 ∨ G = 4 →
      (2^LOGDELTA)^(8/G) * (2^8 * (2 * 2^LOGDELTA)) + (E G + (2^LOGDELTA)^(8/G) * (17 * 2^8)) < 2^(LOGQ-1)) :
    Ok (linear_transform_test (LOGN := 8+1) R LOGDELTA H A0 ct0 ρ ω) fun o => ∃ m : Fin (2^(8+1)) → ℝ,
      (∀ i : Fin (2^8), slotOf m i = ⟨ρ i, ρ (2^8 + i)⟩) ∧
      ∀ (i : Fin (2^8)) (h0 : bitRev 8 i < 2^(8+1)) (h1 : bitRev 8 i + 2^8 < 2^(8+1)),
        ‖(⟨o.1.1 i, o.1.2 i⟩ : ℂ) - 2^8 * (m ⟨_, h0⟩ + m ⟨_, h1⟩ * Complex.I)‖ ≤
          (17 * 2^8 + E 1 / (2^LOGDELTA)^(8/1)) / 2^LOGDELTA ∧
        ‖(⟨o.2.1.1 i, o.2.1.2 i⟩ : ℂ) - 2^8 * (m ⟨_, h0⟩ + m ⟨_, h1⟩ * Complex.I)‖ ≤
          (17 * 2^8 + E 2 / (2^LOGDELTA)^(8/2)) / 2^LOGDELTA ∧
        ‖(⟨o.2.2.1 i, o.2.2.2 i⟩ : ℂ) - 2^8 * (m ⟨_, h0⟩ + m ⟨_, h1⟩ * Complex.I)‖ ≤
          (17 * 2^8 + E 4 / (2^LOGDELTA)^(8/4)) / 2^LOGDELTA := by
  have hLQ29 : LOGQ ≤ 2^29 := by rcases hQ.one with h | h <;> omega
  have ha : ∀ i : Fin (2^8), ‖(⟨(set_random_message (8+1) ρ).1.1 i, (set_random_message (8+1) ρ).1.2 i⟩ : ℂ)‖ ≤ 1 :=
    random_message_norm (8+1) hρ
  have ea : ∀ i : Fin (2^8), (⟨(set_random_message (8+1) ρ).1.1 i, (set_random_message (8+1) ρ).1.2 i⟩ : ℂ) =
    ⟨ρ i, ρ (2^8 + i)⟩ := fun _ => rfl
  unfold linear_transform_test
  dsimp only
  generalize (set_random_message (8+1) ρ).1 = a at *
  refine Ok.bind (set_test_U0_spec (n := 8) (by norm_num) A0) fun U hU => ?_
  refine Ok.bind (C19_keygen_returns H hH ω hω) fun k ⟨hs, hw⟩ => ?_
  have hs' : Ternary k.1 := hs
  have hwt : weight k.1 = H.toNat := hw
  rw [shl1_eq (by omega), pure_bind]
  obtain ⟨pt, r, m, e, ept, hpc, hm, hmB, hpt, er, hrc, he, hph, hsl⟩ := fresh_coeff (Q := LOGQ) (n := 8) R (by norm_num)
    (by norm_num) (D := LOGDELTA) (by omega) (z := a) (B := 1)
    (fun m hm => coeff_le_slots (by norm_num) (by norm_num) (fun i => by rw [hm i]; exact ha i)) (unit_scaled (by omega))
    (unit_scaled_q (by omega)) hs' ct0 k.2
  rw [ept, pure_bind, er, pure_bind]
  have hΔ : (0:ℝ) < 2^LOGDELTA := by positivity
  have hZs : ∀ i, ‖slots 8 (R_Q.sval pt + e) i‖ ≤ 2^LOGDELTA + 17 * 2^8 := by
    intro i
    have g1 := norm_sub_norm_le (slots 8 (R_Q.sval pt + e) i) (2^LOGDELTA * ⟨a.1 i, a.2 i⟩)
    have g2 := hsl i
    have g3 : ‖(2:ℂ)^LOGDELTA * ⟨a.1 i, a.2 i⟩‖ ≤ 2^LOGDELTA := by
      rw [norm_mul, norm_pow, Complex.norm_ofNat]
      exact mul_le_of_le_one_right hΔ.le (ha i)
    linarith
  have hwm : ∀ k, |(((R_Q.sval pt + e) k : ℤ) : ℝ) - m k * 2^LOGDELTA| ≤ 17/2 := by
    intro k
    have g1 := hpt k
    have g2 : |((e k : ℤ) : ℝ)| ≤ 8 := by exact_mod_cast he k
    have e1 : (((R_Q.sval pt + e) k : ℤ) : ℝ) - m k * 2^LOGDELTA = (((pt k).sval : ℝ) - m k * 2^LOGDELTA) + e k := by
      show ((((pt k).sval + e k : ℤ)) : ℝ) - _ = _
      push_cast; ring
    rw [e1]
    refine (abs_add_le _ _).trans ?_
    linarith
  generalize R_Q.sval pt + e = w at *
  have hb : ∀ G, G ≤ 4 → (2:ℝ)^G * 2^LOGDELTA + 1/2 < 2^64 ∧ (2:ℝ)^G * 2^LOGDELTA + 1/2 < 2^(LOGQ-1) := by
    intro G hG
    rw [← pow_add]
    refine ⟨?_, ?_⟩
    · have := unit_scaled (D := G + LOGDELTA) (by omega); rwa [one_mul] at this
    · have := unit_scaled_q (D := G + LOGDELTA) (Q := LOGQ) (by omega); rwa [one_mul] at this
  have key : ∀ (G : Nat) (ω : Rng), G = 1 ∨ G = 2 ∨ G = 4 → Ok (groupedLT (LOGN := 8+1) R LOGDELTA G U r.1 k.1 ω) fun c =>
      Ok (dec c.1 k.1 >>= fun pt => decode_log (LOGN := 8+1) pt (LOGDELTA + 8/G * LOGDELTA : ℕ)) fun z => ∀ i : Fin (2^8),
      ‖(⟨z.1 i, z.2 i⟩ : ℂ) - 2^8 * (m (loIdx i) + m (hiIdx i) * Complex.I)‖ ≤
        (17 * 2^8 + E G / (2^LOGDELTA)^(8/G)) / 2^LOGDELTA := by
    intro G ω hG
    have hG1 : 1 ≤ G := by omega
    have hG4 : G ≤ 4 := by omega
    have hGd : 8 % G = 0 := by rcases hG with rfl | rfl | rfl <;> rfl
    refine Ok.mono (groupedLT_slots R LOGDELTA (by omega) hQ.one hQ.two (by norm_num) (by norm_num) hs' (fun d => (hU d).lt)
      zero_le_two hG1 hG4 hGd (hb G hG4).1 (hb G hG4).2 hrc hph ω) fun c ⟨hc, v, hv, hve⟩ => ?_
    have g := hve _ hZs
    rw [hwt] at g
    exact lt_out (by norm_num) (by norm_num) hLQ29 (by omega) hs' hU hwm hmB hc hv (fun i => by rw [hE G]; exact g i) (hq G hG)
  have key1 : ∀ ω : Rng, Ok (serialLT (LOGN := 8+1) R LOGDELTA U r.1 k.1 ω) fun c =>
      Ok (dec c.1 k.1 >>= fun pt => decode_log (LOGN := 8+1) pt (LOGDELTA + 8/1 * LOGDELTA : ℕ)) fun z => ∀ i : Fin (2^8),
      ‖(⟨z.1 i, z.2 i⟩ : ℂ) - 2^8 * (m (loIdx i) + m (hiIdx i) * Complex.I)‖ ≤
        (17 * 2^8 + E 1 / (2^LOGDELTA)^(8/1)) / 2^LOGDELTA := by
    intro ω
    refine Ok.mono (serialLT_slots R LOGDELTA (by omega) hQ.one hQ.two (by norm_num) (by norm_num) hs' (fun d => (hU d).lt)
      zero_le_two (by simpa using (hb 1 (by norm_num)).1) (by simpa using (hb 1 (by norm_num)).2) hrc hph ω) fun c ⟨hc, v, hv, hve⟩ => ?_
    have g := hve _ hZs
    rw [hwt] at g
    refine lt_out (by norm_num) (by norm_num) hLQ29 (by omega) hs' hU hwm hmB hc hv (fun i => ?_) (hq 1 (Or.inl rfl))
    rw [hE 1]
    unfold ltTestErr
    simp only [pow_one]
    exact g i
  refine Ok.bind (key1 _) fun c1 o1 => ?_
  refine Ok.bind (key 2 _ (by norm_num)) fun c2 o2 => ?_
  refine Ok.bind (key 4 _ (by norm_num)) fun c4 o4 => ?_
  obtain ⟨z1, ez1, hz1⟩ := o1
  obtain ⟨z2, ez2, hz2⟩ := o2
  obtain ⟨z4, ez4, hz4⟩ := o4
  obtain ⟨p1, ep1, ez1⟩ := bind_eq_pure ez1
  obtain ⟨p2, ep2, ez2⟩ := bind_eq_pure ez2
  obtain ⟨p4, ep4, ez4⟩ := bind_eq_pure ez4
  rw [ep1, pure_bind, show decode_log p1 ((LOGDELTA + 8 * LOGDELTA : ℕ) : ℤ) = pure z1 from ez1, pure_bind,
    ep2, pure_bind, show decode_log p2 ((LOGDELTA + 4 * LOGDELTA : ℕ) : ℤ) = pure z2 from ez2, pure_bind,
    ep4, pure_bind, show decode_log p4 ((LOGDELTA + 2 * LOGDELTA : ℕ) : ℤ) = pure z4 from ez4, pure_bind]
  exact Ok.pure ⟨m, fun i => by rw [hm i, ea i], fun i h0 h1 => ⟨hz1 i, hz2 i, hz4 i⟩⟩

/-- C64 at the parameters of test.h: the three printed messages agree up to `2^-16` and `2^-14`. -/
theorem C64_parameters (R : Nat) (A0 : Fin 8 → Fac (8+1)) (ct0 : R_Q_square 1450 (2^(8+1))) (ρ : RealRng)
    (hρ : ∀ j, |ρ j| ≤ 1 / Real.sqrt 2) (ω : Rng)
    (hω : ∀ (j : Fin (2^(8+1))) (l : Nat), ∃ m, l ≤ m ∧ ω m % 2^(8+1) = j) :
    Ok (linear_transform_test (LOGN := 8+1) R 50 128 A0 ct0 ρ ω) fun o => ∀ i : Fin (2^8),
      ‖(⟨o.1.1 i, o.1.2 i⟩ : ℂ) - ⟨o.2.1.1 i, o.2.1.2 i⟩‖ ≤ 1 / 2^16 ∧
      ‖(⟨o.1.1 i, o.1.2 i⟩ : ℂ) - ⟨o.2.2.1 i, o.2.2.2 i⟩‖ ≤ 1 / 2^14 := by
  have hQ : GoodQ 1450 := Or.inr (Or.inl (by norm_num))
  have h128 : Int.toNat 128 = 128 := rfl
  have h1449 : ((2:ℝ)^200)^4 ≤ 2^(1450-1) := by rw [← pow_mul]; exact pow_le_pow_right₀ (by norm_num) (by norm_num)
  refine Ok.mono (C64_linear_transform_test R 50 (by norm_num) hQ (by norm_num) 128 (by norm_num) A0 ct0 ρ hρ ω hω _ (fun _ => rfl)
    ?_) ?_
  · intro G hG
    refine lt_of_lt_of_le ?_ h1449
    rw [h128]
    rcases hG with rfl | rfl | rfl <;> norm_num [ltTestErr, ltSize, ltErr]
  · rintro o ⟨m, -, hm⟩ i
    have hb := bitRev_lt 8 i
    obtain ⟨h1, h2, h4⟩ := hm i (by omega) (by omega)
    rw [h128] at h1 h2 h4
    have t : ∀ {x y z : ℂ} {d e : ℝ}, ‖x - z‖ ≤ d → ‖y - z‖ ≤ e → ‖x - y‖ ≤ d + e := by
      intro x y z d e hx hy
      have := norm_sub_le_norm_sub_add_norm_sub x z y
      rw [norm_sub_rev z y] at this
      linarith
    exact ⟨(t h1 h2).trans (by norm_num [ltTestErr, ltSize, ltErr]), (t h1 h4).trans (by norm_num [ltTestErr, ltSize, ltErr])⟩

/-- C64 is not vacuous: all random numbers of the message 1/2, the stream 0, 1, 2, … for the key and the encryption. -/
example : (∀ _ : Nat, |(1:ℝ)/2| ≤ 1 / Real.sqrt 2) ∧
    ∀ (j : Fin (2^(8+1))) (l : Nat), ∃ m, l ≤ m ∧ (id : Rng) m % 2^(8+1) = j := by
  refine ⟨fun _ => ?_, fun j l => ⟨2^(8+1) * l + j, by omega, by have := j.isLt; simp only [id]; omega⟩⟩
  rw [abs_of_pos (by norm_num)]
  exact one_div_le_one_div_of_le (Real.sqrt_pos.2 (by norm_num)) ((Real.sqrt_le_left (by norm_num)).2 (by norm_num))

end EvalRound

import Verif.Proofs.FloatBoot

/-! # Bootstrapping returns on every ciphertext -/

namespace EvalRound
open Z_Q Finset SparseDiagonal

variable {n LF LT : Nat} [NeZero LF] [NeZero LT]

/-- every ciphertext has a phase -/
theorem phase_some {N : Nat} (hN : N ≤ 2^30) {s : Fin N → Int} (hs : Ternary s) (ct : R_Q_square LF N) :
    ∃ m : Fin N → Int, R_Q_square.phase s ct = red LF m := by
  obtain ⟨m, -, -, h⟩ := dec_spec hN hs ct
  exact ⟨R_Q.sval m, by rw [← h, cls_red_sval]⟩

theorem ternary_zero {N : Nat} : Ternary (0 : Fin N → Int) := fun _ => Or.inr (Or.inl rfl)

theorem Mul_safe (hQ : GoodQ LF) (hn : n ≤ 16) {evk : R_Q_square (2 * LF) (2^(n+1))} (hev : evk.Canonical)
    {a b : R_Q_square LF (2^(n+1))} (ha : a.Canonical) (hb : b.Canonical) (c0 : R_Q_square LF (2^(n+1))) :
    Ok (Mul a b evk c0) fun y => y.Canonical := by
  have hN : 2^(n+1) ≤ 2^30 := Nat.pow_le_pow_right (by norm_num) (by omega)
  obtain ⟨m, hm⟩ := phase_some hN ternary_zero evk
  refine Ok.mono (Mul_spec hQ.one hQ.two (by omega) (by omega) hev (s := 0) (s2 := 0) (e := m) (B := ∑ i, |m i|) ?_ (fun i => ?_) ?_ ha hb c0)
    fun y h => h.1
  · rw [show red LF (0 : Fin (2^(n+1)) → Int) = 0 from funext fun i => by simp [red]]
    have := negconv_smul (0 : Fin (2^(n+1)) → ZMod (2^LF)) 0 0
    simpa using this.symm
  · exact single_le_sum (f := fun i => |m i|) (fun i _ => abs_nonneg _) (mem_univ i)
  · rw [smul_zero, zero_add, hm]

theorem mulW_can (c : R_Q_square LF (2^(n+1))) (w : W) : (R_Q_square.mulW c w).Canonical := ⟨R_Q.canonical_mulW _ _, R_Q.canonical_mulW _ _⟩

theorem add_can (a b : R_Q_square LF (2^(n+1))) : (R_Q_square.add a b).Canonical := ⟨R_Q.canonical_add _ _, R_Q.canonical_add _ _⟩

theorem sub_can (a b : R_Q_square LF (2^(n+1))) : (R_Q_square.sub a b).Canonical := ⟨R_Q.canonical_sub _ _, R_Q.canonical_sub _ _⟩

omit [NeZero LF] in
theorem pair_can {a b : R_Q LF (2^(n+1))} (ha : a.Canonical) (hb : b.Canonical) : R_Q_square.Canonical ((a, b) : R_Q_square LF (2^(n+1))) := ⟨ha, hb⟩

omit [NeZero LF] in
/-- writing a canonical number at index 0 -/
theorem wr0_can {x : R_Q LF (2^(n+1))} (hx : x.Canonical) {z : Z_Q LF} (hz : z.Canonical) :
    Ok (wr x 0 z) fun y => R_Q.Canonical y := by
  rw [wr_of_lt _ (Nat.two_pow_pos _)]
  refine Ok.pure fun k => ?_
  rw [Function.update_apply]
  split_ifs
  · exact hz
  · exact hx k

theorem subOne_safe {LD : Nat} (hD : LD < 64) {c : R_Q_square LF (2^(n+1))} (hc : c.Canonical) :
    Ok (subOne LD c) fun y => y.Canonical := by
  obtain ⟨D, eD, -⟩ := shl1_ok hD
  unfold subOne
  rw [eD, pure_bind]
  simp only []
  rw [rd_of_lt _ (Nat.two_pow_pos _), pure_bind]
  exact Ok.bind (wr0_can hc.1 (canonical_sub _ _)) fun x hx => Ok.pure ⟨hx, hc.2⟩

theorem polyT_safe (hQ : GoodQ LF) (hn : n ≤ 16) {LD : Nat} (hD : LD < 64) (hL : LT ≤ LF)
    {evk : R_Q_square (2 * LF) (2^(n+1))} (hev : evk.Canonical) {T : R_Q_square LF (2^(n+1))} (hT : T.Canonical) :
    Ok (polyT LT LD T evk) fun y => y.Canonical := by
  unfold polyT
  refine Ok.bind (Mul_safe hQ hn hev hT hT _) fun y _ => ?_
  simp only []
  exact Ok.bind (subOne_safe hD (mulW_can _ _)) fun z hz => RS_canonical hL _ hz _

theorem polyComb_safe (hQ : GoodQ LF) (hn : n ≤ 16) {LD : Nat} (hD : LD < 64) (hL : LT ≤ LF)
    {evk : R_Q_square (2 * LF) (2^(n+1))} (hev : evk.Canonical) {T a b : R_Q_square LF (2^(n+1))} (hT : T.Canonical) (ha : a.Canonical) :
    Ok (polyComb LT LD T a b evk) fun y => y.Canonical := by
  obtain ⟨D, eD, -⟩ := shl1_ok hD
  unfold polyComb
  refine Ok.bind (Mul_safe hQ hn hev hT ha _) fun y _ => ?_
  rw [eD, pure_bind]
  simp only []
  exact RS_canonical hL _ (add_can _ _) _

theorem polyL_safe (hQ : GoodQ LF) (hn : n ≤ 16) {LD : Nat} (hD : LD < 64) (hL : LT ≤ LF) {K K0 : Nat} (hK : 2 * K ≤ K0)
    {evk : R_Q_square (2 * LF) (2^(n+1))} (hev : evk.Canonical) {T : R_Q_square LF (2^(n+1))} (hT : T.Canonical)
    {L : Fin K0 → R_Q_square LF (2^(n+1))} (hLc : ∀ i, (L i).Canonical) :
    Ok (polyL LT LD K T L evk) fun L' => ∀ i, (L' i).Canonical := by
  refine tabM_spec (P := fun _ c => R_Q_square.Canonical c) fun m hm => ?_
  rw [rd_of_lt _ (show 2*m+1 < K0 by omega), pure_bind, rd_of_lt _ (show 2*m < K0 by omega), pure_bind]
  exact polyComb_safe hQ hn hD hL hev hT (hLc _)

theorem polyLast_safe (hQ : GoodQ LF) (hn : n ≤ 16) {LD : Nat} (hD : LD < 64) (hL : LT ≤ LF) {K0 : Nat} (hK : 2 ≤ K0)
    {evk : R_Q_square (2 * LF) (2^(n+1))} (hev : evk.Canonical) {T : R_Q_square LF (2^(n+1))} (hT : T.Canonical)
    {L : Fin K0 → R_Q_square LF (2^(n+1))} (hLc : ∀ i, (L i).Canonical) :
    Ok (polyLast LT LD T L evk) fun y => y.Canonical := by
  unfold polyLast
  rw [rd_of_lt _ (show 1 < K0 by omega), pure_bind, rd_of_lt _ (show 0 < K0 by omega), pure_bind]
  exact polyComb_safe hQ hn hD hL hev hT (hLc _)

theorem polyL1_safe (hQ : GoodQ LF) (hn : n ≤ 16) (hL : LT ≤ LF) {K K0 : Nat} (hK : 2 * K ≤ K0)
    {T : R_Q_square LF (2^(n+1))} (hT : T.Canonical)
    {L : Fin K0 → R_Q LF (2^(n+1))} (hLc : ∀ i, (L i).Canonical) :
    Ok (polyL1 LT K T L) fun L' => ∀ i, (L' i).Canonical := by
  refine tabM_spec (P := fun _ c => R_Q_square.Canonical c) fun m hm => ?_
  simp only [R_Q_square.copy_eq]
  rw [rd_of_lt _ (show 2*m+1 < K0 by omega), pure_bind]
  refine Ok.bind (mulR_spec hQ.one (by omega) (by omega) hT (hLc _)) fun y ⟨hy, _⟩ => ?_
  rw [rd_of_lt _ (show 2*m < K0 by omega), pure_bind]
  exact RS_canonical hL _ (pair_can (R_Q.canonical_add _ _) hy.2) _

theorem evalModStartF_safe {LD : Nat} (hD : LD < 64) (hL : LT ≤ LF) {K : Int} (hK : 0 < K) (hK' : 4 * K < 2^31) (ct : R_Q_square LF (2^(n+1))) :
    Ok (evalModStartF (Q1 := LT) LD K ct) fun y => y.Canonical := by
  obtain ⟨D, eD, hDv⟩ := shl1_ok hD
  obtain ⟨w, ew, -⟩ := divKF_ok hD hDv hK (by omega)
  obtain ⟨q, eq, -⟩ := divKF_ok hD hDv (show 0 < 4 * K by omega) hK'
  unfold evalModStartF
  rw [eD, pure_bind, ew, pure_bind]
  simp only []
  refine Ok.bind (RS_canonical hL _ (mulW_can _ _) _) fun y hy => ?_
  rw [show intM (4 * K) = pure (4 * K) from by unfold intM; rw [if_pos ⟨by omega, by omega⟩], pure_bind, eq, pure_bind]
  rw [rd_of_lt _ (Nat.two_pow_pos _), pure_bind]
  exact Ok.bind (wr0_can hy.1 (canonical_sub _ _)) fun x hx => Ok.pure ⟨hx, hy.2⟩

theorem evalModSix_safe (hQ : GoodQ LF) (hn : n ≤ 16) {LD : Nat} (hD : LD < 64) (hL : LT ≤ LF)
    {evk : R_Q_square (2 * LF) (2^(n+1))} (hev : evk.Canonical) {c : R_Q_square LF (2^(n+1))} (hc : c.Canonical) :
    Ok (evalModSix (Q1 := LT) LD c evk) fun y => y.Canonical := by
  obtain ⟨D, eD, -⟩ := shl1_ok hD
  unfold evalModSix
  refine Ok.bind (Mul_safe hQ hn hev hc hc _) fun y hy => ?_
  rw [eD, pure_bind]
  simp only []
  rw [rd_of_lt _ (Nat.two_pow_pos _), pure_bind]
  exact Ok.bind (wr0_can hy.1 (canonical_add _ _)) fun x hx => RS_canonical hL _ (pair_can hx hy.2) _

theorem evalModLinF_safe {LD : Nat} (hD : LD < 64) (hL : LT ≤ LF) (c : R_Q_square LF (2^(n+1))) :
    Ok (evalModLinF (Q1 := LT) LD c) fun y => y.Canonical := by
  obtain ⟨D, eD, hDv⟩ := shl1_ok hD
  obtain ⟨w, eall, -⟩ := linF_ok hD hDv
  unfold evalModLinF
  rw [eD, pure_bind]
  obtain ⟨p, e1, eall⟩ := bind_eq_pure eall
  obtain ⟨d, e2, eall⟩ := bind_eq_pure eall
  obtain ⟨x, e3, ew⟩ := bind_eq_pure eall
  rw [e1, pure_bind, e2, pure_bind, e3, pure_bind, ew, pure_bind]
  exact RS_canonical hL _ (mulW_can _ _) _

section
variable {Q0 Q1 Q2 Q3 Q4 Q5 Q6 Q7 Q8 Q9 Q10 Q11 Q12 : Nat} [NeZero Q0] [NeZero Q1] [NeZero Q2] [NeZero Q3] [NeZero Q4] [NeZero Q5] [NeZero Q6]
  [NeZero Q7] [NeZero Q8] [NeZero Q9] [NeZero Q10] [NeZero Q11] [NeZero Q12]

theorem deg31_safe {LD : Nat} (hD : LD < 63) (hn : n ≤ 16) (g1 : GoodQ Q1) (g2 : GoodQ Q2) (g3 : GoodQ Q3) (g4 : GoodQ Q4) (g5 : GoodQ Q5)
    (hlo : 64 ≤ Q1) (l1 : Q2 ≤ Q1) (l2 : Q3 ≤ Q2) (l3 : Q4 ≤ Q3) (l4 : Q5 ≤ Q4) (l5 : Q6 ≤ Q5)
    {c1 : R_Q_square Q1 (2^(n+1))} (h1 : c1.Canonical)
    {evk1 : R_Q_square (2 * Q1) (2^(n+1))} (hev1 : evk1.Canonical)
    {evk2 : R_Q_square (2 * Q2) (2^(n+1))} (hev2 : evk2.Canonical)
    {evk3 : R_Q_square (2 * Q3) (2^(n+1))} (hev3 : evk3.Canonical)
    {evk4 : R_Q_square (2 * Q4) (2^(n+1))} (hev4 : evk4.Canonical)
    {evk5 : R_Q_square (2 * Q5) (2^(n+1))} (hev5 : evk5.Canonical) :
    Ok (eval_poly_deg31 (Q5 := Q6) LD evalModUF c1 evk1 evk2 evk3 evk4 evk5) fun y => y.Canonical := by
  have hD' : LD < 64 := by omega
  unfold eval_poly_deg31
  refine Ok.bind (tabM_spec (P := fun _ b => R_Q.Canonical b) fun m hm => ?_) fun L0 hL0 => ?_
  · rw [rd_of_lt _ hm, pure_bind]
    exact Ok.mono (polyConstS_spec hlo hD' m (evalModUF_lt hD _)) fun b h => h.1
  refine Ok.bind (polyL1_safe g1 hn l1 (by norm_num) h1 hL0) fun L1 hL1 => ?_
  refine Ok.bind (polyT_safe g1 hn hD' l1 hev1 h1) fun T2 hT2 => ?_
  refine Ok.bind (polyL_safe g2 hn hD' l2 (by norm_num) hev2 hT2 hL1) fun L2 hL2 => ?_
  refine Ok.bind (polyT_safe g2 hn hD' l2 hev2 hT2) fun T4 hT4 => ?_
  refine Ok.bind (polyL_safe g3 hn hD' l3 (by norm_num) hev3 hT4 hL2) fun L3 hL3 => ?_
  refine Ok.bind (polyT_safe g3 hn hD' l3 hev3 hT4) fun T8 hT8 => ?_
  refine Ok.bind (polyL_safe g4 hn hD' l4 (by norm_num) hev4 hT8 hL3) fun L4 hL4 => ?_
  refine Ok.bind (polyT_safe g4 hn hD' l4 hev4 hT8) fun T16 hT16 => ?_
  exact polyLast_safe g5 hn hD' l5 (by norm_num) hev5 hT16 hL4

theorem EvalModF_safe {LD : Nat} (hD : LD < 63) (hn : n ≤ 16) (hC : EvalModChain LD Q0 Q1 Q2 Q3 Q4 Q5 Q6 Q7 Q8 Q9 Q10 Q11 Q12)
    (hlo : 65 ≤ Q11) (hhi : Q1 ≤ 1525) {K : Int} (hK : 0 < K) (hK' : 4 * K < 2^31) (ct : R_Q_square Q0 (2^(n+1)))
    {evk1 : R_Q_square (2 * Q1) (2^(n+1))} (hev1 : evk1.Canonical)
    {evk2 : R_Q_square (2 * Q2) (2^(n+1))} (hev2 : evk2.Canonical)
    {evk3 : R_Q_square (2 * Q3) (2^(n+1))} (hev3 : evk3.Canonical)
    {evk4 : R_Q_square (2 * Q4) (2^(n+1))} (hev4 : evk4.Canonical)
    {evk5 : R_Q_square (2 * Q5) (2^(n+1))} (hev5 : evk5.Canonical)
    {evk6 : R_Q_square (2 * Q6) (2^(n+1))} (hev6 : evk6.Canonical)
    {evk7 : R_Q_square (2 * Q7) (2^(n+1))} (hev7 : evk7.Canonical)
    {evk8 : R_Q_square (2 * Q8) (2^(n+1))} (hev8 : evk8.Canonical)
    {evk9 : R_Q_square (2 * Q9) (2^(n+1))} (hev9 : evk9.Canonical)
    {evk10 : R_Q_square (2 * Q10) (2^(n+1))} (hev10 : evk10.Canonical)
    {evk11 : R_Q_square (2 * Q11) (2^(n+1))} (hev11 : evk11.Canonical) :
    Ok (EvalModF (Q12 := Q12) LD K ct evk1 evk2 evk3 evk4 evk5 evk6 evk7 evk8 evk9 evk10 evk11) fun p => p.Canonical := by
  obtain ⟨hL0, hL1, hL2, hL3, hL4, hL5, hL6, hL7, hL8, hL9, hL10, hL11⟩ := hC
  have hD' : LD < 64 := by omega
  have l0 : Q1 ≤ Q0 := by rw [hL0]; exact Nat.le_add_right _ _
  have l1 : Q2 ≤ Q1 := by rw [hL1]; exact Nat.le_add_right _ _
  have l2 : Q3 ≤ Q2 := by rw [hL2]; exact Nat.le_add_right _ _
  have l3 : Q4 ≤ Q3 := by rw [hL3]; exact Nat.le_add_right _ _
  have l4 : Q5 ≤ Q4 := by rw [hL4]; exact Nat.le_add_right _ _
  have l5 : Q6 ≤ Q5 := by rw [hL5]; exact Nat.le_add_right _ _
  have l6 : Q7 ≤ Q6 := by rw [hL6]; exact Nat.le_add_right _ _
  have l7 : Q8 ≤ Q7 := by rw [hL7]; exact Nat.le_add_right _ _
  have l8 : Q9 ≤ Q8 := by rw [hL8]; exact Nat.le_add_right _ _
  have l9 : Q10 ≤ Q9 := by rw [hL9]; exact Nat.le_add_right _ _
  have l10 : Q11 ≤ Q10 := by rw [hL10]; exact Nat.le_add_right _ _
  have l11 : Q12 ≤ Q11 := by rw [hL11]; exact Nat.le_add_right _ _
  have m11 : 65 ≤ Q11 := hlo
  have m10 : 65 ≤ Q10 := m11.trans l10
  have m9 : 65 ≤ Q9 := m10.trans l9
  have m8 : 65 ≤ Q8 := m9.trans l8
  have m7 : 65 ≤ Q7 := m8.trans l7
  have m6 : 65 ≤ Q6 := m7.trans l6
  have m5 : 65 ≤ Q5 := m6.trans l5
  have m4 : 65 ≤ Q4 := m5.trans l4
  have m3 : 65 ≤ Q3 := m4.trans l3
  have m2 : 65 ≤ Q2 := m3.trans l2
  have m1 : 65 ≤ Q1 := m2.trans l1
  have u1 : Q1 ≤ 1525 := hhi
  have u2 : Q2 ≤ 1525 := l1.trans u1
  have u3 : Q3 ≤ 1525 := l2.trans u2
  have u4 : Q4 ≤ 1525 := l3.trans u3
  have u5 : Q5 ≤ 1525 := l4.trans u4
  have u6 : Q6 ≤ 1525 := l5.trans u5
  have u7 : Q7 ≤ 1525 := l6.trans u6
  have u8 : Q8 ≤ 1525 := l7.trans u7
  have u9 : Q9 ≤ 1525 := l8.trans u8
  have u10 : Q10 ≤ 1525 := l9.trans u9
  have u11 : Q11 ≤ 1525 := l10.trans u10
  have hQ1 : 64 ≤ Q1 := le_trans (by norm_num) m1
  have g1 : GoodQ Q1 := Or.inr (Or.inl ⟨m1, u1⟩)
  have g2 : GoodQ Q2 := Or.inr (Or.inl ⟨m2, u2⟩)
  have g3 : GoodQ Q3 := Or.inr (Or.inl ⟨m3, u3⟩)
  have g4 : GoodQ Q4 := Or.inr (Or.inl ⟨m4, u4⟩)
  have g5 : GoodQ Q5 := Or.inr (Or.inl ⟨m5, u5⟩)
  have g6 : GoodQ Q6 := Or.inr (Or.inl ⟨m6, u6⟩)
  have g7 : GoodQ Q7 := Or.inr (Or.inl ⟨m7, u7⟩)
  have g8 : GoodQ Q8 := Or.inr (Or.inl ⟨m8, u8⟩)
  have g9 : GoodQ Q9 := Or.inr (Or.inl ⟨m9, u9⟩)
  have g10 : GoodQ Q10 := Or.inr (Or.inl ⟨m10, u10⟩)
  have g11 : GoodQ Q11 := Or.inr (Or.inl ⟨m11, u11⟩)
  unfold EvalModF
  refine Ok.bind (evalModStartF_safe hD' l0 hK hK' ct) fun c1 h1 => ?_
  rw [deg31F_eq hD']
  refine Ok.bind (deg31_safe hD hn g1 g2 g3 g4 g5 hQ1 l1 l2 l3 l4 l5 h1 hev1 hev2 hev3 hev4 hev5) fun c2 h2 => ?_
  refine Ok.bind (polyT_safe g6 hn hD' l6 hev6 h2) fun c3 h3 => ?_
  refine Ok.bind (polyT_safe g7 hn hD' l7 hev7 h3) fun c4 h4 => ?_
  refine Ok.bind (polyT_safe g8 hn hD' l8 hev8 h4) fun c5 h5 => ?_
  refine Ok.bind (polyT_safe g9 hn hD' l9 hev9 h5) fun c6 h6 => ?_
  refine Ok.bind (evalModSix_safe g10 hn hD' l10 hev10 h6) fun c7 h7 => ?_
  refine Ok.bind (evalModLinF_safe hD' l10 c6) fun c8 h8 => ?_
  exact Ok.bind (Mul_safe g11 hn hev11 h7 h8 _) fun c9 h9 => RS_canonical l11 _ h9 _

theorem EvalModKeyF_safe (R : Nat) {LD : Nat} (hD : LD < 63) (hn : n ≤ 16)
    (hC : EvalModChain LD Q0 Q1 Q2 Q3 Q4 Q5 Q6 Q7 Q8 Q9 Q10 Q11 Q12)
    (hlo : 65 ≤ Q11) (hhi : Q1 ≤ 1525) {s : Fin (2^(n+1)) → Int} (hs : Ternary s) {K : Int} (hK : 0 < K)
    (hK' : 4 * K < 2^31) (ct : R_Q_square Q0 (2^(n+1))) (ω : Rng) :
    Ok (EvalModKeyF R LD K Q1 Q2 Q3 Q4 Q5 Q6 Q7 Q8 Q9 Q10 Q11 Q12 ct s ω) fun p => p.1.Canonical := by
  have hN : 2^(n+1) ≤ 2^17 := Nat.pow_le_pow_right (by norm_num) (by omega)
  unfold EvalModKeyF
  rw [convI_spec (by omega) s s hs.abs_le hs.abs_le, pure_bind]
  refine Ok.bind (swk_evk R hn hs R_Q_square.setzero _) fun k1 e1 => ?_
  refine Ok.bind (swk_evk R hn hs R_Q_square.setzero _) fun k2 e2 => ?_
  refine Ok.bind (swk_evk R hn hs R_Q_square.setzero _) fun k3 e3 => ?_
  refine Ok.bind (swk_evk R hn hs R_Q_square.setzero _) fun k4 e4 => ?_
  refine Ok.bind (swk_evk R hn hs R_Q_square.setzero _) fun k5 e5 => ?_
  refine Ok.bind (swk_evk R hn hs R_Q_square.setzero _) fun k6 e6 => ?_
  refine Ok.bind (swk_evk R hn hs R_Q_square.setzero _) fun k7 e7 => ?_
  refine Ok.bind (swk_evk R hn hs R_Q_square.setzero _) fun k8 e8 => ?_
  refine Ok.bind (swk_evk R hn hs R_Q_square.setzero _) fun k9 e9 => ?_
  refine Ok.bind (swk_evk R hn hs R_Q_square.setzero _) fun k10 e10 => ?_
  refine Ok.bind (swk_evk R hn hs R_Q_square.setzero _) fun k11 e11 => ?_
  refine Ok.bind (EvalModF_safe hD hn hC hlo hhi hK hK' ct e1.1 e2.1 e3.1 e4.1 e5.1 e6.1 e7.1 e8.1 e9.1 e10.1 e11.1) fun p hp => ?_
  exact Ok.pure hp

end

/-! ## the linear transforms and the whole -/

theorem ctsF_safe {L : LibmP} (hLib : L.Accurate) (R LD : Nat) (hL : LD < 63) (hQ : GoodQ LF) (hLQ : LD + 2 < LF) (hn1 : 1 ≤ n) (hn : n ≤ 16)
    {s : Fin (2^(n+1)) → Int} (hs : Ternary s) {G : Nat} (hG1 : 1 ≤ G) (hG : G ≤ 4) (hD : n % G = 0)
    {ct : R_Q_square LF (2^(n+1))} (hct : ct.Canonical) (ω : Rng) :
    Ok (CoeffToSlotF (LOGN := n+1) L R LD G ct s ω) fun r => r.1.1.Canonical ∧ r.1.2.Canonical := by
  have hN : 2^(n+1) ≤ 2^30 := Nat.pow_le_pow_right (by norm_num) (by omega)
  obtain ⟨m, hm⟩ := phase_some hN hs ct
  refine Ok.mono (Ok.bind (ctsTableF_spec hLib hn1 (by omega)) fun U hU =>
    ctsWithF_real hLib.1 R LD hL hQ.one hQ.two hn1 hn hs hU hG1 hG hD hLQ hct hm ω) fun r h => ⟨h.1, h.2.1⟩

theorem stcF_safe {L : Libm} (hLib : L.Accurate) (R LD : Nat) (hL : LD < 63) (hQ : GoodQ LF) (hLQ : LD + 2 < LF) (hn1 : 1 ≤ n) (hn : n ≤ 16)
    {s : Fin (2^(n+1)) → Int} (hs : Ternary s) {G : Nat} (hG1 : 1 ≤ G) (hG : G ≤ 4) (hD : n % G = 0)
    {c0 c1 : R_Q_square LF (2^(n+1))} (h0 : c0.Canonical) (h1 : c1.Canonical) (ω : Rng) :
    Ok (SlotToCoeffF (LOGN := n+1) L R LD G c0 c1 s ω) fun r => r.1.Canonical := by
  have hN : 2^(n+1) ≤ 2^30 := Nat.pow_le_pow_right (by norm_num) (by omega)
  obtain ⟨m0, hm0⟩ := phase_some hN hs c0
  obtain ⟨m1, hm1⟩ := phase_some hN hs c1
  refine Ok.mono (Ok.bind (stcTableF_spec hLib (by omega)) fun T hT =>
      stcWithF_coeff hLib R LD hL hQ.one hQ.two hn1 hn hs hT.1 hT.2 hG1 hG hD hLQ h0 h1 hm0 hm1 ω) fun r h => h.1

section
variable {Lq QT Q0 Q1 Q2 Q3 Q4 Q5 Q6 Q7 Q8 Q9 Q10 Q11 Q12 QS : Nat} [NeZero Lq] [NeZero QT] [NeZero Q0] [NeZero Q1] [NeZero Q2] [NeZero Q3]
  [NeZero Q4] [NeZero Q5] [NeZero Q6] [NeZero Q7] [NeZero Q8] [NeZero Q9] [NeZero Q10] [NeZero Q11] [NeZero Q12] [NeZero QS]

set_option maxHeartbeats 1000000 in
theorem bootToEvalModF_safe {L : LibmP} (hLib : L.Accurate) (R : Nat) {LDcts LD : Nat} (hLc : LDcts < 63) (hD : LD < 63) (hn1 : 1 ≤ n) (hn : n ≤ 16)
    {G : Nat} (hG1 : 1 ≤ G) (hG : G ≤ 4) (hnG : n % G = 0) (hQ0 : Q0 ≤ QT) (hcQ : LDcts + 2 < QT)
    (hC : EvalModChain LD Q0 Q1 Q2 Q3 Q4 Q5 Q6 Q7 Q8 Q9 Q10 Q11 Q12) (hlo : 65 ≤ Q12) (hhi : QT ≤ 1525) {K : Int} (hK : 0 < K) (hK' : 4 * K < 2^31)
    {s : Fin (2^(n+1)) → Int} (hs : Ternary s) (ct : R_Q_square Lq (2^(n+1))) (ω : Rng) :
    Ok (bootToEvalModF L R LDcts LD G K QT Q0 Q1 Q2 Q3 Q4 Q5 Q6 Q7 Q8 Q9 Q10 Q11 Q12 ct s ω) fun b =>
      b.ct_evalmod0.Canonical ∧ b.ct_evalmod1.Canonical := by
  have hC' := hC
  unfold EvalModChain at hC'
  have hcan : (mod_raise QT ct).Canonical := ⟨fun i => canonical_resize _, fun i => canonical_resize _⟩
  unfold bootToEvalModF
  simp only []
  refine Ok.bind (ctsF_safe hLib R LDcts hLc (Or.inr (Or.inl ⟨by omega, by omega⟩)) hcQ hn1 hn hs hG1 hG hnG hcan ω) fun r ⟨hr0, hr1⟩ => ?_
  refine Ok.bind (RS_canonical hQ0 _ hr0 _) fun c0 hc0 => ?_
  refine Ok.bind (RS_canonical hQ0 _ hr1 _) fun c1 hc1 => ?_
  refine Ok.bind (EvalModKeyF_safe R hD hn hC (by omega) (by omega) hs hK hK' c0 _) fun e0 he0 => ?_
  exact Ok.bind (EvalModKeyF_safe R hD hn hC (by omega) (by omega) hs hK hK' c1 _) fun e1 he1 => Ok.pure ⟨he0, he1⟩

theorem bootConvF_safe {L : LibmP} (hLib : L.Accurate) (R : Nat) {LDcts LD LDstc : Nat} (hLc : LDcts < 63) (hD : LD < 63) (hLs : LDstc < 63)
    (hn1 : 1 ≤ n) (hn : n ≤ 16) {G : Nat} (hG1 : 1 ≤ G) (hG : G ≤ 4) (hnG : n % G = 0) (hQ0 : Q0 ≤ QT) (hcQ : LDcts + 2 < QT)
    (hC : EvalModChain LD Q0 Q1 Q2 Q3 Q4 Q5 Q6 Q7 Q8 Q9 Q10 Q11 Q12) (hQS : QS ≤ Q12) (hlo : 65 ≤ Q12) (hhi : QT ≤ 1525) {K : Int} (hK : 0 < K)
    (hK' : 4 * K < 2^31) {s : Fin (2^(n+1)) → Int} (hs : Ternary s) (ct : R_Q_square Lq (2^(n+1))) (ω : Rng) :
    Ok (bootConvF L R LDcts LD LDstc G K QT Q0 Q1 Q2 Q3 Q4 Q5 Q6 Q7 Q8 Q9 Q10 Q11 Q12 QS ct s ω) fun p => p.1.Canonical := by
  have hC' := hC
  unfold EvalModChain at hC'
  unfold bootConvF
  refine Ok.bind (bootToEvalModF_safe hLib R hLc hD hn1 hn hG1 hG hnG hQ0 hcQ hC hlo hhi hK hK' hs ct ω) fun b ⟨h0, h1⟩ => ?_
  unfold bootConvTailF
  refine Ok.bind (stcF_safe hLib.1 R LDstc hLs (Or.inr (Or.inl ⟨by omega, by omega⟩)) (by omega) hn1 hn hs hG1 hG hnG h0 h1 _) fun r hr => ?_
  exact Ok.bind (RS_canonical hQS _ hr _) fun c hc => Ok.pure hc

theorem bootPropF_safe {L : LibmP} (hLib : L.Accurate) (R : Nat) {LDcts LD LDstc : Nat} (hLc : LDcts < 63) (hD : LD < 63) (hLs : LDstc < 63)
    (hn1 : 1 ≤ n) (hn : n ≤ 16) {G : Nat} (hG1 : 1 ≤ G) (hG : G ≤ 4) (hnG : n % G = 0) (hQ0 : Q0 ≤ QT) (hcQ : LDcts + 2 < QT)
    (hC : EvalModChain LD Q0 Q1 Q2 Q3 Q4 Q5 Q6 Q7 Q8 Q9 Q10 Q11 Q12) (hQS : QS ≤ Q12) (hlo : 65 ≤ Q12) (hhi : QT ≤ 1525) {K : Int} (hK : 0 < K)
    (hK' : 4 * K < 2^31) {s : Fin (2^(n+1)) → Int} (hs : Ternary s) (ct : R_Q_square Lq (2^(n+1))) (ω : Rng) :
    Ok (bootPropF L R LDcts LD LDstc G K QT Q0 Q1 Q2 Q3 Q4 Q5 Q6 Q7 Q8 Q9 Q10 Q11 Q12 QS ct s ω) fun p => p.1.Canonical := by
  have hC' := hC
  unfold EvalModChain at hC'
  unfold bootPropF
  refine Ok.bind (bootToEvalModF_safe hLib R hLc hD hn1 hn hG1 hG hnG hQ0 hcQ hC hlo hhi hK hK' hs ct ω) fun b ⟨h0, h1⟩ => ?_
  unfold bootPropTailF
  simp only []
  refine Ok.bind (stcF_safe hLib.1 R LDstc hLs (Or.inr (Or.inl ⟨by omega, by omega⟩)) (by omega) hn1 hn hs hG1 hG hnG
    (c0 := R_Q_square.sub (R_Q_square.resize Q12 b.ct_ctsrs0) b.ct_evalmod0) (c1 := R_Q_square.sub (R_Q_square.resize Q12 b.ct_ctsrs1) b.ct_evalmod1)
    (sub_can _ _) (sub_can _ _) _) fun r hr => ?_
  exact Ok.bind (RS_canonical hQS _ hr _) fun c hc => Ok.pure (sub_can _ _)

end

end EvalRound

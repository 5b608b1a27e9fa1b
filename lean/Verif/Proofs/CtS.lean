import Verif.Proofs.Group

/-! # The factors of CoeffToSlot and SlotToCoeff -/

set_option linter.unusedSectionVars false

namespace EvalRound
open Z_Q Finset SparseDiagonal

variable {H n : Nat}

/-! ## Row sums of butterflies -/

theorem lo_cases {M : Nat} (hM : 0 < M) (p : Nat) : p = lo M p ∨ p = lo M p + M := by
  obtain ⟨b, c, i, e, hc, hi⟩ := exists_blk hM p
  have : c = 0 ∨ c = 1 := by omega
  rw [e, lo_blk hi hc]
  rcases this with rfl | rfl
  · left; omega
  · right; omega

theorem lo_lo {M : Nat} (hM : 0 < M) (p : Nat) : lo M (lo M p) = lo M p ∧ lo M (lo M p + M) = lo M p := by
  obtain ⟨b, c, i, e, hc, hi⟩ := exists_blk hM p
  rw [e, lo_blk hi hc]
  have h0 := lo_blk (M := M) (b := b) hi (by norm_num : 0 < 2)
  have h1 := lo_blk (M := M) (b := b) hi (by norm_num : 1 < 2)
  rw [show 2*M*b + 0*M + i = 2*M*b+i by ring] at h0
  rw [show 2*M*b + 1*M + i = 2*M*b+i+M by ring] at h1
  exact ⟨h0, h1⟩

theorem norm_bfly_le {M : Nat} (hM : 0 < M) {ω : Nat → ℂ} (hω : ∀ i, ‖ω i‖ ≤ 1) (p q : Fin H) :
    ‖bfly H M ω p q‖ ≤ if lo M p = lo M q then 1 else 0 := by
  unfold bfly
  have hs : ‖sgn M p‖ = 1 := by unfold sgn; split <;> simp
  by_cases h1 : q.val = lo M p
  · rw [if_pos h1, h1, (lo_lo hM _).1, if_pos rfl, norm_one]
  · rw [if_neg h1]
    by_cases h2 : q.val = lo M p + M
    · rw [if_pos h2, h2, (lo_lo hM _).2, if_pos rfl, norm_mul, hs, one_mul]
      exact hω _
    · rw [if_neg h2, norm_zero]
      split <;> norm_num

theorem lo_card {M : Nat} (hM : 0 < M) (p : Fin H) :
    ∑ q : Fin H, (if lo M p = lo M q then (1:ℝ) else 0) ≤ 2 := by
  have : ∀ q : Fin H, (if lo M p = lo M q then (1:ℝ) else 0) ≤
      (if q.val = lo M p then 1 else 0) + (if q.val = lo M p + M then 1 else 0) := by
    intro q
    by_cases h : lo M p = lo M q
    · rw [if_pos h]
      rcases lo_cases hM q with h1 | h1
      · rw [if_pos (h1.trans h.symm)]; split <;> norm_num
      · rw [if_pos (show q.val = lo M p + M by rw [h]; exact h1)]; split <;> norm_num
    · rw [if_neg h]; split <;> split <;> norm_num
  refine (sum_le_sum fun q _ => this q).trans ?_
  rw [sum_add_distrib]
  have key : ∀ c : Nat, ∑ q : Fin H, (if q.val = c then (1:ℝ) else 0) ≤ 1 := by
    intro c
    by_cases hc : c < H
    · have : ∀ q : Fin H, (if q.val = c then (1:ℝ) else 0) = if q = ⟨c, hc⟩ then 1 else 0 := fun q => by
        simp only [Fin.ext_iff]
      simp_rw [this]
      simp
    · rw [sum_eq_zero fun q _ => if_neg (by have := q.isLt; omega)]
      norm_num
  linarith [key (lo M p), key (lo M p + M)]

theorem bfly_row {M : Nat} (hM : 0 < M) {ω : Nat → ℂ} (hω : ∀ i, ‖ω i‖ ≤ 1) (p : Fin H) :
    ∑ q, ‖bfly H M ω p q‖ ≤ 2 :=
  (sum_le_sum fun q _ => norm_bfly_le hM hω p q).trans (lo_card hM p)

theorem bfly_row_adj {M : Nat} (hM : 0 < M) {ω : Nat → ℂ} (hω : ∀ i, ‖ω i‖ ≤ 1) (p : Fin H) :
    ∑ q, ‖(bfly H M ω).conjTranspose p q‖ ≤ 2 := by
  refine (sum_le_sum fun q _ => ?_).trans (lo_card hM p)
  rw [Matrix.conjTranspose_apply, norm_star]
  refine (norm_bfly_le hM hω q p).trans (le_of_eq ?_)
  simp only [eq_comm]

theorem norm_ctw (n t i : Nat) : ‖ctw n t i‖ ≤ 1 := (norm_zeta_pow _ _).le

/-! ## Entries of products of consecutive butterflies -/

theorem lo_div {M : Nat} (hM : 0 < M) {p r : Nat} (h : lo M p = lo M r) : p / (2*M) = r / (2*M) := by
  obtain ⟨b, c, i, e, hc, hi⟩ := exists_blk hM p
  obtain ⟨b', c', i', e', hc', hi'⟩ := exists_blk hM r
  rw [e, e', lo_blk hi hc, lo_blk hi' hc'] at h
  have key : ∀ b c i, c < 2 → i < M → (2*M*b + c*M + i) / (2*M) = b := by
    intro b c i hc hi
    have : c*M + i < 2*M := by
      have : c = 0 ∨ c = 1 := by omega
      rcases this with rfl | rfl <;> omega
    rw [add_assoc, Nat.mul_add_div (by omega), Nat.div_eq_of_lt this, add_zero]
  have k1 := key b 0 i (by norm_num) hi
  have k2 := key b' 0 i' (by norm_num) hi'
  rw [zero_mul, add_zero] at k1 k2
  rw [e, e', key b c i hc hi, key b' c' i' hc' hi', ← k1, ← k2, h]

theorem lo_div_inj {M : Nat} (hM : 0 < M) {r r' : Nat} (h : lo M r = lo M r') (hd : r / M = r' / M) : r = r' := by
  rcases lo_cases hM r with h1 | h1 <;> rcases lo_cases hM r' with h2 | h2
  · omega
  · rw [← h] at h2
    rw [h2, ← h1, Nat.add_div_right _ hM] at hd
    omega
  · rw [h] at h1
    rw [h1, ← h2, Nat.add_div_right _ hM] at hd
    omega
  · omega

/-- a product of consecutive butterflies has one path between two points, so its entries are at most 1 -/
theorem bfly_seq {d : Nat} {A : Nat → Matrix (Fin H) (Fin H) ℂ} {c : Nat → ℂ} {ω : Nat → Nat → ℂ} {g : Nat}
    (hA : ∀ j, j < g → A j = c j • bfly H (2^(d+j)) (ω j)) (hc : ∀ j, ‖c j‖ = 1) (hω : ∀ j i, ‖ω j i‖ ≤ 1)
    (p q : Fin H) : ‖seqMat A g p q‖ ≤ if p.val / 2^(d+g) = q.val / 2^(d+g) then 1 else 0 := by
  induction g generalizing p with
  | zero =>
    rw [seqMat, Matrix.one_apply]
    by_cases h : p = q
    · rw [if_pos h, h, if_pos rfl, norm_one]
    · rw [if_neg h, norm_zero]; split <;> norm_num
  | succ g ih =>
    have hM : 0 < 2^(d+g) := Nat.two_pow_pos _
    have e2 : 2^(d+(g+1)) = 2 * 2^(d+g) := by rw [← add_assoc, pow_succ]; ring
    rw [seqMat, hA g (by omega), Matrix.smul_mul, Matrix.smul_apply, norm_smul, hc, one_mul, Matrix.mul_apply]
    have hb : ∀ r : Fin H, ‖bfly H (2^(d+g)) (ω g) p r * seqMat A g r q‖ ≤
        if lo (2^(d+g)) p = lo (2^(d+g)) r ∧ r.val / 2^(d+g) = q.val / 2^(d+g) then 1 else 0 := by
      intro r
      rw [norm_mul]
      have g1 := norm_bfly_le hM (hω g) p r
      have g2 := ih (fun j hj => hA j (by omega)) r
      by_cases h1 : lo (2^(d+g)) p = lo (2^(d+g)) r
      · by_cases h2 : r.val / 2^(d+g) = q.val / 2^(d+g)
        · rw [if_pos h1] at g1
          rw [if_pos h2] at g2
          rw [if_pos ⟨h1, h2⟩]
          exact mul_le_one₀ g1 (norm_nonneg _) g2
        · rw [if_neg h2] at g2
          rw [if_neg (fun h => h2 h.2), le_antisymm g2 (norm_nonneg _), mul_zero]
      · rw [if_neg h1] at g1
        rw [if_neg (fun h => h1 h.1), le_antisymm g1 (norm_nonneg _), zero_mul]
    refine (norm_sum_le _ _).trans ((sum_le_sum fun r _ => hb r).trans ?_)
    rw [e2]
    by_cases hex : ∃ r : Fin H, lo (2^(d+g)) p = lo (2^(d+g)) r ∧ r.val / 2^(d+g) = q.val / 2^(d+g)
    · obtain ⟨r, h1, h2⟩ := hex
      have hpq : p.val / (2 * 2^(d+g)) = q.val / (2 * 2^(d+g)) := by
        rw [lo_div hM h1, mul_comm 2, ← Nat.div_div_eq_div_mul, ← Nat.div_div_eq_div_mul, h2]
      rw [if_pos hpq, sum_eq_single r]
      · split <;> norm_num
      · intro r' _ hr'
        refine if_neg fun h => hr' (Fin.ext ?_)
        exact lo_div_inj hM (h.1.symm.trans h1) (h.2.trans h2.symm)
      · intro h; exact absurd (mem_univ _) h
    · rw [sum_eq_zero fun r _ => if_neg fun h => hex ⟨r, h⟩]
      split <;> norm_num

/-! ## CoeffToSlot -/

/-- the scaling of each factor -/
noncomputable def ctsC (n : Nat) : ℝ := 1 / ((2^(n+1) : Nat) : ℝ) ^ ((1 : ℝ) / ((n : Nat) : ℝ))

theorem ctsC_pow (hn : 1 ≤ n) : (ctsC n)^n = 1 / 2^(n+1) := by
  unfold ctsC
  rw [div_pow, one_pow, one_div ((n:ℕ):ℝ), Real.rpow_inv_natCast_pow (Nat.cast_nonneg _) (by omega)]
  push_cast; rfl

theorem ctsC_pos : 0 < ctsC n := by
  unfold ctsC
  have : (0:ℝ) < ((2^(n+1) : ℕ) : ℝ) := by exact_mod_cast Nat.two_pow_pos _
  positivity

theorem ctsC_le (hn : 1 ≤ n) : 2 * ctsC n ≤ 1 := by
  have h1 : (2 * ctsC n)^n ≤ 1 := by
    rw [mul_pow, ctsC_pow hn, pow_succ]
    have : (0:ℝ) < 2^n := by positivity
    rw [mul_one_div, div_le_one (by positivity)]
    linarith
  by_contra h
  have := one_lt_pow₀ (not_le.1 h) (by omega : n ≠ 0)
  linarith

/-- a factor of CoeffToSlot -/
structure IsCts (n d : Nat) (A : Fac (n+1)) : Prop where
  shape : SDProd (H := 2^n) A
  den : denC A.1 A.2 = (ctsC n : ℂ) • (bfly (2^n) (2^(n-1-d)) (ctw n (n-1-d))).conjTranspose

theorem denC_scale {S : Nat} (A B : SparseDiagonal H S) (c : ℝ) :
    denC { A with vec := fun s i => A.vec s i * c } { B with vec := fun s i => B.vec s i * c } =
      (c : ℂ) • denC A B := by
  have h1 := C31_scale A c
  have h2 := C31_scale B c
  rw [scale_eq] at h1 h2
  funext i j
  simp only [denC, h1, h2, Matrix.smul_apply, smul_eq_mul]
  apply Complex.ext
  · simp [Matrix.smul_apply]
  · simp [Matrix.smul_apply]

theorem ctsFactor_spec {d : Nat} (hn : n ≤ 30) (hd : d < n) {A : Fac (n+1)} (h : IsFactor n d A) :
    Ok (ctsFactor A) (IsCts n d) := by
  have e : ctsFactor A = (do let B ← adjFactor A; pure (B.1.scale (ctsC n), B.2.scale (ctsC n))) := by
    unfold ctsFactor adjFactor
    simp only [bind_assoc, pure_bind]
    rfl
  rw [e]
  refine Ok.bind (adjFactor_spec hn hd h) fun B hB => Ok.pure ?_
  rw [scale_eq, scale_eq]
  refine ⟨⟨⟨hB.rng, fun s _ => congrFun hB.off s, ?_, ?_⟩, hB.off, ?_, ?_⟩, ?_⟩
  · intro s hs i; simp only []; rw [hB.flag.1 s hs i, zero_mul]
  · intro s hs i; simp only []; rw [hB.flag.2 s hs i, zero_mul]
  · intro s s' h1 h2 i; simp only []; rw [hB.own.1 s s' h1 h2 i, zero_mul]
  · intro s s' h1 h2 i; simp only []; rw [hB.own.2 s s' h1 h2 i, zero_mul]
  · exact (denC_scale B.1 B.2 (ctsC n)).trans (congrArg _ hB.den)

theorem ctsTable_spec (hn : n ≤ 26) : Ok (ctsTable (n+1)) fun U => ∀ d : Fin n, IsCts n d (U d) := by
  unfold ctsTable
  refine Ok.bind (splitU0NR_spec hn _) fun U hU => ?_
  refine tabM_spec (P := fun d A => IsCts n d A) fun d hd => ?_
  rw [rd_of_lt U hd, pure_bind]
  exact ctsFactor_spec (by omega) hd (hU ⟨d, hd⟩)

theorem cts_seq {U : Fin n → Fac (n+1)} (hU : ∀ d : Fin n, IsCts n d (U d)) {t : Nat} (ht : t ≤ n) :
    seqMat (mats (H := 2^n) U) t = ((ctsC n : ℂ)^t) • ifftMat n t := by
  induction t with
  | zero => simp [seqMat, ifftMat]
  | succ t ih =>
    have : t < n := ht
    have e : denC (N := 2^n) (U ⟨t, this⟩).1 (U ⟨t, this⟩).2 = _ := (hU ⟨t, this⟩).den
    rw [seqMat, ih (by omega), mats_lt _ this, e, ifftMat, Matrix.smul_mul, Matrix.mul_smul, smul_smul, pow_succ']

theorem IsCts.lt {d : Nat} {A : Fac (n+1)} (h : IsCts n d A) (hn : 1 ≤ n) : LTMat (H := 2^n) A 1 := by
  refine h.shape.lt fun i => ?_
  have e : denC (N := 2^n) A.1 A.2 = (ctsC n : ℂ) • (bfly (2^n) (2^(n-1-d)) (ctw n (n-1-d))).conjTranspose := h.den
  rw [e]
  simp only [Matrix.smul_apply, norm_smul]
  rw [← mul_sum]
  have h1 := bfly_row_adj (H := 2^n) (Nat.two_pow_pos (n-1-d)) (norm_ctw n (n-1-d)) i
  have h2 : ‖(ctsC n : ℂ)‖ = ctsC n := by rw [Complex.norm_real, Real.norm_of_nonneg ctsC_pos.le]
  rw [h2]
  have := mul_le_mul_of_nonneg_left h1 (ctsC_pos (n := n)).le
  have := ctsC_le hn
  linarith

/-- the coefficients in the order in which the slots of CoeffToSlot hold them -/
noncomputable def brvPair (n : Nat) (m : Fin (2^(n+1)) → ℝ) : Fin (2^n) → ℂ :=
  fun p => pairC n m ⟨bitRev n p, bitRev_lt n p⟩

theorem cts_apply (hn : 1 ≤ n) {U : Fin n → Fac (n+1)} (hU : ∀ d : Fin n, IsCts n d (U d)) (m : Fin (2^(n+1)) → ℝ) :
    (seqMat (mats (H := 2^n) U) n).mulVec (fun i => slotOf m i) = fun i => brvPair n m i / 2 := by
  have e : (fun i : Fin (2^n) => slotOf m i) = (fftMat n n).mulVec (brvPair n m) := by
    funext i; exact (fftMat_slot m i).symm
  rw [e, Matrix.mulVec_mulVec, cts_seq hU (le_refl n), ifftMat_eq, Matrix.smul_mul,
    adj_mul_of_mul_adj (pow_ne_zero n two_ne_zero) (fftMat_adj (le_refl n)), smul_smul, Matrix.smul_mulVec,
    Matrix.one_mulVec]
  funext i
  rw [Pi.smul_apply, smul_eq_mul, ← Complex.ofReal_pow, ctsC_pow hn]
  push_cast
  rw [pow_succ]
  field_simp

/-! ## SlotToCoeff -/

/-- a factor of SlotToCoeff up to the unit `c` -/
structure IsStc (n d : Nat) (c : ℂ) (A : Fac (n+1)) : Prop where
  shape : SDProd (H := 2^n) A
  den : denC A.1 A.2 = c • bfly (2^n) (2^d) (ctw n d)

theorem IsFactor.prod {d : Nat} (hd : d < n) {A : Fac (n+1)} (h : IsFactor n d A) : SDProd (H := 2^n) A :=
  ⟨⟨(h.inRange hd).1, fun s _ => by rw [h.re.off, h.im.off], h.re.flag, h.im.flag⟩, h.re.off.trans h.im.off.symm,
    h.re.own, h.im.own⟩

theorem stcReal_spec {T : Fin n → Fac (n+1)} (hT : ∀ d : Fin n, IsFactor n d (T d)) :
    Ok (stcReal (LOGN := n+1) T) fun U => ∀ d : Fin n, IsStc n d 1 (U d) := by
  unfold stcReal
  refine tabM_spec (P := fun d A => IsStc n d 1 A) fun d hd => ?_
  have hd : d < n := hd
  have h : n + 1 - 2 - d < n := by omega
  rw [rd_of_lt T h, pure_bind, copy_eq, copy_eq]
  have hF := hT ⟨_, h⟩
  refine Ok.pure ⟨hF.prod h, ?_⟩
  have e := hF.den
  simp only [show n - 1 - (n + 1 - 2 - d) = d by omega] at e
  rw [one_smul]
  exact e

theorem stcImag_spec {T : Fin n → Fac (n+1)} (hT : ∀ d : Fin n, IsFactor n d (T d)) :
    Ok (stcImag (LOGN := n+1) T) fun U => ∀ d : Fin n, IsStc n d (if d.val = 0 then Complex.I else 1) (U d) := by
  unfold stcImag
  refine tabM_spec (P := fun d A => IsStc n d (if d = 0 then Complex.I else 1) A) fun d hd => ?_
  have hd : d < n := hd
  have h : n + 1 - 2 - d < n := by omega
  rw [rd_of_lt T h, pure_bind, copy_eq, copy_eq, negate_eq]
  have hF := hT ⟨_, h⟩
  have hp := hF.prod h
  have e := hF.den
  simp only [show n - 1 - (n + 1 - 2 - d) = d by omega] at e
  by_cases h0 : d = 0
  · rw [if_pos h0, if_pos h0]
    refine Ok.pure ⟨⟨⟨(hF.inRange h).2, fun s _ => ?_, ?_, hp.flag.1⟩, hp.offEq.symm, ?_, hp.own.1⟩, ?_⟩
    · exact congrFun hp.offEq.symm s
    · intro s hs i; simp only [neg_eq_zero]; exact hp.flag.2 s hs i
    · intro s s' h1 h2 i; simp only [neg_eq_zero]; exact hp.own.2 s s' h1 h2 i
    · rw [← e]
      funext i j
      simp only [denC, den_neg, Matrix.smul_apply, Matrix.neg_apply, smul_eq_mul]
      apply Complex.ext <;> simp
  · rw [if_neg h0, if_neg h0]
    refine Ok.pure ⟨hp, ?_⟩
    rw [one_smul]
    exact e

theorem stcTable_spec (hn : n ≤ 26) : Ok (stcTable (n+1)) fun T =>
    (∀ d : Fin n, IsStc n d 1 (T.1 d)) ∧ ∀ d : Fin n, IsStc n d (if d.val = 0 then Complex.I else 1) (T.2 d) := by
  unfold stcTable
  refine Ok.bind (splitU0NR_spec hn _) fun T hT => ?_
  refine Ok.bind (stcReal_spec hT) fun U hU => ?_
  exact Ok.bind (stcImag_spec hT) fun V hV => Ok.pure ⟨hU, hV⟩

theorem stc_seq {c : Nat → ℂ} {U : Fin n → Fac (n+1)} (hU : ∀ d : Fin n, IsStc n d (c d) (U d)) {t : Nat} (ht : t ≤ n) :
    seqMat (mats (H := 2^n) U) t = (∏ d ∈ range t, c d) • fftMat n t := by
  induction t with
  | zero => simp [seqMat, fftMat]
  | succ t ih =>
    have : t < n := ht
    have e : denC (N := 2^n) (U ⟨t, this⟩).1 (U ⟨t, this⟩).2 = _ := (hU ⟨t, this⟩).den
    rw [seqMat, ih (by omega), mats_lt _ this, e, fftMat, Matrix.smul_mul, Matrix.mul_smul, smul_smul, prod_range_succ, mul_comm (∏ d ∈ range t, c d)]

theorem stc_seq_one {U : Fin n → Fac (n+1)} (hU : ∀ d : Fin n, IsStc n d 1 (U d)) :
    seqMat (mats (H := 2^n) U) n = fftMat n n := by
  rw [stc_seq (c := fun _ => 1) hU (le_refl n)]; simp

theorem stc_seq_I (hn : 1 ≤ n) {U : Fin n → Fac (n+1)}
    (hU : ∀ d : Fin n, IsStc n d (if d.val = 0 then Complex.I else 1) (U d)) :
    seqMat (mats (H := 2^n) U) n = Complex.I • fftMat n n := by
  rw [stc_seq (c := fun d => if d = 0 then Complex.I else 1) hU (le_refl n)]
  rw [prod_ite_eq' (range n) 0 (fun _ => Complex.I), if_pos (mem_range.2 (by omega))]

theorem IsStc.lt {d : Nat} {c : ℂ} (hc : ‖c‖ = 1) {A : Fac (n+1)} (h : IsStc n d c A) : LTMat (H := 2^n) A 2 := by
  refine h.shape.lt fun i => ?_
  have e : denC (N := 2^n) A.1 A.2 = c • bfly (2^n) (2^d) (ctw n d) := h.den
  rw [e]
  simp only [Matrix.smul_apply, norm_smul, hc, one_mul]
  exact bfly_row (Nat.two_pow_pos d) (norm_ctw n d) i

/-- entries of the factors and of the groups -/
theorem IsStc.entry {c : Nat → ℂ} (hc : ∀ d, ‖c d‖ = 1) {U : Fin n → Fac (n+1)} (hU : ∀ d : Fin n, IsStc n d (c d) (U d))
    {g i : Nat} (hi : i < n/g) (p q : Fin (2^n)) : ‖seqMat (fun j => mats (H := 2^n) U (g * i + j)) g p q‖ ≤ 1 := by
  refine (bfly_seq (d := g * i) (c := fun j => c (g * i + j)) (ω := fun j => ctw n (g * i + j)) (fun j hj => ?_)
    (fun _ => hc _) (fun _ => norm_ctw _ _) p q).trans (by split <;> norm_num)
  have hd := div_idx hi hj
  rw [mats_lt (H := 2^n) U hd]
  exact (hU ⟨_, hd⟩).den

theorem IsStc.vec {d : Nat} {c : ℂ} (hc : ‖c‖ = 1) {A : Fac (n+1)} (h : IsStc n d c A) (s : Fin 3) (i : Fin (2^n)) :
    ‖(⟨A.1.vec s i, A.2.vec s i⟩ : ℂ)‖ ≤ 1 := by
  refine (SDProd.entry (H := 2^n) h.shape s i).trans ?_
  have e : denC (N := 2^n) A.1 A.2 = c • bfly (2^n) (2^d) (ctw n d) := h.den
  rw [e, Matrix.smul_apply, norm_smul, hc, one_mul]
  exact (norm_bfly_le (Nat.two_pow_pos d) (norm_ctw n d) _ _).trans (by split <;> norm_num)

/-! ## The constant polynomial `-X^(N/2)` -/

section
variable {LOGQ : Nat} [NeZero LOGQ]

/-- `-X^(N/2)` -/
def ptiPoly (n : Nat) : Fin (2^(n+1)) → Int := fun k => if k.val = 2^n then -1 else 0

theorem ctsPti_spec : Ok (ctsPti LOGQ (n+1)) fun p => R_Q.Canonical p ∧ R_Q.cls p = red LOGQ (ptiPoly n) := by
  unfold ctsPti
  have e : 2^(n+1)/2 = 2^n := by rw [pow_succ]; simp
  have h : 2^(n+1)/2 < 2^(n+1) := by rw [e]; exact Nat.pow_lt_pow_right (by norm_num) (by omega)
  rw [wr_of_lt _ h]
  have h1w : (1:W).toNat = 1 := rfl
  refine Ok.pure ⟨fun k => ?_, funext fun k => ?_⟩
  · rw [Function.update_apply]
    split
    · exact canonical_negate _
    · exact canonical_setzero
  · simp only [R_Q.cls, red, ptiPoly]
    rw [Function.update_apply]
    by_cases hk : k.val = 2^n
    · rw [if_pos (Fin.ext (hk.trans e.symm)), if_pos hk, cls_negate, cls_ofW, h1w]
      simp
    · rw [if_neg (fun h => hk ((congrArg Fin.val h).trans e)), if_neg hk]
      exact cls_setzero.trans (by simp)

theorem slots_pti (i : Fin (2^n)) : slots n (ptiPoly n) i = - Complex.I := by
  have hp : 2^n < 2^(n+1) := Nat.pow_lt_pow_right (by norm_num) (by omega)
  unfold slots
  rw [slotOf_eval, sum_eq_single ⟨2^n, hp⟩]
  · simp only [ptiPoly, if_true]
    have h1 : zeta (2^(n+1)) ^ (2^n) = Complex.I := by
      rw [zeta_pow]
      have : (Real.pi * Complex.I * ((2^n : ℕ) : ℂ) / ((2^(n+1) : ℕ) : ℂ)) = Real.pi / 2 * Complex.I := by
        push_cast; rw [pow_succ]; field_simp
      rw [this, Complex.exp_pi_div_two_mul_I]
    rw [← pow_mul, mul_comm (5^i.val), pow_mul, h1]
    have h4 : 5^i.val = 4 * (5^i.val/4) + 1 := by
      have h5 : 5^i.val % 4 = 1 := by rw [Nat.pow_mod]; norm_num
      omega
    rw [h4, pow_succ, pow_mul, Complex.I_pow_four]
    simp
  · intro k _ hk
    simp only [ptiPoly]
    rw [if_neg (fun h => hk (Fin.ext h))]
    simp
  · simp

theorem slots_sub (v w : Fin (2^(n+1)) → Int) (i : Fin (2^n)) : slots n (v - w) i = slots n v i - slots n w i := by
  have h := slots_add (v - w) w i
  rw [sub_add_cancel] at h
  rw [h]; ring

theorem slots_conj (w : Fin (2^(n+1)) → Int) (i : Fin (2^n)) :
    slots n (autom (2 * 2^(n+1) - 1) w) i = (starRingEnd ℂ) (slots n w i) := by
  unfold slots
  rw [← slotOf_conj (Nat.two_pow_pos _)]
  congr 1
  funext k
  exact autom_map (Int.castAddHom ℝ) _ w k

theorem red_sub {N : Nat} (a b : Fin N → Int) : red LOGQ (a - b) = red LOGQ a - red LOGQ b := by
  funext i; simp [red]

/-- the size of the slots of a key switching error -/
noncomputable def ksErr (n h : Nat) : ℝ := 2^(n+1) * (8 * 2^(n+1) + (h + 1) / 2)

theorem slots_ksErr {h : Nat} {E : Fin (2^(n+1)) → Int} (hE : ∀ i, 2 * |E i| ≤ 16 * 2^(n+1) + h + 1) (i : Fin (2^n)) :
    ‖slots n E i‖ ≤ ksErr n h := by
  refine norm_slots_le (ε := 8 * 2^(n+1) + (h + 1) / 2) (fun k => ?_) i
  have : ((2 * |E k| : ℤ) : ℝ) ≤ ((16 * 2^(n+1) + h + 1 : ℤ) : ℝ) := by exact_mod_cast hE k
  push_cast at this
  linarith

/-- the scaled matrix-vector product of grouped transforms: error -/
noncomputable def grpErr (n h G : Nat) (ρ Δ Z : ℝ) : ℝ :=
  ltSize n (3^G) h (ρ^G) 1 Δ Z (n/G) - (Δ * ρ^G)^(n/G) * Z

/-- The slots of the results of `CoeffToSlot` are close to real vectors, which are less close to the coefficients. -/
theorem ctsWith_real (R LOGDELTA : Nat) (hL : LOGDELTA < 64) (h1 : ConvLOGQ LOGQ) (h2 : ConvLOGQ (2 * LOGQ))
    (hn1 : 1 ≤ n) (hn : n ≤ 16) {s : Fin (2^(n+1)) → Int} (hs : Ternary s)
    {U : Fin n → Fac (n+1)} (hU : ∀ d : Fin n, IsCts n d (U d)) {G : Nat} (hG1 : 1 ≤ G) (hG : G ≤ 4)
    (hD : n % G = 0) (hw : (2:ℝ)^LOGDELTA + 1/2 < 2^64) (hq : (2:ℝ)^LOGDELTA + 1/2 < 2^(LOGQ-1))
    {ct : R_Q_square LOGQ (2^(n+1))} (hct : ct.Canonical) {m : Fin (2^(n+1)) → Int}
    (hm : R_Q_square.phase s ct = red LOGQ m) (ω : Rng) :
    Ok (ctsWith (LOGN := n+1) R LOGDELTA G U ct s ω) fun r => r.1.1.Canonical ∧ r.1.2.Canonical ∧
      ∃ w0 w1 : Fin (2^(n+1)) → Int,
      R_Q_square.phase s r.1.1 = red LOGQ w0 ∧ R_Q_square.phase s r.1.2 = red LOGQ w1 ∧ ∃ a0 a1 : Fin (2^n) → ℝ,
      (∀ i, ‖slots n w0 i - (a0 i : ℂ)‖ ≤ ksErr n (weight s)) ∧ (∀ i, ‖slots n w1 i - (a1 i : ℂ)‖ ≤ ksErr n (weight s)) ∧
      ∀ Z : ℝ, (∀ i, ‖slots n m i‖ ≤ Z) → ∀ i : Fin (2^n),
        |a0 i - (2^LOGDELTA)^(n/G) * (brvPair n (fun k => (m k : ℝ)) i).re| ≤ 2 * grpErr n (weight s) G 1 (2^LOGDELTA) Z ∧
        |a1 i - (2^LOGDELTA)^(n/G) * (brvPair n (fun k => (m k : ℝ)) i).im| ≤ 2 * grpErr n (weight s) G 1 (2^LOGDELTA) Z := by
  unfold ctsWith
  have hN : 2^(n+1) ≤ 2^30 := Nat.pow_le_pow_right (by norm_num) (by omega)
  have key := groupedLT_slots R LOGDELTA hL h1 h2 hn1 hn hs (D := n) (A := U) (fun d => (hU d).lt hn1) zero_le_one
    hG1 hG hD (by simpa using hw) (by simpa using hq) hct hm ω
  refine Ok.bind key ?_
  rintro ⟨U0, ω1⟩ ⟨hU0, w, hph, hwe⟩
  simp only [] at hU0 hph ⊢
  rw [conjI_spec Nat.one_le_two_pow s _ (fun i => by rcases hs i with h | h | h <;> omega), pure_bind]
  refine Ok.bind (swkgen_spec R hN (fun i => ?_) hs R_Q_square.setzero ω1) fun ck ⟨hc, e, he, hcp⟩ => ?_
  · have := abs_le.1 (autom_abs (conj_pos Nat.one_le_two_pow) hs.abs_le i); omega
  refine Ok.bind (conj_ct_spec h2 (by omega) (by omega) hc he hcp hU0 _) fun y ⟨hy, E, hE, hyp⟩ => ?_
  refine Ok.bind ctsPti_spec fun p ⟨hp, hpc⟩ => ?_
  rw [R_Q_square.copy_eq]
  refine Ok.bind (mulR_phase h1 (by omega) (by omega) (x := R_Q_square.sub U0 y) ⟨R_Q.canonical_sub _ _, R_Q.canonical_sub _ _⟩ hp s)
    fun c1 ⟨hc1, hc1p⟩ => Ok.pure ⟨⟨R_Q.canonical_add _ _, R_Q.canonical_add _ _⟩, hc1, ?_⟩
  have hE' : ∀ i, 2 * |E i| ≤ 16 * 2^(n+1) + weight s + 1 := fun i => by
    have h3 := hE i
    rw [hs.sum_abs] at h3
    push_cast at h3
    linarith
  have hyr : R_Q_square.phase s y = red LOGQ (autom (2 * 2^(n+1) - 1) w + E) := by
    rw [hyp, hph, ← red_autom, red_add]
  refine ⟨w + (autom (2 * 2^(n+1) - 1) w + E), negconv (w - (autom (2 * 2^(n+1) - 1) w + E)) (ptiPoly n), ?_, ?_,
    fun i => 2 * (slots n w i).re, fun i => 2 * (slots n w i).im, fun i => ?_, fun i => ?_, ?_⟩
  · simp only []; rw [phase_add, hph, hyr, ← red_add]
  · simp only []; rw [hc1p, phase_sub, hph, hyr, hpc, red_negconv, red_sub]
  · have hee := slots_ksErr hE' i
    rw [slots_add, slots_add, slots_conj]
    have e2 : slots n w i + ((starRingEnd ℂ) (slots n w i) + slots n E i) - ((2 * (slots n w i).re : ℝ) : ℂ) = slots n E i := by
      have := Complex.add_conj (slots n w i)
      push_cast at this ⊢
      linear_combination this
    rw [e2]; exact hee
  · have hee := slots_ksErr hE' i
    rw [slots_negconv, slots_sub, slots_add, slots_conj, slots_pti]
    have e2 : (slots n w i - ((starRingEnd ℂ) (slots n w i) + slots n E i)) * -Complex.I - ((2 * (slots n w i).im : ℝ) : ℂ) =
        slots n E i * Complex.I := by
      have := Complex.sub_conj (slots n w i)
      push_cast at this ⊢
      linear_combination (-Complex.I) * this - 2 * ((slots n w i).im : ℂ) * Complex.I_mul_I
    rw [e2, norm_mul, Complex.norm_I, mul_one]; exact hee
  intro Z hZ i
  have hi := hwe Z hZ i
  have happ : (seqMat (mats (H := 2^n) U) n).mulVec (slots n m) i = brvPair n (fun k => (m k : ℝ)) i / 2 :=
    congrFun (cts_apply hn1 hU (fun k => (m k : ℝ))) i
  rw [happ] at hi
  have hg : ‖slots n w i - (2^LOGDELTA)^(n/G) * (brvPair n (fun k => (m k : ℝ)) i / 2)‖ ≤
      grpErr n (weight s) G 1 (2^LOGDELTA) Z := by
    unfold grpErr
    simp only [one_pow] at hi ⊢
    exact hi
  dsimp only
  generalize brvPair n (fun k => (m k : ℝ)) i = b at hg ⊢
  generalize slots n w i = x at hg ⊢
  have ec : ((2:ℂ)^LOGDELTA)^(n/G) * (b/2) = (((2:ℝ)^LOGDELTA)^(n/G) / 2 : ℝ) * b := by push_cast; ring
  rw [ec] at hg
  constructor
  · have g1 := (Complex.abs_re_le_norm _).trans hg
    rw [Complex.sub_re, Complex.re_ofReal_mul] at g1
    have e3 : 2 * x.re - (2^LOGDELTA)^(n/G) * b.re = 2 * (x.re - (2^LOGDELTA)^(n/G) / 2 * b.re) := by ring
    rw [e3, abs_mul, abs_two]
    linarith
  · have g1 := (Complex.abs_im_le_norm _).trans hg
    rw [Complex.sub_im, Complex.im_ofReal_mul] at g1
    have e3 : 2 * x.im - (2^LOGDELTA)^(n/G) * b.im = 2 * (x.im - (2^LOGDELTA)^(n/G) / 2 * b.im) := by ring
    rw [e3, abs_mul, abs_two]
    linarith

theorem ctsWith_slots (R LOGDELTA : Nat) (hL : LOGDELTA < 64) (h1 : ConvLOGQ LOGQ) (h2 : ConvLOGQ (2 * LOGQ))
    (hn1 : 1 ≤ n) (hn : n ≤ 16) {s : Fin (2^(n+1)) → Int} (hs : Ternary s)
    {U : Fin n → Fac (n+1)} (hU : ∀ d : Fin n, IsCts n d (U d)) {G : Nat} (hG1 : 1 ≤ G) (hG : G ≤ 4)
    (hD : n % G = 0) (hw : (2:ℝ)^LOGDELTA + 1/2 < 2^64) (hq : (2:ℝ)^LOGDELTA + 1/2 < 2^(LOGQ-1))
    {ct : R_Q_square LOGQ (2^(n+1))} (hct : ct.Canonical) {m : Fin (2^(n+1)) → Int}
    (hm : R_Q_square.phase s ct = red LOGQ m) (ω : Rng) :
    Ok (ctsWith (LOGN := n+1) R LOGDELTA G U ct s ω) fun r => r.1.1.Canonical ∧ r.1.2.Canonical ∧
      ∃ w0 w1 : Fin (2^(n+1)) → Int,
      R_Q_square.phase s r.1.1 = red LOGQ w0 ∧ R_Q_square.phase s r.1.2 = red LOGQ w1 ∧
      ∀ Z : ℝ, (∀ i, ‖slots n m i‖ ≤ Z) → ∀ i : Fin (2^n),
        ‖slots n w0 i - (2^LOGDELTA)^(n/G) * (brvPair n (fun k => (m k : ℝ)) i).re‖ ≤
          2 * grpErr n (weight s) G 1 (2^LOGDELTA) Z + ksErr n (weight s) ∧
        ‖slots n w1 i - (2^LOGDELTA)^(n/G) * (brvPair n (fun k => (m k : ℝ)) i).im‖ ≤
          2 * grpErr n (weight s) G 1 (2^LOGDELTA) Z + ksErr n (weight s) := by
  refine Ok.mono (ctsWith_real R LOGDELTA hL h1 h2 hn1 hn hs hU hG1 hG hD hw hq hct hm ω)
    fun r ⟨hr0, hr1, w0, w1, hp0, hp1, a0, a1, h0, h1, he⟩ => ⟨hr0, hr1, w0, w1, hp0, hp1, fun Z hZ i => ?_⟩
  have key : ∀ (x : ℂ) (a b : ℝ) (e1 e2 : ℝ), ‖x - a‖ ≤ e2 → |a - (2^LOGDELTA)^(n/G) * b| ≤ e1 →
      ‖x - (2^LOGDELTA)^(n/G) * (b : ℂ)‖ ≤ e1 + e2 := by
    intro x a b e1 e2 g1 g2
    have g3 := norm_sub_le_norm_sub_add_norm_sub x (a : ℂ) ((2^LOGDELTA)^(n/G) * (b : ℂ))
    have g4 : ‖(a : ℂ) - (2^LOGDELTA)^(n/G) * (b : ℂ)‖ = |a - (2^LOGDELTA)^(n/G) * b| := by
      rw [← Real.norm_eq_abs, ← Complex.norm_real]; push_cast; rfl
    rw [g4] at g3
    linarith
  exact ⟨key _ _ _ _ _ (h0 i) (he Z hZ i).1, key _ _ _ _ _ (h1 i) (he Z hZ i).2⟩

theorem stcWith_slots (R LOGDELTA : Nat) (hL : LOGDELTA < 64) (h1 : ConvLOGQ LOGQ) (h2 : ConvLOGQ (2 * LOGQ))
    (hn1 : 1 ≤ n) (hn : n ≤ 16) {s : Fin (2^(n+1)) → Int} (hs : Ternary s)
    {U V : Fin n → Fac (n+1)} (hU : ∀ d : Fin n, IsStc n d 1 (U d))
    (hV : ∀ d : Fin n, IsStc n d (if d.val = 0 then Complex.I else 1) (V d)) {G : Nat} (hG1 : 1 ≤ G) (hG : G ≤ 4)
    (hD : n % G = 0) (hw : (2:ℝ)^LOGDELTA + 1/2 < 2^64) (hq : (2:ℝ)^LOGDELTA + 1/2 < 2^(LOGQ-1))
    {ct0 ct1 : R_Q_square LOGQ (2^(n+1))} (hct0 : ct0.Canonical) (hct1 : ct1.Canonical) {m0 m1 : Fin (2^(n+1)) → Int}
    (hm0 : R_Q_square.phase s ct0 = red LOGQ m0) (hm1 : R_Q_square.phase s ct1 = red LOGQ m1) (ω : Rng) :
    Ok (stcWith (LOGN := n+1) R LOGDELTA G U V ct0 ct1 s ω) fun r => r.1.Canonical ∧
      ∃ w : Fin (2^(n+1)) → Int, R_Q_square.phase s r.1 = red LOGQ w ∧
      ∀ Z : ℝ, (∀ i, ‖slots n m0 i‖ ≤ Z) → (∀ i, ‖slots n m1 i‖ ≤ Z) → ∀ i : Fin (2^n),
        ‖slots n w i - (2^LOGDELTA)^(n/G) * (fftMat n n).mulVec (fun j => slots n m0 j + Complex.I * slots n m1 j) i‖ ≤
          2 * grpErr n (weight s) G 2 (2^LOGDELTA) Z := by
  unfold stcWith
  have hV1 : ∀ d : Fin n, ‖(if d.val = 0 then Complex.I else 1 : ℂ)‖ = 1 := fun d => by split <;> simp
  rw [← one_mul ((2:ℝ)^LOGDELTA)] at hw hq
  refine Ok.bind (groupedLT_slots' R LOGDELTA hL h1 h2 hn1 hn hs (D := n) (A := U) (fun d => (hU d).lt norm_one) zero_le_two
    hG1 hG hD (fun i hi => IsStc.entry (c := fun _ => 1) (fun _ => norm_one) hU hi) (fun d => (hU d).vec norm_one) zero_le_one hw hq hct0 hm0 ω) fun a ⟨ha, wa, hpa, hea⟩ => ?_
  refine Ok.bind (groupedLT_slots' R LOGDELTA hL h1 h2 hn1 hn hs (D := n) (A := V) (fun d => (hV d).lt (hV1 d)) zero_le_two
    hG1 hG hD (fun i hi => IsStc.entry (c := fun d => if d = 0 then Complex.I else 1) (fun d => by split <;> simp) hV hi)
    (fun d => (hV d).vec (hV1 d)) zero_le_one hw hq hct1 hm1 a.2) fun b ⟨hb, wb, hpb, heb⟩ => ?_
  refine Ok.pure ⟨⟨R_Q.canonical_add _ _, R_Q.canonical_add _ _⟩, wa + wb, ?_, fun Z hZ0 hZ1 i => ?_⟩
  · simp only []; rw [phase_add, hpa, hpb, red_add]
  have ga := hea Z hZ0 i
  have gb := heb Z hZ1 i
  have ea : seqMat (mats (H := 2^n) U) n = fftMat n n := stc_seq_one hU
  have eb : seqMat (mats (H := 2^n) V) n = Complex.I • fftMat n n := stc_seq_I hn1 hV
  rw [ea] at ga
  rw [eb, Matrix.smul_mulVec, Pi.smul_apply, smul_eq_mul] at gb
  have e3 : (fun j => slots n m0 j + Complex.I * slots n m1 j) = slots n m0 + Complex.I • slots n m1 := rfl
  rw [e3, Matrix.mulVec_add, Matrix.mulVec_smul, Pi.add_apply, Pi.smul_apply, smul_eq_mul, slots_add]
  have e4 : slots n wa i + slots n wb i - (2^LOGDELTA)^(n/G) * ((fftMat n n).mulVec (slots n m0) i +
      Complex.I * (fftMat n n).mulVec (slots n m1) i) =
      (slots n wa i - (2^LOGDELTA)^(n/G) * (fftMat n n).mulVec (slots n m0) i) +
      (slots n wb i - (2^LOGDELTA)^(n/G) * (Complex.I * (fftMat n n).mulVec (slots n m1) i)) := by ring
  rw [e4]
  refine (norm_add_le _ _).trans ((add_le_add ga gb).trans (le_of_eq ?_))
  unfold grpErr
  ring

theorem fftMat_norm (x : Fin (2^n) → ℂ) {ε : ℝ} (hx : ∀ i, ‖x i‖ ≤ ε) (i : Fin (2^n)) :
    ‖(fftMat n n).mulVec x i‖ ≤ 2^n * ε := by
  rw [Matrix.mulVec, dotProduct]
  refine (norm_sum_le _ _).trans ?_
  have : ∀ j ∈ (univ : Finset (Fin (2^n))), ‖fftMat n n i j * x j‖ ≤ ε := by
    intro j _
    have e : j = ⟨bitRev n (bitRev n j), bitRev_lt n _⟩ := Fin.ext (bitRev_bitRev j.isLt).symm
    rw [norm_mul]
    conv_lhs => rw [e]
    rw [fftMat_apply i ⟨bitRev n j, bitRev_lt n j⟩, norm_zeta_pow, one_mul]
    exact hx _
  refine (sum_le_sum this).trans (le_of_eq ?_)
  simp

theorem two_pow_hw {d : Nat} (hL : d < 63) : (2:ℝ)^d + 1/2 < 2^64 := by
  have : (2:ℝ)^d ≤ 2^63 := pow_le_pow_right₀ (by norm_num) (by omega)
  norm_num at this ⊢; linarith

theorem two_pow_hq {d q : Nat} (hL : d + 1 < q) : (2:ℝ)^d + 1/2 < 2^(q-1) := by
  have h1 : (2:ℝ)^(d+1) ≤ 2^(q-1) := pow_le_pow_right₀ (by norm_num) (by omega)
  have h2 : (1:ℝ) ≤ 2^d := one_le_pow₀ (by norm_num)
  rw [pow_succ] at h1
  linarith

/-- the real vector with given `brvPair` -/
noncomputable def unPair (n : Nat) (x : Fin (2^n) → ℂ) (k : Fin (2^(n+1))) : ℝ :=
  if k.val < 2^n then (x ⟨bitRev n k, bitRev_lt n k⟩).re else (x ⟨bitRev n (k - 2^n), bitRev_lt n _⟩).im

theorem brvPair_unPair (x : Fin (2^n) → ℂ) : brvPair n (unPair n x) = x := by
  funext p
  have hb := bitRev_lt n p.val
  have e : (⟨bitRev n (bitRev n p), bitRev_lt n _⟩ : Fin (2^n)) = p := Fin.ext (bitRev_bitRev p.isLt)
  apply Complex.ext
  · simp only [brvPair, pairC, unPair]
    rw [if_pos hb, e]
  · simp only [brvPair, pairC, unPair]
    rw [if_neg (by omega)]
    simp only [Nat.add_sub_cancel]
    rw [e]

theorem unPair_brvPair (m : Fin (2^(n+1)) → ℝ) : unPair n (brvPair n m) = m :=
  slotOf_inj fun i => by rw [← fftMat_slot, ← fftMat_slot]; exact congrArg (fun x => (fftMat n n).mulVec x i) (brvPair_unPair (brvPair n m))

theorem unPair_le {x y : Fin (2^n) → ℂ} {ε : ℝ} (h : ∀ i, ‖x i - y i‖ ≤ ε) (k : Fin (2^(n+1))) :
    |unPair n x k - unPair n y k| ≤ ε := by
  unfold unPair
  split
  · rw [← Complex.sub_re]; exact (Complex.abs_re_le_norm _).trans (h _)
  · rw [← Complex.sub_im]; exact (Complex.abs_im_le_norm _).trans (h _)

/-- `SlotToCoeff` on coefficients -/
theorem stcWith_coeff (R LOGDELTA : Nat) (hL : LOGDELTA < 64) (h1 : ConvLOGQ LOGQ) (h2 : ConvLOGQ (2 * LOGQ))
    (hn1 : 1 ≤ n) (hn : n ≤ 16) {s : Fin (2^(n+1)) → Int} (hs : Ternary s)
    {U V : Fin n → Fac (n+1)} (hU : ∀ d : Fin n, IsStc n d 1 (U d))
    (hV : ∀ d : Fin n, IsStc n d (if d.val = 0 then Complex.I else 1) (V d)) {G : Nat} (hG1 : 1 ≤ G) (hG : G ≤ 4)
    (hD : n % G = 0) (hw : (2:ℝ)^LOGDELTA + 1/2 < 2^64) (hq : (2:ℝ)^LOGDELTA + 1/2 < 2^(LOGQ-1))
    {ct0 ct1 : R_Q_square LOGQ (2^(n+1))} (hct0 : ct0.Canonical) (hct1 : ct1.Canonical) {m0 m1 : Fin (2^(n+1)) → Int}
    (hm0 : R_Q_square.phase s ct0 = red LOGQ m0) (hm1 : R_Q_square.phase s ct1 = red LOGQ m1) (ω : Rng) :
    Ok (stcWith (LOGN := n+1) R LOGDELTA G U V ct0 ct1 s ω) fun r => r.1.Canonical ∧
      ∃ w : Fin (2^(n+1)) → Int, R_Q_square.phase s r.1 = red LOGQ w ∧
      ∀ (m : Fin (2^(n+1)) → ℝ) (Z ε : ℝ), (∀ i, ‖slots n m0 i‖ ≤ Z) → (∀ i, ‖slots n m1 i‖ ≤ Z) →
        (∀ i, ‖slots n m0 i - ((brvPair n m i).re : ℂ)‖ ≤ ε) → (∀ i, ‖slots n m1 i - ((brvPair n m i).im : ℂ)‖ ≤ ε) →
        ∀ k, |(w k : ℝ) - (2^LOGDELTA)^(n/G) * m k| ≤
          2 * grpErr n (weight s) G 2 (2^LOGDELTA) Z + (2^LOGDELTA)^(n/G) * (2 * ε) := by
  refine Ok.mono (stcWith_slots R LOGDELTA hL h1 h2 hn1 hn hs hU hV hG1 hG hD hw hq hct0 hct1 hm0 hm1 ω)
    fun r ⟨hr, w, hp, he⟩ => ⟨hr, w, hp, fun m Z ε hZ0 hZ1 hε0 hε1 k => ?_⟩
  set x : Fin (2^n) → ℂ := fun j => slots n m0 j + Complex.I * slots n m1 j with hx
  have hslot : ∀ i : Fin (2^n), ‖slotOf (fun k => (w k : ℝ) - (2^LOGDELTA)^(n/G) * unPair n x k) i‖ ≤
      2 * grpErr n (weight s) G 2 (2^LOGDELTA) Z := by
    intro i
    have e1 : slotOf (fun k => (w k : ℝ) - (2^LOGDELTA)^(n/G) * unPair n x k) i =
        slots n w i - (2^LOGDELTA)^(n/G) * slotOf (unPair n x) i := by
      have h := slotOf_add (fun k => (w k : ℝ) - (2^LOGDELTA)^(n/G) * unPair n x k)
        (fun k => unPair n x k * (2^LOGDELTA)^(n/G)) i
      have h3 := slotOf_smul (unPair n x) ((2^LOGDELTA)^(n/G)) i
      rw [h3] at h
      have h4 : (fun k => (w k : ℝ) - (2^LOGDELTA)^(n/G) * unPair n x k + unPair n x k * (2^LOGDELTA)^(n/G)) =
          fun k => (w k : ℝ) := by
        funext k; ring
      rw [h4] at h
      show _ = slotOf (fun k => (w k : ℝ)) i - _
      rw [h]; push_cast; ring
    have e2 : slotOf (unPair n x) i = (fftMat n n).mulVec x i := by
      rw [← fftMat_slot]
      exact congrArg (fun y => (fftMat n n).mulVec y i) (brvPair_unPair x)
    rw [e1, e2]
    exact he Z hZ0 hZ1 i
  have hc := coeff_le_slots hn1 (by omega) hslot k
  have hd : ∀ j, ‖x j - brvPair n m j‖ ≤ 2 * ε := by
    intro j
    have e2 : brvPair n m j = ((brvPair n m j).re : ℂ) + Complex.I * ((brvPair n m j).im : ℂ) := by
      rw [mul_comm]; exact (Complex.re_add_im _).symm
    have e3 : x j - brvPair n m j = (slots n m0 j - ((brvPair n m j).re : ℂ)) +
        Complex.I * (slots n m1 j - ((brvPair n m j).im : ℂ)) := by
      rw [hx]; conv_lhs => rw [e2]
      ring
    rw [e3]
    refine (norm_add_le _ _).trans ?_
    rw [norm_mul, Complex.norm_I, one_mul]
    exact (add_le_add (hε0 j) (hε1 j)).trans (le_of_eq (by ring))
  have hu := unPair_le hd k
  rw [unPair_brvPair] at hu
  have e4 : (w k : ℝ) - (2^LOGDELTA)^(n/G) * m k = ((w k : ℝ) - (2^LOGDELTA)^(n/G) * unPair n x k) +
      (2^LOGDELTA)^(n/G) * (unPair n x k - m k) := by ring
  rw [e4]
  refine (abs_add_le _ _).trans (add_le_add hc ?_)
  rw [abs_mul, abs_of_nonneg (a := ((2:ℝ)^LOGDELTA)^(n/G)) (by positivity)]
  exact mul_le_mul_of_nonneg_left hu (by positivity)

end
end EvalRound

import Verif.Proofs.Near

/-! # The blocks of poly.h -/

namespace EvalRound
open Z_Q Finset

variable {LOGQ LF LT n : Nat} [NeZero LOGQ] [NeZero LF] [NeZero LT]

/-! ## trees -/

theorem chebT_abs (k : Nat) {x : ℝ} (hx : |x| ≤ 1) : ‖chebT k (x : ℂ)‖ ≤ 1 := by
  have h := Polynomial.Chebyshev.abs_eval_T_real_le_one (k : ℤ) hx
  have e : chebT k (x : ℂ) = ((Polynomial.Chebyshev.T ℝ (k : ℤ)).eval x : ℝ) := by
    unfold chebT
    simp
  rw [e, Complex.norm_real]
  exact h

theorem treeVal_abs (u : Nat → ℝ) {x : ℝ} (hx : |x| ≤ 1) (j : Nat) : ∀ m,
    ‖treeVal u x j m‖ ≤ ∑ i ∈ range (2^j), |u (2^j * m + i)| := by
  induction j with
  | zero => intro m; simp [treeVal]
  | succ j ih =>
    intro m
    simp only [treeVal]
    refine (norm_add_le _ _).trans ?_
    rw [norm_mul]
    have h1 := ih (2*m)
    have h2 := mul_le_mul (chebT_abs (2^j) hx) (ih (2*m+1)) (norm_nonneg _) zero_le_one
    rw [one_mul] at h2
    refine (add_le_add h1 h2).trans (le_of_eq ?_)
    have hp : 2^(j+1) = 2^j + 2^j := by rw [pow_succ]; ring
    rw [hp, sum_range_add]
    congr 1
    · refine sum_congr rfl fun i _ => ?_
      congr 2; ring
    · refine sum_congr rfl fun i _ => ?_
      congr 2; ring

theorem treeVal_le (u : Nat → ℝ) {x : ℝ} (hx : |x| ≤ 1) {j k m : Nat} (hm : m < 2^k) {U : ℝ}
    (hU : ∑ i ∈ range (2^(j+k)), |u i| ≤ U) : ‖treeVal u x j m‖ ≤ U := by
  refine (treeVal_abs u hx j m).trans (le_trans ?_ hU)
  rw [← sum_image (s := range (2^j)) (g := fun i => 2^j * m + i) (f := fun i => |u i|) (fun a _ b _ h => by
    simpa using h)]
  refine sum_le_sum_of_subset_of_nonneg (fun i hi => ?_) (fun _ _ _ => abs_nonneg _)
  obtain ⟨a, ha, rfl⟩ := mem_image.1 hi
  have ha' := mem_range.1 ha
  refine mem_range.2 ?_
  have : 2^j * (m+1) ≤ 2^j * 2^k := Nat.mul_le_mul_left _ hm
  rw [pow_add]
  rw [mul_add, mul_one] at this
  omega

/-! ## constants -/

/-- the constant polynomial for leaf number `m` -/
def IsConst (LD m : Nat) (u : ℝ) (b : R_Q LOGQ (2^(n+1))) : Prop :=
  R_Q.Canonical b ∧ ∃ t : Int, R_Q.cls b = red LOGQ (Pi.single 0 (if m % 2 = 0 then t * 2^LD else t)) ∧
    |(t : ℝ) - u * 2^LD| ≤ 1 ∧ |(t : ℝ)| ≤ |u| * 2^LD

theorem wr0_const {z : Z_Q LOGQ} (hz : z.Canonical) {t : Int} (hc : z.cls = (t : ZMod (2^LOGQ))) :
    Ok (wr (R_Q.setzero : R_Q LOGQ (2^(n+1))) 0 z) fun b => R_Q.Canonical b ∧ R_Q.cls b = red LOGQ (Pi.single 0 t) := by
  have h0 : 0 < 2^(n+1) := Nat.two_pow_pos _
  rw [wr_of_lt _ h0]
  refine Ok.pure ⟨fun k => ?_, funext fun k => ?_⟩
  · rw [Function.update_apply]
    by_cases hk : k = ⟨0, h0⟩
    · rw [if_pos hk]; exact hz
    · rw [if_neg hk]; exact canonical_setzero
  · simp only [R_Q.cls, red, Function.update_apply]
    by_cases hk : k = ⟨0, h0⟩
    · subst hk
      rw [if_pos rfl, show (⟨0, h0⟩ : Fin (2^(n+1))) = 0 from rfl, Pi.single_eq_same, hc]
    · have hk' : k ≠ 0 := hk
      rw [if_neg hk, Pi.single_eq_of_ne hk']
      simp [R_Q.setzero, cls_setzero]

theorem truncU64_ok {x : ℝ} (h1 : -1 < x) (h2 : x < 2^64) : ∃ w : W, truncU64 x = pure w ∧
    |(w.toNat : ℝ) - x| ≤ 1 ∧ (w.toNat : ℝ) ≤ |x| := by
  have hlt : ⌊x⌋₊ < 2^64 := by
    rcases le_or_gt 0 x with h | h
    · rw [Nat.floor_lt h]; exact_mod_cast h2
    · rw [Nat.floor_of_nonpos h.le]; norm_num
  refine ⟨BitVec.ofNat 64 ⌊x⌋₊, by unfold truncU64; rw [if_pos ⟨h1, h2⟩], ?_⟩
  rw [BitVec.toNat_ofNat, Nat.mod_eq_of_lt hlt]
  rcases le_or_gt 0 x with h | h
  · have a := Nat.floor_le h
    have b := Nat.lt_floor_add_one x
    rw [abs_of_nonneg h]
    exact ⟨by rw [abs_le]; constructor <;> linarith, a⟩
  · rw [Nat.floor_of_nonpos h.le, Nat.cast_zero, zero_sub, abs_neg, abs_of_neg h]
    exact ⟨by linarith, by linarith⟩

theorem ofW_canonical (hQ : 64 ≤ LOGQ) (w : W) : (ofW w : Z_Q LOGQ).Canonical := by
  unfold Canonical
  rw [val_setLow]
  exact lt_of_lt_of_le w.isLt (Nat.pow_le_pow_right (by norm_num) hQ)

theorem polyConstU_spec (hQ : 64 ≤ LOGQ) {LD : Nat} (hD : LD < 64) (m : Nat) {u : ℝ} (h1 : -1 < u * 2^LD)
    (h2 : u * 2^LD < 2^64) : Ok (polyConstU LOGQ (2^(n+1)) LD m u) (IsConst LD m u) := by
  obtain ⟨D, eD, hDv⟩ := shl1_ok hD
  obtain ⟨w, ew, hw1, hw2⟩ := truncU64_ok h1 h2
  have hDr : (D.toNat : ℝ) = 2^LD := by rw [hDv]; push_cast; rfl
  unfold polyConstU
  rw [eD, pure_bind, hDr, ew, pure_bind]
  simp only []
  have hpos : (0:ℝ) ≤ 2^LD := by positivity
  have key : Ok (wr (R_Q.setzero : R_Q LOGQ (2^(n+1))) 0 (if m % 2 = 0 then Z_Q.mulW (ofW w) D else ofW w)) _ :=
    wr0_const (t := if m % 2 = 0 then (w.toNat : Int) * 2^LD else w.toNat) (by
      split_ifs
      · exact canonical_mulW _ _
      · exact ofW_canonical hQ w) (by
      split_ifs
      · rw [cls_mulW, cls_ofW, hDv]; push_cast; ring
      · rw [cls_ofW]; push_cast; rfl)
  refine Ok.mono key fun b ⟨hb, hbc⟩ => ⟨hb, w.toNat, hbc, ?_, ?_⟩
  · push_cast; exact hw1
  · push_cast; rw [abs_of_nonneg (Nat.cast_nonneg _)]
    rw [abs_mul, abs_of_nonneg hpos] at hw2
    exact hw2

theorem polyConstS_spec (hQ : 64 ≤ LOGQ) {LD : Nat} (hD : LD < 64) (m : Nat) {u : ℝ} (h2 : |u| * 2^LD < 2^64) :
    Ok (polyConstS LOGQ (2^(n+1)) LD m u) (IsConst LD m u) := by
  obtain ⟨D, eD, hDv⟩ := shl1_ok hD
  have hpos : (0:ℝ) ≤ 2^LD := by positivity
  have hnn : 0 ≤ |u| * 2^LD := by positivity
  obtain ⟨w, ew, hw1, hw2⟩ := truncU64_ok (x := |u| * 2^LD) (by linarith) h2
  rw [abs_of_nonneg hnn] at hw2
  have hDr : (D.toNat : ℝ) = 2^LD := by rw [hDv]; push_cast; rfl
  unfold polyConstS
  rw [eD, pure_bind, hDr, ew, pure_bind]
  simp only []
  have hz : ∀ (z : Z_Q LOGQ) (t : Int), z.cls = (t : ZMod (2^LOGQ)) → z.Canonical →
      (if u < 0 then negate z else z).cls = ((if u < 0 then -t else t : Int) : ZMod (2^LOGQ)) ∧
      (if u < 0 then negate z else z).Canonical := by
    intro z t h1 h2
    split_ifs
    · exact ⟨by rw [cls_negate, h1]; push_cast; rfl, canonical_negate z⟩
    · exact ⟨h1, h2⟩
  have h3 := hz (if m % 2 = 0 then Z_Q.mulW (ofW w) D else ofW w)
    (if m % 2 = 0 then (w.toNat : Int) * 2^LD else w.toNat) (by
      split_ifs
      · rw [cls_mulW, cls_ofW, hDv]; push_cast; ring
      · rw [cls_ofW]; push_cast; rfl) (by
      split_ifs
      · exact canonical_mulW _ _
      · exact ofW_canonical hQ w)
  refine Ok.mono (wr0_const h3.2 h3.1) fun b ⟨hb, hbc⟩ => ⟨hb, if u < 0 then -(w.toNat : Int) else w.toNat, ?_, ?_, ?_⟩
  · rw [hbc]
    congr 2
    split_ifs <;> ring
  · split_ifs with hu
    · rw [abs_of_neg hu] at hw1
      push_cast
      rw [← abs_neg]
      convert hw1 using 2
      ring
    · rw [abs_of_nonneg (not_lt.1 hu)] at hw1
      push_cast; exact hw1
  · split_ifs <;> push_cast
    · rw [abs_neg, abs_of_nonneg (Nat.cast_nonneg _)]; exact hw2
    · rw [abs_of_nonneg (Nat.cast_nonneg _)]; exact hw2

/-! ## blocks -/

/-- level one -/
theorem polyL1_spec (h1 : ConvLOGQ LF) (hn : n ≤ 16) {LD : Nat} (hL : LF = LT + LD) {s : Fin (2^(n+1)) → Int}
    (hs : Ternary s) {K K0 : Nat} (hK : 2 * K ≤ K0) {T1 : R_Q_square LF (2^(n+1))} {x : Fin (2^n) → ℝ}
    (hx : ∀ i, |x i| ≤ 1) {ε : ℝ} (hT : Near s T1 (fun i => 2^LD * (x i : ℂ)) ε) {u : Nat → ℝ}
    {L0 : Fin K0 → R_Q LF (2^(n+1))} (hL0 : ∀ m : Fin K0, IsConst LD m (u m) (L0 m)) {U : ℝ}
    (hU : ∀ m, m < K0 → |u m| ≤ U) :
    Ok (polyL1 LT K T1 L0) fun L1 => ∀ m : Fin K, Near s (L1 m) (fun i => 2^LD * treeVal u (x i) 1 m)
      (lErr n (weight s) (2^LD) ε U 0) := by
  refine tabM_spec (P := fun m c => Near s c (fun i => 2^LD * treeVal u (x i) 1 m)
      (lErr n (weight s) (2^LD) ε U 0)) fun m hm => ?_
  have hε : 0 ≤ ε := by
    obtain ⟨_, w, _, h⟩ := hT
    exact (norm_nonneg _).trans (h ⟨0, Nat.two_pow_pos _⟩)
  have ha : 2 * m + 1 < K0 := by omega
  have hb : 2 * m < K0 := by omega
  obtain ⟨hac, ta, hta, ha1, ha2⟩ := hL0 ⟨2*m+1, ha⟩
  obtain ⟨hbc, tb, htb, hb1, hb2⟩ := hL0 ⟨2*m, hb⟩
  rw [if_neg (by simp only []; omega)] at hta
  rw [if_pos (by simp only []; omega)] at htb
  simp only [] at ha1 ha2 hb1 hb2
  simp only [R_Q_square.copy_eq]
  rw [rd_of_lt _ ha, pure_bind]
  refine Ok.bind (Near.mulConst h1 hn hT hac hta) fun y hy => ?_
  rw [rd_of_lt _ hb, pure_bind]
  have key := Near.rs (LF := LF) (LT := LT) (by omega) hs (hy.addConst htb) R_Q_square.setzero
  have hd : LF - LT = LD := by omega
  rw [hd] at key
  refine Ok.mono key fun r hr => ?_
  obtain ⟨hrc, w, hw, hwe⟩ := hr
  refine ⟨hrc, w, hw, fun i => ?_⟩
  have hp : (0:ℝ) < 2^LD := by positivity
  have hpc : (2:ℂ)^LD ≠ 0 := pow_ne_zero _ two_ne_zero
  have e1 : slots n w i - 2^LD * treeVal u (x i) 1 m =
      (slots n w i - (2^LD * (x i : ℂ) * (ta : ℂ) + ((tb * 2^LD : Int) : ℂ)) / 2^LD) +
      ((x i : ℂ) * ((ta : ℂ) - u (2*m+1) * 2^LD) + ((tb : ℂ) - u (2*m) * 2^LD)) := by
    simp only [treeVal, pow_zero, chebT_one]
    push_cast
    field_simp
    ring
  rw [e1]
  have c1 : ‖(ta : ℂ) - u (2*m+1) * 2^LD‖ ≤ 1 := by
    have : ((ta : ℂ) - u (2*m+1) * 2^LD) = (((ta : ℝ) - u (2*m+1) * 2^LD : ℝ) : ℂ) := by push_cast; rfl
    rw [this, Complex.norm_real]; exact ha1
  have c2 : ‖(tb : ℂ) - u (2*m) * 2^LD‖ ≤ 1 := by
    have : ((tb : ℂ) - u (2*m) * 2^LD) = (((tb : ℝ) - u (2*m) * 2^LD : ℝ) : ℂ) := by push_cast; rfl
    rw [this, Complex.norm_real]; exact hb1
  have c3 : ‖(x i : ℂ)‖ ≤ 1 := by rw [Complex.norm_real]; exact hx i
  have c4 : |(ta:ℝ)| * ε / 2^LD ≤ U * ε := by
    rw [div_le_iff₀ hp]
    have := mul_le_mul_of_nonneg_right (ha2.trans (mul_le_mul_of_nonneg_right (hU _ ha) hp.le)) hε
    linarith
  refine (norm_add_le _ _).trans ((add_le_add (hwe i) ((norm_add_le _ _).trans (add_le_add ?_ c2))).trans
    (b := (|(ta:ℝ)| * ε / 2^LD + rsErr n (weight s)) + (1 * 1 + 1)) ?_)
  · rw [norm_mul]; exact mul_le_mul c3 c1 (norm_nonneg _) zero_le_one
  · unfold lErr
    linarith

/-- doubling the index -/
theorem polyT_spec (h1 : ConvLOGQ LF) (h2 : ConvLOGQ (2 * LF)) (hn : n ≤ 16) {LD : Nat} (hD : LD < 64) (hL : LF = LT + LD)
    {s : Fin (2^(n+1)) → Int} (hs : Ternary s) {evk : R_Q_square (2 * LF) (2^(n+1))} (hev : IsEvk s evk)
    {T : R_Q_square LF (2^(n+1))} {x : Fin (2^n) → ℝ} (hx : ∀ i, |x i| ≤ 1) {ε : ℝ} (j : Nat)
    (hT : Near s T (fun i => 2^LD * chebT (2^j) (x i)) (tErr n (weight s) (2^LD) ε j)) :
    Ok (polyT LT LD T evk) fun T' => Near s T' (fun i => 2^LD * chebT (2^(j+1)) (x i))
      (tErr n (weight s) (2^LD) ε (j+1)) := by
  unfold polyT
  have hp : (0:ℝ) < 2^LD := by positivity
  have hpc : (2:ℂ)^LD ≠ 0 := pow_ne_zero _ two_ne_zero
  have hX : ∀ i, ‖(2:ℂ)^LD * chebT (2^j) (x i)‖ ≤ 2^LD := by
    intro i
    rw [norm_mul, norm_pow, Complex.norm_ofNat]
    have := mul_le_mul_of_nonneg_left (chebT_abs (2^j) (hx i)) hp.le
    linarith
  refine Ok.bind (Near.mul h1 h2 hn hs hev hT hT hX hX R_Q_square.setzero) fun y hy => ?_
  simp only []
  refine Ok.bind (Near.subOne hD (hy.mulW 2)) fun z hz => ?_
  have hd : LF - LT = LD := by omega
  have key := Near.rs (LF := LF) (LT := LT) (by omega) hs hz R_Q_square.setzero
  rw [hd] at key
  have h2w : ((2 : W).toNat) = 2 := rfl
  refine Ok.mono key fun r hr => hr.mono (fun i => ?_) (le_of_eq ?_)
  · rw [pow_succ 2 j, mul_comm (2^j) 2, chebT_double, h2w]
    push_cast
    field_simp
  · rw [tErr, h2w]; push_cast; ring

/-- one node -/
theorem polyComb_spec (h1 : ConvLOGQ LF) (h2 : ConvLOGQ (2 * LF)) (hn : n ≤ 16) {LD : Nat} (hD : LD < 64) (hL : LF = LT + LD)
    {s : Fin (2^(n+1)) → Int} (hs : Ternary s) {evk : R_Q_square (2 * LF) (2^(n+1))} (hev : IsEvk s evk)
    {T a b : R_Q_square LF (2^(n+1))} {x : Fin (2^n) → ℝ} (hx : ∀ i, |x i| ≤ 1) {ε U : ℝ} (j m : Nat)
    (hT : Near s T (fun i => 2^LD * chebT (2^(j+1)) (x i)) (tErr n (weight s) (2^LD) ε (j+1)))
    {u : Nat → ℝ} (ha : Near s a (fun i => 2^LD * treeVal u (x i) (j+1) (2*m+1)) (lErr n (weight s) (2^LD) ε U j))
    (hb : Near s b (fun i => 2^LD * treeVal u (x i) (j+1) (2*m)) (lErr n (weight s) (2^LD) ε U j))
    (hU : ∀ i, ‖treeVal u (x i) (j+1) (2*m+1)‖ ≤ U) :
    Ok (polyComb LT LD T a b evk) fun c => Near s c (fun i => 2^LD * treeVal u (x i) (j+2) m)
      (lErr n (weight s) (2^LD) ε U (j+1)) := by
  unfold polyComb
  have hp : (0:ℝ) < 2^LD := by positivity
  have hpc : (2:ℂ)^LD ≠ 0 := pow_ne_zero _ two_ne_zero
  have hX : ∀ i, ‖(2:ℂ)^LD * chebT (2^(j+1)) (x i)‖ ≤ 2^LD := by
    intro i
    rw [norm_mul, norm_pow, Complex.norm_ofNat]
    have := mul_le_mul_of_nonneg_left (chebT_abs (2^(j+1)) (hx i)) hp.le
    linarith
  have hY : ∀ i, ‖(2:ℂ)^LD * treeVal u (x i) (j+1) (2*m+1)‖ ≤ 2^LD * U := by
    intro i
    rw [norm_mul, norm_pow, Complex.norm_ofNat]
    exact mul_le_mul_of_nonneg_left (hU i) hp.le
  refine Ok.bind (Near.mul h1 h2 hn hs hev hT ha hX hY R_Q_square.setzero) fun y hy => ?_
  obtain ⟨D, eD, hDv⟩ := shl1_ok hD
  rw [eD, pure_bind]
  simp only []
  have hd : LF - LT = LD := by omega
  have key := Near.rs (LF := LF) (LT := LT) (by omega) hs (hy.add (hb.mulW D)) R_Q_square.setzero
  rw [hd, hDv] at key
  refine Ok.mono key fun r hr => hr.mono (fun i => ?_) (le_of_eq ?_)
  · rw [treeVal]
    push_cast
    field_simp
    ring
  · rw [lErr]; push_cast; ring

theorem polyL_spec (h1 : ConvLOGQ LF) (h2 : ConvLOGQ (2 * LF)) (hn : n ≤ 16) {LD : Nat} (hD : LD < 64) (hL : LF = LT + LD)
    {s : Fin (2^(n+1)) → Int} (hs : Ternary s) {evk : R_Q_square (2 * LF) (2^(n+1))} (hev : IsEvk s evk)
    {T : R_Q_square LF (2^(n+1))} {x : Fin (2^n) → ℝ} (hx : ∀ i, |x i| ≤ 1) {ε U : ℝ} (j k : Nat)
    (hT : Near s T (fun i => 2^LD * chebT (2^(j+1)) (x i)) (tErr n (weight s) (2^LD) ε (j+1)))
    {u : Nat → ℝ} {L : Fin (2^(k+1)) → R_Q_square LF (2^(n+1))}
    (hLn : ∀ m : Fin (2^(k+1)), Near s (L m) (fun i => 2^LD * treeVal u (x i) (j+1) m) (lErr n (weight s) (2^LD) ε U j))
    (hU : ∑ i ∈ range (2^(j+1+(k+1))), |u i| ≤ U) :
    Ok (polyL LT LD (2^k) T L evk) fun L' => ∀ m : Fin (2^k), Near s (L' m) (fun i => 2^LD * treeVal u (x i) (j+2) m)
      (lErr n (weight s) (2^LD) ε U (j+1)) := by
  refine tabM_spec (P := fun m c => Near s c (fun i => 2^LD * treeVal u (x i) (j+2) m)
      (lErr n (weight s) (2^LD) ε U (j+1))) fun m hm => ?_
  have hp : 2^(k+1) = 2^k + 2^k := by rw [pow_succ]; ring
  have ha : 2 * m + 1 < 2^(k+1) := by omega
  have hb : 2 * m < 2^(k+1) := by omega
  rw [rd_of_lt _ ha, pure_bind, rd_of_lt _ hb, pure_bind]
  exact polyComb_spec h1 h2 hn hD hL hs hev hx j m hT (hLn ⟨2*m+1, ha⟩) (hLn ⟨2*m, hb⟩)
    fun i => treeVal_le u (hx i) ha hU

theorem polyLast_spec (h1 : ConvLOGQ LF) (h2 : ConvLOGQ (2 * LF)) (hn : n ≤ 16) {LD : Nat} (hD : LD < 64) (hL : LF = LT + LD)
    {s : Fin (2^(n+1)) → Int} (hs : Ternary s) {evk : R_Q_square (2 * LF) (2^(n+1))} (hev : IsEvk s evk)
    {T : R_Q_square LF (2^(n+1))} {x : Fin (2^n) → ℝ} (hx : ∀ i, |x i| ≤ 1) {ε U : ℝ} (j : Nat)
    (hT : Near s T (fun i => 2^LD * chebT (2^(j+1)) (x i)) (tErr n (weight s) (2^LD) ε (j+1)))
    {u : Nat → ℝ} {L : Fin 2 → R_Q_square LF (2^(n+1))}
    (hLn : ∀ m : Fin 2, Near s (L m) (fun i => 2^LD * treeVal u (x i) (j+1) m) (lErr n (weight s) (2^LD) ε U j))
    (hU : ∑ i ∈ range (2^(j+2)), |u i| ≤ U) :
    Ok (polyLast LT LD T L evk) fun c => Near s c (fun i => 2^LD * treeVal u (x i) (j+2) 0)
      (lErr n (weight s) (2^LD) ε U (j+1)) := by
  unfold polyLast
  rw [rd_of_lt _ (by norm_num : 1 < 2), pure_bind, rd_of_lt _ (by norm_num : 0 < 2), pure_bind]
  exact polyComb_spec h1 h2 hn hD hL hs hev hx j 0 hT (hLn ⟨1, by norm_num⟩) (hLn ⟨0, by norm_num⟩)
    fun i => treeVal_le u (hx i) (k := 1) (by norm_num) hU

end EvalRound

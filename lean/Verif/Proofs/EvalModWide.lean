import Verif.Proofs.CosWide
import Verif.Proofs.EvalMod
import Verif.Proofs.EvalModNum

/-! # `EvalMod` with scale `2^60` and `K = 24` on messages up to `24.5`

Errors are multiples of `E`, a bound for the error after the division by `K`. -/

namespace EvalRound
open Z_Q Finset

variable {n : Nat}

/-- bound for `T_(2^j)` -/
noncomputable def wB (j : Nat) : ℝ := ((29/25:ℝ)^(2^j) + (25/29:ℝ)^(2^j)) / 2

theorem chebT_wide (j : Nat) {x : ℝ} (hx : |x| ≤ 733/725) : ‖chebT (2^j) (x : ℂ)‖ ≤ wB j := by
  rw [chebT_real, Complex.norm_real]
  exact rT_wide _ hx

theorem one_le_wB (j : Nat) : 1 ≤ wB j := by
  unfold wB
  rw [← cosh_log_pow]
  exact Real.one_le_cosh _

theorem treeVal_wide (u : Nat → ℝ) {x : ℝ} (hx : |x| ≤ 733/725) (j : Nat) : ∀ m,
    ‖treeVal u x j m‖ ≤ (∏ i ∈ range j, wB i) * ∑ i ∈ range (2^j), |u (2^j * m + i)| := by
  induction j with
  | zero => intro m; simp [treeVal]
  | succ j ih =>
    intro m
    simp only [treeVal]
    refine (norm_add_le _ _).trans ?_
    rw [norm_mul, prod_range_succ]
    have hP : 0 ≤ ∏ i ∈ range j, wB i := prod_nonneg fun i _ => zero_le_one.trans (one_le_wB i)
    have hb := one_le_wB j
    have h1 := ih (2*m)
    have h2 := mul_le_mul (chebT_wide j hx) (ih (2*m+1)) (norm_nonneg _) (by linarith)
    have hp : 2^(j+1) = 2^j + 2^j := by rw [pow_succ]; ring
    rw [hp, sum_range_add, mul_add]
    have e1 : ∀ i, (2^j + 2^j) * m + i = 2^j * (2*m) + i := fun i => by ring
    have e2 : ∀ i, (2^j + 2^j) * m + (2^j + i) = 2^j * (2*m+1) + i := fun i => by ring
    simp only [e2]
    simp only [e1]
    have h0 : 0 ≤ ∑ i ∈ range (2^j), |u (2^j * (2*m) + i)| := sum_nonneg fun _ _ => abs_nonneg _
    generalize ∑ i ∈ range (2^j), |u (2^j * (2*m) + i)| = S at *
    generalize ∑ i ∈ range (2^j), |u (2^j * (2*m+1) + i)| = S' at *
    generalize (∏ i ∈ range j, wB i) = P at *
    have h3 : P * S ≤ P * wB j * S := by
      have : 0 ≤ P * S := mul_nonneg hP h0
      nlinarith
    linarith

theorem treeVal_wide_le (u : Nat → ℝ) {x : ℝ} (hx : |x| ≤ 733/725) {j k m : Nat} (hm : m < 2^k) {U : ℝ}
    (hU : ∑ i ∈ range (2^(j+k)), |u i| ≤ U) : ‖treeVal u x j m‖ ≤ (∏ i ∈ range j, wB i) * U := by
  refine (treeVal_wide u hx j m).trans (mul_le_mul_of_nonneg_left (le_trans ?_ hU)
    (prod_nonneg fun i _ => zero_le_one.trans (one_le_wB i)))
  rw [← sum_image (s := range (2^j)) (g := fun i => 2^j * m + i) (f := fun i => |u i|) (fun a _ b _ h => by
    simpa using h)]
  refine sum_le_sum_of_subset_of_nonneg (fun i hi => ?_) (fun _ _ _ => abs_nonneg _)
  obtain ⟨a, ha, rfl⟩ := mem_image.1 hi
  have ha' := mem_range.1 ha
  refine mem_range.2 ?_
  have : 2^j * (m+1) ≤ 2^j * 2^k := Nat.mul_le_mul_left _ hm
  rw [pow_add]
  rw [mul_add, mul_one] at this
  omega

/-! ## blocks -/

/-- what is asked of the unit of error -/
structure Unit60 (n h : Nat) (E : ℝ) : Prop where
  lo : 30000 ≤ E
  hi : E ≤ 2^25
  rs : rsErr n h ≤ E
  mul : mulErr n h ≤ 2^37

section
variable {LF LT : Nat} [NeZero LF] [NeZero LT]

theorem start_wide (hL : LF = LT + 60) {s : Fin (2^(n+1)) → Int} (hs : Ternary s)
    {ct : R_Q_square LF (2^(n+1))} {y : Fin (2^n) → ℝ} {ε E : ℝ}
    (hct : Near s ct (fun i => 2^60 * (y i : ℂ)) ε) (hy : ∀ i, |(4 * y i - 1) / 96| ≤ 733/725)
    (hE : ε / 24 + 26 + rsErr n (weight s) ≤ E) :
    Ok (evalModStart (Q1 := LT) 60 24 ct) fun c => Near s c (fun i => 2^60 * (((4 * y i - 1) / 96 : ℝ) : ℂ)) (1 * E) := by
  have hε := hct.nonneg
  obtain ⟨D, eD, hDv⟩ := shl1_ok (show 60 < 64 by norm_num)
  obtain ⟨w, ew, hw1, hw2⟩ := divK_ok hDv (show (0:ℤ) < 24 by norm_num)
  obtain ⟨q, eq, hq1, _⟩ := divK_ok hDv (show (0:ℤ) < 4 * 24 by norm_num)
  have hp : (0:ℝ) < 2^60 := by positivity
  have hd : LF - LT = 60 := by omega
  unfold evalModStart
  rw [eD, pure_bind, ew, pure_bind]
  simp only []
  have hc1 : Near s (R_Q_square.mulW (R_Q_square.copy ct) w) _ _ := hct.mulW w
  have key := Near.rs (LF := LF) (LT := LT) (by omega) hs hc1 R_Q_square.setzero
  rw [hd] at key
  refine Ok.bind key fun c hc => ?_
  rw [show intM (4 * 24) = pure (4 * 24) from rfl, pure_bind, eq, pure_bind]
  refine Ok.mono (hc.wr0 (f := fun x => sub x (ofW q)) (a := -(q.toNat : Int)) fun z => ⟨canonical_sub _ _, by
    rw [cls_sub, cls_ofW]; push_cast; ring⟩) fun r hr => ?_
  refine hr.approx (δ := 26) (fun i => ?_) ?_
  · have hyK : |y i| ≤ 25 := by
      have h1 := hy i
      rw [abs_div, div_le_iff₀ (by norm_num), abs_of_pos (show (0:ℝ) < 96 by norm_num)] at h1
      rw [abs_le] at h1 ⊢
      constructor <;> linarith [h1.1, h1.2]
    have e1 : (w.toNat : ℂ) * (2^60 * (y i : ℂ)) / 2^60 + ((-(q.toNat : Int) : Int) : ℂ) -
        2^60 * (((4 * y i - 1) / 96 : ℝ) : ℂ) =
        (((w.toNat : ℝ) - 2^60 / ((24:ℤ):ℝ)) * y i - ((q.toNat : ℝ) - 2^60 / ((4 * 24 : ℤ) : ℝ)) : ℝ) := by
      push_cast
      field_simp
      ring
    rw [e1, Complex.norm_real, Real.norm_eq_abs]
    refine (abs_sub _ _).trans ?_
    rw [abs_mul]
    have := mul_le_mul hw1 hyK (abs_nonneg _) zero_le_one
    linarith
  · have : (w.toNat : ℝ) * ε / 2^60 ≤ ε / 24 := by
      rw [div_le_iff₀ hp]
      refine (mul_le_mul_of_nonneg_right hw2 hε).trans (le_of_eq ?_)
      push_cast
      ring
    linarith

/-- level one -/
theorem polyL1_wide (h1 : ConvLOGQ LF) (hn : n ≤ 16) (hL : LF = LT + 60) {s : Fin (2^(n+1)) → Int}
    (hs : Ternary s) {K K0 : Nat} (hK : 2 * K ≤ K0) {T1 : R_Q_square LF (2^(n+1))} {x : Fin (2^n) → ℝ}
    (hx : ∀ i, |x i| ≤ 733/725) {E : ℝ} (hE : Unit60 n (weight s) E) (hT : Near s T1 (fun i => 2^60 * (x i : ℂ)) (1 * E)) {u : Nat → ℝ}
    {L0 : Fin K0 → R_Q LF (2^(n+1))} (hL0 : ∀ m : Fin K0, IsConst 60 m (u m) (L0 m))
    (hU : ∀ m, m < K0 → |u m| ≤ 3) :
    Ok (polyL1 LT K T1 L0) fun L1 => ∀ m : Fin K, Near s (L1 m) (fun i => 2^60 * treeVal u (x i) 1 m) (401/100 * E) := by
  refine tabM_spec (P := fun m c => Near s c (fun i => 2^60 * treeVal u (x i) 1 m) (401/100 * E)) fun m hm => ?_
  have hε : 0 ≤ 1 * E := hT.nonneg
  have ha : 2 * m + 1 < K0 := by omega
  have hb : 2 * m < K0 := by omega
  obtain ⟨hac, ta, hta, ha1, ha2⟩ := hL0 ⟨2*m+1, ha⟩
  obtain ⟨hbc, tb, htb, hb1, hb2⟩ := hL0 ⟨2*m, hb⟩
  rw [if_neg (by simp only []; omega)] at hta
  rw [if_pos (by simp only []; omega)] at htb
  simp only [] at ha1 ha2 hb1 hb2
  simp only [R_Q_square.copy_eq]
  rw [rd_of_lt _ ha, pure_bind]
  refine Ok.bind (Near.mulConst h1 hn hT hac hta) fun y hy => ?_
  rw [rd_of_lt _ hb, pure_bind]
  have key := Near.rs (LF := LF) (LT := LT) (by omega) hs (hy.addConst htb) R_Q_square.setzero
  have hd : LF - LT = 60 := by omega
  rw [hd] at key
  refine Ok.mono key fun r hr => ?_
  refine hr.approx (δ := 3) (fun i => ?_) ?_
  · have e1 : (2^60 * (x i : ℂ) * (ta : ℂ) + ((tb * 2^60 : Int) : ℂ)) / 2^60 - 2^60 * treeVal u (x i) 1 m =
        (x i : ℂ) * ((ta : ℂ) - u (2*m+1) * 2^60) + ((tb : ℂ) - u (2*m) * 2^60) := by
      simp only [treeVal, pow_zero, chebT_one]
      push_cast
      field_simp
      ring
    rw [e1]
    have c1 : ‖(ta : ℂ) - u (2*m+1) * 2^60‖ ≤ 1 := by
      have : ((ta : ℂ) - u (2*m+1) * 2^60) = (((ta : ℝ) - u (2*m+1) * 2^60 : ℝ) : ℂ) := by push_cast; rfl
      rw [this, Complex.norm_real]; exact ha1
    have c2 : ‖(tb : ℂ) - u (2*m) * 2^60‖ ≤ 1 := by
      have : ((tb : ℂ) - u (2*m) * 2^60) = (((tb : ℝ) - u (2*m) * 2^60 : ℝ) : ℂ) := by push_cast; rfl
      rw [this, Complex.norm_real]; exact hb1
    have c3 : ‖(x i : ℂ)‖ ≤ 733/725 := by rw [Complex.norm_real]; exact hx i
    refine (norm_add_le _ _).trans ?_
    rw [norm_mul]
    exact (add_le_add (mul_le_mul c3 c1 (norm_nonneg _) (by norm_num)) c2).trans (by norm_num)
  · have hp : (0:ℝ) < 2^60 := by positivity
    have c4 : |(ta:ℝ)| * (1 * E) / 2^60 ≤ 3 * (1 * E) := by
      rw [div_le_iff₀ hp]
      have := mul_le_mul_of_nonneg_right (ha2.trans (mul_le_mul_of_nonneg_right (hU _ ha) hp.le)) hε
      linarith
    have := hE.lo
    have := hE.rs
    refine (add_le_add_left (add_le_add c4 hE.rs) 3).trans ?_
    linarith

/-- doubling the index -/
theorem polyT_wide (h1 : ConvLOGQ LF) (h2 : ConvLOGQ (2 * LF)) (hn : n ≤ 16) (hL : LF = LT + 60)
    {s : Fin (2^(n+1)) → Int} (hs : Ternary s) {evk : R_Q_square (2 * LF) (2^(n+1))} (hev : IsEvk s evk)
    {T : R_Q_square LF (2^(n+1))} {x : Fin (2^n) → ℝ} {E c d B : ℝ} (hE : Unit60 n (weight s) E) (hc : 0 ≤ c) (j : Nat)
    (hB : ∀ i, ‖chebT (2^j) (x i : ℂ)‖ ≤ B) (hT : Near s T (fun i => 2^60 * chebT (2^j) (x i)) (c * E))
    (hb : 4 * B * c + 2 * c^2 / 2^35 + 1 / 2^30 + 1 ≤ d) :
    Ok (polyT LT 60 T evk) fun T' => Near s T' (fun i => 2^60 * chebT (2^(j+1)) (x i)) (d * E) := by
  unfold polyT
  have hp : (0:ℝ) < 2^60 := by positivity
  have hX : ∀ i, ‖(2:ℂ)^60 * chebT (2^j) (x i)‖ ≤ 2^60 * B := by
    intro i
    rw [norm_mul, norm_pow, Complex.norm_ofNat]
    exact mul_le_mul_of_nonneg_left (hB i) hp.le
  refine Ok.bind (Near.mul h1 h2 hn hs hev hT hT hX hX R_Q_square.setzero) fun y hy => ?_
  simp only []
  refine Ok.bind (Near.subOne (by norm_num) (hy.mulW 2)) fun z hz => ?_
  have hd : LF - LT = 60 := by omega
  have key := Near.rs (LF := LF) (LT := LT) (by omega) hs hz R_Q_square.setzero
  rw [hd] at key
  have h2w : ((2 : W).toNat) = 2 := rfl
  refine Ok.mono key fun r hr => hr.mono (fun i => ?_) ?_
  · rw [pow_succ 2 j, mul_comm (2^j) 2, chebT_double, h2w]
    push_cast
    field_simp
  · obtain ⟨lo, hi, rs, mul⟩ := hE
    have hE0 : 0 ≤ E := by linarith
    rw [h2w]
    push_cast
    have h3 : c * E * (c * E) ≤ c^2 * (2^25 * E) := by
      calc c * E * (c * E) = c^2 * (E * E) := by ring
        _ ≤ _ := by gcongr
    calc _ ≤ 2 * (2^60 * B * (c * E) + 2^60 * B * (c * E) + c^2 * (2^25 * E) + 2^37 / 1000 * E) / 2^60 + E := by
          gcongr
          linarith
      _ = (4 * B * c + 2 * c^2 / 2^35 + 2^38 / 1000 / 2^60 + 1) * E := by ring
      _ ≤ d * E := mul_le_mul_of_nonneg_right (le_trans (by norm_num) hb) hE0

/-- one node -/
theorem polyComb_wide (h1 : ConvLOGQ LF) (h2 : ConvLOGQ (2 * LF)) (hn : n ≤ 16) (hL : LF = LT + 60)
    {s : Fin (2^(n+1)) → Int} (hs : Ternary s) {evk : R_Q_square (2 * LF) (2^(n+1))} (hev : IsEvk s evk)
    {T a b : R_Q_square LF (2^(n+1))} {x : Fin (2^n) → ℝ} {E B V t l d : ℝ} (hE : Unit60 n (weight s) E)
    (ht : 0 ≤ t) (hl : 0 ≤ l) (hV0 : 0 ≤ V) (j m : Nat)
    (hB : ∀ i, ‖chebT (2^(j+1)) (x i : ℂ)‖ ≤ B) (hT : Near s T (fun i => 2^60 * chebT (2^(j+1)) (x i)) (t * E))
    {u : Nat → ℝ} (ha : Near s a (fun i => 2^60 * treeVal u (x i) (j+1) (2*m+1)) (l * E))
    (hb : Near s b (fun i => 2^60 * treeVal u (x i) (j+1) (2*m)) (l * E))
    (hV : ∀ i, ‖treeVal u (x i) (j+1) (2*m+1)‖ ≤ V)
    (hd : (B + 1) * l + t * l / 2^35 + V * t + 1 / 2^30 + 1 ≤ d) :
    Ok (polyComb LT 60 T a b evk) fun c => Near s c (fun i => 2^60 * treeVal u (x i) (j+2) m) (d * E) := by
  unfold polyComb
  have hp : (0:ℝ) < 2^60 := by positivity
  have hX : ∀ i, ‖(2:ℂ)^60 * chebT (2^(j+1)) (x i)‖ ≤ 2^60 * B := by
    intro i
    rw [norm_mul, norm_pow, Complex.norm_ofNat]
    exact mul_le_mul_of_nonneg_left (hB i) hp.le
  have hY : ∀ i, ‖(2:ℂ)^60 * treeVal u (x i) (j+1) (2*m+1)‖ ≤ 2^60 * V := by
    intro i
    rw [norm_mul, norm_pow, Complex.norm_ofNat]
    exact mul_le_mul_of_nonneg_left (hV i) hp.le
  refine Ok.bind (Near.mul h1 h2 hn hs hev hT ha hX hY R_Q_square.setzero) fun y hy => ?_
  obtain ⟨D, eD, hDv⟩ := shl1_ok (show 60 < 64 by norm_num)
  rw [eD, pure_bind]
  simp only []
  have hdd : LF - LT = 60 := by omega
  have key := Near.rs (LF := LF) (LT := LT) (by omega) hs (hy.add (hb.mulW D)) R_Q_square.setzero
  rw [hdd, hDv] at key
  refine Ok.mono key fun r hr => hr.mono (fun i => ?_) ?_
  · rw [treeVal]
    push_cast
    field_simp
    ring
  · obtain ⟨lo, hi, rs, mul⟩ := hE
    have hE0 : 0 ≤ E := by linarith
    rw [show ((2^60 : ℕ) : ℝ) = 2^60 by norm_num]
    have h3 : t * E * (l * E) ≤ t * l * (2^25 * E) := by
      calc t * E * (l * E) = t * l * (E * E) := by ring
        _ ≤ _ := by gcongr
    calc _ ≤ (2^60 * B * (l * E) + 2^60 * V * (t * E) + t * l * (2^25 * E) + 2^37 / 1000 * E + 2^60 * (l * E)) / 2^60 + E := by
          have h4 : mulErr n (weight s) ≤ 2^37 / 1000 * E := by linarith
          exact add_le_add (div_le_div_of_nonneg_right (add_le_add_left (add_le_add (add_le_add_right h3 _) h4) _) hp.le) rs
      _ = ((B + 1) * l + t * l / 2^35 + V * t + 2^37 / 1000 / 2^60 + 1) * E := by ring
      _ ≤ d * E := mul_le_mul_of_nonneg_right (le_trans (by norm_num) hd) hE0

theorem polyL_wide (h1 : ConvLOGQ LF) (h2 : ConvLOGQ (2 * LF)) (hn : n ≤ 16) (hL : LF = LT + 60)
    {s : Fin (2^(n+1)) → Int} (hs : Ternary s) {evk : R_Q_square (2 * LF) (2^(n+1))} (hev : IsEvk s evk)
    {T : R_Q_square LF (2^(n+1))} {x : Fin (2^n) → ℝ} (hx : ∀ i, |x i| ≤ 733/725) {E B V t l d : ℝ} (hE : Unit60 n (weight s) E)
    (ht : 0 ≤ t) (hl : 0 ≤ l) (j k : Nat)
    (hB : wB (j+1) ≤ B) (hT : Near s T (fun i => 2^60 * chebT (2^(j+1)) (x i)) (t * E))
    {u : Nat → ℝ} {L : Fin (2^(k+1)) → R_Q_square LF (2^(n+1))}
    (hLn : ∀ m : Fin (2^(k+1)), Near s (L m) (fun i => 2^60 * treeVal u (x i) (j+1) m) (l * E))
    (hU : ∑ i ∈ range (2^(j+1+(k+1))), |u i| ≤ 3) (hV : (∏ i ∈ range (j+1), wB i) * 3 ≤ V)
    (hd : (B + 1) * l + t * l / 2^35 + V * t + 1 / 2^30 + 1 ≤ d) :
    Ok (polyL LT 60 (2^k) T L evk) fun L' => ∀ m : Fin (2^k), Near s (L' m) (fun i => 2^60 * treeVal u (x i) (j+2) m) (d * E) := by
  refine tabM_spec (P := fun m c => Near s c (fun i => 2^60 * treeVal u (x i) (j+2) m) (d * E)) fun m hm => ?_
  have hp : 2^(k+1) = 2^k + 2^k := by rw [pow_succ]; ring
  have ha : 2 * m + 1 < 2^(k+1) := by omega
  have hb : 2 * m < 2^(k+1) := by omega
  have hV0 : 0 ≤ V := le_trans (mul_nonneg (prod_nonneg fun i _ => zero_le_one.trans (one_le_wB i)) (by norm_num)) hV
  rw [rd_of_lt _ ha, pure_bind, rd_of_lt _ hb, pure_bind]
  exact polyComb_wide h1 h2 hn hL hs hev hE ht hl hV0 j m (fun i => (chebT_wide _ (hx i)).trans hB) hT (hLn ⟨2*m+1, ha⟩) (hLn ⟨2*m, hb⟩)
    (fun i => (treeVal_wide_le u (hx i) ha hU).trans hV) hd

theorem polyLast_wide (h1 : ConvLOGQ LF) (h2 : ConvLOGQ (2 * LF)) (hn : n ≤ 16) (hL : LF = LT + 60)
    {s : Fin (2^(n+1)) → Int} (hs : Ternary s) {evk : R_Q_square (2 * LF) (2^(n+1))} (hev : IsEvk s evk)
    {T : R_Q_square LF (2^(n+1))} {x : Fin (2^n) → ℝ} (hx : ∀ i, |x i| ≤ 733/725) {E B V t l d : ℝ} (hE : Unit60 n (weight s) E)
    (ht : 0 ≤ t) (hl : 0 ≤ l) (j : Nat)
    (hB : wB (j+1) ≤ B) (hT : Near s T (fun i => 2^60 * chebT (2^(j+1)) (x i)) (t * E))
    {u : Nat → ℝ} {L : Fin 2 → R_Q_square LF (2^(n+1))}
    (hLn : ∀ m : Fin 2, Near s (L m) (fun i => 2^60 * treeVal u (x i) (j+1) m) (l * E))
    (hU : ∑ i ∈ range (2^(j+2)), |u i| ≤ 3) (hV : (∏ i ∈ range (j+1), wB i) * 3 ≤ V)
    (hd : (B + 1) * l + t * l / 2^35 + V * t + 1 / 2^30 + 1 ≤ d) :
    Ok (polyLast LT 60 T L evk) fun c => Near s c (fun i => 2^60 * treeVal u (x i) (j+2) 0) (d * E) := by
  unfold polyLast
  have hV0 : 0 ≤ V := le_trans (mul_nonneg (prod_nonneg fun i _ => zero_le_one.trans (one_le_wB i)) (by norm_num)) hV
  rw [rd_of_lt _ (by norm_num : 1 < 2), pure_bind, rd_of_lt _ (by norm_num : 0 < 2), pure_bind]
  exact polyComb_wide h1 h2 hn hL hs hev hE ht hl hV0 j 0 (fun i => (chebT_wide _ (hx i)).trans hB) hT (hLn ⟨1, by norm_num⟩) (hLn ⟨0, by norm_num⟩)
    (fun i => (treeVal_wide_le u (hx i) (k := 1) (by norm_num) hU).trans hV) hd

end

/-! ## the whole -/

section
variable {Q0 Q1 Q2 Q3 Q4 Q5 Q6 Q7 Q8 Q9 Q10 Q11 Q12 : Nat} [NeZero Q0] [NeZero Q1] [NeZero Q2] [NeZero Q3] [NeZero Q4] [NeZero Q5] [NeZero Q6] [NeZero Q7] [NeZero Q8] [NeZero Q9] [NeZero Q10] [NeZero Q11] [NeZero Q12]

theorem wB_num : wB 0 ≤ 733/725 ∧ wB 1 ≤ 10444/10000 ∧ wB 2 ≤ 11815/10000 ∧ wB 3 ≤ 17918/10000 ∧ wB 4 ≤ 54206/10000 := by
  unfold wB; norm_num

theorem wB_prod : (∏ i ∈ range 1, wB i) * 3 ≤ 304/100 ∧ (∏ i ∈ range 2, wB i) * 3 ≤ 317/100 ∧ (∏ i ∈ range 3, wB i) * 3 ≤ 375/100 ∧
    (∏ i ∈ range 4, wB i) * 3 ≤ 672/100 := by
  simp only [prod_range_succ, range_zero, prod_empty]; unfold wB; norm_num

theorem deg31_wide (hn : n ≤ 16) (hQ1 : GoodQ Q1) (hQ2 : GoodQ Q2) (hQ3 : GoodQ Q3)
    (hQ4 : GoodQ Q4) (hQ5 : GoodQ Q5) (h64 : 64 ≤ Q1) (hL1 : Q1 = Q2 + 60) (hL2 : Q2 = Q3 + 60) (hL3 : Q3 = Q4 + 60)
    (hL4 : Q4 = Q5 + 60) (hL5 : Q5 = Q6 + 60) {s : Fin (2^(n+1)) → Int} (hs : Ternary s) {u : Fin 32 → ℝ}
    (hu2 : ∀ i, |u i| * 2^60 < 2^64) (hU : ∑ i, |u i| ≤ 3) {ct : R_Q_square Q1 (2^(n+1))}
    {x : Fin (2^n) → ℝ} (hx : ∀ i, |x i| ≤ 733/725) {E : ℝ} (hE : Unit60 n (weight s) E)
    (hT1 : Near s ct (fun i => 2^60 * (x i : ℂ)) (1 * E))
    {evk1 : R_Q_square (2 * Q1) (2^(n+1))} {evk2 : R_Q_square (2 * Q2) (2^(n+1))}
    {evk3 : R_Q_square (2 * Q3) (2^(n+1))} {evk4 : R_Q_square (2 * Q4) (2^(n+1))} {evk5 : R_Q_square (2 * Q5) (2^(n+1))}
    (hev1 : IsEvk s evk1) (hev2 : IsEvk s evk2) (hev3 : IsEvk s evk3) (hev4 : IsEvk s evk4) (hev5 : IsEvk s evk5) :
    Ok (eval_poly_deg31 (Q5 := Q6) 60 u ct evk1 evk2 evk3 evk4 evk5) fun p =>
      Near s p (fun i => 2^60 * treeVal (arr u) (x i) 5 0) (9875 * E) := by
  have hU' : ∑ i ∈ range 32, |arr u i| ≤ 3 := by rw [arr_sum]; exact hU
  obtain ⟨b0, b1, b2, b3, b4⟩ := wB_num
  obtain ⟨v0, v1, v2, v3⟩ := wB_prod
  unfold eval_poly_deg31
  refine Ok.bind (constsS h64 (by norm_num) hu2) fun L0 hL0n => ?_
  refine Ok.bind (polyL1_wide hQ1.one hn hL1 hs (by norm_num) hx hE hT1 hL0n (arr_le hU)) fun L1 hL1n => ?_
  have hT1' : Near s ct (fun i => 2^60 * chebT (2^0) (x i)) (1 * E) :=
    hT1.mono (fun i => by rw [pow_zero, chebT_one]) le_rfl
  refine Ok.bind (polyT_wide hQ1.one hQ1.two hn hL1 hs hev1 hE (c := 1) (d := 505/100) (by norm_num) 0
    (fun i => (chebT_wide 0 (hx i)).trans b0) hT1' (by norm_num)) fun T1 hT2 => ?_
  refine Ok.bind (polyL_wide hQ2.one hQ2.two hn hL2 hs hev2 hx hE (by norm_num) (by norm_num) 0 3 b1 hT2 hL1n hU' v0
    (d := 246/10) (by norm_num)) fun L2 hL2n => ?_
  refine Ok.bind (polyT_wide hQ2.one hQ2.two hn hL2 hs hev2 hE (d := 221/10) (by norm_num) 1
    (fun i => (chebT_wide 1 (hx i)).trans b1) hT2 (by norm_num)) fun T2 hT3 => ?_
  refine Ok.bind (polyL_wide hQ3.one hQ3.two hn hL3 hs hev3 hx hE (by norm_num) (by norm_num) 1 2 b2 hT3 hL2n hU' v1
    (d := 1248/10) (by norm_num)) fun L3 hL3n => ?_
  refine Ok.bind (polyT_wide hQ3.one hQ3.two hn hL3 hs hev3 hE (d := 1055/10) (by norm_num) 2
    (fun i => (chebT_wide 2 (hx i)).trans b2) hT3 (by norm_num)) fun T3 hT4 => ?_
  refine Ok.bind (polyL_wide hQ4.one hQ4.two hn hL4 hs hev4 hx hE (by norm_num) (by norm_num) 2 1 b3 hT4 hL3n hU' v2
    (d := 7451/10) (by norm_num)) fun L4 hL4n => ?_
  refine Ok.bind (polyT_wide hQ4.one hQ4.two hn hL4 hs hev4 hE (d := 7573/10) (by norm_num) 3
    (fun i => (chebT_wide 3 (hx i)).trans b3) hT4 (by norm_num)) fun T4 hT5 => ?_
  exact polyLast_wide hQ5.one hQ5.two hn hL5 hs hev5 hx hE (by norm_num) (by norm_num) 3 b4 hT5 hL4n hU' v3 (by norm_num)

theorem cubic_wide {h : Nat} {E a : ℝ} (hE : Unit60 n h E) (ha0 : 0 ≤ a) (ha : a ≤ 2547910 * E) : cubicErr n h (2^60) a ≤ 637100 * E := by
  obtain ⟨lo, hi, rs, mul⟩ := hE
  have hR0 := rsErr_nonneg n h
  have hM0 := mulErr_nonneg n h
  have hE0 : 0 ≤ E := by linarith
  have hpi := Real.pi_gt_three
  have x0 : 0 ≤ sixErr n h (2^60) a := by unfold sixErr; positivity
  have x1 : sixErr n h (2^60) a ≤ 5096011 * E := by
    have h2 : a^2 ≤ 2547910^2 * (2^25 * E) := by
      calc a^2 ≤ (2547910 * E)^2 := by gcongr
        _ = 2547910^2 * (E * E) := by ring
        _ ≤ _ := by gcongr
    unfold sixErr
    calc _ ≤ (2 * 2^60 * (2547910 * E) + 2547910^2 * (2^25 * E) + 2^37 / 1000 * E) / 2^60 + E := by
          gcongr
          linarith
      _ = (2 * 2547910 + 2547910^2 / 2^35 + 2^37 / 1000 / 2^60 + 1) * E := by ring
      _ ≤ _ := by gcongr; norm_num
  have y0 : 0 ≤ linErr n h a := by unfold linErr; positivity
  have y1 : linErr n h a ≤ 70780 * E := by
    unfold linErr
    calc _ ≤ (2547910 * E) / (12 * 3) + 1 / 1000 * E + E := by
          gcongr
          linarith
      _ = (2547910 / 36 + 1 / 1000 + 1) * E := by ring
      _ ≤ _ := by gcongr; norm_num
  have z1 : sixErr n h (2^60) a * linErr n h a ≤ 5096011 * 70780 * (2^25 * E) := by
    calc _ ≤ (5096011 * E) * (70780 * E) := by gcongr
      _ = 5096011 * 70780 * (E * E) := by ring
      _ ≤ _ := by gcongr
  unfold cubicErr
  calc _ ≤ (7 * 2^60 * (70780 * E) + 2^60 / (12 * 3) * (5096011 * E) + 5096011 * 70780 * (2^25 * E) + 2^37 / 1000 * E) / 2^60 + E := by
        gcongr
        linarith
    _ = (7 * 70780 + 5096011 / 36 + 5096011 * 70780 / 2^35 + 2^37 / 1000 / 2^60 + 1) * E := by ring
    _ ≤ _ := by gcongr; norm_num

set_option maxHeartbeats 2000000 in
theorem EvalMod_wide (hn : n ≤ 16) (hC : EvalModChain 60 Q0 Q1 Q2 Q3 Q4 Q5 Q6 Q7 Q8 Q9 Q10 Q11 Q12)
    (hlo : 65 ≤ Q11) (hhi : Q1 ≤ 1525) {s : Fin (2^(n+1)) → Int} (hs : Ternary s)
    {ct : R_Q_square Q0 (2^(n+1))} {y : Fin (2^n) → ℝ} {ε E : ℝ}
    (hct : Near s ct (fun i => 2^60 * (y i : ℂ)) ε) (hy : ∀ i, |(4 * y i - 1) / 96| ≤ 733/725)
    (hE : Unit60 n (weight s) E) (hεE : ε / 24 + 26 + rsErr n (weight s) ≤ E)
    {evk1 : R_Q_square (2 * Q1) (2^(n+1))} (hev1 : IsEvk s evk1)
    {evk2 : R_Q_square (2 * Q2) (2^(n+1))} (hev2 : IsEvk s evk2)
    {evk3 : R_Q_square (2 * Q3) (2^(n+1))} (hev3 : IsEvk s evk3)
    {evk4 : R_Q_square (2 * Q4) (2^(n+1))} (hev4 : IsEvk s evk4)
    {evk5 : R_Q_square (2 * Q5) (2^(n+1))} (hev5 : IsEvk s evk5)
    {evk6 : R_Q_square (2 * Q6) (2^(n+1))} (hev6 : IsEvk s evk6)
    {evk7 : R_Q_square (2 * Q7) (2^(n+1))} (hev7 : IsEvk s evk7)
    {evk8 : R_Q_square (2 * Q8) (2^(n+1))} (hev8 : IsEvk s evk8)
    {evk9 : R_Q_square (2 * Q9) (2^(n+1))} (hev9 : IsEvk s evk9)
    {evk10 : R_Q_square (2 * Q10) (2^(n+1))} (hev10 : IsEvk s evk10)
    {evk11 : R_Q_square (2 * Q11) (2^(n+1))} (hev11 : IsEvk s evk11) :
    Ok (EvalMod (Q12 := Q12) 60 24 ct evk1 evk2 evk3 evk4 evk5 evk6 evk7 evk8 evk9 evk10 evk11) fun p =>
      Near s p (fun i => 2^60 * ((asin3 (Real.cos (12 * Real.pi * (4 * y i - 1) / 24)) : ℝ) : ℂ)) (637100 * E) := by
  obtain ⟨hL0, hL1, hL2, hL3, hL4, hL5, hL6, hL7, hL8, hL9, hL10, hL11⟩ := hC
  have hp : (0:ℝ) < 2^60 := by positivity
  have hpi := Real.pi_pos
  have g1 : GoodQ Q1 := Or.inr (Or.inl ⟨by omega, by omega⟩)
  have g2 : GoodQ Q2 := Or.inr (Or.inl ⟨by omega, by omega⟩)
  have g3 : GoodQ Q3 := Or.inr (Or.inl ⟨by omega, by omega⟩)
  have g4 : GoodQ Q4 := Or.inr (Or.inl ⟨by omega, by omega⟩)
  have g5 : GoodQ Q5 := Or.inr (Or.inl ⟨by omega, by omega⟩)
  have g6 : GoodQ Q6 := Or.inr (Or.inl ⟨by omega, by omega⟩)
  have g7 : GoodQ Q7 := Or.inr (Or.inl ⟨by omega, by omega⟩)
  have g8 : GoodQ Q8 := Or.inr (Or.inl ⟨by omega, by omega⟩)
  have g9 : GoodQ Q9 := Or.inr (Or.inl ⟨by omega, by omega⟩)
  have g10 : GoodQ Q10 := Or.inr (Or.inl ⟨by omega, by omega⟩)
  have g11 : GoodQ Q11 := Or.inr (Or.inl ⟨by omega, by omega⟩)
  unfold EvalMod
  refine Ok.bind (start_wide hL0 hs hct hy hεE) fun c1 h1 => ?_
  refine Ok.bind (deg31_wide hn g1 g2 g3 g4 g5 (by omega) hL1 hL2 hL3 hL4 hL5 hs (evalModU_lt (by norm_num)) evalModU_sum hy hE h1
    hev1 hev2 hev3 hev4 hev5) fun c2 h2 => ?_
  have hv : ∀ (j : Nat) (i : Fin (2^n)), ‖chebT (2^j) ((Real.cos (3 * Real.pi * ((4 * y i - 1) / 96)) : ℝ) : ℂ)‖ ≤ 1 :=
    fun j i => chebT_abs _ (Real.abs_cos_le_one _)
  have h2' : Near s c2 (fun i => 2^60 * chebT (2^0) ((Real.cos (3 * Real.pi * ((4 * y i - 1) / 96)) : ℝ) : ℂ)) (9952 * E) := by
    refine h2.approx (δ := 2^60 * (2 / 10^12)) (fun i => ?_) ?_
    · rw [pow_zero, chebT_one, ← mul_sub, norm_mul, norm_pow, Complex.norm_ofNat]
      exact mul_le_mul_of_nonneg_left (tree_cos_wide (hy i)) hp.le
    · have := hE.lo
      norm_num
      linarith
  refine Ok.bind (polyT_wide g6.one g6.two hn hL6 hs hev6 hE (d := 39810) (by norm_num) 0 (hv 0) h2' (by norm_num)) fun c3 h3 => ?_
  refine Ok.bind (polyT_wide g7.one g7.two hn hL7 hs hev7 hE (d := 159242) (by norm_num) 1 (hv 1) h3 (by norm_num)) fun c4 h4 => ?_
  refine Ok.bind (polyT_wide g8.one g8.two hn hL8 hs hev8 hE (d := 636971) (by norm_num) 2 (hv 2) h4 (by norm_num)) fun c5 h5 => ?_
  refine Ok.bind (polyT_wide g9.one g9.two hn hL9 hs hev9 hE (d := 2547909) (by norm_num) 3 (hv 3) h5 (by norm_num)) fun c6 h6 => ?_
  have hw : ∀ i, |Real.cos (12 * Real.pi * (4 * y i - 1) / 24)| ≤ 1 := fun i => Real.abs_cos_le_one _
  have h6' : Near s c6 (fun i => 2^60 * ((Real.cos (12 * Real.pi * (4 * y i - 1) / 24) : ℝ) : ℂ)) (2547909 * E) := by
    refine h6.mono (fun i => ?_) le_rfl
    rw [chebT_cos]
    congr 4
    push_cast
    ring
  refine Ok.bind (evalModSix_spec g10.one g10.two hn (by norm_num) hL10 hs hev10 hw h6') fun c7 h7 => ?_
  refine Ok.bind (evalModLin_spec (by norm_num) hL10 hs hw h6'.nonneg h6') fun c8 h8 => ?_
  have hX : ∀ i, ‖(2:ℂ)^60 * ((Real.cos (12 * Real.pi * (4 * y i - 1) / 24) ^ 2 + 6 : ℝ) : ℂ)‖ ≤ 7 * 2^60 := by
    intro i
    rw [norm_mul, norm_pow, Complex.norm_ofNat, Complex.norm_real, Real.norm_eq_abs, abs_of_nonneg (by positivity), mul_comm]
    refine mul_le_mul_of_nonneg_right ?_ hp.le
    have := Real.cos_sq_le_one (12 * Real.pi * (4 * y i - 1) / 24)
    linarith
  have hY : ∀ i, ‖(2:ℂ)^60 * ((Real.cos (12 * Real.pi * (4 * y i - 1) / 24) / (12 * Real.pi) : ℝ) : ℂ)‖ ≤ 2^60 / (12 * Real.pi) := by
    intro i
    rw [norm_mul, norm_pow, Complex.norm_ofNat, Complex.norm_real, Real.norm_eq_abs, abs_div, abs_of_pos (show 0 < 12 * Real.pi by positivity),
      div_eq_mul_one_div (2^60)]
    exact mul_le_mul_of_nonneg_left (div_le_div_of_nonneg_right (hw i) (by positivity)) hp.le
  refine Ok.bind (Near.mul g11.one g11.two hn hs hev11 h7 h8 hX hY R_Q_square.setzero) fun c9 h9 => ?_
  have key := Near.rs (LF := Q11) (LT := Q12) (by omega) hs h9 R_Q_square.setzero
  rw [show Q11 - Q12 = 60 by omega] at key
  refine Ok.mono key fun r hr => hr.mono (fun i => ?_) (le_trans (le_of_eq ?_) (cubic_wide hE h6'.nonneg (by linarith [hE.lo])))
  · unfold asin3
    have hpic : (Real.pi : ℂ) ≠ 0 := by exact_mod_cast hpi.ne'
    push_cast
    field_simp
    ring
  · unfold cubicErr
    ring

theorem EvalModKey_wide (R : Nat) (hn : n ≤ 16)
    (hC : EvalModChain 60 Q0 Q1 Q2 Q3 Q4 Q5 Q6 Q7 Q8 Q9 Q10 Q11 Q12)
    (hlo : 65 ≤ Q11) (hhi : Q1 ≤ 1525) {s : Fin (2^(n+1)) → Int} (hs : Ternary s)
    {ct : R_Q_square Q0 (2^(n+1))} {a : Fin (2^n) → ℝ} {I : Fin (2^n) → ℤ} {ε η E : ℝ}
    (hct : Near s ct (fun i => (a i : ℂ)) ε) (hy : ∀ i, -24.01 * 2^60 ≤ a i ∧ a i ≤ 24.5 * 2^60)
    (hη : ∀ i, |a i - 2^60 * I i| ≤ η)
    (hE : Unit60 n (weight s) E) (hεE : ε / 24 + 26 + rsErr n (weight s) ≤ E) (ω : Rng) :
    Ok (EvalModKey R 60 24 Q1 Q2 Q3 Q4 Q5 Q6 Q7 Q8 Q9 Q10 Q11 Q12 ct s ω) fun p =>
      Near s p.1 (fun i => ((a i - 2^60 * I i : ℝ) : ℂ)) (637100 * E + 2^60 * (117 * (η / 2^60)^5)) := by
  have hN : 2^(n+1) ≤ 2^17 := Nat.pow_le_pow_right (by norm_num) (by omega)
  have hp : (0:ℝ) < 2^60 := by positivity
  have hb : ∀ i, |(4 * (a i / 2^60) - 1) / 96| ≤ 733/725 := by
    intro i
    obtain ⟨h1, h2⟩ := hy i
    have g1 : -24.01 ≤ a i / 2^60 := by rw [le_div_iff₀ hp]; exact h1
    have g2 : a i / 2^60 ≤ 24.5 := by rw [div_le_iff₀ hp]; exact h2
    rw [abs_le]
    constructor
    · rw [le_div_iff₀ (by norm_num)]; linarith
    · rw [div_le_iff₀ (by norm_num)]; linarith
  have hct' : Near s ct (fun i => 2^60 * ((a i / 2^60 : ℝ) : ℂ)) ε := by
    refine hct.mono (fun i => ?_) le_rfl
    push_cast
    field_simp
  unfold EvalModKey
  rw [convI_spec (by omega) s s hs.abs_le hs.abs_le, pure_bind]
  refine Ok.bind (swk_evk R hn hs R_Q_square.setzero _) fun k1 e1 => ?_
  refine Ok.bind (swk_evk R hn hs R_Q_square.setzero _) fun k2 e2 => ?_
  refine Ok.bind (swk_evk R hn hs R_Q_square.setzero _) fun k3 e3 => ?_
  refine Ok.bind (swk_evk R hn hs R_Q_square.setzero _) fun k4 e4 => ?_
  refine Ok.bind (swk_evk R hn hs R_Q_square.setzero _) fun k5 e5 => ?_
  refine Ok.bind (swk_evk R hn hs R_Q_square.setzero _) fun k6 e6 => ?_
  refine Ok.bind (swk_evk R hn hs R_Q_square.setzero _) fun k7 e7 => ?_
  refine Ok.bind (swk_evk R hn hs R_Q_square.setzero _) fun k8 e8 => ?_
  refine Ok.bind (swk_evk R hn hs R_Q_square.setzero _) fun k9 e9 => ?_
  refine Ok.bind (swk_evk R hn hs R_Q_square.setzero _) fun k10 e10 => ?_
  refine Ok.bind (swk_evk R hn hs R_Q_square.setzero _) fun k11 e11 => ?_
  refine Ok.bind (EvalMod_wide hn hC hlo hhi hs hct' hb hE hεE e1 e2 e3 e4 e5 e6 e7 e8 e9 e10 e11) fun p hp' => ?_
  refine Ok.pure (hp'.approx (δ := 2^60 * (117 * (η / 2^60)^5)) (fun i => ?_) le_rfl)
  set e : ℝ := a i / 2^60 - I i with he
  have e1 : Real.cos (12 * Real.pi * (4 * (a i / 2^60) - 1) / 24) = Real.sin (2 * Real.pi * e) := by
    have : 12 * Real.pi * (4 * (a i / 2^60) - 1) / 24 = (2 * Real.pi * e - Real.pi / 2) + I i * (2 * Real.pi) := by
      rw [he]; push_cast; ring
    rw [this, Real.cos_add_int_mul_two_pi, Real.cos_sub_pi_div_two]
  rw [e1]
  have h2 := asin3_sin e
  have e2 : ((a i - 2^60 * I i : ℝ) : ℂ) = 2^60 * (e : ℂ) := by
    rw [he]; push_cast; field_simp
  rw [e2, ← mul_sub, norm_mul, norm_pow, Complex.norm_ofNat, ← Complex.ofReal_sub, Complex.norm_real]
  refine mul_le_mul_of_nonneg_left (h2.trans ?_) hp.le
  have h5 : |e| ≤ η / 2^60 := by
    rw [le_div_iff₀ hp]
    nth_rw 1 [← abs_of_pos hp]
    rw [← abs_mul]
    refine le_trans (le_of_eq ?_) (hη i)
    rw [he]; congr 1; field_simp
  have hpi := Real.pi_lt_d4
  have hpi0 := Real.pi_pos
  have h6 : 3/40 * (2 * Real.pi)^4 ≤ 117 := by
    calc 3/40 * (2 * Real.pi)^4 ≤ 3/40 * (2 * 3.1416)^4 := by gcongr
      _ ≤ _ := by norm_num
  gcongr

end

end EvalRound

import Verif.Proofs.Poly
import Verif.Proofs.Print
import Verif.Props.LinTrans
import Verif.Props.Endecode

/-!
# C36, C37: Chebyshev coefficients and polynomial evaluation
-/

namespace EvalRound
open Z_Q Finset

variable {n : Nat}

/-! ## C36 -/

/-- C36: for `N = 2^k`, `k ≥ 2`, `convert_frc_tou` returns, writes only `u[0..N-1]`, and the evaluation
tree with leaves `u` is the polynomial with Chebyshev coefficients `c`. -/
theorem C36_convert (k : Nat) (hk : 2 ≤ k) (c u0 : Fin (2^k) → ℝ) :
    Ok (convert_frc_tou (2^k) (2^k) c 0 u0) fun u => ∀ x : ℂ,
      treeVal (arr u) x k 0 = ∑ i : Fin (2^k), (c i : ℂ) * (Polynomial.Chebyshev.T ℂ (i.val : ℤ)).eval x := by
  refine Ok.mono (convert_spec k hk (2^k) c 0 u0 (le_refl _) (by omega)) fun u ⟨_, h⟩ x => ?_
  have h1 := h x
  have e : (fun m => arr u (0 + m)) = arr u := by funext m; rw [zero_add]
  rw [e] at h1
  rw [h1, ← Fin.sum_univ_eq_sum_range (fun i => (arr c i : ℂ) * chebT i x)]
  refine sum_congr rfl fun i _ => ?_
  rw [arr, dif_pos i.isLt]
  rfl

/-- C36: a call on part of larger arrays changes nothing outside its part. -/
theorem C36_frame (k : Nat) (hk : 2 ≤ k) {cn K : Nat} (c : Fin cn → ℝ) (hc : 2^k ≤ cn) (off : Nat) (u0 : Fin K → ℝ)
    (hK : off + 2^k ≤ K) : Ok (convert_frc_tou (2^k) cn c off u0) fun u =>
      ∀ m : Fin K, m.val < off ∨ off + 2^k ≤ m.val → u m = u0 m :=
  Ok.mono (convert_spec k hk cn c off u0 hc hK) fun _ h => h.1

/-- C36: the recursion never ends unless `4*2^j ≤ N < 5*2^j` for some `j`. -/
theorem C36_diverges {N cn K : Nat} (c : Fin cn → ℝ) (off : Nat) (u : Fin K → ℝ) (hc : N ≤ cn)
    (hN : ∀ j, ¬ (4 * 2^j ≤ N ∧ N < 5 * 2^j)) : convert_frc_tou N cn c off u = diverge :=
  convert_diverges c off u hc hN

theorem two_pow_ge {j : Nat} (h : 2 ≤ j) : 4 ≤ 2^j := by
  have := Nat.pow_le_pow_right (n := 2) (by norm_num) h
  simpa using this

/-- C36: in particular for `N` below 4 and for 5, 6 and 7. -/
theorem C36_diverges_small (N : Nat) (hN : N < 8) (h4 : N ≠ 4) (c u : Fin N → ℝ) :
    convert_frc_tou N N c 0 u = diverge := by
  refine C36_diverges c 0 u (le_refl _) fun j hj => ?_
  rcases j with _ | _ | j
  · simp at hj; omega
  · simp at hj; omega
  · have := two_pow_ge (j := j + 1 + 1) (by omega)
    omega

/-- C36: in the rest of the range where the call returns, for `N` no power of two, it returns a wrong result: two series with different
values at 1 get the same `u`. -/
theorem C36_wrong {j N : Nat} (h1 : 4 * 2^j < N) (h2 : N < 5 * 2^j) : ∃ c c' : Fin N → ℝ,
    (∀ u : Fin N → ℝ, Ok (convert_frc_tou N N c 0 u) (fun _ => True) ∧ convert_frc_tou N N c 0 u = convert_frc_tou N N c' 0 u) ∧
    ∑ i : Fin N, (c i : ℂ) * (Polynomial.Chebyshev.T ℂ (i.val : ℤ)).eval 1 ≠
      ∑ i : Fin N, (c' i : ℂ) * (Polynomial.Chebyshev.T ℂ (i.val : ℤ)).eval 1 := by
  obtain ⟨m, hm, h⟩ := convert_ignores j h1 h2
  refine ⟨fun _ => 0, fun i => if i.val = m then 1 else 0, fun u => ⟨convert_returns j _ 0 u h1.le h2 le_rfl (by omega),
    h _ _ 0 u le_rfl fun i hi => by rw [if_neg hi]⟩, ?_⟩
  have e : ∑ i : Fin N, (((if i.val = m then 1 else 0 : ℝ) : ℝ) : ℂ) * (Polynomial.Chebyshev.T ℂ (i.val : ℤ)).eval 1 = 1 := by
    rw [Finset.sum_eq_single (⟨m, hm⟩ : Fin N)]
    · simp
    · intro i _ hi
      rw [if_neg fun h => hi (Fin.ext h)]
      simp
    · intro h; exact absurd (mem_univ _) h
  rw [e]
  simp

/-- C36: with `N = 9` the call returns but ignores `c[8]`. -/
theorem C36_nine (c c' u : Fin 9 → ℝ) (h : ∀ i : Fin 9, i.val < 8 → c i = c' i) :
    convert_frc_tou 9 9 c 0 u = convert_frc_tou 9 9 c' 0 u ∧ Ok (convert_frc_tou 9 9 c 0 u) fun _ => True := by
  have key : ∀ d : Fin 9 → ℝ, convert_frc_tou 9 9 d 0 u =
      convert_frc_tou 8 8 (fun i : Fin 8 => d ⟨i.val, by omega⟩) 0 u := by
    intro d
    rw [convert_frc_tou, if_neg (by norm_num)]
    conv_rhs => rw [convert_frc_tou, if_neg (by norm_num)]
    have e1 : tabM (9/2) (fun i => rd d i) = tabM (8/2) (fun i => rd (fun i : Fin 8 => d ⟨i.val, by omega⟩) i) := by
      obtain ⟨a, ha, h1⟩ := tabM_spec (n := 9/2) (f := fun i => rd d i) (P := fun i v => ∀ hi : i < 9, v = d ⟨i, hi⟩)
        fun i hi => by rw [rd_of_lt d (by omega)]; exact Ok.pure fun _ => rfl
      rw [ha]
      symm
      apply tabM_eq
      intro i
      have hi : i.val < 4 := i.isLt
      rw [rd_of_lt _ (show i.val < 8 by omega)]
      exact congrArg pure (h1 i (by omega)).symm
    have e2 : tabM (9/2) (fun i => rd d (i + 9/2)) =
        tabM (8/2) (fun i => rd (fun i : Fin 8 => d ⟨i.val, by omega⟩) (i + 8/2)) := by
      obtain ⟨a, ha, h1⟩ := tabM_spec (n := 9/2) (f := fun i => rd d (i + 9/2))
        (P := fun i v => ∀ hi : i + 4 < 9, v = d ⟨i + 4, hi⟩)
        fun i hi => by rw [rd_of_lt d (show i + 9/2 < 9 by omega)]; exact Ok.pure fun _ => rfl
      rw [ha]
      symm
      apply tabM_eq
      intro i
      have hi : i.val < 4 := i.isLt
      rw [rd_of_lt _ (show i.val + 8/2 < 8 by omega)]
      exact congrArg pure (h1 i (by omega)).symm
    rw [e1, e2]
  have h2 : (fun i : Fin 8 => c ⟨i.val, by omega⟩) = fun i : Fin 8 => c' ⟨i.val, by omega⟩ := by
    funext i; exact h _ i.isLt
  refine ⟨by rw [key, key, h2], ?_⟩
  rw [key]
  exact Ok.mono (convert_spec 3 (by norm_num) 8 _ 0 u (by norm_num) (by norm_num)) fun _ _ => trivial

/-- The case `c = (1,5,3,4)`: the leaves are `(1,1,3,8)`. -/
theorem convert_example (u0 : Fin 4 → ℝ) : convert_frc_tou 4 4 ![1,5,3,4] 0 u0 = pure ![1,1,3,8] := by
  rw [convert_frc_tou, if_pos rfl]
  rw [rd_of_lt _ (show 0 < 4 by norm_num), pure_bind, wr_of_lt _ (show 0 < 4 by norm_num), pure_bind,
    rd_of_lt _ (show 1 < 4 by norm_num), pure_bind, rd_of_lt _ (show 3 < 4 by norm_num), pure_bind,
    wr_of_lt _ (show 0+1 < 4 by norm_num), pure_bind, rd_of_lt _ (show 2 < 4 by norm_num), pure_bind,
    wr_of_lt _ (show 0+2 < 4 by norm_num), pure_bind, pure_bind, wr_of_lt _ (show 0+3 < 4 by norm_num)]
  congr 1
  funext i
  fin_cases i <;> simp [Function.update_apply] <;> norm_num

/-- lengths between the powers of two where the call returns -/
example : 4 * 2^2 < 18 ∧ 18 < 5 * 2^2 ∧ 4 * 2^8 < 1100 ∧ 1100 < 5 * 2^8 := by norm_num

example : 2 ≤ (5:Nat) ∧ ∃ c : Fin (2^5) → ℝ, c ⟨31, by norm_num⟩ = 3 := ⟨by norm_num, fun _ => 3, rfl⟩

/-! ## C37 -/

/-- `evk` is an evaluation key that `conv` and `swkgen` produced for `s` from some random values, as in
the callers of poly.h (bootstrap.h:98-121). -/
def EvkFrom {LOGQ : Nat} [NeZero LOGQ] (s : Fin (2^(n+1)) → Int) (evk : R_Q_square (2 * LOGQ) (2^(n+1))) : Prop :=
  ∃ RAND_MAX evk0 ω ω', (do
    let s_sq ← convI s s
    swkgen RAND_MAX s_sq s evk0 ω) = pure (evk, ω')

theorem EvkFrom.isEvk {LOGQ : Nat} [NeZero LOGQ] {s : Fin (2^(n+1)) → Int} {evk : R_Q_square (2 * LOGQ) (2^(n+1))}
    (h : EvkFrom s evk) (hn : n ≤ 16) (hs : Ternary s) : IsEvk s evk := by
  obtain ⟨R, evk0, ω, ω', h⟩ := h
  have hN : 2^(n+1) ≤ 2^17 := Nat.pow_le_pow_right (by norm_num) (by omega)
  rw [convI_spec (by omega) s s hs.abs_le hs.abs_le, pure_bind] at h
  have hb : ∀ i, -2^31 < negconv s s i ∧ negconv s s i < 2^31 := by
    intro i
    have h1 := negconv_abs_le s s hs.abs_le i
    rw [mul_one, hs.sum_abs] at h1
    have h2 : weight s ≤ 2^(n+1) := by
      unfold weight
      exact (card_filter_le _ _).trans (by simp)
    have h3 := abs_le.1 h1
    constructor <;> omega
  obtain ⟨r, hr, h1, h2⟩ := swkgen_spec (LOGQ := LOGQ) R (by omega) hb hs evk0 ω
  have := pure_inj (hr.symm.trans h)
  rw [this] at h1 h2
  exact ⟨h1, h2⟩

/-- such keys exist -/
theorem EvkFrom.exists {LOGQ : Nat} [NeZero LOGQ] {s : Fin (2^(n+1)) → Int} (hn : n ≤ 16) (hs : Ternary s) :
    ∃ evk : R_Q_square (2 * LOGQ) (2^(n+1)), EvkFrom s evk := by
  have hN : 2^(n+1) ≤ 2^17 := Nat.pow_le_pow_right (by norm_num) (by omega)
  have hb : ∀ i, -2^31 < negconv s s i ∧ negconv s s i < 2^31 := by
    intro i
    have h1 := negconv_abs_le s s hs.abs_le i
    rw [mul_one, hs.sum_abs] at h1
    have h2 : weight s ≤ 2^(n+1) := by
      unfold weight
      exact (card_filter_le _ _).trans (by simp)
    have h3 := abs_le.1 h1
    constructor <;> omega
  obtain ⟨r, hr, h1, h2⟩ := swkgen_spec (LOGQ := LOGQ) 7 (by omega) hb hs R_Q_square.setzero (fun _ => 5)
  refine ⟨r.1, 7, R_Q_square.setzero, fun _ => 5, r.2, ?_⟩
  rw [convI_spec (by omega) s s hs.abs_le hs.abs_le, pure_bind]
  exact hr

/-- C37: `T' = RS(2*T*T - 1)` takes the Chebyshev polynomial of index `2^j` to that of index `2^(j+1)`. -/
theorem C37_double {LF LT : Nat} [NeZero LF] [NeZero LT] (LOGDELTA : Nat) (hD : LOGDELTA < 64) (hn : n ≤ 16)
    (hQ : GoodQ LF) (hL : LF = LT + LOGDELTA) (s : Fin (2^(n+1)) → Int) (hs : ∀ k, s k = -1 ∨ s k = 0 ∨ s k = 1)
    (T : R_Q_square LF (2^(n+1))) (evk : R_Q_square (2 * LF) (2^(n+1))) (hev : EvkFrom s evk)
    (x : Fin (2^n) → ℝ) (hx : ∀ i, |x i| ≤ 1) (ε : ℝ) (j : Nat)
    (hT : Near s T (fun i => 2^LOGDELTA * chebT (2^j) (x i))
      (tErr n (univ.filter fun k => s k ≠ 0).card (2^LOGDELTA) ε j)) :
    Ok (polyT LT LOGDELTA T evk) fun T' => Near s T' (fun i => 2^LOGDELTA * chebT (2^(j+1)) (x i))
      (tErr n (univ.filter fun k => s k ≠ 0).card (2^LOGDELTA) ε (j+1)) :=
  polyT_spec hQ.one hQ.two hn hD hL hs (hev.isEvk hn hs) hx j hT

/-- C37: `RS(T*a + 2^LOGDELTA*b)` combines two neighbouring nodes of level `j+1` of the tree. -/
theorem C37_node {LF LT : Nat} [NeZero LF] [NeZero LT] (LOGDELTA : Nat) (hD : LOGDELTA < 64) (hn : n ≤ 16)
    (hQ : GoodQ LF) (hL : LF = LT + LOGDELTA) (s : Fin (2^(n+1)) → Int) (hs : ∀ k, s k = -1 ∨ s k = 0 ∨ s k = 1)
    (T a b : R_Q_square LF (2^(n+1))) (evk : R_Q_square (2 * LF) (2^(n+1))) (hev : EvkFrom s evk)
    (x : Fin (2^n) → ℝ) (hx : ∀ i, |x i| ≤ 1) (ε U : ℝ) (j m : Nat)
    (hT : Near s T (fun i => 2^LOGDELTA * chebT (2^(j+1)) (x i))
      (tErr n (univ.filter fun k => s k ≠ 0).card (2^LOGDELTA) ε (j+1))) (u : Nat → ℝ)
    (ha : Near s a (fun i => 2^LOGDELTA * treeVal u (x i) (j+1) (2*m+1))
      (lErr n (univ.filter fun k => s k ≠ 0).card (2^LOGDELTA) ε U j))
    (hb : Near s b (fun i => 2^LOGDELTA * treeVal u (x i) (j+1) (2*m))
      (lErr n (univ.filter fun k => s k ≠ 0).card (2^LOGDELTA) ε U j))
    (hU : ∀ i, ‖treeVal u (x i) (j+1) (2*m+1)‖ ≤ U) :
    Ok (polyComb LT LOGDELTA T a b evk) fun c => Near s c (fun i => 2^LOGDELTA * treeVal u (x i) (j+2) m)
      (lErr n (univ.filter fun k => s k ≠ 0).card (2^LOGDELTA) ε U (j+1)) :=
  polyComb_spec hQ.one hQ.two hn hD hL hs (hev.isEvk hn hs) hx j m hT ha hb hU

section
variable {Q : Nat} [NeZero Q]

theorem near_start (hn : n ≤ 16) {s : Fin (2^(n+1)) → Int} (hs : Ternary s)
    {ct : R_Q_square Q (2^(n+1))} (hct : ct.Canonical) {m0 : R_Q Q (2^(n+1))} (hm0 : dec ct s = pure m0)
    {x : Fin (2^n) → ℝ} {ε : ℝ} {Δ : ℂ} (hε : ∀ i, ‖slots n (fun k => (m0 k).sval) i - Δ * (x i : ℂ)‖ ≤ ε) :
    Near s ct (fun i => Δ * (x i : ℂ)) ε := by
  have hN : 2^(n+1) ≤ 2^30 := Nat.pow_le_pow_right (by norm_num) (by omega)
  obtain ⟨m, hm, _, hc⟩ := dec_spec hN hs ct
  have e : m = m0 := pure_inj (hm.symm.trans hm0)
  subst e
  refine ⟨hct, R_Q.sval m, ?_, hε⟩
  rw [← hc, cls_red_sval]

theorem near_finish (hn1 : 1 ≤ n) (hn : n ≤ 16) {s : Fin (2^(n+1)) → Int} (hs : Ternary s) {p : R_Q_square Q (2^(n+1))}
    {x : Fin (2^n) → ℝ} (hx : ∀ i, |x i| ≤ 1) {LD k : Nat} (hk : 2 ≤ k) {c u0 u : Fin (2^k) → ℝ}
    (hu : convert_frc_tou (2^k) (2^k) c 0 u0 = pure u) {e U : ℝ} (hU : ∑ i ∈ range (2^k), |arr u i| ≤ U)
    (hp : Near s p (fun i => 2^LD * treeVal (arr u) (x i) k 0) e) (hw : 2^LD * U + e < 2^(Q-1)) :
    Ok (dec p s) fun m => ∀ i, ‖slots n (fun k => (m k).sval) i -
      2^LD * ∑ t : Fin (2^k), (c t : ℂ) * (Polynomial.Chebyshev.T ℂ (t.val : ℤ)).eval (x i : ℂ)‖ ≤ e := by
  obtain ⟨_, w, hw1, hw2⟩ := hp
  obtain ⟨u', hu', hc⟩ := C36_convert k hk c u0
  have e1 : u' = u := pure_inj (hu'.symm.trans hu)
  subst e1
  refine Ok.mono (dec_lift hn1 hn hs hw1) fun m ⟨_, hm⟩ i => ?_
  have h3 := hm (2^LD * U + e) (fun i => ?_) hw
  · rw [h3, ← hc (x i)]; exact hw2 i
  · have g1 := norm_sub_norm_le (slots n w i) (2^LD * treeVal (arr u') (x i) k 0)
    have g2 : ‖slots n w i - 2^LD * treeVal (arr u') (x i) k 0‖ ≤ e := hw2 i
    have g3 := treeVal_le (arr u') (hx i) (j := k) (k := 0) (m := 0) (by norm_num) hU
    rw [norm_mul, norm_pow, Complex.norm_ofNat] at g1
    have g4 := mul_le_mul_of_nonneg_left g3 (show (0:ℝ) ≤ 2^LD by positivity)
    linarith

theorem arr_sum {K : Nat} (u : Fin K → ℝ) : ∑ i ∈ range K, |arr u i| = ∑ i, |u i| := by
  rw [← Fin.sum_univ_eq_sum_range (fun i => |arr u i|)]
  refine sum_congr rfl fun i _ => ?_
  rw [arr, dif_pos i.isLt]

theorem arr_le {K : Nat} {u : Fin K → ℝ} {U : ℝ} (hU : ∑ i, |u i| ≤ U) (m : Nat) (hm : m < K) : |arr u m| ≤ U := by
  rw [arr, dif_pos hm]
  exact (single_le_sum (f := fun i => |u i|) (fun _ _ => abs_nonneg _) (mem_univ (⟨m, hm⟩ : Fin K))).trans hU

/-- the table of constants of the degrees 3, 7 and 15 -/
theorem constsU (hQ : 64 ≤ Q) {LD : Nat} (hD : LD < 64) {K : Nat} {u : Fin K → ℝ} (h1 : ∀ i, -1 < u i * 2^LD)
    (h2 : ∀ i, u i * 2^LD < 2^64) :
    Ok (tabM K (fun m => do
      let x ← rd u m
      polyConstU Q (2^(n+1)) LD m x)) fun L0 => ∀ m : Fin K, IsConst LD m (arr u m) (L0 m) := by
  refine tabM_spec (P := fun m b => IsConst LD m (arr u m) b) fun m hm => ?_
  rw [rd_of_lt u hm, pure_bind, arr, dif_pos hm]
  exact polyConstU_spec hQ hD m (h1 _) (h2 _)

/-- the table of constants of the degrees 31, 63 and 127 -/
theorem constsS (hQ : 64 ≤ Q) {LD : Nat} (hD : LD < 64) {K : Nat} {u : Fin K → ℝ} (h2 : ∀ i, |u i| * 2^LD < 2^64) :
    Ok (tabM K (fun m => do
      let x ← rd u m
      polyConstS Q (2^(n+1)) LD m x)) fun L0 => ∀ m : Fin K, IsConst LD m (arr u m) (L0 m) := by
  refine tabM_spec (P := fun m b => IsConst LD m (arr u m) b) fun m hm => ?_
  rw [rd_of_lt u hm, pure_bind, arr, dif_pos hm]
  exact polyConstS_spec hQ hD m (h2 _)

end

section
variable {Q0 Q1 Q2 Q3 Q4 Q5 Q6 Q7 : Nat} [NeZero Q0] [NeZero Q1] [NeZero Q2] [NeZero Q3] [NeZero Q4] [NeZero Q5]
  [NeZero Q6] [NeZero Q7]

/-- C37: `eval_poly_deg3` on a ciphertext of `2^LOGDELTA * x` with `x` in `[-1,1]`, with the leaves that
`convert_frc_tou` computes from `c`, decrypts to `2^LOGDELTA * sum_i c_i T_i(x)` up to `lErr`. -/
theorem C37_deg3 (LOGDELTA : Nat) (hD : LOGDELTA < 64) (hn1 : 1 ≤ n) (hn : n ≤ 16)
    (hQ0 : GoodQ Q0) (hQ1 : GoodQ Q1)
    (h64 : 64 ≤ Q0) (hL0 : Q0 = Q1 + LOGDELTA) (hL1 : Q1 = Q2 + LOGDELTA)
    (s : Fin (2^(n+1)) → Int) (hs : ∀ k, s k = -1 ∨ s k = 0 ∨ s k = 1)
    (c u0 u : Fin 4 → ℝ) (hu : convert_frc_tou 4 4 c 0 u0 = pure u)
    (hu1 : ∀ i, -1 < u i * 2^LOGDELTA) (hu2 : ∀ i, u i * 2^LOGDELTA < 2^64) (U : ℝ) (hU : ∑ i, |u i| ≤ U)
    (ct : R_Q_square Q0 (2^(n+1))) (hct : ct.Canonical) (m0 : R_Q Q0 (2^(n+1))) (hm0 : dec ct s = pure m0)
    (x : Fin (2^n) → ℝ) (hx : ∀ i, |x i| ≤ 1) (ε : ℝ)
    (hε : ∀ i, ‖slots n (fun k => (m0 k).sval) i - 2^LOGDELTA * (x i : ℂ)‖ ≤ ε)
    (evk1 : R_Q_square (2 * Q0) (2^(n+1))) (evk2 : R_Q_square (2 * Q1) (2^(n+1)))
    (hev1 : EvkFrom s evk1) (hev2 : EvkFrom s evk2)
    (hw : 2^LOGDELTA * U + lErr n (univ.filter fun k => s k ≠ 0).card (2^LOGDELTA) ε U 1 < 2^(Q2-1)) :
    Ok (do
      let p ← eval_poly_deg3 (Q2 := Q2) LOGDELTA u ct evk1 evk2
      dec p s) fun m => ∀ i, ‖slots n (fun k => (m k).sval) i -
        2^LOGDELTA * ∑ t : Fin 4, (c t : ℂ) * (Polynomial.Chebyshev.T ℂ (t.val : ℤ)).eval (x i : ℂ)‖ ≤
          lErr n (univ.filter fun k => s k ≠ 0).card (2^LOGDELTA) ε U 1 := by
  have hs' : Ternary s := hs
  have hT1 := near_start hn hs' hct hm0 hε
  have hU' : ∑ i ∈ range 4, |arr u i| ≤ U := by rw [arr_sum]; exact hU
  unfold eval_poly_deg3
  simp only [bind_assoc]
  refine Ok.bind (constsU h64 hD hu1 hu2) fun L0 hL0n => ?_
  refine Ok.bind (polyL1_spec hQ0.one hn hL0 hs' (by norm_num) hx hT1 hL0n (arr_le hU)) fun L1 hL1n => ?_
  have hT1' : Near s ct (fun i => 2^LOGDELTA * chebT (2^0) (x i)) (tErr n (weight s) (2^LOGDELTA) ε 0) :=
    hT1.mono (fun i => by rw [pow_zero, chebT_one]) (le_of_eq rfl)
  refine Ok.bind (polyT_spec hQ0.one hQ0.two hn hD hL0 hs' (hev1.isEvk hn hs') hx 0 hT1') fun T1 hT2 => ?_
  refine Ok.bind (polyLast_spec hQ1.one hQ1.two hn hD hL1 hs' (hev2.isEvk hn hs') hx 0 hT2 hL1n hU') fun p hp => ?_
  exact near_finish hn1 hn hs' hx (k := 2) (by norm_num) hu hU' hp hw

/-- C37: `eval_poly_deg7` on a ciphertext of `2^LOGDELTA * x` with `x` in `[-1,1]`, with the leaves that
`convert_frc_tou` computes from `c`, decrypts to `2^LOGDELTA * sum_i c_i T_i(x)` up to `lErr`. The function prints
ciphertexts modulo `2^Q2`, which needs `Q2 ≤ 1300`. -/
theorem C37_deg7 (LOGDELTA : Nat) (hD : LOGDELTA < 64) (hn1 : 1 ≤ n) (hn : n ≤ 16)
    (hQ0 : GoodQ Q0) (hQ1 : GoodQ Q1) (hQ2 : GoodQ Q2) (hprint : Q2 ≤ 1300)
    (h64 : 64 ≤ Q0) (hL0 : Q0 = Q1 + LOGDELTA) (hL1 : Q1 = Q2 + LOGDELTA) (hL2 : Q2 = Q3 + LOGDELTA)
    (s : Fin (2^(n+1)) → Int) (hs : ∀ k, s k = -1 ∨ s k = 0 ∨ s k = 1)
    (c u0 u : Fin 8 → ℝ) (hu : convert_frc_tou 8 8 c 0 u0 = pure u)
    (hu1 : ∀ i, -1 < u i * 2^LOGDELTA) (hu2 : ∀ i, u i * 2^LOGDELTA < 2^64) (U : ℝ) (hU : ∑ i, |u i| ≤ U)
    (ct : R_Q_square Q0 (2^(n+1))) (hct : ct.Canonical) (m0 : R_Q Q0 (2^(n+1))) (hm0 : dec ct s = pure m0)
    (x : Fin (2^n) → ℝ) (hx : ∀ i, |x i| ≤ 1) (ε : ℝ)
    (hε : ∀ i, ‖slots n (fun k => (m0 k).sval) i - 2^LOGDELTA * (x i : ℂ)‖ ≤ ε)
    (evk1 : R_Q_square (2 * Q0) (2^(n+1))) (evk2 : R_Q_square (2 * Q1) (2^(n+1))) (evk3 : R_Q_square (2 * Q2) (2^(n+1)))
    (hev1 : EvkFrom s evk1) (hev2 : EvkFrom s evk2) (hev3 : EvkFrom s evk3)
    (hw : 2^LOGDELTA * U + lErr n (univ.filter fun k => s k ≠ 0).card (2^LOGDELTA) ε U 2 < 2^(Q3-1)) :
    Ok (do
      let p ← eval_poly_deg7 (Q3 := Q3) LOGDELTA u ct evk1 evk2 evk3
      dec p s) fun m => ∀ i, ‖slots n (fun k => (m k).sval) i -
        2^LOGDELTA * ∑ t : Fin 8, (c t : ℂ) * (Polynomial.Chebyshev.T ℂ (t.val : ℤ)).eval (x i : ℂ)‖ ≤
          lErr n (univ.filter fun k => s k ≠ 0).card (2^LOGDELTA) ε U 2 := by
  have hs' : Ternary s := hs
  have hT1 := near_start hn hs' hct hm0 hε
  have hU' : ∑ i ∈ range 8, |arr u i| ≤ U := by rw [arr_sum]; exact hU
  unfold eval_poly_deg7
  simp only [bind_assoc]
  refine Ok.bind (constsU h64 hD hu1 hu2) fun L0 hL0n => ?_
  refine Ok.bind (polyL1_spec hQ0.one hn hL0 hs' (by norm_num) hx hT1 hL0n (arr_le hU)) fun L1 hL1n => ?_
  have hT1' : Near s ct (fun i => 2^LOGDELTA * chebT (2^0) (x i)) (tErr n (weight s) (2^LOGDELTA) ε 0) :=
    hT1.mono (fun i => by rw [pow_zero, chebT_one]) (le_of_eq rfl)
  refine Ok.bind (polyT_spec hQ0.one hQ0.two hn hD hL0 hs' (hev1.isEvk hn hs') hx 0 hT1') fun T1 hT2 => ?_
  refine Ok.bind (polyL_spec hQ1.one hQ1.two hn hD hL1 hs' (hev2.isEvk hn hs') hx 0 1 hT2 hL1n hU') fun L2 hL2n => ?_
  refine Ok.bind (polyT_spec hQ1.one hQ1.two hn hD hL1 hs' (hev2.isEvk hn hs') hx 1 hT2) fun T2 hT3 => ?_
  rw [sq_print _ hprint, pure_bind, rd_of_lt L2 (by norm_num), pure_bind, sq_print _ hprint, pure_bind, rd_of_lt L2 (by norm_num),
    pure_bind, sq_print _ hprint, pure_bind]
  refine Ok.bind (polyLast_spec hQ2.one hQ2.two hn hD hL2 hs' (hev3.isEvk hn hs') hx 1 hT3 hL2n hU') fun p hp => ?_
  exact near_finish hn1 hn hs' hx (k := 3) (by norm_num) hu hU' hp hw

/-- C37: with a modulus above `2^1300` after two levels `eval_poly_deg7` never returns: printing the intermediate
ciphertexts fails the assertion of `to_str`. -/
theorem C37_deg7_never {N : Nat} (hN : 0 < N) (hprint : 1300 < Q2) (LOGDELTA : Nat) (u : Fin 8 → ℝ) (ct : R_Q_square Q0 N)
    (evk1 : R_Q_square (2 * Q0) N) (evk2 : R_Q_square (2 * Q1) N) (evk3 : R_Q_square (2 * Q2) N) (p : R_Q_square Q3 N) :
    eval_poly_deg7 LOGDELTA u ct evk1 evk2 evk3 ≠ pure p := by
  intro h
  unfold eval_poly_deg7 at h
  obtain ⟨_, _, h⟩ := bind_eq_pure h
  obtain ⟨_, _, h⟩ := bind_eq_pure h
  obtain ⟨_, _, h⟩ := bind_eq_pure h
  obtain ⟨_, _, h⟩ := bind_eq_pure h
  obtain ⟨_, _, h⟩ := bind_eq_pure h
  rw [sq_print_assert _ hN hprint] at h
  exact absurd (congrArg ExceptT.run h) (by intro hh; cases hh)

theorem Ok.bind_eq {α β : Type} {x : M α} {f : α → M β} {y : M β} {P : α → Prop} (h : Ok x P) (hf : ∀ a, P a → f a = y) : (x >>= f) = y := by
  obtain ⟨a, rfl, ha⟩ := h
  rw [pure_bind]
  exact hf a ha

/-- C37: where everything before the printing succeeds, `eval_poly_deg7` fails that assertion. -/
theorem C37_deg7_assert (LOGDELTA : Nat) (hD : LOGDELTA < 64) (hn : n ≤ 16)
    (hQ0 : GoodQ Q0) (hQ1 : GoodQ Q1) (hprint : 1300 < Q2)
    (h64 : 64 ≤ Q0) (hL0 : Q0 = Q1 + LOGDELTA) (hL1 : Q1 = Q2 + LOGDELTA)
    (s : Fin (2^(n+1)) → Int) (hs : ∀ k, s k = -1 ∨ s k = 0 ∨ s k = 1)
    (u : Fin 8 → ℝ)
    (hu1 : ∀ i, -1 < u i * 2^LOGDELTA) (hu2 : ∀ i, u i * 2^LOGDELTA < 2^64) (U : ℝ) (hU : ∑ i, |u i| ≤ U)
    (ct : R_Q_square Q0 (2^(n+1))) (hct : ct.Canonical) (m0 : R_Q Q0 (2^(n+1))) (hm0 : dec ct s = pure m0)
    (x : Fin (2^n) → ℝ) (hx : ∀ i, |x i| ≤ 1) (ε : ℝ)
    (hε : ∀ i, ‖slots n (fun k => (m0 k).sval) i - 2^LOGDELTA * (x i : ℂ)‖ ≤ ε)
    (evk1 : R_Q_square (2 * Q0) (2^(n+1))) (evk2 : R_Q_square (2 * Q1) (2^(n+1))) (evk3 : R_Q_square (2 * Q2) (2^(n+1)))
    (hev1 : EvkFrom s evk1) (hev2 : EvkFrom s evk2) :
    eval_poly_deg7 (Q3 := Q3) LOGDELTA u ct evk1 evk2 evk3 = throw Fault.assertFail := by
  have hs' : Ternary s := hs
  have hT1 := near_start hn hs' hct hm0 hε
  have hU' : ∑ i ∈ range 8, |arr u i| ≤ U := by rw [arr_sum]; exact hU
  unfold eval_poly_deg7
  refine Ok.bind_eq (constsU h64 hD hu1 hu2) fun L0 hL0n => ?_
  refine Ok.bind_eq (polyL1_spec hQ0.one hn hL0 hs' (by norm_num) hx hT1 hL0n (arr_le hU)) fun L1 hL1n => ?_
  have hT1' : Near s ct (fun i => 2^LOGDELTA * chebT (2^0) (x i)) (tErr n (weight s) (2^LOGDELTA) ε 0) :=
    hT1.mono (fun i => by rw [pow_zero, chebT_one]) (le_of_eq rfl)
  refine Ok.bind_eq (polyT_spec hQ0.one hQ0.two hn hD hL0 hs' (hev1.isEvk hn hs') hx 0 hT1') fun T1 hT2 => ?_
  refine Ok.bind_eq (polyL_spec hQ1.one hQ1.two hn hD hL1 hs' (hev2.isEvk hn hs') hx 0 1 hT2 hL1n hU') fun L2 hL2n => ?_
  refine Ok.bind_eq (polyT_spec hQ1.one hQ1.two hn hD hL1 hs' (hev2.isEvk hn hs') hx 1 hT2) fun T2 hT3 => ?_
  rw [sq_print_assert _ (by positivity) hprint]
  rfl

/-- C37: `eval_poly_deg15` on a ciphertext of `2^LOGDELTA * x` with `x` in `[-1,1]`, with the leaves that
`convert_frc_tou` computes from `c`, decrypts to `2^LOGDELTA * sum_i c_i T_i(x)` up to `lErr`. -/
theorem C37_deg15 (LOGDELTA : Nat) (hD : LOGDELTA < 64) (hn1 : 1 ≤ n) (hn : n ≤ 16)
    (hQ0 : GoodQ Q0) (hQ1 : GoodQ Q1) (hQ2 : GoodQ Q2) (hQ3 : GoodQ Q3)
    (h64 : 64 ≤ Q0) (hL0 : Q0 = Q1 + LOGDELTA) (hL1 : Q1 = Q2 + LOGDELTA) (hL2 : Q2 = Q3 + LOGDELTA) (hL3 : Q3 = Q4 + LOGDELTA)
    (s : Fin (2^(n+1)) → Int) (hs : ∀ k, s k = -1 ∨ s k = 0 ∨ s k = 1)
    (c u0 u : Fin 16 → ℝ) (hu : convert_frc_tou 16 16 c 0 u0 = pure u)
    (hu1 : ∀ i, -1 < u i * 2^LOGDELTA) (hu2 : ∀ i, u i * 2^LOGDELTA < 2^64) (U : ℝ) (hU : ∑ i, |u i| ≤ U)
    (ct : R_Q_square Q0 (2^(n+1))) (hct : ct.Canonical) (m0 : R_Q Q0 (2^(n+1))) (hm0 : dec ct s = pure m0)
    (x : Fin (2^n) → ℝ) (hx : ∀ i, |x i| ≤ 1) (ε : ℝ)
    (hε : ∀ i, ‖slots n (fun k => (m0 k).sval) i - 2^LOGDELTA * (x i : ℂ)‖ ≤ ε)
    (evk1 : R_Q_square (2 * Q0) (2^(n+1))) (evk2 : R_Q_square (2 * Q1) (2^(n+1))) (evk3 : R_Q_square (2 * Q2) (2^(n+1))) (evk4 : R_Q_square (2 * Q3) (2^(n+1)))
    (hev1 : EvkFrom s evk1) (hev2 : EvkFrom s evk2) (hev3 : EvkFrom s evk3) (hev4 : EvkFrom s evk4)
    (hw : 2^LOGDELTA * U + lErr n (univ.filter fun k => s k ≠ 0).card (2^LOGDELTA) ε U 3 < 2^(Q4-1)) :
    Ok (do
      let p ← eval_poly_deg15 (Q4 := Q4) LOGDELTA u ct evk1 evk2 evk3 evk4
      dec p s) fun m => ∀ i, ‖slots n (fun k => (m k).sval) i -
        2^LOGDELTA * ∑ t : Fin 16, (c t : ℂ) * (Polynomial.Chebyshev.T ℂ (t.val : ℤ)).eval (x i : ℂ)‖ ≤
          lErr n (univ.filter fun k => s k ≠ 0).card (2^LOGDELTA) ε U 3 := by
  have hs' : Ternary s := hs
  have hT1 := near_start hn hs' hct hm0 hε
  have hU' : ∑ i ∈ range 16, |arr u i| ≤ U := by rw [arr_sum]; exact hU
  unfold eval_poly_deg15
  simp only [bind_assoc]
  refine Ok.bind (constsU h64 hD hu1 hu2) fun L0 hL0n => ?_
  refine Ok.bind (polyL1_spec hQ0.one hn hL0 hs' (by norm_num) hx hT1 hL0n (arr_le hU)) fun L1 hL1n => ?_
  have hT1' : Near s ct (fun i => 2^LOGDELTA * chebT (2^0) (x i)) (tErr n (weight s) (2^LOGDELTA) ε 0) :=
    hT1.mono (fun i => by rw [pow_zero, chebT_one]) (le_of_eq rfl)
  refine Ok.bind (polyT_spec hQ0.one hQ0.two hn hD hL0 hs' (hev1.isEvk hn hs') hx 0 hT1') fun T1 hT2 => ?_
  refine Ok.bind (polyL_spec hQ1.one hQ1.two hn hD hL1 hs' (hev2.isEvk hn hs') hx 0 2 hT2 hL1n hU') fun L2 hL2n => ?_
  refine Ok.bind (polyT_spec hQ1.one hQ1.two hn hD hL1 hs' (hev2.isEvk hn hs') hx 1 hT2) fun T2 hT3 => ?_
  refine Ok.bind (polyL_spec hQ2.one hQ2.two hn hD hL2 hs' (hev3.isEvk hn hs') hx 1 1 hT3 hL2n hU') fun L3 hL3n => ?_
  refine Ok.bind (polyT_spec hQ2.one hQ2.two hn hD hL2 hs' (hev3.isEvk hn hs') hx 2 hT3) fun T3 hT4 => ?_
  refine Ok.bind (polyLast_spec hQ3.one hQ3.two hn hD hL3 hs' (hev4.isEvk hn hs') hx 2 hT4 hL3n hU') fun p hp => ?_
  exact near_finish hn1 hn hs' hx (k := 4) (by norm_num) hu hU' hp hw

/-- C37: `eval_poly_deg31` on a ciphertext of `2^LOGDELTA * x` with `x` in `[-1,1]`, with the leaves that
`convert_frc_tou` computes from `c`, decrypts to `2^LOGDELTA * sum_i c_i T_i(x)` up to `lErr`. -/
theorem C37_deg31 (LOGDELTA : Nat) (hD : LOGDELTA < 64) (hn1 : 1 ≤ n) (hn : n ≤ 16)
    (hQ0 : GoodQ Q0) (hQ1 : GoodQ Q1) (hQ2 : GoodQ Q2) (hQ3 : GoodQ Q3) (hQ4 : GoodQ Q4)
    (h64 : 64 ≤ Q0) (hL0 : Q0 = Q1 + LOGDELTA) (hL1 : Q1 = Q2 + LOGDELTA) (hL2 : Q2 = Q3 + LOGDELTA) (hL3 : Q3 = Q4 + LOGDELTA) (hL4 : Q4 = Q5 + LOGDELTA)
    (s : Fin (2^(n+1)) → Int) (hs : ∀ k, s k = -1 ∨ s k = 0 ∨ s k = 1)
    (c u0 u : Fin 32 → ℝ) (hu : convert_frc_tou 32 32 c 0 u0 = pure u)
    (hu2 : ∀ i, |u i| * 2^LOGDELTA < 2^64) (U : ℝ) (hU : ∑ i, |u i| ≤ U)
    (ct : R_Q_square Q0 (2^(n+1))) (hct : ct.Canonical) (m0 : R_Q Q0 (2^(n+1))) (hm0 : dec ct s = pure m0)
    (x : Fin (2^n) → ℝ) (hx : ∀ i, |x i| ≤ 1) (ε : ℝ)
    (hε : ∀ i, ‖slots n (fun k => (m0 k).sval) i - 2^LOGDELTA * (x i : ℂ)‖ ≤ ε)
    (evk1 : R_Q_square (2 * Q0) (2^(n+1))) (evk2 : R_Q_square (2 * Q1) (2^(n+1))) (evk3 : R_Q_square (2 * Q2) (2^(n+1))) (evk4 : R_Q_square (2 * Q3) (2^(n+1))) (evk5 : R_Q_square (2 * Q4) (2^(n+1)))
    (hev1 : EvkFrom s evk1) (hev2 : EvkFrom s evk2) (hev3 : EvkFrom s evk3) (hev4 : EvkFrom s evk4) (hev5 : EvkFrom s evk5)
    (hw : 2^LOGDELTA * U + lErr n (univ.filter fun k => s k ≠ 0).card (2^LOGDELTA) ε U 4 < 2^(Q5-1)) :
    Ok (do
      let p ← eval_poly_deg31 (Q5 := Q5) LOGDELTA u ct evk1 evk2 evk3 evk4 evk5
      dec p s) fun m => ∀ i, ‖slots n (fun k => (m k).sval) i -
        2^LOGDELTA * ∑ t : Fin 32, (c t : ℂ) * (Polynomial.Chebyshev.T ℂ (t.val : ℤ)).eval (x i : ℂ)‖ ≤
          lErr n (univ.filter fun k => s k ≠ 0).card (2^LOGDELTA) ε U 4 := by
  have hs' : Ternary s := hs
  have hT1 := near_start hn hs' hct hm0 hε
  have hU' : ∑ i ∈ range 32, |arr u i| ≤ U := by rw [arr_sum]; exact hU
  unfold eval_poly_deg31
  simp only [bind_assoc]
  refine Ok.bind (constsS h64 hD hu2) fun L0 hL0n => ?_
  refine Ok.bind (polyL1_spec hQ0.one hn hL0 hs' (by norm_num) hx hT1 hL0n (arr_le hU)) fun L1 hL1n => ?_
  have hT1' : Near s ct (fun i => 2^LOGDELTA * chebT (2^0) (x i)) (tErr n (weight s) (2^LOGDELTA) ε 0) :=
    hT1.mono (fun i => by rw [pow_zero, chebT_one]) (le_of_eq rfl)
  refine Ok.bind (polyT_spec hQ0.one hQ0.two hn hD hL0 hs' (hev1.isEvk hn hs') hx 0 hT1') fun T1 hT2 => ?_
  refine Ok.bind (polyL_spec hQ1.one hQ1.two hn hD hL1 hs' (hev2.isEvk hn hs') hx 0 3 hT2 hL1n hU') fun L2 hL2n => ?_
  refine Ok.bind (polyT_spec hQ1.one hQ1.two hn hD hL1 hs' (hev2.isEvk hn hs') hx 1 hT2) fun T2 hT3 => ?_
  refine Ok.bind (polyL_spec hQ2.one hQ2.two hn hD hL2 hs' (hev3.isEvk hn hs') hx 1 2 hT3 hL2n hU') fun L3 hL3n => ?_
  refine Ok.bind (polyT_spec hQ2.one hQ2.two hn hD hL2 hs' (hev3.isEvk hn hs') hx 2 hT3) fun T3 hT4 => ?_
  refine Ok.bind (polyL_spec hQ3.one hQ3.two hn hD hL3 hs' (hev4.isEvk hn hs') hx 2 1 hT4 hL3n hU') fun L4 hL4n => ?_
  refine Ok.bind (polyT_spec hQ3.one hQ3.two hn hD hL3 hs' (hev4.isEvk hn hs') hx 3 hT4) fun T4 hT5 => ?_
  refine Ok.bind (polyLast_spec hQ4.one hQ4.two hn hD hL4 hs' (hev5.isEvk hn hs') hx 3 hT5 hL4n hU') fun p hp => ?_
  exact near_finish hn1 hn hs' hx (k := 5) (by norm_num) hu hU' hp hw

/-- C37: `eval_poly_deg63` on a ciphertext of `2^LOGDELTA * x` with `x` in `[-1,1]`, with the leaves that
`convert_frc_tou` computes from `c`, decrypts to `2^LOGDELTA * sum_i c_i T_i(x)` up to `lErr`. -/
theorem C37_deg63 (LOGDELTA : Nat) (hD : LOGDELTA < 64) (hn1 : 1 ≤ n) (hn : n ≤ 16)
    (hQ0 : GoodQ Q0) (hQ1 : GoodQ Q1) (hQ2 : GoodQ Q2) (hQ3 : GoodQ Q3) (hQ4 : GoodQ Q4) (hQ5 : GoodQ Q5)
    (h64 : 64 ≤ Q0) (hL0 : Q0 = Q1 + LOGDELTA) (hL1 : Q1 = Q2 + LOGDELTA) (hL2 : Q2 = Q3 + LOGDELTA) (hL3 : Q3 = Q4 + LOGDELTA) (hL4 : Q4 = Q5 + LOGDELTA) (hL5 : Q5 = Q6 + LOGDELTA)
    (s : Fin (2^(n+1)) → Int) (hs : ∀ k, s k = -1 ∨ s k = 0 ∨ s k = 1)
    (c u0 u : Fin 64 → ℝ) (hu : convert_frc_tou 64 64 c 0 u0 = pure u)
    (hu2 : ∀ i, |u i| * 2^LOGDELTA < 2^64) (U : ℝ) (hU : ∑ i, |u i| ≤ U)
    (ct : R_Q_square Q0 (2^(n+1))) (hct : ct.Canonical) (m0 : R_Q Q0 (2^(n+1))) (hm0 : dec ct s = pure m0)
    (x : Fin (2^n) → ℝ) (hx : ∀ i, |x i| ≤ 1) (ε : ℝ)
    (hε : ∀ i, ‖slots n (fun k => (m0 k).sval) i - 2^LOGDELTA * (x i : ℂ)‖ ≤ ε)
    (evk1 : R_Q_square (2 * Q0) (2^(n+1))) (evk2 : R_Q_square (2 * Q1) (2^(n+1))) (evk3 : R_Q_square (2 * Q2) (2^(n+1))) (evk4 : R_Q_square (2 * Q3) (2^(n+1))) (evk5 : R_Q_square (2 * Q4) (2^(n+1))) (evk6 : R_Q_square (2 * Q5) (2^(n+1)))
    (hev1 : EvkFrom s evk1) (hev2 : EvkFrom s evk2) (hev3 : EvkFrom s evk3) (hev4 : EvkFrom s evk4) (hev5 : EvkFrom s evk5) (hev6 : EvkFrom s evk6)
    (hw : 2^LOGDELTA * U + lErr n (univ.filter fun k => s k ≠ 0).card (2^LOGDELTA) ε U 5 < 2^(Q6-1)) :
    Ok (do
      let p ← eval_poly_deg63 (Q6 := Q6) LOGDELTA u ct evk1 evk2 evk3 evk4 evk5 evk6
      dec p s) fun m => ∀ i, ‖slots n (fun k => (m k).sval) i -
        2^LOGDELTA * ∑ t : Fin 64, (c t : ℂ) * (Polynomial.Chebyshev.T ℂ (t.val : ℤ)).eval (x i : ℂ)‖ ≤
          lErr n (univ.filter fun k => s k ≠ 0).card (2^LOGDELTA) ε U 5 := by
  have hs' : Ternary s := hs
  have hT1 := near_start hn hs' hct hm0 hε
  have hU' : ∑ i ∈ range 64, |arr u i| ≤ U := by rw [arr_sum]; exact hU
  unfold eval_poly_deg63
  simp only [bind_assoc]
  refine Ok.bind (constsS h64 hD hu2) fun L0 hL0n => ?_
  refine Ok.bind (polyL1_spec hQ0.one hn hL0 hs' (by norm_num) hx hT1 hL0n (arr_le hU)) fun L1 hL1n => ?_
  have hT1' : Near s ct (fun i => 2^LOGDELTA * chebT (2^0) (x i)) (tErr n (weight s) (2^LOGDELTA) ε 0) :=
    hT1.mono (fun i => by rw [pow_zero, chebT_one]) (le_of_eq rfl)
  refine Ok.bind (polyT_spec hQ0.one hQ0.two hn hD hL0 hs' (hev1.isEvk hn hs') hx 0 hT1') fun T1 hT2 => ?_
  refine Ok.bind (polyL_spec hQ1.one hQ1.two hn hD hL1 hs' (hev2.isEvk hn hs') hx 0 4 hT2 hL1n hU') fun L2 hL2n => ?_
  refine Ok.bind (polyT_spec hQ1.one hQ1.two hn hD hL1 hs' (hev2.isEvk hn hs') hx 1 hT2) fun T2 hT3 => ?_
  refine Ok.bind (polyL_spec hQ2.one hQ2.two hn hD hL2 hs' (hev3.isEvk hn hs') hx 1 3 hT3 hL2n hU') fun L3 hL3n => ?_
  refine Ok.bind (polyT_spec hQ2.one hQ2.two hn hD hL2 hs' (hev3.isEvk hn hs') hx 2 hT3) fun T3 hT4 => ?_
  refine Ok.bind (polyL_spec hQ3.one hQ3.two hn hD hL3 hs' (hev4.isEvk hn hs') hx 2 2 hT4 hL3n hU') fun L4 hL4n => ?_
  refine Ok.bind (polyT_spec hQ3.one hQ3.two hn hD hL3 hs' (hev4.isEvk hn hs') hx 3 hT4) fun T4 hT5 => ?_
  refine Ok.bind (polyL_spec hQ4.one hQ4.two hn hD hL4 hs' (hev5.isEvk hn hs') hx 3 1 hT5 hL4n hU') fun L5 hL5n => ?_
  refine Ok.bind (polyT_spec hQ4.one hQ4.two hn hD hL4 hs' (hev5.isEvk hn hs') hx 4 hT5) fun T5 hT6 => ?_
  refine Ok.bind (polyLast_spec hQ5.one hQ5.two hn hD hL5 hs' (hev6.isEvk hn hs') hx 4 hT6 hL5n hU') fun p hp => ?_
  exact near_finish hn1 hn hs' hx (k := 6) (by norm_num) hu hU' hp hw

/-- C37: `eval_poly_deg127` on a ciphertext of `2^LOGDELTA * x` with `x` in `[-1,1]`, with the leaves that
`convert_frc_tou` computes from `c`, decrypts to `2^LOGDELTA * sum_i c_i T_i(x)` up to `lErr`. -/
theorem C37_deg127 (LOGDELTA : Nat) (hD : LOGDELTA < 64) (hn1 : 1 ≤ n) (hn : n ≤ 16)
    (hQ0 : GoodQ Q0) (hQ1 : GoodQ Q1) (hQ2 : GoodQ Q2) (hQ3 : GoodQ Q3) (hQ4 : GoodQ Q4) (hQ5 : GoodQ Q5) (hQ6 : GoodQ Q6)
    (h64 : 64 ≤ Q0) (hL0 : Q0 = Q1 + LOGDELTA) (hL1 : Q1 = Q2 + LOGDELTA) (hL2 : Q2 = Q3 + LOGDELTA) (hL3 : Q3 = Q4 + LOGDELTA) (hL4 : Q4 = Q5 + LOGDELTA) (hL5 : Q5 = Q6 + LOGDELTA) (hL6 : Q6 = Q7 + LOGDELTA)
    (s : Fin (2^(n+1)) → Int) (hs : ∀ k, s k = -1 ∨ s k = 0 ∨ s k = 1)
    (c u0 u : Fin 128 → ℝ) (hu : convert_frc_tou 128 128 c 0 u0 = pure u)
    (hu2 : ∀ i, |u i| * 2^LOGDELTA < 2^64) (U : ℝ) (hU : ∑ i, |u i| ≤ U)
    (ct : R_Q_square Q0 (2^(n+1))) (hct : ct.Canonical) (m0 : R_Q Q0 (2^(n+1))) (hm0 : dec ct s = pure m0)
    (x : Fin (2^n) → ℝ) (hx : ∀ i, |x i| ≤ 1) (ε : ℝ)
    (hε : ∀ i, ‖slots n (fun k => (m0 k).sval) i - 2^LOGDELTA * (x i : ℂ)‖ ≤ ε)
    (evk1 : R_Q_square (2 * Q0) (2^(n+1))) (evk2 : R_Q_square (2 * Q1) (2^(n+1))) (evk3 : R_Q_square (2 * Q2) (2^(n+1))) (evk4 : R_Q_square (2 * Q3) (2^(n+1))) (evk5 : R_Q_square (2 * Q4) (2^(n+1))) (evk6 : R_Q_square (2 * Q5) (2^(n+1))) (evk7 : R_Q_square (2 * Q6) (2^(n+1)))
    (hev1 : EvkFrom s evk1) (hev2 : EvkFrom s evk2) (hev3 : EvkFrom s evk3) (hev4 : EvkFrom s evk4) (hev5 : EvkFrom s evk5) (hev6 : EvkFrom s evk6) (hev7 : EvkFrom s evk7)
    (hw : 2^LOGDELTA * U + lErr n (univ.filter fun k => s k ≠ 0).card (2^LOGDELTA) ε U 6 < 2^(Q7-1)) :
    Ok (do
      let p ← eval_poly_deg127 (Q7 := Q7) LOGDELTA u ct evk1 evk2 evk3 evk4 evk5 evk6 evk7
      dec p s) fun m => ∀ i, ‖slots n (fun k => (m k).sval) i -
        2^LOGDELTA * ∑ t : Fin 128, (c t : ℂ) * (Polynomial.Chebyshev.T ℂ (t.val : ℤ)).eval (x i : ℂ)‖ ≤
          lErr n (univ.filter fun k => s k ≠ 0).card (2^LOGDELTA) ε U 6 := by
  have hs' : Ternary s := hs
  have hT1 := near_start hn hs' hct hm0 hε
  have hU' : ∑ i ∈ range 128, |arr u i| ≤ U := by rw [arr_sum]; exact hU
  unfold eval_poly_deg127
  simp only [bind_assoc]
  refine Ok.bind (constsS h64 hD hu2) fun L0 hL0n => ?_
  refine Ok.bind (polyL1_spec hQ0.one hn hL0 hs' (by norm_num) hx hT1 hL0n (arr_le hU)) fun L1 hL1n => ?_
  have hT1' : Near s ct (fun i => 2^LOGDELTA * chebT (2^0) (x i)) (tErr n (weight s) (2^LOGDELTA) ε 0) :=
    hT1.mono (fun i => by rw [pow_zero, chebT_one]) (le_of_eq rfl)
  refine Ok.bind (polyT_spec hQ0.one hQ0.two hn hD hL0 hs' (hev1.isEvk hn hs') hx 0 hT1') fun T1 hT2 => ?_
  refine Ok.bind (polyL_spec hQ1.one hQ1.two hn hD hL1 hs' (hev2.isEvk hn hs') hx 0 5 hT2 hL1n hU') fun L2 hL2n => ?_
  refine Ok.bind (polyT_spec hQ1.one hQ1.two hn hD hL1 hs' (hev2.isEvk hn hs') hx 1 hT2) fun T2 hT3 => ?_
  refine Ok.bind (polyL_spec hQ2.one hQ2.two hn hD hL2 hs' (hev3.isEvk hn hs') hx 1 4 hT3 hL2n hU') fun L3 hL3n => ?_
  refine Ok.bind (polyT_spec hQ2.one hQ2.two hn hD hL2 hs' (hev3.isEvk hn hs') hx 2 hT3) fun T3 hT4 => ?_
  refine Ok.bind (polyL_spec hQ3.one hQ3.two hn hD hL3 hs' (hev4.isEvk hn hs') hx 2 3 hT4 hL3n hU') fun L4 hL4n => ?_
  refine Ok.bind (polyT_spec hQ3.one hQ3.two hn hD hL3 hs' (hev4.isEvk hn hs') hx 3 hT4) fun T4 hT5 => ?_
  refine Ok.bind (polyL_spec hQ4.one hQ4.two hn hD hL4 hs' (hev5.isEvk hn hs') hx 3 2 hT5 hL4n hU') fun L5 hL5n => ?_
  refine Ok.bind (polyT_spec hQ4.one hQ4.two hn hD hL4 hs' (hev5.isEvk hn hs') hx 4 hT5) fun T5 hT6 => ?_
  refine Ok.bind (polyL_spec hQ5.one hQ5.two hn hD hL5 hs' (hev6.isEvk hn hs') hx 4 1 hT6 hL5n hU') fun L6 hL6n => ?_
  refine Ok.bind (polyT_spec hQ5.one hQ5.two hn hD hL5 hs' (hev6.isEvk hn hs') hx 5 hT6) fun T6 hT7 => ?_
  refine Ok.bind (polyLast_spec hQ6.one hQ6.two hn hD hL6 hs' (hev7.isEvk hn hs') hx 5 hT7 hL6n hU') fun p hp => ?_
  exact near_finish hn1 hn hs' hx (k := 7) (by norm_num) hu hU' hp hw

/-! ### negative coefficients -/

theorem constsU_ub {Q N : Nat} [NeZero Q] (hN : 0 < N) {LD : Nat} (hD : LD < 64) {K : Nat} {u : Fin K → ℝ} (t : Fin K)
    (ht : u t * 2^LD ≤ -1 ∨ 2^64 ≤ u t * 2^LD) :
    tabM K (fun m => do
      let x ← rd u m
      polyConstU Q N LD m x) = ub := by
  obtain ⟨D, eD, hDv⟩ := shl1_ok hD
  have hDr : (D.toNat : ℝ) = 2^LD := by rw [hDv]; push_cast; rfl
  refine tabM_ub (fun i hi => ?_) t t.isLt ?_
  · rw [rd_of_lt u hi, pure_bind]
    unfold polyConstU
    rw [eD, pure_bind, hDr]
    unfold truncU64
    by_cases hc : -1 < u ⟨i, hi⟩ * 2^LD ∧ u ⟨i, hi⟩ * 2^LD < 2^64
    · rw [if_pos hc, pure_bind]
      simp only []
      rw [wr_of_lt _ hN]
      exact Or.inl ⟨_, rfl⟩
    · rw [if_neg hc]
      exact Or.inr rfl
  · rw [rd_of_lt u t.isLt, pure_bind]
    unfold polyConstU
    rw [eD, pure_bind, hDr]
    unfold truncU64
    rw [if_neg]
    · rfl
    · show ¬ (-1 < u t * 2^LD ∧ u t * 2^LD < 2^64)
      rintro ⟨h1, h2⟩
      rcases ht with h | h <;> linarith

/-- C37: the degrees 3, 7 and 15 convert each leaf to an unsigned word without looking at its sign: with
a leaf of `-1/2^LOGDELTA` or less the conversion is undefined. -/
theorem C37_negative_deg3 {N : Nat} (hN : 0 < N) (LOGDELTA : Nat) (hD : LOGDELTA < 64) (u : Fin 4 → ℝ) (t : Fin 4)
    (ht : u t * 2^LOGDELTA ≤ -1) (ct : R_Q_square Q0 N) (evk1 : R_Q_square (2 * Q0) N) (evk2 : R_Q_square (2 * Q1) N) :
    eval_poly_deg3 (Q2 := Q2) LOGDELTA u ct evk1 evk2 = ub := by
  unfold eval_poly_deg3
  rw [constsU_ub hN hD t (Or.inl ht), ub_bind]

/-- C37: the same for degree 7. -/
theorem C37_negative_deg7 {N : Nat} (hN : 0 < N) (LOGDELTA : Nat) (hD : LOGDELTA < 64) (u : Fin 8 → ℝ) (t : Fin 8)
    (ht : u t * 2^LOGDELTA ≤ -1) (ct : R_Q_square Q0 N) (evk1 : R_Q_square (2 * Q0) N) (evk2 : R_Q_square (2 * Q1) N)
    (evk3 : R_Q_square (2 * Q2) N) : eval_poly_deg7 (Q3 := Q3) LOGDELTA u ct evk1 evk2 evk3 = ub := by
  unfold eval_poly_deg7
  rw [constsU_ub hN hD t (Or.inl ht), ub_bind]

/-- C37: the same for degree 15. -/
theorem C37_negative_deg15 {N : Nat} (hN : 0 < N) (LOGDELTA : Nat) (hD : LOGDELTA < 64) (u : Fin 16 → ℝ) (t : Fin 16)
    (ht : u t * 2^LOGDELTA ≤ -1) (ct : R_Q_square Q0 N) (evk1 : R_Q_square (2 * Q0) N) (evk2 : R_Q_square (2 * Q1) N)
    (evk3 : R_Q_square (2 * Q2) N) (evk4 : R_Q_square (2 * Q3) N) :
    eval_poly_deg15 (Q4 := Q4) LOGDELTA u ct evk1 evk2 evk3 evk4 = ub := by
  unfold eval_poly_deg15
  rw [constsU_ub hN hD t (Or.inl ht), ub_bind]

end

/-! ### a case that meets the hypotheses -/

/-- the key `1 - X` -/
def exKey : Fin (2^(1+1)) → Int := ![1, -1, 0, 0]

theorem exKey_tern : ∀ k, exKey k = -1 ∨ exKey k = 0 ∨ exKey k = 1 := by decide

/-- the constant `2^29` with a zero mask: the slots are `2^30 * (1/2)` -/
def exCt : R_Q_square 130 (2^(1+1)) := (Function.update R_Q.setzero 0 (ofW (BitVec.ofNat 64 (2^29))), R_Q.setzero)

theorem exCt_canonical : exCt.Canonical := by
  refine ⟨fun k => ?_, fun k => canonical_setzero⟩
  unfold exCt
  simp only [Function.update_apply]
  split_ifs
  · exact ofW_canonical (by norm_num) _
  · exact canonical_setzero

theorem exCt_dec : ∃ m0, dec exCt exKey = pure m0 ∧ ∀ i, slots 1 (fun k => (m0 k).sval) i = 2^30 * (((1/2 : ℝ)) : ℂ) := by
  obtain ⟨m0, h, _, hc⟩ := dec_spec (by norm_num) exKey_tern exCt
  refine ⟨m0, h, fun i => ?_⟩
  have e : (fun k => (m0 k).sval) = Pi.single 0 (2^29) := by
    funext k
    refine sval_eq_of_cls ?_ ?_ ?_
    · have h1 := congrFun hc k
      rw [phase_eq] at h1
      have h2 : R_Q.cls exCt.2 = 0 := R_Q.cls_setzero
      have h3 : negconv (red 130 exKey) (0 : Fin (2^(1+1)) → ZMod (2^130)) = 0 := by
        have := negconv_add (red 130 exKey) 0 0
        rw [add_zero] at this
        exact left_eq_add.1 this
      rw [h2, h3, add_zero] at h1
      refine Eq.trans h1 ?_
      unfold exCt
      simp only [R_Q.cls, Function.update_apply]
      by_cases hk : k = 0
      · subst hk
        rw [if_pos rfl, cls_ofW, Pi.single_eq_same]
        rfl
      · rw [if_neg hk, Pi.single_eq_of_ne hk]
        simp [R_Q.setzero, cls_setzero]
    · by_cases hk : k = 0
      · subst hk; rw [Pi.single_eq_same]; norm_num
      · rw [Pi.single_eq_of_ne hk]; norm_num
    · by_cases hk : k = 0
      · subst hk; rw [Pi.single_eq_same]; norm_num
      · rw [Pi.single_eq_of_ne hk]; norm_num
  rw [e, slots_single]
  push_cast
  norm_num

/-- moduli and a scale for which the printing fails -/
example : GoodQ 1450 ∧ GoodQ 1400 ∧ 1300 < 1350 ∧ 64 ≤ 1450 ∧ 1450 = 1400 + 50 ∧ 1400 = 1350 + 50 := by unfold GoodQ; omega

/-- degree 3 with `c = (1,5,3,4)` at `x = 1/2`, scale `2^30`, moduli `2^130`, `2^100`, `2^70` -/
example : ∃ (evk1 : R_Q_square (2 * 130) (2^(1+1))) (evk2 : R_Q_square (2 * 100) (2^(1+1))),
    Ok (do
      let p ← eval_poly_deg3 (Q2 := 70) 30 ![1,1,3,8] exCt evk1 evk2
      dec p exKey) fun m => ∀ i, ‖slots 1 (fun k => (m k).sval) i -
        2^30 * ∑ t : Fin 4, ((![1,5,3,4] : Fin 4 → ℝ) t : ℂ) * (Polynomial.Chebyshev.T ℂ (t.val : ℤ)).eval ((1/2 : ℝ) : ℂ)‖ ≤
          lErr 1 2 (2^30) 0 13 1 := by
  obtain ⟨evk1, h1⟩ := EvkFrom.exists (LOGQ := 130) (n := 1) (by norm_num) exKey_tern
  obtain ⟨evk2, h2⟩ := EvkFrom.exists (LOGQ := 100) (n := 1) (by norm_num) exKey_tern
  obtain ⟨m0, hm0, hsl⟩ := exCt_dec
  have hcard : (univ.filter fun k => exKey k ≠ 0).card = 2 := by decide
  refine ⟨evk1, evk2, ?_⟩
  have key := C37_deg3 (Q2 := 70) 30 (by norm_num) (le_refl 1) (by norm_num) (by unfold GoodQ; omega)
    (by unfold GoodQ; omega) (by norm_num) (by norm_num) (by norm_num) exKey exKey_tern ![1,5,3,4] (fun _ => 0)
    ![1,1,3,8] (convert_example _) (by intro i; fin_cases i <;> norm_num) (by intro i; fin_cases i <;> norm_num)
    13 (by
      rw [Fin.sum_univ_four]
      show |(1:ℝ)| + |1| + |3| + |8| ≤ 13
      rw [abs_one, abs_of_pos (by norm_num : (0:ℝ) < 3), abs_of_pos (by norm_num : (0:ℝ) < 8)]; norm_num) exCt exCt_canonical m0 hm0 (fun _ => 1/2)
    (by intro i; rw [abs_of_pos] <;> norm_num) 0 (fun i => by rw [hsl i]; simp) evk1 evk2 h1 h2
    (by rw [hcard]; simp only [lErr, tErr, mulErr, rsErr]; norm_num)
  rw [hcard] at key
  exact key

example : (![0, -1, 0, 0] : Fin 4 → ℝ) 1 * 2^30 ≤ -1 := by norm_num

end EvalRound

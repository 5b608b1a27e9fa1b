import Verif.Props.FloatMeasure
import Verif.Props.Safe

/-! # The checks of end_to_end_test when the raised message leaves the range of EvalMod -/

namespace EvalRound
open Z_Q Finset

variable {n : Nat}

/-- What is decoded from a ciphertext of at most `q` bits is at most `2^q`. -/
theorem decode_size_of {L : Libm} (hL : L.Accurate) {Q q : Nat} [NeZero Q] (h1 : 1 ≤ n) (h2 : n ≤ 16) (hq : 50 ≤ q) (hq' : q ≤ 900) (hQ : Q ≤ q)
    (mo : R_Q Q (2^(n+1))) (hmo : mo.Canonical) : Ok (decode_logF L mo 50) fun z => ∀ i : Fin (2^n), ‖(⟨z.1 i, z.2 i⟩ : ℂ)‖ ≤ 2^q := by
  obtain ⟨p, rfl⟩ : ∃ p, q = p + 50 := ⟨q - 50, by omega⟩
  have hsv : ∀ k, |((mo k).sval : ℝ)| ≤ 2^p * 2^50 := fun k => by
    have h3 : |((mo k).sval : ℝ)| ≤ 2^(Q-1) := by exact_mod_cast abs_sval_le (mo k)
    rw [← pow_add]
    exact h3.trans (pow_le_pow_right₀ (by norm_num) (by omega))
  have hsl : ∀ i : Fin (2^n), ‖slotOf (fun k => ((mo k).sval : ℝ) / 2^50) i‖ ≤ 2^17 * 2^p := fun i => by
    refine (norm_slotOf_le (ε := 2^p) (fun k => ?_) i).trans ?_
    · rw [abs_div, abs_of_pos (show (0:ℝ) < 2^50 by positivity), div_le_iff₀ (by positivity)]
      exact hsv k
    · refine mul_le_mul_of_nonneg_right ?_ (by positivity)
      push_cast
      exact pow_le_pow_right₀ (by norm_num) (by omega)
  refine Ok.mono (C73_decode hL (LOGN := n+1) (by omega) (by omega) (by omega) 50 (by norm_num) mo hmo fun k => (hsv k).trans
    (mul_le_mul_of_nonneg_right (pow_le_pow_right₀ (by norm_num) (by omega)) (by positivity))) fun z hz i => ?_
  have e1 : l2 (fun i : Fin (2^n) => slotOf (fun k => ((mo k).sval : ℝ) / 2^50) i) ≤ Real.sqrt 2 ^ n * (2^17 * 2^p) := l2_sup hsl
  have e2 : ‖(⟨z.1 i, z.2 i⟩ : ℂ) - slotOf (fun k => ((mo k).sval : ℝ) / 2^50) i‖ ≤
      l2 (fun i : Fin (2^n) => (⟨z.1 i, z.2 i⟩ : ℂ) - slotOf (fun k => ((mo k).sval : ℝ) / 2^50) i) :=
    le_l2 (fun i : Fin (2^n) => (⟨z.1 i, z.2 i⟩ : ℂ) - slotOf (fun k => ((mo k).sval : ℝ) / 2^50) i) i
  have e3 : l2 (fun i : Fin (2^n) => (⟨z.1 i, z.2 i⟩ : ℂ) - slotOf (fun k => ((mo k).sval : ℝ) / 2^50) i) ≤
      (28 * (((n+1 : ℕ) : ℝ) - 1) + 8) / 2^53 * l2 (fun i : Fin (2^n) => slotOf (fun k => ((mo k).sval : ℝ) / 2^50) i) + 1/2^900 := hz
  have e4 := norm_le_norm_sub_add (⟨z.1 i, z.2 i⟩ : ℂ) (slotOf (fun k => ((mo k).sval : ℝ) / 2^50) i)
  have e5 : Real.sqrt 2 ^ n ≤ 2^16 := by
    calc Real.sqrt 2 ^ n ≤ Real.sqrt 2 ^ 16 := pow_le_pow_right₀ (by rw [Real.one_le_sqrt]; norm_num) h2
      _ ≤ 2^16 := pow_le_pow_left₀ (Real.sqrt_nonneg _) (by rw [Real.sqrt_le_left (by norm_num)]; norm_num) 16
  have e6 : (28 * (((n+1 : ℕ) : ℝ) - 1) + 8) / 2^53 ≤ 1 := by
    have : (n:ℝ) ≤ 16 := by exact_mod_cast h2
    rw [div_le_one (by positivity)]
    push_cast
    norm_num
    linarith
  have e7 := hsl i
  have e8 : (28 * (((n+1 : ℕ) : ℝ) - 1) + 8) / 2^53 * l2 (fun i : Fin (2^n) => slotOf (fun k => ((mo k).sval : ℝ) / 2^50) i) ≤
      1 * (2^16 * (2^17 * 2^p)) := by
    refine mul_le_mul e6 (e1.trans (mul_le_mul_of_nonneg_right e5 (by positivity))) (l2_nonneg _) (by norm_num)
  have e9 : (1:ℝ)/2^900 ≤ 2^p := (div_le_self (by norm_num) (one_le_pow₀ (by norm_num))).trans (one_le_pow₀ (by norm_num))
  refine e4.trans ((add_le_add (e2.trans (e3.trans (add_le_add e8 e9))) e7).trans ?_)
  rw [pow_add]
  have hX : (0:ℝ) ≤ 2^p := by positivity
  clear e1 e2 e3 e4 e7 e8 e9 hz hsl hsv
  generalize (2:ℝ)^p = X at *
  norm_num
  linarith

/-- one of the two messages of a check, when all that is known of them is a bound -/
theorem sup_sub_big {H : Nat} {z x : (Fin H → ℝ) × (Fin H → ℝ)} (h : ∀ i, ‖(⟨z.1 i, z.2 i⟩ : ℂ)‖ ≤ 2^490) (h' : ∀ i, ‖(⟨x.1 i, x.2 i⟩ : ℂ)‖ ≤ 2^490) :
    ∃ e a, MsgF.sub z x = pure e ∧ MsgF.sup_norm e = pure a := by
  have hd : ∀ i, ‖(⟨z.1 i, z.2 i⟩ : ℂ) - ⟨x.1 i, x.2 i⟩‖ ≤ 2 * 2^490 := fun i => by
    have := norm_sub_le (⟨z.1 i, z.2 i⟩ : ℂ) ⟨x.1 i, x.2 i⟩
    linarith [h i, h' i]
  have p1 : (2:ℝ) * 2^490 ≤ 2^1000 := by rw [← pow_succ']; exact pow_le_pow_right₀ (by norm_num) (by norm_num)
  obtain ⟨e, ee, he⟩ := C84_sub z x fun i => (hd i).trans p1
  have p2 : (1:ℝ)/2^1074 ≤ 2^490 := (div_le_self (by norm_num) (one_le_pow₀ (by norm_num))).trans (one_le_pow₀ (by norm_num))
  have p3 : (2:ℝ)^500 = 2^10 * 2^490 := by rw [← pow_add]
  have hX : (0:ℝ) ≤ 2^490 := by positivity
  obtain ⟨a, ea, -⟩ := C84_sup_norm e fun i => by
    have a1 := he i
    have a2 := hd i
    have a3 := norm_le_norm_sub_add (⟨e.1 i, e.2 i⟩ : ℂ) (⟨z.1 i, z.2 i⟩ - ⟨x.1 i, x.2 i⟩)
    rw [p3]
    generalize ‖(⟨z.1 i, z.2 i⟩ : ℂ) - ⟨x.1 i, x.2 i⟩‖ = w at *
    generalize ‖(⟨e.1 i, e.2 i⟩ : ℂ) - (⟨z.1 i, z.2 i⟩ - ⟨x.1 i, x.2 i⟩)‖ = v at *
    clear p1 p3 h h' hd he
    generalize (2:ℝ)^490 = X at *
    generalize (1:ℝ)/2^1074 = η at *
    norm_num at *
    linarith
  exact ⟨e, a, ee, ea⟩

/-- A check returns on every pair of ciphertexts of at most 490 bits. -/
theorem check_safeF {L : Libm} (hL : L.Accurate) {Q : Nat} [NeZero Q] (hn1 : 1 ≤ n) (hn : n ≤ 16) (hQ : Q ≤ 490)
    {s : Fin (2^(n+1)) → Int} (hs : Ternary s) (c0 c1 : R_Q_square Q (2^(n+1))) {g : Fin (2^(n+1)) → ℝ} {f : Nat → M ℝ} (hg : ∀ k, |g k| ≤ 2^65)
    (hf : ∀ k : Fin (2^(n+1)), Ok (f k) fun v => |v - g k| ≤ 2^14) :
    ∃ (z0 z1 x0 x1 : CVec (n+1)) (r : ℝ), decMessageF (LOGN := n+1) L 50 c0 s = pure z0 ∧ decMessageF (LOGN := n+1) L 50 c1 s = pure z1 ∧
      brvMessageF (n+1) (BitVec.ofNat 64 (2^50)) f 0 = pure x0 ∧
      brvMessageF (n+1) (BitVec.ofNat 64 (2^50)) f (2^(n+1) / 2) = pure x1 ∧ supErrF z0 z1 x0 x1 = pure r := by
  have hN : 2^(n+1) ≤ 2^30 := Nat.pow_le_pow_right (by norm_num) (by omega)
  have hdec : ∀ c : R_Q_square Q (2^(n+1)), Ok (decMessageF (LOGN := n+1) L 50 c s) fun z => ∀ i : Fin (2^n), ‖(⟨z.1 i, z.2 i⟩ : ℂ)‖ ≤ 2^490 :=
    fun c => Ok.bind (dec_spec hN hs c) fun mo ⟨hmo, _⟩ => decode_size_of hL hn1 hn (by norm_num) (by norm_num) hQ mo hmo
  obtain ⟨z0, e0, hz0⟩ := hdec c0
  obtain ⟨z1, e1, hz1⟩ := hdec c1
  obtain ⟨⟨x0, b0, hx0⟩, x1, b1, hx1⟩ := brvMessageF_spec hn1 (by omega) hg hf
  have hx : ∀ (v : ℂ) (k : Fin (2^(n+1))), ‖v - (⟨g k / 2^50, 0⟩ : ℂ)‖ ≤ 1/2^35 → ‖v‖ ≤ 2^490 := by
    intro v k hv
    have a1 := norm_le_norm_sub_add v (⟨g k / 2^50, 0⟩ : ℂ)
    have a2 : ‖(⟨g k / 2^50, 0⟩ : ℂ)‖ ≤ 2^15 := by
      rw [show (⟨g k / 2^50, 0⟩ : ℂ) = ((g k / 2^50 : ℝ) : ℂ) from rfl, Complex.norm_real, Real.norm_eq_abs, abs_div,
        abs_of_pos (a := (2:ℝ)^50) (by positivity), div_le_iff₀ (by positivity), ← pow_add]
      exact hg k
    have a3 : (2:ℝ)^16 ≤ 2^490 := pow_le_pow_right₀ (by norm_num) (by norm_num)
    refine a1.trans (le_trans ?_ a3)
    norm_num at hv a2 ⊢
    linarith
  obtain ⟨d0, r0, ed0, er0⟩ := sup_sub_big (z := z0) (x := x0) hz0 fun i => hx _ _ (hx0 i)
  obtain ⟨d1, r1, ed1, er1⟩ := sup_sub_big (z := z1) (x := x1) hz1 fun i => hx _ _ (hx1 i)
  refine ⟨z0, z1, x0, x1, max r0 r1, e0, e1, b0, b1, ?_⟩
  unfold supErrF
  have q0 : MsgF.sub (n := 2^(n+1-1)) z0 x0 = pure d0 := ed0
  have q1 : MsgF.sub (n := 2^(n+1-1)) z1 x1 = pure d1 := ed1
  have q2 : MsgF.sup_norm (n := 2^(n+1-1)) d0 = pure r0 := er0
  have q3 : MsgF.sup_norm (n := 2^(n+1-1)) d1 = pure r1 := er1
  rw [q0, pure_bind, q1, pure_bind, q2, pure_bind, q3, pure_bind]

theorem decTol_wide (hn : n ≤ 16) {Y : ℝ} (h0 : 0 ≤ Y) (hY : Y ≤ 68 * 2^10) : decTol n Y ≤ 1/2^10 := by
  have h1 : Real.sqrt 2 ^ n ≤ 256 := by
    have : Real.sqrt 2 ^ n ≤ Real.sqrt 2 ^ 16 := pow_le_pow_right₀ (by rw [Real.one_le_sqrt]; norm_num) hn
    rwa [show (16:ℕ) = 2 * 8 by norm_num, pow_mul, Real.sq_sqrt (by norm_num), show (2:ℝ)^8 = 256 by norm_num] at this
  have hn' : (n:ℝ) ≤ 16 := by exact_mod_cast hn
  have t := inv_pow_tiny (N := 900) (by norm_num)
  have h2 : Real.sqrt 2 ^ n * ((28 * n + 8) * Y / 2^53) ≤ 256 * ((28 * 16 + 8) * (68 * 2^10) / 2^53) := by gcongr
  unfold decTol
  refine (add_le_add h2 t).trans (by norm_num)

/-- what a check finds when the coefficients are up to `67 * 2^60` -/
theorem check_wideF {L : Libm} (hL : L.Accurate) {Q : Nat} [NeZero Q] (hn1 : 1 ≤ n) (hn : n ≤ 16) (hQ : Q ≤ 2^29) (hQ' : 68 ≤ Q)
    {s : Fin (2^(n+1)) → Int} (hs : Ternary s)
    {c0 c1 : R_Q_square Q (2^(n+1))} {x g : Fin (2^(n+1)) → ℝ} {ε : ℝ} (hε0 : 0 ≤ ε)
    (h0 : Near s c0 (fun i => (x (loIdx i) : ℂ)) ε) (h1 : Near s c1 (fun i => (x (hiIdx i) : ℂ)) ε)
    (hX : ∀ k, |x k| ≤ 67 * 2^60) (hε : ε ≤ 2^48) {f : Nat → M ℝ} (hg : ∀ k, |g k| ≤ 2^65)
    (hf : ∀ k : Fin (2^(n+1)), Ok (f k) fun v => |v - g k| ≤ 2^14) :
    ∃ (z0 z1 x0 x1 : CVec (n+1)) (r : ℝ), decMessageF (LOGN := n+1) L 50 c0 s = pure z0 ∧ decMessageF (LOGN := n+1) L 50 c1 s = pure z1 ∧
      brvMessageF (n+1) (BitVec.ofNat 64 (2^50)) f 0 = pure x0 ∧
      brvMessageF (n+1) (BitVec.ofNat 64 (2^50)) f (2^(n+1) / 2) = pure x1 ∧ supErrF z0 z1 x0 x1 = pure r ∧
      ∀ k, (|x k - g k| - ε) / 2^50 - 1 ≤ r := by
  have hX' : ∀ k, ‖(x k : ℂ)‖ ≤ 67 * 2^60 := fun k => by rw [Complex.norm_real]; exact hX k
  have hq : (67:ℝ) * 2^60 + ε < 2^(Q-1) := lt_of_lt_of_le (b := 2^67) (by norm_num at hε ⊢; linarith) (pow_le_pow_right₀ (by norm_num) (by omega))
  have hF : (67:ℝ) * 2^60 + ε ≤ 2^900 * 2^50 := by
    have a1 : (67:ℝ) * 2^60 + ε ≤ 2^67 := by norm_num at hε ⊢; linarith
    have a2 : (2:ℝ)^67 ≤ 2^(900+50) := pow_le_pow_right₀ (by norm_num) (by norm_num)
    rw [pow_add] at a2
    exact a1.trans a2
  have hT := decTol_wide (n := n) hn (Y := (67 * 2^60 + ε) / 2^50) (by positivity) (by
    rw [div_le_iff₀ (by positivity)]; norm_num at hε ⊢; linarith)
  obtain ⟨z0, e0, hz0⟩ := near_outF (D := 50) hL hn1 (by omega) hQ (by norm_num) hs h0 (fun i => hX' _) hq hF
  obtain ⟨z1, e1, hz1⟩ := near_outF (D := 50) hL hn1 (by omega) hQ (by norm_num) hs h1 (fun i => hX' _) hq hF
  obtain ⟨⟨x0, b0, hx0⟩, x1, b1, hx1⟩ := brvMessageF_spec hn1 (by omega) hg hf
  clear hF hq
  have hd : ∀ (k : Fin (2^(n+1))), ‖(x k : ℂ) / 2^50 - (⟨g k / 2^50, 0⟩ : ℂ)‖ = |x k - g k| / 2^50 := by
    intro k
    have e : (x k : ℂ) / 2^50 - (⟨g k / 2^50, 0⟩ : ℂ) = (((x k - g k) / 2^50 : ℝ) : ℂ) := by
      rw [show (⟨g k / 2^50, 0⟩ : ℂ) = ((g k / 2^50 : ℝ) : ℂ) from rfl]
      push_cast; ring
    rw [e, Complex.norm_real, Real.norm_eq_abs, abs_div, abs_of_pos (a := (2:ℝ)^50) (by positivity)]
  have both : ∀ (w v : ℂ) (k : Fin (2^(n+1))), ‖w - (x k : ℂ) / 2^50‖ ≤ ε / 2^50 + decTol n ((67 * 2^60 + ε) / 2^50) →
      ‖v - (⟨g k / 2^50, 0⟩ : ℂ)‖ ≤ 1/2^35 → |‖w - v‖ - |x k - g k| / 2^50| ≤ ε / 2^50 + 1/2^10 + 1/2^35 := by
    intro w v k hw hv
    rw [← hd k]
    refine (abs_norm_sub_norm_le _ _).trans ?_
    have e : w - v - ((x k : ℂ) / 2^50 - (⟨g k / 2^50, 0⟩ : ℂ)) = (w - (x k : ℂ) / 2^50) - (v - ⟨g k / 2^50, 0⟩) := by ring
    rw [e]
    refine (norm_sub_le _ _).trans ?_
    linarith
  have a0 := fun i : Fin (2^n) => both ⟨z0.1 i, z0.2 i⟩ ⟨x0.1 i, x0.2 i⟩ (loIdx i) (hz0 i) (hx0 i)
  have a1 := fun i : Fin (2^n) => both ⟨z1.1 i, z1.2 i⟩ ⟨x1.1 i, x1.2 i⟩ (hiIdx i) (hz1 i) (hx1 i)
  have hxg : ∀ k, |x k - g k| / 2^50 ≤ 2^17 := by
    intro k
    have g1 := abs_sub (x k) (g k)
    have g2 := hX k
    have g3 := hg k
    rw [div_le_iff₀ (by positivity)]
    generalize |x k| = p at *
    generalize |g k| = q at *
    generalize |x k - g k| = t at *
    norm_num at *
    linarith
  have h18 : ∀ (w : ℝ) (k : Fin (2^(n+1))), |w - |x k - g k| / 2^50| ≤ ε / 2^50 + 1/2^10 + 1/2^35 → w ≤ 2^18 := by
    intro w k hw
    have g1 := hxg k
    have g2 := (abs_le.1 hw).2
    generalize |x k - g k| / 2^50 = t at *
    norm_num at *
    linarith
  obtain ⟨d0, r0, ed0, er0, l0, u0⟩ := sup_subF (Nat.two_pow_pos n) (z := z0) (x := x0) fun i => h18 _ _ (a0 i)
  obtain ⟨d1, r1, ed1, er1, l1, u1⟩ := sup_subF (Nat.two_pow_pos n) (z := z1) (x := x1) fun i => h18 _ _ (a1 i)
  refine ⟨z0, z1, x0, x1, max r0 r1, e0, e1, b0, b1, ?_, fun k => ?_⟩
  · unfold supErrF
    have q0 : MsgF.sub (n := 2^(n+1-1)) z0 x0 = pure d0 := ed0
    have q1 : MsgF.sub (n := 2^(n+1-1)) z1 x1 = pure d1 := ed1
    have q2 : MsgF.sup_norm (n := 2^(n+1-1)) d0 = pure r0 := er0
    have q3 : MsgF.sup_norm (n := 2^(n+1-1)) d1 = pure r1 := er1
    rw [q0, pure_bind, q1, pure_bind, q2, pure_bind, q3, pure_bind]
  · have low : ∀ (w r : ℝ) (k : Fin (2^(n+1))), |w - |x k - g k| / 2^50| ≤ ε / 2^50 + 1/2^10 + 1/2^35 → w ≤ r + 1/2^30 →
        (|x k - g k| - ε) / 2^50 - 1 ≤ r := by
      intro w r k hw hr
      have g2 := (abs_le.1 hw).1
      rw [sub_div]
      generalize |x k - g k| / 2^50 = t at *
      norm_num at g2 hr ⊢
      linarith
    revert k
    refine lo_hi (fun i => ?_) (fun i => ?_)
    · exact (low _ _ _ (a0 i) (l0 i)).trans (le_max_left _ _)
    · exact (low _ _ _ (a1 i) (l1 i)).trans (le_max_right _ _)

/-! ## the numbers -/

theorem ctsErr2_wide {G b b' h : Nat} (hp : BootParam2 n G b b') (hh : h ≤ 128) :
    ctsErr2 n h G (2^60) (Real.sqrt 2 * 2^n * (66 * 2^60)) ≤ 2^50 := by
  have h3 := sqrt2_le20
  rcases hp with ⟨rfl, rfl, rfl, rfl⟩ | ⟨rfl, rfl, rfl, rfl⟩ | ⟨rfl, rfl, rfl, rfl⟩
  · have hZ : Real.sqrt 2 * 2^8 * (66 * 2^60) ≤ 1.41421356237309504881 * 2^8 * (66 * 2^60) := by gcongr
    have k := grp2_cts8 hh (Z := Real.sqrt 2 * 2^8 * (66 * 2^60)) (by positivity)
    have k2 := mul_le_mul_of_nonneg_left hZ (show (0:ℝ) ≤ (576460752305304833:ℝ)^4 - 2^236 by norm_num)
    unfold ctsErr2
    rw [div_le_iff₀ (by positivity)]
    norm_num at k k2 ⊢
    linarith
  · have hZ : Real.sqrt 2 * 2^12 * (66 * 2^60) ≤ 1.41421356237309504881 * 2^12 * (66 * 2^60) := by gcongr
    have k := grp2_cts12 hh (Z := Real.sqrt 2 * 2^12 * (66 * 2^60)) (by positivity)
    have k2 := mul_le_mul_of_nonneg_left hZ (show (0:ℝ) ≤ (407619307064322853:ℝ)^4 - 2^234 by norm_num)
    unfold ctsErr2
    rw [div_le_iff₀ (by positivity)]
    norm_num at k k2 ⊢
    linarith
  · have hZ : Real.sqrt 2 * 2^16 * (66 * 2^60) ≤ 1.41421356237309504881 * 2^16 * (66 * 2^60) := by gcongr
    have k := grp2_cts16 hh (Z := Real.sqrt 2 * 2^16 * (66 * 2^60)) (by positivity)
    have k2 := mul_le_mul_of_nonneg_left hZ (show (0:ℝ) ≤ (288230376442048513:ℝ)^4 - 2^232 by norm_num)
    unfold ctsErr2
    rw [div_le_iff₀ (by positivity)]
    norm_num at k k2 ⊢
    linarith

/-- The raised message of a key of at most 128 entries. -/
theorem raised_128 {QT N : Nat} [NeZero QT] (hN : N ≤ 2^30) (hq : 68 ≤ QT) {s : Fin N → Int}
    (hs : Ternary s) (hh : (univ.filter fun k => s k ≠ 0).card ≤ 128) {ct : R_Q_square 60 N} (hct : ct.Canonical)
    {m : R_Q 60 N} (hm : dec ct s = pure m) (hB : ∀ k, |(m k).sval| ≤ 2^51) {M : R_Q QT N}
    (hM : dec (mod_raise QT ct) s = pure M) (k : Fin N) : |(M k).sval| ≤ 66 * 2^60 := by
  obtain ⟨m', h1, _, h3⟩ := dec_spec hN hs ct
  obtain ⟨M', g1, _, g3⟩ := dec_spec hN hs (mod_raise QT ct)
  obtain rfl := pure_inj (hm.symm.trans h1)
  obtain rfl := pure_inj (hM.symm.trans g1)
  obtain ⟨_, I, hI, h⟩ := mod_raise_phase (LT := QT) hct s (R_Q.sval m) (by rw [← cls_red_sval, h3]) (fun i => abs_sval_le _)
  have h4 := hs.sum_abs
  unfold weight at h4
  have h5 := hI k
  rw [h4] at h5
  have h6 : |I k| ≤ 65 := by omega
  have h7 := abs_le.1 h6
  have h8 := abs_le.1 (hB k)
  have hp : (2:ℤ)^67 ≤ 2^(QT-1) := pow_le_pow_right₀ (by norm_num) (by omega)
  have e : (M k).sval = (m k).sval + 2^60 * I k := by
    refine sval_eq_of_cls (t := (m k).sval + 2^60 * I k) (congrFun (g3.trans h) k) ?_ ?_
    · refine (neg_le_neg hp).trans ?_
      norm_num at h8 ⊢
      omega
    · refine lt_of_lt_of_le ?_ hp
      norm_num at h8 ⊢
      omega
  rw [e, abs_le]
  norm_num at h8 ⊢
  omega

end EvalRound

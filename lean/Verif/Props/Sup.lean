import Verif.Proofs.Measure

/-!
# C58, C59: theorem_cts_error.cpp and example_sup_norm.cpp
-/

namespace EvalRound
open Z_Q Finset

variable {n : Nat}

/-! ## C58 -/

theorem random_message_norm (LOGN : Nat) {ρ : RealRng} (hρ : ∀ j, |ρ j| ≤ 1 / Real.sqrt 2) (i : Fin (2^(LOGN-1))) :
    ‖(⟨(set_random_message LOGN ρ).1.1 i, (set_random_message LOGN ρ).1.2 i⟩ : ℂ)‖ ≤ 1 := by
  have h3 : Real.sqrt 2 * Real.sqrt 2 = 2 := Real.mul_self_sqrt (by norm_num)
  have hs : ∀ j, ρ j * ρ j ≤ 1/2 := by
    intro j
    have h1 := mul_self_le_mul_self (abs_nonneg _) (hρ j)
    rw [abs_mul_abs_self, div_mul_div_comm, h3] at h1
    linarith
  rw [Complex.norm_def, Complex.normSq_mk, Real.sqrt_le_left (by norm_num), one_pow]
  unfold set_random_message
  dsimp only
  linarith [hs i, hs (2^(LOGN-1) + i)]

theorem decMessage_ok {Q : Nat} [NeZero Q] (hn1 : 1 ≤ n) (hn : n ≤ 26) (hQ : Q ≤ 2^29) {s : Fin (2^(n+1)) → Int} (hs : Ternary s)
    (c : R_Q_square Q (2^(n+1))) {D : Int} (h1 : -2^30 ≤ D) (h2 : D ≤ 2^30) :
    ∃ z, decMessage (LOGN := n+1) D c s = pure z := by
  have hN : 2^(n+1) ≤ 2^30 := Nat.pow_le_pow_right (by norm_num) (by omega)
  obtain ⟨pt, e, hc, -⟩ := dec_spec hN hs c
  unfold decMessage decode_log
  rw [e, pure_bind]
  obtain ⟨m, em, -⟩ := tabM_spec (n := 2^(n+1)) (f := fun i => rd pt i >>= fun x => decodeLogCoeff D x) (P := fun _ (_ : ℝ) => True) (fun i hi => by
    rw [rd_of_lt _ hi, pure_bind, decodeLogCoeff_spec (hc _) hQ h1 h2]
    exact Ok.pure trivial)
  rw [em, pure_bind]
  obtain ⟨z, ez, -⟩ := C28_fft (LOGN := n+1) (by omega) (by omega) m
  exact ⟨z, ez⟩

/-- C58: `measure_cts_error` and `measure_sup_norm` never reach their last lines: for every key that `keygen` returns, every
message drawn and all other random numbers, the run reads outside of an array, in `aggregate`. Here `n` is `LOGN-1`; the drivers
use `G = 2, 3, 4` for `n = 8, 12, 16`, `LDcts = 50` and `QT = 1450`. -/
theorem C58_ub {QT : Nat} [NeZero QT] (R LDcts G : Nat) (hL : LDcts < 63) (hq1 : 512 ≤ QT) (hq2 : QT ≤ 1525) (hn1 : 1 ≤ n) (hn : n ≤ 16)
    (hG1 : 1 ≤ G) (hG : G ≤ 4) (hG' : n % G = 0) (hd : n/G * LDcts < QT) (H : Int) (ρ : RealRng)
    (hρ : ∀ j, |ρ j| ≤ 1 / Real.sqrt 2) (ct0 : R_Q_square 60 (2^(n+1))) (ω ω1 : Rng) (s : Fin (2^(n+1)) → Int)
    (hk : keygen (2^(n+1)) H ω = pure (s, ω1)) :
    measureCts (LOGN := n+1) R LDcts G H QT ρ ct0 ω = ub := by
  have hN : 2^(n+1) ≤ 2^30 := Nat.pow_le_pow_right (by norm_num) (by omega)
  have hs : Ternary s := (C19_keygen_weight H ω ω1 s hk).1
  have hz := random_message_norm (n+1) hρ
  obtain ⟨pt, ept, -⟩ := encode_close (LOGN := n+1) (by omega) (by omega) _ hz
  obtain ⟨⟨ct, ω2⟩, ect, hct, -⟩ := enc_spec R hN hs pt ct0 ω1
  obtain ⟨M, eM, hMc, hM⟩ := dec_spec hN hs (R_Q_square.resize QT ct)
  obtain ⟨za, eza, -⟩ := C28_fft (LOGN := n+1) (by omega) (by omega) (fun i => decodeCoeff (BitVec.ofNat 64 (2^50)) (M i))
  haveI : NeZero (QT - n/G * LDcts) := ⟨by omega⟩
  have hcan : (R_Q_square.resize QT ct).Canonical := ⟨fun i => canonical_resize _, fun i => canonical_resize _⟩
  obtain ⟨x, hx, -⟩ := cts_near R LDcts hL (Or.inr (Or.inl ⟨by omega, by omega⟩)) (by omega) hn1 hn hs hG1 hG hG' hcan
    (m := R_Q.sval M) (by rw [← hM, cls_red_sval]) (Z := ∑ i, ‖slots n (R_Q.sval M) i‖)
    (fun i => Finset.single_le_sum (f := fun i => ‖slots n (R_Q.sval M) i‖) (fun j _ => norm_nonneg _) (Finset.mem_univ i))
    (Q0 := QT - n/G * LDcts) (by omega) ω2
  obtain ⟨c, ec, -⟩ := bind_eq_pure hx
  have hD : n / G * LDcts ≤ 2^29 := by omega
  have hD' : ((n / G * LDcts : Nat) : Int) ≤ 2^29 := by exact_mod_cast hD
  have hD0 : (0:Int) ≤ ((n / G * LDcts : Nat) : Int) := Int.natCast_nonneg _
  obtain ⟨z0, e0⟩ := decMessage_ok hn1 (by omega) (by omega) hs c.1.1 (D := 50 + ((n/G*LDcts : Nat) : Int)) (by omega) (by omega)
  obtain ⟨z1, e1⟩ := decMessage_ok hn1 (by omega) (by omega) hs c.1.2 (D := 50 + ((n/G*LDcts : Nat) : Int)) (by omega) (by omega)
  obtain ⟨b0, b1⟩ := brvMessage_spec hn1 (by omega) (BitVec.ofNat 64 (2^50)) (rdDouble_spec hMc)
  unfold measureCts
  rw [show assertM (decide ((n + 1 - 1) % G = 0)) = pure () by
      rw [show n + 1 - 1 = n from rfl, hG']
      rfl, pure_bind, hk, pure_bind]
  dsimp only
  rw [show shl1 50 = pure (BitVec.ofNat 64 (2^50)) from rfl, pure_bind, ept, pure_bind, ect, pure_bind]
  dsimp only
  rw [eM, pure_bind, show decode M (BitVec.ofNat 64 (2^50)) = pure za from eza, pure_bind, ec, pure_bind]
  rw [show decMessage (50 + (((n+1-1)/G*LDcts : Nat) : Int)) c.1.1 s = pure z0 from e0, pure_bind,
    show decMessage (50 + (((n+1-1)/G*LDcts : Nat) : Int)) c.1.2 s = pure z1 from e1, pure_bind,
    b0, pure_bind, b1, pure_bind, C40_aggregate (by omega), ub_bind]

/-- The drivers meet the hypotheses of `C58_ub`: LOGN = 9, with a stream from which `keygen` returns a key of weight 128. -/
example (ct0 : R_Q_square 60 (2^(8+1))) :
    measureCts (LOGN := 8+1) (2^31-1) 50 2 128 1450 (fun _ => 1/2) ct0 id = ub := by
  obtain ⟨⟨s, ω1⟩, hk, -⟩ := C19_keygen_returns (N := 2^(8+1)) 128 (by norm_num) id (fun j l => ⟨j + 2^(8+1) * l, by
      have : 1 ≤ 2^(8+1) := by norm_num
      nlinarith, by
      have := j.isLt
      simp only [id]
      rw [Nat.add_mul_mod_self_left, Nat.mod_eq_of_lt this]⟩)
  refine C58_ub (n := 8) (2^31-1) 50 2 (by norm_num) (by norm_num) (by norm_num) (by norm_num) (by norm_num) (by norm_num)
    (by norm_num) (by norm_num) (by norm_num) 128 _ (fun _ => ?_) ct0 id ω1 s hk
  rw [abs_of_pos (by norm_num), div_le_div_iff₀ (by norm_num) (Real.sqrt_pos.2 (by norm_num)), one_mul, one_mul,
    Real.sqrt_le_left (by norm_num)]
  norm_num

/-! ## C59 -/

theorem natAbs_real (x : ℤ) : ((x.natAbs : ℕ) : ℝ) = |(x : ℝ)| := by
  rw [← Int.cast_natCast (R := ℝ), Int.natCast_natAbs, Int.cast_abs]

/-- a loop that adds -/
theorem forFin_add {n : Nat} (a : Fin n → ℝ) : forFin n (fun i s => s + a i) 0 = ∑ i, a i := by
  induction n with
  | zero => rfl
  | succ n ih =>
    rw [Fin.sum_univ_castSucc, ← ih]; rfl

theorem forFin_fst {n : Nat} (f g : Fin n → ℝ → ℝ) (s : ℝ × ℝ) :
    forFin n (fun i (p : ℝ × ℝ) => (f i p.1, g i p.2)) s = (forFin n f s.1, forFin n g s.2) := by
  induction n with
  | zero => rfl
  | succ n ih =>
    show (fun p : ℝ × ℝ => (f (Fin.last n) p.1, g (Fin.last n) p.2)) (forFin n (fun i (p : ℝ × ℝ) => (f i.castSucc p.1, g i.castSucc p.2)) s) = _
    rw [ih]; rfl

/-- C59: one round of `check_sup_norm_bound` computes the Euclidean norm and the largest absolute value of the encoded
coefficients, and the ratio of the largest to the root of the mean square, which lies between 1 and the root of N. -/
theorem C59_round {LOGQ LOGN : Nat} [NeZero LOGQ] (hQ : 52 ≤ LOGQ) (h1 : 2 ≤ LOGN) (h2 : LOGN ≤ 27) (z : CVec LOGN)
    (hz : ∀ i : Fin (2^(LOGN-1)), ‖(⟨z.1 i, z.2 i⟩ : ℂ)‖ ≤ 1) :
    Ok (supNormRound LOGQ z (BitVec.ofNat 64 (2^50))) fun o => ∃ (m : Fin (2^LOGN) → ℝ) (p : Fin (2^LOGN) → ℤ),
      (∀ i : Fin (2^(LOGN-1)), slotOf m i = ⟨z.1 i, z.2 i⟩) ∧ (∀ k, |(p k : ℝ) - m k * 2^50| ≤ 1/2) ∧
      o.1 = Real.sqrt (∑ k, (p k : ℝ)^2) ∧ (∀ k, |(p k : ℝ)| ≤ o.2.1) ∧ (∃ k, o.2.1 = |(p k : ℝ)|) ∧
      o.2.2 = o.2.1 / Real.sqrt ((∑ k, (p k : ℝ)^2) / 2^LOGN) ∧
      ((∃ k, p k ≠ 0) → 1 ≤ o.2.2) ∧ o.2.2 ≤ Real.sqrt (2^LOGN) := by
  have hδ : (((BitVec.ofNat 64 (2^50)).toNat : ℕ) : ℝ) = 2^50 := by
    rw [show (BitVec.ofNat 64 (2^50)).toNat = 2^50 from rfl]; norm_num
  have hq : (2:ℝ)^51 ≤ 2^(LOGQ-1) := pow_le_pow_right₀ (by norm_num) (by omega)
  unfold supNormRound
  refine Ok.bind (C29_encode h1 h2 z (BitVec.ofNat 64 (2^50)) 1 hz (by rw [hδ]; norm_num)
    (lt_of_lt_of_le (by rw [hδ]; norm_num) hq)) fun pt ⟨m, hm, hp⟩ => ?_
  rw [hδ] at hp
  -- the coefficients fit in one word
  have hmk : ∀ k, |m k| ≤ 1 := by
    obtain ⟨l, rfl⟩ : ∃ l, LOGN = l + 1 := ⟨LOGN - 1, by omega⟩
    exact coeff_le_slots (by omega) (by omega) fun i => by rw [hm i]; exact hz i
  have hb : ∀ k, (pt k).sval.natAbs < 2^64 := by
    intro k
    have h3 := abs_le.1 (hp k).2
    have h4 := abs_le.1 (hmk k)
    have h5 : |((pt k).sval : ℝ)| < 2^64 := by rw [abs_lt]; constructor <;> linarith
    rw [← natAbs_real] at h5
    exact_mod_cast h5
  have ha : ∀ k, (((if (copy (pt k)).is_bigger_than_halfQ then negate (copy (pt k)) else copy (pt k)).data (bot LOGQ)).toNat : ℝ) =
      |((pt k).sval : ℝ)| := by
    intro k
    rw [← natAbs_toDoubleInt, toDoubleInt_spec (hp k).1, Nat.mod_eq_of_lt (hb k), Int.sign_mul_natAbs, natAbs_real]
  refine Ok.pure ⟨m, fun k => (pt k).sval, hm, fun k => (hp k).2, ?_⟩
  simp only [ha]
  rw [forFin_fst (fun i s => s + |((pt i).sval : ℝ)| * |((pt i).sval : ℝ)|) (fun i s => if |((pt i).sval : ℝ)| > s then |((pt i).sval : ℝ)| else s)]
  dsimp only
  rw [forFin_add (fun i => |((pt i).sval : ℝ)| * |((pt i).sval : ℝ)|)]
  obtain ⟨g1, g2, -⟩ := forFin_max (fun i => |((pt i).sval : ℝ)|) (fun i => abs_nonneg _)
    (fun i s => if |((pt i).sval : ℝ)| > s then |((pt i).sval : ℝ)| else s) (fun i s => ite_max _ _)
  obtain ⟨k0, hk0⟩ := g2 (Nat.two_pow_pos _)
  have e : ∑ i, |((pt i).sval : ℝ)| * |((pt i).sval : ℝ)| = ∑ k, ((pt k).sval : ℝ)^2 :=
    Finset.sum_congr rfl fun k _ => by rw [abs_mul_abs_self, pow_two]
  rw [e]
  generalize forFin (2^LOGN) (fun i s => if |((pt i).sval : ℝ)| > s then |((pt i).sval : ℝ)| else s) 0 = S at g1 hk0
  have hS0 : 0 ≤ S := by rw [hk0]; exact abs_nonneg _
  have hsum0 : 0 ≤ ∑ k, ((pt k).sval : ℝ)^2 := Finset.sum_nonneg fun k _ => sq_nonneg _
  have hN : (0:ℝ) < 2^LOGN := by positivity
  have e2 : ((2^LOGN : Nat) : ℝ) = 2^LOGN := by push_cast; rfl
  rw [e2, ← Real.sqrt_div hsum0]
  refine ⟨rfl, g1, ⟨k0, hk0⟩, rfl, fun ⟨k, hk⟩ => ?_, ?_⟩
  · have hpos : 0 < ∑ k, ((pt k).sval : ℝ)^2 := lt_of_lt_of_le (by
      have : ((pt k).sval : ℝ) ≠ 0 := by exact_mod_cast hk
      positivity) (Finset.single_le_sum (f := fun k => ((pt k).sval : ℝ)^2) (fun j _ => sq_nonneg _) (Finset.mem_univ k))
    rw [le_div_iff₀ (Real.sqrt_pos.2 (div_pos hpos hN)), one_mul, Real.sqrt_le_left hS0, div_le_iff₀ hN]
    refine (Finset.sum_le_card_nsmul _ _ (S^2) fun k _ => ?_).trans (le_of_eq ?_)
    · rw [← sq_abs]; exact pow_le_pow_left₀ (abs_nonneg _) (g1 k) 2
    · rw [Finset.card_univ, Fintype.card_fin, nsmul_eq_mul, e2, mul_comm]
  · rcases hsum0.eq_or_lt with h0 | hpos
    · rw [← h0, zero_div, Real.sqrt_zero, div_zero]; exact Real.sqrt_nonneg _
    · rw [div_le_iff₀ (Real.sqrt_pos.2 (div_pos hpos hN)), ← Real.sqrt_mul hN.le, mul_div_cancel₀ _ hN.ne']
      refine Real.le_sqrt_of_sq_le ?_
      rw [hk0, sq_abs]
      exact Finset.single_le_sum (f := fun k => ((pt k).sval : ℝ)^2) (fun j _ => sq_nonneg _) (Finset.mem_univ k0)

/-- C59: `check_sup_norm_bound` reports the largest ratio of all its rounds. -/
theorem C59_check {LOGQ LOGN : Nat} [NeZero LOGQ] (hQ : 52 ≤ LOGQ) (h1 : 2 ≤ LOGN) (h2 : LOGN ≤ 27) (rounds : Nat) (ρ : RealRng)
    (hρ : ∀ j, |ρ j| ≤ 1 / Real.sqrt 2) :
    Ok (checkSupNorm LOGQ LOGN rounds ρ) fun r => r ≤ Real.sqrt (2^LOGN) ∧
      (∀ t < rounds, ∃ o, supNormRound LOGQ (set_random_message LOGN (fun j => ρ (2^LOGN * t + j))).1 (BitVec.ofNat 64 (2^50)) = pure o ∧
        o.2.2 ≤ r) ∧
      (0 < rounds → ∃ t < rounds, ∃ o,
        supNormRound LOGQ (set_random_message LOGN (fun j => ρ (2^LOGN * t + j))).1 (BitVec.ofNat 64 (2^50)) = pure o ∧ r = o.2.2) := by
  have hz : ∀ t, ∀ i : Fin (2^(LOGN-1)), ‖(⟨(set_random_message LOGN (fun j => ρ (2^LOGN * t + j))).1.1 i,
      (set_random_message LOGN (fun j => ρ (2^LOGN * t + j))).1.2 i⟩ : ℂ)‖ ≤ 1 :=
    fun t => random_message_norm LOGN (ρ := fun j => ρ (2^LOGN * t + j)) fun j => hρ _
  have hnn : ∀ t o, supNormRound LOGQ (set_random_message LOGN (fun j => ρ (2^LOGN * t + j))).1 (BitVec.ofNat 64 (2^50)) = pure o →
      0 ≤ o.2.2 ∧ o.2.2 ≤ Real.sqrt (2^LOGN) := by
    intro t o ho
    obtain ⟨o', ho', m, p, -, -, -, -, ⟨k, hk⟩, h5, -, h7⟩ := C59_round hQ h1 h2 _ (hz t)
    rw [ho] at ho'
    obtain rfl := pure_inj ho'
    exact ⟨by rw [h5, hk]; exact div_nonneg (abs_nonneg _) (Real.sqrt_nonneg _), h7⟩
  unfold checkSupNorm
  rw [show shl1 50 = pure (BitVec.ofNat 64 (2^50)) from rfl, pure_bind]
  refine Ok.bind (forUp_inv (Nat.zero_le _) (P := fun t (p : ℝ × RealRng) => p.2 = (fun j => ρ (2^LOGN * t + j)) ∧ (0 ≤ p.1 ∧ (t = 0 → p.1 = 0)) ∧
      (p.1 ≤ Real.sqrt (2^LOGN)) ∧
      (∀ t' < t, ∃ o, supNormRound LOGQ (set_random_message LOGN (fun j => ρ (2^LOGN * t' + j))).1 (BitVec.ofNat 64 (2^50)) = pure o ∧
        o.2.2 ≤ p.1) ∧
      (0 < t → ∃ t' < t, ∃ o,
        supNormRound LOGQ (set_random_message LOGN (fun j => ρ (2^LOGN * t' + j))).1 (BitVec.ofNat 64 (2^50)) = pure o ∧ p.1 = o.2.2))
    ?_ ?_) fun r hr => Ok.pure hr.2.2
  · refine ⟨?_, ⟨le_refl _, fun _ => rfl⟩, Real.sqrt_nonneg _, fun t' h => by omega, fun h => by omega⟩
    funext j; simp
  · rintro t ⟨r, ρ'⟩ - - ⟨rfl, ⟨hr0, hr00⟩, hrN, hall, hex⟩
    obtain ⟨o, ho, -⟩ := C59_round hQ h1 h2 _ (hz t)
    dsimp only at hr0 hr00 hrN hall hex ⊢
    rw [ho, pure_bind]
    obtain ⟨ho0, hoN⟩ := hnn t o ho
    refine Ok.pure ⟨?_, ?_⟩
    · funext j
      show ρ (2^LOGN * t + (2^LOGN + j)) = _
      congr 1; ring
    dsimp only
    rw [ite_max]
    refine ⟨⟨le_max_of_le_left hr0, fun h => by omega⟩, max_le hrN hoN, fun t' ht' => ?_, fun _ => ?_⟩
    · rcases Nat.lt_succ_iff_lt_or_eq.1 ht' with h | rfl
      · obtain ⟨o', ho', hle⟩ := hall t' h
        exact ⟨o', ho', le_max_of_le_left hle⟩
      · exact ⟨o, ho, le_max_right _ _⟩
    · rcases le_or_gt r o.2.2 with h | h
      · exact ⟨t, by omega, o, ho, max_eq_right h⟩
      · have ht : 0 < t := by
          by_contra h0
          rw [hr00 (by omega)] at h
          exact absurd h (not_lt.2 ho0)
        obtain ⟨t', ht', o', ho', he⟩ := hex ht
        exact ⟨t', by omega, o', ho', by rw [max_eq_left h.le, he]⟩

theorem slotOf_const {N : Nat} (hN : 0 < N) (c : ℝ) (i : Nat) : slotOf (fun k : Fin N => if k.val = 0 then c else 0) i = c := by
  unfold slotOf
  rw [Finset.sum_eq_single (⟨0, hN⟩ : Fin N)]
  · simp
  · intro k _ hk
    have h0 : k.val ≠ 0 := fun h => hk (Fin.ext h)
    simp [h0]
  · intro h; exact absurd (Finset.mem_univ _) h

/-- C59: `C2 = 5` is no bound for the ratio: there are messages, of those that `set_random_message` may draw, for which it is the
root of N, whatever the number of rounds. -/
theorem C59_exceeds {LOGQ LOGN : Nat} [NeZero LOGQ] (hQ : 52 ≤ LOGQ) (h1 : 5 ≤ LOGN) (h2 : LOGN ≤ 27) :
    ∃ ρ : RealRng, (∀ j, |ρ j| ≤ 1 / Real.sqrt 2) ∧ ∀ rounds, 0 < rounds →
      checkSupNorm LOGQ LOGN rounds ρ = pure (Real.sqrt (2^LOGN)) ∧ 5 < Real.sqrt (2^LOGN) := by
  have hh : (1/2 : ℝ) ≤ 1 / Real.sqrt 2 := by
    rw [div_le_div_iff₀ (by norm_num) (Real.sqrt_pos.2 (by norm_num)), one_mul, one_mul, Real.sqrt_le_left (by norm_num)]
    norm_num
  have hρ : ∀ j, |(fun j => if j % 2^LOGN < 2^(LOGN-1) then (1/2 : ℝ) else 0) j| ≤ 1 / Real.sqrt 2 := by
    intro j
    dsimp only
    split
    · rw [abs_of_pos (by norm_num)]; exact hh
    · rw [abs_zero]; positivity
  refine ⟨fun j => if j % 2^LOGN < 2^(LOGN-1) then 1/2 else 0, hρ, fun rounds hr => ⟨?_, ?_⟩⟩
  · obtain ⟨r, er, -, -, hex⟩ := C59_check hQ (by omega) h2 rounds _ hρ
    rw [er]
    obtain ⟨t, -, o, ho, rfl⟩ := hex hr
    have e2 : 2^LOGN = 2^(LOGN-1) * 2 := by rw [← pow_succ]; congr 1; omega
    have er : ∀ i : Fin (2^(LOGN-1)), (set_random_message LOGN
        (fun j => (fun j => if j % 2^LOGN < 2^(LOGN-1) then (1/2 : ℝ) else 0) (2^LOGN * t + j))).1.1 i = 1/2 := by
      intro i
      unfold set_random_message
      dsimp only
      rw [Nat.mul_add_mod, Nat.mod_eq_of_lt (by have := i.isLt; omega), if_pos i.isLt]
    have ei : ∀ i : Fin (2^(LOGN-1)), (set_random_message LOGN
        (fun j => (fun j => if j % 2^LOGN < 2^(LOGN-1) then (1/2 : ℝ) else 0) (2^LOGN * t + j))).1.2 i = 0 := by
      intro i
      unfold set_random_message
      dsimp only
      rw [Nat.mul_add_mod, Nat.mod_eq_of_lt (by have := i.isLt; omega), if_neg (by omega)]
    obtain ⟨o', ho', m, p, hm, hp, -, h4, ⟨k, hk⟩, h5, -, -⟩ := C59_round hQ (by omega) h2 _
      (random_message_norm LOGN (ρ := fun j => (fun j => if j % 2^LOGN < 2^(LOGN-1) then (1/2 : ℝ) else 0) (2^LOGN * t + j)) fun j => hρ _)
    rw [ho] at ho'
    obtain rfl := pure_inj ho'
    congr 1
    have hmc : m = fun k => if k.val = 0 then 1/2 else 0 := by
      obtain ⟨l, rfl⟩ : ∃ l, LOGN = l + 1 := ⟨LOGN - 1, by omega⟩
      refine slotOf_inj fun i => ?_
      rw [hm i, er i, ei i, slotOf_const (Nat.two_pow_pos _)]
      rfl
    have hpk : ∀ k, p k = if k.val = 0 then 2^49 else 0 := by
      intro k
      have := hp k
      rw [hmc] at this
      dsimp only at this
      have h6 : |(p k : ℝ) - ((if k.val = 0 then 2^49 else 0 : ℤ) : ℝ)| < 1 := by
        refine lt_of_le_of_lt (le_of_eq_of_le ?_ this) (by norm_num)
        congr 2
        split <;> norm_num
      have h7 : |p k - (if k.val = 0 then 2^49 else 0)| < 1 := by exact_mod_cast h6
      rw [Int.abs_lt_one_iff] at h7
      omega
    have hsum : ∑ k, (p k : ℝ)^2 = (2^49)^2 := by
      rw [Finset.sum_eq_single (⟨0, Nat.two_pow_pos _⟩ : Fin (2^LOGN))]
      · rw [hpk, if_pos rfl]; norm_num
      · intro k _ hk
        rw [hpk, if_neg fun h => hk (Fin.ext h)]; simp
      · intro h; exact absurd (Finset.mem_univ _) h
    have hS : o.2.1 = 2^49 := by
      refine le_antisymm ?_ ?_
      · rw [hk, hpk]; split <;> norm_num
      · have := h4 ⟨0, Nat.two_pow_pos _⟩
        rw [hpk, if_pos rfl] at this
        refine le_trans (le_of_eq ?_) this
        norm_num
    rw [h5, hsum, hS, Real.sqrt_div (by positivity), Real.sqrt_sq (by positivity), div_div_cancel₀ (by positivity)]
  · rw [Real.lt_sqrt (by norm_num)]
    exact lt_of_lt_of_le (by norm_num) (pow_le_pow_right₀ (by norm_num : (1:ℝ) ≤ 2) h1)

/-- The driver's own parameters: LOGN = 9, LOGQ = 1450, 100 rounds, numbers 1/2. -/
example : Ok (checkSupNorm 1450 9 100 (fun _ => 1/2)) fun r => r ≤ Real.sqrt (2^9) :=
  Ok.mono (C59_check (by norm_num) (by norm_num) (by norm_num) 100 _ fun _ => by
    rw [abs_of_pos (by norm_num), div_le_div_iff₀ (by norm_num) (Real.sqrt_pos.2 (by norm_num)), one_mul, one_mul,
      Real.sqrt_le_left (by norm_num)]
    norm_num) fun r h => h.1

end EvalRound

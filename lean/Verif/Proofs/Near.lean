import Verif.Proofs.Cheb
import Verif.Proofs.CtS
import Mathlib.Analysis.SpecialFunctions.Trigonometric.Chebyshev.RootsExtrema

/-! # Ciphertexts that hold a vector up to an error -/

namespace EvalRound
open Z_Q Finset

variable {LOGQ n : Nat} [NeZero LOGQ]

/-- `c` decrypts, before reduction, to an integer polynomial with slots within `ε` of `x` -/
def Near (s : Fin (2^(n+1)) → Int) (c : R_Q_square LOGQ (2^(n+1))) (x : Fin (2^n) → ℂ) (ε : ℝ) : Prop :=
  c.Canonical ∧ ∃ w : Fin (2^(n+1)) → Int, R_Q_square.phase s c = red LOGQ w ∧ ∀ i, ‖slots n w i - x i‖ ≤ ε

/-- what `swkgen` produces for the square of the key -/
def IsEvk (s : Fin (2^(n+1)) → Int) (evk : R_Q_square (2 * LOGQ) (2^(n+1))) : Prop :=
  evk.Canonical ∧ ∃ e : Fin (2^(n+1)) → Int, (∀ i, |e i| ≤ 8) ∧
    R_Q_square.phase s evk = red (2 * LOGQ) ((2^LOGQ : Int) • negconv s s + e)

theorem slots_smul (a : Int) (w : Fin (2^(n+1)) → Int) (i : Fin (2^n)) : slots n (a • w) i = a * slots n w i := by
  unfold slots
  have h := slotOf_smul (fun k => (w k : ℝ)) (a : ℝ) i
  have e : (fun k => (((a • w) k : ℤ) : ℝ)) = fun k => (w k : ℝ) * (a : ℝ) := by
    funext k; simp [mul_comm]
  rw [e, h]; push_cast; ring

theorem slots_single (z : Int) (i : Fin (2^n)) : slots n (Pi.single 0 z) i = z := by
  unfold slots slotOf
  rw [sum_eq_single (0 : Fin (2^(n+1)))]
  · simp
  · intro k _ hk; simp [Pi.single_eq_of_ne hk]
  · intro h; exact absurd (mem_univ _) h

theorem Near.mono {s : Fin (2^(n+1)) → Int} {c : R_Q_square LOGQ (2^(n+1))} {x y : Fin (2^n) → ℂ} {ε δ : ℝ}
    (h : Near s c x ε) (hx : ∀ i, y i = x i) (hε : ε ≤ δ) : Near s c y δ := by
  obtain ⟨h1, w, h2, h3⟩ := h
  exact ⟨h1, w, h2, fun i => by rw [hx i]; exact (h3 i).trans hε⟩

theorem Near.add {s : Fin (2^(n+1)) → Int} {c d : R_Q_square LOGQ (2^(n+1))} {x y : Fin (2^n) → ℂ} {ε δ : ℝ}
    (hc : Near s c x ε) (hd : Near s d y δ) : Near s (R_Q_square.add c d) (fun i => x i + y i) (ε + δ) := by
  obtain ⟨_, w, h2, h3⟩ := hc
  obtain ⟨_, v, g2, g3⟩ := hd
  refine ⟨⟨R_Q.canonical_add c.1 d.1, R_Q.canonical_add c.2 d.2⟩, w + v, ?_, fun i => ?_⟩
  · rw [phase_add, h2, g2, red_add]
  · rw [slots_add]
    have e : slots n w i + slots n v i - (x i + y i) = (slots n w i - x i) + (slots n v i - y i) := by ring
    rw [e]
    exact (norm_add_le _ _).trans (add_le_add (h3 i) (g3 i))

theorem Near.mulW {s : Fin (2^(n+1)) → Int} {c : R_Q_square LOGQ (2^(n+1))} {x : Fin (2^n) → ℂ} {ε : ℝ}
    (hc : Near s c x ε) (a : W) : Near s (R_Q_square.mulW c a) (fun i => a.toNat * x i) (a.toNat * ε) := by
  obtain ⟨_, w, h2, h3⟩ := hc
  refine ⟨⟨R_Q.canonical_mulW c.1 a, R_Q.canonical_mulW c.2 a⟩, (a.toNat : Int) • w, ?_, fun i => ?_⟩
  · rw [phase_mulW, h2, red_smul]; push_cast; rfl
  · rw [slots_smul]
    push_cast
    rw [← mul_sub, norm_mul, Complex.norm_natCast]
    exact mul_le_mul_of_nonneg_left (h3 i) (Nat.cast_nonneg _)

/-- adding a constant polynomial to the first component -/
theorem Near.addConst {s : Fin (2^(n+1)) → Int} {c : R_Q_square LOGQ (2^(n+1))} {x : Fin (2^n) → ℂ} {ε : ℝ}
    (hc : Near s c x ε) {b : R_Q LOGQ (2^(n+1))} {z : Int} (hb : R_Q.cls b = red LOGQ (Pi.single 0 z)) :
    Near s (R_Q.add c.1 b, c.2) (fun i => x i + z) ε := by
  obtain ⟨h1, w, h2, h3⟩ := hc
  refine ⟨⟨R_Q.canonical_add c.1 b, h1.2⟩, w + Pi.single 0 z, ?_, fun i => ?_⟩
  · rw [red_add, ← h2, ← hb, phase_eq, phase_eq]
    show R_Q.cls (R_Q.add c.1 b) + _ = _
    rw [R_Q.cls_add c.1 b]; abel
  · rw [slots_add, slots_single]
    have e : slots n w i + z - (x i + z) = slots n w i - x i := by ring
    rw [e]; exact h3 i

theorem Near.rs {LF LT : Nat} [NeZero LF] [NeZero LT] (hl : LT ≤ LF) {s : Fin (2^(n+1)) → Int} (hs : Ternary s)
    {c : R_Q_square LF (2^(n+1))} {x : Fin (2^n) → ℂ} {ε : ℝ} (hc : Near s c x ε) (ct0 : R_Q_square LT (2^(n+1))) :
    Ok (RS c ct0) fun y => Near s y (fun i => x i / 2^(LF-LT)) (ε / 2^(LF-LT) + rsErr n (weight s)) := by
  obtain ⟨h1, w, h2, h3⟩ := hc
  refine Ok.mono (RS_phase hl c h1 ct0 s) fun y ⟨hy, hp⟩ => ⟨hy, ?_⟩
  obtain ⟨m, hm⟩ := red_surj (R_Q_square.phase s y)
  obtain ⟨E, hE, hmE⟩ := hp m hm
  rw [h2, ← red_add] at hmE
  have hd : ∀ k, ∃ t : Int, (2:Int)^(LF-LT) * m k = w k + E k + 2^LF * t := by
    intro k
    have := congrFun hmE k
    simp only [red] at this
    rw [ZMod.intCast_eq_intCast_iff_dvd_sub] at this
    obtain ⟨t, ht⟩ := this
    refine ⟨-t, ?_⟩
    simp only [Pi.smul_apply, smul_eq_mul, Pi.add_apply] at ht
    push_cast at ht
    linarith
  choose t ht using hd
  have e2 : (2:Int)^LF = 2^(LF-LT) * 2^LT := by rw [← pow_add]; congr 1; omega
  have hw : ((2:Int)^(LF-LT)) • (fun k => m k - 2^LT * t k) = w + E := by
    funext k
    have := ht k
    rw [e2] at this
    simp only [Pi.smul_apply, smul_eq_mul, Pi.add_apply]
    linarith
  refine ⟨fun k => m k - 2^LT * t k, ?_, fun i => ?_⟩
  · rw [← hm]
    funext k
    have h0 : ((2:ZMod (2^LT))^LT) = 0 := by
      have := ZMod.natCast_self (2^LT)
      push_cast at this
      exact this
    simp only [red]
    push_cast
    rw [h0]; ring
  · have h4 := congrArg (fun v => slots n v i) hw
    rw [slots_smul, slots_add] at h4
    push_cast at h4
    have hp : (0:ℝ) < 2^(LF-LT) := by positivity
    have hpc : (2:ℂ)^(LF-LT) ≠ 0 := pow_ne_zero _ two_ne_zero
    have e5 : slots n (fun k => m k - 2^LT * t k) i - x i / 2^(LF-LT) =
        ((slots n w i - x i) + slots n E i) / 2^(LF-LT) := by
      field_simp
      rw [mul_comm _ ((2:ℂ)^(LF-LT)), h4]; ring
    rw [e5, norm_div, norm_pow, Complex.norm_ofNat]
    have h6 : ‖slots n E i‖ ≤ 2^(n+1) * (2^(LF-LT) * ((weight s : ℝ) + 1) / 2) := by
      refine norm_slots_le (fun k => ?_) i
      have h7 := hE k
      rw [hs.sum_abs] at h7
      have : ((2 * |E k| : ℤ) : ℝ) ≤ ((2^(LF-LT) * ((weight s : ℤ) + 1) : ℤ) : ℝ) := by exact_mod_cast h7
      push_cast at this
      linarith
    rw [div_le_iff₀ hp]
    refine (norm_add_le _ _).trans ((add_le_add (h3 i) h6).trans (le_of_eq ?_))
    unfold rsErr
    field_simp
    rw [pow_succ]; ring

theorem Near.mul (h1 : ConvLOGQ LOGQ) (h2 : ConvLOGQ (2 * LOGQ)) (hn : n ≤ 16) {s : Fin (2^(n+1)) → Int}
    (hs : Ternary s) {evk : R_Q_square (2 * LOGQ) (2^(n+1))} (hev : IsEvk s evk)
    {c d : R_Q_square LOGQ (2^(n+1))} {x y : Fin (2^n) → ℂ} {ε δ X Y : ℝ}
    (hc : Near s c x ε) (hd : Near s d y δ) (hx : ∀ i, ‖x i‖ ≤ X) (hy : ∀ i, ‖y i‖ ≤ Y)
    (ct30 : R_Q_square LOGQ (2^(n+1))) :
    Ok (Mul c d evk ct30) fun r => Near s r (fun i => x i * y i) (X * δ + Y * ε + ε * δ + mulErr n (weight s)) := by
  obtain ⟨hevc, e, he, hph⟩ := hev
  obtain ⟨hc1, w, hw, hwe⟩ := hc
  obtain ⟨hd1, v, hv, hve⟩ := hd
  refine Ok.mono (Mul_spec (k := n+1) h1 h2 (by omega) (by omega) hevc (red_negconv s s) he hph hc1 hd1 ct30)
    fun r ⟨hr, E, hE, hp⟩ => ⟨hr, negconv w v + E, ?_, fun i => ?_⟩
  · rw [hp, hw, hv, red_add, red_negconv]
  · rw [slots_add, slots_negconv]
    have e1 : slots n w i * slots n v i + slots n E i - x i * y i =
        (x i * (slots n v i - y i) + y i * (slots n w i - x i) + (slots n w i - x i) * (slots n v i - y i)) +
          slots n E i := by ring
    rw [e1]
    have hE' : ‖slots n E i‖ ≤ mulErr n (weight s) := by
      unfold mulErr
      refine norm_slots_le (fun k => ?_) i
      have h7 := hE k
      rw [hs.sum_abs] at h7
      have : ((2 * |E k| : ℤ) : ℝ) ≤ (((2^(n+1) : ℕ) * 8 + (weight s : ℤ) + 1 : ℤ) : ℝ) := by exact_mod_cast h7
      push_cast at this
      linarith
    have a1 := hwe i
    have a2 := hve i
    have hX0 : 0 ≤ X := (norm_nonneg _).trans (hx i)
    have hY0 : 0 ≤ Y := (norm_nonneg _).trans (hy i)
    have hε0 : 0 ≤ ε := (norm_nonneg _).trans a1
    refine (norm_add_le _ _).trans (add_le_add ((norm_add₃_le).trans ?_) hE')
    rw [norm_mul, norm_mul, norm_mul]
    exact add_le_add (add_le_add (mul_le_mul (hx i) a2 (norm_nonneg _) hX0) (mul_le_mul (hy i) a1 (norm_nonneg _) hY0))
      (mul_le_mul a1 a2 (norm_nonneg _) hε0)

/-- multiplication by a constant polynomial -/
theorem Near.mulConst (h1 : ConvLOGQ LOGQ) (hn : n ≤ 16) {s : Fin (2^(n+1)) → Int}
    {c : R_Q_square LOGQ (2^(n+1))} {x : Fin (2^n) → ℂ} {ε : ℝ} (hc : Near s c x ε)
    {b : R_Q LOGQ (2^(n+1))} (hbc : R_Q.Canonical b) {z : Int} (hb : R_Q.cls b = red LOGQ (Pi.single 0 z)) :
    Ok (R_Q_square.mulR c b) fun y => Near s y (fun i => x i * z) (|(z:ℝ)| * ε) := by
  obtain ⟨hc1, w, hw, hwe⟩ := hc
  refine Ok.mono (mulR_phase (k := n+1) h1 (by omega) (by omega) hc1 hbc s) fun y ⟨hy, hp⟩ =>
    ⟨hy, negconv w (Pi.single 0 z), ?_, fun i => ?_⟩
  · rw [hp, hw, hb, red_negconv]
  · rw [slots_negconv, slots_single, ← sub_mul, norm_mul, Complex.norm_intCast, mul_comm]
    exact mul_le_mul_of_nonneg_left (hwe i) (abs_nonneg _)

/-! ## the blocks of poly.h -/

theorem shl1_ok {L : Nat} (h : L < 64) : ∃ D : W, shl1 L = pure D ∧ D.toNat = 2^L := by
  refine ⟨BitVec.ofNat 64 (2^L), by unfold shl1; rw [if_pos h], ?_⟩
  rw [BitVec.toNat_ofNat, Nat.mod_eq_of_lt (Nat.pow_lt_pow_right (by norm_num) h)]

theorem Near.subOne {s : Fin (2^(n+1)) → Int} {LD : Nat} (hD : LD < 64)
    {c : R_Q_square LOGQ (2^(n+1))} {x : Fin (2^n) → ℂ} {ε : ℝ} (hc : Near s c x ε) :
    Ok (EvalRound.subOne LD c) fun y => Near s y (fun i => x i - (2^LD)^2) ε := by
  obtain ⟨D, eD, hDv⟩ := shl1_ok hD
  have h0 : 0 < 2^(n+1) := Nat.two_pow_pos _
  unfold EvalRound.subOne
  rw [eD, pure_bind]
  simp only []
  rw [rd_of_lt _ h0, pure_bind, wr_of_lt _ h0, pure_bind]
  obtain ⟨hc1, w, hw, hwe⟩ := hc
  refine Ok.pure ⟨⟨fun k => ?_, hc1.2⟩, w - Pi.single 0 ((2^LD)^2), ?_, fun i => ?_⟩
  · simp only [Function.update_apply]
    by_cases hk : k = ⟨0, h0⟩
    · rw [if_pos hk]; exact canonical_sub _ _
    · rw [if_neg hk]; exact hc1.1 k
  · rw [red_sub, ← hw, phase_eq, phase_eq]
    simp only []
    have : R_Q.cls (Function.update c.1 ⟨0, h0⟩ (sub (c.1 ⟨0, h0⟩) (Z_Q.mulW (ofW D) D))) =
        R_Q.cls c.1 - red LOGQ (Pi.single 0 ((2^LD)^2)) := by
      funext k
      simp only [R_Q.cls, red, Function.update_apply, Pi.sub_apply]
      by_cases hk : k = ⟨0, h0⟩
      · subst hk
        rw [if_pos rfl, cls_sub, cls_mulW, cls_ofW, hDv]
        rw [show (⟨0, h0⟩ : Fin (2^(n+1))) = 0 from rfl, Pi.single_eq_same]
        push_cast; ring
      · have hk' : k ≠ 0 := hk
        rw [if_neg hk, Pi.single_eq_of_ne hk']; simp
    rw [this]; abel
  · rw [slots_sub, slots_single]
    push_cast
    have e : slots n w i - (2^LD)^2 - (x i - (2^LD)^2) = slots n w i - x i := by ring
    rw [e]; exact hwe i

end EvalRound

import Verif.Model.FloatMeasure
import Verif.Proofs.FloatTests
import Verif.Props.FloatMessage
import Verif.Props.FloatWord
import Verif.Props.FloatDriver
import Verif.Props.Measure

/-!
# The checks of end_to_end_test in binary64
-/

namespace EvalRound
open Z_Q

variable {n : Nat}

theorem inv_pow_tiny {N : Nat} (h : 60 ≤ N) : (1:ℝ)/2^N ≤ 1/2^60 :=
  one_div_le_one_div_of_le (by positivity) (pow_le_pow_right₀ (by norm_num) h)

/-- one of the two messages of a check -/
theorem sup_subF {H : Nat} (hH : 0 < H) {z x : (Fin H → ℝ) × (Fin H → ℝ)} (h : ∀ i, ‖(⟨z.1 i, z.2 i⟩ : ℂ) - ⟨x.1 i, x.2 i⟩‖ ≤ 2^18) :
    ∃ e a, MsgF.sub z x = pure e ∧ MsgF.sup_norm e = pure a ∧ (∀ i, ‖(⟨z.1 i, z.2 i⟩ : ℂ) - ⟨x.1 i, x.2 i⟩‖ ≤ a + 1/2^30) ∧
      ∀ B, (∀ i, ‖(⟨z.1 i, z.2 i⟩ : ℂ) - ⟨x.1 i, x.2 i⟩‖ ≤ B) → a ≤ B + 1/2^30 := by
  obtain ⟨e, ee, he⟩ := C84_sub z x fun i => (h i).trans (pow_le_pow_right₀ (by norm_num) (by norm_num))
  have t1 := inv_pow_tiny (N := 1074) (by norm_num)
  have t2 := inv_pow_tiny (N := 530) (by norm_num)
  have he' : ∀ i, ‖(⟨e.1 i, e.2 i⟩ : ℂ) - (⟨z.1 i, z.2 i⟩ - ⟨x.1 i, x.2 i⟩)‖ ≤ 1/2^34 := by
    intro i
    have a1 := he i
    have a2 := h i
    generalize ‖(⟨z.1 i, z.2 i⟩ : ℂ) - ⟨x.1 i, x.2 i⟩‖ = w at *
    generalize ‖(⟨e.1 i, e.2 i⟩ : ℂ) - (⟨z.1 i, z.2 i⟩ - ⟨x.1 i, x.2 i⟩)‖ = v at *
    generalize (1:ℝ)/2^1074 = η at *
    clear t2
    norm_num at *
    linarith
  have hup : ∀ i, ‖(⟨e.1 i, e.2 i⟩ : ℂ)‖ ≤ ‖(⟨z.1 i, z.2 i⟩ : ℂ) - ⟨x.1 i, x.2 i⟩‖ + 1/2^34 := by
    intro i
    have := norm_sub_norm_le (⟨e.1 i, e.2 i⟩ : ℂ) (⟨z.1 i, z.2 i⟩ - ⟨x.1 i, x.2 i⟩)
    linarith [he' i]
  have hlo : ∀ i, ‖(⟨z.1 i, z.2 i⟩ : ℂ) - ⟨x.1 i, x.2 i⟩‖ ≤ ‖(⟨e.1 i, e.2 i⟩ : ℂ)‖ + 1/2^34 := by
    intro i
    have := norm_sub_norm_le (⟨z.1 i, z.2 i⟩ - ⟨x.1 i, x.2 i⟩) (⟨e.1 i, e.2 i⟩ : ℂ)
    rw [norm_sub_rev _ (⟨e.1 i, e.2 i⟩ : ℂ)] at this
    linarith [he' i]
  have h19 : ∀ i, ‖(⟨e.1 i, e.2 i⟩ : ℂ)‖ ≤ 2^19 := by
    intro i
    refine (hup i).trans ?_
    have := h i
    norm_num at this ⊢
    linarith
  obtain ⟨a, ea, ha⟩ := C84_sup_norm e fun i => (h19 i).trans (pow_le_pow_right₀ (by norm_num) (by norm_num))
  have : Nonempty (Fin H) := ⟨⟨0, hH⟩⟩
  have hb : (⨆ i, ‖(⟨e.1 i, e.2 i⟩ : ℂ)‖) ≤ 2^19 := ciSup_le h19
  have ha' : |a - ⨆ i, ‖(⟨e.1 i, e.2 i⟩ : ℂ)‖| ≤ 1/2^31 := by
    refine ha.trans ?_
    generalize (1:ℝ)/2^530 = η at *
    clear t1
    norm_num at *
    linarith
  refine ⟨e, a, ee, ea, fun i => ?_, fun B hB => ?_⟩
  · have g1 : ‖(⟨e.1 i, e.2 i⟩ : ℂ)‖ ≤ ⨆ i, ‖(⟨e.1 i, e.2 i⟩ : ℂ)‖ := le_ciSup (f := fun i => ‖(⟨e.1 i, e.2 i⟩ : ℂ)‖) (Set.finite_range _).bddAbove i
    have g2 := (abs_le.1 ha').1
    have g3 := hlo i
    norm_num at g2 g3 ⊢
    linarith
  · have g1 : (⨆ i, ‖(⟨e.1 i, e.2 i⟩ : ℂ)‖) ≤ B + 1/2^34 := ciSup_le fun i => (hup i).trans (by linarith [hB i])
    have g2 := (abs_le.1 ha').2
    norm_num at g1 g2 ⊢
    linarith

theorem div50F {v : ℝ} (h : |v| ≤ 2^66) : Ok (divDeltaF v (BitVec.ofNat 64 (2^50))) fun r => |r - v / 2^50| ≤ 1/2^36 := by
  unfold divDeltaF
  have e1 : fl (((BitVec.ofNat 64 (2^50)).toNat : ℕ) : ℝ) = pure (2^50) := by
    rw [show (BitVec.ofNat 64 (2^50)).toNat = 2^50 from rfl]
    have := C74_word (w := 2^50) (by norm_num)
    exact_mod_cast this
  rw [e1, pure_bind, if_neg (by positivity)]
  have h1 : |v / 2^50| ≤ 2^16 := by
    rw [abs_div, abs_of_pos (a := (2:ℝ)^50) (by positivity), div_le_iff₀ (by positivity), ← pow_add]
    exact h
  refine Ok.mono (fl_near (h1.trans (pow_le_pow_right₀ (by norm_num) (by norm_num)))) fun r hr => hr.trans ?_
  have h2 := etaF_le_uF
  have h3 : uF * |v / 2^50| ≤ uF * 2^16 := mul_le_mul_of_nonneg_left h1 uF_pos.le
  rw [uF_eq] at h2 h3 ⊢
  generalize |v / 2^50| = w at *
  norm_num at h2 h3 ⊢
  linarith

/-- the message made of coefficients in bit-reversed order -/
theorem brvMessageF_spec (hn1 : 1 ≤ n) (hn : n ≤ 30) {f : Nat → M ℝ} {g : Fin (2^(n+1)) → ℝ} (hg : ∀ k, |g k| ≤ 2^65)
    (hf : ∀ k : Fin (2^(n+1)), Ok (f k) fun v => |v - g k| ≤ 2^14) :
    (Ok (brvMessageF (n+1) (BitVec.ofNat 64 (2^50)) f 0) fun x => ∀ i : Fin (2^n),
      ‖(⟨x.1 i, x.2 i⟩ : ℂ) - ⟨g (loIdx i) / 2^50, 0⟩‖ ≤ 1/2^35) ∧
    Ok (brvMessageF (n+1) (BitVec.ofNat 64 (2^50)) f (2^(n+1) / 2)) fun x => ∀ i : Fin (2^n),
      ‖(⟨x.1 i, x.2 i⟩ : ℂ) - ⟨g (hiIdx i) / 2^50, 0⟩‖ ≤ 1/2^35 := by
  have key : ∀ (add : Nat) (idx : Fin (2^n) → Fin (2^(n+1))), (∀ i, (idx i).val = bitRev n i + add) →
      Ok (brvMessageF (n+1) (BitVec.ofNat 64 (2^50)) f add) fun x => ∀ i : Fin (2^n),
        ‖(⟨x.1 i, x.2 i⟩ : ℂ) - ⟨g (idx i) / 2^50, 0⟩‖ ≤ 1/2^35 := by
    intro add idx hidx
    unfold brvMessageF
    refine Ok.bind (tabM_spec (n := 2^(n+1-1)) (P := fun i (x : ℝ) => ∀ h : i < 2^n, |x - g (idx ⟨i, h⟩) / 2^50| ≤ 1/2^35) (fun i hi => ?_)) fun r hr =>
      Ok.pure fun i => ?_
    · refine Ok.bind (brv_ok (n := n) hn1 (by omega) hi) fun k hk => ?_
      have e : k.toNat + add = (idx ⟨i, hi⟩).val := by rw [hidx, hk]
      rw [e]
      refine Ok.bind (hf _) fun v hv => ?_
      have h1 := hg (idx ⟨i, hi⟩)
      have h2 := abs_sub_abs_le_abs_sub v (g (idx ⟨i, hi⟩))
      refine Ok.mono (div50F ?_) fun w hw _ => ?_
      · generalize |g (idx ⟨i, hi⟩)| = a at *
        generalize |v - g (idx ⟨i, hi⟩)| = b at *
        norm_num at *
        linarith
      · have h3 := abs_le.1 hv
        have h4 := abs_le.1 hw
        rw [abs_le]
        norm_num at h3 h4 ⊢
        constructor <;> linarith
    · have h1 := hr i i.isLt
      have e : (⟨r i, 0⟩ : ℂ) - ⟨g (idx i) / 2^50, 0⟩ = ((r i - g (idx i) / 2^50 : ℝ) : ℂ) := by
        rw [show (⟨r i, 0⟩ : ℂ) = ((r i : ℝ) : ℂ) from rfl, show (⟨g (idx i) / 2^50, 0⟩ : ℂ) = ((g (idx i) / 2^50 : ℝ) : ℂ) from rfl,
          ← Complex.ofReal_sub]
      show ‖(⟨r i, 0⟩ : ℂ) - ⟨g (idx i) / 2^50, 0⟩‖ ≤ _
      rw [e, Complex.norm_real, Real.norm_eq_abs]
      exact h1
  refine ⟨key 0 loIdx fun i => rfl, key _ hiIdx fun i => ?_⟩
  show bitRev n i + 2^n = bitRev n i + 2^(n+1)/2
  rw [pow_succ, Nat.mul_div_cancel _ (by norm_num)]

theorem low_abs (x : ℤ) : |((x.sign * (x.natAbs % 2^64 : Nat) : ℤ) : ℝ)| ≤ 2^64 := by
  have h : |x.sign * (x.natAbs % 2^64 : Nat)| ≤ 2^64 := by
    rw [abs_mul]
    have h1 : |x.sign| ≤ 1 := by rcases Int.sign_trichotomy x with h | h | h <;> rw [h] <;> norm_num
    have h2 : x.natAbs % 2^64 < 2^64 := Nat.mod_lt _ (by norm_num)
    have h3 : |((x.natAbs % 2^64 : Nat) : ℤ)| ≤ 2^64 := by rw [abs_of_nonneg (by positivity)]; omega
    calc _ ≤ (1:ℤ) * 2^64 := mul_le_mul h1 h3 (abs_nonneg _) (by norm_num)
      _ = 2^64 := one_mul _
  exact_mod_cast h

theorem low_small {x : ℤ} (h : |x| < 2^64) : x.sign * (x.natAbs % 2^64 : Nat) = x := by
  rw [Int.abs_eq_natAbs] at h
  rw [Nat.mod_eq_of_lt (by omega), Int.sign_mul_natAbs]

theorem rdDoubleF_spec {Q N : Nat} [NeZero Q] {pt : R_Q Q N} (h : pt.Canonical) (k : Fin N) :
    Ok (rdDoubleF pt k) fun v => |v - ((((pt k).sval.sign * ((pt k).sval.natAbs % 2^64 : Nat) : ℤ)) : ℝ)| ≤ 2^12 := by
  unfold rdDoubleF
  rw [rd_of_lt _ k.isLt, pure_bind, C09_double_rounded _ (h _)]
  have h1 := low_abs (pt ⟨k, k.isLt⟩).sval
  refine Ok.mono (fl_near (h1.trans (pow_le_pow_right₀ (by norm_num) (by norm_num)))) fun r hr => hr.trans ?_
  have h2 := etaF_le_uF
  have h3 := mul_le_mul_of_nonneg_left h1 uF_pos.le
  rw [uF_eq] at h2 h3 ⊢
  refine (add_le_add h3 h2).trans (by norm_num)

theorem diffDoubleF_spec {Q : Nat} [NeZero Q] {M : R_Q Q (2^(n+1))} (hM : M.Canonical) {pt : R_Q 60 (2^(n+1))} (hpt : pt.Canonical)
    (k : Fin (2^(n+1))) :
    Ok (diffDoubleF (LOGN := n+1) M pt k) fun v => |v - ((((M k).sval.sign * ((M k).sval.natAbs % 2^64 : Nat) : ℤ) : ℝ) - (pt k).sval)| ≤ 2^14 := by
  unfold diffDoubleF
  refine Ok.bind (rdDoubleF_spec hM k) fun x hx => ?_
  refine Ok.bind (rdDoubleF_spec hpt k) fun y hy => ?_
  have h0 := abs_sval_le (pt k)
  have h0' : |(pt k).sval| < 2^64 := lt_of_le_of_lt h0 (by norm_num)
  rw [Int.abs_eq_natAbs] at h0'
  rw [Nat.mod_eq_of_lt (by omega), Int.sign_mul_natAbs] at hy
  have h1 := low_abs (M k).sval
  have h2 : |((pt k).sval : ℝ)| ≤ 2^59 := by
    have : |(pt k).sval| ≤ 2^59 := h0.trans (by norm_num)
    exact_mod_cast this
  generalize (((M k).sval.sign * ((M k).sval.natAbs % 2^64 : Nat) : ℤ) : ℝ) = a at *
  generalize ((pt k).sval : ℝ) = b at *
  have h3 : |x - y| ≤ 2^65 := by
    have k1 := abs_le.1 hx
    have k2 := abs_le.1 hy
    have k3 := abs_le.1 h1
    have k4 := abs_le.1 h2
    rw [abs_le]
    norm_num at k1 k2 k3 k4 ⊢
    constructor <;> linarith
  refine Ok.mono (fl_near (h3.trans (pow_le_pow_right₀ (by norm_num) (by norm_num)))) fun r hr => ?_
  have h4 := etaF_le_uF
  have h5 := mul_le_mul_of_nonneg_left h3 uF_pos.le
  have h6 := hr.trans (add_le_add h5 h4)
  rw [uF_eq] at h6
  have k1 := abs_le.1 hx
  have k2 := abs_le.1 hy
  have k3 := abs_le.1 h6
  rw [abs_le]
  norm_num at k1 k2 k3 ⊢
  constructor <;> linarith

theorem rdDoubleF_14 {Q N : Nat} [NeZero Q] {pt : R_Q Q N} (h : pt.Canonical) (k : Fin N) :
    Ok (rdDoubleF pt k) fun v => |v - ((((pt k).sval.sign * ((pt k).sval.natAbs % 2^64 : Nat) : ℤ)) : ℝ)| ≤ 2^14 :=
  Ok.mono (rdDoubleF_spec h k) fun v hv => hv.trans (by norm_num)

theorem decTol_check (hn : n ≤ 16) {Y : ℝ} (h0 : 0 ≤ Y) (hY : Y ≤ 26 * 2^10 + 1) : decTol n Y ≤ 1/2^21 := by
  have h1 : Real.sqrt 2 ^ n ≤ 256 := by
    have : Real.sqrt 2 ^ n ≤ Real.sqrt 2 ^ 16 := pow_le_pow_right₀ (by rw [Real.one_le_sqrt]; norm_num) hn
    rwa [show (16:ℕ) = 2 * 8 by norm_num, pow_mul, Real.sq_sqrt (by norm_num), show (2:ℝ)^8 = 256 by norm_num] at this
  have hn' : (n:ℝ) ≤ 16 := by exact_mod_cast hn
  have t := inv_pow_tiny (N := 900) (by norm_num)
  have h2 : Real.sqrt 2 ^ n * ((28 * n + 8) * Y / 2^53) ≤ 256 * ((28 * 16 + 8) * (26 * 2^10 + 1) / 2^53) := by gcongr
  unfold decTol
  refine (add_le_add h2 t).trans (by norm_num)

/-- what a check finds in binary64 when the slots of the two ciphertexts are the coefficients `x` up to `ε` and the expected
coefficients are `g` -/
theorem check_specF {L : Libm} (hL : L.Accurate) {Q : Nat} [NeZero Q] (hn1 : 1 ≤ n) (hn : n ≤ 16) (hQ : Q ≤ 2^29) (hQ' : 67 ≤ Q)
    {s : Fin (2^(n+1)) → Int} (hs : Ternary s)
    {c0 c1 : R_Q_square Q (2^(n+1))} {x g : Fin (2^(n+1)) → ℝ} {ε : ℝ} (hε0 : 0 ≤ ε)
    (h0 : Near s c0 (fun i => (x (loIdx i) : ℂ)) ε) (h1 : Near s c1 (fun i => (x (hiIdx i) : ℂ)) ε)
    (hX : ∀ k, |x k| ≤ 26 * 2^60) (hε : ε ≤ 2^48) {f : Nat → M ℝ} (hg : ∀ k, |g k| ≤ 2^65)
    (hf : ∀ k : Fin (2^(n+1)), Ok (f k) fun v => |v - g k| ≤ 2^14) :
    ∃ (z0 z1 x0 x1 : CVec (n+1)) (r : ℝ), decMessageF (LOGN := n+1) L 50 c0 s = pure z0 ∧ decMessageF (LOGN := n+1) L 50 c1 s = pure z1 ∧
      brvMessageF (n+1) (BitVec.ofNat 64 (2^50)) f 0 = pure x0 ∧
      brvMessageF (n+1) (BitVec.ofNat 64 (2^50)) f (2^(n+1) / 2) = pure x1 ∧ supErrF z0 z1 x0 x1 = pure r ∧
      (∀ d, (∀ k, |x k - g k| ≤ d) → r ≤ (ε + d) / 2^50 + 1/2^20) ∧
      ∀ k, (|x k - g k| - ε) / 2^50 - 1/2^20 ≤ r := by
  have hX' : ∀ k, ‖(x k : ℂ)‖ ≤ 26 * 2^60 := fun k => by rw [Complex.norm_real]; exact hX k
  have hq : (26:ℝ) * 2^60 + ε < 2^(Q-1) := lt_of_lt_of_le (b := 2^66) (by norm_num at hε ⊢; linarith) (pow_le_pow_right₀ (by norm_num) (by omega))
  have hF : (26:ℝ) * 2^60 + ε ≤ 2^900 * 2^50 := by
    have a1 : (26:ℝ) * 2^60 + ε ≤ 2^66 := by norm_num at hε ⊢; linarith
    have a2 : (2:ℝ)^66 ≤ 2^(900+50) := pow_le_pow_right₀ (by norm_num) (by norm_num)
    rw [pow_add] at a2
    exact a1.trans a2
  have hT := decTol_check (n := n) hn (Y := (26 * 2^60 + ε) / 2^50) (by positivity) (by
    rw [div_le_iff₀ (by positivity)]; norm_num at hε ⊢; linarith)
  obtain ⟨z0, e0, hz0⟩ := near_outF (D := 50) hL hn1 (by omega) hQ (by norm_num) hs h0 (fun i => hX' _) hq hF
  obtain ⟨z1, e1, hz1⟩ := near_outF (D := 50) hL hn1 (by omega) hQ (by norm_num) hs h1 (fun i => hX' _) hq hF
  obtain ⟨⟨x0, b0, hx0⟩, x1, b1, hx1⟩ := brvMessageF_spec hn1 (by omega) hg hf
  clear hF hq
  have hd : ∀ (k : Fin (2^(n+1))), ‖(x k : ℂ) / 2^50 - (⟨g k / 2^50, 0⟩ : ℂ)‖ = |x k - g k| / 2^50 := by
    intro k
    have e : (x k : ℂ) / 2^50 - (⟨g k / 2^50, 0⟩ : ℂ) = (((x k - g k) / 2^50 : ℝ) : ℂ) := by
      rw [show (⟨g k / 2^50, 0⟩ : ℂ) = ((g k / 2^50 : ℝ) : ℂ) from rfl]
      push_cast; ring
    rw [e, Complex.norm_real, Real.norm_eq_abs, abs_div, abs_of_pos (a := (2:ℝ)^50) (by positivity)]
  -- the difference of the two messages is the difference of the coefficients
  have both : ∀ (w v : ℂ) (k : Fin (2^(n+1))), ‖w - (x k : ℂ) / 2^50‖ ≤ ε / 2^50 + decTol n ((26 * 2^60 + ε) / 2^50) →
      ‖v - (⟨g k / 2^50, 0⟩ : ℂ)‖ ≤ 1/2^35 → |‖w - v‖ - |x k - g k| / 2^50| ≤ ε / 2^50 + 1/2^21 + 1/2^35 := by
    intro w v k hw hv
    rw [← hd k]
    refine (abs_norm_sub_norm_le _ _).trans ?_
    have e : w - v - ((x k : ℂ) / 2^50 - (⟨g k / 2^50, 0⟩ : ℂ)) = (w - (x k : ℂ) / 2^50) - (v - ⟨g k / 2^50, 0⟩) := by ring
    rw [e]
    refine (norm_sub_le _ _).trans ?_
    linarith
  have a0 := fun i : Fin (2^n) => both ⟨z0.1 i, z0.2 i⟩ ⟨x0.1 i, x0.2 i⟩ (loIdx i) (hz0 i) (hx0 i)
  have a1 := fun i : Fin (2^n) => both ⟨z1.1 i, z1.2 i⟩ ⟨x1.1 i, x1.2 i⟩ (hiIdx i) (hz1 i) (hx1 i)
  have hxg : ∀ k, |x k - g k| / 2^50 ≤ 2^17 := by
    intro k
    have g1 := abs_sub (x k) (g k)
    have g2 := hX k
    have g3 := hg k
    rw [div_le_iff₀ (by positivity)]
    generalize |x k| = p at *
    generalize |g k| = q at *
    generalize |x k - g k| = t at *
    norm_num at *
    linarith
  have h18 : ∀ (w : ℝ) (k : Fin (2^(n+1))), |w - |x k - g k| / 2^50| ≤ ε / 2^50 + 1/2^21 + 1/2^35 → w ≤ 2^18 := by
    intro w k hw
    have g1 := hxg k
    have g2 := (abs_le.1 hw).2
    generalize |x k - g k| / 2^50 = t at *
    norm_num at *
    linarith
  obtain ⟨d0, r0, ed0, er0, l0, u0⟩ := sup_subF (Nat.two_pow_pos n) (z := z0) (x := x0) fun i => h18 _ _ (a0 i)
  obtain ⟨d1, r1, ed1, er1, l1, u1⟩ := sup_subF (Nat.two_pow_pos n) (z := z1) (x := x1) fun i => h18 _ _ (a1 i)
  refine ⟨z0, z1, x0, x1, max r0 r1, e0, e1, b0, b1, ?_, fun d hdk => ?_, fun k => ?_⟩
  · unfold supErrF
    have q0 : MsgF.sub (n := 2^(n+1-1)) z0 x0 = pure d0 := ed0
    have q1 : MsgF.sub (n := 2^(n+1-1)) z1 x1 = pure d1 := ed1
    have q2 : MsgF.sup_norm (n := 2^(n+1-1)) d0 = pure r0 := er0
    have q3 : MsgF.sup_norm (n := 2^(n+1-1)) d1 = pure r1 := er1
    rw [q0, pure_bind, q1, pure_bind, q2, pure_bind, q3, pure_bind]
  · have up : ∀ (w : ℝ) (k : Fin (2^(n+1))), |w - |x k - g k| / 2^50| ≤ ε / 2^50 + 1/2^21 + 1/2^35 → w ≤ (ε + d) / 2^50 + (1/2^21 + 1/2^35) := by
      intro w k hw
      have g1 := div_le_div_of_nonneg_right (hdk k) (show (0:ℝ) ≤ 2^50 by positivity)
      have g2 := (abs_le.1 hw).2
      rw [add_div]
      linarith
    refine max_le ?_ ?_
    · refine (u0 _ fun i => up _ _ (a0 i)).trans ?_
      rw [add_assoc]
      exact add_le_add le_rfl (by norm_num)
    · refine (u1 _ fun i => up _ _ (a1 i)).trans ?_
      rw [add_assoc]
      exact add_le_add le_rfl (by norm_num)
  · have low : ∀ (w r : ℝ) (k : Fin (2^(n+1))), |w - |x k - g k| / 2^50| ≤ ε / 2^50 + 1/2^21 + 1/2^35 → w ≤ r + 1/2^30 →
        (|x k - g k| - ε) / 2^50 - 1/2^20 ≤ r := by
      intro w r k hw hr
      have g2 := (abs_le.1 hw).1
      rw [sub_div]
      generalize |x k - g k| / 2^50 = t at *
      norm_num at g2 hr ⊢
      linarith
    revert k
    refine lo_hi (fun i => ?_) (fun i => ?_)
    · exact (low _ _ _ (a0 i) (l0 i)).trans (le_max_left _ _)
    · exact (low _ _ _ (a1 i) (l1 i)).trans (le_max_right _ _)

end EvalRound

import Verif.Model.Measure
import Verif.Props.Driver

/-!
# The checks of end_to_end_test
-/

namespace EvalRound
open Z_Q

variable {n : Nat}

/-- the number of a check is below a bound on every slot -/
theorem sup_norm_le {H : Nat} {z : (Fin H → ℝ) × (Fin H → ℝ)} {B : ℝ} (h0 : 0 < H)
    (h : ∀ i, ‖(⟨z.1 i, z.2 i⟩ : ℂ)‖ ≤ B) : Msg.sup_norm z ≤ B := by
  obtain ⟨i, hi⟩ := (C45_sup_norm z).2.1 h0
  rw [← hi]; exact h i

theorem supErr_le {z0 z1 x0 x1 : CVec (n+1)} {B : ℝ}
    (h0 : ∀ i : Fin (2^n), ‖(⟨z0.1 i, z0.2 i⟩ : ℂ) - ⟨x0.1 i, x0.2 i⟩‖ ≤ B)
    (h1 : ∀ i : Fin (2^n), ‖(⟨z1.1 i, z1.2 i⟩ : ℂ) - ⟨x1.1 i, x1.2 i⟩‖ ≤ B) : supErr z0 z1 x0 x1 ≤ B :=
  max_le (sup_norm_le (Nat.two_pow_pos _) h0) (sup_norm_le (Nat.two_pow_pos _) h1)

theorem le_supErr {z0 z1 x0 x1 : CVec (n+1)} (i : Fin (2^n)) :
    ‖(⟨z0.1 i, z0.2 i⟩ : ℂ) - ⟨x0.1 i, x0.2 i⟩‖ ≤ supErr z0 z1 x0 x1 ∧
    ‖(⟨z1.1 i, z1.2 i⟩ : ℂ) - ⟨x1.1 i, x1.2 i⟩‖ ≤ supErr z0 z1 x0 x1 :=
  ⟨((C45_sup_norm (Msg.sub z0 x0)).1 i).trans (le_max_left _ _), ((C45_sup_norm (Msg.sub z1 x1)).1 i).trans (le_max_right _ _)⟩

/-- decryption and decoding of a ciphertext with known slots -/
theorem near_decode {Q : Nat} [NeZero Q] (hn1 : 1 ≤ n) (hn : n ≤ 26) (hQ : Q ≤ 2^29) {s : Fin (2^(n+1)) → Int} (hs : Ternary s)
    {c : R_Q_square Q (2^(n+1))} {x : Fin (2^n) → ℂ} {ε X : ℝ} (hc : Near s c x ε) (hX : ∀ i, ‖x i‖ ≤ X)
    (hq : X + ε < 2^(Q-1)) :
    Ok (decMessage (LOGN := n+1) 50 c s) fun z => ∀ i : Fin (2^n), ‖(⟨z.1 i, z.2 i⟩ : ℂ) - x i / 2^50‖ ≤ ε / 2^50 := by
  obtain ⟨_, w, hw, hx⟩ := hc
  have hN : 2^(n+1) ≤ 2^30 := Nat.pow_le_pow_right (by norm_num) (by omega)
  have hwk : ∀ k, |(w k : ℝ)| ≤ X + ε := coeff_le_slots hn1 hn (m := fun k => (w k : ℝ)) fun i => by
    have h1 := hx i
    have h2 := hX i
    have h3 := norm_sub_norm_le (slots n w i) (x i)
    show ‖slots n w i‖ ≤ _
    linarith
  unfold decMessage
  refine Ok.bind (dec_spec hN hs c) fun pt ⟨hpc, hp⟩ => ?_
  have hpt : ∀ k, (pt k).sval = w k := by
    intro k
    have h2 : |(w k : ℝ)| < 2^(Q-1) := lt_of_le_of_lt (hwk k) hq
    have h3 : |w k| < 2^(Q-1) := by exact_mod_cast h2
    have h4 := abs_lt.1 h3
    exact sval_eq_of_cls (congrFun (hp.trans hw) k) h4.1.le h4.2
  refine Ok.mono (decode_log_slot (LOGN := n+1) (by omega) (by omega) hQ hpc) fun z hz i => ?_
  have e : slotOf (fun k => ((pt k).sval : ℝ) / 2^50) i = slots n w i / 2^50 := by
    unfold slots slotOf
    rw [div_eq_mul_inv, Finset.sum_mul]
    refine Finset.sum_congr rfl fun k _ => ?_
    dsimp only; rw [hpt k]; push_cast; ring
  have h1 := hz i
  rw [h1, e, ← sub_div, norm_div, norm_pow, Complex.norm_ofNat]
  exact div_le_div_of_nonneg_right (hx i) (by positivity)

/-- the message made of coefficients in bit-reversed order -/
theorem brvMessage_spec (hn1 : 1 ≤ n) (hn : n ≤ 30) (Delta : W) {f : Nat → M ℝ} {g : Fin (2^(n+1)) → ℝ}
    (hf : ∀ k : Fin (2^(n+1)), f k = pure (g k)) :
    brvMessage (n+1) Delta f 0 = pure (fun i => g (loIdx (n := n) i) / Delta.toNat, fun _ => 0) ∧
    brvMessage (n+1) Delta f (2^(n+1) / 2) = pure (fun i => g (hiIdx (n := n) i) / Delta.toNat, fun _ => 0) := by
  have key : ∀ (add : Nat) (idx : Fin (2^n) → Fin (2^(n+1))), (∀ i, (idx i).val = bitRev n i + add) →
      brvMessage (n+1) Delta f add = pure (fun i => g (idx i) / Delta.toNat, fun _ => 0) := by
    intro add idx hidx
    unfold brvMessage
    obtain ⟨r, er, hr⟩ := tabM_spec (n := 2^(n+1-1)) (f := fun i => do
        let k ← bitReverse (BitVec.ofNat 32 i) (n+1-1)
        let x ← f (k.toNat + add)
        pure (x / (Delta.toNat : ℝ)))
      (P := fun i (x : ℝ) => ∀ h : i < 2^n, x = g (idx ⟨i, h⟩) / Delta.toNat) (fun i hi => by
        refine Ok.bind (brv_ok (n := n) hn1 (by omega) hi) fun k hk => ?_
        have e : k.toNat + add = (idx ⟨i, hi⟩).val := by rw [hidx, hk]
        rw [e, hf, pure_bind]
        exact Ok.pure fun _ => rfl)
    rw [er, pure_bind]
    congr 2
    funext i
    exact hr i i.isLt
  refine ⟨key 0 loIdx fun i => rfl, key _ hiIdx fun i => ?_⟩
  show bitRev n i + 2^n = bitRev n i + 2^(n+1)/2
  rw [pow_succ, Nat.mul_div_cancel _ (by norm_num)]

theorem rdDouble_spec {Q N : Nat} [NeZero Q] {pt : R_Q Q N} (h : pt.Canonical) (k : Fin N) :
    rdDouble pt k = pure (((pt k).sval.sign * ((pt k).sval.natAbs % 2^64 : Nat) : ℤ) : ℝ) := by
  unfold rdDouble
  rw [rd_of_lt _ k.isLt, pure_bind, toDoubleInt_spec (h _)]

theorem rdDouble_small {Q N : Nat} [NeZero Q] {pt : R_Q Q N} (h : pt.Canonical) (k : Fin N) (hk : |(pt k).sval| < 2^64) :
    rdDouble pt k = pure ((pt k).sval : ℝ) := by
  rw [rdDouble_spec h]
  rw [Int.abs_eq_natAbs] at hk
  rw [Nat.mod_eq_of_lt (by omega), Int.sign_mul_natAbs]

/-- what a check finds when the slots of the two ciphertexts are the coefficients `x` up to `ε` and the expected
coefficients are `g` -/
theorem check_spec {Q : Nat} [NeZero Q] (hn1 : 1 ≤ n) (hn : n ≤ 26) (hQ : Q ≤ 2^29) {s : Fin (2^(n+1)) → Int} (hs : Ternary s)
    {c0 c1 : R_Q_square Q (2^(n+1))} {x g : Fin (2^(n+1)) → ℝ} {ε X : ℝ}
    (h0 : Near s c0 (fun i => (x (loIdx i) : ℂ)) ε) (h1 : Near s c1 (fun i => (x (hiIdx i) : ℂ)) ε)
    (hX : ∀ k, |x k| ≤ X) (hq : X + ε < 2^(Q-1)) {f : Nat → M ℝ} (hf : ∀ k : Fin (2^(n+1)), f k = pure (g k)) :
    ∃ z0 z1 x0 x1 : CVec (n+1), decMessage (LOGN := n+1) 50 c0 s = pure z0 ∧ decMessage (LOGN := n+1) 50 c1 s = pure z1 ∧
      brvMessage (n+1) (BitVec.ofNat 64 (2^50)) f 0 = pure x0 ∧
      brvMessage (n+1) (BitVec.ofNat 64 (2^50)) f (2^(n+1) / 2) = pure x1 ∧
      (∀ d, (∀ k, |x k - g k| ≤ d) → supErr z0 z1 x0 x1 ≤ (ε + d) / 2^50) ∧
      ∀ k, (|x k - g k| - ε) / 2^50 ≤ supErr z0 z1 x0 x1 := by
  have hX' : ∀ k, ‖(x k : ℂ)‖ ≤ X := fun k => by rw [Complex.norm_real]; exact hX k
  obtain ⟨z0, e0, hz0⟩ := near_decode hn1 hn hQ hs h0 (fun i => hX' _) hq
  obtain ⟨z1, e1, hz1⟩ := near_decode hn1 hn hQ hs h1 (fun i => hX' _) hq
  obtain ⟨b0, b1⟩ := brvMessage_spec hn1 (by omega) (BitVec.ofNat 64 (2^50)) hf
  have hδ : (((BitVec.ofNat 64 (2^50)).toNat : ℕ) : ℝ) = 2^50 := by
    rw [show (BitVec.ofNat 64 (2^50)).toNat = 2^50 from rfl]; norm_num
  rw [hδ] at b0 b1
  have hd : ∀ (k : Fin (2^(n+1))), ‖(x k : ℂ) / 2^50 - (⟨g k / 2^50, 0⟩ : ℂ)‖ = |x k - g k| / 2^50 := by
    intro k
    have e : (x k : ℂ) / 2^50 - (⟨g k / 2^50, 0⟩ : ℂ) = (((x k - g k) / 2^50 : ℝ) : ℂ) := by
      rw [show (⟨g k / 2^50, 0⟩ : ℂ) = ((g k / 2^50 : ℝ) : ℂ) from rfl]
      push_cast; ring
    rw [e, Complex.norm_real, Real.norm_eq_abs, abs_div, abs_of_pos (a := (2:ℝ)^50) (by positivity)]
  have up : ∀ (w : ℂ) (k : Fin (2^(n+1))), ‖w - (x k : ℂ) / 2^50‖ ≤ ε / 2^50 → ∀ d, |x k - g k| ≤ d →
      ‖w - (⟨g k / 2^50, 0⟩ : ℂ)‖ ≤ (ε + d) / 2^50 := by
    intro w k hw d hdk
    have h3 := norm_sub_le_norm_sub_add_norm_sub w ((x k : ℂ) / 2^50) (⟨g k / 2^50, 0⟩ : ℂ)
    rw [hd k] at h3
    have h4 := div_le_div_of_nonneg_right hdk (show (0:ℝ) ≤ 2^50 by positivity)
    rw [add_div]
    linarith
  have low : ∀ (w : ℂ) (k : Fin (2^(n+1))), ‖w - (x k : ℂ) / 2^50‖ ≤ ε / 2^50 →
      (|x k - g k| - ε) / 2^50 ≤ ‖w - (⟨g k / 2^50, 0⟩ : ℂ)‖ := by
    intro w k hw
    have h3 := norm_sub_le_norm_sub_add_norm_sub ((x k : ℂ) / 2^50) w (⟨g k / 2^50, 0⟩ : ℂ)
    rw [hd k, norm_sub_rev _ w] at h3
    rw [sub_div]
    linarith
  refine ⟨z0, z1, _, _, e0, e1, b0, b1, fun d hdk => supErr_le (fun i => ?_) (fun i => ?_), fun k => ?_⟩
  · exact up _ _ (hz0 i) d (hdk _)
  · exact up _ _ (hz1 i) d (hdk _)
  · revert k
    refine lo_hi (fun i => ?_) (fun i => ?_)
    · exact (low _ _ (hz0 i)).trans (le_supErr (n := n) (z0 := z0) (z1 := z1)
        (x0 := (fun i => g (loIdx (n := n) i) / 2^50, fun _ => 0)) (x1 := (fun i => g (hiIdx (n := n) i) / 2^50, fun _ => 0)) i).1
    · exact (low _ _ (hz1 i)).trans (le_supErr (n := n) (z0 := z0) (z1 := z1)
        (x0 := (fun i => g (loIdx (n := n) i) / 2^50, fun _ => 0)) (x1 := (fun i => g (hiIdx (n := n) i) / 2^50, fun _ => 0)) i).2

end EvalRound

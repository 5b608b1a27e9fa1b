import Verif.Model.InPlaceLT
import Verif.Proofs.InPlace
import Verif.Proofs.LinTrans

/-! Lemmas for C112: key switching, rotation and products of ciphertexts that are zero. -/

namespace EvalRound
open Z_Q Finset

variable {LOGQ k S : Nat} [NeZero LOGQ]

theorem negconv_zero_right {R : Type*} [Ring R] {N : Nat} (a : Fin N → R) : negconv a 0 = 0 := by funext i; simp [negconv]

theorem negconv_zero_left {R : Type*} [Ring R] {N : Nat} (a : Fin N → R) : negconv 0 a = 0 := by funext i; simp [negconv]

theorem eq_setzero {L N : Nat} [NeZero L] {a : R_Q L N} (ha : R_Q.Canonical a) (h : R_Q.cls a = 0) : a = fun _ => setzero :=
  R_Q.ext_cls ha (fun _ => canonical_setzero) (by rw [h]; funext i; exact cls_setzero.symm)

/-- `RS` of a ciphertext that is zero -/
theorem RS_zero {N LF LT : Nat} [NeZero LF] [NeZero LT] (h : LT ≤ LF) (c : R_Q_square LT N) :
    Ok (RS ((fun _ => setzero, fun _ => setzero) : R_Q_square LF N) c) fun y => ∀ i, (y.1 i).val = 0 ∧ (y.2 i).val = 0 := by
  unfold RS
  have hs : ∀ B, Ok (shift_right (setzero : Z_Q LF) B) fun b : Z_Q LT => b.val = 0 := fun B =>
    Ok.mono (shift_right_spec canonical_setzero B h) fun b hb => by
      rw [hb, val_setzero, Nat.zero_add, Nat.div_eq_of_lt, Nat.zero_mod]
      exact Nat.div_lt_self (by positivity) (by norm_num)
  refine Ok.bind (tabM_spec (P := fun i (p : Z_Q LT × Z_Q LT) => p.1.val = 0 ∧ p.2.val = 0) fun i hi => ?_) fun r hr => Ok.pure fun i => hr i
  rw [rd_of_lt _ hi, rd_of_lt _ hi, rd_of_lt _ hi]
  simp only [pure_bind]
  exact Ok.bind (hs _) fun a ha => Ok.bind (hs _) fun b hb => Ok.pure ⟨ha, hb⟩

/-- key switching leaves a ciphertext with second component zero as it is -/
theorem ks_zero (h2 : ConvLOGQ (2 * LOGQ)) (hk1 : 1 ≤ k) (hk : k ≤ 17) {swk : R_Q_square (2 * LOGQ) (2^k)} (hswk : swk.Canonical)
    (a : R_Q LOGQ (2^k)) : Ok (ks swk (a, fun _ => setzero)) fun y => y.Canonical ∧ R_Q.cls y.1 = R_Q.cls a ∧ R_Q.cls y.2 = 0 := by
  unfold ks
  simp only [R_Q_square.copy_eq]
  have hz : R_Q.cls (fun _ => zext setzero : R_Q (2 * LOGQ) (2^k)) = 0 := by
    funext i
    show (((zext (setzero : Z_Q LOGQ)).val : Nat) : ZMod (2^(2 * LOGQ))) = 0
    rw [(zext_spec canonical_setzero).2, val_setzero, Nat.cast_zero]
  refine Ok.bind (mulR_spec h2 hk1 hk hswk (B := fun _ => zext setzero) fun i => (zext_spec canonical_setzero).1) fun x ⟨hx, x1, x2⟩ => ?_
  rw [hz, negconv_zero_right] at x1 x2
  have e : x = (fun _ => setzero, fun _ => setzero) := Prod.ext (eq_setzero hx.1 x1) (eq_setzero hx.2 x2)
  subst e
  refine Ok.bind (RS_zero (by omega) _) fun y hy => Ok.pure ⟨⟨R_Q.canonical_add _ _, R_Q.canonical_add _ _⟩, ?_, ?_⟩
  · show R_Q.cls (R_Q.add _ _) = _
    rw [R_Q.cls_add]
    have : R_Q.cls y.1 = 0 := by funext i; show ((y.1 i).val : ZMod (2^LOGQ)) = 0; rw [(hy i).1]; simp
    rw [this, add_zero]
  · show R_Q.cls (R_Q.add _ _) = _
    rw [R_Q.cls_add]
    have : R_Q.cls y.2 = 0 := by funext i; show ((y.2 i).val : ZMod (2^LOGQ)) = 0; rw [(hy i).2]; simp
    rw [this, add_zero, R_Q.cls_setzero]

/-- the ciphertext with all coefficients zero -/
theorem ct_eq_setzero {c : R_Q_square LOGQ (2^k)} (hc : c.Canonical) (h1 : R_Q.cls c.1 = 0) (h2 : R_Q.cls c.2 = 0) : c = R_Q_square.setzero :=
  Prod.ext (eq_setzero hc.1 h1) (eq_setzero hc.2 h2)

theorem autom_zero {R : Type*} [Ring R] {N : Nat} (g : Nat) : autom g (0 : Fin N → R) = 0 := by funext i; simp [autom]

/-- a rotation of zero is zero -/
theorem rot_ct_zero (h2 : ConvLOGQ (2 * LOGQ)) (hk1 : 1 ≤ k) (hk : k ≤ 17) (r : Nat) {rkey : R_Q_square (2 * LOGQ) (2^k)} (hr : rkey.Canonical)
    (ct0 : R_Q_square LOGQ (2^k)) : rot_ct R_Q_square.setzero r rkey ct0 = pure R_Q_square.setzero := by
  have hN17 : 2^k ≤ 2^17 := Nat.pow_le_pow_right (by norm_num) (by omega)
  have hN : 10 * 2^k ≤ INT_MAX := by unfold INT_MAX; omega
  have hg := fun (j j' : Fin (2^k)) e => pos_inj_of_coprime (five_pow_coprime k r) j j' e
  have hz : R_Q.cls (fun _ => setzero : R_Q LOGQ (2^k)) = 0 := R_Q.cls_setzero
  have e : ∀ d, rotR (fun _ => setzero : R_Q LOGQ (2^k)) d r = pure fun _ => setzero := fun d => by
    obtain ⟨a, ea, a1, a2⟩ := rotR_spec hN Nat.one_le_two_pow r hg (A := (fun _ => setzero : R_Q LOGQ (2^k))) (fun _ => canonical_setzero) d
    rw [hz, autom_zero] at a2
    rw [ea, eq_setzero a1 a2]
  unfold rot_ct
  show (rotR (fun _ => setzero) ct0.1 r >>= fun a => rotR (fun _ => setzero) ct0.2 r >>= fun b => ks rkey (a, b)) = _
  rw [e, pure_bind, e, pure_bind]
  obtain ⟨y, ey, yc, y1, y2⟩ := ks_zero h2 hk1 hk hr (fun _ => setzero : R_Q LOGQ (2^k))
  rw [hz] at y1
  rw [ey, ct_eq_setzero yc y1 y2]

theorem mulR_zero (h1 : ConvLOGQ LOGQ) (hk1 : 1 ≤ k) (hk : k ≤ 17) {B : R_Q LOGQ (2^k)} (hB : R_Q.Canonical B) :
    R_Q_square.mulR (R_Q_square.setzero : R_Q_square LOGQ (2^k)) B = pure R_Q_square.setzero := by
  have hz : R_Q.cls (R_Q_square.setzero : R_Q_square LOGQ (2^k)).1 = 0 := R_Q.cls_setzero
  have hz2 : R_Q.cls (R_Q_square.setzero : R_Q_square LOGQ (2^k)).2 = 0 := R_Q.cls_setzero
  obtain ⟨y, ey, yc, y1, y2⟩ := mulR_spec h1 hk1 hk (x := R_Q_square.setzero) ⟨R_Q.canonical_setzero, R_Q.canonical_setzero⟩ hB
  rw [hz, negconv_zero_left] at y1
  rw [hz2, negconv_zero_left] at y2
  rw [ey, ct_eq_setzero yc y1 y2]

theorem add_setzero : R_Q_square.add (R_Q_square.setzero : R_Q_square LOGQ (2^k)) R_Q_square.setzero = R_Q_square.setzero := by
  refine ct_eq_setzero ⟨R_Q.canonical_add _ _, R_Q.canonical_add _ _⟩ ?_ ?_
  · show R_Q.cls (R_Q.add R_Q.setzero R_Q.setzero) = 0
    rw [R_Q.cls_add, R_Q.cls_setzero, add_zero]
  · show R_Q.cls (R_Q.add R_Q.setzero R_Q.setzero) = 0
    rw [R_Q.cls_add, R_Q.cls_setzero, add_zero]

theorem ltRot_zero (R : Nat) (h2 : ConvLOGQ (2 * LOGQ)) (hk1 : 1 ≤ k) (hk : k ≤ 17) {s : Fin (2^k) → Int} (hs : Ternary s) (off : Int) (ω : Rng) :
    Ok (ltRot R (R_Q_square.setzero : R_Q_square LOGQ (2^k)) off s ω) fun r => r.1 = R_Q_square.setzero := by
  unfold ltRot
  have hN : 2^k ≤ 2^30 := Nat.pow_le_pow_right (by norm_num) (by omega)
  have hN17 : 2^k ≤ 2^17 := Nat.pow_le_pow_right (by norm_num) (by omega)
  have hI : INT_MAX = 2147483647 := by decide
  have hg := fun (j j' : Fin (2^k)) e => pos_inj_of_coprime (five_pow_coprime k off.toNat) j j' e
  by_cases ho : off ≠ 0
  · rw [if_pos ho, rotI_spec (by omega) Nat.one_le_two_pow _ hg s _
      (fun i => by rcases hs i with h | h | h <;> omega), pure_bind]
    refine Ok.bind (swkgen_spec R hN (fun i => ?_) hs R_Q_square.setzero ω) fun rk ⟨hr, _⟩ => ?_
    · have := abs_le.1 (autom_abs hg hs.abs_le i); omega
    rw [rot_ct_zero h2 hk1 hk _ hr, pure_bind]
    exact Ok.pure rfl
  · rw [if_neg ho, R_Q_square.copy_eq]
    exact Ok.pure rfl

/-! ## rotations in place -/

theorem rotOver_canonical (hN : 10 * 2^k ≤ INT_MAX) (r : Nat) {A : R_Q LOGQ (2^k)} (hA : R_Q.Canonical A) : Ok (rotOver A r) R_Q.Canonical := by
  refine rotOver_inv hN Nat.one_le_two_pow r A (fun _ d => R_Q.Canonical d) hA fun n hn d hd i => ?_
  rw [Function.update_apply]
  split_ifs
  · exact hd _
  · exact canonical_negate _
  · exact hd i

theorem rotOver_zero (hN : 10 * 2^k ≤ INT_MAX) (r : Nat) : rotOver (fun _ => setzero : R_Q LOGQ (2^k)) r = pure fun _ => setzero := by
  obtain ⟨d, ed, hd⟩ := rotOver_inv hN Nat.one_le_two_pow r (fun _ => setzero : R_Q LOGQ (2^k)) (fun _ d => R_Q.Canonical d ∧ R_Q.cls d = 0)
    ⟨fun _ => canonical_setzero, R_Q.cls_setzero⟩ fun n hn d ⟨hd, hz⟩ => ⟨fun i => by
      rw [Function.update_apply]
      split_ifs
      · exact hd _
      · exact canonical_negate _
      · exact hd i, funext fun i => by
      show (Function.update d _ _ i).cls = 0
      have hz' : ∀ i, (d i).cls = 0 := fun i => congrFun hz i
      rw [Function.update_apply]
      split_ifs
      · exact hz' _
      · rw [cls_negate, hz', neg_zero]
      · exact hz' i⟩
  rw [ed, eq_setzero hd.1 hd.2]

theorem conjOver_zero : conjOver (fun _ => setzero : R_Q LOGQ (2^k)) = pure fun _ => setzero := by
  have hN1 : 0 < 2^k := by positivity
  have key : Ok (conjOver (fun _ => setzero : R_Q LOGQ (2^k))) fun d => R_Q.Canonical d ∧ R_Q.cls d = 0 := by
    unfold conjOver
    rw [rd_of_lt _ hN1, pure_bind, wr_of_lt _ hN1, pure_bind, Z_Q.copy_eq, Function.update_eq_self]
    refine forUp_inv (P := fun _ (d : R_Q LOGQ (2^k)) => R_Q.Canonical d ∧ R_Q.cls d = 0) hN1 ⟨fun _ => canonical_setzero, R_Q.cls_setzero⟩ ?_
    intro n d hn1 hn ⟨hd, hz⟩
    have hz' : ∀ i, (d i).cls = 0 := fun i => congrFun hz i
    rw [rd_of_lt _ (by omega : 2^k - n < 2^k), pure_bind, wr_of_lt _ hn, pure_bind, rd_of_lt _ hn, pure_bind,
      wr_of_lt _ hn, Function.update_self, Function.update_idem]
    refine Ok.pure ⟨fun i => ?_, funext fun i => ?_⟩
    · rw [Function.update_apply]
      split_ifs
      · exact canonical_negate _
      · exact hd i
    · show (Function.update d _ _ i).cls = 0
      rw [Function.update_apply]
      split_ifs
      · rw [cls_negate, Z_Q.copy_eq, hz', neg_zero]
      · exact hz' i
  obtain ⟨d, ed, h1, h2⟩ := key
  rw [ed, eq_setzero h1 h2]

end EvalRound

import Verif.Proofs.InPlace
import Verif.Props.Rot

/-!
# C108: calls of `Mul`, `conj` and `rot` whose result is also an operand

`Mul` writes the switched part of the product into its result before it reads the first components of its operands. If
the result is one of the operands, the message of that operand is lost. `conj` and `rot` read entries which they have written before.
-/

namespace EvalRound
open Z_Q Finset

section
variable {LOGQ k : Nat} [NeZero LOGQ]

/-- C108: `Mul(ct,ct2,evk,ct)` returns, but its result does not depend on the first component of `ct`, which is the one that holds the message. -/
theorem C108_mul_first (hQ : LOGQ ≤ 60 ∨ 65 ≤ LOGQ) (hQ2 : 2 * LOGQ ≤ 60 ∨ 65 ≤ 2 * LOGQ ∧ 2 * LOGQ ≤ 3051) (hk1 : 1 ≤ k) (hk : k ≤ 17)
    (evk : R_Q_square (2 * LOGQ) (2^k)) (hevk : evk.Canonical) (ct ct' ct2 : R_Q_square LOGQ (2^k)) (h : ct.Canonical) (hc2 : ct2.Canonical) (he : ct'.2 = ct.2) :
    Ok (MulOver1 ct ct2 evk) fun y => y.Canonical ∧ MulOver1 ct' ct2 evk = pure y := by
  have h1 : ConvLOGQ LOGQ := by unfold ConvLOGQ; omega
  have h2 : ConvLOGQ (2 * LOGQ) := by unfold ConvLOGQ; omega
  unfold MulOver1
  rw [he]
  refine Ok.bind (mulSwitch_ok h1 h2 hk1 hk hevk h.2 hc2.2 ct) fun w ⟨hw, hi, _⟩ => ?_
  rw [hi ct', pure_bind]
  obtain ⟨y, ey, yc, _⟩ := mulRest_ok h1 hk1 hk (c := w) hw hc2
  exact ⟨y, ey, yc, ey⟩

/-- C108: `Mul(ct1,ct,evk,ct)`: the same for the second operand. -/
theorem C108_mul_second (hQ : LOGQ ≤ 60 ∨ 65 ≤ LOGQ) (hQ2 : 2 * LOGQ ≤ 60 ∨ 65 ≤ 2 * LOGQ ∧ 2 * LOGQ ≤ 3051) (hk1 : 1 ≤ k) (hk : k ≤ 17)
    (evk : R_Q_square (2 * LOGQ) (2^k)) (hevk : evk.Canonical) (ct1 ct ct' : R_Q_square LOGQ (2^k)) (hc1 : ct1.Canonical) (h : ct.Canonical) (he : ct'.2 = ct.2) :
    Ok (MulOver2 ct1 ct evk) fun y => y.Canonical ∧ MulOver2 ct1 ct' evk = pure y := by
  have h1 : ConvLOGQ LOGQ := by unfold ConvLOGQ; omega
  have h2 : ConvLOGQ (2 * LOGQ) := by unfold ConvLOGQ; omega
  unfold MulOver2
  rw [he]
  refine Ok.bind (mulSwitch_ok h1 h2 hk1 hk hevk hc1.2 h.2 ct) fun w ⟨hw, hi, _⟩ => ?_
  rw [hi ct', pure_bind]
  obtain ⟨y, ey, yc, _⟩ := mulRest_ok h1 hk1 hk (c := w) hc1 hw
  exact ⟨y, ey, yc, ey⟩

/-- C108: `Mul(ct,ct,evk,ct)`: squaring in place depends on the second component alone. -/
theorem C108_square (hQ : LOGQ ≤ 60 ∨ 65 ≤ LOGQ) (hQ2 : 2 * LOGQ ≤ 60 ∨ 65 ≤ 2 * LOGQ ∧ 2 * LOGQ ≤ 3051) (hk1 : 1 ≤ k) (hk : k ≤ 17)
    (evk : R_Q_square (2 * LOGQ) (2^k)) (hevk : evk.Canonical) (ct ct' : R_Q_square LOGQ (2^k)) (h : ct.Canonical) (he : ct'.2 = ct.2) :
    Ok (MulOver12 ct evk) fun y => y.Canonical ∧ MulOver12 ct' evk = pure y := by
  have h1 : ConvLOGQ LOGQ := by unfold ConvLOGQ; omega
  have h2 : ConvLOGQ (2 * LOGQ) := by unfold ConvLOGQ; omega
  unfold MulOver12
  rw [he]
  refine Ok.bind (mulSwitch_ok h1 h2 hk1 hk hevk h.2 h.2 ct) fun w ⟨hw, hi, _⟩ => ?_
  rw [hi ct', pure_bind]
  obtain ⟨y, ey, yc, _⟩ := mulRest_ok h1 hk1 hk (c := w) hw hw
  exact ⟨y, ey, yc, ey⟩

/-- C108: the difference in a case without noise. For a first operand with second component zero (a plaintext) `Mul` into a third object is the exact
product of both components with the plaintext; into the first operand it gives zero, whatever the other operand and the key. -/
theorem C108_plain (hQ : LOGQ ≤ 60 ∨ 65 ≤ LOGQ) (hQ2 : 2 * LOGQ ≤ 60 ∨ 65 ≤ 2 * LOGQ ∧ 2 * LOGQ ≤ 3051) (hk1 : 1 ≤ k) (hk : k ≤ 17)
    (evk : R_Q_square (2 * LOGQ) (2^k)) (hevk : evk.Canonical) (ct ct2 ct30 : R_Q_square LOGQ (2^k)) (h : ct.Canonical) (hc2 : ct2.Canonical)
    (hz : ∀ i, (ct.2 i).sval = 0) :
    (Ok (Mul ct ct2 evk ct30) fun y => ∀ i, (y.1 i).cls = negconv (fun j => (ct.1 j).cls) (fun j => (ct2.1 j).cls) i ∧
      (y.2 i).cls = negconv (fun j => (ct.1 j).cls) (fun j => (ct2.2 j).cls) i) ∧
    Ok (MulOver1 ct ct2 evk) fun y => ∀ i, (y.1 i).sval = 0 ∧ (y.2 i).sval = 0 := by
  have h1 : ConvLOGQ LOGQ := by unfold ConvLOGQ; omega
  have h2 : ConvLOGQ (2 * LOGQ) := by unfold ConvLOGQ; omega
  have hz' : R_Q.cls ct.2 = 0 := by
    funext i
    show (ct.2 i).cls = 0
    rw [← sval_cls, hz i, Int.cast_zero]
  have hn0 : ∀ a : Fin (2^k) → ZMod (2^LOGQ), negconv 0 a = 0 := fun a => by funext i; simp [negconv]
  have hp : (0:Int) < 2^(LOGQ-1) := by positivity
  constructor
  · rw [Mul_eq]
    refine Ok.bind (mulSwitch_ok h1 h2 hk1 hk hevk h.2 hc2.2 ct30) fun w ⟨hw, _, hw0⟩ => ?_
    obtain ⟨z1, z2⟩ := hw0 (Or.inl hz')
    refine Ok.mono (mulRest_ok h1 hk1 hk (c := w) h hc2) fun y ⟨_, y1, y2⟩ i => ?_
    rw [z1, zero_add] at y1
    rw [z2, zero_add, hz', hn0, zero_add] at y2
    exact ⟨congrFun y1 i, congrFun y2 i⟩
  · unfold MulOver1
    refine Ok.bind (mulSwitch_ok h1 h2 hk1 hk hevk h.2 hc2.2 ct) fun w ⟨hw, _, hw0⟩ => ?_
    obtain ⟨z1, z2⟩ := hw0 (Or.inl hz')
    refine Ok.mono (mulRest_ok h1 hk1 hk (c := w) hw hc2) fun y ⟨_, y1, y2⟩ i => ?_
    rw [z1, hn0, add_zero] at y1
    rw [z1, z2, hn0, hn0, add_zero, add_zero] at y2
    exact ⟨sval_eq_of_cls (by rw [Int.cast_zero]; exact congrFun y1 i) (by omega) hp,
      sval_eq_of_cls (by rw [Int.cast_zero]; exact congrFun y2 i) (by omega) hp⟩

end

section
variable {LOGQ N : Nat} [NeZero LOGQ]

/-- C108: `conj(pt,pt)` conjugates the first half of the coefficients and leaves the second half as it was. -/
theorem C108_conj (hN1 : 1 ≤ N) (A : R_Q LOGQ N) :
    Ok (conjOver A) fun B => (B ⟨0, hN1⟩).cls = (A ⟨0, hN1⟩).cls ∧
      (∀ i : Fin N, (h1 : 1 ≤ i.val) → 2 * i.val ≤ N → (B i).cls = -(A ⟨N - i, by omega⟩).cls) ∧
      ∀ i : Fin N, N < 2 * i.val → (B i).cls = (A i).cls := by
  refine Ok.mono (conjOver_spec hN1 A) fun B hB => ⟨?_, fun i h1 h2 => ?_, fun i h => ?_⟩
  · rw [hB, dif_pos rfl]
  · rw [hB, dif_neg (by omega), if_pos h2]
  · rw [hB, dif_neg (by omega), if_neg (by omega)]

/-- C108: so it is right exactly when the upper half already was the negated mirror image of the lower. -/
theorem C108_conj_iff (hN1 : 1 ≤ N) (A d0 : R_Q LOGQ N) (hA : R_Q.Canonical A) :
    (∃ B, conjOver A = pure B ∧ Ok (conjR A d0) fun C => ∀ i, (B i).cls = (C i).cls) ↔
      ∀ i : Fin N, (h : N < 2 * i.val) → (A i).cls = -(A ⟨N - i, by omega⟩).cls := by
  obtain ⟨B, eB, hB⟩ := conjOver_spec hN1 A
  obtain ⟨C, eC, _, hC⟩ := conjR_spec hN1 hA d0
  have hC' : ∀ i : Fin N, (C i).cls = if h : i.val = 0 then (A i).cls else -(A ⟨N - i, by omega⟩).cls := fun i => by
    rw [show (C i).cls = R_Q.cls C i from rfl, hC, autom_conj hN1]; rfl
  constructor
  · rintro ⟨B', eB', C', eC', h⟩ i hi
    obtain rfl := pure_inj (eB.symm.trans eB')
    obtain rfl := pure_inj (eC.symm.trans eC')
    have h0 := h i
    rw [hB, hC', dif_neg (by omega), if_neg (by omega), dif_neg (by omega)] at h0
    exact h0
  · intro h
    refine ⟨B, eB, C, eC, fun i => ?_⟩
    rw [hB, hC']
    by_cases h0 : i.val = 0
    · rw [dif_pos h0, dif_pos h0]
    · rw [dif_neg h0, dif_neg h0]
      split_ifs with h2
      · rfl
      · exact h i (by omega)

/-- C108: let `q` be `5^r` modulo `N`, and not 1. `rot(pt,pt,r)` carries coefficient 1 to position `q` and from there on to position `5^r q`:
where the rotated polynomial has coefficient `q` of `A`, up to its sign, the result has coefficient 1 up to a sign. -/
theorem C108_rot {k : Nat} (hk1 : 1 ≤ k) (hk : k ≤ 27) (r : Nat) (hq : 5^r % 2^k ≠ 1) (A d0 : R_Q LOGQ (2^k)) (hA : R_Q.Canonical A) :
    Ok (rotOver A r) fun B => Ok (rotR A d0 r) fun C => ∃ σ τ : ZMod (2^LOGQ), (σ = 1 ∨ σ = -1) ∧ (τ = 1 ∨ τ = -1) ∧
      (B ⟨5^r * (5^r % 2^k) % 2^k, Nat.mod_lt _ (by positivity)⟩).cls = σ * (τ * (A ⟨1, Nat.one_lt_two_pow (by omega)⟩).cls) ∧
      (C ⟨5^r * (5^r % 2^k) % 2^k, Nat.mod_lt _ (by positivity)⟩).cls = σ * (A ⟨5^r % 2^k, Nat.mod_lt _ (by positivity)⟩).cls := by
  have hg := fun (j j' : Fin (2^k)) (e : 5^r * j.val % 2^k = 5^r * j'.val % 2^k) => pos_inj_of_coprime (five_pow_coprime k r) j j' e
  refine Ok.mono (rotOver_carry (ten_le hk) (Nat.one_lt_two_pow (by omega)) r A
    (fun i j hi hj h => Fin.ext_iff.1 (hg ⟨i, hi⟩ ⟨j, hj⟩ h)) hq) fun B hB => ?_
  refine Ok.mono (rotR_spec (ten_le hk) Nat.one_le_two_pow r hg hA d0) fun C ⟨_, hC⟩ => ?_
  have hC5 := autom_at hg (R_Q.cls A) ⟨5^r % 2^k, Nat.mod_lt _ (by positivity)⟩ ⟨5^r * (5^r % 2^k) % 2^k, Nat.mod_lt _ (by positivity)⟩ rfl
  rw [← hC] at hC5
  refine ⟨_, _, ?_, ?_, hB, ?_⟩
  · split_ifs <;> simp
  · split_ifs <;> simp
  · refine Eq.trans hC5 ?_
    split_ifs
    · rw [one_mul]; rfl
    · rw [neg_one_mul]; rfl

/-- C108: hence it is wrong for every polynomial whose coefficient `q` is neither coefficient 1 nor its negation. -/
theorem C108_rot_wrong {k : Nat} (hk1 : 1 ≤ k) (hk : k ≤ 27) (r : Nat) (hq : 5^r % 2^k ≠ 1) (A d0 : R_Q LOGQ (2^k)) (hA : R_Q.Canonical A)
    (h1 : (A ⟨5^r % 2^k, Nat.mod_lt _ (by positivity)⟩).cls ≠ (A ⟨1, Nat.one_lt_two_pow (by omega)⟩).cls)
    (h2 : (A ⟨5^r % 2^k, Nat.mod_lt _ (by positivity)⟩).cls ≠ -(A ⟨1, Nat.one_lt_two_pow (by omega)⟩).cls) :
    rotOver A r ≠ rotR A d0 r := by
  obtain ⟨B, eB, C, eC, σ, τ, hσ, hτ, e1, e2⟩ := C108_rot hk1 hk r hq A d0 hA
  intro h
  have hBC : B = C := pure_inj (eB.symm.trans (h.trans eC))
  rw [hBC, e2] at e1
  rcases hσ with rfl | rfl <;> rcases hτ with rfl | rfl <;> simp only [one_mul, neg_one_mul, neg_inj] at e1
  · exact h1 e1
  · exact h2 e1
  · exact h1 e1
  · exact h2 e1

/-- C108: `rot(pt,pt,r)` is right for all polynomials exactly when `5^r` is 1 modulo `N`. -/
theorem C108_rot_iff {k : Nat} (hk1 : 1 ≤ k) (hk : k ≤ 27) (r : Nat) (d0 : R_Q LOGQ (2^k)) :
    (∀ A : R_Q LOGQ (2^k), R_Q.Canonical A → rotOver A r = rotR A d0 r) ↔ 5^r % 2^k = 1 := by
  constructor
  · intro h
    by_contra hq
    have hv1 : (ofNat LOGQ 1).val = 1 := val_ofNat_of_lt (Nat.one_lt_two_pow (NeZero.ne _))
    have hX : R_Q.Canonical (fun i => if i.val = 1 then ofNat LOGQ 1 else setzero : R_Q LOGQ (2^k)) := fun i => by
      dsimp only
      split_ifs
      · unfold Z_Q.Canonical
        rw [hv1]; exact Nat.one_lt_two_pow (NeZero.ne _)
      · exact canonical_setzero
    have hone : (ofNat LOGQ 1).cls = 1 := by unfold Z_Q.cls; rw [hv1, Nat.cast_one]
    have hne : (1 : ZMod (2^LOGQ)) ≠ 0 := by
      have : Fact (1 < 2^LOGQ) := ⟨Nat.one_lt_two_pow (NeZero.ne _)⟩
      exact one_ne_zero
    refine C108_rot_wrong hk1 hk r hq _ d0 hX ?_ ?_ (h _ hX)
    · rw [if_neg hq, if_pos rfl, cls_setzero, hone]; exact hne.symm
    · rw [if_neg hq, if_pos rfl, cls_setzero, hone]; exact fun e => hne (neg_eq_zero.1 e.symm)
  · intro hq A hA
    have hg := fun (j j' : Fin (2^k)) (e : 5^r * j.val % 2^k = 5^r * j'.val % 2^k) => pos_inj_of_coprime (five_pow_coprime k r) j j' e
    have hst : ∀ i < 2^k, 5^r * i % 2^k = i := fun i hi => by rw [Nat.mul_mod, hq, one_mul, Nat.mod_mod, Nat.mod_eq_of_lt hi]
    obtain ⟨B, eB, hBc, hB⟩ := rotOver_stay (ten_le hk) Nat.one_le_two_pow r hA hst
    obtain ⟨C, eC, hCc, hC⟩ := rotR_spec (ten_le hk) Nat.one_le_two_pow r hg hA d0
    rw [eB, eC]
    congr 1
    funext i
    refine canonical_ext (hBc i) (hCc i) ?_
    rw [hB, show (C i).cls = R_Q.cls C i from rfl, hC, autom_at hg (R_Q.cls A) i i (hst i i.isLt)]
    rfl

end

/-! ## cases that meet the hypotheses -/

/-- the plaintext 3 in dimension 4 -/
example : (∀ i, ((fun i => if i.val = 0 then ofNat 100 3 else setzero : R_Q 100 (2^2)) i).Canonical) ∧
    (∀ i : Fin (2^2), ((fun _ => setzero : R_Q 100 (2^2)) i).sval = 0) ∧ (65 ≤ 100 ∧ 65 ≤ 2 * 100 ∧ 2 * 100 ≤ 3051) := by
  refine ⟨fun i => ?_, fun i => ?_, by norm_num⟩
  · dsimp only
    split_ifs
    · unfold Z_Q.Canonical; rw [val_ofNat_of_lt (by norm_num)]; norm_num
    · exact canonical_setzero
  · exact sval_eq_of_cls (by rw [Int.cast_zero]; exact cls_setzero) (by norm_num) (by norm_num)

/-- rotation by one in dimension 8 is wrong for some polynomial, rotation by two is right for all -/
example (d0 : R_Q 100 (2^3)) : (¬ ∀ A : R_Q 100 (2^3), R_Q.Canonical A → rotOver A 1 = rotR A d0 1) ∧
    ∀ A : R_Q 100 (2^3), R_Q.Canonical A → rotOver A 2 = rotR A d0 2 :=
  ⟨(C108_rot_iff (by norm_num) (by norm_num) 1 d0).not.2 (by norm_num), (C108_rot_iff (by norm_num) (by norm_num) 2 d0).2 (by norm_num)⟩

/-- `X` in dimension 8: the conjugate in place is wrong -/
example : ¬ ∀ i : Fin (2^3), (h : 2^3 < 2 * i.val) → ((fun i => if i.val = 1 then ofNat 100 1 else setzero : R_Q 100 (2^3)) i).cls =
    -((fun i => if i.val = 1 then ofNat 100 1 else setzero : R_Q 100 (2^3)) ⟨2^3 - i, by omega⟩).cls := by
  intro h
  have h7 := h ⟨7, by norm_num⟩ (by norm_num)
  dsimp only at h7
  rw [if_neg (by norm_num), if_pos (by norm_num), cls_setzero] at h7
  have h0 : (ofNat 100 1).cls = (setzero : Z_Q 100).cls := by rw [cls_setzero]; exact neg_eq_zero.1 h7.symm
  have := congrArg Z_Q.val (canonical_ext (by unfold Z_Q.Canonical; rw [val_ofNat_of_lt (by norm_num)]; norm_num) canonical_setzero h0)
  rw [val_ofNat_of_lt (by norm_num), val_setzero] at this
  exact absurd this (by norm_num)

end EvalRound

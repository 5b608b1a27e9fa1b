import Verif.Proofs.InPlaceLT
import Verif.Props.InPlace
import Verif.Props.LinTrans

/-!
# C112: linear transforms, rotations and conjugation of ciphertexts whose result is also the operand

`linear_transform` clears its result before it reads its operand. If both are one object, the result is zero.
-/

namespace EvalRound
open Z_Q Finset

section
variable {LOGQ S : Nat} [NeZero LOGQ]

/-- C112: `linear_transform(Ar,Ai,ct,skey,ct)` returns and leaves every coefficient of `ct` zero, whatever the matrix, the key, the random numbers and `ct`. -/
theorem C112_linear_transform (RAND_MAX LOGDELTA : Nat) (hL : LOGDELTA < 64) (hQ : GoodQ LOGQ) (k : Nat)
    (hk1 : 1 ≤ k) (hk : k ≤ 17) (s : Fin (2^k) → Int) (hs : ∀ k, s k = -1 ∨ s k = 0 ∨ s k = 1)
    (A : SD2 (2^(k-1)) S) (hoff : A.1.off = A.2.off)
    (hpt : ∀ t, ¬ (A.1.zero t = true ∧ A.2.zero t = true) →
      Ok (encode LOGQ (LOGN := k) (A.1.vec t, A.2.vec t) (BitVec.ofNat 64 (2^LOGDELTA))) R_Q.Canonical) (ω : Rng) :
    Ok (linTransOver (LOGQ := LOGQ) RAND_MAX LOGDELTA A s ω) fun r => ∀ i, (r.1.1 i).val = 0 ∧ (r.1.2 i).val = 0 := by
  unfold linTransOver
  refine Ok.mono (forUp_inv (P := fun _ (st : R_Q_square LOGQ (2^k) × Rng) => st.1 = R_Q_square.setzero) (Nat.zero_le S) rfl ?_)
    fun r hr i => ?_
  · rintro n ⟨acc, ω⟩ _ hn hacc
    obtain rfl : acc = R_Q_square.setzero := hacc
    rw [dif_pos hn]
    unfold ltStep
    rw [show decide (A.1.off ⟨n, hn⟩ = A.2.off ⟨n, hn⟩) = true by rw [hoff]; simp]
    rw [show assertM true = pure () from rfl, pure_bind]
    by_cases ha : ¬ (A.1.zero ⟨n, hn⟩ = true ∧ A.2.zero ⟨n, hn⟩ = true)
    · rw [if_neg (by rw [Bool.and_eq_true]; exact ha)]
      unfold shl1
      rw [if_pos hL, pure_bind]
      refine Ok.bind (hpt _ ha) fun pt hc => ?_
      refine Ok.bind (ltRot_zero RAND_MAX hQ.two hk1 hk hs _ ω) fun r hr => ?_
      rw [hr, mulR_zero hQ.one hk1 hk hc, pure_bind]
      exact Ok.pure add_setzero
    · rw [if_pos (by rw [Bool.and_eq_true]; exact not_not.1 ha)]
      exact Ok.pure rfl
  · rw [hr]
    exact ⟨val_setzero, val_setzero⟩

/-- C112: the same for the overload with an array of keys, if no diagonal that is used has offset 0 (with one the call reads an
uninitialised ciphertext, C42). -/
theorem C112_linear_transform_keys (LOGDELTA : Nat) (hL : LOGDELTA < 64) (hQ : GoodQ LOGQ) (k : Nat) (hk1 : 1 ≤ k) (hk : k ≤ 17)
    (A : SD2 (2^(k-1)) S) (hoff : ∀ t, ¬ (A.1.zero t = true ∧ A.2.zero t = true) → A.1.off t ≠ 0)
    (hpt : ∀ t, ¬ (A.1.zero t = true ∧ A.2.zero t = true) →
      Ok (encode LOGQ (LOGN := k) (A.1.vec t, A.2.vec t) (BitVec.ofNat 64 (2^LOGDELTA))) R_Q.Canonical)
    (rkey : Fin S → R_Q_square (2 * LOGQ) (2^k)) (hr : ∀ t, (rkey t).Canonical) (mem : Fin S → Option (R_Q_square LOGQ (2^k))) :
    Ok (linTransKeysOver LOGDELTA A rkey mem) fun r => ∀ i, (r.1 i).val = 0 ∧ (r.2 i).val = 0 := by
  unfold linTransKeysOver
  refine Ok.mono (forUp_inv (P := fun _ (st : R_Q_square LOGQ (2^k)) => st = R_Q_square.setzero) (Nat.zero_le S) rfl ?_)
    fun r hr i => ?_
  · rintro n acc _ hn rfl
    rw [dif_pos hn]
    unfold ltKeysStep
    by_cases ha : ¬ (A.1.zero ⟨n, hn⟩ = true ∧ A.2.zero ⟨n, hn⟩ = true)
    · rw [if_pos ((ltKeys_act A _).2 ha)]
      unfold shl1
      rw [if_pos hL, pure_bind]
      refine Ok.bind (hpt _ ha) fun pt hc => ?_
      unfold ltKeysRot
      rw [if_pos (hoff _ ha), rot_ct_zero hQ.two hk1 hk _ (hr _), pure_bind, pure_bind]
      show Ok (R_Q_square.mulR R_Q_square.setzero pt >>= _) _
      rw [mulR_zero hQ.one hk1 hk hc, pure_bind]
      exact Ok.pure add_setzero
    · rw [if_neg (fun h => ha ((ltKeys_act A _).1 h))]
      exact Ok.pure rfl
  · rw [hr]
    exact ⟨val_setzero, val_setzero⟩

end

section
variable {LOGQ k : Nat} [NeZero LOGQ]

/-- C112: `rot_ct(ct,r,rkey,ct)` does for every ciphertext and key what the call into another object does exactly when `5^r` is 1 modulo `N`. -/
theorem C112_rot_ct_iff (hQ2 : 2 * LOGQ ≤ 60 ∨ 65 ≤ 2 * LOGQ ∧ 2 * LOGQ ≤ 3051) (hk1 : 1 ≤ k) (hk : k ≤ 17) (r : Nat) (ct0 : R_Q_square LOGQ (2^k)) :
    (∀ (ct : R_Q_square LOGQ (2^k)) (rkey : R_Q_square (2 * LOGQ) (2^k)), ct.Canonical → rkey.Canonical →
      rot_ctOver ct r rkey = rot_ct ct r rkey ct0) ↔ 5^r % 2^k = 1 := by
  have h2 : ConvLOGQ (2 * LOGQ) := by unfold ConvLOGQ; omega
  have hN17 : 2^k ≤ 2^17 := Nat.pow_le_pow_right (by norm_num) (by omega)
  have hN : 10 * 2^k ≤ INT_MAX := by unfold INT_MAX; omega
  have hg := fun (j j' : Fin (2^k)) e => pos_inj_of_coprime (five_pow_coprime k r) j j' e
  constructor
  · intro h
    refine (C108_rot_iff hk1 (by omega) r ct0.1).1 fun A hA => ?_
    have e := h (A, fun _ => setzero) (R_Q_square.setzero : R_Q_square (2 * LOGQ) (2^k)) ⟨hA, fun _ => canonical_setzero⟩
      ⟨R_Q.canonical_setzero, R_Q.canonical_setzero⟩
    obtain ⟨B, eB, hB⟩ := rotOver_canonical hN r hA
    obtain ⟨C, eC, hC, _⟩ := rotR_spec hN Nat.one_le_two_pow r hg hA ct0.1
    obtain ⟨Z, eZ, hZ, hZ0⟩ := rotR_spec hN Nat.one_le_two_pow r hg (A := (fun _ => setzero : R_Q LOGQ (2^k))) (fun _ => canonical_setzero) ct0.2
    rw [show R_Q.cls (fun _ => setzero : R_Q LOGQ (2^k)) = 0 from R_Q.cls_setzero, autom_zero] at hZ0
    obtain rfl := eq_setzero hZ hZ0
    unfold rot_ctOver rot_ct at e
    dsimp only at e
    rw [eB, eC, pure_bind, pure_bind, rotOver_zero hN, eZ, pure_bind, pure_bind] at e
    obtain ⟨y, ey, _, y1, _⟩ := ks_zero (swk := (R_Q_square.setzero : R_Q_square (2 * LOGQ) (2^k))) h2 hk1 hk ⟨R_Q.canonical_setzero, R_Q.canonical_setzero⟩ B
    obtain ⟨z, ez, _, z1, _⟩ := ks_zero (swk := (R_Q_square.setzero : R_Q_square (2 * LOGQ) (2^k))) h2 hk1 hk ⟨R_Q.canonical_setzero, R_Q.canonical_setzero⟩ C
    rw [ey, ez] at e
    obtain rfl := pure_inj e
    rw [eB, eC, R_Q.ext_cls hB hC (y1.symm.trans z1)]
  · intro h ct rkey hct _
    unfold rot_ctOver rot_ct
    rw [(C108_rot_iff hk1 (by omega) r ct0.1).2 h _ hct.1, (C108_rot_iff hk1 (by omega) r ct0.2).2 h _ hct.2]

/-- C112: `conj(ct,ckey,ct)` of a ciphertext with second component zero conjugates the lower half of the coefficients and leaves the upper half. -/
theorem C112_conj_ct (hQ2 : 2 * LOGQ ≤ 60 ∨ 65 ≤ 2 * LOGQ ∧ 2 * LOGQ ≤ 3051) (hk1 : 1 ≤ k) (hk : k ≤ 17)
    (ckey : R_Q_square (2 * LOGQ) (2^k)) (hc : ckey.Canonical) (ct : R_Q_square LOGQ (2^k)) (hz : ∀ i, (ct.2 i).val = 0) :
    Ok (conj_ctOver ct ckey) fun y => (∀ i, (y.2 i).val = 0) ∧
      (∀ i : Fin (2^k), (h1 : 1 ≤ i.val) → 2 * i.val ≤ 2^k → (y.1 i).cls = -(ct.1 ⟨2^k - i, by omega⟩).cls) ∧
      ∀ i : Fin (2^k), 2^k < 2 * i.val → (y.1 i).cls = (ct.1 i).cls := by
  have h2 : ConvLOGQ (2 * LOGQ) := by unfold ConvLOGQ; omega
  unfold conj_ctOver
  refine Ok.bind (C108_conj Nat.one_le_two_pow ct.1) fun a ⟨_, a1, a2⟩ => ?_
  have hz' : ct.2 = fun _ => setzero := funext fun i => val_inj (by rw [hz i, val_setzero])
  rw [hz', conjOver_zero, pure_bind]
  refine Ok.mono (ks_zero h2 hk1 hk hc a) fun y ⟨hy, y1, y2⟩ => ⟨fun i => ?_, fun i h1 h => ?_, fun i h => ?_⟩
  · rw [eq_setzero hy.2 y2]; exact val_setzero
  · rw [show (y.1 i).cls = (a i).cls from congrFun y1 i]; exact a1 i h1 h
  · rw [show (y.1 i).cls = (a i).cls from congrFun y1 i]; exact a2 i h

end

/-! ## cases that meet the hypotheses -/

/-- the matrix of the examples of C33, with its three diagonals, a 100 bit modulus and `N = 8`: the result in place is zero -/
example (s : Fin (2^(2+1)) → Int) (hs : ∀ k, s k = -1 ∨ s k = 0 ∨ s k = 1) (ω : Rng) :
    Ok (linTransOver (LOGQ := 100) (LOGN := 2+1) 7 20 (exA, exZ) s ω) fun r => ∀ i, (r.1.1 i).val = 0 ∧ (r.1.2 i).val = 0 := by
  refine C112_linear_transform 7 20 (by norm_num) (by unfold GoodQ; omega) 3 (by norm_num) (by norm_num) s hs (exA, exZ) rfl (fun t _ => ?_) ω
  have hD : (BitVec.ofNat 64 (2^20)).toNat = 2^20 := by decide
  refine Ok.mono (encode_slots (n := 2) (LOGQ := 100) (by norm_num) (by norm_num) (exA.vec t, exZ.vec t) (BitVec.ofNat 64 (2^20)) (B := 18)
    (fun i => exA_lt.4 t i) (by rw [hD]; norm_num) (by rw [hD]; norm_num)) fun _ h => h.1

/-- one diagonal of ones with offset 1, with any keys -/
example (rkey : Fin 1 → R_Q_square (2 * 100) (2^(2+1))) (hr : ∀ t, (rkey t).Canonical) :
    Ok (linTransKeysOver (LOGQ := 100) (LOGN := 2+1) (S := 1) 20 (⟨fun _ _ => 1, fun _ => 1, fun _ => false⟩, ⟨fun _ _ => 0, fun _ => 1, fun _ => true⟩) rkey
      fun _ => none) fun r => ∀ i, (r.1 i).val = 0 ∧ (r.2 i).val = 0 := by
  refine C112_linear_transform_keys 20 (by norm_num) (by unfold GoodQ; omega) 3 (by norm_num) (by norm_num) _ (fun _ _ => one_ne_zero) (fun t _ => ?_) rkey hr _
  have hD : (BitVec.ofNat 64 (2^20)).toNat = 2^20 := by decide
  refine Ok.mono (encode_slots (n := 2) (LOGQ := 100) (by norm_num) (by norm_num) (fun _ => 1, fun _ => 0) (BitVec.ofNat 64 (2^20)) (B := 1)
    (fun i => ?_) (by rw [hD]; norm_num) (by rw [hD]; norm_num)) fun _ h => h.1
  have e : (⟨1, 0⟩ : ℂ) = 1 := rfl
  rw [e, norm_one]

/-- for `N = 8` the rotation by 2 in place is right and the rotation by 1 is not -/
example : 5^2 % 2^3 = 1 ∧ 5^1 % 2^3 ≠ 1 := by decide

example (ct0 : R_Q_square 100 (2^3)) : ¬ ∀ (ct : R_Q_square 100 (2^3)) (rkey : R_Q_square (2 * 100) (2^3)), ct.Canonical → rkey.Canonical →
    rot_ctOver ct 1 rkey = rot_ct ct 1 rkey ct0 := fun h =>
  absurd ((C112_rot_ct_iff (by norm_num) (by norm_num) (by norm_num) 1 ct0).1 h) (by decide)

/-- the ciphertext `(X^5, 0)` stays as it is, although its conjugate is `-X^3` -/
example (ckey : R_Q_square (2 * 100) (2^3)) (hc : ckey.Canonical) :
    Ok (conj_ctOver ((fun i => if i.val = 5 then ofNat 100 1 else setzero, fun _ => setzero) : R_Q_square 100 (2^3)) ckey) fun y =>
      (y.1 5).cls = (ofNat 100 1).cls := by
  refine Ok.mono (C112_conj_ct (by norm_num) (by norm_num) (by norm_num) ckey hc _ fun _ => val_setzero)
    fun y ⟨_, _, h⟩ => ?_
  rw [h 5 (by decide)]
  dsimp only
  rw [if_pos (by decide)]

end EvalRound

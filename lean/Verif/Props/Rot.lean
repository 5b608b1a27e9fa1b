import Verif.Proofs.Rot
import Mathlib.RingTheory.ZMod.UnitsCyclic

/-! # C25, C26, C27: rotation, conjugation, raising the modulus -/

set_option linter.unusedSectionVars false

namespace EvalRound
open Z_Q Finset

variable {LOGQ : Nat} [NeZero LOGQ]

theorem ten_le {k : Nat} (hk : k ≤ 27) : 10 * 2^k ≤ INT_MAX := by
  have : 2^k ≤ 2^27 := Nat.pow_le_pow_right (by norm_num) hk
  unfold INT_MAX; omega

theorem rotR_pow2 {k : Nat} (hk : k ≤ 27) (r : Nat) {A : R_Q LOGQ (2^k)} (hA : A.Canonical)
    (d0 : R_Q LOGQ (2^k)) :
    Ok (rotR A d0 r) fun B => B.Canonical ∧ R_Q.cls B = autom (5^r) (R_Q.cls A) :=
  rotR_spec (ten_le hk) Nat.one_le_two_pow r (fun j j' e => pos_inj_of_coprime (five_pow_coprime k r) j j' e) hA d0

/-- C25: `rot` on keys substitutes `X^(5^r)`, whatever the destination held before. -/
theorem C25_rot_key (k : Nat) (hk : k ≤ 27) (r : Nat) (s d0 : Fin (2^k) → Int)
    (hs : ∀ i, -2^31 < s i ∧ s i < 2^31) : rotI s d0 r = pure (autom (5^r) s) :=
  rotI_spec (ten_le hk) Nat.one_le_two_pow r (fun j j' e => pos_inj_of_coprime (five_pow_coprime k r) j j' e) s d0 hs

/-- C25: `rot` on polynomials substitutes `X^(5^r)`. -/
theorem C25_rot_poly (k : Nat) (hk : k ≤ 27) (r : Nat) (A d0 : R_Q LOGQ (2^k)) (hA : R_Q.Canonical A) :
    Ok (rotR A d0 r) fun B => ∀ i, (B i).Canonical ∧ (B i).cls = autom (5^r) (fun j => (A j).cls) i :=
  Ok.mono (rotR_pow2 hk r hA d0) fun _ h i => ⟨h.1 i, congrFun h.2 i⟩

/-- C25: the destination index `5^r*i mod N` takes every value exactly once. -/
theorem C25_rot_onto (k r : Nat) (p : Fin (2^k)) : ∃! i : Fin (2^k), 5^r * i.val % 2^k = p.val := by
  have hg := fun (j j' : Fin (2^k)) e => pos_inj_of_coprime (five_pow_coprime k r) j j' e
  obtain ⟨j, hj⟩ := pos_surj hg p
  exact ⟨j, hj, fun i hi => hg i j (hi.trans hj.symm)⟩

/-- C25: the one-step overload is `r = 1`. -/
theorem C25_rot_one (k : Nat) (hk : k ≤ 27) (s d0 d1 : Fin (2^k) → Int)
    (hs : ∀ i, -2^31 < s i ∧ s i < 2^31) : rotI1 s d0 = rotI s d1 1 := by
  rw [C25_rot_key k hk 1 s d1 hs, pow_one]
  exact rotI1_spec (ten_le hk) Nat.one_le_two_pow
    (fun j j' e => pos_inj_of_coprime (odd_coprime k (by norm_num)) j j' e) s d0 hs

/-- C25: key and polynomial overloads agree. -/
theorem C25_rot_agree (k : Nat) (hk : k ≤ 27) (r : Nat) (s d0 : Fin (2^k) → Int)
    (hs : ∀ i, -2^31 < s i ∧ s i < 2^31) (A d1 : R_Q LOGQ (2^k)) (hA : R_Q.Canonical A)
    (hAs : ∀ i, (A i).cls = (s i : ZMod (2^LOGQ))) :
    Ok (do let t ← rotI s d0 r
           let B ← rotR A d1 r
           pure (t, B)) fun p => ∀ i, (p.2 i).cls = (p.1 i : ZMod (2^LOGQ)) := by
  rw [C25_rot_key k hk r s d0 hs, pure_bind]
  refine Ok.bind (rotR_pow2 hk r hA d1) fun B ⟨_, h⟩ => Ok.pure fun i => ?_
  have e : R_Q.cls A = red LOGQ s := funext hAs
  rw [e, ← red_autom] at h
  exact congrFun h i

/-- C25: rotation is multiplicative. -/
theorem C25_rot_mul (k : Nat) (hk1 : 1 ≤ k) (hk : k ≤ 17) (hQ : LOGQ ≤ 60 ∨ 65 ≤ LOGQ ∧ LOGQ ≤ 3051) (r : Nat)
    (A B d0 d1 d2 : R_Q LOGQ (2^k)) (hA : R_Q.Canonical A) (hB : R_Q.Canonical B) :
    Ok (do let C ← conv A B
           let C' ← rotR C d0 r
           let A' ← rotR A d1 r
           let B' ← rotR B d2 r
           let D ← conv A' B'
           pure (C', D)) fun p => p.1 = p.2 := by
  refine Ok.bind (conv_spec hQ hk1 hk hA hB) fun C ⟨c1, c2⟩ => ?_
  refine Ok.bind (rotR_pow2 (by omega) r c1 d0) fun C' ⟨c3, c4⟩ => ?_
  refine Ok.bind (rotR_pow2 (by omega) r hA d1) fun A' ⟨a1, a2⟩ => ?_
  refine Ok.bind (rotR_pow2 (by omega) r hB d2) fun B' ⟨b1, b2⟩ => ?_
  refine Ok.bind (conv_spec hQ hk1 hk a1 b1) fun D ⟨h1, h2⟩ => Ok.pure ?_
  apply R_Q.ext_cls c3 h1
  rw [c4, c2, h2, a2, b2, autom_negconv (five_pow_odd r)]

/-- C25: rotating by `r` and then by `r'` is rotating by `r + r'`. -/
theorem C25_rot_rot (k : Nat) (hk : k ≤ 27) (r r' : Nat) (A d0 d1 d2 : R_Q LOGQ (2^k)) (hA : R_Q.Canonical A) :
    (do let B ← rotR A d0 r
        rotR B d1 r') = rotR A d2 (r + r') := by
  refine eq_of_cls (c := autom (5^(r+r')) (R_Q.cls A)) ?_ (rotR_pow2 hk _ hA d2)
  refine Ok.bind (rotR_pow2 hk r hA d0) fun B ⟨b1, b2⟩ => ?_
  refine Ok.mono (rotR_pow2 hk r' b1 d1) fun C ⟨c1, c2⟩ => ⟨c1, ?_⟩
  rw [c2, b2, autom_autom (five_pow_odd r'), ← pow_add, Nat.add_comm]

/-- C25: rotating by `N/2` changes nothing. -/
theorem C25_rot_half (k : Nat) (hk1 : 1 ≤ k) (hk : k ≤ 27) (A d0 : R_Q LOGQ (2^k)) (hA : R_Q.Canonical A) :
    rotR A d0 (2^k / 2) = pure A := by
  obtain ⟨B, e, h1, h2⟩ := rotR_pow2 hk (2^k / 2) hA d0
  rw [e]
  congr 1
  apply R_Q.ext_cls h1 hA
  have e2 : 2^k / 2 = 2^(k-1) := by
    conv_lhs => rw [show k = (k-1) + 1 by omega, pow_succ]
    omega
  rw [h2, e2, autom_congr (g' := 1), autom_one]
  rw [five_pow k hk1, Nat.mod_eq_of_lt]
  have : 0 < 2^k := by positivity
  omega

/-- C25: and `N/2` is the exact period: rotating keys by `r` changes no key only if `N/2` divides
`r`. -/
theorem C25_rot_period (k : Nat) (hk1 : 1 ≤ k) (hk : k ≤ 27) (r : Nat) :
    (∀ s : Fin (2^k) → Int, (∀ i, s i = -1 ∨ s i = 0 ∨ s i = 1) → rotI s s r = pure s) ↔ 2^k / 2 ∣ r := by
  have e2 : 2^k / 2 = 2^(k-1) := by
    conv_lhs => rw [show k = (k-1) + 1 by omega, pow_succ]
    omega
  have hN2 : 2 ≤ 2^k := by
    calc 2 = 2^1 := rfl
      _ ≤ 2^k := Nat.pow_le_pow_right (by norm_num) hk1
  have hg := fun (j j' : Fin (2^k)) e => pos_inj_of_coprime (five_pow_coprime k r) j j' e
  rw [e2]
  have hord : 2^(k-1) ∣ r ↔ 5^r % (2 * 2^k) = 1 := by
    have h := ZMod.orderOf_five (k-1)
    rw [← h, orderOf_dvd_iff_pow_eq_one]
    have e3 : 2^(k-1+2) = 2 * 2^k := by rw [← pow_succ']; congr 1; omega
    have : ((5 : ZMod (2^(k-1+2)))^r = 1) ↔ ((5^r : Nat) : ZMod (2^(k-1+2))) = ((1:Nat) : ZMod (2^(k-1+2))) := by
      push_cast; rfl
    rw [this, ZMod.natCast_eq_natCast_iff', e3, Nat.mod_eq_of_lt (a := 1) (by omega)]
  rw [hord]
  constructor
  · intro h
    let δ : Fin (2^k) → Int := fun i => if i.val = 1 then 1 else 0
    have h1 := h δ (fun i => by simp only [δ]; split <;> simp)
    rw [C25_rot_key k hk r δ δ (fun i => by simp only [δ]; split <;> norm_num)] at h1
    have h2 := pure_inj h1
    have hp : 5^r * 1 % 2^k < 2^k := Nat.mod_lt _ (by omega)
    have h3 := autom_at hg δ ⟨1, hN2⟩ ⟨5^r * 1 % 2^k, hp⟩ rfl
    rw [h2] at h3
    have hδ1 : δ ⟨1, hN2⟩ = 1 := by simp [δ]
    rw [hδ1] at h3
    simp only [mul_one] at h3 hp
    have hmm : 5^r % (2 * 2^k) % 2^k = 5^r % 2^k := Nat.mod_mod_of_dvd _ ⟨2, by ring⟩
    by_cases hlt : 5^r % (2 * 2^k) < 2^k
    · rw [if_pos hlt] at h3
      rw [Nat.mod_eq_of_lt hlt] at hmm
      by_contra hne
      rw [hmm] at hne
      simp only [δ, hne, if_false] at h3
      norm_num at h3
    · rw [if_neg hlt] at h3
      simp only [δ] at h3
      split at h3 <;> norm_num at h3
  · intro h s hs
    rw [C25_rot_key k hk r s s (fun i => by rcases hs i with h | h | h <;> omega), autom_congr (g' := 1), autom_one]
    rw [h, Nat.mod_eq_of_lt (by omega)]

/-- C25: conjugation substitutes `X^(-1) = X^(2N-1)`, on keys and on polynomials. -/
theorem C25_conj (k : Nat) (s d0 : Fin (2^k) → Int) (hs : ∀ i, -2^31 < s i ∧ s i < 2^31)
    (A d1 : R_Q LOGQ (2^k)) (hA : R_Q.Canonical A) :
    conjI s d0 = pure (autom (2 * 2^k - 1) s) ∧
    Ok (conjR A d1) fun B => ∀ i, (B i).Canonical ∧ (B i).cls = autom (2 * 2^k - 1) (fun j => (A j).cls) i :=
  ⟨conjI_spec Nat.one_le_two_pow s d0 hs, Ok.mono (conjR_spec Nat.one_le_two_pow hA d1)
    fun _ h i => ⟨h.1 i, congrFun h.2 i⟩⟩

/-- what `autom` means: evaluating at a root `y` of `X^N + 1` gives the value at `y^g` -/
theorem C25_autom_meaning {R : Type*} [CommRing R] {N : Nat} (g : Nat) (a : Fin N → R) (y : R) (hy : y^N = -1) :
    ∑ i, autom g a i * y^(i:Nat) = ∑ j, a j * (y^g)^(j:Nat) := eval_autom g a hy

-- `X` rotated once in dimension 4 is `X^5 = -X`
example : autom 5 (![0, 1, 0, 0] : Fin 4 → Int) = ![0, -1, 0, 0] := by decide

/-- C26: `rot_ct` with a key from `rot(s)` to `s` decrypts to the rotated plaintext up to
`8N + (h+1)/2`. -/
theorem C26_rot_ct (RAND_MAX : Nat) (k : Nat) (hk1 : 1 ≤ k) (hk : k ≤ 17)
    (hQ : 2 * LOGQ ≤ 60 ∨ 65 ≤ 2 * LOGQ ∧ 2 * LOGQ ≤ 3051) (r : Nat)
    (s s0 : Fin (2^k) → Int) (hs : ∀ k, s k = -1 ∨ s k = 0 ∨ s k = 1)
    (rkey0 : R_Q_square (2 * LOGQ) (2^k)) (ct ct0 : R_Q_square LOGQ (2^k)) (hct : ct.Canonical) (ω : Rng) :
    Ok (do let s_rot ← rotI s s0 r
           let rkey ← swkgen RAND_MAX s_rot s rkey0 ω
           let ct' ← rot_ct ct r rkey.1 ct0
           let m' ← dec ct' s
           let m ← dec ct s
           pure (m', m)) fun p => ∀ i, (p.1 i).Canonical ∧
      ∃ e : Int, 2 * |e| ≤ 16 * 2^k + ((univ.filter fun k => s k ≠ 0).card + 1) ∧
        (p.1 i).cls = autom (5^r) (fun j => (p.2 j).cls) i + e := by
  have hN : 2^k ≤ 2^30 := Nat.pow_le_pow_right (by norm_num) (by omega)
  have hg := fun (j j' : Fin (2^k)) e => pos_inj_of_coprime (five_pow_coprime k r) j j' e
  have hs' : Ternary s := hs
  rw [C25_rot_key k (by omega) r s s0 (fun i => by rcases hs i with h | h | h <;> omega), pure_bind]
  refine Ok.bind (swkgen_spec RAND_MAX hN (fun i => ?_) hs' rkey0 ω) fun rk ⟨hr, e, he, hph⟩ => ?_
  · have := abs_le.1 (autom_abs hg hs'.abs_le i); omega
  refine Ok.bind (rot_ct_spec hQ hk1 hk r hr he hph hct ct0) fun y ⟨_, E, hE, hyp⟩ => ?_
  refine Ok.bind (dec_spec hN hs' y) fun m' ⟨hm', e'⟩ => ?_
  refine Ok.bind (dec_spec hN hs' ct) fun m ⟨_, e1⟩ => Ok.pure fun i => ⟨hm' i, E i, ?_, ?_⟩
  · have h3 := hE i
    have h4 := hs'.sum_abs
    unfold weight at h4
    rw [h4] at h3
    push_cast at h3 ⊢; linarith
  · have := congrFun (e'.trans hyp) i
    rw [← e1] at this
    exact this

/-- C26: `conj` with a key from `conj(s)` to `s` decrypts to the conjugated plaintext up to
`8N + (h+1)/2`. -/
theorem C26_conj_ct (RAND_MAX : Nat) (k : Nat) (hk1 : 1 ≤ k) (hk : k ≤ 17)
    (hQ : 2 * LOGQ ≤ 60 ∨ 65 ≤ 2 * LOGQ ∧ 2 * LOGQ ≤ 3051)
    (s s0 : Fin (2^k) → Int) (hs : ∀ k, s k = -1 ∨ s k = 0 ∨ s k = 1)
    (ckey0 : R_Q_square (2 * LOGQ) (2^k)) (ct ct0 : R_Q_square LOGQ (2^k)) (hct : ct.Canonical) (ω : Rng) :
    Ok (do let s_conj ← conjI s s0
           let ckey ← swkgen RAND_MAX s_conj s ckey0 ω
           let ct' ← conj_ct ct ckey.1 ct0
           let m' ← dec ct' s
           let m ← dec ct s
           pure (m', m)) fun p => ∀ i, (p.1 i).Canonical ∧
      ∃ e : Int, 2 * |e| ≤ 16 * 2^k + ((univ.filter fun k => s k ≠ 0).card + 1) ∧
        (p.1 i).cls = autom (2 * 2^k - 1) (fun j => (p.2 j).cls) i + e := by
  have hN : 2^k ≤ 2^30 := Nat.pow_le_pow_right (by norm_num) (by omega)
  have hs' : Ternary s := hs
  rw [conjI_spec Nat.one_le_two_pow s s0 (fun i => by rcases hs i with h | h | h <;> omega), pure_bind]
  refine Ok.bind (swkgen_spec RAND_MAX hN (fun i => ?_) hs' ckey0 ω) fun rk ⟨hr, e, he, hph⟩ => ?_
  · have := abs_le.1 (autom_abs (conj_pos Nat.one_le_two_pow) hs'.abs_le i); omega
  refine Ok.bind (conj_ct_spec hQ hk1 hk hr he hph hct ct0) fun y ⟨_, E, hE, hyp⟩ => ?_
  refine Ok.bind (dec_spec hN hs' y) fun m' ⟨hm', e'⟩ => ?_
  refine Ok.bind (dec_spec hN hs' ct) fun m ⟨_, e1⟩ => Ok.pure fun i => ⟨hm' i, E i, ?_, ?_⟩
  · have h3 := hE i
    have h4 := hs'.sum_abs
    unfold weight at h4
    rw [h4] at h3
    push_cast at h3 ⊢; linarith
  · have := congrFun (e'.trans hyp) i
    rw [← e1] at this
    exact this

-- a modulus, a ternary key and a canonical ciphertext
example : (2 * 100 ≤ 60 ∨ 65 ≤ 2 * 100 ∧ 2 * 100 ≤ 3051) ∧
    (∀ k, (![1, -1, 0, 1] : Fin (2^2) → Int) k = -1 ∨ (![1, -1, 0, 1] : Fin (2^2) → Int) k = 0 ∨
      (![1, -1, 0, 1] : Fin (2^2) → Int) k = 1) ∧
    (R_Q_square.Canonical ((fun i => Z_Q.ofNat 100 (2^100 - 1 - i.val), fun i => Z_Q.ofNat 100 i.val) :
      R_Q_square 100 (2^2))) := by
  refine ⟨by omega, by decide, fun i => ?_, fun i => ?_⟩ <;>
    (unfold Canonical; rw [val_ofNat_of_lt (by have := i.isLt; omega)]; have := i.isLt; omega)

/-- C27: raising the modulus turns the message `m` (signed) into `m + 2^LF * I` with
`|I| ≤ (h+2)/2`. -/
theorem C27_mod_raise {LF LT N : Nat} [NeZero LF] [NeZero LT] (hN : N ≤ 2^30)
    (s : Fin N → Int) (hs : ∀ k, s k = -1 ∨ s k = 0 ∨ s k = 1) (ct : R_Q_square LF N) (hct : ct.Canonical) :
    Ok (do let m' ← dec (mod_raise LT ct) s
           let m ← dec ct s
           pure (m', m)) fun p => ∀ i, (p.1 i).Canonical ∧
      ∃ I : Int, 2 * |I| ≤ (univ.filter fun k => s k ≠ 0).card + 2 ∧
        (p.1 i).cls = (((p.2 i).sval + 2^LF * I : Int) : ZMod (2^LT)) := by
  refine Ok.bind (dec_spec hN hs _) fun m' ⟨hm', e'⟩ => ?_
  refine Ok.bind (dec_spec hN hs ct) fun m ⟨hm, e⟩ => Ok.pure fun i => ?_
  obtain ⟨_, I, hI, h⟩ := mod_raise_phase (LT := LT) hct s (R_Q.sval m) (by rw [← cls_red_sval, e])
    (fun i => abs_sval_le _)
  have hs' : Ternary s := hs
  refine ⟨hm' i, I i, ?_, ?_⟩
  · have h4 := hs'.sum_abs
    unfold weight at h4
    rw [← h4]; exact hI i
  · have := congrFun (e'.trans h) i
    exact this

end EvalRound

import Verif.Proofs.CRT
import Verif.Proofs.Sign
import Mathlib.Tactic.NormNum.Prime

/-! # C14: the Chinese remainder step of crt.h -/

namespace EvalRound
open Z_Q Finset

variable {L LOGQ : Nat} [NeZero LOGQ]

/-- C14: for a list of distinct primes the constructor succeeds, and `crt` terminates and stores,
modulo `2^LOGQ`, an integer with the given residues whose magnitude is least among all integers
with these residues. The residues may be any words. -/
theorem C14_crt (q : Fin L → W) (hL : L < 2^63) (hp : ∀ i, (q i).toNat.Prime)
    (hd : ∀ i j, i ≠ j → q i ≠ q j) (a : Fin L → W) :
    Ok (CRT.new LOGQ q >>= fun C => C.crt a) fun A => A.Canonical ∧
      ∃ t : Int, A.cls = (t : ZMod (2^LOGQ)) ∧
        (∀ i, t ≡ (a i).toNat [ZMOD (q i).toNat]) ∧
        ∀ u : Int, (∀ i, u ≡ (a i).toNat [ZMOD (q i).toNat]) → |t| ≤ |u| := by
  have hd' : ∀ i j, i ≠ j → (q i).toNat ≠ (q j).toNat :=
    fun i j h e => hd i j h (BitVec.eq_of_toNat_eq e)
  refine Ok.bind (CRT_new_spec LOGQ q hL hp hd') fun C ⟨hC, H⟩ => ?_
  refine Ok.mono (crt_spec H a) fun A ⟨h1, t, h2, h3, h4, h5⟩ => ⟨h1, t, h2, ?_, ?_⟩
  · intro i
    have := h3 i
    rw [hC] at this
    rw [← ZMod.intCast_eq_intCast_iff, this]; simp
  · intro u hu
    rw [hC] at h3 h4 h5
    by_contra hlt
    rw [not_le] at hlt
    have : t = u := by
      refine crt_unique (q := fun i => (q i).toNat) hp hd' (fun i => ?_) ?_
      · rw [h3 i, (ZMod.intCast_eq_intCast_iff _ _ _).2 (hu i)]; simp
      · have h6 : 2 * |t| ≤ ∏ i, ((q i).toNat : Int) := by
          rcases abs_cases t with h | h <;> omega
        have := abs_sub t u
        omega
    rw [this] at hlt
    exact lt_irrefl _ hlt

/-- C14: `icrt` forms the residues of the signed value, provided no word wraps around: there are
at least two limbs, or the value is at least `-q[i]` for every `i`. -/
theorem C14_icrt (C : CRT L LOGQ) (hq : ∀ i, C.q i ≠ 0) {A : Z_Q LOGQ} (hA : A.Canonical)
    (hw : 64 < LOGQ ∨ ∀ i, -((C.q i).toNat : Int) ≤ A.sval) :
    Ok (C.icrt A) fun a => ∀ i, ((a i).toNat : Int) ≡ A.sval [ZMOD (C.q i).toNat] := by
  refine Ok.mono (icrt_spec C hq hA hw) fun a h i => ?_
  rw [← ZMod.intCast_eq_intCast_iff, ← h i]; simp

/-- C14: with a single limb and a value below `-q[i]` the subtraction `q[i] - ah` wraps, and the
residue is wrong for every odd modulus above 1. -/
theorem C14_icrt_wrap (C : CRT L LOGQ) (hq : ∀ i, C.q i ≠ 0) {A : Z_Q LOGQ} (hA : A.Canonical)
    (h64 : LOGQ ≤ 64) (i : Fin L) (hodd : Odd (C.q i).toNat) (h1 : 1 < (C.q i).toNat)
    (hw : A.sval < -((C.q i).toNat : Int)) :
    Ok (C.icrt A) fun a => ¬ ((a i).toNat : Int) ≡ A.sval [ZMOD (C.q i).toNat] := by
  have hsv := sval_canonical hA
  have hlim := lim_bounds LOGQ
  have hnl' : nlimb LOGQ = 1 := by have := (NeZero.ne LOGQ); unfold nlimb; omega
  unfold CRT.icrt
  have hb : 2^(LOGQ-1) ≤ A.val := by
    by_contra h
    rw [if_neg h] at hsv; omega
  rw [if_pos (by rw [is_bigger_canonical hA]; exact decide_eq_true hb)]
  rw [if_pos hb] at hsv
  have hv0 : A.val ≠ 0 := by have : 0 < 2^(LOGQ-1) := by positivity
                             omega
  have hneg := val_negate_canonical hA hv0
  unfold Canonical at hA
  have habs : (A.sval : Int) = - ((negate A).val : Int) := by
    rw [hsv, hneg, Nat.cast_sub hA.le]; push_cast; ring
  refine Ok.mono (tabM_spec (P := fun j (v : W) => j = i.val →
    ¬ (v.toNat : Int) ≡ A.sval [ZMOD (C.q i).toNat]) ?_) fun a h => h i rfl
  intro j hj
  rw [rd_of_lt _ hj, pure_bind, copy_eq]
  refine Ok.bind (limbMod_spec (negate A).data _ (hq ⟨j, hj⟩) hlim.2.2) fun r ⟨_, _, h3⟩ =>
    Ok.pure fun e => ?_
  have e' : (⟨j, hj⟩ : Fin L) = i := Fin.ext e
  rw [e']
  have hr : r.toNat = (negate A).val := h3 hnl'
  have hgt : (C.q i).toNat < r.toNat := by omega
  rw [BitVec.toNat_sub, habs, ← hr]
  have h2 := r.isLt
  have h3 : (2^64 - r.toNat + (C.q i).toNat) % 2^64 = 2^64 - r.toNat + (C.q i).toNat :=
    Nat.mod_eq_of_lt (by omega)
  rw [h3]
  intro hcon
  have hdvd : ((C.q i).toNat : Int) ∣ (2:Int)^64 := by
    have h4 := hcon.symm.dvd
    have h5 : ((2^64 - r.toNat + (C.q i).toNat : Nat) : Int) - -(r.toNat : Int) =
        2^64 + (C.q i).toNat := by
      rw [Nat.cast_add, Nat.cast_sub h2.le]; push_cast; ring
    rw [h5] at h4
    exact (Int.dvd_add_left (dvd_refl _)).1 h4
  have hdvd' : (C.q i).toNat ∣ 2^64 := by exact_mod_cast hdvd
  have := Nat.Coprime.eq_one_of_dvd ((Nat.coprime_two_right.2 hodd).pow_right 64) hdvd'
  omega

/-- C14: `crt` after `icrt` restores the value if its magnitude is below half the product of the
primes. -/
theorem C14_roundtrip (q : Fin L → W) (hL : L < 2^63) (hp : ∀ i, (q i).toNat.Prime)
    (hd : ∀ i j, i ≠ j → q i ≠ q j) {A : Z_Q LOGQ} (hA : A.Canonical)
    (hw : 64 < LOGQ ∨ ∀ i, -((q i).toNat : Int) ≤ A.sval)
    (hlt : 2 * |A.sval| < ∏ i, ((q i).toNat : Int)) :
    (CRT.new LOGQ q >>= fun C => C.icrt A >>= fun a => C.crt a) = pure A := by
  have hd' : ∀ i j, i ≠ j → (q i).toNat ≠ (q j).toNat :=
    fun i j h e => hd i j h (BitVec.eq_of_toNat_eq e)
  have key : Ok (CRT.new LOGQ q >>= fun C => C.icrt A >>= fun a => C.crt a) (fun B => B = A) := by
    refine Ok.bind (CRT_new_spec LOGQ q hL hp hd') fun C ⟨hC, H⟩ => ?_
    have hq0 : ∀ i, C.q i ≠ 0 := by
      intro i h; have := H.hq i; rw [h] at this; exact Nat.not_prime_zero this
    refine Ok.bind (icrt_spec C hq0 hA (by rw [hC]; exact hw)) fun a ha => ?_
    refine Ok.mono (crt_spec H a) fun B ⟨h1, t, h2, h3, h4, h5⟩ => ?_
    have : t = A.sval := by
      refine crt_unique (q := fun i => (C.q i).toNat) H.hq H.hcop (fun i => ?_) ?_
      · rw [h3 i, ha i]
      · rw [← hC] at hlt
        have := abs_sub t A.sval
        have h6 : 2 * |t| ≤ ∏ i, ((C.q i).toNat : Int) := by
          rcases abs_cases t with h | h <;> omega
        omega
    refine canonical_ext h1 hA ?_
    rw [h2, this, sval_cls]
  obtain ⟨B, hB, e⟩ := key
  rw [hB, e]

-- two primes and a 128-bit value meet the hypotheses
example : let q : Fin 2 → W := ![17, 65537]
    (∀ i, (q i).toNat.Prime) ∧ (∀ i j, i ≠ j → q i ≠ q j) ∧
    (Z_Q.ofNat 128 (2^128 - 1000)).Canonical ∧
    2 * |(Z_Q.ofNat 128 (2^128 - 1000)).sval| < ∏ i, ((q i).toNat : Int) := by
  have e1 : (17:W).toNat = 17 := rfl
  have e2 : (65537:W).toNat = 65537 := rfl
  have hc : (Z_Q.ofNat 128 (2^128 - 1000)).val = 2^128 - 1000 := val_ofNat_of_lt (by norm_num)
  refine ⟨?_, ?_, ?_, ?_⟩
  · intro i; fin_cases i
    · change (17:W).toNat.Prime; rw [e1]; norm_num
    · change (65537:W).toNat.Prime; rw [e2]; norm_num
  · decide
  · unfold Canonical; rw [hc]; norm_num
  · have : (Z_Q.ofNat 128 (2^128 - 1000)).sval = -1000 := by
      rw [sval_canonical (by unfold Canonical; rw [hc]; norm_num), hc]; norm_num
    rw [this, Fin.prod_univ_two]
    change 2 * |(-1000 : Int)| < ((17:W).toNat : Int) * ((65537:W).toNat : Int)
    rw [e1, e2]; norm_num

-- a 64-bit value below -q, so that `C14_icrt_wrap` applies to the first prime of the shipped table
example : (Z_Q.ofNat 64 (2^63)).Canonical ∧
    (Z_Q.ofNat 64 (2^63)).sval < -((1152921504606584833 : W).toNat : Int) := by
  have hc : (Z_Q.ofNat 64 (2^63)).val = 2^63 := val_ofNat_of_lt (by norm_num)
  have e : (1152921504606584833 : W).toNat = 1152921504606584833 := rfl
  have h : (Z_Q.ofNat 64 (2^63)).Canonical := by unfold Canonical; rw [hc]; norm_num
  refine ⟨h, ?_⟩
  rw [sval_canonical h, hc, e]; norm_num

end EvalRound

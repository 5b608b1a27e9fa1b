import Verif.Model.InPlaceEnc
import Verif.Proofs.Draws
import Verif.Props.InPlaceRing

/-!
# C118: `enc` and `dec` whose plaintext is a component of the ciphertext
-/

namespace EvalRound
open Z_Q Finset

section
variable {LOGQ N : Nat} [NeZero LOGQ]

theorem R_Q.addSelf_apply (x : R_Q LOGQ N) (i : Fin N) : R_Q.addSelf x i = Z_Q.addSelf (x i) := by
  have h := forFin_inv (n := N) (s := x) (f := fun i (x : R_Q LOGQ N) => Function.update x i (Z_Q.addSelf (x i)))
    (P := fun k y => ∀ i : Fin N, y i = if i.val < k then Z_Q.addSelf (x i) else x i) (fun i => by rw [if_neg (by omega)]) (by
      intro i y hy j
      by_cases e : j = i
      · subst e
        rw [Function.update_self, hy, if_neg (lt_irrefl _), if_pos (by omega)]
      · have : j.val ≠ i.val := fun h => e (Fin.ext h)
        rw [Function.update_of_ne e, hy]
        by_cases hj : j.val < i.val
        · rw [if_pos hj, if_pos (by omega)]
        · rw [if_neg hj, if_neg (by omega)])
  have := h i
  rw [if_pos i.isLt] at this
  exact this

/-- C118: what `enc(ct[1],s,ct)` leaves in `ct` does not depend on `ct[1]`, the plaintext. -/
theorem C118_enc_same (RAND_MAX : Nat) (s : Fin N → Int) (ct ct' : R_Q_square LOGQ N) (ω : Rng) :
    encOver1 RAND_MAX s ct ω = encOver1 RAND_MAX s ct' ω := by
  unfold encOver1
  rw [encMask_eq RAND_MAX ct.2, encMask_eq RAND_MAX ct'.2]

/-- C118: it decrypts to its own second component up to an error of at most 8. -/
theorem C118_enc (RAND_MAX : Nat) (hN : N ≤ 2^30) (s : Fin N → Int) (hs : ∀ k, s k = -1 ∨ s k = 0 ∨ s k = 1) (ct : R_Q_square LOGQ N)
    (ω : Rng) :
    Ok (encOver1 RAND_MAX s ct ω) fun r => Ok (dec r.1 s) fun m => ∀ i, (m i).Canonical ∧
      ∃ e : Int, |e| ≤ 8 ∧ (m i).cls = (r.1.2 i).cls + (e : ZMod (2^LOGQ)) := by
  have e : encOver1 RAND_MAX s ct ω = enc RAND_MAX (encMask RAND_MAX ct.2 ω).1 s ct ω := rfl
  obtain ⟨r, er, _, n, hn, h⟩ := enc_spec RAND_MAX hN hs (encMask RAND_MAX ct.2 ω).1 ct ω
  rw [e]
  refine ⟨r, er, ?_⟩
  have h2 : r.1.2 = (encMask RAND_MAX ct.2 ω).1 := by
    unfold enc at er
    obtain ⟨p, _, e2⟩ := bind_eq_pure er
    rw [← pure_inj e2]
  refine Ok.mono (dec_spec hN hs r.1) fun m ⟨hm, hc⟩ i => ⟨hm i, n i, hn i, ?_⟩
  rw [h2]
  exact (congrFun hc i).trans (congrFun h i)

/-- C118: `dec(ct,s,ct[0])` does not depend on `ct[0]`, the component that holds the message. -/
theorem C118_dec_first_same (s : Fin N → Int) (ct ct' : R_Q_square LOGQ N) (h : ct.2 = ct'.2) : decOver0 ct s = decOver0 ct' s := by
  unfold decOver0
  rw [h]

/-- C118: for a modulus of one limb it is twice the product of the key and `ct[1]`; so a coefficient is right exactly when that of
`ct[0]` is that of the product. -/
theorem C118_dec_first (hL : LOGQ ≤ 64) (hN : N ≤ 2^30) (s : Fin N → Int) (hs : ∀ k, s k = -1 ∨ s k = 0 ∨ s k = 1)
    (ct : R_Q_square LOGQ N) :
    Ok (decOver0 ct s) fun p => Ok (dec ct s) fun m => ∀ i,
      (p i).cls = 2 * negconv (fun j => ((s j : Int) : ZMod (2^LOGQ))) (fun j => (ct.2 j).cls) i ∧
      (p i = m i ↔ (ct.1 i).cls = negconv (fun j => ((s j : Int) : ZMod (2^LOGQ))) (fun j => (ct.2 j).cls) i) := by
  have hs' : Ternary s := hs
  unfold decOver0
  refine Ok.bind (convS_spec hN s ct.2) fun p ⟨_, h⟩ => Ok.pure ?_
  rw [hs'.tern] at h
  refine Ok.mono (dec_spec hN hs ct) fun m ⟨hm, hc⟩ i => ?_
  have hp : (R_Q.addSelf p i).cls = 2 * negconv (red LOGQ s) (R_Q.cls ct.2) i := by
    rw [R_Q.addSelf_apply, (addSelf_iff (p i)).2 (fun j hj => by unfold nlimb at hj; omega)]
    exact congrArg (2 * ·) (congrFun h i)
  have hpc : (R_Q.addSelf p i).Canonical := by
    rw [R_Q.addSelf_apply, addSelf_eq]
    exact canonical_remove_clutter _
  have hmi : (m i).cls = (ct.1 i).cls + negconv (red LOGQ s) (R_Q.cls ct.2) i := congrFun hc i
  refine ⟨hp, fun e => ?_, fun e => canonical_ext hpc (hm i) ?_⟩
  · have h1 := congrArg Z_Q.cls e
    rw [hp, hmi] at h1
    show _ = negconv (red LOGQ s) (R_Q.cls ct.2) i
    linear_combination -h1
  · have e' : (ct.1 i).cls = negconv (red LOGQ s) (R_Q.cls ct.2) i := e
    rw [hp, hmi, e']
    ring

/-- C118: for any modulus a coefficient is twice that of the product exactly when no limb of the product but the last has its top bit
set. -/
theorem C118_dec_first_limbs (hN : N ≤ 2^30) (s : Fin N → Int) (hs : ∀ k, s k = -1 ∨ s k = 0 ∨ s k = 1) (ct : R_Q_square LOGQ N) :
    ∃ q : R_Q LOGQ N, (∀ i, (q i).Canonical ∧ (q i).cls = negconv (fun j => ((s j : Int) : ZMod (2^LOGQ))) (fun j => (ct.2 j).cls) i) ∧
      Ok (decOver0 ct s) fun p => ∀ i, (p i).cls = 2 * (q i).cls ↔ ∀ l, l + 1 < nlimb LOGQ → dig (q i).data l < 2^63 := by
  have hs' : Ternary s := hs
  obtain ⟨q, eq, hc, h⟩ := convS_spec hN s ct.2
  rw [hs'.tern] at h
  refine ⟨q, fun i => ⟨hc i, congrFun h i⟩, ?_⟩
  unfold decOver0
  rw [eq, pure_bind]
  refine Ok.pure fun i => ?_
  rw [R_Q.addSelf_apply]
  exact addSelf_iff (q i)

/-- C118: `dec(ct,s,ct[1])` with a constant key gives `ct[0]`, whatever `ct[1]`. -/
theorem C118_dec_second (s : Fin N → Int) (hs : ∀ k : Fin N, k.val ≠ 0 → s k = 0) (ct : R_Q_square LOGQ N) :
    Ok (decOver1 ct s) fun p => ∀ i, (p i).cls = (ct.1 i).cls := by
  unfold decOver1
  refine Ok.bind (C109_conv_const s hs ct.2) fun p hp => Ok.pure fun i => ?_
  have h := congrFun (R_Q.cls_add p ct.1) i
  rw [show (R_Q.add p ct.1 i).cls = R_Q.cls (R_Q.add p ct.1) i from rfl, h, Pi.add_apply, show R_Q.cls p i = (p i).cls from rfl, ← sval_cls,
    hp, Int.cast_zero, zero_add]
  rfl

end

/-- The hypotheses of `C118_enc` and `C118_dec_first` are met by the key `1 - X^3`. -/
example (ct : R_Q_square 40 8) (ω : Rng) : Ok (encOver1 32767 ![1, 0, 0, -1, 0, 0, 0, 0] ct ω) fun r =>
    Ok (decOver0 r.1 ![1, 0, 0, -1, 0, 0, 0, 0]) fun _ => True := by
  have hs : ∀ k : Fin 8, (![1, 0, 0, -1, 0, 0, 0, 0] : Fin 8 → Int) k = -1 ∨ (![1, 0, 0, -1, 0, 0, 0, 0] : Fin 8 → Int) k = 0 ∨
      (![1, 0, 0, -1, 0, 0, 0, 0] : Fin 8 → Int) k = 1 := by decide
  exact Ok.mono (C118_enc 32767 (by norm_num) _ hs ct ω) fun r _ =>
    Ok.mono (C118_dec_first (by norm_num) (by norm_num) _ hs r.1) fun _ _ => trivial

/-- The hypotheses of `C118_dec_second` are met by the key 1. -/
example (ct : R_Q_square 200 8) : Ok (decOver1 ct ![1, 0, 0, 0, 0, 0, 0, 0]) fun p => ∀ i, (p i).cls = (ct.1 i).cls :=
  C118_dec_second _ (by decide) ct

end EvalRound

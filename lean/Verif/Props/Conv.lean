import Verif.Proofs.Conv
import Verif.Proofs.Sign

/-! # C15, C16, C17, C44: products of polynomials -/

set_option linter.unusedSectionVars false

namespace EvalRound
open Z_Q Finset

variable {LOGQ N : Nat} [NeZero LOGQ]

/-- C16: the entries of the shipped table are pairwise distinct primes congruent to 1 modulo
`2^18`. -/
theorem C16_primes : (∀ i, (Q_primes i).toNat.Prime ∧ (Q_primes i).toNat ≡ 1 [MOD 2^18]) ∧
    ∀ i j, i ≠ j → Q_primes i ≠ Q_primes j :=
  ⟨fun i => ⟨Q_primes_prime i, (Q_primes_residue i).1⟩, fun _ _ h e => h (Q_primes_inj e)⟩

/-- C16: the `L = (2*LOGQ+76)/60` primes taken for `LOGQ ≤ 3051` exist and have a product above
`2^(2*LOGQ+16)`, hence above twice the largest coefficient `2^17 * 2^(LOGQ-1) * 2^(LOGQ-1)` of a
product. -/
theorem C16_product (LOGQ : Nat) (h1 : 1 ≤ LOGQ) (h : LOGQ ≤ 3051) :
    ∃ hL : convL LOGQ ≤ 102,
      2^(2 * LOGQ + 16) < ∏ i : Fin (convL LOGQ), (Q_primes ⟨i.val, by omega⟩).toNat ∧
      2 * (2^17 * 2^(LOGQ-1) * 2^(LOGQ-1)) <
        ∏ i : Fin (convL LOGQ), (Q_primes ⟨i.val, by omega⟩).toNat := by
  have hL : convL LOGQ ≤ 102 := by unfold convL; omega
  have hL1 : 1 ≤ convL LOGQ := by unfold convL; omega
  have hL2 : 2 * LOGQ + 16 ≤ 60 * convL LOGQ - 1 := by unfold convL; omega
  have key : 2^(2 * LOGQ + 16) < ∏ i : Fin (convL LOGQ), (Q_primes ⟨i.val, by omega⟩).toNat := by
    rw [← firstProd_eq _ hL]
    exact lt_of_le_of_lt (Nat.pow_le_pow_right (by norm_num) hL2) (firstProd_big hL1 hL)
  refine ⟨hL, key, lt_of_le_of_lt ?_ key⟩
  rw [← pow_add, ← pow_add, ← pow_succ']
  exact Nat.pow_le_pow_right (by norm_num) (by omega)

/-- C15: `conv(A,B,C)` stores the negacyclic product modulo `2^LOGQ`. -/
theorem C15_conv (hQ : LOGQ ≤ 60 ∨ 65 ≤ LOGQ ∧ LOGQ ≤ 3051) (k : Nat) (hk1 : 1 ≤ k) (hk : k ≤ 17)
    (A B : R_Q LOGQ (2^k)) (hA : A.Canonical) (hB : B.Canonical) :
    Ok (conv A B) fun C => (∀ i, (C i).Canonical) ∧
      ∀ i, (C i).cls = negconv (fun j => (A j).cls) (fun j => (B j).cls) i := by
  refine Ok.mono (conv_spec hQ hk1 hk hA hB) fun C h => ⟨h.1, fun i => congrFun h.2 i⟩

/-- C15: above the supported moduli the prime table is read out of bounds. -/
theorem C15_ub (h : 3052 ≤ LOGQ) (A B : R_Q LOGQ N) : conv A B = ub := conv_ub h A B

/-- C15: between 61 and 64 bits `conv` is wrong: `-2^60` times `1` is not `-2^60`. (The residues
modulo the primes below `2^60` wrap, the residues modulo the other primes do not.) -/
theorem C15_wrap (h1 : 61 ≤ LOGQ) (h2 : LOGQ ≤ 64) (k : Nat) (hk1 : 1 ≤ k) (hk : k ≤ 17) :
    ∃ A B : R_Q LOGQ (2^k), A.Canonical ∧ B.Canonical ∧
      Ok (conv A B) fun C => ∃ i, (C i).cls ≠ negconv (fun j => (A j).cls) (fun j => (B j).cls) i := by
  have hL3 : convL LOGQ = 3 := by unfold convL; omega
  have hN : 0 < 2^k := by positivity
  have hpow : 2^61 ≤ 2^LOGQ := Nat.pow_le_pow_right (by norm_num) h1
  have hhalf := two_mul_half LOGQ
  -- the operands
  let m : Z_Q LOGQ := Z_Q.ofNat LOGQ (2^LOGQ - 2^60)
  have hmv : m.val = 2^LOGQ - 2^60 := val_ofNat_of_lt (by omega)
  have hmc : m.Canonical := by unfold Canonical; rw [hmv]; omega
  have hms : m.sval = -2^60 := by
    rw [sval_canonical hmc, hmv, if_pos (by omega), Nat.cast_sub (by omega)]; push_cast; ring
  have hm1 : (Z_Q.ofNat LOGQ 1).val = 1 := val_ofNat_of_lt (by omega)
  have hz : (setzero : Z_Q LOGQ).sval = 0 := by
    rw [sval_canonical canonical_setzero, val_setzero, if_neg (by omega)]; rfl
  have h1c : (Z_Q.ofNat LOGQ 1).Canonical := by unfold Canonical; rw [hm1]; omega
  have h1s : (Z_Q.ofNat LOGQ 1).sval = 1 := by
    rw [sval_canonical h1c, hm1, if_neg (by omega)]; rfl
  let A : R_Q LOGQ (2^k) := fun i => if i.val = 0 then m else setzero
  let B : R_Q LOGQ (2^k) := fun i => if i.val = 0 then Z_Q.ofNat LOGQ 1 else setzero
  have hB1 : ∀ i : Fin (2^k), (B i).sval = if i.val = 0 then 1 else 0 := by
    intro i; simp only [B]; split
    · exact h1s
    · exact hz
  have hcB : ∀ i : Fin (2^k), (B i).cls = if i.val = 0 then 1 else 0 := by
    intro i; rw [← sval_cls, hB1]; split <;> simp
  have hAc : A.Canonical := by intro i; simp only [A]; split; exacts [hmc, canonical_setzero]
  have hBc : B.Canonical := by intro i; simp only [B]; split; exacts [h1c, canonical_setzero]
  refine ⟨A, B, hAc, hBc, ?_⟩
  unfold conv
  refine Ok.bind (theConv_gen (LOGQ := LOGQ) (by omega) hk1 hk) fun C ⟨H, hq⟩ => ?_
  have hq0 : ∀ i, C.crt.q i ≠ 0 := by
    intro i h; have := H.hcrt.hq i; rw [h] at this; exact Nat.not_prime_zero this
  have p0 : (Q_primes 0).toNat = 0xffffffffffc0001 := by decide +kernel
  have p1 : (Q_primes 1).toNat = 0xfffffffff840001 := by decide +kernel
  have p2 : (Q_primes 2).toNat = 0x1000000000980001 := by decide +kernel
  have hqj : ∀ j : Fin (convL LOGQ), j.val = 0 ∧ (C.crt.q j).toNat = 0xffffffffffc0001 ∨
      j.val = 1 ∧ (C.crt.q j).toNat = 0xfffffffff840001 ∨
      j.val = 2 ∧ (C.crt.q j).toNat = 0x1000000000980001 := by
    intro j
    have hj := j.isLt
    have e : ∀ v (hv : v < 102), j.val = v → (C.crt.q j).toNat = (Q_primes ⟨v, hv⟩).toNat := by
      intro v hv h; rw [hq]; subst h; rfl
    rcases (by omega : j.val = 0 ∨ j.val = 1 ∨ j.val = 2) with h | h | h
    · left; exact ⟨h, (e 0 (by omega) h).trans p0⟩
    · right; left; exact ⟨h, (e 1 (by omega) h).trans p1⟩
    · right; right; exact ⟨h, (e 2 (by omega) h).trans p2⟩
  have hprod : ∏ i, ((C.crt.q i).toNat : Int) = 0xffffffffffc0001 * 0xfffffffff840001 * 0x1000000000980001 := by
    have e1 : ∏ i, (C.crt.q i).toNat = firstProd 3 := by
      rw [hq, ← firstProd_eq _ (by omega), hL3]
    have e2 : firstProd 3 = 0xffffffffffc0001 * 0xfffffffff840001 * 0x1000000000980001 := by decide +kernel
    rw [e2] at e1
    exact_mod_cast e1
  -- the residues of `m`
  have hicrt : ∀ i, Ok (C.crt.icrt (A i)) fun a => ∀ j, ((a j).toNat : ZMod (C.crt.q j).toNat) =
      (((if i.val = 0 then (if j.val = 2 then -2^60 else 2^64 - 2^60) else 0 : Int)) : ZMod (C.crt.q j).toNat) := by
    intro i
    by_cases hi : i.val = 0
    · have : A i = m := by simp only [A, hi, if_true]
      rw [this]
      simp only [hi, if_true]
      unfold CRT.icrt
      rw [if_pos (by rw [is_bigger_canonical hmc, hmv]; exact decide_eq_true (by omega))]
      refine Ok.mono (tabM_spec (P := fun j (v : W) => ∀ hj : j < convL LOGQ,
        (v.toNat : ZMod (C.crt.q ⟨j, hj⟩).toNat) =
          ((if j = 2 then -2^60 else 2^64 - 2^60 : Int) : ZMod (C.crt.q ⟨j, hj⟩).toNat)) ?_)
        fun a ha j => ha j j.isLt
      intro j hj
      rw [rd_of_lt _ hj, pure_bind, copy_eq]
      refine Ok.bind (limbMod_spec (negate m).data _ (hq0 ⟨j, hj⟩) (nlimb_pos LOGQ))
        fun r ⟨_, _, h3⟩ => Ok.pure fun _ => ?_
      have hr : r.toNat = 2^60 := by
        rw [h3 (by have := (NeZero.ne LOGQ); unfold nlimb; omega)]
        change (negate m).val = _
        rw [val_negate_canonical hmc (by omega), hmv]; omega
      rw [BitVec.toNat_sub, hr]
      rcases hqj ⟨j, hj⟩ with ⟨e, h⟩ | ⟨e, h⟩ | ⟨e, h⟩ <;> simp only [] at e <;> subst e
      · rw [h]; norm_num
        decide +kernel
      · rw [h]; norm_num
        decide +kernel
      · rw [h]; norm_num
        decide +kernel
    · have : A i = setzero := by simp only [A, hi, if_false]
      rw [this]
      simp only [hi, if_false]
      refine Ok.mono (icrt_spec C.crt hq0 canonical_setzero (Or.inr fun j => by rw [hz]; simp)) ?_
      intro a ha j; rw [ha j, hz]
  have hicrtB : ∀ i, Ok (C.crt.icrt (B i)) fun a => ∀ j, ((a j).toNat : ZMod (C.crt.q j).toNat) =
      if i.val = 0 then 1 else 0 := by
    intro i
    refine Ok.mono (icrt_spec C.crt hq0 (hBc i) (Or.inr fun j => by rw [hB1]; split <;> omega)) ?_
    intro a ha j; rw [ha j, hB1]; split <;> simp
  refine Ok.mono (CONV_conv_gen H hk1 _ _ hicrt hicrtB) fun R ⟨_, hR⟩ => ⟨⟨0, hN⟩, ?_⟩
  obtain ⟨t, ht, hres, hb⟩ := hR ⟨0, hN⟩
  have htv : t = 689081978613860443069070364174972059976142293617300286 := by
    refine crt_unique (q := fun i => (C.crt.q i).toNat) H.hcrt.hq H.hcrt.hcop (fun j => ?_) ?_
    · rw [hres j, negconv_one_right, if_pos rfl, ZMod.intCast_eq_intCast_iff]
      rcases hqj j with ⟨e, h⟩ | ⟨e, h⟩ | ⟨e, h⟩ <;> rw [h, e] <;> decide +kernel
    · rw [hprod] at hb ⊢
      rw [abs_lt]
      have := abs_le.1 (by omega : |t| ≤ 0xffffffffffc0001 * 0xfffffffff840001 * 0x1000000000980001 / 2)
      omega
  rw [ht, htv]
  have : negconv (fun j => (A j).cls) (fun j => (B j).cls) ⟨0, hN⟩ = ((-2^60 : Int) : ZMod (2^LOGQ)) := by
    have e : (fun j => (B j).cls) = fun j : Fin (2^k) => if j.val = 0 then 1 else 0 := funext hcB
    rw [e, negconv_one_right, ← hms, sval_cls]; rfl
  rw [this]
  intro hcon
  rw [ZMod.intCast_eq_intCast_iff_dvd_sub] at hcon
  have hd : ((2^61 : Nat) : Int) ∣ ((2^LOGQ : Nat) : Int) := by exact_mod_cast pow_dvd_pow 2 h1
  have := hd.trans hcon
  revert this
  norm_num

-- the hypotheses of C15 are met, e.g. by N = 4, LOGQ = 100 and a polynomial with a negative coefficient
example : let A : R_Q 100 (2^2) := fun i => Z_Q.ofNat 100 (2^100 - 1 - i.val)
    A.Canonical ∧ ((100 : Nat) ≤ 60 ∨ 65 ≤ 100 ∧ 100 ≤ 3051) := by
  refine ⟨fun i => ?_, by omega⟩
  unfold Canonical
  rw [val_ofNat_of_lt (by omega)]; omega

/-- C17: `conv(s,A,C)` with a ternary `s` stores the negacyclic product of `s` and `A`. -/
theorem C17_convS (hN : N ≤ 2^30) (s : Fin N → Int) (hs : ∀ k, s k = -1 ∨ s k = 0 ∨ s k = 1)
    (A : R_Q LOGQ N) :
    Ok (convS s A) fun C => (∀ i, (C i).Canonical) ∧
      ∀ i, (C i).cls = negconv (fun k => ((s k : Int) : ZMod (2^LOGQ))) (fun j => (A j).cls) i := by
  refine Ok.mono (convS_spec hN s A) fun C h => ⟨h.1, fun i => ?_⟩
  have e : (fun j => ((tern (s j) : Int) : ZMod (2^LOGQ))) = fun k => ((s k : Int) : ZMod (2^LOGQ)) := by
    funext j
    rcases hs j with h | h | h <;> simp [tern, h]
  rw [← e]
  exact congrFun h.2 i

/-- C17: any other nonzero entry is treated as -1. -/
theorem C17_nonternary (hN : N ≤ 2^30) (s : Fin N → Int) (A : R_Q LOGQ N) :
    convS s A = convS (fun k => if s k = 0 then 0 else if s k = 1 then 1 else -1) A := by
  obtain ⟨C, hC, h⟩ := convS_spec hN s A
  obtain ⟨C', hC', h'⟩ := convS_spec hN (fun k => if s k = 0 then 0 else if s k = 1 then 1 else -1) A
  rw [hC, hC']
  congr 1
  funext i
  refine canonical_ext (h.1 i) (h'.1 i) ?_
  have e : (fun j => ((tern (if s j = 0 then 0 else if s j = 1 then 1 else -1) : Int) : ZMod (2^LOGQ))) =
      fun j => ((tern (s j) : Int) : ZMod (2^LOGQ)) := by
    funext j
    by_cases h0 : s j = 0
    · simp [tern, h0]
    · by_cases h1 : s j = 1
      · simp [tern, h1]
      · simp [tern, h0, h1]
  have h3 := congrFun h.2 i
  have h4 := congrFun h'.2 i
  rw [e] at h4
  exact h3.trans h4.symm

/-- C17: so a key with an entry 2 gives a wrong product. -/
theorem C17_counterexample :
    ∃ (s : Fin 1 → Int) (A : R_Q 8 1), Ok (convS s A) fun C =>
      ∃ i, (C i).cls ≠ negconv (fun k => ((s k : Int) : ZMod (2^8))) (fun j => (A j).cls) i := by
  refine ⟨fun _ => 2, fun _ => Z_Q.ofNat 8 1, ?_⟩
  refine Ok.mono (convS_spec (by norm_num) _ _) fun C h => ⟨0, ?_⟩
  have h1 : ((Z_Q.ofNat 8 1).cls : ZMod (2^8)) = 1 := by
    unfold Z_Q.cls; rw [val_ofNat_of_lt (by norm_num)]; rfl
  have h2 := congrFun h.2 0
  change (C 0).cls = _ at h2
  rw [h2]
  simp only [negconv, R_Q.cls, h1]
  decide

/-- C44: for ternary keys `conv<N>(s,t,r)` never overflows `int`, stores the negacyclic product, and
each entry is at most the weight of `s` in magnitude. -/
theorem C44_convI (hN : N ≤ 2^30) (s t : Fin N → Int) (hs : ∀ k, s k = -1 ∨ s k = 0 ∨ s k = 1)
    (ht : ∀ k, t k = -1 ∨ t k = 0 ∨ t k = 1) :
    convI s t = pure (negconv s t) ∧
      ∀ i, |negconv s t i| ≤ ((univ.filter fun k => s k ≠ 0).card : Int) := by
  have h1 : ∀ {u : Fin N → Int}, (∀ k, u k = -1 ∨ u k = 0 ∨ u k = 1) → ∀ k, |u k| ≤ 1 := by
    intro u hu k
    rcases hu k with h | h | h <;> simp [h]
  refine ⟨convI_spec hN s t (h1 hs) (h1 ht), fun i => ?_⟩
  refine (negconv_abs_le s t (h1 ht) i).trans ?_
  rw [mul_one, card_filter]
  push_cast
  apply sum_le_sum
  intro k _
  rcases hs k with h | h | h <;> simp [h]

-- a ternary key
example : ∀ k : Fin 4, (![1, -1, 0, 1] : Fin 4 → Int) k = -1 ∨ (![1, -1, 0, 1] : Fin 4 → Int) k = 0 ∨
    (![1, -1, 0, 1] : Fin 4 → Int) k = 1 := by decide

end EvalRound

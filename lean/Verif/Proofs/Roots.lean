import Verif.Model.NTT
import Verif.Proofs.Word
import Mathlib.RingTheory.IntegralDomain
import Mathlib.GroupTheory.OrderOfElement
import Mathlib.FieldTheory.Finite.Basic
import Mathlib.NumberTheory.LucasPrimality
import Mathlib.Data.Nat.Prime.Basic

/-! # Lemmas about findPrimeFactors and findPrimitiveRoot -/

namespace EvalRound

theorem mem_setInsert (x y : W) (s : List W) : y ∈ setInsert x s ↔ y = x ∨ y ∈ s := by
  induction s with
  | nil => simp [setInsert]
  | cons z s ih =>
    unfold setInsert
    split
    · rename_i h; subst h; simp
    · split
      · simp
      · rw [List.mem_cons, ih, List.mem_cons]; tauto

/-- what the factor list says about `n0` while `n` is the part still to be factored -/
def FacInv (n0 : Nat) (d : Nat) (s : List W) (n : W) : Prop :=
  0 < n.toNat ∧ n.toNat ∣ n0 ∧
  (∀ w ∈ s, w.toNat.Prime ∧ w.toNat ∣ n0) ∧
  (∀ p : W, p.toNat.Prime → p.toNat ∣ n0 → p ∈ s ∨ p.toNat ∣ n.toNat) ∧
  (∀ p : Nat, p.Prime → p ∣ n.toNat → d ≤ p)

theorem divOut_spec {n0 : Nat} {d : W} {s : List W} {n : W} (hd : 2 ≤ d.toNat)
    (h : FacInv n0 d.toNat s n) :
    Ok (divOut d s n) fun r => FacInv n0 d.toNat r.1 r.2 ∧ ¬ d.toNat ∣ r.2.toNat ∧ r.2.toNat ∣ n.toNat := by
  unfold divOut
  have hd0 : d ≠ 0 := by rintro rfl; simp at hd
  rw [if_neg hd0]
  refine Ok.mono (whileM_inv (P := fun st : List W × W => FacInv n0 d.toNat st.1 st.2 ∧ st.2.toNat ∣ n.toNat)
    (μ := fun st => st.2.toNat) ?_ (s := (s, n)) ⟨h, dvd_rfl⟩) ?_
  · rintro ⟨s, m⟩ ⟨⟨h1, h2, h3, h4, h5⟩, h6⟩ hc
    simp only [beq_iff_eq] at hc h1 h2 h3 h4 h5 h6 ⊢
    have hdvd : d.toNat ∣ m.toNat := by
      have := congrArg BitVec.toNat hc
      rw [BitVec.toNat_umod] at this
      exact Nat.dvd_of_mod_eq_zero this
    have hprime : d.toNat.Prime := by
      have hm := Nat.minFac_prime (n := d.toNat) (by omega)
      have := h5 _ hm ((Nat.minFac_dvd _).trans hdvd)
      have h7 := Nat.minFac_le (n := d.toNat) (by omega)
      rwa [show d.toNat.minFac = d.toNat by omega] at hm
    have hv : (m / d).toNat = m.toNat / d.toNat := BitVec.toNat_udiv ..
    have hle := Nat.le_of_dvd h1 hdvd
    have hdm : m.toNat / d.toNat ∣ m.toNat := Nat.div_dvd_of_dvd hdvd
    apply Ok.pure
    refine ⟨⟨⟨?_, ?_, ?_, ?_, ?_⟩, ?_⟩, ?_⟩
    · rw [hv]; exact Nat.div_pos hle (by omega)
    · rw [hv]; exact hdm.trans h2
    · intro w hw
      rw [mem_setInsert] at hw
      rcases hw with rfl | hw
      · exact ⟨hprime, hdvd.trans h2⟩
      · exact h3 w hw
    · intro p hp hp0
      rw [mem_setInsert]
      by_cases e : p = d
      · left; left; exact e
      · rcases h4 p hp hp0 with h | h
        · left; right; exact h
        · right
          rw [hv]
          rw [← Nat.mul_div_cancel' hdvd] at h
          rcases (Nat.Prime.dvd_mul hp).1 h with h | h
          · exact absurd (BitVec.eq_of_toNat_eq ((Nat.prime_dvd_prime_iff_eq hp hprime).1 h)) e
          · exact h
    · intro p hp hpd
      rw [hv] at hpd
      exact h5 p hp (hpd.trans hdm)
    · rw [hv]; exact hdm.trans h6
    · rw [hv]; exact Nat.div_lt_self h1 (by omega)
  · rintro ⟨s, m⟩ ⟨⟨h1, h6⟩, hc⟩
    refine ⟨h1, ?_, h6⟩
    intro hdvd
    simp only [beq_eq_false_iff_ne, ne_eq] at hc
    apply hc
    apply BitVec.eq_of_toNat_eq
    rw [BitVec.toNat_umod, Nat.mod_eq_zero_of_dvd hdvd]; rfl

/-- An odd number whose square is `2^64 - 7`, the largest odd square, modulo `2^64`: the trial division ends here at the latest. -/
def lastTrial : W := 1852311383259529397

theorem lastTrial_sq : (lastTrial * lastTrial).toNat = 2^64 - 7 := by decide +kernel

/-- No odd word from `2^64 - 7` on is free of prime factors below 17. -/
theorem top_words {m : Nat} (h1 : 2^64 - 7 ≤ m) (h2 : m < 2^64) (ho : ¬ 2 ∣ m) : ∃ p, p.Prime ∧ p ∣ m ∧ p < 17 := by
  have : m = 2^64 - 7 ∨ m = 2^64 - 5 ∨ m = 2^64 - 3 ∨ m = 2^64 - 1 := by omega
  rcases this with rfl | rfl | rfl | rfl
  · exact ⟨3, by decide, by norm_num, by norm_num⟩
  · exact ⟨11, by decide, by norm_num, by norm_num⟩
  · exact ⟨13, by decide, by norm_num, by norm_num⟩
  · exact ⟨3, by decide, by norm_num, by norm_num⟩

theorem findPrimeFactors_spec {n : W} (h0 : n ≠ 0) :
    Ok (findPrimeFactors n) fun s => ∀ p : W, p ∈ s ↔ p.toNat.Prime ∧ p.toNat ∣ n.toNat := by
  unfold findPrimeFactors
  have hpos : 0 < n.toNat := Nat.pos_of_ne_zero fun h => h0 (BitVec.eq_of_toNat_eq (by simpa using h))
  have hinit : FacInv n.toNat (2:W).toNat [] n :=
    ⟨hpos, dvd_rfl, by simp, fun p _ h => Or.inr h, fun p hp _ => hp.two_le⟩
  refine Ok.bind (divOut_spec (d := 2) (le_refl 2) hinit) fun st hst => ?_
  refine Ok.bind (P := fun st : (List W × W) × W =>
    FacInv n.toNat st.2.toNat st.1.1 st.1.2 ∧ ¬ 2 ∣ st.1.2.toNat ∧ st.1.2.toNat < st.2.toNat * st.2.toNat) ?_ ?_
  · refine Ok.mono (whileM_inv (P := fun st : (List W × W) × W =>
      FacInv n.toNat st.2.toNat st.1.1 st.1.2 ∧ ¬ 2 ∣ st.1.2.toNat ∧ st.1.2.toNat ∣ n.toNat ∧
        st.2.toNat % 2 = 1 ∧ 3 ≤ st.2.toNat ∧ st.2.toNat ≤ lastTrial.toNat) (μ := fun st => lastTrial.toNat + 1 - st.2.toNat) ?_ (s := (st, 3)) ?_) ?_
    · rintro ⟨⟨s, m⟩, i⟩ ⟨hF, h2, h3, h4, h5, h6⟩ hc
      simp only [decide_eq_true_eq] at hF h2 h3 h4 h5 h6 hc ⊢
      have hl : lastTrial.toNat = 1852311383259529397 := rfl
      have hi : i.toNat < lastTrial.toNat := by
        refine lt_of_le_of_ne h6 fun e => ?_
        have e' : i = lastTrial := BitVec.eq_of_toNat_eq e
        have hc' : (i * i).toNat ≤ m.toNat := hc
        rw [e', lastTrial_sq] at hc'
        obtain ⟨p, hp, hpd, hp17⟩ := top_words hc' m.isLt h2
        have := hF.2.2.2.2 p hp hpd
        omega
      refine Ok.bind (divOut_spec (d := i) (by omega) hF) fun r hr => ?_
      apply Ok.pure
      obtain ⟨⟨a1, a2, a3, a4, a5⟩, a6, a7⟩ := hr
      have hadd : (i + 2).toNat = i.toNat + 2 := by
        rw [BitVec.toNat_add]
        have : (2:W).toNat = 2 := rfl
        rw [this]
        apply Nat.mod_eq_of_lt; omega
      simp only [hadd]
      have hodd : ¬ 2 ∣ r.2.toNat := fun h => h2 (h.trans a7)
      refine ⟨⟨⟨a1, a2, a3, a4, ?_⟩, hodd, a7.trans h3, by omega, by omega, by omega⟩, by omega⟩
      intro p hp hpd
      have := a5 p hp hpd
      have h7 : p ≠ i.toNat := fun h => a6 (h ▸ hpd)
      have h8 : p % 2 = 1 := by
        rcases hp.eq_two_or_odd with h | h
        · exact absurd (h ▸ hpd) hodd
        · exact h
      omega
    · obtain ⟨⟨a1, a2, a3, a4, a5⟩, a6, a7⟩ := hst
      have e3 : (3:W).toNat = 3 := rfl
      have e2 : (2:W).toNat = 2 := rfl
      simp only [e3]
      rw [e2] at a6 a5
      refine ⟨⟨a1, a2, a3, a4, ?_⟩, a6, a7, by norm_num, by norm_num, by decide⟩
      intro p hp hpd
      have := a5 p hp hpd
      have h7 : p ≠ 2 := fun h => a6 (h ▸ hpd)
      omega
    · rintro ⟨⟨s, m⟩, i⟩ ⟨⟨hF, h2, h3, h4, h5, h6⟩, hc⟩
      simp only [decide_eq_false_iff_not] at *
      refine ⟨hF, h2, ?_⟩
      have hmul : (i * i).toNat ≤ i.toNat * i.toNat := by
        rw [BitVec.toNat_mul]
        exact Nat.mod_le _ _
      exact lt_of_lt_of_le (Nat.lt_of_not_le hc) hmul
  · rintro ⟨⟨s, m⟩, i⟩ ⟨⟨a1, a2, a3, a4, a5⟩, h2, h3⟩
    simp only at a1 a2 a3 a4 a5 h2 h3
    apply Ok.pure
    intro p
    -- what is left is 1 or a prime
    have hm : m.toNat = 1 ∨ m.toNat.Prime := by
      by_contra hcon
      have h1 : ¬ m.toNat = 1 ∧ ¬ m.toNat.Prime := by tauto
      have hmf := Nat.minFac_prime h1.1
      have hle := Nat.minFac_sq_le_self a1 h1.2
      have := a5 _ hmf (Nat.minFac_dvd _)
      have := Nat.mul_le_mul this this
      rw [pow_two] at hle
      omega
    have hlt : (2 < m) ↔ 2 < m.toNat := by
      show (2:W).toNat < m.toNat ↔ _
      rfl
    by_cases h : 2 < m
    · simp only [if_pos h, mem_setInsert]
      rw [hlt] at h
      have hm' : m.toNat.Prime := by
        rcases hm with h' | h'
        · omega
        · exact h'
      constructor
      · rintro (rfl | hp)
        · exact ⟨hm', a2⟩
        · exact a3 p hp
      · rintro ⟨hp, hpd⟩
        rcases a4 p hp hpd with h' | h'
        · exact Or.inr h'
        · left; exact BitVec.eq_of_toNat_eq ((Nat.prime_dvd_prime_iff_eq hp hm').1 h')
    · simp only [if_neg h]
      rw [hlt] at h
      constructor
      · exact a3 p
      · rintro ⟨hp, hpd⟩
        rcases a4 p hp hpd with h' | h'
        · exact h'
        · exfalso
          have := hp.two_le
          have := Nat.le_of_dvd a1 h'
          exact h2 (by omega)

theorem findPrimeFactors_zero : findPrimeFactors 0 = diverge := by
  have h : divOut 2 [] 0 = diverge := by
    unfold divOut
    rw [if_neg (by decide)]
    refine whileM_diverge (P := fun st : List W × W => st.2 = 0) ?_ rfl
    intro s hs
    rw [hs]
    exact ⟨by decide, Ok.pure (by rfl)⟩
  unfold findPrimeFactors
  rw [h]; rfl

theorem rootPasses_spec (r : W) {p : W} (hp : 1 < p.toNat) (s : List W) (hs : ∀ w ∈ s, w ≠ 0) :
    Ok (rootPasses r (p-1) p s) fun b =>
      (b = true ↔ ∀ w ∈ s, ((r.toNat : ZMod p.toNat))^((p.toNat - 1) / w.toNat) ≠ 1) := by
  have hp1 : (p - 1).toNat = p.toNat - 1 := by
    have h1 : (1:W).toNat = 1 := rfl
    rw [BitVec.toNat_sub_of_le (by show (1:W).toNat ≤ p.toNat; rw [h1]; omega), h1]
  induction s with
  | nil => exact Ok.pure (by simp)
  | cons w s ih =>
    unfold rootPasses
    have hw : w ≠ 0 := hs w (by simp)
    rw [if_neg hw, pow_mod_spec _ _ _ hp, pure_bind]
    have hp0 : p ≠ 0 := by rintro rfl; simp at hp
    have hv : (BitVec.ofNat 64 (r.toNat ^ ((p - 1) / w).toNat % p.toNat) = 1) ↔
        ((r.toNat : ZMod p.toNat))^((p.toNat - 1) / w.toNat) = 1 := by
      rw [BitVec.toNat_udiv, hp1]
      have e1 : ((r.toNat : ZMod p.toNat))^((p.toNat - 1) / w.toNat) = 1 ↔
          r.toNat ^ ((p.toNat - 1) / w.toNat) % p.toNat = 1 := by
        have := ZMod.natCast_eq_natCast_iff' (r.toNat ^ ((p.toNat - 1) / w.toNat)) 1 p.toNat
        rw [Nat.mod_eq_of_lt hp] at this
        rw [← this]; push_cast; rfl
      rw [e1]
      constructor
      · intro h
        have := congrArg BitVec.toNat h
        rw [ofNat_mod_toNat _ _ hp0] at this
        exact this
      · intro h
        apply BitVec.eq_of_toNat_eq
        rw [ofNat_mod_toNat _ _ hp0, h]; rfl
    split
    · rename_i h
      apply Ok.pure
      simp only [Bool.false_eq_true, List.mem_cons, false_iff]
      intro hall
      exact hall w (Or.inl rfl) (hv.1 h)
    · rename_i h
      refine Ok.mono (ih fun x hx => hs x (by simp [hx])) fun b hb => ?_
      rw [hb]
      constructor
      · intro h1 x hx
        rw [List.mem_cons] at hx
        rcases hx with rfl | hx
        · exact fun h2 => h (hv.2 h2)
        · exact h1 x hx
      · intro h1 x hx; exact h1 x (by simp [hx])

theorem exists_root {p : Nat} (hp : p.Prime) (h2 : p ≠ 2) :
    ∃ r, 2 ≤ r ∧ r ≤ p - 1 ∧ orderOf (r : ZMod p) = p - 1 := by
  have : Fact p.Prime := ⟨hp⟩
  obtain ⟨g, hg⟩ := IsCyclic.exists_generator (α := (ZMod p)ˣ)
  have ho : orderOf g = p - 1 := by
    rw [orderOf_eq_card_of_forall_mem_zpowers hg, Nat.card_eq_fintype_card, ZMod.card_units]
  have hlt := ZMod.val_lt (g : ZMod p)
  have hcast : (((g : ZMod p).val : Nat) : ZMod p) = g := ZMod.natCast_zmod_val _
  have hord : orderOf (((g : ZMod p).val : Nat) : ZMod p) = p - 1 := by
    rw [hcast, orderOf_units, ho]
  have := hp.two_le
  refine ⟨(g : ZMod p).val, ?_, by omega, hord⟩
  by_contra hlt2
  have : (g : ZMod p).val = 0 ∨ (g : ZMod p).val = 1 := by omega
  rcases this with h | h
  · rw [h] at hcast
    simp only [Nat.cast_zero] at hcast
    exact g.ne_zero hcast.symm
  · rw [h] at hord
    simp only [Nat.cast_one, orderOf_one] at hord
    omega

theorem findPrimitiveRoot_spec {p : W} (hp : p.toNat.Prime) (h2 : p.toNat ≠ 2) :
    Ok (findPrimitiveRoot p) fun r => 2 ≤ r.toNat ∧ r.toNat ≤ p.toNat - 1 ∧
      orderOf (r.toNat : ZMod p.toNat) = p.toNat - 1 := by
  have : Fact p.toNat.Prime := ⟨hp⟩
  have htwo := hp.two_le
  have h1w : (1:W).toNat = 1 := rfl
  have h2w : (2:W).toNat = 2 := rfl
  have hp1 : (p - 1).toNat = p.toNat - 1 := by
    rw [BitVec.toNat_sub_of_le (by show (1:W).toNat ≤ p.toNat; rw [h1w]; omega), h1w]
  unfold findPrimitiveRoot
  have hne : p - 1 ≠ 0 := by
    intro h
    have := congrArg BitVec.toNat h
    rw [hp1] at this
    have h0w : (0:W).toNat = 0 := rfl
    omega
  refine Ok.bind (findPrimeFactors_spec hne) fun s hs => ?_
  rw [hp1] at hs
  have hs0 : ∀ w ∈ s, w ≠ 0 := by
    rintro w hw rfl
    exact Nat.not_prime_zero ((hs 0).1 hw).1
  -- the test characterises generators
  have hgen : ∀ r : Nat, 0 < r → r < p.toNat →
      ((∀ w ∈ s, ((r : ZMod p.toNat))^((p.toNat - 1) / w.toNat) ≠ 1) ↔
        orderOf (r : ZMod p.toNat) = p.toNat - 1) := by
    intro r hr0 hr
    constructor
    · intro hall
      apply orderOf_eq_of_pow_and_pow_div_prime (by omega)
      · apply ZMod.pow_card_sub_one_eq_one
        intro h
        rw [ZMod.natCast_eq_zero_iff] at h
        exact absurd (Nat.le_of_dvd hr0 h) (by omega)
      · intro k hk hkd
        have hk64 : k < 2^64 := by
          have := Nat.le_of_dvd (by omega) hkd
          have := W_lt p
          omega
        have hkw : (BitVec.ofNat 64 k).toNat = k := by
          rw [BitVec.toNat_ofNat, Nat.mod_eq_of_lt hk64]
        have := hall (BitVec.ofNat 64 k) ((hs _).2 (by rw [hkw]; exact ⟨hk, hkd⟩))
        rwa [hkw] at this
    · intro ho w hw h
      obtain ⟨hwp, hwd⟩ := (hs w).1 hw
      have hdvd := orderOf_dvd_of_pow_eq_one h
      rw [ho] at hdvd
      have hpos : 0 < (p.toNat - 1) / w.toNat :=
        Nat.div_pos (Nat.le_of_dvd (by omega) hwd) hwp.pos
      have := Nat.le_of_dvd hpos hdvd
      have := Nat.div_lt_self (show 0 < p.toNat - 1 by omega) hwp.one_lt
      omega
  obtain ⟨r0, hr2, hrle, hro⟩ := exists_root hp h2
  refine Ok.bind (P := fun st : W × Option W => ∃ r, st.2 = some r ∧ 2 ≤ r.toNat ∧
    r.toNat ≤ p.toNat - 1 ∧ orderOf (r.toNat : ZMod p.toNat) = p.toNat - 1) ?_ ?_
  · refine Ok.mono (whileM_inv (P := fun st : W × Option W => 2 ≤ st.1.toNat ∧
      match st.2 with
      | none => st.1.toNat ≤ r0
      | some r => 2 ≤ r.toNat ∧ r.toNat ≤ p.toNat - 1 ∧ orderOf (r.toNat : ZMod p.toNat) = p.toNat - 1)
      (μ := fun st => (if st.2.isNone then 1 else 0) + (r0 - st.1.toNat)) ?_ (s := (2, none)) ?_) ?_
    · rintro ⟨r, o⟩ ⟨hge, hinv⟩ hc
      simp only [Bool.and_eq_true, decide_eq_true_eq, Option.isNone_iff_eq_none] at hc
      obtain ⟨hc1, rfl⟩ := hc
      simp only at hge hinv
      refine Ok.bind (rootPasses_spec r hp.one_lt s hs0) fun b hb => Ok.pure ?_
      rw [hgen r.toNat (by omega) (by omega)] at hb
      cases b with
      | true =>
        simp only [if_true, Option.isNone_some, Option.isNone_none, Bool.false_eq_true, if_false]
        refine ⟨⟨hge, hge, by omega, hb.1 rfl⟩, by omega⟩
      | false =>
        simp only [Bool.false_eq_true, if_false, Option.isNone_none, if_true]
        have hne : r.toNat ≠ r0 := by
          intro h
          rw [h] at hb
          exact absurd (hb.2 hro) (by simp)
        have hadd : (r + 1).toNat = r.toNat + 1 := by
          rw [BitVec.toNat_add, h1w]
          apply Nat.mod_eq_of_lt
          have := W_lt p
          omega
        rw [hadd]
        refine ⟨⟨by omega, by omega⟩, by omega⟩
    · simp only [h2w]; exact ⟨le_refl 2, hr2⟩
    · rintro ⟨r, o⟩ ⟨⟨hge, hinv⟩, hc⟩
      cases o with
      | some r => exact ⟨r, rfl, hinv⟩
      | none =>
        exfalso
        simp only [Option.isNone_none, Bool.and_true, decide_eq_false_iff_not] at hc hinv
        apply hc
        show r.toNat ≤ (p-1).toNat
        rw [hp1]; omega
  · rintro ⟨r, o⟩ ⟨x, hx, hprop⟩
    simp only at hx
    subst hx
    exact Ok.pure hprop

end EvalRound

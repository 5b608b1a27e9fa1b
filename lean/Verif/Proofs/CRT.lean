import Verif.Model.CRT
import Verif.Proofs.NTT
import Verif.Proofs.ZQ
import Mathlib.Algebra.BigOperators.Fin
import Mathlib.Algebra.BigOperators.Associated
import Mathlib.Data.Nat.GCD.BigOperators
import Mathlib.RingTheory.Coprime.Lemmas

/-! # Lemmas about crt.h -/

set_option linter.unusedSectionVars false

namespace EvalRound
open Z_Q Finset

theorem lv_lt_of_dig_lt {n : Nat} (a b : Fin n → W) {k : Nat} (hd : dig b k < dig a k)
    (he : ∀ i, k < i → dig a i = dig b i) {m : Nat} (hm : k < m) : lv b m < lv a m := by
  induction m, hm using Nat.le_induction with
  | base =>
    rw [lv_succ, lv_succ]
    have h1 := lv_lt b k
    have h2 := Nat.mul_le_mul_right (2^(64*k)) (Nat.succ_le_of_lt hd)
    rw [Nat.succ_mul] at h2
    omega
  | succ m hm ih =>
    rw [lv_succ, lv_succ, he m (by omega)]
    omega

theorem cmpge_spec {L : Nat} (A B : Z_Q L) : cmpge A B = decide (B.val ≤ A.val) := by
  unfold cmpge
  have h := forFinDown_inv (n := nlimb L) (s := none) (f := fun i (s : Option Bool) =>
    match s with
    | some r => some r
    | none => if A.data i > B.data i then some true
              else if A.data i < B.data i then some false else none)
    (P := fun k s => match s with
      | some r => r = decide (B.val ≤ A.val)
      | none => ∀ i, k ≤ i → dig A.data i = dig B.data i)
    (fun i hi => by rw [dig_of_ge _ hi, dig_of_ge _ hi]) ?_
  · revert h
    generalize forFinDown (nlimb L) _ none = s
    intro h
    cases s with
    | some r => exact h
    | none =>
      have : A.data = B.data := dig_ext fun i _ => h i (Nat.zero_le _)
      have hv : A.val = B.val := by unfold Z_Q.val; rw [this]
      simp [hv]
  · rintro i (_ | r) hs
    · simp only at hs ⊢
      by_cases h1 : A.data i > B.data i
      · have h1' : dig B.data i < dig A.data i := by rw [dig_fin, dig_fin]; exact h1
        have := lv_lt_of_dig_lt A.data B.data h1' (fun j hj => hs j (by omega)) i.isLt
        rw [if_pos h1]
        simp only
        symm; rw [decide_eq_true_iff]; exact this.le
      · rw [if_neg h1]
        by_cases h2 : A.data i < B.data i
        · have h2' : dig A.data i < dig B.data i := by rw [dig_fin, dig_fin]; exact h2
          have := lv_lt_of_dig_lt B.data A.data h2' (fun j hj => (hs j (by omega)).symm) i.isLt
          rw [if_pos h2]
          simp only
          symm; rw [decide_eq_false_iff_not]; exact Nat.not_le.2 this
        · rw [if_neg h2]
          simp only
          intro j hj
          by_cases e : j = i.val
          · subst e
            rw [dig_fin, dig_fin]
            have h1' : ¬ (B.data i).toNat < (A.data i).toNat := h1
            have h2' : ¬ (A.data i).toNat < (B.data i).toNat := h2
            omega
          · exact hs j (by omega)
    · exact hs

variable {L LOGQ : Nat}

/-- every value of `Z_Q<64(L+1)>` is canonical -/
theorem canonical_wide (x : Z_Q (64*(L+1))) : x.Canonical := by
  unfold Canonical
  have := x.val_lt
  have e : nlimb (64*(L+1)) = L + 1 := by unfold nlimb; omega
  rw [e] at this; exact this

/-- what the constructor establishes -/
structure CRTOk (C : CRT L LOGQ) : Prop where
  hL : L < 2^63
  hQ : C.Q.val = ∏ i, (C.q i).toNat
  hq : ∀ i, (C.q i).toNat.Prime
  hcop : ∀ i j, i ≠ j → (C.q i).toNat ≠ (C.q j).toNat
  hover : ∀ i, (C.Q_over_q i).val = ∏ j ∈ univ.erase i, (C.q j).toNat
  hinv : ∀ i, ((C.inv_mod_Q_over_q i).toNat : ZMod (C.q i).toNat) *
    ((∏ j ∈ univ.erase i, (C.q j).toNat : Nat) : ZMod (C.q i).toNat) = 1

theorem prod_words_lt (q : Fin L → W) (s : Finset (Fin L)) : ∏ i ∈ s, (q i).toNat ≤ (2^64)^s.card := by
  calc ∏ i ∈ s, (q i).toNat ≤ ∏ _i ∈ s, 2^64 := prod_le_prod' fun i _ => (W_lt (q i)).le
    _ = _ := by rw [prod_const]

theorem forFin_mulW (q : Fin L → W) (c : Fin L → Bool) {M : Nat} [NeZero M] (hM : 64 * L < M) :
    (forFin L (fun j x => if c j then mulW x (q j) else x) (ofW 1 : Z_Q M)).val =
      ∏ j ∈ univ.filter (fun j => c j = true), (q j).toNat := by
  have h := forFin_inv (n := L) (s := (ofW 1 : Z_Q M))
    (f := fun j x => if c j then mulW x (q j) else x)
    (P := fun k x => x.val = ∏ j ∈ univ.filter (fun j => j.val < k ∧ c j = true), (q j).toNat)
    (by rw [val_setLow]; simp) ?_
  · rw [h]
    apply prod_congr _ (fun _ _ => rfl)
    ext j; simp
  · intro i x hx
    have hset : ∀ b, c i = b → univ.filter (fun j : Fin L => j.val < i.val + 1 ∧ c j = true) =
        if b then insert i (univ.filter (fun j : Fin L => j.val < i.val ∧ c j = true))
        else univ.filter (fun j : Fin L => j.val < i.val ∧ c j = true) := by
      intro b hb
      ext j
      cases b <;> simp only [mem_filter, mem_univ, true_and, if_true, mem_insert, Bool.false_eq_true, if_false]
      · constructor
        · rintro ⟨h1, h2⟩
          refine ⟨?_, h2⟩
          rcases Nat.lt_succ_iff_lt_or_eq.1 h1 with h | h
          · exact h
          · rw [Fin.ext h, hb] at h2; exact absurd h2 (by simp)
        · rintro ⟨h1, h2⟩; exact ⟨by omega, h2⟩
      · constructor
        · rintro ⟨h1, h2⟩
          rcases Nat.lt_succ_iff_lt_or_eq.1 h1 with h | h
          · right; exact ⟨h, h2⟩
          · left; exact Fin.ext h
        · rintro (rfl | ⟨h1, h2⟩)
          · exact ⟨by omega, hb⟩
          · exact ⟨by omega, h2⟩
    rw [hset (c i) rfl]
    cases hc : c i with
    | false => simp only [Bool.false_eq_true, if_false]; exact hx
    | true =>
      simp only [if_true]
      rw [prod_insert (by simp), ← hx, mulW, val_mulWFrom, Nat.mul_comm]
      apply Nat.mod_eq_of_lt
      have h1 : (q i).toNat * x.val = ∏ j ∈ insert i (univ.filter (fun j : Fin L => j.val < i.val ∧ c j = true)), (q j).toNat := by
        rw [prod_insert (by simp), hx]
      rw [h1]
      refine lt_of_le_of_lt (prod_words_lt q _) ?_
      rw [← pow_mul]
      apply Nat.pow_lt_pow_right (by norm_num)
      refine lt_of_le_of_lt ?_ hM
      apply Nat.mul_le_mul_left
      exact (card_le_univ _).trans (by simp)

theorem CRT_new_spec (LOGQ : Nat) (q : Fin L → W) (hL : L < 2^63) (hp : ∀ i, (q i).toNat.Prime)
    (hd : ∀ i j, i ≠ j → (q i).toNat ≠ (q j).toNat) :
    Ok (CRT.new LOGQ q) fun C => C.q = q ∧ CRTOk C := by
  unfold CRT.new
  simp only []
  refine Ok.bind (P := fun inv : Fin L → W => ∀ i, ((inv i).toNat : ZMod (q i).toNat) *
    ((∏ j ∈ univ.erase i, (q j).toNat : Nat) : ZMod (q i).toNat) = 1) ?_ ?_
  · refine Ok.mono (tabM_spec (P := fun i (v : W) => ∀ hi : i < L,
      (v.toNat : ZMod (q ⟨i, hi⟩).toNat) *
        ((∏ j ∈ univ.erase ⟨i, hi⟩, (q j).toNat : Nat) : ZMod (q ⟨i, hi⟩).toNat) = 1) ?_) ?_
    · intro i hi
      have hpi := hp ⟨i, hi⟩
      have hqi0 : q ⟨i, hi⟩ ≠ 0 := by
        intro h; rw [h] at hpi; exact Nat.not_prime_zero hpi
      rw [rd_of_lt _ hi, pure_bind]
      refine Ok.bind (forUp_inv (P := fun k (t : W) => (t.toNat : ZMod (q ⟨i, hi⟩).toNat) =
        ((∏ j ∈ (univ.erase ⟨i, hi⟩).filter (fun j => j.val < k), (q j).toNat : Nat) :
          ZMod (q ⟨i, hi⟩).toNat)) (Nat.zero_le L) ?_ ?_) ?_
      · have : (1:W).toNat = 1 := rfl
        rw [this]; simp
      · intro j t _ hj ht
        by_cases hij : i = j
        · rw [if_neg (by simpa using hij)]
          refine Ok.pure ?_
          rw [ht]
          congr 2
          ext x
          simp only [mem_filter, mem_erase, mem_univ, and_true, ne_eq, and_congr_right_iff]
          intro hx
          have : x.val ≠ j := fun h => hx (Fin.ext (h.trans hij.symm))
          omega
        · rw [if_pos hij, rd_of_lt _ hj, pure_bind]
          refine Ok.mono (mul_mod_z hqi0 t (q ⟨j, hj⟩)) fun r hr => ?_
          rw [hr.2, ht]
          have hset : (univ.erase ⟨i, hi⟩).filter (fun x : Fin L => x.val < j + 1) =
              insert ⟨j, hj⟩ ((univ.erase ⟨i, hi⟩).filter (fun x : Fin L => x.val < j)) := by
            ext x
            simp only [mem_filter, mem_erase, mem_univ, and_true, ne_eq, mem_insert]
            constructor
            · rintro ⟨h1, h2⟩
              rcases Nat.lt_succ_iff_lt_or_eq.1 h2 with h | h
              · right; exact ⟨h1, h⟩
              · left; exact Fin.ext h
            · rintro (rfl | ⟨h1, h2⟩)
              · exact ⟨fun h => hij (Fin.mk.inj_iff.1 h).symm, by simp⟩
              · exact ⟨h1, by omega⟩
          rw [hset, prod_insert (by simp)]
          push_cast; ring
      · intro t ht
        have hfilt : (univ.erase ⟨i, hi⟩).filter (fun j : Fin L => j.val < L) = univ.erase ⟨i, hi⟩ := by
          ext x; simp
        rw [hfilt] at ht
        have hnd : ¬ (q ⟨i, hi⟩).toNat ∣ t.toNat := by
          rw [← ZMod.natCast_eq_zero_iff, ht, ZMod.natCast_eq_zero_iff]
          intro h
          rw [Prime.dvd_finsetProd_iff hpi.prime] at h
          obtain ⟨j, hj, hdj⟩ := h
          exact hd _ j (Ne.symm (mem_erase.1 hj).1) ((Nat.prime_dvd_prime_iff_eq hpi (hp j)).1 hdj)
        obtain ⟨r, hr, hr1, hr2⟩ := inv_mod_spec t _ hpi hnd
        refine ⟨r, hr, fun _ => ?_⟩
        have := congrArg (Nat.cast (R := ZMod (q ⟨i, hi⟩).toNat)) hr2
        rw [ZMod.natCast_mod] at this
        push_cast at this
        rw [ht] at this
        rw [mul_comm]
        push_cast
        push_cast at this
        exact this
    · intro inv hinv i; exact hinv i i.isLt
  · intro inv hinv
    refine Ok.pure ⟨rfl, hL, ?_, hp, hd, ?_, hinv⟩
    · have := forFin_mulW q (fun _ => true) (M := 64*(L+1)) (by omega)
      simp only [if_true] at this
      rw [this]; simp
    · intro i
      have := forFin_mulW q (fun j => decide (i ≠ j)) (M := 64*(L+1)) (by omega)
      simp only [decide_eq_true_eq] at this
      rw [this]
      apply prod_congr _ (fun _ _ => rfl)
      ext j; simp [eq_comm]

theorem val_sub_canonical {K : Nat} [NeZero K] {x y : Z_Q K} (hx : x.Canonical)
    (h : y.val ≤ x.val) : (sub x y).val = x.val - y.val := by
  have h1 := cls_sub x y
  have h2 : (sub x y).cls = ((x.val - y.val : Nat) : ZMod (2^K)) := by
    rw [h1, Nat.cast_sub h]; rfl
  have h3 := (ZMod.natCast_eq_natCast_iff' _ _ _).1 h2
  have h4 := canonical_sub x y
  unfold Canonical at hx h4
  clear h1 h2
  generalize 2^K = P at *
  rwa [Nat.mod_eq_of_lt h4, Nat.mod_eq_of_lt (by omega)] at h3

theorem val_sub_wide (x y : Z_Q (64*(L+1))) (h : y.val ≤ x.val) : (sub x y).val = x.val - y.val :=
  val_sub_canonical (canonical_wide x) h

variable [NeZero LOGQ]

theorem signed_spec (Q sum : Z_Q (64*(L+1))) (hQ : Q.val ≤ 2^(64*L)) (hs : sum.val < Q.val) :
    ∃ t : Int, (CRT.signed LOGQ Q sum).cls = (t : ZMod (2^LOGQ)) ∧
      (CRT.signed LOGQ Q sum).Canonical ∧ (t = sum.val ∨ t = (sum.val : Int) - Q.val) ∧
      -(Q.val : Int) ≤ 2 * t ∧ 2 * t < Q.val := by
  unfold CRT.signed
  simp only [copy_eq, cmpge_spec]
  have hn := val_sub_wide Q sum hs.le
  rw [hn]
  have hpow : 2^(64*L) < 2^(64*(L+1)-1) := Nat.pow_lt_pow_right (by norm_num) (by omega)
  have hsv : ∀ x : Z_Q (64*(L+1)), x.val ≤ Q.val → x.sval = x.val := by
    intro x hx
    rw [sval_canonical (canonical_wide x), if_neg (by omega)]
  by_cases h : Q.val - sum.val ≤ sum.val
  · rw [decide_eq_true h]
    simp only [if_true]
    refine ⟨(sum.val : Int) - Q.val, ?_, canonical_negate _, Or.inr rfl, by omega, by omega⟩
    rw [cls_negate, cls_resize (canonical_wide _), hsv _ (by omega), hn]
    rw [Nat.cast_sub hs.le]
    push_cast; ring
  · rw [decide_eq_false h]
    simp only [Bool.false_eq_true, if_false]
    refine ⟨(sum.val : Int), ?_, canonical_resize _, Or.inl rfl, by omega, by omega⟩
    rw [cls_resize (canonical_wide _), hsv _ (by omega)]

/-- `crt` finds the centred integer with the given residues. -/
theorem crt_spec {C : CRT L LOGQ} (H : CRTOk C) (a : Fin L → W) :
    Ok (C.crt a) fun A => A.Canonical ∧ ∃ t : Int, A.cls = (t : ZMod (2^LOGQ)) ∧
      (∀ i, (t : ZMod (C.q i).toNat) = ((a i).toNat : ZMod (C.q i).toNat)) ∧
      -(∏ i, ((C.q i).toNat : Int)) ≤ 2 * t ∧ 2 * t < ∏ i, ((C.q i).toNat : Int) := by
  obtain ⟨hL, hQ, hq, hcop, hover, hinv⟩ := H
  have hQpos : 0 < C.Q.val := by rw [hQ]; exact prod_pos fun i _ => (hq i).pos
  have hmulQ : ∀ i, (C.q i).toNat * (C.Q_over_q i).val = C.Q.val := by
    intro i
    rw [hover, hQ]
    exact mul_prod_erase univ (fun j => (C.q j).toNat) (mem_univ i)
  have hQlt : C.Q.val ≤ 2^(64*L) := by
    rw [hQ]
    refine (prod_words_lt C.q univ).trans ?_
    rw [← pow_mul]; simp
  have hbig : L * C.Q.val < 2^(64*(L+1)) := by
    have : 2^(64*(L+1)) = 2^64 * 2^(64*L) := pow64_succ L
    rw [this]
    refine lt_of_le_of_lt (Nat.mul_le_mul_left L hQlt) ?_
    exact Nat.mul_lt_mul_of_pos_right (by omega) (by positivity)
  unfold CRT.crt
  refine Ok.bind (P := fun sum : Z_Q (64*(L+1)) =>
    ∀ i, ((sum.val : Nat) : ZMod (C.q i).toNat) = ((a i).toNat : ZMod (C.q i).toNat)) ?_ ?_
  · refine Ok.mono (forUp_inv (P := fun k (sum : Z_Q (64*(L+1))) => sum.val ≤ k * C.Q.val ∧
      ∀ i, ((sum.val : Nat) : ZMod (C.q i).toNat) =
        if i.val < k then ((a i).toNat : ZMod (C.q i).toNat) else 0) (Nat.zero_le L) ?_ ?_) ?_
    · rw [val_setzero]; simp
    · intro k sum _ hk ⟨h1, h2⟩
      rw [rd_of_lt _ hk, pure_bind, rd_of_lt _ hk, pure_bind, rd_of_lt _ hk, pure_bind]
      have hq0 : C.q ⟨k, hk⟩ ≠ 0 := by
        intro h; have := hq ⟨k, hk⟩; rw [h] at this; exact Nat.not_prime_zero this
      refine Ok.bind (mul_mod_z hq0 (a ⟨k, hk⟩) (C.inv_mod_Q_over_q ⟨k, hk⟩)) fun c hc => ?_
      rw [rd_of_lt _ hk, pure_bind]
      refine Ok.pure ?_
      have hterm : c.toNat * (C.Q_over_q ⟨k, hk⟩).val ≤ C.Q.val := by
        rw [← hmulQ ⟨k, hk⟩]
        exact Nat.mul_le_mul_right _ hc.1.le
      have hQ64 : C.Q.val < 2^(64*(L+1)) := lt_of_le_of_lt (Nat.le_mul_of_pos_left _ (by omega)) hbig
      have hmv : (mulW (copy (C.Q_over_q ⟨k, hk⟩)) c).val = c.toNat * (C.Q_over_q ⟨k, hk⟩).val := by
        rw [copy_eq, mulW, val_mulWFrom, Nat.mul_comm]
        exact Nat.mod_eq_of_lt (lt_of_le_of_lt hterm hQ64)
      have hle : sum.val + c.toNat * (C.Q_over_q ⟨k, hk⟩).val ≤ (k+1) * C.Q.val := by
        rw [Nat.succ_mul k]; exact Nat.add_le_add h1 hterm
      have hkL : (k+1) * C.Q.val ≤ L * C.Q.val := Nat.mul_le_mul_right _ hk
      have hadd : (add sum (mulW (copy (C.Q_over_q ⟨k, hk⟩)) c)).val =
          sum.val + c.toNat * (C.Q_over_q ⟨k, hk⟩).val := by
        rw [val_add, hmv]
        exact Nat.mod_eq_of_lt (lt_of_le_of_lt (hle.trans hkL) hbig)
      rw [hadd]
      refine ⟨hle, fun i => ?_⟩
      push_cast
      rw [h2 i]
      by_cases e : i.val = k
      · have e' : i = ⟨k, hk⟩ := Fin.ext e
        subst e'
        rw [if_neg (by simp), if_pos (by simp), hc.2, hover]
        have := hinv ⟨k, hk⟩
        rw [mul_assoc, this]; ring
      · have : ((C.Q_over_q ⟨k, hk⟩).val : ZMod (C.q i).toNat) = 0 := by
          rw [hover, ZMod.natCast_eq_zero_iff]
          exact dvd_prod_of_mem (fun j => (C.q j).toNat) (mem_erase.2 ⟨fun h => e (by rw [h]), mem_univ i⟩)
        rw [this, mul_zero, add_zero]
        by_cases h : i.val < k
        · rw [if_pos h, if_pos (by omega)]
        · rw [if_neg h, if_neg (by omega)]
    · rintro sum ⟨_, h⟩ i
      rw [h i, if_pos i.isLt]
  · intro sum hsum
    refine Ok.bind (whileM_inv (P := fun sum : Z_Q (64*(L+1)) =>
      ∀ i, ((sum.val : Nat) : ZMod (C.q i).toNat) = ((a i).toNat : ZMod (C.q i).toNat))
      (μ := fun sum => sum.val) ?_ hsum) ?_
    · intro s hs hc
      rw [cmpge_spec, decide_eq_true_iff] at hc
      refine Ok.pure ⟨fun i => ?_, ?_⟩
      · rw [val_sub_wide _ _ hc, Nat.cast_sub hc, hs i]
        have : ((C.Q.val : Nat) : ZMod (C.q i).toNat) = 0 := by
          rw [ZMod.natCast_eq_zero_iff, ← hmulQ i]; exact Nat.dvd_mul_right _ _
        rw [this, sub_zero]
      · rw [val_sub_wide _ _ hc]; omega
    · rintro s ⟨hs, hc⟩
      rw [cmpge_spec, decide_eq_false_iff_not, Nat.not_le] at hc
      obtain ⟨t, h1, h2, h3, h4, h5⟩ := signed_spec (LOGQ := LOGQ) C.Q s hQlt hc
      refine Ok.pure ⟨h2, t, h1, fun i => ?_, ?_, ?_⟩
      · have h0 : ((C.Q.val : Nat) : ZMod (C.q i).toNat) = 0 := by
          rw [ZMod.natCast_eq_zero_iff, ← hmulQ i]; exact Nat.dvd_mul_right _ _
        rcases h3 with h | h
        · rw [h, ← hs i]; simp
        · rw [h, ← hs i]; push_cast; rw [h0, sub_zero]
      · have : ((C.Q.val : Nat) : Int) = ∏ i, ((C.q i).toNat : Int) := by rw [hQ]; push_cast; rfl
        rw [← this]; exact h4
      · have : ((C.Q.val : Nat) : Int) = ∏ i, ((C.q i).toNat : Int) := by rw [hQ]; push_cast; rfl
        rw [← this]; exact h5

/-- the number in the limbs from `m` up -/
theorem limbMod_spec {n : Nat} (a : Fin n → W) (q : W) (hq : q ≠ 0) (hn : 0 < n) :
    Ok (limbMod a q) fun r => (r.toNat : ZMod q.toNat) = (lv a n : ZMod q.toNat) ∧
      (2 ≤ n → r.toNat < q.toNat) ∧ (n = 1 → r.toNat = lv a n) := by
  unfold limbMod
  rw [rd_of_lt _ (by omega : n - 1 < n), pure_bind]
  refine Ok.mono (forUp_inv (P := fun c (r : W) => (1 ≤ c → r.toNat < q.toNat) ∧
      (c = 0 → r = a ⟨n-1, by omega⟩) ∧
      (r.toNat : ZMod q.toNat) * 2^(64*(n-1-c)) + (lv a (n-1-c) : ZMod q.toNat) =
        (lv a n : ZMod q.toNat)) (Nat.zero_le _) ?_ ?_) ?_
  · refine ⟨by omega, fun _ => rfl, ?_⟩
    have := lv_succ a (n-1)
    rw [Nat.sub_add_cancel hn] at this
    rw [Nat.sub_zero, this, dig_of_lt a (by omega : n-1 < n)]
    push_cast; ring
  · intro c r _ hc ⟨_, _, h⟩
    have hlt : n - 2 - c < n := by omega
    rw [rd_of_lt _ hlt, pure_bind]
    have e := ofNat_mod_toNat (r.toNat * 2^64 + (a ⟨n-2-c, hlt⟩).toNat) q hq
    refine ⟨_, mod_spec (a ⟨n-2-c, hlt⟩) r q hq, fun _ => ?_, by omega, ?_⟩
    · rw [e]; exact Nat.mod_lt _ (q_pos hq)
    · rw [← h, e, ZMod.natCast_mod]
      have e1 : n - 1 - c = (n - 2 - c) + 1 := by omega
      have e2 : n - 1 - (c+1) = n - 2 - c := by omega
      rw [e1, e2, lv_succ, dig_of_lt a hlt, Nat.mul_add, pow_add]
      push_cast; ring
  · rintro r ⟨h1, h2, h3⟩
    refine ⟨?_, fun h => h1 (by omega), fun h => ?_⟩
    · simpa [lv] using h3
    · rw [h2 (by omega)]
      subst h
      have := lv_succ a 0
      rw [this, dig_of_lt a (by omega : 0 < 1)]
      simp [lv]

/-- `icrt` forms the residues of the signed value, provided no word wraps around: either there
are two limbs, or a negative value is at least `-q` for every prime `q`. -/
theorem icrt_spec (C : CRT L LOGQ) (hq : ∀ i, C.q i ≠ 0) {A : Z_Q LOGQ} (hA : A.Canonical)
    (hw : 64 < LOGQ ∨ ∀ i, -((C.q i).toNat : Int) ≤ A.sval) :
    Ok (C.icrt A) fun a => ∀ i, ((a i).toNat : ZMod (C.q i).toNat) = (A.sval : ZMod (C.q i).toNat) := by
  have hsv := sval_canonical hA
  have hlim := lim_bounds LOGQ
  have hnl : 64 < LOGQ → 2 ≤ nlimb LOGQ := by unfold nlimb; omega
  have hnl' : ¬ 64 < LOGQ → nlimb LOGQ = 1 := by
    intro h; have := (NeZero.ne LOGQ); unfold nlimb; omega
  unfold CRT.icrt
  by_cases hb : A.is_bigger_than_halfQ = true
  · rw [if_pos hb]
    rw [is_bigger_canonical hA, decide_eq_true_iff] at hb
    rw [if_pos hb] at hsv
    have hv0 : A.val ≠ 0 := by have : 0 < 2^(LOGQ-1) := by positivity
                               omega
    have hneg := val_negate_canonical hA hv0
    unfold Canonical at hA
    have habs : (A.sval : Int) = - ((negate A).val : Int) := by
      rw [hsv, hneg, Nat.cast_sub hA.le]; push_cast; ring
    refine Ok.mono (tabM_spec (P := fun i (v : W) => ∀ hi : i < L,
      (v.toNat : ZMod (C.q ⟨i, hi⟩).toNat) = (A.sval : ZMod (C.q ⟨i, hi⟩).toNat)) ?_) fun a h i => h i i.isLt
    intro i hi
    rw [rd_of_lt _ hi, pure_bind, copy_eq]
    refine Ok.bind (limbMod_spec (negate A).data _ (hq ⟨i, hi⟩) hlim.2.2) fun r ⟨h1, h2, h3⟩ =>
      Ok.pure fun _ => ?_
    have hle : r.toNat ≤ (C.q ⟨i, hi⟩).toNat := by
      by_cases h64 : 64 < LOGQ
      · exact (h2 (hnl h64)).le
      · have := (hw.resolve_left h64) ⟨i, hi⟩
        rw [h3 (hnl' h64)]
        have e : lv (negate A).data (nlimb LOGQ) = (negate A).val := rfl
        omega
    rw [BitVec.toNat_sub_of_le hle, Nat.cast_sub hle, h1, habs]
    have e : lv (negate A).data (nlimb LOGQ) = (negate A).val := rfl
    rw [e]; push_cast; simp
  · rw [if_neg hb]
    rw [is_bigger_canonical hA, decide_eq_true_iff] at hb
    rw [if_neg hb] at hsv
    refine Ok.mono (tabM_spec (P := fun i (v : W) => ∀ hi : i < L,
      (v.toNat : ZMod (C.q ⟨i, hi⟩).toNat) = (A.sval : ZMod (C.q ⟨i, hi⟩).toNat)) ?_) fun a h i => h i i.isLt
    intro i hi
    rw [rd_of_lt _ hi, pure_bind]
    refine Ok.mono (limbMod_spec A.data _ (hq ⟨i, hi⟩) hlim.2.2) fun r ⟨h1, _, _⟩ => fun _ => ?_
    rw [h1, hsv]
    have e : lv A.data (nlimb LOGQ) = A.val := rfl
    rw [e]; push_cast; rfl

/-- two integers with equal residues modulo distinct primes and both in the centred range agree -/
theorem crt_unique {q : Fin L → Nat} (hp : ∀ i, (q i).Prime) (hd : ∀ i j, i ≠ j → q i ≠ q j)
    {t u : Int} (h : ∀ i, (t : ZMod (q i)) = (u : ZMod (q i)))
    (h1 : |t - u| < ∏ i, (q i : Int)) : t = u := by
  have hdvd : (∏ i, (q i : Int)) ∣ t - u := by
    apply Finset.prod_dvd_of_coprime
    · intro i _ j _ hij
      exact (Nat.isCoprime_iff_coprime.2 ((Nat.coprime_primes (hp i) (hp j)).2 (hd i j hij)))
    · intro i _
      have := h i
      rw [ZMod.intCast_eq_intCast_iff_dvd_sub] at this
      rw [← neg_sub]; exact (dvd_neg).2 this
  have := Int.eq_zero_of_abs_lt_dvd hdvd h1
  omega

end EvalRound

import Verif.Model.Core
import Verif.Spec.Core
import Verif.Proofs.Conv
import Verif.Proofs.NegRing
import Verif.Proofs.Shift
import Verif.Proofs.Sign

/-! # Proofs about HEAAN/core.h -/

set_option linter.unusedSectionVars false

namespace EvalRound
open Z_Q Finset

variable {LOGQ N : Nat} [NeZero LOGQ]

/-! ## componentwise operations -/

theorem R_Q.add_eq (x B : R_Q LOGQ N) : R_Q.add x B = fun i => Z_Q.add (x i) (B i) :=
  forFin_map (fun i a => Z_Q.add a (B i)) x
theorem R_Q.sub_eq (x B : R_Q LOGQ N) : R_Q.sub x B = fun i => Z_Q.sub (x i) (B i) :=
  forFin_map (fun i a => Z_Q.sub a (B i)) x
theorem R_Q.mulW_eq (x : R_Q LOGQ N) (a : W) : R_Q.mulW x a = fun i => Z_Q.mulW (x i) a :=
  forFin_map (fun _ z => Z_Q.mulW z a) x
theorem R_Q.copy_eq (x : R_Q LOGQ N) : R_Q.copy x = x := rfl
theorem R_Q_square.copy_eq (x : R_Q_square LOGQ N) : R_Q_square.copy x = x := rfl

theorem R_Q.cls_add (x B : R_Q LOGQ N) : R_Q.cls (R_Q.add x B) = R_Q.cls x + R_Q.cls B := by
  rw [R_Q.add_eq]; funext i; exact Z_Q.cls_add _ _
theorem R_Q.cls_sub (x B : R_Q LOGQ N) : R_Q.cls (R_Q.sub x B) = R_Q.cls x - R_Q.cls B := by
  rw [R_Q.sub_eq]; funext i; exact Z_Q.cls_sub _ _
theorem R_Q.cls_mulW (x : R_Q LOGQ N) (a : W) :
    R_Q.cls (R_Q.mulW x a) = (a.toNat : ZMod (2^LOGQ)) • R_Q.cls x := by
  rw [R_Q.mulW_eq]; funext i; exact (Z_Q.cls_mulW _ _).trans (mul_comm _ _)
theorem R_Q.cls_setzero : R_Q.cls (R_Q.setzero : R_Q LOGQ N) = 0 := funext fun _ => Z_Q.cls_setzero
theorem R_Q.canonical_add (x B : R_Q LOGQ N) : (R_Q.add x B).Canonical := by
  rw [R_Q.add_eq]; intro i; exact Z_Q.canonical_add _ _
theorem R_Q.canonical_sub (x B : R_Q LOGQ N) : (R_Q.sub x B).Canonical := by
  rw [R_Q.sub_eq]; intro i; exact Z_Q.canonical_sub _ _
theorem R_Q.canonical_mulW (x : R_Q LOGQ N) (a : W) : (R_Q.mulW x a).Canonical := by
  rw [R_Q.mulW_eq]; intro i; exact Z_Q.canonical_mulW _ _
theorem R_Q.canonical_setzero : (R_Q.setzero : R_Q LOGQ N).Canonical := fun _ => Z_Q.canonical_setzero
theorem R_Q.ext_cls {A B : R_Q LOGQ N} (hA : A.Canonical) (hB : B.Canonical) (h : R_Q.cls A = R_Q.cls B) :
    A = B := funext fun i => Z_Q.canonical_ext (hA i) (hB i) (congrFun h i)

/-- two evaluations that return canonical polynomials of the same class are equal -/
theorem eq_of_cls {x y : M (R_Q LOGQ N)} {c : Fin N → ZMod (2^LOGQ)}
    (hx : Ok x fun m => m.Canonical ∧ R_Q.cls m = c) (hy : Ok y fun m => m.Canonical ∧ R_Q.cls m = c) :
    x = y := by
  obtain ⟨a, rfl, ha, ca⟩ := hx
  obtain ⟨b, rfl, hb, cb⟩ := hy
  rw [R_Q.ext_cls ha hb (ca.trans cb.symm)]

/-! ## phases -/

theorem phase_eq (s : Fin N → Int) (ct : R_Q_square LOGQ N) :
    R_Q_square.phase s ct = R_Q.cls ct.1 + negconv (red LOGQ s) (R_Q.cls ct.2) := rfl

theorem phase_add (s : Fin N → Int) (x y : R_Q_square LOGQ N) :
    R_Q_square.phase s (R_Q_square.add x y) = R_Q_square.phase s x + R_Q_square.phase s y := by
  simp only [phase_eq, R_Q_square.add, R_Q.cls_add, negconv_add]; abel

theorem negconv_sub (a b c : Fin N → ZMod (2^LOGQ)) : negconv a (b - c) = negconv a b - negconv a c := by
  rw [sub_eq_add_neg, negconv_add, negconv_neg, ← sub_eq_add_neg]

theorem phase_sub (s : Fin N → Int) (x y : R_Q_square LOGQ N) :
    R_Q_square.phase s (R_Q_square.sub x y) = R_Q_square.phase s x - R_Q_square.phase s y := by
  simp only [phase_eq, R_Q_square.sub, R_Q.cls_sub, negconv_sub]; abel

theorem phase_mulW (s : Fin N → Int) (x : R_Q_square LOGQ N) (a : W) :
    R_Q_square.phase s (R_Q_square.mulW x a) = (a.toNat : ZMod (2^LOGQ)) • R_Q_square.phase s x := by
  simp only [phase_eq, R_Q_square.mulW, R_Q.cls_mulW, negconv_smul, smul_add]

theorem red_negconv (a b : Fin N → Int) : red LOGQ (negconv a b) = negconv (red LOGQ a) (red LOGQ b) :=
  negconv_map' (Int.castRingHom (ZMod (2^LOGQ))) a b

theorem red_add (a b : Fin N → Int) : red LOGQ (a + b) = red LOGQ a + red LOGQ b := by
  funext i; simp [red]

theorem red_smul (c : Int) (a : Fin N → Int) : red LOGQ (c • a) = (c : ZMod (2^LOGQ)) • red LOGQ a := by
  funext i; simp [red]

theorem red_surj (x : Fin N → ZMod (2^LOGQ)) : ∃ a : Fin N → Int, red LOGQ a = x := by
  refine ⟨fun i => ((x i).val : Int), funext fun i => ?_⟩
  simp [red]

theorem Ternary.tern {s : Fin N → Int} (hs : Ternary s) :
    (fun j => ((tern (s j) : Int) : ZMod (2^LOGQ))) = red LOGQ s := by
  funext j
  rcases hs j with h | h | h <;> simp [EvalRound.tern, red, h]

theorem Ternary.abs_le {s : Fin N → Int} (hs : Ternary s) (k : Fin N) : |s k| ≤ 1 := by
  rcases hs k with h | h | h <;> simp [h]

theorem Ternary.sum_abs {s : Fin N → Int} (hs : Ternary s) : ∑ k, |s k| = (weight s : Int) := by
  unfold weight
  rw [card_filter]
  push_cast
  apply sum_congr rfl
  intro k _
  rcases hs k with h | h | h <;> simp [h]

theorem dec_spec (hN : N ≤ 2^30) {s : Fin N → Int} (hs : Ternary s) (ct : R_Q_square LOGQ N) :
    Ok (dec ct s) fun m => m.Canonical ∧ R_Q.cls m = R_Q_square.phase s ct := by
  unfold dec
  refine Ok.bind (convS_spec hN s ct.2) fun p ⟨_, h⟩ => Ok.pure ⟨R_Q.canonical_add _ _, ?_⟩
  rw [hs.tern] at h
  rw [R_Q.cls_add, h, phase_eq, add_comm]

/-! ## encryption -/

theorem randCoef_canonical (R : Nat) (z : Z_Q LOGQ) (ω : Rng) : (randCoef R z ω).1.Canonical :=
  canonical_remove_clutter _

theorem encMask_canonical (R : Nat) (A0 : R_Q LOGQ N) (ω : Rng) : (encMask R A0 ω).1.Canonical := by
  have h := forFin_inv (n := N) (s := (A0, ω)) (f := fun i (s : R_Q LOGQ N × Rng) =>
    (Function.update s.1 i (randCoef R (s.1 i) s.2).1, (randCoef R (s.1 i) s.2).2))
    (P := fun k s => ∀ i : Fin N, i.val < k → (s.1 i).Canonical) (fun i h => by omega) (by
      intro i s hs j hj
      by_cases e : j = i
      · subst e; simp only [Function.update_self]; exact randCoef_canonical _ _ _
      · have : j.val ≠ i.val := fun h => e (Fin.ext h)
        simp only [Function.update_of_ne e]; exact hs j (by omega))
  exact fun i => h i i.isLt

theorem cls_ofW (w : W) : (ofW w : Z_Q LOGQ).cls = (w.toNat : ZMod (2^LOGQ)) := by
  unfold cls; rw [val_setLow]

theorem encNoise_spec (ω : Rng) : ∃ e : Fin N → Int, (∀ i, |e i| ≤ 8) ∧
    R_Q.cls (encNoise ω : R_Q LOGQ N × Rng).1 = red LOGQ e := by
  have h := forFin_inv (n := N) (s := ((R_Q.setzero : R_Q LOGQ N), ω))
    (f := fun i (s : R_Q LOGQ N × Rng) =>
      let z : Z_Q LOGQ := ofW (BitVec.ofNat 64 (s.2 0 % 9))
      let ω := s.2.next
      let z := if ω 0 % 2 = 1 then negate z else z
      (Function.update s.1 i z, ω.next))
    (P := fun k s => ∀ i : Fin N, i.val < k → ∃ e : Int, |e| ≤ 8 ∧ (s.1 i).cls = (e : ZMod (2^LOGQ)))
    (fun i h => by omega) (by
      intro i s hs j hj
      by_cases e : j = i
      · subst e
        have hlt : s.2 0 % 9 ≤ 8 := by omega
        have hw : (BitVec.ofNat 64 (s.2 0 % 9)).toNat = s.2 0 % 9 := by
          rw [BitVec.toNat_ofNat]; exact Nat.mod_eq_of_lt (by omega)
        simp only [Function.update_self]
        split
        · refine ⟨-((s.2 0 % 9 : Nat) : Int), by rw [abs_neg, abs_of_nonneg (by positivity)]; exact_mod_cast hlt, ?_⟩
          rw [cls_negate, cls_ofW, hw, Int.cast_neg, Int.cast_natCast]
        · refine ⟨((s.2 0 % 9 : Nat) : Int), by rw [abs_of_nonneg (by positivity)]; exact_mod_cast hlt, ?_⟩
          rw [cls_ofW, hw, Int.cast_natCast]
      · have : j.val ≠ i.val := fun h => e (Fin.ext h)
        simp only [Function.update_of_ne e]; exact hs j (by omega))
  choose e he using fun i : Fin N => h i i.isLt
  exact ⟨e, fun i => (he i).1, funext fun i => (he i).2⟩

theorem enc_spec (R : Nat) (hN : N ≤ 2^30) {s : Fin N → Int} (hs : Ternary s) (pt : R_Q LOGQ N)
    (ct0 : R_Q_square LOGQ N) (ω : Rng) :
    Ok (enc R pt s ct0 ω) fun r => r.1.Canonical ∧ ∃ e : Fin N → Int, (∀ i, |e i| ≤ 8) ∧
      R_Q_square.phase s r.1 = R_Q.cls pt + red LOGQ e := by
  unfold enc
  refine Ok.bind (convS_spec hN s _) fun p ⟨_, h⟩ => Ok.pure ⟨⟨R_Q.canonical_sub _ _, encMask_canonical _ _ _⟩, ?_⟩
  rw [hs.tern] at h
  obtain ⟨e, he, h2⟩ := encNoise_spec (LOGQ := LOGQ) (N := N) (encMask R ct0.2 ω).2
  refine ⟨e, he, ?_⟩
  rw [phase_eq]
  simp only []
  rw [R_Q.cls_sub, h, R_Q.copy_eq, R_Q.cls_add, h2]
  abel

/-! ## switching keys -/

theorem swkEntry_spec (P : Z_Q LOGQ) (hP : P.Canonical) {x : Int} (h1 : -2^31 < x) (h2 : x < 2^31) :
    Ok (swkEntry P x) fun z => z.Canonical ∧ z.cls = (x : ZMod (2^LOGQ)) * P.cls := by
  unfold swkEntry
  by_cases h0 : x = 0
  · rw [if_pos h0]
    exact Ok.pure ⟨canonical_setzero, by rw [cls_setzero, h0]; simp⟩
  rw [if_neg h0, intM_ok (by split <;> omega) (by split <;> omega), pure_bind]
  generalize ha : (if x > 0 then x else -x) = a
  have ha1 : 1 ≤ a := by rw [← ha]; split <;> omega
  refine Ok.bind (whileM_inv (P := fun p : Z_Q LOGQ × Int => 0 ≤ p.2 ∧ p.1.Canonical ∧
      p.1.cls = ((a - p.2 : Int) : ZMod (2^LOGQ)) * P.cls) (μ := fun p => p.2.toNat) ?_ ?_) ?_
  · intro p ⟨q1, q2, q3⟩ hc
    have hc := of_decide_eq_true hc
    refine Ok.pure ⟨⟨by simp only []; omega, canonical_add _ _, ?_⟩, by simp only []; omega⟩
    rw [cls_add, q3]; push_cast; ring
  · refine ⟨by simp only []; omega, hP, ?_⟩
    rw [Z_Q.copy_eq]; simp
  · intro p ⟨⟨q1, q2, q3⟩, hc⟩
    have hc := of_decide_eq_false hc
    have : p.2 = 0 := by omega
    rw [this, sub_zero] at q3
    refine Ok.pure ?_
    by_cases hx : x < 0
    · rw [if_pos hx]
      refine ⟨canonical_negate _, ?_⟩
      rw [cls_negate, q3, ← ha, if_neg (by omega)]; push_cast; ring
    · rw [if_neg hx]
      refine ⟨q2, ?_⟩
      rw [q3, ← ha, if_pos (by omega)]

theorem swkgen_spec (R : Nat) (hN : N ≤ 2^30) {s_fr s_to : Fin N → Int}
    (hf : ∀ i, -2^31 < s_fr i ∧ s_fr i < 2^31) (hs : Ternary s_to)
    (swk0 : R_Q_square (2 * LOGQ) N) (ω : Rng) :
    Ok (swkgen R s_fr s_to swk0 ω) fun r => r.1.Canonical ∧ ∃ e : Fin N → Int, (∀ i, |e i| ≤ 8) ∧
      R_Q_square.phase s_to r.1 = red (2 * LOGQ) ((2^LOGQ : Int) • s_fr + e) := by
  unfold swkgen
  have h1w : (1 : W).toNat = 1 := rfl
  have hL : 0 < LOGQ := Nat.pos_of_ne_zero (NeZero.ne LOGQ)
  have hone : (ofW 1 : Z_Q LOGQ).Canonical := by
    unfold Canonical; rw [val_setLow, h1w]; exact Nat.one_lt_two_pow hL.ne'
  refine Ok.bind (shift_left_spec (LT := 2 * LOGQ) hone setzero (by omega)) fun P hP => ?_
  rw [val_setLow, h1w, one_mul, show 2 * LOGQ - LOGQ = LOGQ by omega] at hP
  have hPc : P.Canonical := by
    unfold Canonical; rw [hP]; exact Nat.pow_lt_pow_right (by norm_num) (by omega)
  refine Ok.bind (P := fun Ps : R_Q (2 * LOGQ) N => R_Q.cls Ps = red (2 * LOGQ) ((2^LOGQ : Int) • s_fr)) ?_ ?_
  · refine Ok.mono (tabM_spec (P := fun i (z : Z_Q (2 * LOGQ)) => ∀ h : i < N,
      z.cls = ((2^LOGQ * s_fr ⟨i, h⟩ : Int) : ZMod (2^(2 * LOGQ)))) ?_) fun a ha => ?_
    · intro i hi
      rw [rd_of_lt _ hi, pure_bind]
      refine Ok.mono (swkEntry_spec P hPc (hf ⟨i, hi⟩).1 (hf ⟨i, hi⟩).2) fun z hz _ => ?_
      rw [hz.2]; unfold cls; rw [hP]; push_cast; ring
    · funext i
      exact ha i i.isLt
  · intro Ps hPs
    refine Ok.mono (enc_spec R hN hs Ps swk0 ω) fun r ⟨hc, e, he, h⟩ => ⟨hc, e, he, ?_⟩
    rw [h, hPs, red_add]

/-! ## rescaling -/

/-- rounding a residue modulo `2^LF` to one modulo `2^LT` -/
theorem round_int {LF LT : Nat} (h : LT ≤ LF) (x y : Nat)
    (hy : y = (x + 2^(LF-LT) / 2) / 2^(LF-LT) % 2^LT) :
    ∃ δ : Int, 2 * |δ| ≤ 2^(LF-LT) ∧ ((2^(LF-LT) * y : Int) : ZMod (2^LF)) = ((x + δ : Int) : ZMod (2^LF)) := by
  have e : 2^LF = 2^(LF-LT) * 2^LT := by rw [← pow_add]; congr 1; omega
  generalize hD : 2^(LF-LT) = D at *
  have hDp : 0 < D := by rw [← hD]; positivity
  have hDi : ((2:Int)^(LF-LT)) = (D : Int) := by rw [← hD]; push_cast; rfl
  rw [hDi]
  have hdm := Nat.div_add_mod (x + D/2) D
  have hml := Nat.mod_lt (x + D/2) hDp
  generalize (x + D/2) / D = k at *
  generalize (x + D/2) % D = r at *
  refine ⟨(D/2 : Nat) - (r : Int), ?_, ?_⟩
  · have : |((D/2 : Nat) : Int) - (r : Int)| ≤ (D/2 : Nat) := by
      rw [abs_le]; constructor
      · have : D = 1 ∨ D % 2 = 0 := by
          rcases Nat.eq_zero_or_pos (LF - LT) with h0 | h0
          · left; rw [← hD, h0]; rfl
          · right; rw [← hD, show LF - LT = (LF - LT - 1) + 1 by omega, pow_succ]; omega
        omega
      · omega
    have h2 : 2 * (D/2) ≤ D := by omega
    have : 2 * ((D/2 : Nat) : Int) ≤ D := by exact_mod_cast h2
    linarith
  · have hk := Nat.div_add_mod k (2^LT)
    rw [← hy] at hk
    rw [ZMod.intCast_eq_intCast_iff_dvd_sub, e]
    refine ⟨((k / 2^LT : Nat) : Int), ?_⟩
    have hxk : (x : Int) + (D/2 : Nat) = D * k + r := by exact_mod_cast hdm.symm
    have hkk : (k : Int) = (2^LT : Nat) * ((k / 2^LT : Nat) : Int) + y := by exact_mod_cast hk.symm
    have : (x : Int) + ((D/2 : Nat) - (r : Int)) = D * k := by linarith
    rw [this, hkk]; push_cast; ring

theorem R_Q_cls_val (A : R_Q LOGQ N) : R_Q.cls A = red LOGQ (fun i => ((A i).val : Int)) := by
  funext i; simp [R_Q.cls, red, Z_Q.cls]

theorem RS_int {LF LT : Nat} [NeZero LF] [NeZero LT] (h : LT ≤ LF) (ct : R_Q_square LF N)
    (hc : ct.Canonical) (ct0 : R_Q_square LT N) :
    Ok (RS ct ct0) fun y => y.Canonical ∧ ∃ δ0 δ1 : Fin N → Int,
      (∀ i, 2 * |δ0 i| ≤ 2^(LF-LT)) ∧ (∀ i, 2 * |δ1 i| ≤ 2^(LF-LT)) ∧
      red LF ((2^(LF-LT) : Int) • fun i => ((y.1 i).val : Int)) = R_Q.cls ct.1 + red LF δ0 ∧
      red LF ((2^(LF-LT) : Int) • fun i => ((y.2 i).val : Int)) = R_Q.cls ct.2 + red LF δ1 := by
  unfold RS
  refine Ok.bind (tabM_spec (P := fun i (p : Z_Q LT × Z_Q LT) => ∀ h : i < N,
      p.1.val = ((ct.1 ⟨i, h⟩).val + 2^(LF-LT) / 2) / 2^(LF-LT) % 2^LT ∧
      p.2.val = ((ct.2 ⟨i, h⟩).val + 2^(LF-LT) / 2) / 2^(LF-LT) % 2^LT) ?_) fun r hr => ?_
  · intro i hi
    simp only [rd_of_lt _ hi, pure_bind]
    refine Ok.bind (shift_right_spec (hc.1 ⟨i, hi⟩) _ h) fun a ha => ?_
    refine Ok.bind (shift_right_spec (hc.2 ⟨i, hi⟩) _ h) fun b hb => Ok.pure fun _ => ⟨ha, hb⟩
  · have hp : 0 < 2^LT := by positivity
    choose δ0 h0 using fun i : Fin N => round_int h (ct.1 i).val (r i).1.val (hr i i.isLt).1
    choose δ1 h1 using fun i : Fin N => round_int h (ct.2 i).val (r i).2.val (hr i i.isLt).2
    refine Ok.pure ⟨⟨fun i => ?_, fun i => ?_⟩, δ0, δ1, fun i => (h0 i).1, fun i => (h1 i).1, ?_, ?_⟩
    · exact canonical_of_mod (hr i i.isLt).1
    · exact canonical_of_mod (hr i i.isLt).2
    · rw [R_Q_cls_val, ← red_add]
      funext i
      exact (h0 i).2
    · rw [R_Q_cls_val, ← red_add]
      funext i
      exact (h1 i).2

/-- equality modulo `2^LT` becomes equality modulo `2^LF` after multiplication by `2^(LF-LT)` -/
theorem red_scale {LF LT : Nat} (h : LT ≤ LF) {a b : Fin N → Int} (e : red LT a = red LT b) :
    red LF ((2^(LF-LT) : Int) • a) = red LF ((2^(LF-LT) : Int) • b) := by
  funext i
  have := congrFun e i
  simp only [red] at this ⊢
  rw [ZMod.intCast_eq_intCast_iff_dvd_sub] at this ⊢
  have e2 : ((2^LF : Nat) : Int) = 2^(LF-LT) * ((2^LT : Nat) : Int) := by
    push_cast; rw [← pow_add]; congr 1; omega
  rw [e2]
  simp only [Pi.smul_apply, smul_eq_mul]
  rw [← mul_sub]
  exact mul_dvd_mul_left _ this

/-- conversely -/
theorem red_unscale {LF LT : Nat} (h : LT ≤ LF) {a b : Fin N → Int}
    (e : red LF ((2^(LF-LT) : Int) • a) = red LF ((2^(LF-LT) : Int) • b)) : red LT a = red LT b := by
  funext i
  have := congrFun e i
  simp only [red] at this ⊢
  rw [ZMod.intCast_eq_intCast_iff_dvd_sub] at this ⊢
  have e2 : ((2^LF : Nat) : Int) = 2^(LF-LT) * ((2^LT : Nat) : Int) := by
    push_cast; rw [← pow_add]; congr 1; omega
  rw [e2] at this
  simp only [Pi.smul_apply, smul_eq_mul] at this
  rw [← mul_sub] at this
  exact Int.dvd_of_mul_dvd_mul_left (by positivity) this

/-- rescaling rounds the phase -/
theorem RS_phase {LF LT : Nat} [NeZero LF] [NeZero LT] (h : LT ≤ LF) (ct : R_Q_square LF N)
    (hc : ct.Canonical) (ct0 : R_Q_square LT N) (s : Fin N → Int) :
    Ok (RS ct ct0) fun y => y.Canonical ∧ ∀ m : Fin N → Int, red LT m = R_Q_square.phase s y →
      ∃ E : Fin N → Int, (∀ i, 2 * |E i| ≤ 2^(LF-LT) * ((∑ k, |s k|) + 1)) ∧
        red LF ((2^(LF-LT) : Int) • m) = R_Q_square.phase s ct + red LF E := by
  refine Ok.mono (RS_int h ct hc ct0) fun y ⟨hy, δ0, δ1, b0, b1, e0, e1⟩ => ⟨hy, fun m hm => ?_⟩
  refine ⟨δ0 + negconv s δ1, fun i => ?_, ?_⟩
  · have h1 : |negconv s (fun j => 2 * δ1 j) i| ≤ (∑ k, |s k|) * 2^(LF-LT) :=
      negconv_abs_le s _ (fun j => by rw [abs_mul]; simpa using b1 j) i
    have h2 : negconv s (fun j => 2 * δ1 j) i = 2 * negconv s δ1 i :=
      congrFun (negconv_smul s δ1 2) i
    rw [h2, abs_mul, abs_two] at h1
    have h3 := abs_add_le (δ0 i) (negconv s δ1 i)
    have h4 := b0 i
    simp only [Pi.add_apply]
    linarith
  · have hm' : red LT m = red LT ((fun i => ((y.1 i).val : Int)) + negconv s (fun i => ((y.2 i).val : Int))) := by
      rw [hm, phase_eq, red_add, red_negconv, ← R_Q_cls_val, ← R_Q_cls_val]
    rw [red_scale h hm', smul_add, red_add, ← negconv_smul, red_negconv, e0, e1, negconv_add, phase_eq,
      red_add, red_negconv]
    abel

theorem RS_canonical {LF LT : Nat} [NeZero LF] [NeZero LT] (h : LT ≤ LF) (ct : R_Q_square LF N)
    (hc : ct.Canonical) (ct0 : R_Q_square LT N) : Ok (RS ct ct0) fun y => y.Canonical :=
  (RS_int h ct hc ct0).mono fun _ h => h.1

/-! ## key switching -/

theorem mulR_spec {k : Nat} (h : ConvLOGQ LOGQ) (hk1 : 1 ≤ k) (hk : k ≤ 17) {x : R_Q_square LOGQ (2^k)}
    {B : R_Q LOGQ (2^k)} (hx : x.Canonical) (hB : R_Q.Canonical B) :
    Ok (R_Q_square.mulR x B) fun y => y.Canonical ∧ R_Q.cls y.1 = negconv (R_Q.cls x.1) (R_Q.cls B) ∧
      R_Q.cls y.2 = negconv (R_Q.cls x.2) (R_Q.cls B) := by
  unfold R_Q_square.mulR
  refine Ok.bind (conv_spec h hk1 hk (A := R_Q.copy x.1) hx.1 hB) fun a ⟨a1, a2⟩ => ?_
  refine Ok.bind (conv_spec h hk1 hk (A := R_Q.copy x.2) hx.2 hB) fun b ⟨b1, b2⟩ => ?_
  exact Ok.pure ⟨⟨a1, b1⟩, a2, b2⟩

theorem mulR_phase {k : Nat} (h : ConvLOGQ LOGQ) (hk1 : 1 ≤ k) (hk : k ≤ 17) {x : R_Q_square LOGQ (2^k)}
    {B : R_Q LOGQ (2^k)} (hx : x.Canonical) (hB : R_Q.Canonical B) (s : Fin (2^k) → Int) :
    Ok (R_Q_square.mulR x B) fun y => y.Canonical ∧
      R_Q_square.phase s y = negconv (R_Q_square.phase s x) (R_Q.cls B) := by
  refine Ok.mono (mulR_spec h hk1 hk hx hB) fun y ⟨h1, h2, h3⟩ => ⟨h1, ?_⟩
  rw [phase_eq, phase_eq, h2, h3, add_negconv, negconv_assoc]

/-- Multiplying a switching key by `c` and rescaling gives a ciphertext of `s_fr * c`. -/
theorem switch_spec {k : Nat} (h : ConvLOGQ (2 * LOGQ)) (hk1 : 1 ≤ k) (hk : k ≤ 17)
    {swk : R_Q_square (2 * LOGQ) (2^k)} (hswk : swk.Canonical) {s s_fr e : Fin (2^k) → Int} {B C : Int}
    (hB : ∀ i, |e i| ≤ B) (hph : R_Q_square.phase s swk = red (2 * LOGQ) ((2^LOGQ : Int) • s_fr + e))
    {cc : R_Q (2 * LOGQ) (2^k)} (hcc : R_Q.Canonical cc) {c : Fin (2^k) → Int}
    (hc : R_Q.cls cc = red (2 * LOGQ) c) (hC0 : 0 ≤ C) (hC : ∀ i, |c i| ≤ C) (ct0 : R_Q_square LOGQ (2^k)) :
    Ok (R_Q_square.mulR swk cc >>= fun x => RS x ct0) fun y => y.Canonical ∧
      ∃ E : Fin (2^k) → Int,
        (∀ i, 2 * 2^LOGQ * |E i| ≤ 2 * (2^k : Nat) * B * C + 2^LOGQ * ((∑ j, |s j|) + 1)) ∧
        R_Q_square.phase s y = red LOGQ (negconv s_fr c + E) := by
  have hd : 2 * LOGQ - LOGQ = LOGQ := by omega
  refine Ok.bind (mulR_phase h hk1 hk hswk hcc s) fun x ⟨hx, hxp⟩ => ?_
  refine Ok.mono (RS_phase (by omega) x hx ct0 s) fun y ⟨hy, hR⟩ => ⟨hy, ?_⟩
  obtain ⟨m, hm⟩ := red_surj (R_Q_square.phase s y)
  obtain ⟨E1, hE1, heq⟩ := hR m hm
  rw [hd] at hE1 heq
  rw [hxp, hph, hc, ← red_negconv, ← red_add, add_negconv, smul_negconv] at heq
  -- the error is divisible by `2^LOGQ`
  have hdiv : ∀ i, ∃ E : Int, negconv e c i + E1 i = 2^LOGQ * E := by
    intro i
    have h1 := congrFun heq i
    simp only [red] at h1
    rw [ZMod.intCast_eq_intCast_iff_dvd_sub] at h1
    have h2 : (2^LOGQ : Int) ∣ ((2^(2*LOGQ) : Nat) : Int) := by
      push_cast; exact pow_dvd_pow _ (by omega)
    have h3 := h2.trans h1
    simp only [Pi.add_apply, Pi.smul_apply, smul_eq_mul] at h3
    have : (2:Int)^LOGQ * negconv s_fr c i + negconv e c i + E1 i - 2^LOGQ * m i =
      2^LOGQ * (negconv s_fr c i - m i) + (negconv e c i + E1 i) := by ring
    rw [this] at h3
    exact (dvd_add_right (dvd_mul_right _ _)).1 h3
  choose E hE using hdiv
  refine ⟨E, fun i => ?_, ?_⟩
  · have b1 := negconv_abs_le' e c hB hC0 hC i
    have b2 := hE1 i
    have b3 := abs_add_le (negconv e c i) (E1 i)
    have b4 : |negconv e c i + E1 i| = 2^LOGQ * |E i| := by
      rw [hE, abs_mul, abs_of_nonneg (by positivity)]
    rw [b4] at b3
    push_cast at b1 ⊢
    nlinarith
  · rw [← hm]
    apply red_unscale (LF := 2 * LOGQ) (LT := LOGQ) (by omega)
    rw [hd, heq]
    congr 1
    funext i
    simp only [Pi.add_apply, Pi.smul_apply, smul_eq_mul, mul_add]
    rw [← hE i]; ring

theorem zext_spec {x : Z_Q LOGQ} (hx : x.Canonical) : (zext x).Canonical ∧ (zext x).val = x.val := by
  have hle : nlimb LOGQ ≤ nlimb (2 * LOGQ) := by unfold nlimb; omega
  have hv : (zext x).val = x.val := by
    unfold Z_Q.val
    have hd : ∀ i, dig (zext x).data i = dig x.data i := by
      intro i
      unfold dig zext
      by_cases h : i < nlimb LOGQ
      · simp only [h, dif_pos, lt_of_lt_of_le h hle]
      · simp only [h, dif_neg, not_false_iff]
        split <;> rfl
    obtain ⟨m, hm⟩ : ∃ m, nlimb (2 * LOGQ) = nlimb LOGQ + m := ⟨_, (Nat.add_sub_cancel' hle).symm⟩
    have e1 : lv (zext x).data (nlimb (2 * LOGQ)) = lv x.data (nlimb LOGQ + m) := by
      unfold lv; exact sum_congr (congrArg range hm) fun i _ => by rw [hd]
    rw [e1]
    unfold lv
    rw [sum_range_add]
    have : ∑ i ∈ range m, dig x.data (nlimb LOGQ + i) * 2^(64*(nlimb LOGQ + i)) = 0 := by
      apply sum_eq_zero
      intro i _
      unfold dig
      rw [dif_neg (by omega), zero_mul]
    rw [this, add_zero]
  refine ⟨?_, hv⟩
  unfold Canonical at *
  rw [hv]
  exact lt_of_lt_of_le hx (Nat.pow_le_pow_right (by norm_num) (by omega))

theorem ks_spec {k : Nat} (h : ConvLOGQ (2 * LOGQ)) (hk1 : 1 ≤ k) (hk : k ≤ 17)
    {swk : R_Q_square (2 * LOGQ) (2^k)} (hswk : swk.Canonical) {s s_fr e : Fin (2^k) → Int} {B : Int}
    (hB : ∀ i, |e i| ≤ B) (hph : R_Q_square.phase s swk = red (2 * LOGQ) ((2^LOGQ : Int) • s_fr + e))
    {ct : R_Q_square LOGQ (2^k)} (hct : ct.Canonical) :
    Ok (ks swk ct) fun y => y.Canonical ∧ ∃ E : Fin (2^k) → Int,
      (∀ i, 2 * |E i| ≤ 2 * (2^k : Nat) * B + (∑ j, |s j|) + 1) ∧
      R_Q_square.phase s y = R_Q_square.phase s_fr ct + red LOGQ E := by
  unfold ks
  simp only [R_Q_square.copy_eq]
  have hB0 : 0 ≤ B := (abs_nonneg _).trans (hB ⟨0, by positivity⟩)
  have key := switch_spec (C := 2^LOGQ) h hk1 hk hswk hB hph (cc := fun i => zext (ct.2 i))
    (fun i => (zext_spec (hct.2 i)).1) (c := fun i => ((ct.2 i).val : Int)) (by
      rw [R_Q_cls_val]; funext i; simp only [red]; rw [(zext_spec (hct.2 i)).2]) (by positivity) (by
      intro i
      rw [abs_of_nonneg (by positivity)]
      have := hct.2 i
      unfold Canonical at this
      exact_mod_cast this.le) R_Q_square.setzero
  rw [← bind_assoc]
  refine Ok.bind key fun y ⟨hy, E, hE, hyp⟩ => ?_
  refine Ok.pure ⟨⟨R_Q.canonical_add _ _, R_Q.canonical_add _ _⟩, E, fun i => ?_, ?_⟩
  · have h1 := hE i
    have h2 : (0:Int) < 2^LOGQ := by positivity
    have h3 : (2:Int)^LOGQ * (2 * |E i|) ≤ 2^LOGQ * (2 * (2^k : Nat) * B + (∑ j, |s j|) + 1) := by
      push_cast at h1 ⊢; nlinarith
    exact le_of_mul_le_mul_left h3 h2
  · rw [phase_add, hyp, phase_eq, phase_eq]
    simp only [R_Q.cls_setzero]
    rw [red_add, red_negconv, ← R_Q_cls_val]
    have : negconv (red LOGQ s) (0 : Fin (2^k) → ZMod (2^LOGQ)) = 0 := by
      have := negconv_smul (red LOGQ s) (0 : Fin (2^k) → ZMod (2^LOGQ)) 0
      simpa using this
    rw [this]; abel

theorem abs_sval_le (x : Z_Q LOGQ) : |x.sval| ≤ 2^(LOGQ-1) := by
  have := sval_bounds x
  rw [abs_le]; exact ⟨this.1, this.2.le⟩

theorem cls_red_sval (A : R_Q LOGQ N) : R_Q.cls A = red LOGQ (R_Q.sval A) :=
  funext fun i => (sval_cls (A i)).symm

theorem Mul_spec {k : Nat} (h : ConvLOGQ LOGQ) (h2 : ConvLOGQ (2 * LOGQ)) (hk1 : 1 ≤ k) (hk : k ≤ 17)
    {evk : R_Q_square (2 * LOGQ) (2^k)} (hevk : evk.Canonical) {s s2 e : Fin (2^k) → Int} {B : Int}
    (hs2 : red LOGQ s2 = negconv (red LOGQ s) (red LOGQ s))
    (hB : ∀ i, |e i| ≤ B) (hph : R_Q_square.phase s evk = red (2 * LOGQ) ((2^LOGQ : Int) • s2 + e))
    {ct1 ct2 : R_Q_square LOGQ (2^k)} (hct1 : ct1.Canonical) (hct2 : ct2.Canonical)
    (ct30 : R_Q_square LOGQ (2^k)) :
    Ok (Mul ct1 ct2 evk ct30) fun y => y.Canonical ∧ ∃ E : Fin (2^k) → Int,
      (∀ i, 2 * |E i| ≤ (2^k : Nat) * B + (∑ j, |s j|) + 1) ∧
      R_Q_square.phase s y =
        negconv (R_Q_square.phase s ct1) (R_Q_square.phase s ct2) + red LOGQ E := by
  unfold Mul
  simp only [R_Q_square.copy_eq]
  refine Ok.bind (conv_spec h hk1 hk hct1.2 hct2.2) fun d2 ⟨hd2, hd2c⟩ => ?_
  have key := switch_spec (C := 2^(LOGQ-1)) h2 hk1 hk hevk hB hph (cc := R_Q.resize (2 * LOGQ) d2)
    (fun i => canonical_resize _) (c := R_Q.sval d2) (by
      funext i; exact cls_resize (hd2 i)) (by positivity) (fun i => abs_sval_le _) ct30
  rw [← bind_assoc]
  refine Ok.bind key fun y ⟨hy, E, hE, hyp⟩ => ?_
  refine Ok.bind (conv_spec h hk1 hk hct1.1 hct2.2) fun d01 ⟨_, hd01⟩ => ?_
  refine Ok.bind (conv_spec h hk1 hk hct1.2 hct2.1) fun d10 ⟨_, hd10⟩ => ?_
  refine Ok.bind (conv_spec h hk1 hk hct1.1 hct2.1) fun d00 ⟨_, hd00⟩ => ?_
  refine Ok.pure ⟨⟨R_Q.canonical_add _ _, R_Q.canonical_add _ _⟩, E, fun i => ?_, ?_⟩
  · have h1 := hE i
    have e2 : (2:Int)^LOGQ = 2 * 2^(LOGQ-1) := by exact_mod_cast two_mul_half LOGQ
    have hp : (0:Int) < 2^(LOGQ-1) := by positivity
    rw [e2] at h1
    have h3 : (2 * 2^(LOGQ-1) : Int) * (2 * |E i|) ≤ (2 * 2^(LOGQ-1)) * ((2^k : Nat) * B + (∑ j, |s j|) + 1) := by
      push_cast at h1 ⊢; nlinarith
    exact le_of_mul_le_mul_left h3 (by positivity)
  · rw [phase_add, hyp, red_add, red_negconv, ← cls_red_sval, hd2c, hs2]
    simp only [phase_eq]
    rw [R_Q.cls_add, hd01, hd10, hd00]
    apply emb_injective
    have ea : ∀ a b : Fin (2^k) → ZMod (2^LOGQ), emb (a + b) = emb a + emb b := by
      intro a b; simp only [emb, Pi.add_apply, map_add, add_mul, sum_add_distrib]
    simp only [emb_negconv, ea]
    ring

end EvalRound

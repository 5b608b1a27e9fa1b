import Verif.Proofs.Limb
import Mathlib.Tactic.LinearCombination

/-! Ring operations, sign test and resize of `Z_Q` -/

set_option linter.unusedSectionVars false

namespace EvalRound
open Finset
namespace Z_Q
variable {L : Nat}

theorem cls_of_val {x : Z_Q L} {v : Nat} (h : x.val = v % 2^L) : x.cls = (v : ZMod (2^L)) := by
  unfold cls; rw [h, ZMod.natCast_mod]

theorem pow_cast_zero (L : Nat) : ((2^L : Nat) : ZMod (2^L)) = 0 := ZMod.natCast_self _

theorem limbs_cast_zero (L : Nat) : ((2^(64 * nlimb L) : Nat) : ZMod (2^L)) = 0 :=
  (ZMod.natCast_eq_zero_iff _ _).2 (pow_dvd_limbs L)

theorem canonical_ext {x y : Z_Q L} (hx : x.Canonical) (hy : y.Canonical) (h : x.cls = y.cls) :
    x = y := by
  apply val_inj
  have := (ZMod.natCast_eq_natCast_iff' _ _ _).1 h
  rwa [Nat.mod_eq_of_lt hx, Nat.mod_eq_of_lt hy] at this

variable [NeZero L]

@[simp] theorem copy_eq (x : Z_Q L) : copy x = x := by cases x; rfl

theorem val_setzero : (setzero : Z_Q L).val = 0 := by
  unfold val lv
  apply sum_eq_zero
  intro i _
  unfold dig setzero
  split <;> simp

theorem cls_setzero : (setzero : Z_Q L).cls = 0 := by simp [cls, val_setzero]
theorem canonical_setzero : (setzero : Z_Q L).Canonical := by
  unfold Canonical; rw [val_setzero]; positivity

theorem cls_remove_clutter (x : Z_Q L) : (remove_clutter x).cls = x.cls :=
  cls_of_val (val_remove_clutter x)
theorem canonical_remove_clutter (x : Z_Q L) : (remove_clutter x).Canonical :=
  canonical_of_mod (val_remove_clutter x)

theorem remove_clutter_of_canonical {x : Z_Q L} (h : x.Canonical) : remove_clutter x = x := by
  apply val_inj; rw [val_remove_clutter]; exact Nat.mod_eq_of_lt h

theorem cls_add (x y : Z_Q L) : (add x y).cls = x.cls + y.cls := by
  rw [cls_of_val (val_add x y)]; simp [cls]
theorem canonical_add (x y : Z_Q L) : (add x y).Canonical := canonical_of_mod (val_add x y)

theorem cls_negate (x : Z_Q L) : (negate x).cls = - x.cls := by
  rw [cls_of_val (val_negate x), Nat.cast_sub (Nat.mod_lt _ (by positivity)).le,
    pow_cast_zero, ZMod.natCast_mod, zero_sub]; rfl
theorem canonical_negate (x : Z_Q L) : (negate x).Canonical := canonical_of_mod (val_negate x)

theorem cls_sub (x y : Z_Q L) : (sub x y).cls = x.cls - y.cls := by
  unfold sub; rw [cls_add, cls_negate, copy_eq]; ring
theorem canonical_sub (x y : Z_Q L) : (sub x y).Canonical := canonical_add _ _

theorem val_setLow (w : W) : (ofW w : Z_Q L).val = w.toNat := by
  unfold ofW setLow val
  have h3 : nlimb L ≠ 0 := (nlimb_pos L).ne'
  obtain ⟨m, hm⟩ := Nat.exists_eq_succ_of_ne_zero h3
  unfold lv
  have : range (nlimb L) = range (m+1) := by rw [hm]
  rw [this, sum_range_succ']
  have hz : ∀ i, dig (setzero : Z_Q L).data i = 0 := by
    intro i; unfold dig setzero; split <;> simp
  simp [dig_update, bot, hz]

/-! ## multiplication by a word -/

theorem pow64_succ (k : Nat) : 2^(64*(k+1)) = 2^64 * 2^(64*k) := by
  rw [Nat.mul_succ, pow_add, Nat.mul_comm]

theorem mulW_loop (junk x : Z_Q L) (a : W) :
    ∃ (d Hi : Fin (nlimb L) → W) (e : Nat), mulWFrom junk x a = add ⟨d⟩ ⟨Hi⟩ ∧
      2^(64 * nlimb L) ∣ e ∧ lv d (nlimb L) + lv Hi (nlimb L) + e = a.toNat * x.val := by
  have hpos := nlimb_pos L
  have h := forFin_inv (n := nlimb L) (s := (x.data, Function.update junk.data (bot L) 0))
    (f := (fun i (s : (Fin (nlimb L) → W) × (Fin (nlimb L) → W)) =>
            let p := mul (s.1 i) a
            if h : i.val < nlimb L - 1 then
              (Function.update s.1 i p.1, Function.update s.2 ⟨i.val + 1, by omega⟩ p.2)
            else (Function.update s.1 i p.1, s.2)))
    (P := fun k s => (∀ i, k ≤ i → dig s.1 i = dig x.data i) ∧
      ∃ e, lv s.1 k + lv s.2 (k+1) + e = a.toNat * lv x.data k ∧ (k < nlimb L → e = 0) ∧
        2^(64 * nlimb L) ∣ e)
    (by
      refine ⟨fun _ _ => rfl, 0, ?_, fun _ => rfl, dvd_zero _⟩
      have : (0 : Nat) + 1 = (bot L).val + 1 := rfl
      rw [this, lv_update_self]
      simp [bot]) (by
      rintro i ⟨d, Hi⟩ ⟨h1, e, h2, h3, h4⟩
      dsimp only at h1 h2 ⊢
      obtain rfl := h3 i.isLt
      have hm := mul_spec (d i) a
      have e64 := pow64_succ i.val
      have hm' : ((mul (d i) a).1.toNat + 2^64 * (mul (d i) a).2.toNat) * 2^(64*i.val)
        = (d i).toNat * a.toNat * 2^(64*i.val) := by rw [hm]
      split
      · next hlt =>
        refine ⟨fun j hj => ?_, 0, ?_, fun _ => rfl, dvd_zero _⟩
        · dsimp only; rw [dig_update, if_neg (by omega)]; exact h1 j (by omega)
        · have e2 : i.val + 1 + 1 = (⟨i.val + 1, by omega⟩ : Fin (nlimb L)).val + 1 := rfl
          dsimp only
          rw [lv_update_self, e2, lv_update_self, lv_succ x.data, ← h1 i.val le_rfl, dig_fin]
          dsimp only
          rw [e64]
          nlinarith [hm', h2]
      · next hge =>
        have hn : i.val + 1 = nlimb L := by have := i.isLt; omega
        refine ⟨fun j hj => ?_, (mul (d i) a).2.toNat * 2^(64*(i.val+1)), ?_, fun h => by omega,
          Dvd.dvd.mul_left (by rw [hn]) _⟩
        · dsimp only; rw [dig_update, if_neg (by omega)]; exact h1 j (by omega)
        · dsimp only
          rw [lv_update_self, lv_succ Hi, dig_of_ge Hi (by omega), lv_succ x.data,
            ← h1 i.val le_rfl, dig_fin, e64]
          nlinarith [hm', h2])
  obtain ⟨-, e, he, -, hd⟩ := h
  rw [lv_of_le _ (Nat.le_succ _)] at he
  exact ⟨_, _, e, rfl, hd, he⟩

theorem val_mulWFrom (junk x : Z_Q L) (a : W) :
    (mulWFrom junk x a).val = (x.val * a.toNat) % 2^L := by
  obtain ⟨d, Hi, e, h1, hd, h2⟩ := mulW_loop junk x a
  rw [h1, val_add, Nat.mul_comm, ← h2, Nat.add_mod _ e,
    Nat.mod_eq_zero_of_dvd (dvd_trans (pow_dvd_limbs L) hd), Nat.add_zero, Nat.mod_mod]
  rfl

/-- The indeterminate initial content of `Hi` has no influence. -/
theorem mulWFrom_junk (junk junk' x : Z_Q L) (a : W) : mulWFrom junk x a = mulWFrom junk' x a :=
  val_inj (by rw [val_mulWFrom, val_mulWFrom])

theorem cls_mulW (x : Z_Q L) (a : W) : (mulW x a).cls = x.cls * (a.toNat : ZMod (2^L)) := by
  unfold mulW
  rw [cls_of_val (val_mulWFrom setzero x a)]; simp [cls]
theorem canonical_mulW (x : Z_Q L) (a : W) : (mulW x a).Canonical :=
  canonical_of_mod (val_mulWFrom setzero x a)

/-! ## multiplication -/

theorem shiftLimbs_dig (i : Nat) (x : Z_Q L) (j : Nat) (hj : j < nlimb L) :
    dig (shiftLimbs i x).data j = if i ≤ j then dig x.data (j - i) else 0 := by
  unfold shiftLimbs
  have h := forFinDown_inv (n := nlimb L) (s := x.data)
    (f := fun j d => if i ≤ j.val then Function.update d j (d ⟨j.val - i, by omega⟩)
      else Function.update d j 0)
    (P := fun k d => (∀ j, k ≤ j → j < nlimb L → dig d j = if i ≤ j then dig x.data (j - i) else 0)
      ∧ ∀ j, j < k → dig d j = dig x.data j)
    ⟨fun j h1 h2 => by omega, fun _ _ => rfl⟩ (by
      rintro k d ⟨h1, h2⟩
      have key : dig (if i ≤ k.val then Function.update d k (d ⟨k.val - i, by omega⟩)
          else Function.update d k 0) k.val = if i ≤ k.val then dig x.data (k.val - i) else 0 := by
        split
        · rw [dig_update, if_pos rfl, ← h2 (k.val - i) (by omega), dig_of_lt]
        · rw [dig_update, if_pos rfl]; rfl
      have other : ∀ j, j ≠ k.val → dig (if i ≤ k.val then Function.update d k
          (d ⟨k.val - i, by omega⟩) else Function.update d k 0) j = dig d j := by
        intro j hj
        split <;> rw [dig_update, if_neg hj]
      refine ⟨fun j hj hn => ?_, fun j hj => ?_⟩
      · by_cases e : j = k.val
        · rw [e]; exact key
        · rw [other j e]; exact h1 j (by omega) hn
      · rw [other j (by omega)]; exact h2 j (by omega))
  exact h.1 j (Nat.zero_le _) hj

theorem cls_shiftLimbs (i : Nat) (x : Z_Q L) (hi : i ≤ nlimb L) :
    (shiftLimbs i x).cls = x.cls * (2^(64*i) : Nat) := by
  have h : ∀ k, k ≤ nlimb L → lv (shiftLimbs i x).data k = 2^(64*i) * lv x.data (k - i) := by
    intro k
    induction k with
    | zero => simp
    | succ k ih =>
      intro hk
      rw [lv_succ, ih (by omega), shiftLimbs_dig _ _ _ (by omega)]
      split
      · have e : k + 1 - i = (k - i) + 1 := by omega
        rw [e, lv_succ, Nat.mul_add]
        have e2 : 2^(64*k) = 2^(64*i) * 2^(64*(k-i)) := by
          rw [← pow_add]; congr 1; omega
        rw [e2]; ring
      · have e : k + 1 - i = 0 := by omega
        have e' : k - i = 0 := by omega
        rw [e, e']; simp
  have h1 := h _ le_rfl
  have h2 := lv_mod x.data (Nat.sub_le (nlimb L) i)
  have h3 := Nat.mod_add_div (lv x.data (nlimb L)) (2^(64 * (nlimb L - i)))
  unfold cls val
  rw [h1]
  conv_rhs => rw [← h3]
  rw [h2]
  have h4 : 2^(64 * (nlimb L - i)) * 2^(64*i) = 2^(64 * nlimb L) := by
    rw [← pow_add]; congr 1; omega
  have h5 := limbs_cast_zero L
  rw [← h4] at h5
  push_cast at h5 ⊢
  linear_combination (-((lv x.data (nlimb L) / 2^(64 * (nlimb L - i)) : Nat) : ZMod (2^L))) * h5

theorem mulZ_spec (x B : Z_Q L) : (mulZ x B).cls = x.cls * B.cls ∧ (mulZ x B).Canonical := by
  unfold mulZ
  have h := forFin_inv (n := nlimb L) (s := (setzero : Z_Q L))
    (f := fun i sum => add sum (shiftLimbs i.val (mulW (copy x) (B.data i))))
    (P := fun k s => s.cls = x.cls * (lv B.data k : ZMod (2^L)) ∧ s.Canonical)
    ⟨by simp [cls_setzero], canonical_setzero⟩ (by
      rintro i s ⟨h1, -⟩
      refine ⟨?_, canonical_add _ _⟩
      rw [cls_add, cls_shiftLimbs _ _ i.isLt.le, cls_mulW, copy_eq, h1, lv_succ, dig_fin]
      push_cast
      ring)
  exact h

theorem cls_mulZ (x B : Z_Q L) : (mulZ x B).cls = x.cls * B.cls := (mulZ_spec x B).1
theorem canonical_mulZ (x B : Z_Q L) : (mulZ x B).Canonical := (mulZ_spec x B).2

/-! ## sign -/

theorem is_bigger_iff (x : Z_Q L) :
    x.is_bigger_than_halfQ = decide (x.val / 2^(L-1) = 1) := by
  obtain ⟨h1, h2, h3⟩ := lim_bounds L
  have ht := top_val (L := L)
  have key : (x.data (top L) >>> (L - (nlimb L - 1) * 64 - 1)).toNat = x.val / 2^(L-1) := by
    rw [BitVec.toNat_ushiftRight, Nat.shiftRight_eq_div_pow, ← dig_fin]
    have hv : x.val = lv x.data (top L).val + dig x.data (top L).val * 2^(64*(top L).val) := by
      rw [← lv_succ]; exact (lv_of_le _ ht.ge).symm
    have e : L - 1 = 64 * (top L).val + (L - (nlimb L - 1) * 64 - 1) := by omega
    conv_rhs => rw [e]
    rw [pow_add, ← Nat.div_div_eq_div_mul, hv, Nat.add_mul_div_right _ _ (by positivity),
      Nat.div_eq_of_lt (lv_lt _ _), Nat.zero_add]
  unfold is_bigger_than_halfQ
  simp only []
  rw [Bool.eq_iff_iff, beq_iff_eq, decide_eq_true_iff, ← key]
  constructor
  · intro h; rw [h]; rfl
  · intro h; exact BitVec.eq_of_toNat_eq (by rw [h]; rfl)

theorem two_mul_half (L : Nat) [h : NeZero L] : 2^L = 2 * 2^(L-1) := by
  have := h.out
  rw [← pow_succ']; congr 1; omega

theorem is_bigger_canonical {x : Z_Q L} (h : x.Canonical) :
    x.is_bigger_than_halfQ = decide (2^(L-1) ≤ x.val) := by
  rw [is_bigger_iff, Bool.eq_iff_iff, decide_eq_true_iff, decide_eq_true_iff]
  unfold Canonical at h
  rw [two_mul_half L] at h
  have hp : 0 < 2^(L-1) := by positivity
  rw [Nat.div_eq_iff hp]
  omega

theorem sval_canonical {x : Z_Q L} (h : x.Canonical) :
    x.sval = if 2^(L-1) ≤ x.val then (x.val : Int) - 2^L else x.val := by
  unfold sval Canonical at *
  have e := two_mul_half L
  have hm : (x.val : Int) % ((2^L : Nat) : Int) = x.val := by
    rw [← Int.natCast_mod, Nat.mod_eq_of_lt h]
  rw [Int.bmod_def, hm]
  have e2 : (((2^L : Nat) : Int) + 1) / 2 = ((2^(L-1) : Nat) : Int) := by
    rw [e]; push_cast; omega
  rw [e2]
  split
  · next h1 =>
    have : x.val < 2^(L-1) := by exact_mod_cast h1
    rw [if_neg (by omega)]
  · next h1 =>
    have : ¬ x.val < 2^(L-1) := by intro h2; exact h1 (by exact_mod_cast h2)
    rw [if_pos (by omega)]; push_cast; rfl

theorem sval_cls (x : Z_Q L) : ((x.sval : Int) : ZMod (2^L)) = x.cls := by
  unfold sval cls
  have h : ((x.val : Int).bmod (2^L) : Int) % ((2^L : Nat) : Int) = (x.val : Int) % ((2^L : Nat) : Int) :=
    Int.bmod_emod
  have := (ZMod.intCast_eq_intCast_iff' _ _ (2^L)).2 h
  rw [this]; push_cast; rfl

theorem sval_bounds (x : Z_Q L) : -(2^(L-1) : Int) ≤ x.sval ∧ x.sval < 2^(L-1) := by
  have e := two_mul_half L
  unfold sval
  have hp : 0 < 2^L := by positivity
  have h1 := Int.le_bmod (x := x.val) hp
  have h2 := Int.bmod_lt (x := x.val) hp
  rw [e] at h1 h2 ⊢
  push_cast at h1 h2 ⊢
  constructor
  · omega
  · omega

/-- a signed number in range is determined by its class -/
theorem sval_eq_of_cls {x : Z_Q L} {t : Int} (h : x.cls = (t : ZMod (2^L)))
    (h1 : -(2^(L-1) : Int) ≤ t) (h2 : t < 2^(L-1)) : x.sval = t := by
  have hb := sval_bounds x
  have h3 : ((x.sval : Int) : ZMod (2^L)) = (t : ZMod (2^L)) := by rw [sval_cls, h]
  have h4 := (ZMod.intCast_eq_intCast_iff_dvd_sub _ _ _).1 h3
  have e : (2^L : Int) = 2 * 2^(L-1) := by exact_mod_cast two_mul_half L
  obtain ⟨k, hk⟩ := h4
  push_cast at hk
  rw [e] at hk
  have hp : (0 : Int) < 2^(L-1) := by positivity
  have : k = 0 := by nlinarith
  rw [this] at hk; omega

theorem val_negate_canonical {x : Z_Q L} (h : x.Canonical) (h0 : x.val ≠ 0) :
    (negate x).val = 2^L - x.val := by
  unfold Canonical at h
  rw [val_negate, Nat.mod_eq_of_lt h, Nat.mod_eq_of_lt (by omega)]

/-! ## resize -/

theorem copyMin_dig {LF LT : Nat} (A : Z_Q LF) (B : Z_Q LT) (j : Nat) :
    dig (copyMin A B).data j = if j < min (nlimb LF) (nlimb LT) then dig A.data j else dig B.data j := by
  unfold copyMin
  have h := forFin_inv (n := min (nlimb LF) (nlimb LT)) (s := B.data)
    (f := fun i (d : Fin (nlimb LT) → W) =>
      Function.update d (⟨i.val, by have := i.isLt; omega⟩ : Fin (nlimb LT))
        (A.data ⟨i.val, by have := i.isLt; omega⟩))
    (P := fun k d => ∀ j, dig d j = if j < k then dig A.data j else dig B.data j)
    (by intro j; simp) (by
      intro i d h j
      rw [dig_update]
      by_cases e : j = i.val
      · subst e; rw [if_pos rfl, if_pos (by omega), dig_of_lt]
      · rw [if_neg e, h]
        by_cases e2 : j < i.val
        · rw [if_pos e2, if_pos (by omega)]
        · rw [if_neg e2, if_neg (by omega)])
  exact h j

theorem cls_copyMin {LF LT : Nat} [NeZero LF] [NeZero LT] (A : Z_Q LF) :
    (copyMin A (setzero : Z_Q LT)).cls = (A.val : ZMod (2^LT)) := by
  have hz : ∀ i, dig (setzero : Z_Q LT).data i = 0 := by
    intro i; unfold dig setzero; split <;> simp
  unfold cls val
  have h1 : lv (copyMin A (setzero : Z_Q LT)).data (nlimb LT) = lv A.data (nlimb LT) := by
    apply lv_congr
    intro i hi
    rw [copyMin_dig]
    by_cases e : i < nlimb LF
    · rw [if_pos (by omega)]
    · rw [if_neg (by omega), hz, dig_of_ge _ (by omega)]
  rw [h1]
  by_cases e : nlimb LF ≤ nlimb LT
  · rw [lv_of_le _ e]
  · have h2 := lv_mod A.data (show nlimb LT ≤ nlimb LF by omega)
    rw [← h2]
    have h3 := Nat.mod_add_div (lv A.data (nlimb LF)) (2^(64 * nlimb LT))
    conv_rhs => rw [← h3]
    push_cast
    have h5 := limbs_cast_zero LT
    push_cast at h5
    rw [h5]; ring

theorem cls_resize {LF LT : Nat} [NeZero LF] [NeZero LT] {A : Z_Q LF} (h : A.Canonical) :
    (resize LT A).cls = ((A.sval : Int) : ZMod (2^LT)) := by
  unfold resize
  simp only []
  rw [cls_remove_clutter, sval_canonical h, is_bigger_canonical h]
  by_cases e : 2^(LF-1) ≤ A.val
  · have h0 : A.val ≠ 0 := by
      have : 0 < 2^(LF-1) := by positivity
      omega
    simp only [e, decide_true, if_true, copy_eq]
    rw [cls_negate, cls_copyMin, val_negate_canonical h h0, Nat.cast_sub (le_of_lt h)]
    push_cast
    ring
  · simp only [e, decide_false, if_false, Bool.false_eq_true]
    rw [cls_copyMin]; push_cast; rfl

theorem canonical_resize {LF LT : Nat} [NeZero LF] [NeZero LT] (A : Z_Q LF) :
    (resize LT A).Canonical := canonical_remove_clutter _

end Z_Q
end EvalRound

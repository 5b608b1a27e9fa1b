import Verif.Model.Str
import Verif.Spec.Text
import Verif.Proofs.Sign
import Mathlib.Data.Nat.Digits.Lemmas
import Mathlib.Algebra.BigOperators.Intervals
import Mathlib.Tactic.NormNum
import Mathlib.Data.List.GetD

/-! `to_str` and `fr_str` -/

set_option linter.unusedSectionVars false

namespace EvalRound
open Finset

/-- digit `j` of an array, read through `toN`, 0 outside -/
def digN {α : Type} {m : Nat} (toN : α → Nat) (A : Fin m → α) (j : Nat) : Nat :=
  if h : j < m then toN (A ⟨j, h⟩) else 0

/-- the part of the number above position `k` -/
def hiN {α : Type} {m : Nat} (toN : α → Nat) (b : Nat) (A : Fin m → α) (k : Nat) : Nat :=
  ∑ j ∈ Ico k m, digN toN A j * b^j

theorem digN_update {α : Type} {m : Nat} (toN : α → Nat) (A : Fin m → α) (i : Fin m) (v : α) (j : Nat) :
    digN toN (Function.update A i v) j = if j = i.val then toN v else digN toN A j := by
  unfold digN
  by_cases h : j < m
  · simp only [h, dif_pos]
    by_cases e : j = i.val
    · simp [e]
    · have : (⟨j, h⟩ : Fin m) ≠ i := fun h' => e (congrArg Fin.val h')
      simp [this, e]
  · have : j ≠ i.val := by have := i.isLt; omega
    simp [h, this]

theorem hiN_succ {α : Type} {m : Nat} (toN : α → Nat) (b : Nat) (A : Fin m → α) {k : Nat} (h : k < m) :
    hiN toN b A k = digN toN A k * b^k + hiN toN b A (k+1) := by
  unfold hiN; rw [sum_eq_sum_Ico_succ_bot h]

theorem hiN_congr {α : Type} {m : Nat} (toN : α → Nat) (b : Nat) {A B : Fin m → α} {k : Nat}
    (h : ∀ j, k ≤ j → digN toN A j = digN toN B j) : hiN toN b A k = hiN toN b B k := by
  unfold hiN
  apply sum_congr rfl
  intro j hj
  rw [h j (mem_Ico.1 hj).1]

/-- long division of a digit array by a small number, from the top digit -/
theorem divLoop_spec {α : Type} {m : Nat} (toN : α → Nat) (b d : Nat) (q : α → W → α) (r : α → W → W)
    (nz : α → Bool) (hb : 0 < b) (hd : 0 < d)
    (hq : ∀ a w, toN a < b → w.toNat < d →
      toN (q a w) * d + (r a w).toNat = w.toNat * b + toN a ∧ (r a w).toNat < d)
    (hnz : ∀ a, nz a = true ↔ toN a ≠ 0)
    (A : Fin m → α) (hA : ∀ i, toN (A i) < b) (s : (Fin m → α) × W × Bool)
    (hs : s = forFinDown m (fun i (s : (Fin m → α) × W × Bool) =>
      (Function.update s.1 i (q (s.1 i) s.2.1), r (s.1 i) s.2.1,
        if nz (q (s.1 i) s.2.1) = true then false else s.2.2)) (A, 0, true)) :
    (∀ i, toN (s.1 i) < b) ∧ hiN toN b s.1 0 = hiN toN b A 0 / d ∧
      s.2.1.toNat = hiN toN b A 0 % d ∧ (s.2.2 = true ↔ hiN toN b A 0 / d = 0) := by
  have h := forFinDown_inv (n := m) (s := ((A, 0, true) : (Fin m → α) × W × Bool))
    (f := fun i (s : (Fin m → α) × W × Bool) =>
      (Function.update s.1 i (q (s.1 i) s.2.1), r (s.1 i) s.2.1,
        if nz (q (s.1 i) s.2.1) = true then false else s.2.2))
    (P := fun k s => (∀ i, toN (s.1 i) < b) ∧ (∀ j, j < k → digN toN s.1 j = digN toN A j) ∧
      hiN toN b s.1 k * d + s.2.1.toNat * b^k = hiN toN b A k ∧ s.2.1.toNat < d ∧
      (s.2.2 = true ↔ ∀ j, k ≤ j → j < m → digN toN s.1 j = 0))
    ⟨hA, fun _ _ => rfl, by simp [hiN], by simpa using hd,
      ⟨fun _ j h1 h2 => by omega, fun _ => rfl⟩⟩ (by
      rintro i ⟨C, w, z⟩ ⟨h1, h2, h3, h4, h5⟩
      dsimp only at h1 h2 h3 h4 h5 ⊢
      obtain ⟨e1, e2⟩ := hq (C i) w (h1 i) h4
      have hCi : toN (C i) = digN toN A i.val := by
        rw [← h2 i.val (by omega)]; simp [digN]
      have hql : toN (q (C i) w) < b := by
        have := h1 i
        have h6 : toN (q (C i) w) * d < b * d := by
          have : (w.toNat + 1) * b ≤ d * b := Nat.mul_le_mul_right _ h4
          nlinarith
        exact Nat.lt_of_mul_lt_mul_right h6
      refine ⟨fun j => ?_, fun j hj => ?_, ?_, e2, ?_⟩
      · by_cases e : j = i
        · subst e; rw [Function.update_self]; exact hql
        · rw [Function.update_of_ne e]; exact h1 j
      · rw [digN_update, if_neg (by omega)]; exact h2 j (by omega)
      · rw [hiN_succ _ _ _ i.isLt, hiN_succ _ _ A i.isLt, digN_update, if_pos rfl,
          hiN_congr (B := C) toN b (fun j hj => by rw [digN_update, if_neg (by omega)]), ← h3, ← hCi,
          pow_succ]
        have : (toN (q (C i) w) * d + (r (C i) w).toNat) * b^i.val
          = (w.toNat * b + toN (C i)) * b^i.val := by rw [e1]
        nlinarith [this]
      · by_cases hz : nz (q (C i) w) = true
        · simp only [hz, if_true, Bool.false_eq_true, false_iff, not_forall]
          refine ⟨i.val, le_rfl, i.isLt, ?_⟩
          rw [digN_update, if_pos rfl]; exact (hnz _).1 hz
        · rw [if_neg hz]
          have h0 : toN (q (C i) w) = 0 := by
            by_contra hne; exact hz ((hnz _).2 hne)
          rw [h5]
          constructor
          · intro h j hj hjm
            rw [digN_update]
            by_cases e : j = i.val
            · rw [if_pos e]; exact h0
            · rw [if_neg e]; exact h j (by omega) hjm
          · intro h j hj hjm
            have := h j (by omega) hjm
            rwa [digN_update, if_neg (by omega)] at this)
  rw [← hs] at h
  obtain ⟨h1, -, h3, h4, h5⟩ := h
  rw [pow_zero, Nat.mul_one] at h3
  have hdiv : hiN toN b s.1 0 = hiN toN b A 0 / d := by
    rw [← h3, Nat.mul_comm, Nat.mul_add_div hd, Nat.div_eq_of_lt h4, Nat.add_zero]
  refine ⟨h1, hdiv, ?_, ?_⟩
  · rw [← h3, Nat.mul_comm, Nat.mul_add_mod, Nat.mod_eq_of_lt h4]
  · rw [h5, ← hdiv]
    unfold hiN
    rw [sum_eq_zero_iff]
    constructor
    · intro h j hj
      rw [h j (mem_Ico.1 hj).1 (mem_Ico.1 hj).2, Nat.zero_mul]
    · intro h j hj hjm
      rcases Nat.mul_eq_zero.1 (h j (mem_Ico.2 ⟨hj, hjm⟩)) with h | h
      · exact h
      · exact absurd h (by positivity)

/-! ## digits of a number as a list -/

theorem digits_eq_range {V c : Nat} (hc : 0 < c) (h0 : V / 10^c = 0)
    (h1 : c = 1 ∨ V / 10^(c-1) ≠ 0) :
    (decDigits V).reverse = (List.range c).map (fun i => V / 10^i % 10) := by
  unfold decDigits
  by_cases hV : V = 0
  · subst hV
    have : c = 1 := by
      rcases h1 with h | h
      · exact h
      · simp at h
    subst this; simp
  · rw [if_neg hV, List.reverse_reverse]
    have hlen : (Nat.digits 10 V).length = c := by
      have e1 : ¬ c < (Nat.digits 10 V).length := by
        rw [Nat.lt_digits_length_iff (by norm_num)]
        intro h
        rw [Nat.div_eq_zero_iff] at h0
        rcases h0 with h0 | h0
        · exact absurd h0 (by positivity)
        · omega
      have e2 : c - 1 < (Nat.digits 10 V).length := by
        rw [Nat.lt_digits_length_iff (by norm_num)]
        rcases h1 with h | h
        · subst h; simp; omega
        · by_contra hlt
          exact h (Nat.div_eq_of_lt (by omega))
      omega
    apply List.ext_getElem
    · simp [hlen]
    · intro i hi _
      have := Nat.getD_digits V i (b := 10) (by norm_num)
      rw [List.getD_eq_getElem _ _ hi] at this
      simpa using this

theorem decDigits_read (V : Nat) : readDigits (decDigits V) = V := by
  unfold readDigits decDigits
  split
  · next h => simp [h]
  · rw [List.reverse_reverse, Nat.ofDigits_digits]

theorem decDigits_lt (V : Nat) : ∀ d ∈ decDigits V, d < 10 := by
  unfold decDigits
  split
  · simp
  · intro d hd
    exact Nat.digits_lt_base (by norm_num) (List.mem_reverse.1 hd)

namespace Z_Q
variable {L : Nat}

theorem toHalf_lt (x : Z_Q L) (j) : (toHalf x j).toNat < 2^32 := by
  unfold toHalf
  split
  · rw [low32_toNat]; omega
  · rw [high32_toNat]
    have := W_lt (x.data ⟨j.val / 2, by omega⟩)
    omega

theorem hiN_toHalf (x : Z_Q L) : hiN BitVec.toNat (2^32) (toHalf x) 0 = x.val := by
  unfold hiN val
  have : ∀ k, k ≤ nlimb L → ∑ j ∈ Ico 0 (2*k), digN BitVec.toNat (toHalf x) j * (2^32)^j
      = lv x.data k := by
    intro k
    induction k with
    | zero => simp
    | succ k ih =>
      intro hk
      rw [show 2 * (k+1) = 2*k + 1 + 1 by ring, sum_Ico_succ_top (by omega),
        sum_Ico_succ_top (by omega), ih (by omega), lv_succ]
      have h1 : digN BitVec.toNat (toHalf x) (2*k) = dig x.data k % 2^32 := by
        rw [dig_of_lt _ (by omega)]
        unfold digN toHalf
        rw [dif_pos (by omega)]
        simp only [Nat.mul_mod_right, if_true, Nat.mul_div_cancel_left k (show 0 < 2 by norm_num)]
        rw [low32_toNat]
      have h2 : digN BitVec.toNat (toHalf x) (2*k+1) = dig x.data k / 2^32 := by
        rw [dig_of_lt _ (by omega)]
        unfold digN toHalf
        rw [dif_pos (by omega)]
        have e : (2*k+1) / 2 = k := by omega
        have e' : ¬ (2*k+1) % 2 = 0 := by omega
        simp only [e', if_false, e]
        rw [high32_toNat]
      rw [h1, h2, ← pow_mul, ← pow_mul]
      have e3 : 32 * (2*k) = 64 * k := by ring
      have e4 : 32 * (2*k+1) = 64*k + 32 := by ring
      rw [e3, e4, pow_add]
      have := Nat.mod_add_div (dig x.data k) (2^32)
      have h3 : (dig x.data k % 2^32 + 2^32 * (dig x.data k / 2^32)) * 2^(64*k) = dig x.data k * 2^(64*k) := by
        rw [this]
      nlinarith [h3]
  exact this _ le_rfl

theorem toStrRound_spec {m : Nat} (A : Fin m → W) (hA : ∀ i, (A i).toNat < 2^32) :
    (∀ i, ((toStrRound A).1 i).toNat < 2^32) ∧
    hiN BitVec.toNat (2^32) (toStrRound A).1 0 = hiN BitVec.toNat (2^32) A 0 / 10 ∧
    (toStrRound A).2.1.toNat = hiN BitVec.toNat (2^32) A 0 % 10 ∧
    ((toStrRound A).2.2 = true ↔ hiN BitVec.toNat (2^32) A 0 / 10 = 0) := by
  refine divLoop_spec BitVec.toNat (2^32) 10 (fun a w => (w <<< 32 + a) / 10)
    (fun a w => (w <<< 32 + a) % 10) (fun a => a != 0) (by norm_num) (by norm_num) ?_ ?_ A hA _ rfl
  · intro a w ha hw
    have hs : (w <<< 32 + a).toNat = w.toNat * 2^32 + a.toNat := by
      rw [BitVec.toNat_add, BitVec.toNat_shiftLeft, Nat.shiftLeft_eq]; omega
    have h10 : (10 : W).toNat = 10 := rfl
    simp only [BitVec.toNat_udiv, BitVec.toNat_umod, hs, h10]
    omega
  · intro a
    simp only [bne_iff_ne, ne_eq, not_iff_not]
    exact ⟨fun h => by rw [h]; rfl, fun h => BitVec.eq_of_toNat_eq (by simpa using h)⟩

theorem signExtend_small (a : BitVec 32) (h : a.toNat < 10) : (a.signExtend 64).toNat = a.toNat := by
  have hm : a.msb = false := by
    rw [BitVec.msb_eq_false_iff_two_mul_lt]; omega
  rw [BitVec.signExtend_eq_setWidth_of_msb_false hm, BitVec.toNat_setWidth]
  omega

theorem frStrRound_spec {m : Nat} (A : Fin m → BitVec 32) (hA : ∀ i, (A i).toNat < 10) :
    (∀ i, ((frStrRound A).1 i).toNat < 10) ∧
    hiN BitVec.toNat 10 (frStrRound A).1 0 = hiN BitVec.toNat 10 A 0 / 2^32 ∧
    (frStrRound A).2.1.toNat = hiN BitVec.toNat 10 A 0 % 2^32 ∧
    ((frStrRound A).2.2 = true ↔ hiN BitVec.toNat 10 A 0 / 2^32 = 0) := by
  refine divLoop_spec BitVec.toNat 10 (2^32) (fun a w => ((w * 10 + a.signExtend 64) >>> 32).setWidth 32)
    (fun a w => ((w * 10 + a.signExtend 64) <<< 32) >>> 32) (fun a => a != 0)
    (by norm_num) (by norm_num) ?_ ?_ A hA _ rfl
  · intro a w ha hw
    have h10 : (10 : W).toNat = 10 := rfl
    have hs : (w * 10 + a.signExtend 64).toNat = w.toNat * 10 + a.toNat := by
      rw [BitVec.toNat_add, BitVec.toNat_mul, signExtend_small a ha, h10]; omega
    rw [low32_toNat, hs, BitVec.toNat_setWidth, high32_toNat, hs]
    omega
  · intro a
    simp only [bne_iff_ne, ne_eq, not_iff_not]
    exact ⟨fun h => by rw [h]; rfl, fun h => BitVec.eq_of_toNat_eq (by simpa using h)⟩

set_option exponentiation.threshold 2000 in
theorem pow_bound : (2:Nat)^1344 < 10^405 := by norm_num

set_option exponentiation.threshold 2000 in
theorem val_lt_of_le {x : Z_Q L} (h : L ≤ 1300) : x.val < 2^1344 :=
  lt_of_lt_of_le x.val_lt (Nat.pow_le_pow_right (by norm_num) (by unfold nlimb; omega))

set_option exponentiation.threshold 2000 in
/-- the digit loop of `to_str` -/
theorem to_str_loop (x : Z_Q L) (hL : L ≤ 1300) (B0 : Fin 520 → BitVec 32) :
    Ok (whileM (σ := (Fin (2 * nlimb L) → W) × (Fin 520 → BitVec 32) × Nat × Bool)
      (fun s => !s.2.2.2)
      (fun s => do
        let r := toStrRound s.1
        let B ← wr s.2.1 s.2.2.1 (r.2.1.setWidth 32)
        pure (r.1, B, s.2.2.1 + 1, r.2.2))
      (toHalf x, B0, 0, false)) fun s =>
      0 < s.2.2.1 ∧ s.2.2.1 ≤ 405 ∧ x.val / 10^s.2.2.1 = 0 ∧
      (s.2.2.1 = 1 ∨ x.val / 10^(s.2.2.1 - 1) ≠ 0) ∧
      ∀ i : Fin 520, i.val < s.2.2.1 → (s.2.1 i).toNat = x.val / 10^i.val % 10 := by
  have hcnt : ∀ j, x.val / 10^j ≠ 0 → j < 405 := by
    intro j hj
    by_contra hge
    apply hj
    apply Nat.div_eq_of_lt
    calc x.val < 2^1344 := val_lt_of_le hL
      _ < 10^405 := pow_bound
      _ ≤ 10^j := Nat.pow_le_pow_right (by norm_num) (by omega)
  refine Ok.mono (whileM_inv
    (P := fun s : (Fin (2 * nlimb L) → W) × (Fin 520 → BitVec 32) × Nat × Bool =>
      (∀ i, (s.1 i).toNat < 2^32) ∧ hiN BitVec.toNat (2^32) s.1 0 = x.val / 10^s.2.2.1 ∧
      (∀ i : Fin 520, i.val < s.2.2.1 → (s.2.1 i).toNat = x.val / 10^i.val % 10) ∧
      (s.2.2.2 = true ↔ 0 < s.2.2.1 ∧ x.val / 10^s.2.2.1 = 0) ∧
      (0 < s.2.2.1 → s.2.2.1 = 1 ∨ x.val / 10^(s.2.2.1 - 1) ≠ 0))
    (μ := fun s => if s.2.2.2 then 0 else hiN BitVec.toNat (2^32) s.1 0 + 1) ?_
    ⟨toHalf_lt x, by simpa using hiN_toHalf x, fun i hi => absurd hi (by simp), by simp,
      fun h => absurd h (by simp)⟩) ?_
  · rintro ⟨A, B, c, z⟩ ⟨h1, h2, h3, h4, h5⟩ hc
    dsimp only at h1 h2 h3 h4 h5 hc ⊢
    have hz : z = false := by simpa using hc
    subst hz
    obtain ⟨r1, r2, r3, r4⟩ := toStrRound_spec A h1
    have hcase : c = 0 ∨ x.val / 10^c ≠ 0 := by
      by_contra hcon
      have h6 : 0 < c ∧ x.val / 10^c = 0 := by
        rw [not_or, not_not] at hcon
        exact ⟨Nat.pos_of_ne_zero hcon.1, hcon.2⟩
      exact absurd (h4.2 h6) (by simp)
    have hc520 : c < 520 := by
      rcases hcase with h | h
      · omega
      · have := hcnt c h; omega
    rw [wr_of_lt _ hc520, pure_bind]
    have e10 : x.val / 10^c / 10 = x.val / 10^(c+1) := by
      rw [Nat.div_div_eq_div_mul, pow_succ]
    refine Ok.pure ⟨⟨r1, ?_, ?_, ?_, ?_⟩, ?_⟩
    · dsimp only; rw [r2, h2, e10]
    · intro i hi
      dsimp only at hi ⊢
      by_cases e : i.val = c
      · have : i = ⟨c, hc520⟩ := Fin.ext e
        subst this
        rw [Function.update_self, BitVec.toNat_setWidth, r3, h2]
        dsimp only
        have := Nat.mod_lt (x.val / 10^c) (show 0 < 10 by norm_num)
        omega
      · have : i ≠ ⟨c, hc520⟩ := fun h => e (congrArg Fin.val h)
        rw [Function.update_of_ne this]; exact h3 i (by omega)
    · dsimp only; rw [r4, h2, e10]; simp
    · intro _
      dsimp only
      rcases hcase with h | h
      · left; omega
      · right; simpa using h
    · dsimp only
      by_cases hz' : (toStrRound A).2.2 = true
      · rw [hz']; simp
      · simp only [hz', Bool.false_eq_true, if_false]
        have : hiN BitVec.toNat (2^32) A 0 / 10 ≠ 0 := fun h => hz' (r4.2 h)
        rw [r2]; omega
  · rintro ⟨A, B, c, z⟩ ⟨⟨h1, h2, h3, h4, h5⟩, hc⟩
    dsimp only at h1 h2 h3 h4 h5 hc ⊢
    have hz : z = true := by simpa using hc
    obtain ⟨h6, h7⟩ := h4.1 hz
    refine ⟨h6, ?_, h7, h5 h6, h3⟩
    rcases h5 h6 with h | h
    · omega
    · have := hcnt _ h; omega

theorem chr_ne_zero {d : Nat} (h : d < 10) : (chr d != 0) = true := by
  unfold chr
  rw [bne_iff_ne]
  intro h2
  have h3 := congrArg BitVec.toNat h2
  simp at h3; omega

theorem cstr_of {cap : Nat} (s : Fin cap → BitVec 8) (l : List (BitVec 8)) (hl : l.length < cap)
    (h1 : ∀ (i : Nat) (hi : i < l.length), s ⟨i, by omega⟩ = l[i]) (h2 : s ⟨l.length, hl⟩ = 0)
    (h3 : ∀ c ∈ l, (c != 0) = true) : cstr s = l := by
  unfold cstr
  have e : List.ofFn s = l ++ (List.ofFn s).drop l.length := by
    conv_lhs => rw [← List.take_append_drop l.length (List.ofFn s)]
    congr 1
    apply List.ext_getElem
    · simp; omega
    · intro i hi1 hi2
      simp only [List.getElem_take, List.getElem_ofFn]
      exact h1 i hi2
  rw [e, List.takeWhile_append_of_pos h3, List.drop_eq_getElem_cons (by simpa using hl)]
  simp [h2]

theorem to_str_spec (x : Z_Q L) (hL : L ≤ 1300) {cap : Nat} (hcap : 520 ≤ cap)
    (str : Fin cap → BitVec 8) :
    Ok (to_str x str) fun s => cstr s = decText x.val ∧ (decText x.val).length ≤ 405 := by
  unfold to_str
  have ha : assertM (decide (L ≤ 1300)) = pure () := by simp [assertM, hL]
  simp only [ha, pure_bind]
  refine Ok.bind (to_str_loop x hL _) ?_
  rintro ⟨A, B, c, z⟩ ⟨h1, h2, h3, h4, h5⟩
  dsimp only at h1 h2 h3 h4 h5 ⊢
  have hdig := digits_eq_range h1 h3 h4
  have hlen : (decDigits x.val).length = c := by
    have := congrArg List.length hdig
    simpa using this
  have hget : ∀ (i : Nat) (hi : i < (decDigits x.val).length),
      (decDigits x.val)[i] = x.val / 10^(c-1-i) % 10 := by
    intro i hi
    have hrev : decDigits x.val = ((List.range c).map (fun i => x.val / 10^i % 10)).reverse := by
      rw [← hdig, List.reverse_reverse]
    have e : (decDigits x.val)[i] = (((List.range c).map (fun i => x.val / 10^i % 10)).reverse)[i]'(by
      rw [← hrev]; exact hi) := by
      congr 1
    rw [e, List.getElem_reverse]
    simp
  refine Ok.bind (P := fun s : Fin cap → BitVec 8 => ∀ i : Fin cap, i.val < c →
    s i = chr (x.val / 10^(c-1-i.val) % 10)) ?_ ?_
  · refine forUp_inv (P := fun k (s : Fin cap → BitVec 8) => ∀ i : Fin cap, i.val < k →
      s i = chr (x.val / 10^(c-1-i.val) % 10)) (Nat.zero_le _) (fun i hi => absurd hi (by simp)) ?_
    intro i s _ hi hs
    have hi' : c - 1 - i < 520 := by omega
    rw [rd_of_lt _ hi', pure_bind, wr_of_lt _ (show i < cap by omega)]
    refine Ok.pure fun j hj => ?_
    by_cases e : j.val = i
    · have hj2 : j = ⟨i, by omega⟩ := Fin.ext e
      rw [hj2, Function.update_self]
      apply BitVec.eq_of_toNat_eq
      have := h5 ⟨c-1-i, hi'⟩ (by dsimp only; omega)
      have h10 := Nat.mod_lt (x.val / 10^(c-1-i)) (show 0 < 10 by norm_num)
      dsimp only at this ⊢
      unfold chr
      rw [BitVec.toNat_setWidth, BitVec.toNat_add, this, BitVec.toNat_ofNat, BitVec.toNat_ofNat]
      omega
    · have : j ≠ ⟨i, by omega⟩ := fun h => e (congrArg Fin.val h)
      rw [Function.update_of_ne this]; exact hs j (by omega)
  · intro s hs
    rw [wr_of_lt _ (show c < cap by omega)]
    refine Ok.pure ?_
    have hl : (decText x.val).length = c := by unfold decText; rw [List.length_map, hlen]
    refine ⟨?_, by omega⟩
    refine cstr_of _ _ (by omega) (fun i hi => ?_) ?_ ?_
    · have : (⟨i, by omega⟩ : Fin cap) ≠ ⟨c, by omega⟩ := fun h => by
        have := congrArg Fin.val h; dsimp only at this; omega
      rw [Function.update_of_ne this, hs _ (by dsimp only; omega)]
      have e : (decText x.val)[i] = chr ((decDigits x.val)[i]'(by omega)) := List.getElem_map _
      rw [e, hget]
    · have : (⟨(decText x.val).length, by omega⟩ : Fin cap) = ⟨c, by omega⟩ := Fin.ext hl
      rw [this, Function.update_self]
    · intro ch hch
      obtain ⟨d, hd, rfl⟩ := List.mem_map.1 hch
      exact chr_ne_zero (decDigits_lt _ d hd)

/-! ## fr_str -/

theorem frDigits_spec (ds : List Nat) (h : ∀ d ∈ ds, d < 10) :
    (∀ i, (frDigits (ds.map chr) i).toNat < 10) ∧
    hiN BitVec.toNat 10 (frDigits (ds.map chr)) 0 = readDigits ds := by
  have hv : ∀ i : Fin (ds.map chr).length, (frDigits (ds.map chr) i).toNat
      = ds[ds.length - 1 - i.val]'(by have := i.isLt; simp at this; omega) := by
    intro i
    have hi : i.val < ds.length := by have := i.isLt; simpa using this
    unfold frDigits
    have e : (ds.map chr).get ⟨(ds.map chr).length - 1 - i.val, by simp; omega⟩
        = chr (ds[ds.length - 1 - i.val]'(by omega)) := by
      simp
    rw [e]
    have hd := h (ds[ds.length - 1 - i.val]'(by omega)) (List.getElem_mem _)
    generalize ds[ds.length - 1 - i.val]'(by omega) = d at *
    have hm : (chr d).msb = false := by
      rw [BitVec.msb_eq_false_iff_two_mul_lt]; unfold chr; rw [BitVec.toNat_ofNat]; omega
    rw [BitVec.signExtend_eq_setWidth_of_msb_false hm, BitVec.toNat_sub, BitVec.toNat_setWidth,
      BitVec.toNat_ofNat]
    unfold chr
    rw [BitVec.toNat_ofNat]
    omega
  refine ⟨fun i => ?_, ?_⟩
  · rw [hv]; exact h _ (List.getElem_mem _)
  · unfold readDigits
    rw [Nat.ofDigits_eq_sum_mapIdx]
    unfold hiN
    rw [← Finset.range_eq_Ico]
    have hlen : (ds.map chr).length = ds.length := List.length_map _
    have : ∀ l : List Nat, (l.mapIdx fun i a => a * 10 ^ i).sum = ∑ j ∈ range l.length, l.getD j 0 * 10^j := by
      intro l
      induction l using List.reverseRecOn with
      | nil => simp
      | append_singleton l a ih =>
        rw [List.mapIdx_append, List.sum_append, ih, List.length_append, List.length_singleton,
          sum_range_succ]
        congr 1
        · apply sum_congr rfl
          intro j hj
          have hj' := mem_range.1 hj
          have hj2 : j < (l ++ [a]).length := by simp; omega
          rw [List.getD_eq_getElem _ _ hj2, List.getD_eq_getElem _ _ hj',
            List.getElem_append_left hj']
        · simp
    rw [this, List.length_reverse]
    apply sum_congr (by rw [hlen])
    intro j hj
    have hj' := mem_range.1 hj
    congr 1
    unfold digN
    rw [dif_pos (by rw [hlen]; exact hj'), hv, List.getD_eq_getElem _ _ (by simpa using hj'),
      List.getElem_reverse]

theorem fr_str_loop (L : Nat) (hn : 0 < nlimb L) {m : Nat} (D : Fin m → BitVec 32)
    (hD : ∀ i, (D i).toNat < 10)
    (B0 : Fin (2 * nlimb L) → W) (V : Nat) (hV : hiN BitVec.toNat 10 D 0 = V)
    (hlt : V < 2^(64 * nlimb L)) :
    Ok (whileM (σ := (Fin m → BitVec 32) × (Fin (2 * nlimb L) → W) × Nat × Bool)
      (fun s => !s.2.2.2)
      (fun s => do
        let r := frStrRound s.1
        let B ← wr s.2.1 s.2.2.1 r.2.1
        pure (r.1, B, s.2.2.1 + 1, r.2.2))
      (D, B0, 0, false)) fun s =>
      s.2.2.1 ≤ 2 * nlimb L ∧ V / (2^32)^s.2.2.1 = 0 ∧
      ∀ i : Fin (2 * nlimb L), i.val < s.2.2.1 → (s.2.1 i).toNat = V / (2^32)^i.val % 2^32 := by
  have hcnt : ∀ j, V / (2^32)^j ≠ 0 → j < 2 * nlimb L := by
    intro j hj
    by_contra hge
    apply hj
    apply Nat.div_eq_of_lt
    refine lt_of_lt_of_le hlt ?_
    rw [← pow_mul]
    exact Nat.pow_le_pow_right (by norm_num) (by omega)
  refine Ok.mono (whileM_inv
    (P := fun s : (Fin m → BitVec 32) × (Fin (2 * nlimb L) → W) × Nat × Bool =>
      (∀ i, (s.1 i).toNat < 10) ∧ hiN BitVec.toNat 10 s.1 0 = V / (2^32)^s.2.2.1 ∧
      (∀ i : Fin (2 * nlimb L), i.val < s.2.2.1 → (s.2.1 i).toNat = V / (2^32)^i.val % 2^32) ∧
      (s.2.2.2 = true ↔ 0 < s.2.2.1 ∧ V / (2^32)^s.2.2.1 = 0) ∧ s.2.2.1 ≤ 2 * nlimb L)
    (μ := fun s => if s.2.2.2 then 0 else hiN BitVec.toNat 10 s.1 0 + 1) ?_
    ⟨hD, by simpa using hV, fun i hi => absurd hi (by simp), by simp, Nat.zero_le _⟩) ?_
  · rintro ⟨A, B, c, z⟩ ⟨h1, h2, h3, h4, h5⟩ hc
    dsimp only at h1 h2 h3 h4 h5 hc ⊢
    have hz : z = false := by simpa using hc
    subst hz
    obtain ⟨r1, r2, r3, r4⟩ := frStrRound_spec A h1
    have hcase : c = 0 ∨ V / (2^32)^c ≠ 0 := by
      by_contra hcon
      have h6 : 0 < c ∧ V / (2^32)^c = 0 := by
        rw [not_or, not_not] at hcon
        exact ⟨Nat.pos_of_ne_zero hcon.1, hcon.2⟩
      exact absurd (h4.2 h6) (by simp)
    have hc2 : c < 2 * nlimb L := by
      rcases hcase with h | h
      · omega
      · exact hcnt c h
    rw [wr_of_lt _ hc2, pure_bind]
    have e10 : V / (2^32)^c / 2^32 = V / (2^32)^(c+1) := by
      rw [Nat.div_div_eq_div_mul, pow_succ (2^32) c]
    refine Ok.pure ⟨⟨r1, ?_, ?_, ?_, ?_⟩, ?_⟩
    · dsimp only; rw [r2, h2, e10]
    · intro i hi
      dsimp only at hi ⊢
      by_cases e : i.val = c
      · have : i = ⟨c, hc2⟩ := Fin.ext e
        subst this
        rw [Function.update_self, r3, h2]
      · have : i ≠ ⟨c, hc2⟩ := fun h => e (congrArg Fin.val h)
        rw [Function.update_of_ne this]; exact h3 i (by omega)
    · dsimp only; rw [r4, h2, e10]; simp
    · dsimp only; omega
    · dsimp only
      by_cases hz' : (frStrRound A).2.2 = true
      · rw [hz']; simp
      · simp only [hz', Bool.false_eq_true, if_false]
        have : hiN BitVec.toNat 10 A 0 / 2^32 ≠ 0 := fun h => hz' (r4.2 h)
        rw [r2]; omega
  · rintro ⟨A, B, c, z⟩ ⟨⟨h1, h2, h3, h4, h5⟩, hc⟩
    dsimp only at h1 h2 h3 h4 h5 hc ⊢
    have hz : z = true := by simpa using hc
    exact ⟨h5, (h4.1 hz).2, h3⟩

theorem fr_str_spec (L : Nat) [NeZero L] (ds : List Nat) (hd : ∀ d ∈ ds, d < 10)
    (hlen : ds.length ≤ 520) (hlt : readDigits ds < 2^(64 * nlimb L)) :
    Ok (fr_str L (ds.map chr)) fun x => x.val = readDigits ds := by
  unfold fr_str
  rw [if_neg (by simp; omega)]
  obtain ⟨f1, f2⟩ := frDigits_spec ds hd
  refine Ok.bind (fr_str_loop L (nlimb_pos L) _ f1 _ _ f2 hlt) ?_
  rintro ⟨A, B, c, z⟩ ⟨h1, h2, h3⟩
  dsimp only at h1 h2 h3 ⊢
  refine Ok.bind (P := fun B : Fin (2 * nlimb L) → W =>
    ∀ i : Fin (2 * nlimb L), (B i).toNat = readDigits ds / (2^32)^i.val % 2^32) ?_ ?_
  · refine Ok.mono (forUp_inv (P := fun k (B : Fin (2 * nlimb L) → W) =>
      ∀ i : Fin (2 * nlimb L), i.val < k → (B i).toNat = readDigits ds / (2^32)^i.val % 2^32)
      h1 h3 ?_) (fun B hB i => hB i i.isLt)
    intro i s hci hi hs
    rw [wr_of_lt _ hi]
    refine Ok.pure fun j hj => ?_
    by_cases e : j.val = i
    · have : j = ⟨i, hi⟩ := Fin.ext e
      subst this
      rw [Function.update_self]
      dsimp only
      have : readDigits ds / (2^32)^i = 0 := by
        obtain ⟨t, rfl⟩ := Nat.exists_eq_add_of_le hci
        rw [pow_add, ← Nat.div_div_eq_div_mul, h2, Nat.zero_div]
      rw [this]; rfl
    · have : j ≠ ⟨i, hi⟩ := fun h => e (congrArg Fin.val h)
      rw [Function.update_of_ne this]; exact hs j (by omega)
  · intro B hB
    refine Ok.pure ?_
    unfold val
    dsimp only
    rw [lv_of_digits (V := readDigits ds), Nat.mod_eq_of_lt hlt]
    intro i hi
    rw [dig_of_lt _ hi, BitVec.toNat_add, BitVec.toNat_shiftLeft, Nat.shiftLeft_eq, hB, hB]
    dsimp only
    rw [← pow_mul, ← pow_mul]
    have e3 : 32 * (2*i) = 64 * i := by ring
    have e4 : 32 * (2*i+1) = 64*i + 32 := by ring
    rw [e3, e4, pow_add, ← Nat.div_div_eq_div_mul]
    omega

end Z_Q
end EvalRound

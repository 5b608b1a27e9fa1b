import Verif.Model.InPlaceInt
import Verif.Props.Conv
import Verif.Proofs.NegRing

/-!
# C119: `conv` on `int` arrays whose result is also an operand
-/

namespace EvalRound
open Finset

section
variable {N : Nat}

theorem accI_zero {d : Fin N → Int} {i : Nat} (hi : i < N) (hd : d ⟨i, hi⟩ = 0) {sgn x y : Int} (hxy : x * y = 0) :
    accI d i sgn x y = pure d := by
  unfold accI
  rw [hxy, intM_ok (by norm_num) (by norm_num), pure_bind, rd_of_lt _ hi, pure_bind, hd, mul_zero, add_zero,
    intM_ok (by norm_num) (by norm_num), pure_bind, wr_of_lt _ hi, ← hd, Function.update_eq_self]

/-- C119: `conv(s,t,s)` with a constant `t`, for instance 1, is zero whatever `s`: each entry is cleared before it is read. -/
theorem C119_first (hN : N ≤ 2^30) (s t : Fin N → Int) (ht : ∀ k : Fin N, k.val ≠ 0 → t k = 0) :
    Ok (convIOver1 s t) fun d => ∀ i, d i = 0 := by
  unfold convIOver1
  refine Ok.mono (forUp_inv (P := fun m (d : Fin N → Int) => ∀ i : Fin N, i.val < m → d i = 0) (Nat.zero_le N) (fun i h => absurd h (by omega))
    fun i d _ hi hd => ?_) fun d h i => h i i.isLt
  rw [wr_of_lt _ hi, pure_bind]
  have h0 : Function.update d ⟨i, hi⟩ 0 ⟨i, hi⟩ = 0 := Function.update_self ..
  generalize e : Function.update d ⟨i, hi⟩ 0 = d' at h0
  have h1 : ∀ j : Fin N, j.val < i + 1 → d' j = 0 := fun j hj => by
    by_cases hj' : j = ⟨i, hi⟩
    · rw [hj', h0]
    · rw [← e, Function.update_of_ne hj']
      exact hd j (by have : j.val ≠ i := fun h => hj' (Fin.ext h); omega)
  refine Ok.bind (forUp_inv (P := fun _ x => x = d') (Nat.zero_le (i + 1)) rfl fun k x _ hk hx => ?_) fun x hx =>
    Ok.mono (forUp_inv (P := fun _ x => x = d') (show i + 1 ≤ N by omega) hx fun k x hk0 hk hx => ?_) fun x hx => ?_
  · subst hx
    rw [rd_of_lt _ (show k < N by omega), pure_bind, rd_of_lt _ (show i - k < N by omega), pure_bind,
      accI_zero hi h0 (by rw [h1 ⟨k, by omega⟩ hk, zero_mul])]
    exact Ok.pure rfl
  · subst hx
    rw [rd_of_lt _ hk, pure_bind, idxM_ok (by unfold INT_MAX; omega), pure_bind, rd_of_lt _ (show i + N - k < N by omega), pure_bind,
      accI_zero hi h0 (by rw [ht ⟨i + N - k, by omega⟩ (show i + N - k ≠ 0 by omega), mul_zero])]
    exact Ok.pure rfl
  · subst hx
    exact h1

/-- C119: `conv(t,s,s)` with a constant `t` is zero whatever `s`. -/
theorem C119_second (hN : N ≤ 2^30) (t s : Fin N → Int) (ht : ∀ k : Fin N, k.val ≠ 0 → t k = 0) :
    Ok (convIOver2 t s) fun d => ∀ i, d i = 0 := by
  unfold convIOver2
  refine Ok.mono (forUp_inv (P := fun m (d : Fin N → Int) => ∀ i : Fin N, i.val < m → d i = 0) (Nat.zero_le N) (fun i h => absurd h (by omega))
    fun i d _ hi hd => ?_) fun d h i => h i i.isLt
  rw [wr_of_lt _ hi, pure_bind]
  have h0 : Function.update d ⟨i, hi⟩ 0 ⟨i, hi⟩ = 0 := Function.update_self ..
  generalize e : Function.update d ⟨i, hi⟩ 0 = d' at h0
  have h1 : ∀ j : Fin N, j.val < i + 1 → d' j = 0 := fun j hj => by
    by_cases hj' : j = ⟨i, hi⟩
    · rw [hj', h0]
    · rw [← e, Function.update_of_ne hj']
      exact hd j (by have : j.val ≠ i := fun h => hj' (Fin.ext h); omega)
  refine Ok.bind (forUp_inv (P := fun _ x => x = d') (Nat.zero_le (i + 1)) rfl fun k x _ hk hx => ?_) fun x hx =>
    Ok.mono (forUp_inv (P := fun _ x => x = d') (show i + 1 ≤ N by omega) hx fun k x hk0 hk hx => ?_) fun x hx => ?_
  · subst hx
    rw [rd_of_lt _ (show k < N by omega), pure_bind, rd_of_lt _ (show i - k < N by omega), pure_bind,
      accI_zero hi h0 (by rw [h1 ⟨i - k, by omega⟩ (show i - k < i + 1 by omega), mul_zero])]
    exact Ok.pure rfl
  · subst hx
    rw [rd_of_lt _ hk, pure_bind, idxM_ok (by unfold INT_MAX; omega), pure_bind, rd_of_lt _ (show i + N - k < N by omega), pure_bind,
      accI_zero hi h0 (by rw [ht ⟨k, hk⟩ (show k ≠ 0 by omega), zero_mul])]
    exact Ok.pure rfl
  · subst hx
    exact h1

/-- C119: `conv(s,t,s)` with a constant `s`, for instance 1, is zero whatever `t`. -/
theorem C119_first_unit (hN : N ≤ 2^30) (s t : Fin N → Int) (hs : ∀ k : Fin N, k.val ≠ 0 → s k = 0) : Ok (convIOver1 s t) fun d => ∀ i, d i = 0 := by
  unfold convIOver1
  refine Ok.mono (forUp_inv (P := fun m (d : Fin N → Int) => ∀ k : Fin N, k.val ≠ 0 ∨ 0 < m → d k = 0) (Nat.zero_le N)
    (fun k h => hs k (by omega)) fun i d _ hi hd => ?_) fun d h i => h i (Or.inr (by have := i.isLt; omega))
  have e : Function.update d ⟨i, hi⟩ 0 = fun _ => 0 := funext fun k => by
    by_cases hk : k = ⟨i, hi⟩
    · rw [hk, Function.update_self]
    · rw [Function.update_of_ne hk]
      have : k.val ≠ i := fun h => hk (Fin.ext h)
      exact hd k (by omega)
  rw [wr_of_lt _ hi, pure_bind, e]
  refine Ok.bind (forUp_inv (P := fun _ x => x = fun _ => 0) (Nat.zero_le (i + 1)) rfl fun k x _ hk hx => ?_) fun x hx =>
    Ok.mono (forUp_inv (P := fun _ x => x = fun _ => 0) (show i + 1 ≤ N by omega) hx fun k x hk0 hk hx => ?_) fun x hx k _ => by rw [hx]
  · subst hx
    rw [rd_of_lt _ (show k < N by omega), pure_bind, rd_of_lt _ (show i - k < N by omega), pure_bind, accI_zero hi rfl (zero_mul _)]
    exact Ok.pure rfl
  · subst hx
    rw [rd_of_lt _ hk, pure_bind, idxM_ok (by unfold INT_MAX; omega), pure_bind, rd_of_lt _ (show i + N - k < N by omega), pure_bind,
      accI_zero hi rfl (zero_mul _)]
    exact Ok.pure rfl

/-- C119: `conv(t,s,s)` with a constant `s` is zero whatever `t`. -/
theorem C119_second_unit (hN : N ≤ 2^30) (t s : Fin N → Int) (hs : ∀ k : Fin N, k.val ≠ 0 → s k = 0) : Ok (convIOver2 t s) fun d => ∀ i, d i = 0 := by
  unfold convIOver2
  refine Ok.mono (forUp_inv (P := fun m (d : Fin N → Int) => ∀ k : Fin N, k.val ≠ 0 ∨ 0 < m → d k = 0) (Nat.zero_le N)
    (fun k h => hs k (by omega)) fun i d _ hi hd => ?_) fun d h i => h i (Or.inr (by have := i.isLt; omega))
  have e : Function.update d ⟨i, hi⟩ 0 = fun _ => 0 := funext fun k => by
    by_cases hk : k = ⟨i, hi⟩
    · rw [hk, Function.update_self]
    · rw [Function.update_of_ne hk]
      have : k.val ≠ i := fun h => hk (Fin.ext h)
      exact hd k (by omega)
  rw [wr_of_lt _ hi, pure_bind, e]
  refine Ok.bind (forUp_inv (P := fun _ x => x = fun _ => 0) (Nat.zero_le (i + 1)) rfl fun k x _ hk hx => ?_) fun x hx =>
    Ok.mono (forUp_inv (P := fun _ x => x = fun _ => 0) (show i + 1 ≤ N by omega) hx fun k x hk0 hk hx => ?_) fun x hx k _ => by rw [hx]
  · subst hx
    rw [rd_of_lt _ (show k < N by omega), pure_bind, rd_of_lt _ (show i - k < N by omega), pure_bind, accI_zero hi rfl (mul_zero _)]
    exact Ok.pure rfl
  · subst hx
    rw [rd_of_lt _ hk, pure_bind, idxM_ok (by unfold INT_MAX; omega), pure_bind, rd_of_lt _ (show i + N - k < N by omega), pure_bind,
      accI_zero hi rfl (mul_zero _)]
    exact Ok.pure rfl

/-- C119: so `conv(s,t,s)` is the product for every `s` only when `t` is zero. -/
theorem C119_first_iff (hN : N ≤ 2^30) (t : Fin N → Int) :
    (∀ s, Ok (convIOver1 s t) fun d => ∀ i, d i = negconv s t i) ↔ ∀ k, t k = 0 := by
  refine ⟨fun h k => ?_, fun h s => ?_⟩
  · obtain ⟨d, ed, hd⟩ := h (fun j => if j.val = 0 then 1 else 0)
    obtain ⟨d', ed', hd'⟩ := C119_first_unit hN (fun j : Fin N => if j.val = 0 then 1 else 0) t (fun j hj => if_neg hj)
    have e := pure_inj (ed.symm.trans ed')
    subst e
    rw [← negconv_one_right t k, negconv_comm, ← hd, hd']
  · refine Ok.mono (C119_first hN s t fun k _ => h k) fun d hd i => ?_
    rw [hd, show t = fun _ => 0 from funext h]
    simp [negconv]

/-- C119: and `conv(t,s,s)` likewise. -/
theorem C119_second_iff (hN : N ≤ 2^30) (t : Fin N → Int) :
    (∀ s, Ok (convIOver2 t s) fun d => ∀ i, d i = negconv t s i) ↔ ∀ k, t k = 0 := by
  refine ⟨fun h k => ?_, fun h s => ?_⟩
  · obtain ⟨d, ed, hd⟩ := h (fun j => if j.val = 0 then 1 else 0)
    obtain ⟨d', ed', hd'⟩ := C119_second_unit hN t (fun j : Fin N => if j.val = 0 then 1 else 0) (fun j hj => if_neg hj)
    have e := pure_inj (ed.symm.trans ed')
    subst e
    rw [← negconv_one_right t k, ← hd, hd']
  · refine Ok.mono (C119_second hN t s fun k _ => h k) fun d hd i => ?_
    rw [hd, show t = fun _ => 0 from funext h]
    simp [negconv]

theorem accI_update {d : Fin N → Int} {i : Nat} (hi : i < N) {c v sgn x y : Int} (h1 : -2^31 ≤ x * y) (h2 : x * y < 2^31)
    (hv : c + sgn * (x * y) = v) (h3 : -2^31 ≤ v) (h4 : v < 2^31) :
    accI (Function.update d ⟨i, hi⟩ c) i sgn x y = pure (Function.update d ⟨i, hi⟩ v) := by
  unfold accI
  rw [intM_ok h1 h2, pure_bind, rd_of_lt _ hi, pure_bind, Function.update_self, hv, intM_ok h3 h4, pure_bind, wr_of_lt _ hi,
    Function.update_idem]

theorem accI_keep {d : Fin N → Int} {i : Nat} (hi : i < N) {c sgn x y : Int} (hxy : x * y = 0) (h3 : -2^31 ≤ c) (h4 : c < 2^31) :
    accI (Function.update d ⟨i, hi⟩ c) i sgn x y = pure (Function.update d ⟨i, hi⟩ c) :=
  accI_update hi (by rw [hxy]; norm_num) (by rw [hxy]; norm_num) (by rw [hxy, mul_zero, add_zero]) h3 h4

/-- C119: `conv(s,X,s)` sets every entry to `-s[N-1]`; the product would be `s` shifted. -/
theorem C119_first_shift (hN : N ≤ 2^30) (hN2 : 2 ≤ N) (s t : Fin N → Int) (ht : ∀ k : Fin N, t k = if k.val = 1 then 1 else 0) (l : Int)
    (hl : ∀ k : Fin N, k.val + 1 = N → s k = l) (h1 : -2^31 < l) (h2 : l < 2^31) : Ok (convIOver1 s t) fun d => ∀ i, d i = -l := by
  unfold convIOver1
  refine Ok.mono (forUp_inv (P := fun m (d : Fin N → Int) => (∀ k : Fin N, k.val < m → d k = -l) ∧ ∀ k : Fin N, m ≤ k.val → d k = s k)
    (Nat.zero_le N) ⟨fun k h => absurd h (by omega), fun _ _ => rfl⟩ fun i d _ hi hd => ?_) fun d h i => h.1 i i.isLt
  rw [wr_of_lt _ hi, pure_bind]
  refine Ok.bind (forUp_inv (P := fun m x => x = Function.update d ⟨i, hi⟩ (if 1 ≤ i ∧ i ≤ m then -l else 0)) (Nat.zero_le (i + 1))
    (by rw [if_neg (by omega)]) fun k x _ hk hx => ?_) fun x hx =>
    Ok.mono (forUp_inv (P := fun m x => x = Function.update d ⟨i, hi⟩ (if 1 ≤ i ∨ N ≤ m then -l else 0)) (show i + 1 ≤ N by omega)
      (hx.trans (congrArg _ ?_)) fun k x hk0 hk hx => ?_) fun x hx => ?_
  · subst hx
    rw [rd_of_lt _ (show k < N by omega), pure_bind, rd_of_lt _ (show i - k < N by omega), pure_bind]
    by_cases hk1 : i = k + 1
    · have hne : (⟨k, by omega⟩ : Fin N) ≠ ⟨i, hi⟩ := fun h => by have := congrArg Fin.val h; simp only at this; omega
      rw [Function.update_of_ne hne, hd.1 ⟨k, by omega⟩ (show k < i by omega), ht, if_pos (show i - k = 1 by omega),
        if_neg (by omega), if_pos (by omega), accI_update hi (by omega) (by omega) (show 0 + 1 * (-l * 1) = -l by ring) (by omega) (by omega)]
      exact Ok.pure rfl
    · rw [ht ⟨i - k, by omega⟩, if_neg (show ¬ i - k = 1 by omega), accI_keep hi (mul_zero _) (by split_ifs <;> omega) (by split_ifs <;> omega)]
      refine Ok.pure (congrArg _ ?_)
      by_cases h : 1 ≤ i ∧ i ≤ k
      · rw [if_pos h, if_pos (by omega)]
      · rw [if_neg h, if_neg (by omega)]
  · by_cases h : 1 ≤ i
    · rw [if_pos (by omega), if_pos (by omega)]
    · rw [if_neg (by omega), if_neg (by omega)]
  · subst hx
    rw [rd_of_lt _ hk, pure_bind, idxM_ok (by unfold INT_MAX; omega), pure_bind, rd_of_lt _ (show i + N - k < N by omega), pure_bind]
    have hne : (⟨k, hk⟩ : Fin N) ≠ ⟨i, hi⟩ := fun h => by have := congrArg Fin.val h; simp only at this; omega
    by_cases hk1 : i + N = k + 1
    · rw [Function.update_of_ne hne, hd.2 ⟨k, hk⟩ (show i ≤ k by omega), hl ⟨k, hk⟩ (show k + 1 = N by omega), ht,
        if_pos (show i + N - k = 1 by omega),
        if_neg (by omega), if_pos (by omega), accI_update hi (by omega) (by omega) (show 0 + -1 * (l * 1) = -l by ring) (by omega) (by omega)]
      exact Ok.pure rfl
    · rw [ht ⟨i + N - k, by omega⟩, if_neg (show ¬ i + N - k = 1 by omega), accI_keep hi (mul_zero _) (by split_ifs <;> omega) (by split_ifs <;> omega)]
      refine Ok.pure (congrArg _ ?_)
      by_cases h : 1 ≤ i ∨ N ≤ k
      · rw [if_pos h, if_pos (by omega)]
      · rw [if_neg h, if_neg (by omega)]
  · subst hx
    rw [if_pos (by omega)]
    refine ⟨fun k hk => ?_, fun k hk => ?_⟩
    · by_cases e : k = ⟨i, hi⟩
      · rw [e, Function.update_self]
      · rw [Function.update_of_ne e]
        have : k.val ≠ i := fun h => e (Fin.ext h)
        exact hd.1 k (by omega)
    · rw [Function.update_of_ne fun h => by have := congrArg Fin.val h; simp only at this; omega]
      exact hd.2 k (by omega)

/-- C119: `conv(X,s,s)` sets every entry to `-s[N-1]`. -/
theorem C119_second_shift (hN : N ≤ 2^30) (hN2 : 2 ≤ N) (s t : Fin N → Int) (ht : ∀ k : Fin N, t k = if k.val = 1 then 1 else 0) (l : Int)
    (hl : ∀ k : Fin N, k.val + 1 = N → s k = l) (h1 : -2^31 < l) (h2 : l < 2^31) : Ok (convIOver2 t s) fun d => ∀ i, d i = -l := by
  unfold convIOver2
  refine Ok.mono (forUp_inv (P := fun m (d : Fin N → Int) => (∀ k : Fin N, k.val < m → d k = -l) ∧ ∀ k : Fin N, m ≤ k.val → d k = s k)
    (Nat.zero_le N) ⟨fun k h => absurd h (by omega), fun _ _ => rfl⟩ fun i d _ hi hd => ?_) fun d h i => h.1 i i.isLt
  rw [wr_of_lt _ hi, pure_bind]
  refine Ok.bind (forUp_inv (P := fun m x => x = Function.update d ⟨i, hi⟩ (if 1 ≤ i ∧ 2 ≤ m then -l else 0)) (Nat.zero_le (i + 1))
    (by rw [if_neg (by omega)]) fun k x _ hk hx => ?_) fun x hx =>
    Ok.mono (forUp_inv (P := fun m x => x = Function.update d ⟨i, hi⟩ (if 1 ≤ i ∨ 2 ≤ m then -l else 0)) (show i + 1 ≤ N by omega)
      (hx.trans (congrArg _ ?_)) fun k x hk0 hk hx => ?_) fun x hx => ?_
  · subst hx
    rw [rd_of_lt _ (show k < N by omega), pure_bind, rd_of_lt _ (show i - k < N by omega), pure_bind]
    by_cases hk1 : k = 1
    · have hne : (⟨i - k, by omega⟩ : Fin N) ≠ ⟨i, hi⟩ := fun h => by have := congrArg Fin.val h; simp only at this; omega
      rw [Function.update_of_ne hne, hd.1 ⟨i - k, by omega⟩ (show i - k < i by omega), ht, if_pos (show k = 1 by omega),
        if_neg (by omega), if_pos (by omega), accI_update hi (by omega) (by omega) (show 0 + 1 * (1 * -l) = -l by ring) (by omega) (by omega)]
      exact Ok.pure rfl
    · rw [ht ⟨k, by omega⟩, if_neg (show ¬ k = 1 by omega), accI_keep hi (zero_mul _) (by split_ifs <;> omega) (by split_ifs <;> omega)]
      refine Ok.pure (congrArg _ ?_)
      by_cases h : 1 ≤ i ∧ 2 ≤ k
      · rw [if_pos h, if_pos (by omega)]
      · rw [if_neg h, if_neg (by omega)]
  · by_cases h : 1 ≤ i
    · rw [if_pos (by omega), if_pos (by omega)]
    · rw [if_neg (by omega), if_neg (by omega)]
  · subst hx
    rw [rd_of_lt _ hk, pure_bind, idxM_ok (by unfold INT_MAX; omega), pure_bind, rd_of_lt _ (show i + N - k < N by omega), pure_bind]
    have hne : (⟨i + N - k, by omega⟩ : Fin N) ≠ ⟨i, hi⟩ := fun h => by have := congrArg Fin.val h; simp only at this; omega
    by_cases hk1 : k = 1
    · rw [Function.update_of_ne hne, hd.2 ⟨i + N - k, by omega⟩ (show i ≤ i + N - k by omega),
        hl ⟨i + N - k, by omega⟩ (show i + N - k + 1 = N by omega), ht,
        if_pos (show k = 1 by omega),
        if_neg (by omega), if_pos (by omega), accI_update hi (by omega) (by omega) (show 0 + -1 * (1 * l) = -l by ring) (by omega) (by omega)]
      exact Ok.pure rfl
    · rw [ht ⟨k, hk⟩, if_neg (show ¬ k = 1 by omega), accI_keep hi (zero_mul _) (by split_ifs <;> omega) (by split_ifs <;> omega)]
      refine Ok.pure (congrArg _ ?_)
      by_cases h : 1 ≤ i ∨ 2 ≤ k
      · rw [if_pos h, if_pos (by omega)]
      · rw [if_neg h, if_neg (by omega)]
  · subst hx
    rw [if_pos (by omega)]
    refine ⟨fun k hk => ?_, fun k hk => ?_⟩
    · by_cases e : k = ⟨i, hi⟩
      · rw [e, Function.update_self]
      · rw [Function.update_of_ne e]
        have : k.val ≠ i := fun h => e (Fin.ext h)
        exact hd.1 k (by omega)
    · rw [Function.update_of_ne fun h => by have := congrArg Fin.val h; simp only at this; omega]
      exact hd.2 k (by omega)

/-- C119: `conv(s,X,s)` overflows when `s[N-1]` is the least `int`, because it is negated. -/
theorem C119_first_overflow (hN : N ≤ 2^30) (hN2 : 2 ≤ N) (s t : Fin N → Int) (ht : ∀ k : Fin N, t k = if k.val = 1 then 1 else 0)
    (hl : ∀ k : Fin N, k.val + 1 = N → s k = -2^31) : convIOver1 s t = ub := by
  have hi : 0 < N := by omega
  unfold convIOver1
  refine forUp_fault (k := 0) (le_refl 0) hi (fun _ d => d = s) rfl (fun i _ h1 h2 => absurd h2 (by omega)) fun d hd => ?_
  subst hd
  rw [wr_of_lt _ hi, pure_bind]
  obtain ⟨x, ex, hx⟩ : Ok (forUp 0 (0 + 1) (fun k d => do
      let x ← rd d k
      let y ← rd t (0 - k)
      accI d 0 1 x y) (Function.update d ⟨0, hi⟩ 0)) fun x => x = Function.update d ⟨0, hi⟩ 0 := by
    refine forUp_inv (Nat.zero_le _) (fun _ x => x = Function.update d ⟨0, hi⟩ 0) rfl fun k x _ hk hx => ?_
    subst hx
    obtain rfl : k = 0 := by omega
    rw [rd_of_lt _ hi, pure_bind, rd_of_lt _ (show 0 - 0 < N by omega), pure_bind,
      accI_keep hi (by rw [ht, if_neg (show ¬ 0 - 0 = 1 by omega), mul_zero]) (by norm_num) (by norm_num)]
    exact Ok.pure rfl
  rw [ex, pure_bind]
  subst hx
  refine forUp_fault (k := N - 1) (by omega) (by omega) (fun _ x => x = Function.update d ⟨0, hi⟩ 0) rfl (fun k x hk0 hk hx => ?_) fun x hx => ?_
  · subst hx
    rw [rd_of_lt _ (show k < N by omega), pure_bind, idxM_ok (by unfold INT_MAX; omega), pure_bind, rd_of_lt _ (show 0 + N - k < N by omega),
      pure_bind, accI_keep hi (by rw [ht, if_neg (show ¬ 0 + N - k = 1 by omega), mul_zero]) (by norm_num) (by norm_num)]
    exact Ok.pure rfl
  · subst hx
    have hne : (⟨N - 1, by omega⟩ : Fin N) ≠ ⟨0, hi⟩ := fun h => by have := congrArg Fin.val h; simp only at this; omega
    have hv : Function.update d ⟨0, hi⟩ 0 ⟨N - 1, by omega⟩ = -2^31 := by
      rw [Function.update_of_ne hne]
      exact hl _ (show N - 1 + 1 = N by omega)
    rw [rd_of_lt _ (show N - 1 < N by omega), pure_bind, idxM_ok (by unfold INT_MAX; omega), pure_bind,
      rd_of_lt _ (show 0 + N - (N - 1) < N by omega), pure_bind, hv, ht, if_pos (show 0 + N - (N - 1) = 1 by omega)]
    unfold accI
    rw [intM_ok (by norm_num) (by norm_num), pure_bind, rd_of_lt _ hi, pure_bind, Function.update_self]
    rfl

/-- C119: `conv(X,s,s)` overflows when `s[N-1]` is the least `int`. -/
theorem C119_second_overflow (hN : N ≤ 2^30) (hN2 : 2 ≤ N) (s t : Fin N → Int) (ht : ∀ k : Fin N, t k = if k.val = 1 then 1 else 0)
    (hl : ∀ k : Fin N, k.val + 1 = N → s k = -2^31) : convIOver2 t s = ub := by
  have hi : 0 < N := by omega
  unfold convIOver2
  refine forUp_fault (k := 0) (le_refl 0) hi (fun _ d => d = s) rfl (fun i _ h1 h2 => absurd h2 (by omega)) fun d hd => ?_
  subst hd
  rw [wr_of_lt _ hi, pure_bind]
  obtain ⟨x, ex, hx⟩ : Ok (forUp 0 (0 + 1) (fun k d => do
      let x ← rd t k
      let y ← rd d (0 - k)
      accI d 0 1 x y) (Function.update d ⟨0, hi⟩ 0)) fun x => x = Function.update d ⟨0, hi⟩ 0 := by
    refine forUp_inv (Nat.zero_le _) (fun _ x => x = Function.update d ⟨0, hi⟩ 0) rfl fun k x _ hk hx => ?_
    subst hx
    obtain rfl : k = 0 := by omega
    rw [rd_of_lt _ hi, pure_bind, rd_of_lt _ (show 0 - 0 < N by omega), pure_bind,
      accI_keep hi (by rw [ht, if_neg (show ¬ 0 = 1 by omega), zero_mul]) (by norm_num) (by norm_num)]
    exact Ok.pure rfl
  rw [ex, pure_bind]
  subst hx
  refine forUp_fault (k := 1) (by omega) (by omega) (fun _ x => x = Function.update d ⟨0, hi⟩ 0) rfl (fun k x hk0 hk hx => ?_) fun x hx => ?_
  · subst hx
    rw [rd_of_lt _ (show k < N by omega), pure_bind, idxM_ok (by unfold INT_MAX; omega), pure_bind, rd_of_lt _ (show 0 + N - k < N by omega),
      pure_bind, accI_keep hi (by omega) (by norm_num) (by norm_num)]
    exact Ok.pure rfl
  · subst hx
    have hne : (⟨N - 1, by omega⟩ : Fin N) ≠ ⟨0, hi⟩ := fun h => by have := congrArg Fin.val h; simp only at this; omega
    have hv : Function.update d ⟨0, hi⟩ 0 ⟨N - 1, by omega⟩ = -2^31 := by
      rw [Function.update_of_ne hne]
      exact hl _ (show N - 1 + 1 = N by omega)
    rw [rd_of_lt _ (show 1 < N by omega), pure_bind, idxM_ok (by unfold INT_MAX; omega), pure_bind,
      rd_of_lt _ (show 0 + N - 1 < N by omega), pure_bind,
      show (⟨0 + N - 1, by omega⟩ : Fin N) = ⟨N - 1, by omega⟩ from Fin.ext (show 0 + N - 1 = N - 1 by omega), hv, ht, if_pos rfl]
    unfold accI
    rw [intM_ok (by norm_num) (by norm_num), pure_bind, rd_of_lt _ hi, pure_bind, Function.update_self]
    rfl

theorem forUp_head {σ : Type _} {body : Nat → σ → M σ} {hi : Nat} (h : 0 < hi) (s : σ) :
    forUp 0 hi body s = body 0 s >>= fun s => forUp 1 hi body s := by
  obtain ⟨m, rfl⟩ : ∃ m, hi = m + 1 := ⟨hi - 1, by omega⟩
  rfl

/-- C119: `conv(s,s,s)` does not read `s[0]`: it is the same for two arrays that differ there only. -/
theorem C119_square_same (s s' : Fin N → Int) (h : ∀ k : Fin N, k.val ≠ 0 → s k = s' k) : convIOver12 s = convIOver12 s' := by
  unfold convIOver12
  by_cases hN : N = 0
  · subst hN
    rw [show s = s' from funext fun k => absurd k.isLt (by omega)]
  · have h0 : 0 < N := by omega
    have e : Function.update s ⟨0, h0⟩ 0 = Function.update s' ⟨0, h0⟩ 0 := funext fun k => by
      by_cases hk : k = ⟨0, h0⟩
      · rw [hk, Function.update_self, Function.update_self]
      · rw [Function.update_of_ne hk, Function.update_of_ne hk, h k fun hv => hk (Fin.ext hv)]
    rw [forUp_head h0, forUp_head h0, wr_of_lt _ h0, wr_of_lt _ h0, pure_bind, pure_bind, e]

/-- C119: so it is zero for a constant `s`, whose square into another array is the constant's square. -/
theorem C119_square_const (hN : N ≤ 2^30) (s : Fin N → Int) (hs : ∀ k : Fin N, k.val ≠ 0 → s k = 0) :
    Ok (convIOver12 s) fun d => ∀ i, d i = 0 := by
  rw [C119_square_same s (fun _ => 0) hs]
  unfold convIOver12
  refine Ok.mono (forUp_inv (P := fun _ (d : Fin N → Int) => d = fun _ => 0) (Nat.zero_le N) rfl fun i d _ hi hd => ?_) fun d h i => by rw [h]
  subst hd
  have e : Function.update (fun _ => (0 : Int)) (⟨i, hi⟩ : Fin N) 0 = fun _ => 0 := Function.update_eq_self (⟨i, hi⟩ : Fin N) (fun _ => (0 : Int))
  rw [wr_of_lt _ hi, pure_bind, e]
  refine Ok.bind (forUp_inv (P := fun _ x => x = fun _ => 0) (Nat.zero_le (i + 1)) rfl fun k x _ hk hx => ?_) fun x hx =>
    forUp_inv (P := fun _ x => x = fun _ => 0) (show i + 1 ≤ N by omega) hx fun k x hk0 hk hx => ?_
  · subst hx
    rw [rd_of_lt _ (show k < N by omega), pure_bind, rd_of_lt _ (show i - k < N by omega), pure_bind, accI_zero hi rfl (zero_mul _)]
    exact Ok.pure rfl
  · subst hx
    rw [rd_of_lt _ hk, pure_bind, idxM_ok (by unfold INT_MAX; omega), pure_bind, rd_of_lt _ (show i + N - k < N by omega), pure_bind,
      accI_zero hi rfl (zero_mul _)]
    exact Ok.pure rfl

theorem ok_of_match {x : M (Fin N → Int)} {v : Fin N → Int}
    (h : (match x.run with | some (.ok d) => decide (d = v) | _ => false) = true) : Ok x fun d => d = v := by
  split at h
  · next d hd => exact ⟨d, hd, of_decide_eq_true h⟩
  · exact absurd h (by decide)

/-- C119: `conv(s,s,s)` for `s = 3 + X + 2X^3` at `N = 4` is `-4 - 4X^2`; the square is `5 + 6X - 3X^2 + 12X^3`. -/
theorem C119_square_witness : (Ok (convIOver12 (![3, 1, 0, 2] : Fin 4 → Int)) fun d => d = ![-4, 0, -4, 0]) ∧
    negconv (![3, 1, 0, 2] : Fin 4 → Int) ![3, 1, 0, 2] = ![5, 6, -3, 12] :=
  ⟨ok_of_match (by decide +kernel), by decide +kernel⟩

end

/-- The hypotheses of `C119_first`, `C119_second` are met by `t = 1`, those of `C119_square_const` by `s = 3`. -/
example (s : Fin 8 → Int) : (Ok (convIOver1 s ![1, 0, 0, 0, 0, 0, 0, 0]) fun d => ∀ i, d i = 0) ∧
    (Ok (convIOver2 ![1, 0, 0, 0, 0, 0, 0, 0] s) fun d => ∀ i, d i = 0) ∧ Ok (convIOver12 ![3, 0, 0, 0, 0, 0, 0, 0]) fun d => ∀ i, d i = 0 :=
  ⟨C119_first (by norm_num) s _ (by decide), C119_second (by norm_num) _ s (by decide), C119_square_const (by norm_num) _ (by decide)⟩

/-- The hypothesis of `C119_square_same` is met by two different arrays. -/
example : convIOver12 (![1, 1, 0, -1] : Fin 4 → Int) = convIOver12 ![0, 1, 0, -1] := C119_square_same _ _ (by decide)

/-- The hypotheses of `C119_first_unit` and `C119_second_unit` are met by `s = 1`. -/
example (t : Fin 8 → Int) : (Ok (convIOver1 ![1, 0, 0, 0, 0, 0, 0, 0] t) fun d => ∀ i, d i = 0) ∧
    Ok (convIOver2 t ![1, 0, 0, 0, 0, 0, 0, 0]) fun d => ∀ i, d i = 0 :=
  ⟨C119_first_unit (by norm_num) _ t (by decide), C119_second_unit (by norm_num) t _ (by decide)⟩

/-- The hypotheses of `C119_first_shift` and `C119_second_shift` are met by `s = 1 + 2X + 3X^2 + 4X^3`. -/
example : (Ok (convIOver1 (![1, 2, 3, 4] : Fin 4 → Int) ![0, 1, 0, 0]) fun d => ∀ i, d i = -4) ∧
    Ok (convIOver2 ![0, 1, 0, 0] (![1, 2, 3, 4] : Fin 4 → Int)) fun d => ∀ i, d i = -4 :=
  ⟨C119_first_shift (by norm_num) (by norm_num) _ _ (by decide) 4 (by decide) (by norm_num) (by norm_num),
   C119_second_shift (by norm_num) (by norm_num) _ _ (by decide) 4 (by decide) (by norm_num) (by norm_num)⟩

/-- The hypotheses of `C119_first_overflow` and `C119_second_overflow` are met by `s = -2^31 X`. -/
example : convIOver1 (![0, -2^31] : Fin 2 → Int) ![0, 1] = ub ∧ convIOver2 ![0, 1] (![0, -2^31] : Fin 2 → Int) = ub :=
  ⟨C119_first_overflow (by norm_num) (by norm_num) _ _ (by decide) (by decide),
   C119_second_overflow (by norm_num) (by norm_num) _ _ (by decide) (by decide)⟩

end EvalRound

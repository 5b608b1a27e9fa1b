import Verif.Proofs.Core
import Verif.Proofs.Keygen
import Verif.Props.Util

/-! # What the loops of `enc` and `keygen` make of the random stream -/

set_option linter.unusedSectionVars false

namespace EvalRound
open Z_Q

theorem Rng.drop_drop (ω : Rng) (a b : Nat) : (ω.drop a).drop b = ω.drop (a + b) := by
  funext n; simp only [Rng.drop]; congr 1; omega

theorem Rng.drop_zero (ω : Rng) : ω.drop 0 = ω := by
  funext n; simp only [Rng.drop]; congr 1; omega

/-- a loop that fills an array, taking `c` draws for each entry -/
theorem forFin_draw {α : Type} {n c : Nat} (g : Rng → α) (f : Fin n → (Fin n → α) × Rng → (Fin n → α) × Rng)
    (hf : ∀ i s, f i s = (Function.update s.1 i (g s.2), s.2.drop c)) (A0 : Fin n → α) (ω : Rng) :
    forFin n f (A0, ω) = (fun i : Fin n => g (ω.drop (c * i)), ω.drop (c * n)) := by
  have h := forFin_inv (n := n) (s := (A0, ω)) (f := f)
    (P := fun k s => s.2 = ω.drop (c * k) ∧ ∀ i : Fin n, i.val < k → s.1 i = g (ω.drop (c * i)))
    ⟨by simp [Rng.drop_zero], fun i h => by omega⟩ (by
      intro i s ⟨h1, h2⟩
      rw [hf]
      refine ⟨by simp only [h1, Rng.drop_drop]; rfl, fun j hj => ?_⟩
      by_cases e : j = i
      · subst e; simp only [Function.update_self, h1]
      · have : j.val ≠ i.val := fun h => e (Fin.ext h)
        simp only [Function.update_of_ne e]; exact h2 j (by omega))
  exact Prod.ext (funext fun i => h.2 i i.isLt) h.1

theorem rand_uint64_rest (R : Nat) (ω : Rng) : (rand_uint64 R ω).2 = ω.drop 5 := (C41_five R ω ω fun _ _ => rfl).1

variable {LOGQ N : Nat} [NeZero LOGQ]

theorem randCoef_eq (R : Nat) (z : Z_Q LOGQ) (ω : Rng) :
    randCoef R z ω = (remove_clutter ⟨fun j => (rand_uint64 R (ω.drop (5 * j))).1⟩, ω.drop (5 * nlimb LOGQ)) := by
  unfold randCoef
  rw [forFin_draw (c := 5) (fun ω => (rand_uint64 R ω).1) _ (fun i s => by simp only [rand_uint64_rest])]

theorem encMask_eq (R : Nat) (A0 : R_Q LOGQ N) (ω : Rng) :
    encMask R A0 ω = (fun i : Fin N => remove_clutter ⟨fun j => (rand_uint64 R (ω.drop (5 * nlimb LOGQ * i + 5 * j))).1⟩,
      ω.drop (5 * nlimb LOGQ * N)) := by
  unfold encMask
  rw [forFin_draw (c := 5 * nlimb LOGQ)
    (fun ω => (remove_clutter ⟨fun j => (rand_uint64 R (ω.drop (5 * j))).1⟩ : Z_Q LOGQ)) _
    (fun i s => by simp only [randCoef_eq])]
  simp only [Rng.drop_drop]

theorem encNoise_eq (ω : Rng) : (encNoise ω : R_Q LOGQ N × Rng) =
    (fun i : Fin N => if ω (2 * i + 1) % 2 = 1 then negate (ofW (BitVec.ofNat 64 (ω (2 * i) % 9)))
      else ofW (BitVec.ofNat 64 (ω (2 * i) % 9)), ω.drop (2 * N)) := by
  unfold encNoise
  rw [forFin_draw (c := 2) (fun ω => if ω 1 % 2 = 1 then negate (ofW (BitVec.ofNat 64 (ω 0 % 9)) : Z_Q LOGQ)
      else ofW (BitVec.ofNat 64 (ω 0 % 9))) _ (fun i s => by
        have hd : s.2.next.next = s.2.drop 2 := by
          funext n; simp only [Rng.next, Rng.drop]; rw [Nat.add_comm 2 n]
        simp only [hd, Rng.next, Nat.zero_add])]
  simp only [Rng.drop, Nat.add_zero]
  rfl

/-! ## keygen -/

/-- a round whose first draw is free -/
theorem keygenStep_free [NeZero N] (t : Fin N → Int) (j : Fin N) (hj : t j = 0) (ω : Rng) (h0 : ω 0 = j.val) :
    keygenStep (t, ω) = pure (Function.update t j (if ω 1 % 2 = 0 then 1 else -1), ω.drop 2) := by
  have e : Fin.ofNat N (ω 0) = j := Fin.ext (by simp [h0])
  unfold keygenStep
  simp only []
  rw [e, whileM_false (by simpa using hj), pure_bind]
  have hd : ω.next.next = ω.drop 2 := by
    funext n; simp only [Rng.next, Rng.drop]; congr 1; omega
  simp only [hd]
  rfl

theorem exists_new {s t : Fin N → Int} (hw : weight t < weight s) :
    ∃ j, t j = 0 ∧ s j ≠ 0 := by
  by_contra hn
  push Not at hn
  apply absurd hw
  rw [not_lt]
  unfold weight
  apply Finset.card_le_card
  intro k hk
  simp only [Finset.mem_filter, Finset.mem_univ, true_and] at hk ⊢
  exact fun h0 => hk (hn k h0)

theorem keygen_reach [NeZero N] (R : Nat) (hN : N ≤ R + 1) (hR : 1 ≤ R) {s : Fin N → Int} (hs : Ternary s) (c : Nat) :
    ∀ (lo : Nat) (t : Fin N → Int), (∀ k, t k ≠ 0 → t k = s k) → weight s = weight t + c →
    ∃ ω ω' : Rng, (∀ n, ω n ≤ R) ∧ forFrom (fun _ st => keygenStep st) lo c (t, ω) = pure (s, ω') := by
  induction c with
  | zero =>
    intro lo t ht hw
    refine ⟨fun _ => 0, fun _ => 0, fun _ => Nat.zero_le _, ?_⟩
    have : t = s := by
      funext k
      by_cases h : t k = 0
      · by_contra hk
        rw [h] at hk
        have hlt : weight t < weight s := by
          unfold weight
          apply Finset.card_lt_card
          rw [Finset.ssubset_iff_of_subset]
          · exact ⟨k, by simpa using fun h => hk h.symm, by simpa using h⟩
          · intro a ha
            simp only [Finset.mem_filter, Finset.mem_univ, true_and] at ha ⊢
            rwa [← ht a ha]
        omega
      · exact ht k h
    subst this; rfl
  | succ c ih =>
    intro lo t ht hw
    obtain ⟨j, hj, hsj⟩ := exists_new (s := s) (t := t) (by omega)
    have hw1 : weight (Function.update t j (s j)) = weight t + 1 := weight_update hj hsj
    obtain ⟨ω, ω', hω, e⟩ := ih (lo+1) (Function.update t j (s j)) (by
      intro k hk
      by_cases ek : k = j
      · subst ek; simp
      · rw [Function.update_of_ne ek] at hk ⊢; exact ht k hk) (by omega)
    refine ⟨fun n => match n with | 0 => j.val | 1 => if s j = 1 then 0 else 1 | n+2 => ω n, ω', ?_, ?_⟩
    · intro n
      match n with
      | 0 => have := j.isLt; simp only []; omega
      | 1 => simp only []; split <;> omega
      | n+2 => exact hω n
    · rw [forFrom, keygenStep_free t j hj _ rfl, pure_bind]
      have hv : (if (if s j = 1 then 0 else 1) % 2 = 0 then (1:Int) else -1) = s j := by
        rcases hs j with h | h | h
        · simp [h]
        · exact absurd h hsj
        · simp [h]
      have hd : Rng.drop (fun n => match n with | 0 => j.val | 1 => if s j = 1 then 0 else 1 | n+2 => ω n) 2 = ω := by
        funext n
        show (match 2 + n with | 0 => j.val | 1 => if s j = 1 then 0 else 1 | n+2 => ω n) = ω n
        rw [Nat.add_comm 2 n]
      simp only [] at hv ⊢
      rw [hv, hd]
      exact e

/-! ## counting -/

/-- a map all of whose fibres have `c` elements -/
theorem card_comp_fibre {α β : Type} [Fintype α] [Fintype β] [DecidableEq β] (f : α → β) (c : Nat)
    (hf : ∀ b, (Finset.univ.filter fun a => f a = b).card = c) (p : β → Prop) [DecidablePred p] :
    (Finset.univ.filter fun a => p (f a)).card = c * (Finset.univ.filter p).card := by
  rw [Finset.card_eq_sum_card_fiberwise (f := f) (t := Finset.univ.filter p)
    (fun a ha => by simpa using ha)]
  rw [Finset.sum_congr rfl (g := fun _ => c), Finset.sum_const, smul_eq_mul, Nat.mul_comm]
  intro b hb
  rw [← hf b]
  congr 1
  ext a
  simp only [Finset.mem_filter, Finset.mem_univ, true_and] at hb ⊢
  exact ⟨fun h => h.2, fun h => ⟨h ▸ hb, h⟩⟩

theorem card_pi_fibre {ι α β : Type} [Fintype ι] [DecidableEq ι] [Fintype α] [DecidableEq β] [Fintype β] (f : α → β) (c : Nat)
    (hf : ∀ b, (Finset.univ.filter fun a => f a = b).card = c) (b : ι → β) :
    (Finset.univ.filter fun t : ι → α => (fun i => f (t i)) = b).card = c ^ Fintype.card ι := by
  have : (Finset.univ.filter fun t : ι → α => (fun i => f (t i)) = b) =
      Fintype.piFinset fun i => Finset.univ.filter fun a => f a = b i := by
    ext t
    simp only [Finset.mem_filter, Finset.mem_univ, true_and, Fintype.mem_piFinset]
    exact ⟨fun h i => congrFun h i, fun h => funext h⟩
  rw [this, Fintype.card_piFinset, Finset.prod_congr rfl (fun i _ => hf (b i)), Finset.prod_const, Finset.card_univ]

noncomputable instance : Fintype W := Fintype.ofEquiv _ (BitVec.equivFin (m := 64)).symm.toEquiv

theorem card_W : Fintype.card W = 2^64 :=
  (Fintype.card_congr (BitVec.equivFin (m := 64)).toEquiv).trans (Fintype.card_fin _)

open Classical in
/-- how many limb vectors `remove_clutter` sends to a canonical number -/
theorem card_clutter (a : Z_Q LOGQ) (ha : a.Canonical) :
    (Finset.univ.filter fun x : Fin (nlimb LOGQ) → W => remove_clutter (⟨x⟩ : Z_Q LOGQ) = a).card =
      2^(64 * nlimb LOGQ - LOGQ) := by
  obtain ⟨-, h2, -⟩ := lim_bounds LOGQ
  let v : (Fin (nlimb LOGQ) → W) → Fin (2^(64 * nlimb LOGQ)) := fun x => ⟨(⟨x⟩ : Z_Q LOGQ).val, Z_Q.val_lt _⟩
  have hv : Function.Bijective v := by
    rw [Fintype.bijective_iff_injective_and_card]
    refine ⟨fun x y h => ?_, ?_⟩
    · have := Z_Q.val_inj (x := (⟨x⟩ : Z_Q LOGQ)) (y := ⟨y⟩) (Fin.mk.inj h)
      exact congrArg Z_Q.data this
    · rw [Fintype.card_fun, Fintype.card_fin, Fintype.card_fin, card_W, ← pow_mul]
  have h1 : (Finset.univ.filter fun x : Fin (nlimb LOGQ) → W => remove_clutter (⟨x⟩ : Z_Q LOGQ) = a).card =
      Nat.count (· ≡ a.val [MOD 2^LOGQ]) (2^(64 * nlimb LOGQ)) := by
    rw [Nat.count_eq_card_filter_range]
    apply Finset.card_bij (fun x _ => (v x).val)
    · intro x hx
      simp only [Finset.mem_filter, Finset.mem_univ, true_and, Finset.mem_range] at *
      refine ⟨(v x).isLt, ?_⟩
      have := congrArg Z_Q.val hx
      rw [val_remove_clutter] at this
      show (⟨x⟩ : Z_Q LOGQ).val % _ = _
      rw [this]; exact (Nat.mod_eq_of_lt ha).symm
    · intro x _ y _ h; exact hv.1 (Fin.ext h)
    · intro n hn
      simp only [Finset.mem_filter, Finset.mem_univ, true_and, Finset.mem_range] at *
      obtain ⟨x, hx⟩ := hv.2 ⟨n, hn.1⟩
      refine ⟨x, ?_, congrArg Fin.val hx⟩
      apply Z_Q.val_inj
      rw [val_remove_clutter]
      have hx' : (⟨x⟩ : Z_Q LOGQ).val = n := congrArg Fin.val hx
      rw [hx', hn.2, Nat.mod_eq_of_lt ha]
  rw [h1, Nat.count_modEq_card _ (by positivity)]
  have e : 2^(64 * nlimb LOGQ) = 2^LOGQ * 2^(64 * nlimb LOGQ - LOGQ) := by rw [← pow_add]; congr 1; omega
  rw [e, Nat.mul_div_cancel_left _ (by positivity), Nat.mul_mod_right]
  simp

end EvalRound

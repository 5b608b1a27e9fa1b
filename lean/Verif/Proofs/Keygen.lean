import Verif.Model.Core
import Verif.Spec.Core
import Mathlib.Logic.Function.Iterate
import Mathlib.Data.Fintype.Card

/-! # Proofs about `keygen` and about the use of the random stream by `enc` -/

namespace EvalRound
open Finset

/-- a loop with a total body returns as soon as the condition fails on some iterate -/
theorem whileM_iterate {σ : Type} {c : σ → Bool} {g : σ → σ} (n : Nat) {s : σ}
    (h : c (g^[n] s) = false) :
    ∃ m, whileM c (fun x => pure (g x)) s = pure (g^[m] s) ∧ c (g^[m] s) = false := by
  induction n generalizing s with
  | zero => exact ⟨0, whileM_false h, h⟩
  | succ n ih =>
    cases hc : c s with
    | false => exact ⟨0, whileM_false hc, hc⟩
    | true =>
      obtain ⟨m, h1, h2⟩ := ih (s := g s) h
      exact ⟨m+1, by rw [whileM_true hc, pure_bind, h1]; rfl, h2⟩

theorem whileM_iterate_diverge {σ : Type} {c : σ → Bool} {g : σ → σ} {s : σ}
    (h : ∀ n, c (g^[n] s) = true) : whileM c (fun x => pure (g x)) s = diverge :=
  whileM_diverge (P := fun s => ∀ n, c (g^[n] s) = true)
    (fun _ hs => ⟨hs 0, Ok.pure fun n => hs (n+1)⟩) h

variable {N : Nat}

theorem weight_update {s : Fin N → Int} {j : Fin N} (hj : s j = 0) {v : Int} (hv : v ≠ 0) :
    weight (Function.update s j v) = weight s + 1 := by
  unfold weight
  have : (univ.filter fun k => Function.update s j v k ≠ 0) = insert j (univ.filter fun k => s k ≠ 0) := by
    ext k
    simp only [mem_filter, mem_univ, true_and, mem_insert]
    by_cases e : k = j
    · subst e; simp [hv]
    · simp [e]
  rw [this, card_insert_of_notMem (by simp [hj])]

theorem weight_le (s : Fin N → Int) : weight s ≤ N := by
  unfold weight
  exact (card_filter_le _ _).trans (by simp)

variable [NeZero N]

/-- the body of the rejection loop -/
def redraw (p : Fin N × Rng) : Fin N × Rng := (Fin.ofNat N (p.2 0), p.2.next)

theorem redraw_iterate (n : Nat) (ω : Rng) :
    redraw^[n] (Fin.ofNat N (ω 0), ω.next) = (Fin.ofNat N (ω n), fun m => ω (n + 1 + m)) := by
  induction n with
  | zero => simp only [Function.iterate_zero, id]; congr 1; funext m; unfold Rng.next; congr 1; omega
  | succ n ih =>
    rw [Function.iterate_succ_apply', ih]
    unfold redraw Rng.next
    simp only [add_zero]
    congr 1; funext m; congr 1; omega

/-- a round of `keygen` that finds a free position -/
theorem keygenStep_of_free (s : Fin N → Int) (ω : Rng) (h : ∃ n, s (Fin.ofNat N (ω n)) = 0) :
    ∃ (m : Nat) (v : Int), (v = 1 ∨ v = -1) ∧ s (Fin.ofNat N (ω m)) = 0 ∧
      keygenStep (s, ω) = pure (Function.update s (Fin.ofNat N (ω m)) v, fun n => ω (m + 2 + n)) := by
  obtain ⟨n, hn⟩ := h
  have hc : (fun p : Fin N × Rng => s p.1 != 0) (redraw^[n] (Fin.ofNat N (ω 0), ω.next)) = false := by
    rw [redraw_iterate]; simpa using hn
  obtain ⟨m, h1, h2⟩ := whileM_iterate (c := fun p : Fin N × Rng => s p.1 != 0) (g := redraw) n hc
  rw [redraw_iterate] at h1 h2
  refine ⟨m, if ω (m+1) % 2 = 0 then 1 else -1, by split <;> simp, by simpa using h2, ?_⟩
  unfold keygenStep
  simp only []
  have h1' : whileM (fun p : Fin N × Rng => s p.1 != 0)
      (fun p => pure (Fin.ofNat N (p.2 0), p.2.next)) (Fin.ofNat N (ω 0), ω.next) =
      pure (Fin.ofNat N (ω m), fun k => ω (m + 1 + k)) := h1
  rw [h1', pure_bind]
  simp only [add_zero]
  congr 2
  funext k; unfold Rng.next; simp only []
  rw [show m + 1 + (k + 1) = m + 2 + k by omega]

theorem keygenStep_of_not_free (s : Fin N → Int) (ω : Rng) (h : ¬ ∃ n, s (Fin.ofNat N (ω n)) = 0) :
    keygenStep (s, ω) = diverge := by
  have hc : ∀ n, (fun p : Fin N × Rng => s p.1 != 0) (redraw^[n] (Fin.ofNat N (ω 0), ω.next)) = true := by
    intro n
    rw [redraw_iterate]
    simpa using fun hn => h ⟨n, hn⟩
  have h1 : whileM (fun p : Fin N × Rng => s p.1 != 0)
      (fun p => pure (Fin.ofNat N (p.2 0), p.2.next)) (Fin.ofNat N (ω 0), ω.next) = diverge :=
    whileM_iterate_diverge (c := fun p : Fin N × Rng => s p.1 != 0) (g := redraw) hc
  unfold keygenStep
  simp only []
  rw [h1]; rfl

omit [NeZero N] in
theorem Ternary.update {s : Fin N → Int} (hs : Ternary s) {v : Int} (hv : v = 1 ∨ v = -1) (j : Fin N) :
    Ternary (Function.update s j v) := by
  intro k
  by_cases e : k = j
  · subst e; rw [Function.update_self]; omega
  · rw [Function.update_of_ne e]; exact hs k

theorem keygen_returns (c lo : Nat) (s : Fin N → Int) (ω : Rng) (hs : Ternary s)
    {r : (Fin N → Int) × Rng} (h : forFrom (fun _ st => keygenStep st) lo c (s, ω) = pure r) :
    Ternary r.1 ∧ weight r.1 = weight s + c := by
  induction c generalizing lo s ω with
  | zero => cases pure_inj h; exact ⟨hs, rfl⟩
  | succ c ih =>
    by_cases hf : ∃ n, s (Fin.ofNat N (ω n)) = 0
    · obtain ⟨m, v, hv, h0, e⟩ := keygenStep_of_free s ω hf
      unfold forFrom at h
      rw [e, pure_bind] at h
      obtain ⟨h1, h2⟩ := ih _ _ _ (hs.update hv _) h
      refine ⟨h1, ?_⟩
      rw [h2, weight_update h0 (by rcases hv with rfl | rfl <;> decide)]; omega
    · unfold forFrom at h
      rw [keygenStep_of_not_free s ω hf] at h
      exact absurd h (diverge_ne_pure _)

theorem keygen_terminates (c lo : Nat) (s : Fin N → Int) (ω : Rng) (hw : weight s + c ≤ N)
    (hω : ∀ (j : Fin N) (n : Nat), ∃ m, n ≤ m ∧ ω m % N = j) :
    Ok (forFrom (fun _ st => keygenStep st) lo c (s, ω)) fun _ => True := by
  induction c generalizing lo s ω with
  | zero => exact Ok.pure trivial
  | succ c ih =>
    have hfree : ∃ j, s j = 0 := by
      by_contra hcon
      have : weight s = N := by
        unfold weight
        have : ∀ k ∈ (univ : Finset (Fin N)), s k ≠ 0 := fun k _ hk => hcon ⟨k, hk⟩
        rw [filter_true_of_mem this]; simp
      omega
    obtain ⟨j, hj⟩ := hfree
    obtain ⟨n, _, hn⟩ := hω j 0
    have hjn : Fin.ofNat N (ω n) = j := Fin.ext hn
    obtain ⟨m, v, hv, h0, e⟩ := keygenStep_of_free s ω ⟨n, by rw [hjn]; exact hj⟩
    unfold forFrom
    rw [e, pure_bind]
    refine ih _ _ _ ?_ ?_
    · rw [weight_update h0 (by rcases hv with rfl | rfl <;> decide)]; omega
    · intro j n
      obtain ⟨m', h1, h2⟩ := hω j (m + 2 + n)
      exact ⟨m' - (m + 2), by omega, by rw [show m + 2 + (m' - (m+2)) = m' by omega]; exact h2⟩

theorem keygen_diverges (c lo : Nat) (s : Fin N → Int) (ω : Rng) (hw : N < weight s + c) :
    forFrom (fun _ st => keygenStep st) lo c (s, ω) = diverge := by
  induction c generalizing lo s ω with
  | zero => have := weight_le s; omega
  | succ c ih =>
    unfold forFrom
    by_cases hf : ∃ n, s (Fin.ofNat N (ω n)) = 0
    · obtain ⟨m, v, hv, h0, e⟩ := keygenStep_of_free s ω hf
      rw [e, pure_bind]
      apply ih
      rw [weight_update h0 (by rcases hv with rfl | rfl <;> decide)]; omega
    · rw [keygenStep_of_not_free s ω hf]; rfl

end EvalRound

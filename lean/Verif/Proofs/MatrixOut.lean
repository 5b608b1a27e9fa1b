import Verif.Model.MatrixOut
import Verif.Spec.Matrix
import Verif.Proofs.Matrix
import Verif.Proofs.Print
import Verif.Proofs.FloatDot

/-! # The dense product and the output functions -/

namespace EvalRound
open Finset
variable {N S : Nat}

theorem forFin_focus {σ τ : Type _} (get : σ → τ) (upd : τ → σ → σ) (h1 : ∀ t s, get (upd t s) = t) (h2 : ∀ t t' s, upd t (upd t' s) = upd t s)
    (h3 : ∀ s, upd (get s) s = s) : ∀ (n : Nat) (g : Fin n → τ → τ) (s : σ),
    forFin n (fun k s => upd (g k (get s)) s) s = upd (forFin n g (get s)) s
  | 0, _, s => (h3 s).symm
  | n+1, g, s => by
    rw [forFin, forFin, forFin_focus get upd h1 h2 h3 n (fun k => g k.castSucc) s, h1, h2]

theorem forFin_focus_row {β : Type _} (i : Fin N) (n : Nat) (g : Fin n → β → β) (C : Fin N → β) :
    forFin n (fun k C => Function.update C i (g k (C i))) C = Function.update C i (forFin n g (C i)) :=
  forFin_focus (fun C : Fin N → β => C i) (fun t C => Function.update C i t) (fun t s => Function.update_self i t s)
    (fun t t' s => Function.update_idem _ _ _) (fun s => Function.update_eq_self i s) n g C

theorem forFin_focus_entry {β : Type _} (i j : Fin N) (n : Nat) (g : Fin n → β → β) (C : Fin N → Fin N → β) :
    forFin n (fun k (C : Fin N → Fin N → β) => Function.update C i (Function.update (C i) j (g k (C i j)))) C =
      Function.update C i (Function.update (C i) j (forFin n g (C i j))) := by
  refine (forFin_focus_row i n (fun k (r : Fin N → β) => Function.update r j (g k (r j))) C).trans ?_
  rw [forFin_focus_row j n g]

theorem forFin_const {β : Type _} (v : Fin N → β) (r : Fin N → β) : forFin N (fun j r => Function.update r j (v j)) r = v := by
  have := forFin_map (fun j (_ : β) => v j) r
  exact this

theorem forFin_addSum {α : Type _} [AddCommMonoid α] : ∀ (n : Nat) (f : Fin n → α) (s : α), forFin n (fun k c => c + f k) s = s + ∑ k, f k
  | 0, _, s => by simp [forFin]
  | n+1, f, s => by
    rw [forFin, forFin_addSum n (fun k => f k.castSucc) s, Fin.sum_univ_castSucc, add_assoc]

/-- one entry of the loop over `k` with the result over the left factor: entries other than `(i, j)` stay -/
theorem left_inner_frame {N : Nat} (Br Bi : Fin N → Fin N → ℝ) (i j : Fin N) (A0 : Fin N → Fin N → ℝ × ℝ) :
    ∀ a b, (a ≠ i ∨ b ≠ j) → forFin N (fun k (A : Fin N → Fin N → ℝ × ℝ) =>
      let A := Function.update A i (Function.update (A i) j ((A i j).1 + ((A i k).1 * Br k j - (A i k).2 * Bi k j), (A i j).2))
      Function.update A i (Function.update (A i) j ((A i j).1, (A i j).2 + ((A i k).1 * Bi k j + (A i k).2 * Br k j)))) A0 a b = A0 a b := by
  refine forFin_inv (P := fun _ (A : Fin N → Fin N → ℝ × ℝ) => ∀ a b, (a ≠ i ∨ b ≠ j) → A a b = A0 a b) (fun _ _ _ => rfl) ?_
  intro m A h a b hab
  by_cases ha : a = i
  · subst ha
    have hb : b ≠ j := by tauto
    simp [Function.update_self, Function.update_of_ne hb, h a b hab]
  · simp [Function.update_of_ne ha, h a b hab]

theorem left_inner_first {n : Nat} (Br Bi : Fin (n+1) → Fin (n+1) → ℝ) (i : Fin (n+1)) (A0 : Fin (n+1) → Fin (n+1) → ℝ × ℝ) (h0 : A0 i 0 = (0, 0)) :
    forFin (n+1) (fun k (A : Fin (n+1) → Fin (n+1) → ℝ × ℝ) =>
      let A := Function.update A i (Function.update (A i) 0 ((A i 0).1 + ((A i k).1 * Br k 0 - (A i k).2 * Bi k 0), (A i 0).2))
      Function.update A i (Function.update (A i) 0 ((A i 0).1, (A i 0).2 + ((A i k).1 * Bi k 0 + (A i k).2 * Br k 0)))) A0 i 0 =
    (∑ k : Fin n, ((A0 i k.succ).1 * Br k.succ 0 - (A0 i k.succ).2 * Bi k.succ 0),
      ∑ k : Fin n, ((A0 i k.succ).1 * Bi k.succ 0 + (A0 i k.succ).2 * Br k.succ 0)) := by
  have := forFin_inv (n := n+1) (s := A0) (f := fun k (A : Fin (n+1) → Fin (n+1) → ℝ × ℝ) =>
      let A := Function.update A i (Function.update (A i) 0 ((A i 0).1 + ((A i k).1 * Br k 0 - (A i k).2 * Bi k 0), (A i 0).2))
      Function.update A i (Function.update (A i) 0 ((A i 0).1, (A i 0).2 + ((A i k).1 * Bi k 0 + (A i k).2 * Br k 0))))
    (P := fun m A => (∀ b, b ≠ 0 → A i b = A0 i b) ∧ A i 0 =
      (∑ k : Fin n, (if k.val + 1 < m then (A0 i k.succ).1 * Br k.succ 0 - (A0 i k.succ).2 * Bi k.succ 0 else 0),
       ∑ k : Fin n, (if k.val + 1 < m then (A0 i k.succ).1 * Bi k.succ 0 + (A0 i k.succ).2 * Br k.succ 0 else 0))) ?_ ?_
  · rw [this.2]
    congr 1 <;> exact sum_congr rfl fun k _ => if_pos (by omega)
  · refine ⟨fun _ _ => rfl, ?_⟩
    rw [h0]; simp
  · rintro m A ⟨hA, h⟩
    refine ⟨fun b hb => ?_, ?_⟩
    · simp [Function.update_self, Function.update_of_ne hb, hA b hb]
    · induction m using Fin.cases with
      | zero =>
        simp [h]
      | succ m =>
        have hs : ∀ f : Fin n → ℝ, ∑ k : Fin n, (if k.val + 1 < m.succ.val + 1 then f k else 0) =
            ∑ k : Fin n, (if k.val + 1 < m.succ.val then f k else 0) + f m := by
          intro f
          rw [← sum_erase_add _ _ (mem_univ m), ← sum_erase_add (a := m) _ (fun k : Fin n => if k.val + 1 < m.succ.val then f k else 0) (mem_univ m)]
          simp only [Fin.val_succ, lt_irrefl, if_false, add_zero, lt_add_iff_pos_right, zero_lt_one, if_true]
          congr 1
          refine sum_congr rfl fun k hk => ?_
          have hne : k.val ≠ m.val := fun e => (mem_erase.1 hk).1 (Fin.ext e)
          exact if_congr (by omega) rfl rfl
        rw [hs, hs]
        have h1 := hA m.succ (Fin.succ_ne_zero m)
        simp only [Function.update_self, Function.update_of_ne (Fin.succ_ne_zero m), h, h1]

/-- with the result over the left factor the first column lacks its first term -/
theorem left_first_column {n : Nat} (Br Bi : Fin (n+1) → Fin (n+1) → ℝ) (A0 : Fin (n+1) → Fin (n+1) → ℝ × ℝ) (i : Fin (n+1)) :
    matrix_product_left Br Bi A0 i 0 =
    (∑ k : Fin n, ((A0 i k.succ).1 * Br k.succ 0 - (A0 i k.succ).2 * Bi k.succ 0),
      ∑ k : Fin n, ((A0 i k.succ).1 * Bi k.succ 0 + (A0 i k.succ).2 * Br k.succ 0)) := by
  unfold matrix_product_left
  refine (forFin_inv (P := fun m (A : Fin (n+1) → Fin (n+1) → ℝ × ℝ) => ∀ i : Fin (n+1), (m ≤ i.val → A i = A0 i) ∧ (i.val < m → A i 0 =
    (∑ k : Fin n, ((A0 i k.succ).1 * Br k.succ 0 - (A0 i k.succ).2 * Bi k.succ 0),
      ∑ k : Fin n, ((A0 i k.succ).1 * Bi k.succ 0 + (A0 i k.succ).2 * Br k.succ 0)))) ?_ ?_ i).2 i.isLt
  · exact fun i => ⟨fun _ => rfl, fun h => absurd h (Nat.not_lt_zero _)⟩
  · intro r A hA
    have hr := (hA r).1 le_rfl
    obtain ⟨g1, g2⟩ := forFin_inv (n := n+1) (s := A) (f := fun j A =>
      let A := Function.update A r (Function.update (A r) j (0, 0))
      forFin (n+1) (fun k A =>
        let A := Function.update A r (Function.update (A r) j ((A r j).1 + ((A r k).1 * Br k j - (A r k).2 * Bi k j), (A r j).2))
        Function.update A r (Function.update (A r) j ((A r j).1, (A r j).2 + ((A r k).1 * Bi k j + (A r k).2 * Br k j)))) A)
      (P := fun m B => (∀ a, a ≠ r → B a = A a) ∧ (m = 0 → B r = A r) ∧ (0 < m → B r 0 =
        (∑ k : Fin n, ((A0 r k.succ).1 * Br k.succ 0 - (A0 r k.succ).2 * Bi k.succ 0),
          ∑ k : Fin n, ((A0 r k.succ).1 * Bi k.succ 0 + (A0 r k.succ).2 * Br k.succ 0))))
      ⟨fun _ _ => rfl, fun _ => rfl, fun h => absurd h (Nat.not_lt_zero _)⟩ (by
        rintro j B ⟨h1, h2, h3⟩
        refine ⟨fun a ha => ?_, fun h => by omega, fun _ => ?_⟩
        · funext b
          refine (left_inner_frame Br Bi r j _ a b (Or.inl ha)).trans ?_
          rw [Function.update_of_ne ha, h1 a ha]
        · induction j using Fin.cases with
          | zero =>
            refine (left_inner_first Br Bi r _ (by simp)).trans ?_
            simp only [Function.update_self, Function.update_of_ne (Fin.succ_ne_zero _), h2 rfl, hr]
          | succ j =>
            refine (left_inner_frame Br Bi r j.succ _ r 0 (Or.inr (Fin.succ_ne_zero j).symm)).trans ?_
            rw [Function.update_self, Function.update_of_ne (Fin.succ_ne_zero j).symm]
            exact h3 (by simp))
    intro a
    by_cases ha : a = r
    · subst ha
      exact ⟨fun h => by omega, fun _ => g2.2 (by omega)⟩
    · have hne : a.val ≠ r.val := fun e => ha (Fin.ext e)
      refine ⟨fun h => (g1 a ha).trans ((hA a).1 (by omega)), fun h => ?_⟩
      refine (congrFun (g1 a ha) 0).trans ((hA a).2 (by omega))

theorem matrix_product_eq (Ar Ai Br Bi : Fin N → Fin N → ℝ) (C0 : Fin N → Fin N → ℝ × ℝ) :
    matrix_product Ar Ai Br Bi C0 = fun i j => (∑ k, (Ar i k * Br k j - Ai i k * Bi k j), ∑ k, (Ar i k * Bi k j + Ai i k * Br k j)) := by
  unfold matrix_product
  have h : ∀ i j : Fin N, ∀ C : Fin N → Fin N → ℝ × ℝ,
      forFin N (fun k (C : Fin N → Fin N → ℝ × ℝ) => Function.update C i (Function.update (C i) j (mpStep Ar Ai Br Bi i j k (C i j))))
        (Function.update C i (Function.update (C i) j (0, 0))) =
      Function.update C i (Function.update (C i) j (∑ k, (Ar i k * Br k j - Ai i k * Bi k j), ∑ k, (Ar i k * Bi k j + Ai i k * Br k j))) := by
    intro i j C
    rw [forFin_focus_entry i j N (fun k c => mpStep Ar Ai Br Bi i j k c)]
    simp only [Function.update_self, Function.update_idem]
    congr 2
    have e : (fun (k : Fin N) c => mpStep Ar Ai Br Bi i j k c) = fun k (c : ℝ × ℝ) => c +
        (Ar i k * Br k j - Ai i k * Bi k j, Ar i k * Bi k j + Ai i k * Br k j) := rfl
    rw [e, forFin_addSum]
    ext
    · simp [Prod.fst_sum]
    · simp [Prod.snd_sum]
  simp only [h]
  have h2 : ∀ i : Fin N, ∀ C : Fin N → Fin N → ℝ × ℝ, forFin N (fun j (C : Fin N → Fin N → ℝ × ℝ) => Function.update C i (Function.update (C i) j
      (∑ k, (Ar i k * Br k j - Ai i k * Bi k j), ∑ k, (Ar i k * Bi k j + Ai i k * Br k j)))) C =
      Function.update C i fun j => (∑ k, (Ar i k * Br k j - Ai i k * Bi k j), ∑ k, (Ar i k * Bi k j + Ai i k * Br k j)) := by
    intro i C
    refine (forFin_focus_row i N (fun j (r : Fin N → ℝ × ℝ) => Function.update r j
      (∑ k, (Ar i k * Br k j - Ai i k * Bi k j), ∑ k, (Ar i k * Bi k j + Ai i k * Br k j))) C).trans ?_
    rw [forFin_const]
  simp only [h2]
  exact forFin_const _ _

/-! ## text -/

theorem forFin_append : ∀ (n : Nat) (g : Fin n → Text) (s : Text), forFin n (fun i out => out ++ g i) s = s ++ (List.ofFn g).flatten
  | 0, _, s => by simp [forFin]
  | n+1, g, s => by
    rw [forFin, forFin_append n (fun i => g i.castSucc) s, List.ofFn_succ', List.concat_eq_append, List.flatten_append,
      List.flatten_singleton, List.append_assoc]

theorem flatten_sep (sep x : Text) : ∀ l : List Text, (l.map fun t => t ++ sep).flatten ++ x = List.intercalate sep (l ++ [x])
  | [] => by simp
  | a :: l => by
    rw [List.map_cons, List.flatten_cons, List.append_assoc, flatten_sep sep x l, List.cons_append, List.intercalate_cons_of_ne_nil (by simp)]

theorem forFin_sep (hN : 0 < N) (f : Fin N → Text) (sep last s : Text) :
    forFin N (fun i out => if (i.val : Int) < N - 1 then out ++ (f i ++ sep) else out ++ (f i ++ last)) s =
      s ++ List.intercalate sep (List.ofFn f) ++ last := by
  have e : (fun (i : Fin N) (out : Text) => if (i.val : Int) < N - 1 then out ++ (f i ++ sep) else out ++ (f i ++ last)) =
      fun i out => out ++ (f i ++ if (i.val : Int) < N - 1 then sep else last) := by
    funext i out; split_ifs <;> rfl
  rw [e, forFin_append]
  obtain ⟨n, rfl⟩ : ∃ n, N = n + 1 := ⟨N - 1, by omega⟩
  rw [List.ofFn_succ', List.ofFn_succ', List.concat_eq_append, List.concat_eq_append, List.flatten_append, List.flatten_singleton,
    if_neg (by simp), ← flatten_sep, List.map_ofFn]
  have : (fun i : Fin n => f i.castSucc ++ if ((i.castSucc).val : Int) < ((n + 1 : Nat) : Int) - 1 then sep else last) =
      (fun t => t ++ sep) ∘ fun i => f i.castSucc := by
    funext i
    rw [if_pos (by simp)]
    rfl
  rw [this]
  simp only [List.append_assoc]

/-! ## `SparseDiagonal::print` -/

theorem printCol_eq {off : Int} (i : Fin N) (h0 : -2^31 ≤ (i.val : Int) + off) (h1 : (i.val : Int) + off < 2^31) :
    SparseDiagonal.printCol N i off = pure ((shift off i).val : Int) := by
  have hN : (0 : Int) < N := by have := i.isLt; omega
  unfold SparseDiagonal.printCol intM
  rw [if_pos ⟨h0, h1⟩, pure_bind]
  simp only []
  rw [shift_val]
  refine congrArg pure ?_
  generalize (i.val : Int) + off = t
  have h2 := Int.emod_nonneg t hN.ne'
  have h3 := Int.emod_lt_of_pos t hN
  have hd : t.tmod N = t % N ∨ (t.tmod N = t % N - N ∧ t < 0) := by
    rcases le_or_gt 0 t with h | h
    · left; exact Int.tmod_eq_emod_of_nonneg h
    · rw [Int.tmod_eq_emod]
      split_ifs with hh
      · left; omega
      · right; constructor <;> simp at * <;> omega
  rcases hd with h | ⟨h, _⟩ <;> rw [h] <;> split_ifs <;> omega

theorem forUp_append {α : Type _} {n : Nat} (g : Fin n → List α) (body : Nat → List α → M (List α))
    (h : ∀ (i : Fin n) out, body i out = pure (out ++ g i)) (s : List α) :
    forUp 0 n body s = pure (s ++ (List.ofFn g).flatten) := by
  have hlen : (List.ofFn g).length = n := List.length_ofFn
  obtain ⟨out, ho, h1⟩ := forUp_inv (body := body) (lo := 0) (hi := n) (s := s) (Nat.zero_le _)
    (fun i out => out = s ++ ((List.ofFn g).take i).flatten) (by simp)
    (fun i out _ hi e => by
      rw [h ⟨i, hi⟩ out]
      refine Ok.pure ?_
      rw [e, List.take_succ_eq_append_getElem (by rw [hlen]; exact hi), List.getElem_ofFn, List.flatten_append, List.flatten_singleton,
        List.append_assoc])
  rw [ho, h1, List.take_of_length_le (by rw [hlen])]

open Classical in
/-- the lines that `print` writes -/
noncomputable def printLines (A : SparseDiagonal N S) : List (Int × Int × ℝ) :=
  (List.ofFn fun s => (List.ofFn fun i : Fin N =>
    if A.vec s i ≠ 0 then [((i.val : Int) + 1, ((shift (A.off s) i).val : Int) + 1, A.vec s i)] else []).flatten).flatten

theorem sparse_print (A : SparseDiagonal N S) (h0 : ∀ s, -2^31 ≤ A.off s) (h1 : ∀ s, (N : Int) + A.off s ≤ 2^31) :
    A.print = pure (printLines A) := by
  unfold SparseDiagonal.print printLines
  rw [forUp_append (fun s => (List.ofFn fun i : Fin N =>
    if A.vec s i ≠ 0 then [((i.val : Int) + 1, ((shift (A.off s) i).val : Int) + 1, A.vec s i)] else []).flatten), List.nil_append]
  intro s out
  rw [rd_fin, pure_bind, rd_fin, pure_bind]
  rw [forUp_append (fun i : Fin N => if A.vec s i ≠ 0 then [((i.val : Int) + 1, ((shift (A.off s) i).val : Int) + 1, A.vec s i)] else [])]
  intro i out
  have := i.isLt
  have := h0 s
  have := h1 s
  rw [printCol_eq i (by omega) (by omega), pure_bind, rd_fin, pure_bind]
  split_ifs <;> simp

theorem mem_printLines (A : SparseDiagonal N S) (r c : Int) (v : ℝ) : (r, c, v) ∈ printLines A ↔
    ∃ s, ∃ i : Fin N, v ≠ 0 ∧ A.vec s i = v ∧ r = (i.val : Int) + 1 ∧ c = ((shift (A.off s) i).val : Int) + 1 := by
  unfold printLines
  simp only [List.mem_flatten, List.mem_ofFn, exists_exists_eq_and]
  constructor
  · rintro ⟨s, i, h⟩
    split_ifs at h with hv
    · rw [List.mem_singleton, Prod.mk.injEq, Prod.mk.injEq] at h
      obtain ⟨rfl, rfl, rfl⟩ := h
      exact ⟨s, i, hv, rfl, rfl, rfl⟩
    · simp at h
  · rintro ⟨s, i, hv, rfl, rfl, rfl⟩
    exact ⟨s, i, by rw [if_pos hv]; exact List.mem_singleton.2 rfl⟩

end EvalRound

import Verif.Proofs.Print
import Verif.Proofs.MatrixOut
import Verif.Props.Driver

/-!
# C81: what the output functions print
-/

namespace EvalRound
open Z_Q Finset

variable {L N S : Nat}

/-! ## numbers and polynomials -/

/-- C81: `Z_Q::print_unsigned` prints the decimal digits of the number and a line break when the modulus is at most `2^1300`,
and otherwise fails an assertion. -/
theorem C81_number (x : Z_Q L) : x.print_unsigned = if L ≤ 1300 then pure (decText x.val ++ [10]) else throw Fault.assertFail := by
  split_ifs with h
  · exact print_unsigned_spec x h
  · exact print_unsigned_assert x (by omega)

example : decText 255 = [50, 53, 53] := by decide +kernel

/-- C81: `R_Q::print_unsigned` prints the numbers that the coefficients hold, and `R_Q::print_signed` prints the signed
representatives of coefficients below the modulus, in brackets, one on a line, with commas between. -/
theorem C81_poly [NeZero L] (hL : L ≤ 1300) (A : R_Q L N) :
    R_Q.print_unsigned A = pure (listText (List.ofFn fun i => decText (A i).val)) ∧
    ((∀ i, (A i).val < 2^L) → R_Q.print_signed A = pure (listText (List.ofFn fun i => signedText (A i).sval))) :=
  ⟨rq_print_unsigned A hL, fun h => rq_print_signed A h hL⟩

/-- C81: `R_Q_square::print` prints both polynomials. -/
theorem C81_pair [NeZero L] (hL : L ≤ 1300) (A : R_Q_square L N) :
    R_Q_square.print A = pure ([91] ++ listText (List.ofFn fun i => decText (A.1 i).val) ++ [44, 10] ++
      listText (List.ofFn fun i => decText (A.2 i).val) ++ [93, 10]) := sq_print A hL

example : listText [signedText 5, signedText (-12)] = [91, 53, 10, 44, 45, 49, 50, 10, 93, 10] := by decide +kernel

/-- C81: two polynomials that `print_unsigned` shows alike are the same. -/
theorem C81_unsigned_injective [NeZero L] (hL : L ≤ 1300) (A B : R_Q L N) (h : R_Q.print_unsigned A = R_Q.print_unsigned B) : A = B := by
  rw [rq_print_unsigned A hL, rq_print_unsigned B hL] at h
  have h2 := listText_inj (fun t ht => by
      obtain ⟨i, rfl⟩ := List.mem_ofFn.1 ht
      exact fun hh => (decText_mem hh).1 rfl) (fun t ht => by
      obtain ⟨i, rfl⟩ := List.mem_ofFn.1 ht
      exact fun hh => (decText_mem hh).1 rfl) (by rw [List.length_ofFn, List.length_ofFn]) (pure_inj h)
  funext i
  exact val_inj (decText_inj (congrFun (List.ofFn_injective h2) i))

/-- C81: two polynomials with coefficients below the modulus that `print_signed` shows alike are the same. -/
theorem C81_signed_injective [NeZero L] (hL : L ≤ 1300) (A B : R_Q L N) (hA : ∀ i, (A i).val < 2^L) (hB : ∀ i, (B i).val < 2^L)
    (h : R_Q.print_signed A = R_Q.print_signed B) : A = B := by
  rw [rq_print_signed A hA hL, rq_print_signed B hB hL] at h
  have no : ∀ v : Int, (44 : BitVec 8) ∉ signedText v := by
    intro v hh
    unfold signedText at hh
    split_ifs at hh
    · rcases List.mem_cons.1 hh with e | e
      · exact absurd e (by decide)
      · exact (decText_mem e).1 rfl
    · exact (decText_mem hh).1 rfl
  have h2 := listText_inj (fun t ht => by
      obtain ⟨i, rfl⟩ := List.mem_ofFn.1 ht
      exact no _) (fun t ht => by
      obtain ⟨i, rfl⟩ := List.mem_ofFn.1 ht
      exact no _) (by rw [List.length_ofFn, List.length_ofFn]) (pure_inj h)
  funext i
  have h3 := signedText_inj (congrFun (List.ofFn_injective h2) i)
  refine val_inj ?_
  have ha := hA i
  have hb := hB i
  have h4 : ((A i).val : Int) % ((2^L : Nat) : Int) = ((B i).val : Int) % ((2^L : Nat) : Int) := by
    unfold Z_Q.sval at h3
    rw [← Int.bmod_emod (x := ((A i).val : Int)), ← Int.bmod_emod (x := ((B i).val : Int)), h3]
  have h5 : (((A i).val % 2^L : Nat) : Int) = (((B i).val % 2^L : Nat) : Int) := by push_cast; push_cast at h4; exact h4
  rw [Nat.mod_eq_of_lt ha, Nat.mod_eq_of_lt hb] at h5
  exact_mod_cast h5

/-- C81: with a modulus above `2^1300` the polynomial output fails an assertion unless there is no coefficient. -/
theorem C81_poly_assert [NeZero L] (hL : 1300 < L) (hN : 0 < N) (A : R_Q L N) (B : R_Q_square L N) :
    R_Q.print_unsigned A = throw Fault.assertFail ∧ R_Q.print_signed A = throw Fault.assertFail ∧
      R_Q_square.print B = throw Fault.assertFail :=
  ⟨rq_print_assert A hN hL, rq_print_signed_assert A hN hL, sq_print_assert B hN hL⟩

/-! ## sparse matrices -/

/-- the matrix after running the printed lines `name[row][column]:value$` in order on a zero matrix -/
noncomputable def runLines (l : List (Int × Int × ℝ)) : Int → Int → ℝ :=
  l.foldl (fun m e => Function.update m e.1 (Function.update (m e.1) e.2.1 e.2.2)) fun _ _ => 0

/-- C81: `SparseDiagonal::print` prints exactly the nonzero stored entries, at the row and column where they belong, counted
from 1. -/
theorem C81_sparse (A : SparseDiagonal N S) (h0 : ∀ s, -2^31 ≤ A.off s) (h1 : ∀ s, (N : Int) + A.off s ≤ 2^31) :
    Ok A.print fun out => ∀ r c v, (r, c, v) ∈ out ↔
      v ≠ 0 ∧ ∃ (s : Fin S) (i : Fin N), A.vec s i = v ∧ r = (i.val : Int) + 1 ∧ 1 ≤ c ∧ c ≤ N ∧ ((i.val : Int) + 1 + A.off s - c) % N = 0 := by
  rw [sparse_print A h0 h1]
  refine Ok.pure fun r c v => ?_
  rw [mem_printLines]
  constructor
  · rintro ⟨s, i, hv, e, rfl, rfl⟩
    have := (shift (A.off s) i).isLt
    refine ⟨hv, s, i, e, rfl, by omega, by omega, ?_⟩
    rw [shift_val, show (i.val : Int) + 1 + A.off s - (((i.val : Int) + A.off s) % N + 1) = ((i.val : Int) + A.off s) - ((i.val : Int) + A.off s) % N by ring]
    exact Int.emod_eq_zero_of_dvd (Int.dvd_self_sub_emod)
  · rintro ⟨hv, s, i, e, rfl, h2, h3, h4⟩
    refine ⟨s, i, hv, e, rfl, ?_⟩
    rw [shift_val]
    have : ((i.val : Int) + A.off s) % N = (c - 1) % N := by
      apply Int.emod_emod_of_dvd _ (dvd_refl _) |>.symm.trans
      rw [Int.emod_emod_of_dvd _ (dvd_refl _)]
      apply Int.emod_eq_emod_iff_emod_sub_eq_zero.2
      rw [← h4]
      congr 1
      ring
    rw [this, Int.emod_eq_of_lt (by omega) (by omega)]
    ring

theorem runLines_aux (r c : Int) (v : ℝ) : ∀ (l : List (Int × Int × ℝ)) (m : Int → Int → ℝ),
    (∀ e ∈ l, e.1 = r → e.2.1 = c → e.2.2 = v) →
    (l.foldl (fun m e => Function.update m e.1 (Function.update (m e.1) e.2.1 e.2.2)) m) r c = v ∨
      ((∀ e ∈ l, ¬ (e.1 = r ∧ e.2.1 = c)) ∧
        (l.foldl (fun m e => Function.update m e.1 (Function.update (m e.1) e.2.1 e.2.2)) m) r c = m r c)
  | [], m, _ => Or.inr ⟨by simp, rfl⟩
  | e :: l, m, h => by
    rw [List.foldl_cons]
    rcases runLines_aux r c v l (Function.update m e.1 (Function.update (m e.1) e.2.1 e.2.2)) fun e he => h e (List.mem_cons_of_mem _ he) with h1 | ⟨h1, h2⟩
    · exact Or.inl h1
    · rw [h2]
      by_cases h3 : e.1 = r ∧ e.2.1 = c
      · left
        obtain ⟨rfl, rfl⟩ := h3
        rw [Function.update_self, Function.update_self]
        exact h e List.mem_cons_self rfl rfl
      · right
        refine ⟨fun e' he' => ?_, ?_⟩
        · rcases List.mem_cons.1 he' with rfl | he'
          · exact h3
          · exact h1 e' he'
        · by_cases h4 : r = e.1
          · subst h4
            rw [Function.update_self, Function.update_of_ne fun h => h3 ⟨rfl, h.symm⟩]
          · rw [Function.update_of_ne h4]

/-- C81: the lines that `SparseDiagonal::print` prints for a matrix with offsets in `[0,N)`, where no later diagonal repeats an
offset with nonzero entries, assign the entries that `get_element` returns. -/
theorem C81_sparse_matrix (A : SparseDiagonal N S) (hN : N ≤ 2^30) (hr : ∀ s, 0 ≤ A.off s ∧ A.off s < N)
    (hf : ∀ s s', s < s' → A.off s = A.off s' → ∀ i, A.vec s' i = 0) :
    Ok A.print fun out => ∀ i j : Fin N, A.get_element i j = pure (runLines out ((i.val : Int) + 1) ((j.val : Int) + 1)) := by
  have hN' : (N : Int) ≤ 2^30 := by exact_mod_cast hN
  rw [sparse_print A (fun s => by have := hr s; omega) (fun s => by have := hr s; omega)]
  refine Ok.pure fun i j => ?_
  rw [SparseDiagonal.get_element_spec hN hr hf]
  refine congrArg pure ?_
  have key : ∀ s i', A.vec s i' ≠ 0 → i' = i → shift (A.off s) i' = j → A.vec s i' = SparseDiagonal.den A i j := by
    rintro s i' hv rfl hj
    unfold SparseDiagonal.den
    rw [Finset.sum_eq_single s]
    · unfold dg; rw [if_pos hj]
    · intro s' _ hs
      unfold dg
      split_ifs with h
      · have ho : A.off s' = A.off s := by
          have h5 : shift (A.off s') i' = shift (A.off s) i' := h.trans hj.symm
          have h6 := congrArg (fun x : Fin N => (x.val : Int)) h5
          simp only [shift_val] at h6
          have h7 := Int.emod_eq_emod_iff_emod_sub_eq_zero.1 h6
          have h8 := hr s
          have h9 := hr s'
          obtain ⟨q, hq⟩ := Int.dvd_of_emod_eq_zero h7
          have : q = 0 := by
            by_contra hq0
            rcases lt_or_gt_of_ne hq0 with h | h
            · have : (N : Int) * q ≤ N * (-1) := mul_le_mul_of_nonneg_left (by omega) (by omega)
              omega
            · have : (N : Int) * 1 ≤ N * q := mul_le_mul_of_nonneg_left (by omega) (by omega)
              omega
          rw [this] at hq
          omega
        rcases lt_or_gt_of_ne hs with h5 | h5
        · exact absurd (hf s' s h5 ho i') hv
        · exact hf s s' h5 ho.symm i'
      · rfl
    · simp
  rcases runLines_aux ((i.val : Int) + 1) ((j.val : Int) + 1) (SparseDiagonal.den A i j) (printLines A) (fun _ _ => 0) (by
      rintro ⟨r, c, v⟩ he h1 h2
      obtain ⟨s, i', hv, e, e1, e2⟩ := (mem_printLines A r c v).1 he
      simp only at h1 h2 ⊢
      rw [← e]
      refine key s i' (by rw [e]; exact hv) (Fin.ext (by omega)) (Fin.ext (by omega))) with h | ⟨h1, h2⟩
  · exact h.symm
  · unfold runLines
    rw [h2]
    unfold SparseDiagonal.den
    refine Finset.sum_eq_zero fun s _ => ?_
    unfold dg
    split_ifs with h
    · by_contra hv
      refine h1 (_, _, A.vec s i) ((mem_printLines A _ _ _).2 ⟨s, i, hv, rfl, rfl, rfl⟩) ⟨rfl, ?_⟩
      rw [h]
    · rfl

/-- two diagonals, the second with offset 1 -/
example : ∃ A : SparseDiagonal 2 2, (∀ s, 0 ≤ A.off s ∧ A.off s < (2 : Nat)) ∧ (∀ s s', s < s' → A.off s = A.off s' → ∀ i, A.vec s' i = 0) ∧
    A.vec 1 0 = 5 := by
  refine ⟨⟨![![1, 2], ![5, 7]], ![0, 1], fun _ => false⟩, ?_, ?_, rfl⟩
  · intro s; fin_cases s <;> simp
  · intro s s' h e; fin_cases s <;> fin_cases s' <;> simp at *

/-- C81: when an offset is repeated, the printed lines leave the last of its diagonals, while `get_element` returns the first. -/
theorem C81_sparse_repeated : ∃ A : SparseDiagonal 1 2, A.get_element 0 0 = pure 3 ∧ Ok A.print fun out => runLines out 1 1 = 4 := by
  refine ⟨⟨fun s _ => if s = 0 then 3 else 4, fun _ => 0, fun _ => false⟩, ?_, ?_⟩
  · rfl
  · rw [sparse_print _ (fun s => by norm_num) (fun s => by norm_num)]
    refine Ok.pure ?_
    unfold runLines printLines
    simp [List.ofFn_succ, shift]

/-- C81: `print_max` prints the largest absolute value of a stored entry. -/
theorem C81_print_max (A : SparseDiagonal N S) :
    (∀ s i, |A.vec s i| ≤ A.print_max) ∧ (0 < S → 0 < N → ∃ s i, A.print_max = |A.vec s i|) := by
  have inner : ∀ (s : Fin S) (m : ℝ), 0 ≤ m → m ≤ forFin N (fun i mx => let a := |A.vec s i|; if mx > a then mx else a) m ∧
      (∀ i, |A.vec s i| ≤ forFin N (fun i mx => let a := |A.vec s i|; if mx > a then mx else a) m) ∧
      (forFin N (fun i mx => let a := |A.vec s i|; if mx > a then mx else a) m = m ∨
        ∃ i, forFin N (fun i mx => let a := |A.vec s i|; if mx > a then mx else a) m = |A.vec s i|) := by
    intro s m _
    have h := forFin_inv (n := N) (s := m) (f := fun i mx => let a := |A.vec s i|; if mx > a then mx else a)
      (P := fun k x => m ≤ x ∧ (∀ i : Fin N, i.val < k → |A.vec s i| ≤ x) ∧ (x = m ∨ ∃ i, x = |A.vec s i|))
      ⟨le_rfl, fun i hi => by omega, Or.inl rfl⟩ (fun k x ⟨h1, h2, h3⟩ => by
        simp only []
        split_ifs with hx
        · refine ⟨h1, fun i hi => ?_, h3⟩
          by_cases e : i = k
          · rw [e]; exact hx.le
          · exact h2 i (by have : i.val ≠ k.val := fun hh => e (Fin.ext hh); omega)
        · have hx := not_lt.1 hx
          refine ⟨h1.trans hx, fun i hi => ?_, Or.inr ⟨k, rfl⟩⟩
          by_cases e : i = k
          · rw [e]
          · exact (h2 i (by have : i.val ≠ k.val := fun hh => e (Fin.ext hh); omega)).trans hx)
    exact ⟨h.1, fun i => h.2.1 i i.isLt, h.2.2⟩
  have h := forFin_inv (n := S) (s := (0:ℝ)) (f := fun s mx => forFin N (fun i mx => let a := |A.vec s i|; if mx > a then mx else a) mx)
    (P := fun k x => 0 ≤ x ∧ (∀ s : Fin S, s.val < k → ∀ i, |A.vec s i| ≤ x) ∧ (x = 0 ∨ ∃ s i, x = |A.vec s i|))
    ⟨le_rfl, fun i hi => by omega, Or.inl rfl⟩ (fun k x ⟨h1, h2, h3⟩ => by
      obtain ⟨i1, i2, i3⟩ := inner k x h1
      refine ⟨h1.trans i1, fun s hs i => ?_, ?_⟩
      · by_cases e : s = k
        · rw [e]; exact i2 i
        · exact (h2 s (by have : s.val ≠ k.val := fun hh => e (Fin.ext hh); omega) i).trans i1
      · rcases i3 with e | ⟨i, e⟩
        · rw [e]; exact h3
        · exact Or.inr ⟨k, i, e⟩)
  refine ⟨fun s i => h.2.1 s s.isLt i, fun hS hN => ?_⟩
  rcases h.2.2 with e | e
  · refine ⟨⟨0, hS⟩, ⟨0, hN⟩, le_antisymm ?_ (h.2.1 ⟨0, hS⟩ hS ⟨0, hN⟩)⟩
    exact (le_of_eq e).trans (abs_nonneg _)
  · exact e

/-! ## dense matrices, arrays, messages -/

/-- C81: `print` on a dense matrix with at least one row prints the rows in brackets, the entries of a row separated by commas. -/
theorem C81_dense (hN : 0 < N) (fmt : ℝ → Text) (Ar Ai : Fin N → Fin N → ℝ) :
    print_dense fmt Ar Ai = lit "matrix(" ++ List.intercalate (lit ", \n") (List.ofFn fun i => lit "[" ++
      List.intercalate (lit ",") (List.ofFn fun j => fmt (Ar i j) ++ lit "+%i*" ++ fmt (Ai i j)) ++ lit "]") ++ lit ");\n" := by
  unfold print_dense
  simp only [forFin_sep hN (fun j => fmt (Ar _ j) ++ lit "+%i*" ++ fmt (Ai _ j))]
  have := forFin_sep hN (fun i => lit "[" ++
      List.intercalate (lit ",") (List.ofFn fun j => fmt (Ar i j) ++ lit "+%i*" ++ fmt (Ai i j)) ++ lit "]") (lit ", \n") (lit ");\n") (lit "matrix(")
  rw [← this]
  simp only [List.append_assoc]

theorem forUp_take {α : Type} {n k : Nat} (hk : k ≤ n) (f : Fin n → α) (body : Nat → List α → M (List α))
    (h : ∀ (i : Fin n) out, body i out = pure (out ++ [f i])) : forUp 0 k body [] = pure ((List.ofFn f).take k) := by
  have hlen : (List.ofFn f).length = n := List.length_ofFn
  obtain ⟨out, ho, h1⟩ := forUp_inv (body := body) (lo := 0) (hi := k) (s := []) (Nat.zero_le _)
    (fun i out => out = (List.ofFn f).take i) (by simp)
    (fun i out _ hi e => by
      rw [h ⟨i, by omega⟩ out]
      refine Ok.pure ?_
      rw [e, List.take_succ_eq_append_getElem (by rw [hlen]; omega), List.getElem_ofFn])
  rw [ho, h1]

/-- C81: `print_array` and the `print` functions on messages and simple plaintexts print the first ten entries, or all of
them if there are fewer, and read nothing else. -/
theorem C81_arrays {α β : Type} (LOGN : Nat) (A : Fin N → α) (z : CVec LOGN) (pt : Fin (2^LOGN) → β) :
    print_array A = pure ((List.ofFn A).take 10) ∧
    print_message LOGN z = pure ((List.ofFn fun i => (z.1 i, z.2 i)).take 10) ∧
    print_simple LOGN pt = pure ((List.ofFn pt).take 10) := by
  have e : ∀ {γ : Type} (n : Nat) (l : Fin n → γ), (List.ofFn l).take (if n < 10 then n else 10) = (List.ofFn l).take 10 := by
    intro γ n l
    split_ifs with h
    · rw [List.take_of_length_le (by rw [List.length_ofFn]), List.take_of_length_le (by rw [List.length_ofFn]; omega)]
    · rfl
  have b : ∀ n : Nat, (if n < 10 then n else 10) ≤ n := by intro n; split_ifs <;> omega
  refine ⟨?_, ?_, ?_⟩
  · unfold print_array
    rw [forUp_take (b N) A _ (fun i out => by rw [rd_fin, pure_bind]), e]
  · unfold print_message
    rw [forUp_take (b _) (fun i => (z.1 i, z.2 i)) _ (fun i out => by rw [rd_fin, pure_bind, rd_fin, pure_bind]), e]
  · unfold print_simple
    rw [forUp_take (b _) pt _ (fun i out => by rw [rd_fin, pure_bind]), e]

example : ((List.ofFn fun i : Fin 12 => i.val).take 10) = [0, 1, 2, 3, 4, 5, 6, 7, 8, 9] := by decide

end EvalRound

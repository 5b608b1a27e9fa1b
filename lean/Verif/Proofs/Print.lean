import Verif.Model.Print
import Verif.Proofs.Str
import Verif.Proofs.ZQ
import Verif.Proofs.Sign
import Mathlib.Data.List.TakeWhile

/-! # The text written by the `print` members -/

namespace EvalRound
open Z_Q

theorem intercalate_append {sep x : Text} : ∀ {l : List Text}, l ≠ [] → List.intercalate sep (l ++ [x]) = List.intercalate sep l ++ sep ++ x
  | [], h => absurd rfl h
  | [a], _ => by
    rw [List.singleton_append, List.intercalate_cons_cons, List.intercalate_singleton, List.intercalate_singleton]
  | a :: b :: l, _ => by
    rw [List.cons_append, List.cons_append, List.intercalate_cons_cons, ← List.cons_append, intercalate_append (List.cons_ne_nil b l),
      List.intercalate_cons_cons]
    simp only [List.append_assoc]

/-- the loop of R_Q.h that writes the entries with commas between -/
theorem print_loop {N : Nat} (f : Fin N → Text) (body : Nat → Text → M Text)
    (h : ∀ (i : Fin N) out, body i out = pure (if ((i : Nat) : Int) < N - 1 then out ++ f i ++ [44] else out ++ f i)) :
    forUp 0 N body [91] = pure ([91] ++ List.intercalate [44] (List.ofFn f)) := by
  have hlen : (List.ofFn f).length = N := List.length_ofFn
  have key := forUp_inv (body := body) (lo := 0) (hi := N) (s := [91]) (Nat.zero_le _)
    (fun i out => (i = 0 → out = [91]) ∧ (0 < i → out = [91] ++ List.intercalate [44] ((List.ofFn f).take i) ++ if i < N then [44] else []))
    ⟨fun _ => rfl, fun h => absurd h (lt_irrefl _)⟩
    (fun i out _ hi ⟨h0, h1⟩ => by
      rw [h ⟨i, hi⟩ out]
      refine Ok.pure ⟨fun h => absurd h (Nat.succ_ne_zero _), fun _ => ?_⟩
      have hi' : i < (List.ofFn f).length := by rw [hlen]; exact hi
      have ht : (List.ofFn f).take (i+1) = (List.ofFn f).take i ++ [f ⟨i, hi⟩] := by
        rw [List.take_succ_eq_append_getElem hi', List.getElem_ofFn]
      rw [ht]
      rcases Nat.eq_zero_or_pos i with rfl | hp
      · rw [h0 rfl, List.take_zero, List.nil_append, List.intercalate_singleton]
        by_cases hN : 0 + 1 < N
        · rw [if_pos hN, if_pos (by simp only []; omega)]
        · rw [if_neg hN, if_neg (by simp only []; omega), List.append_nil]
      · have hne : (List.ofFn f).take i ≠ [] := by
          intro hh
          have := congrArg List.length hh
          rw [List.length_take, List.length_nil] at this
          omega
        rw [h1 hp, if_pos hi, intercalate_append hne]
        by_cases hN : i + 1 < N
        · rw [if_pos hN, if_pos (by simp only []; omega)]; simp only [List.append_assoc]
        · rw [if_neg hN, if_neg (by simp only []; omega), List.append_nil]; simp only [List.append_assoc])
  obtain ⟨out, ho, h0, h1⟩ := key
  rw [ho]
  congr 1
  rcases Nat.eq_zero_or_pos N with rfl | hp
  · rw [h0 rfl]; simp
  · rw [h1 hp, if_neg (lt_irrefl _), List.append_nil, List.take_of_length_le (by rw [hlen])]

theorem lit_nl : lit "\n" = [10] := by decide
theorem lit_open : lit "[" = [91] := by decide
theorem lit_comma : lit "," = [44] := by decide
theorem lit_minus : lit "-" = [45] := by decide
theorem lit_close : lit "]\n" = [93, 10] := by decide
theorem lit_mid : lit ",\n" = [44, 10] := by decide

variable {L N : Nat}

theorem printS_spec {cap : Nat} (s : Fin cap → BitVec 8) (h : (cstr s).length < cap) : printS s = pure (cstr s) := by
  unfold printS
  rw [if_pos]
  · rfl
  · by_contra hc
    push Not at hc
    have e : cstr s = List.ofFn s := by
      unfold cstr
      rw [List.takeWhile_eq_self_iff]
      intro c hcm
      obtain ⟨i, rfl⟩ := List.mem_ofFn.1 hcm
      simpa using hc i
    rw [e, List.length_ofFn] at h
    exact lt_irrefl _ h

theorem print_unsigned_spec (x : Z_Q L) (hL : L ≤ 1300) : x.print_unsigned = pure (decText x.val ++ [10]) := by
  unfold Z_Q.print_unsigned
  obtain ⟨s, hs, h1, h2⟩ := to_str_spec x hL le_rfl (fun _ : Fin 520 => 0)
  simp only []
  rw [hs, pure_bind, printS_spec s (by rw [h1]; omega), pure_bind, h1, lit_nl]

theorem print_unsigned_assert (x : Z_Q L) (hL : 1300 < L) : x.print_unsigned = throw Fault.assertFail := by
  unfold Z_Q.print_unsigned to_str
  have : assertM (decide (L ≤ 1300)) = throw Fault.assertFail := by
    simp [assertM, Nat.not_le.2 hL]
  simp only [this]
  rfl

variable [NeZero L]

theorem rq_print_unsigned (A : R_Q L N) (hL : L ≤ 1300) :
    R_Q.print_unsigned A = pure (listText (List.ofFn fun i => decText (A i).val)) := by
  unfold R_Q.print_unsigned
  simp only [lit_open, lit_close, lit_comma]
  rw [print_loop (fun i => decText (A i).val ++ [10])]
  · rw [pure_bind]
    unfold listText
    congr 3
    rw [List.map_ofFn]
    rfl
  · intro i out
    rw [rd_of_lt A i.isLt, pure_bind, print_unsigned_spec _ hL, pure_bind]

theorem print_neg (x : Z_Q L) (hx : x.Canonical) (hb : x.is_bigger_than_halfQ = true) :
    (negate (Z_Q.copy x)).val = x.sval.natAbs := by
  have h1 := is_bigger_canonical hx
  rw [hb] at h1
  have h2 : 2^(L-1) ≤ x.val := by simpa using h1.symm
  have h0 : x.val ≠ 0 := by
    have : 0 < 2^(L-1) := by positivity
    omega
  have hc : Z_Q.copy x = x := rfl
  rw [hc, val_negate_canonical hx h0, sval_canonical hx]
  have hlt : x.val < 2^L := hx
  have hc2 : ((2^L : Nat) : Int) = 2^L := by push_cast; rfl
  rw [if_pos h2, ← hc2]
  omega

theorem rq_print_signed (A : R_Q L N) (hA : ∀ i, (A i).Canonical) (hL : L ≤ 1300) :
    R_Q.print_signed A = pure (listText (List.ofFn fun i => signedText (A i).sval)) := by
  unfold R_Q.print_signed
  simp only [lit_open, lit_close, lit_comma]
  rw [print_loop (fun i => signedText (A i).sval ++ [10])]
  · rw [pure_bind]
    unfold listText
    congr 3
    rw [List.map_ofFn]
    rfl
  · intro i out
    rw [rd_of_lt A i.isLt, pure_bind]
    have hs := is_bigger_canonical (hA i)
    by_cases hb : (A i).is_bigger_than_halfQ = true
    · have hneg : (A i).sval < 0 := by
        rw [hs, decide_eq_true_iff] at hb
        rw [sval_canonical (hA i)]
        have : (A i).val < 2^L := hA i
        have hc2 : ((2^L : Nat) : Int) = 2^L := by push_cast; rfl
        rw [if_pos hb, ← hc2]
        omega
      rw [if_pos hb]
      simp only [print_unsigned_spec _ hL, pure_bind, lit_minus]
      rw [print_neg _ (hA i) hb]
      unfold signedText
      rw [if_pos hneg]
      simp only [List.append_assoc, List.cons_append, List.nil_append]
    · have hb2 := hb
      have hpos : ¬ (A i).sval < 0 ∧ (A i).sval.natAbs = (A i).val := by
        rw [hs, decide_eq_true_iff] at hb
        rw [sval_canonical (hA i)]
        rw [if_neg hb]
        constructor <;> omega
      rw [if_neg hb2]
      simp only [print_unsigned_spec _ hL, pure_bind]
      unfold signedText
      rw [if_neg hpos.1, hpos.2]

omit [NeZero L] in
theorem rq_print_assert (A : R_Q L N) (hN : 0 < N) (hL : 1300 < L) : R_Q.print_unsigned A = throw Fault.assertFail := by
  unfold R_Q.print_unsigned forUp
  obtain ⟨n, rfl⟩ : ∃ n, N = n + 1 := ⟨N - 1, by omega⟩
  simp only [Nat.sub_zero]
  rw [forFrom]
  simp only [rd_of_lt A (show 0 < n + 1 by omega), pure_bind, print_unsigned_assert _ hL]
  rfl

theorem rq_print_signed_assert (A : R_Q L N) (hN : 0 < N) (hL : 1300 < L) : R_Q.print_signed A = throw Fault.assertFail := by
  unfold R_Q.print_signed forUp
  obtain ⟨n, rfl⟩ : ∃ n, N = n + 1 := ⟨N - 1, by omega⟩
  simp only [Nat.sub_zero]
  rw [forFrom]
  simp only [rd_of_lt A (show 0 < n + 1 by omega), pure_bind, print_unsigned_assert _ hL]
  split_ifs <;> rfl

theorem sq_print (A : R_Q_square L N) (hL : L ≤ 1300) :
    R_Q_square.print A = pure ([91] ++ listText (List.ofFn fun i => decText (A.1 i).val) ++ [44, 10] ++
      listText (List.ofFn fun i => decText (A.2 i).val) ++ [93, 10]) := by
  unfold R_Q_square.print
  rw [rq_print_unsigned _ hL, rq_print_unsigned _ hL, pure_bind, pure_bind, lit_open, lit_mid, lit_close]

theorem sq_print_assert (A : R_Q_square L N) (hN : 0 < N) (hL : 1300 < L) : R_Q_square.print A = throw Fault.assertFail := by
  unfold R_Q_square.print
  rw [rq_print_assert _ hN hL]
  rfl

/-! ## different polynomials are printed differently -/

theorem chr_ne {d : Nat} (hd : d < 10) : chr d ≠ 44 ∧ chr d ≠ 45 ∧ chr d ≠ 10 := by
  interval_cases d <;> decide

theorem decText_mem {v : Nat} {c : BitVec 8} (h : c ∈ decText v) : c ≠ 44 ∧ c ≠ 45 ∧ c ≠ 10 := by
  obtain ⟨d, hd, rfl⟩ := List.mem_map.1 h
  exact chr_ne (decDigits_lt _ _ hd)

theorem chr_inj {d e : Nat} (hd : d < 10) (he : e < 10) (h : chr d = chr e) : d = e := by
  have := congrArg BitVec.toNat h
  unfold chr at this
  simp only [BitVec.toNat_ofNat] at this
  omega

theorem map_chr_inj : ∀ {l m : List Nat}, (∀ d ∈ l, d < 10) → (∀ d ∈ m, d < 10) → l.map chr = m.map chr → l = m
  | [], [], _, _, _ => rfl
  | [], _ :: _, _, _, h => by simp at h
  | _ :: _, [], _, _, h => by simp at h
  | a :: l, b :: m, hl, hm, h => by
    rw [List.map_cons, List.map_cons, List.cons.injEq] at h
    rw [chr_inj (hl a List.mem_cons_self) (hm b List.mem_cons_self) h.1,
      map_chr_inj (fun d hd => hl d (List.mem_cons_of_mem _ hd)) (fun d hd => hm d (List.mem_cons_of_mem _ hd)) h.2]

theorem decText_inj {v w : Nat} (h : decText v = decText w) : v = w := by
  have := map_chr_inj (decDigits_lt v) (decDigits_lt w) h
  rw [← decDigits_read v, ← decDigits_read w, this]

theorem signedText_inj {v w : Int} (h : signedText v = signedText w) : v = w := by
  unfold signedText at h
  have no : ∀ a b : Nat, 45 :: decText a ≠ decText b := fun a b hh =>
    (decText_mem (v := b) (c := 45) (by rw [← hh]; exact List.mem_cons_self)).2.1 rfl
  split_ifs at h with h1 h2 h2
  · rw [List.cons.injEq] at h
    have := decText_inj h.2
    omega
  · exact absurd h (no _ _)
  · exact absurd h.symm (no _ _)
  · have := decText_inj h
    omega

theorem listText_inj {l m : List Text} (hl : ∀ t ∈ l, (44 : BitVec 8) ∉ t) (hm : ∀ t ∈ m, (44 : BitVec 8) ∉ t) (hlen : l.length = m.length)
    (h : listText l = listText m) : l = m := by
  unfold listText at h
  rw [List.append_cancel_right_eq, List.append_cancel_left_eq] at h
  rcases l.eq_nil_or_concat with rfl | ⟨l', a, e⟩
  · rw [List.length_nil] at hlen
    rw [List.eq_nil_of_length_eq_zero hlen.symm]
  have hne : l ≠ [] := by rw [e]; simp
  have hne' : m ≠ [] := by
    intro hh; rw [hh, List.length_nil] at hlen; exact hne (List.eq_nil_of_length_eq_zero hlen)
  have no : ∀ k : List Text, (∀ t ∈ k, (44 : BitVec 8) ∉ t) → ∀ t ∈ k.map (fun t => t ++ [10]), (44 : BitVec 8) ∉ t := by
    intro k hk t ht
    obtain ⟨u, hu, rfl⟩ := List.mem_map.1 ht
    intro hmem
    rcases List.mem_append.1 hmem with h3 | h3
    · exact hk u hu h3
    · simp at h3
  have h2 := congrArg (List.splitOn (44 : BitVec 8)) h
  rw [List.splitOn_intercalate _ (no l hl) (by simpa using hne), List.splitOn_intercalate _ (no m hm) (by simpa using hne')] at h2
  exact List.map_injective_iff.2 (fun a b hab => List.append_cancel_right hab) h2

end EvalRound

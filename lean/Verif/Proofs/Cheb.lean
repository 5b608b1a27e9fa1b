import Verif.Model.Poly
import Verif.Spec.Poly

/-! # convert_frc_tou -/

namespace EvalRound
open Finset

theorem chebT_zero (x : ℂ) : chebT 0 x = 1 := by simp [chebT]
theorem chebT_one (x : ℂ) : chebT 1 x = x := by simp [chebT]

theorem chebT_add {H i : Nat} (hi : i ≤ H) (x : ℂ) :
    chebT (H + i) x = 2 * (chebT H x * chebT i x) - chebT (H - i) x := by
  have h := Polynomial.Chebyshev.T_mul_T ℂ (H : ℤ) (i : ℤ)
  have h2 := congrArg (Polynomial.eval x) h
  simp only [Polynomial.eval_mul, Polynomial.eval_add, Polynomial.eval_ofNat] at h2
  unfold chebT
  rw [Nat.cast_add, Nat.cast_sub hi]
  rw [mul_assoc] at h2
  rw [h2]; ring

theorem chebT_double (H : Nat) (x : ℂ) : chebT (2 * H) x = 2 * (chebT H x * chebT H x) - 1 := by
  have := chebT_add (le_refl H) x
  rw [Nat.sub_self, chebT_zero] at this
  rw [two_mul, this]

theorem treeVal_congr {u v : Nat → ℝ} (x : ℂ) (j : Nat) : ∀ n, (∀ m, m < 2^j → u (2^j * n + m) = v (2^j * n + m)) →
    treeVal u x j n = treeVal v x j n := by
  induction j with
  | zero =>
    intro n h
    have := h 0 (by norm_num)
    simp only [treeVal]
    simpa using this
  | succ j ih =>
    intro n h
    simp only [treeVal]
    rw [ih (2*n) (fun m hm => ?_), ih (2*n+1) (fun m hm => ?_)]
    · have := h (2^j + m) (by rw [pow_succ]; omega)
      have e : 2^(j+1) * n + (2^j + m) = 2^j * (2*n+1) + m := by rw [pow_succ]; ring
      rwa [e] at this
    · have := h m (by rw [pow_succ]; omega)
      have e : 2^(j+1) * n + m = 2^j * (2*n) + m := by rw [pow_succ]; ring
      rwa [e] at this

theorem treeVal_shift (u : Nat → ℝ) (x : ℂ) (j : Nat) : ∀ n b, treeVal (fun m => u (b + m)) x j n = 
    treeVal (fun m => u (b + 2^j * n + m)) x j 0 := by
  induction j with
  | zero => intro n b; simp [treeVal]
  | succ j ih =>
    intro n b
    simp only [treeVal]
    rw [ih (2*n) b, ih (2*n+1) b, ih (2*0) (b + 2^(j+1) * n), ih (2*0+1) (b + 2^(j+1)*n)]
    have e1 : b + 2^j * (2*n) = b + 2^(j+1) * n + 2^j * (2*0) := by rw [pow_succ]; ring
    have e2 : b + 2^j * (2*n+1) = b + 2^(j+1) * n + 2^j * (2*0+1) := by rw [pow_succ]; ring
    rw [e1, e2]

theorem treeVal_top (u : Nat → ℝ) (x : ℂ) (j b : Nat) : treeVal (fun m => u (b + m)) x (j+1) 0 =
    treeVal (fun m => u (b + m)) x j 0 + chebT (2^j) x * treeVal (fun m => u (b + 2^j + m)) x j 0 := by
  simp only [treeVal]
  rw [treeVal_shift u x j (2*0+1) b, mul_zero]
  have e : b + 2^j * (0+1) = b + 2^j := by ring
  rw [e]

/-! ## the loop -/

theorem frcFold_spec {H : Nat} (c0 c1 : Fin H → ℝ) : Ok (frcFold c0 c1) fun p =>
    (∀ i : Fin H, p.1 i = if h : 0 < i.val then c0 i - c1 ⟨H - i, by omega⟩ else c0 i) ∧
    ∀ i : Fin H, p.2 i = if 0 < i.val then c1 i * 2 else c1 i := by
  by_cases hH : 1 ≤ H
  swap
  · have : H = 0 := by omega
    subst this
    exact ⟨(c0, c1), rfl, fun i => i.elim0, fun i => i.elim0⟩
  refine Ok.mono (forUp_inv hH (P := fun i st =>
    (∀ j : Fin H, st.1 j = if h : H - i < j.val then c0 j - c1 ⟨H - j, by omega⟩ else c0 j) ∧
    ∀ j : Fin H, st.2 j = if 0 < j.val ∧ j.val < i then c1 j * 2 else c1 j) ?_ ?_) ?_
  · refine ⟨fun j => ?_, fun j => ?_⟩
    · have := j.isLt
      rw [dif_neg (by omega)]
    · rw [if_neg (by omega)]
  · rintro i st h1 h2 ⟨ha, hb⟩
    have hi : H - i < H := by omega
    rw [rd_of_lt _ hi, pure_bind, rd_of_lt _ h2, pure_bind, wr_of_lt _ hi, pure_bind, wr_of_lt _ h2, pure_bind]
    refine Ok.pure ⟨fun j => ?_, fun j => ?_⟩
    · simp only [Function.update_apply]
      by_cases hj : j = ⟨H - i, hi⟩
      · subst hj
        rw [if_pos rfl, dif_pos (show H - (i+1) < H - i by omega), ha, hb, dif_neg (by simp), if_neg (by simp)]
        congr 2
        apply Fin.ext
        show i = H - (H - i)
        omega
      · have hj' : j.val ≠ H - i := fun h => hj (Fin.ext h)
        rw [if_neg hj, ha]
        by_cases hlt : H - i < j.val
        · rw [dif_pos hlt, dif_pos (by omega)]
        · rw [dif_neg hlt, dif_neg (by omega)]
    · simp only [Function.update_apply]
      by_cases hj : j = ⟨i, h2⟩
      · subst hj
        rw [if_pos rfl, if_pos (by simp; omega), hb, if_neg (by simp)]
      · have hj' : j.val ≠ i := fun h => hj (Fin.ext h)
        rw [if_neg hj, hb]
        by_cases hlt : 0 < j.val ∧ j.val < i
        · rw [if_pos hlt, if_pos (by omega)]
        · rw [if_neg hlt, if_neg (by omega)]
  · rintro st ⟨ha, hb⟩
    refine ⟨fun i => ?_, fun i => ?_⟩
    · rw [ha]
      simp only [Nat.sub_self]
    · rw [hb]
      have := i.isLt
      by_cases h : 0 < i.val
      · rw [if_pos h, if_pos (by omega)]
      · rw [if_neg h, if_neg (by omega)]

/-- the identity behind the loop -/
theorem cheb_fold {H : Nat} (hH : 1 ≤ H) (c : Nat → ℝ) (x : ℂ) :
    ∑ i ∈ range (2*H), (c i : ℂ) * chebT i x =
      ∑ i ∈ range H, ((if 0 < i then c i - c (H + (H - i)) else c i : ℝ) : ℂ) * chebT i x +
      chebT H x * ∑ i ∈ range H, ((if 0 < i then c (H + i) * 2 else c (H + i) : ℝ) : ℂ) * chebT i x := by
  obtain ⟨G, rfl⟩ : ∃ G, H = G + 1 := ⟨H - 1, by omega⟩
  rw [two_mul, sum_range_add, sum_range_succ' _ G, sum_range_succ' (fun i => (c (G+1+i) : ℂ) * _) G,
    sum_range_succ' (fun i => ((if 0 < i then c i - c (G+1 + (G+1 - i)) else c i : ℝ) : ℂ) * chebT i x) G,
    sum_range_succ' (fun i => ((if 0 < i then c (G+1 + i) * 2 else c (G+1 + i) : ℝ) : ℂ) * chebT i x) G]
  have e1 : ∑ i ∈ range G, (c (G + 1 + (i+1)) : ℂ) * chebT (G + 1 + (i+1)) x =
      chebT (G+1) x * (∑ i ∈ range G, ((if 0 < i+1 then c (G+1 + (i+1)) * 2 else c (G+1 + (i+1)) : ℝ) : ℂ) * chebT (i+1) x) -
      ∑ i ∈ range G, (c (G + 1 + (i+1)) : ℂ) * chebT (G + 1 - (i+1)) x := by
    rw [mul_sum, ← sum_sub_distrib]
    refine sum_congr rfl fun i hi => ?_
    have := mem_range.1 hi
    rw [chebT_add (by omega), if_pos (by omega)]
    push_cast
    ring
  have e2 : ∑ i ∈ range G, (c (G + 1 + (i+1)) : ℂ) * chebT (G + 1 - (i+1)) x =
      ∑ i ∈ range G, (c (G + 1 + (G + 1 - (i+1))) : ℂ) * chebT (i+1) x := by
    rw [← sum_range_reflect]
    refine sum_congr rfl fun i hi => ?_
    have := mem_range.1 hi
    have a1 : G - 1 - i + 1 = G + 1 - (i+1) := by omega
    have a2 : G + 1 - (G - 1 - i + 1) = i + 1 := by omega
    rw [a2, a1]
  have e3 : ∑ i ∈ range G, ((if 0 < i+1 then c (i+1) - c (G+1 + (G+1 - (i+1))) else c (i+1) : ℝ) : ℂ) * chebT (i+1) x =
      ∑ i ∈ range G, (c (i+1) : ℂ) * chebT (i+1) x - ∑ i ∈ range G, (c (G + 1 + (G + 1 - (i+1))) : ℂ) * chebT (i+1) x := by
    rw [← sum_sub_distrib]
    refine sum_congr rfl fun i _ => ?_
    rw [if_pos (by omega)]
    push_cast; ring
  rw [e1, e2, e3]
  simp only [lt_irrefl, if_false, add_zero, chebT_zero, mul_one]
  ring

/-- `N = 2^k` with `k ≥ 2` -/
theorem convert_spec {K : Nat} (k : Nat) (hk : 2 ≤ k) : ∀ (cn : Nat) (c : Fin cn → ℝ) (off : Nat) (u : Fin K → ℝ),
    2^k ≤ cn → off + 2^k ≤ K → Ok (convert_frc_tou (2^k) cn c off u) fun v =>
      (∀ m : Fin K, m.val < off ∨ off + 2^k ≤ m.val → v m = u m) ∧
      ∀ x, treeVal (fun m => arr v (off + m)) x k 0 = ∑ i ∈ range (2^k), (arr c i : ℂ) * chebT i x := by
  induction k, hk using Nat.le_induction with
  | base =>
    intro cn c off u hc hK
    rw [convert_frc_tou, if_pos (by norm_num)]
    have h4 : 2^2 = 4 := by norm_num
    rw [h4] at hc hK
    rw [rd_of_lt c (show 0 < cn by omega), pure_bind, wr_of_lt u (show off < K by omega), pure_bind,
      rd_of_lt c (show 1 < cn by omega), pure_bind, rd_of_lt c (show 3 < cn by omega), pure_bind,
      wr_of_lt _ (show off+1 < K by omega), pure_bind, rd_of_lt c (show 2 < cn by omega), pure_bind,
      wr_of_lt _ (show off+2 < K by omega), pure_bind, pure_bind, wr_of_lt _ (show off+3 < K by omega)]
    refine Ok.pure ⟨fun m hm => ?_, fun x => ?_⟩
    · rw [Function.update_of_ne, Function.update_of_ne, Function.update_of_ne, Function.update_of_ne] <;>
      · intro h; have := congrArg Fin.val h; simp at this; omega
    · have e0 : (2:Nat) * 0 = 0 := rfl
      simp only [treeVal, arr, show 2 * (2 * 0) = 0 from rfl, show 2 * (2*0) + 1 = 1 from rfl,
        show 2 * (2 * 0 + 1) = 2 from rfl, show 2 * (2*0+1) + 1 = 3 from rfl, add_zero]
      rw [dif_pos (show off < K by omega), dif_pos (show off+1 < K by omega), dif_pos (show off+2 < K by omega),
        dif_pos (show off+3 < K by omega)]
      have n3 : ∀ a b : Nat, a ≠ b → ∀ (h : off + a < K) (h' : off + b < K), (⟨off + a, h⟩ : Fin K) ≠ ⟨off + b, h'⟩ := by
        intro a b hab h h' e; have := congrArg Fin.val e; simp at this; omega
      have a0 := n3 0 1 (by norm_num) (by omega) (by omega)
      have a1 := n3 0 2 (by norm_num) (by omega) (by omega)
      have a2 := n3 0 3 (by norm_num) (by omega) (by omega)
      have b1 := n3 1 2 (by norm_num) (by omega) (by omega)
      have b2 := n3 1 3 (by norm_num) (by omega) (by omega)
      have b3 := n3 2 3 (by norm_num) (by omega) (by omega)
      simp only [add_zero] at a0 a1 a2
      simp only [Function.update_apply, a0, a1, a2, b1, b2, b3, if_true, if_false]
      rw [h4, sum_range_succ, sum_range_succ, sum_range_succ, sum_range_succ, sum_range_zero]
      rw [dif_pos (show 0 < cn by omega), dif_pos (show 1 < cn by omega), dif_pos (show 2 < cn by omega),
        dif_pos (show 3 < cn by omega)]
      have t2 := chebT_double 1 x
      have t3 := chebT_add (show 1 ≤ 2 by norm_num) x
      norm_num only at t2 t3
      norm_num only [pow_zero, pow_one]
      rw [t3, t2, chebT_zero, chebT_one]
      push_cast
      ring
  | succ k hk ih =>
    intro cn c off u hc hK
    have hp : 2^(k+1) = 2^k + 2^k := by rw [pow_succ]; ring
    have hd : 2^(k+1) / 2 = 2^k := by rw [pow_succ]; simp
    have h4 : 4 ≤ 2^k := by
      have := Nat.pow_le_pow_right (n := 2) (by norm_num) hk
      simpa using this
    rw [convert_frc_tou, if_neg (by omega)]
    generalize 2^(k+1) / 2 = H at hd ⊢
    subst hd
    refine Ok.bind (tabM_spec (P := fun i v => v = arr c i) fun i hi => ?_) fun c0 h0 => ?_
    · rw [rd_of_lt c (by omega)]
      exact Ok.pure (by unfold arr; rw [dif_pos (by omega)])
    refine Ok.bind (tabM_spec (P := fun i v => v = arr c (2^k + i)) fun i hi => ?_) fun c1 h1 => ?_
    · rw [rd_of_lt c (show i + 2^k < cn by omega)]
      refine Ok.pure ?_
      unfold arr
      rw [dif_pos (by omega)]
      congr 1
      apply Fin.ext
      simp only []; omega
    refine Ok.bind (frcFold_spec c0 c1) fun p ⟨hp0, hp1⟩ => ?_
    refine Ok.bind (ih (2^k) p.1 off u (le_refl _) (by omega)) fun v ⟨hv1, hv2⟩ => ?_
    refine Ok.mono (ih (2^k) p.2 (off + 2^k) v (le_refl _) (by omega)) fun w ⟨hw1, hw2⟩ => ⟨fun m hm => ?_, fun x => ?_⟩
    · rw [hw1 m (by omega), hv1 m (by omega)]
    · rw [treeVal_top (fun m => arr w m) x k off, hw2 x]
      have e1 : treeVal (fun m => arr w (off + m)) x k 0 = treeVal (fun m => arr v (off + m)) x k 0 := by
        refine treeVal_congr x k 0 fun m hm => ?_
        unfold arr
        rw [mul_zero, zero_add, dif_pos (by omega), dif_pos (by omega)]
        exact hw1 _ (Or.inl (by simp only []; omega))
      rw [e1, hv2 x, hp, ← two_mul, cheb_fold (by omega) (arr c) x]
      congr 1
      · refine sum_congr rfl fun i hi => ?_
        have hi' := mem_range.1 hi
        congr 2
        rw [arr, dif_pos hi', hp0]
        simp only []
        by_cases hpos : 0 < i
        · rw [dif_pos hpos, if_pos hpos, h0, h1]
        · rw [dif_neg hpos, if_neg hpos, h0]
      · congr 1
        refine sum_congr rfl fun i hi => ?_
        have hi' := mem_range.1 hi
        congr 2
        rw [arr, dif_pos hi', hp1]
        simp only []
        by_cases hpos : 0 < i
        · rw [if_pos hpos, if_pos hpos, h1]
        · rw [if_neg hpos, if_neg hpos, h1]

/-- a call that does not run forever has a length between `4*2^j` and `5*2^j` -/
theorem convert_term {K : Nat} (N cn : Nat) (c : Fin cn → ℝ) (off : Nat) (u : Fin K → ℝ) (hc : N ≤ cn)
    (r : Except Fault (Fin K → ℝ)) (h : convert_frc_tou N cn c off u = some r) :
    ∃ j, 4 * 2^j ≤ N ∧ N < 5 * 2^j := by
  have key : ∀ (N cn : Nat) (c : Fin cn → ℝ) (off : Nat) (u : Fin K → ℝ), N ≤ cn →
      ∀ r : Except Fault (Fin K → ℝ), convert_frc_tou N cn c off u = some r → ∃ j, 4 * 2^j ≤ N ∧ N < 5 * 2^j := by
    apply convert_frc_tou.fixpoint_induct (motive := fun f => ∀ (N cn : Nat) (c : Fin cn → ℝ) (off : Nat)
      (u : Fin K → ℝ), N ≤ cn → ∀ r : Except Fault (Fin K → ℝ), f N cn c off u = some r → ∃ j, 4 * 2^j ≤ N ∧ N < 5 * 2^j)
    · apply Lean.Order.admissible_pi_apply (P := fun N (x : (cn : Nat) → (Fin cn → ℝ) → Nat → (Fin K → ℝ) → M (Fin K → ℝ)) =>
        ∀ (cn : Nat) (c : Fin cn → ℝ) (off : Nat) (u : Fin K → ℝ), N ≤ cn → ∀ r : Except Fault (Fin K → ℝ),
          x cn c off u = some r → ∃ j, 4 * 2^j ≤ N ∧ N < 5 * 2^j)
      intro N
      apply Lean.Order.admissible_pi_apply (P := fun cn (x : (Fin cn → ℝ) → Nat → (Fin K → ℝ) → M (Fin K → ℝ)) =>
        ∀ (c : Fin cn → ℝ) (off : Nat) (u : Fin K → ℝ), N ≤ cn → ∀ r : Except Fault (Fin K → ℝ),
          x c off u = some r → ∃ j, 4 * 2^j ≤ N ∧ N < 5 * 2^j)
      intro cn
      apply Lean.Order.admissible_pi_apply (P := fun c (x : Nat → (Fin K → ℝ) → M (Fin K → ℝ)) =>
        ∀ (off : Nat) (u : Fin K → ℝ), N ≤ cn → ∀ r : Except Fault (Fin K → ℝ),
          x off u = some r → ∃ j, 4 * 2^j ≤ N ∧ N < 5 * 2^j)
      intro c
      apply Lean.Order.admissible_pi_apply (P := fun off (x : (Fin K → ℝ) → M (Fin K → ℝ)) =>
        ∀ (u : Fin K → ℝ), N ≤ cn → ∀ r : Except Fault (Fin K → ℝ),
          x u = some r → ∃ j, 4 * 2^j ≤ N ∧ N < 5 * 2^j)
      intro off
      apply Lean.Order.admissible_pi_apply (P := fun u (x : M (Fin K → ℝ)) =>
        N ≤ cn → ∀ r : Except Fault (Fin K → ℝ), x = some r → ∃ j, 4 * 2^j ≤ N ∧ N < 5 * 2^j)
      intro u
      apply Lean.Order.admissible_pi
      intro _
      apply Lean.Order.admissible_pi
      intro r
      exact Lean.Order.Option.admissible_eq_some (α := Except Fault (Fin K → ℝ)) _ _
    · intro f ih N cn c off u hc r hr
      by_cases h4 : N = 4
      · exact ⟨0, by omega, by omega⟩
      simp only [if_neg h4] at hr
      obtain ⟨c0, e0, -⟩ := tabM_spec (n := N/2) (f := fun i => rd c i) (P := fun _ _ => True) fun i hi => by
        rw [rd_of_lt c (by omega)]; exact Ok.pure trivial
      obtain ⟨c1, e1, -⟩ := tabM_spec (n := N/2) (f := fun i => rd c (i + N/2)) (P := fun _ _ => True) fun i hi => by
        rw [rd_of_lt c (by omega)]; exact Ok.pure trivial
      obtain ⟨p, ep, -⟩ := frcFold_spec c0 c1
      rw [e0, pure_bind, e1, pure_bind, ep, pure_bind] at hr
      cases hf : f (N/2) (N/2) p.1 off u with
      | none => rw [hf] at hr; exact nomatch hr
      | some r' =>
        obtain ⟨j, hj1, hj2⟩ := ih (N/2) (N/2) p.1 off u (le_refl _) r' hf
        exact ⟨j+1, by rw [pow_succ]; omega, by rw [pow_succ]; omega⟩
  exact key N cn c off u hc r h

theorem convert_diverges {K : Nat} {N cn : Nat} (c : Fin cn → ℝ) (off : Nat) (u : Fin K → ℝ) (hc : N ≤ cn)
    (hN : ∀ j, ¬ (4 * 2^j ≤ N ∧ N < 5 * 2^j)) : convert_frc_tou N cn c off u = diverge := by
  match h : convert_frc_tou N cn c off u with
  | none => rfl
  | some r => 
    obtain ⟨j, hj⟩ := convert_term N cn c off u hc r h
    exact (hN j hj).elim

/-- the recursion returns when the halving of `N` reaches 4 -/
theorem convert_returns (j : Nat) : ∀ {N cn K : Nat} (c : Fin cn → ℝ) (off : Nat) (u : Fin K → ℝ), 4 * 2^j ≤ N → N < 5 * 2^j → N ≤ cn →
    off + N ≤ K → Ok (convert_frc_tou N cn c off u) fun _ => True := by
  induction j with
  | zero =>
    intro N cn K c off u h1 h2 hc hK
    obtain rfl : N = 4 := by omega
    rw [convert_frc_tou, if_pos rfl]
    rw [rd_of_lt c (by omega), pure_bind, wr_of_lt _ (by omega), pure_bind, rd_of_lt c (by omega), pure_bind, rd_of_lt c (by omega), pure_bind,
      wr_of_lt _ (by omega), pure_bind, rd_of_lt c (by omega), pure_bind, wr_of_lt _ (by omega), pure_bind, pure_bind, wr_of_lt _ (by omega)]
    exact Ok.pure trivial
  | succ j ih =>
    intro N cn K c off u h1 h2 hc hK
    rw [pow_succ] at h1 h2
    have := Nat.two_pow_pos j
    rw [convert_frc_tou, if_neg (by omega)]
    refine Ok.bind (tabM_spec (n := N/2) (f := fun i => rd c i) (P := fun _ _ => True) fun i hi => by
        rw [rd_of_lt c (by omega)]; exact Ok.pure trivial) fun c0 _ => ?_
    refine Ok.bind (tabM_spec (n := N/2) (f := fun i => rd c (i + N/2)) (P := fun _ _ => True) fun i hi => by
        rw [rd_of_lt c (by omega)]; exact Ok.pure trivial) fun c1 _ => ?_
    refine Ok.bind (frcFold_spec c0 c1) fun p _ => ?_
    refine Ok.bind (ih p.1 off u (by omega) (by omega) le_rfl (by omega)) fun v _ => ?_
    exact ih p.2 (off + N/2) v (by omega) (by omega) le_rfl (by omega)

/-- Some coefficient is ignored unless the halving of `N` is exact: with `m` the first odd length, `c[m-1]`. -/
theorem convert_ignores (j : Nat) : ∀ {N : Nat}, 4 * 2^j < N → N < 5 * 2^j → ∃ m < N, ∀ {cn K : Nat} (c c' : Fin cn → ℝ) (off : Nat) (u : Fin K → ℝ),
    N ≤ cn → (∀ i : Fin cn, i.val ≠ m → c i = c' i) → convert_frc_tou N cn c off u = convert_frc_tou N cn c' off u := by
  induction j with
  | zero => intro N h1 h2; omega
  | succ j ih =>
    intro N h1 h2
    rw [pow_succ] at h1 h2
    have := Nat.two_pow_pos j
    rcases Nat.even_or_odd' N with ⟨n, rfl | rfl⟩
    · obtain ⟨m, hm, h⟩ := ih (N := n) (by omega) (by omega)
      refine ⟨m, by omega, fun {cn K} c c' off u hc hcc => ?_⟩
      have en : 2*n/2 = n := by omega
      have t0 : ∀ d : Fin cn → ℝ, tabM n (fun i => rd d i) = pure fun i : Fin n => d ⟨i.val, by omega⟩ := fun d =>
        tabM_eq fun i => rd_of_lt d (by omega)
      have t1 : ∀ d : Fin cn → ℝ, tabM n (fun i => rd d (i + n)) = pure fun i : Fin n => d ⟨i.val + n, by omega⟩ := fun d =>
        tabM_eq fun i => rd_of_lt d (by omega)
      have e1 : (fun i : Fin n => c ⟨i.val + n, by omega⟩) = fun i : Fin n => c' ⟨i.val + n, by omega⟩ :=
        funext fun i => hcc _ (by show i.val + n ≠ m; omega)
      rw [convert_frc_tou, if_neg (by omega)]
      conv_rhs => rw [convert_frc_tou, if_neg (by omega)]
      rw [en, t0, t0, t1, t1, pure_bind, pure_bind, pure_bind, pure_bind, e1]
      obtain ⟨p, ep, hp0, hp1⟩ := frcFold_spec (fun i : Fin n => c ⟨i.val, by omega⟩) (fun i : Fin n => c' ⟨i.val + n, by omega⟩)
      obtain ⟨p', ep', hp0', hp1'⟩ := frcFold_spec (fun i : Fin n => c' ⟨i.val, by omega⟩) (fun i : Fin n => c' ⟨i.val + n, by omega⟩)
      rw [ep, ep', pure_bind, pure_bind]
      have e2 : p.2 = p'.2 := funext fun i => by rw [hp1, hp1']
      rw [e2, h p.1 p'.1 off u le_rfl fun i hi => by rw [hp0, hp0', hcc ⟨i.val, by omega⟩ hi]]
    · refine ⟨2*n, by omega, fun {cn K} c c' off u hc hcc => ?_⟩
      have en : (2*n+1)/2 = n := by omega
      have t0 : ∀ d : Fin cn → ℝ, tabM n (fun i => rd d i) = pure fun i : Fin n => d ⟨i.val, by omega⟩ := fun d =>
        tabM_eq fun i => rd_of_lt d (by omega)
      have t1 : ∀ d : Fin cn → ℝ, tabM n (fun i => rd d (i + n)) = pure fun i : Fin n => d ⟨i.val + n, by omega⟩ := fun d =>
        tabM_eq fun i => rd_of_lt d (by omega)
      have e0 : (fun i : Fin n => c ⟨i.val, by omega⟩) = fun i : Fin n => c' ⟨i.val, by omega⟩ :=
        funext fun i => hcc _ (by show i.val ≠ 2*n; omega)
      have e1 : (fun i : Fin n => c ⟨i.val + n, by omega⟩) = fun i : Fin n => c' ⟨i.val + n, by omega⟩ :=
        funext fun i => hcc _ (by show i.val + n ≠ 2*n; omega)
      rw [convert_frc_tou, if_neg (by omega)]
      conv_rhs => rw [convert_frc_tou, if_neg (by omega)]
      rw [en, t0, t0, t1, t1, e0, e1]

end EvalRound

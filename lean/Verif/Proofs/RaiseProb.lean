import Verif.Proofs.Chernoff
import Verif.Props.Draws
import Verif.Props.Section3

/-!
# Counting the masks of a ciphertext

Helper lemmas for C85.
-/

namespace EvalRound
open Finset Z_Q

/-! ## masks with a large product -/

section
variable {N : Nat}

/-- at most a fraction `2N exp(hλ²/24-λt)` of the polynomials has a product with `b` that has a coefficient above `t` -/
theorem count_large (p : ℕ) (hp : 0 < p) (b : Fin N → ℝ) (l t : ℝ) (hl : 0 ≤ l) :
    ((univ.filter fun a : Fin N → Fin (2*p) => ∃ k, t ≤ |∑ j, convMat b k j * ((centred p (a j) + 1/2) / (2*p))|).card : ℝ) ≤
      2 * N * Real.exp ((∑ k, b k ^ 2) * l^2/24 - l*t) * ((2*p : ℕ):ℝ)^N := by
  classical
  let S (σ : ℝ) (k : Fin N) : Finset (Fin N → Fin (2*p)) :=
    univ.filter fun a => t ≤ ∑ j, (σ * convMat b k j) * ((centred p (a j) + 1/2) / (2*p))
  have hS : ∀ σ : ℝ, σ^2 = 1 → ∀ k, ((S σ k).card : ℝ) ≤ Real.exp ((∑ k, b k ^ 2) * l^2/24 - l*t) * ((2*p : ℕ):ℝ)^N := fun σ hσ k => by
    have h := chernoff p hp (fun j => σ * convMat b k j) l t hl
    simp only [mul_pow, hσ, one_mul, convMat_sq, Fintype.card_fin] at h
    exact h
  have hsub : (univ.filter fun a : Fin N → Fin (2*p) => ∃ k, t ≤ |∑ j, convMat b k j * ((centred p (a j) + 1/2) / (2*p))|) ⊆
      univ.biUnion fun k => S 1 k ∪ S (-1) k := by
    intro a ha
    obtain ⟨k, hk⟩ := (mem_filter.1 ha).2
    refine mem_biUnion.2 ⟨k, mem_univ _, ?_⟩
    rcases le_abs.1 hk with h | h
    · refine mem_union_left _ (mem_filter.2 ⟨mem_univ _, ?_⟩)
      simpa only [one_mul] using h
    · refine mem_union_right _ (mem_filter.2 ⟨mem_univ _, ?_⟩)
      refine h.trans (le_of_eq ?_)
      rw [← sum_neg_distrib]
      exact sum_congr rfl fun j _ => by ring
  have h1 := (card_le_card hsub).trans card_biUnion_le
  have h2 : ((∑ k, (S 1 k ∪ S (-1) k).card : ℕ) : ℝ) ≤ ∑ k : Fin N, 2 * (Real.exp ((∑ k, b k ^ 2) * l^2/24 - l*t) * ((2*p : ℕ):ℝ)^N) := by
    rw [Nat.cast_sum]
    refine sum_le_sum fun k _ => ?_
    have h3 : (((S 1 k ∪ S (-1) k).card : ℕ) : ℝ) ≤ (S 1 k).card + (S (-1) k).card := by exact_mod_cast card_union_le _ _
    have := hS 1 (by norm_num) k
    have := hS (-1) (by norm_num) k
    linarith
  refine (Nat.cast_le.2 h1).trans (h2.trans (le_of_eq ?_))
  rw [sum_const, card_univ, Fintype.card_fin, nsmul_eq_mul]
  ring

end

/-! ## the draws of a mask -/

section
variable {LOGQ N : Nat} [NeZero LOGQ]

/-- the polynomial with the given numbers as coefficients -/
def polyOf (a : Fin N → Fin (2*2^(LOGQ-1))) : R_Q LOGQ N := fun i => Z_Q.ofNat LOGQ (a i)

theorem lt_of_fin (x : Fin (2*2^(LOGQ-1))) : x.val < 2^LOGQ := by
  exact lt_of_lt_of_eq x.isLt (two_mul_half LOGQ).symm

theorem polyOf_canonical (a : Fin N → Fin (2*2^(LOGQ-1))) (i : Fin N) : (polyOf a i).Canonical := by
  unfold polyOf Canonical
  rw [val_ofNat_of_lt (lt_of_fin _)]
  exact lt_of_fin _

theorem polyOf_sval (a : Fin N → Fin (2*2^(LOGQ-1))) (i : Fin N) : (polyOf a i).sval = centred (2^(LOGQ-1)) (a i) := by
  have hx := lt_of_fin (a i)
  have e2 : (2:Int)^LOGQ = 2 * 2^(LOGQ-1) := by exact_mod_cast two_mul_half LOGQ
  have e3 : (2:Nat)^LOGQ = 2 * 2^(LOGQ-1) := by exact_mod_cast two_mul_half LOGQ
  have hp : (0:Int) < 2^(LOGQ-1) := by positivity
  unfold centred
  push_cast
  refine sval_eq_of_cls ?_ ?_ ?_
  · unfold cls polyOf
    rw [val_ofNat_of_lt hx]
    split_ifs with h
    · push_cast; rfl
    · have : ((2 * 2^(LOGQ-1) : Int) : ZMod (2^LOGQ)) = 0 := by
        rw [← e2]
        have := ZMod.natCast_self (2^LOGQ)
        exact_mod_cast this
      rw [Int.cast_sub, this, sub_zero]
      push_cast; rfl
  · split_ifs with h
    · omega
    · have : (2^(LOGQ-1) : Int) ≤ (a i).val := by exact_mod_cast not_lt.1 h
      linarith
  · split_ifs with h
    · exact_mod_cast h
    · have : ((a i).val : Int) < 2^LOGQ := by exact_mod_cast hx
      linarith

/-- the numbers in a canonical polynomial -/
def numsOf (A : R_Q LOGQ N) (hA : ∀ i, (A i).Canonical) : Fin N → Fin (2*2^(LOGQ-1)) :=
  fun i => ⟨(A i).val, lt_of_lt_of_eq (hA i) (two_mul_half LOGQ)⟩

theorem polyOf_numsOf (A : R_Q LOGQ N) (hA : ∀ i, (A i).Canonical) : polyOf (numsOf A hA) = A := by
  funext i
  refine val_inj ?_
  unfold polyOf numsOf
  rw [val_ofNat_of_lt (hA i)]

theorem polyOf_inj {a b : Fin N → Fin (2*2^(LOGQ-1))} (h : polyOf (LOGQ := LOGQ) a = polyOf b) : a = b := by
  funext i
  have := congrArg Z_Q.val (congrFun h i)
  unfold polyOf at this
  rw [val_ofNat_of_lt (lt_of_fin _), val_ofNat_of_lt (lt_of_fin _)] at this
  exact Fin.ext this

open Classical in
/-- a set of masks has the same proportion among the draws as among the polynomials -/
theorem mask_count (RAND_MAX k : Nat) (hR : RAND_MAX + 1 = 2^k) (hk : 13 ≤ k) (A0 : R_Q LOGQ N) (ρ : Rng) (P : R_Q LOGQ N → Prop) :
    (univ.filter fun t : Fin N → Fin (nlimb LOGQ) → Fin 5 → Fin (RAND_MAX+1) => P (encMask RAND_MAX A0 (maskStream t ρ)).1).card =
      (univ.filter fun a : Fin N → Fin (2*2^(LOGQ-1)) => P (polyOf a)).card *
        (2^((5*k-64) * nlimb LOGQ + (64 * nlimb LOGQ - LOGQ)))^N := by
  have hc : ∀ t : Fin N → Fin (nlimb LOGQ) → Fin 5 → Fin (RAND_MAX+1), ∀ i, ((encMask RAND_MAX A0 (maskStream t ρ)).1 i).Canonical :=
    fun t => encMask_canonical _ _ _
  rw [card_eq_sum_card_fiberwise (f := fun t => numsOf (encMask RAND_MAX A0 (maskStream t ρ)).1 (hc t))
    (t := univ.filter fun a : Fin N → Fin (2*2^(LOGQ-1)) => P (polyOf a)) (fun t ht => by
      simp only [coe_filter, mem_univ, true_and, Set.mem_ofPred_eq] at ht ⊢
      rw [polyOf_numsOf]; exact ht)]
  rw [sum_const_nat]
  intro a ha
  have hP := (mem_filter.1 ha).2
  rw [← C54_mask_uniform RAND_MAX k hR hk A0 ρ (polyOf a) (polyOf_canonical a), filter_filter]
  congr 1
  refine filter_congr fun t _ => ?_
  constructor
  · rintro ⟨_, h⟩
    rw [← h, polyOf_numsOf]
  · intro h
    refine ⟨by rw [h]; exact hP, polyOf_inj (LOGQ := LOGQ) ?_⟩
    rw [polyOf_numsOf, h]

open Classical in
theorem mask_fraction (RAND_MAX k : Nat) (hR : RAND_MAX + 1 = 2^k) (hk : 13 ≤ k) (A0 : R_Q LOGQ N) (ρ : Rng) (P : R_Q LOGQ N → Prop) {f : ℝ}
    (h : ((univ.filter fun a : Fin N → Fin (2*2^(LOGQ-1)) => P (polyOf a)).card : ℝ) ≤ f * ((2*2^(LOGQ-1) : ℕ):ℝ)^N) :
    ((univ.filter fun t : Fin N → Fin (nlimb LOGQ) → Fin 5 → Fin (RAND_MAX+1) => P (encMask RAND_MAX A0 (maskStream t ρ)).1).card : ℝ) ≤
      f * Fintype.card (Fin N → Fin (nlimb LOGQ) → Fin 5 → Fin (RAND_MAX+1)) := by
  have h1 := mask_count RAND_MAX k hR hk A0 ρ (fun _ => True)
  simp only [filter_true, card_univ] at h1
  rw [mask_count RAND_MAX k hR hk A0 ρ P, h1, Fintype.card_fun, Fintype.card_fin, Fintype.card_fin]
  push_cast at h ⊢
  rw [← mul_assoc]
  exact mul_le_mul_of_nonneg_right h (by positivity)

end

/-! ## the key is drawn before -/

section
variable {N : Nat} [NeZero N]

theorem keygenStep_local (s : Fin N → Int) (ω : Rng) {r : (Fin N → Int) × Rng} (h : keygenStep (s, ω) = pure r) :
    ∃ c, ∀ ω2 : Rng, (∀ n, n < c → ω2 n = ω n) → keygenStep (s, ω2) = pure (r.1, ω2.drop c) := by
  classical
  by_cases hf : ∃ n, s (Fin.ofNat N (ω n)) = 0
  · let m := Nat.find hf
    have hm : s (Fin.ofNat N (ω m)) = 0 := Nat.find_spec hf
    have hlt : ∀ j, j < m → s (Fin.ofNat N (ω j)) ≠ 0 := fun j hj => Nat.find_min hf hj
    have key : ∀ ω2 : Rng, (∀ n, n < m + 2 → ω2 n = ω n) → keygenStep (s, ω2) =
        pure (Function.update s (Fin.ofNat N (ω m)) (if ω (m+1) % 2 = 0 then 1 else -1), ω2.drop (m+2)) := by
      intro ω2 h2
      have hw : ∀ d j, j + d = m → whileM (fun p : Fin N × Rng => s p.1 != 0)
          (fun p => pure (Fin.ofNat N (p.2 0), p.2.next)) (Fin.ofNat N (ω2 j), ω2.drop (j+1)) =
          pure (Fin.ofNat N (ω2 m), ω2.drop (m+1)) := by
        intro d
        induction d with
        | zero =>
          intro j hj
          obtain rfl : j = m := by omega
          refine whileM_false ?_
          simp only []
          rw [h2 _ (by omega), hm]; rfl
        | succ d ih =>
          intro j hj
          rw [whileM_true, pure_bind]
          · have e1 : (ω2.drop (j+1)) 0 = ω2 (j+1) := rfl
            have e2 : (ω2.drop (j+1)).next = ω2.drop (j+1+1) := by
              funext n; unfold Rng.next Rng.drop; congr 1; omega
            simp only [e1, e2]
            exact ih (j+1) (by omega)
          · simp only [bne_iff_ne, ne_eq]
            rw [h2 _ (by omega)]
            exact hlt j (by omega)
      unfold keygenStep
      simp only []
      have e0 : ω2.next = ω2.drop (0+1) := by
        funext n; unfold Rng.next Rng.drop; congr 1; omega
      rw [e0, hw m 0 (by omega), pure_bind]
      have e1 : (ω2.drop (m+1)) 0 = ω (m+1) := by
        rw [← h2 _ (by omega)]; rfl
      have e2 : (ω2.drop (m+1)).next = ω2.drop (m+2) := by
        funext n; unfold Rng.next Rng.drop; congr 1; omega
      simp only [e1, e2]
      rw [h2 m (by omega)]
    refine ⟨m+2, fun ω2 h2 => ?_⟩
    have e := pure_inj ((key ω fun _ _ => rfl).symm.trans h)
    rw [key ω2 h2, ← e]
  · rw [keygenStep_of_not_free s ω hf] at h
    exact absurd h (diverge_ne_pure _)

theorem keygen_local' (c lo : Nat) (s : Fin N → Int) (ω : Rng) {r : (Fin N → Int) × Rng}
    (h : forFrom (fun _ st => keygenStep st) lo c (s, ω) = pure r) :
    ∃ d, ∀ ω2 : Rng, (∀ n, n < d → ω2 n = ω n) → forFrom (fun _ st => keygenStep st) lo c (s, ω2) = pure (r.1, ω2.drop d) := by
  induction c generalizing lo s ω with
  | zero =>
    refine ⟨0, fun ω2 _ => ?_⟩
    cases pure_inj h
    rw [Rng.drop_zero]; rfl
  | succ c ih =>
    unfold forFrom at h
    by_cases hf : ∃ n, s (Fin.ofNat N (ω n)) = 0
    · obtain ⟨m, v, _, _, e⟩ := keygenStep_of_free s ω hf
      obtain ⟨c1, h1⟩ := keygenStep_local s ω e
      have e' := h1 ω fun _ _ => rfl
      rw [e', pure_bind] at h
      obtain ⟨c2, h2⟩ := ih _ _ _ h
      refine ⟨c1 + c2, fun ω2 ho => ?_⟩
      unfold forFrom
      rw [h1 ω2 fun n hn => ho n (by omega), pure_bind, h2 (ω2.drop c1) fun n hn => ho _ (by omega), Rng.drop_drop]
    · rw [keygenStep_of_not_free s ω hf] at h
      exact absurd h (diverge_ne_pure _)

/-- the first `c` numbers of `ω`, then `σ` -/
def splice (c : Nat) (ω σ : Rng) : Rng := fun n => if n < c then ω n else σ (n - c)

/-- `keygen` depends on finitely many draws -/
theorem keygen_local (H : Int) (ω : Rng) {s : Fin N → Int} {ω1 : Rng} (h : keygen N H ω = pure (s, ω1)) :
    ∃ c, ∀ σ : Rng, keygen N H (splice c ω σ) = pure (s, σ) := by
  unfold keygen forUp at h
  obtain ⟨c, hc⟩ := keygen_local' _ _ _ _ h
  refine ⟨c, fun σ => ?_⟩
  unfold keygen forUp
  rw [hc _ fun n hn => by unfold splice; rw [if_pos hn]]
  congr 2
  funext n
  unfold splice Rng.drop
  simp only []
  rw [if_neg (by omega)]
  congr 1; omega

end

end EvalRound

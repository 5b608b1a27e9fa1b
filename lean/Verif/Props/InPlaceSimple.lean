import Verif.Model.InPlaceSimple
import Verif.Props.Endecode

/-!
# C115: products and rotations of simple plaintexts whose result is also an operand
-/

namespace EvalRound
open Finset

section
variable {N : Nat}

theorem tabM_inv {α : Type _} {n : Nat} {f : Nat → M α} {g : Fin n → α} (h : tabM n f = pure g) (i : Fin n) : f i = pure (g i) := by
  induction n with
  | zero => exact i.elim0
  | succ n ih =>
    rw [tabM] at h
    obtain ⟨a, ea, h⟩ := bind_eq_pure h
    obtain ⟨x, ex, h⟩ := bind_eq_pure h
    have hg := pure_inj h
    rw [← hg]
    beta_reduce
    by_cases hi : i.val < n
    · rw [dif_pos hi]
      exact ih ea ⟨i, hi⟩
    · rw [dif_neg hi, show i.val = n by omega, ex]

theorem simple_convCoeff_eq (a b : Fin N → ℝ) {i : Nat} (hi : i < N) : Simple.convCoeff a b i = pure (negconv a b ⟨i, hi⟩) :=
  tabM_inv (simple_conv_eq a b) ⟨i, hi⟩

/-- C115: what `conv(pt1,pt2,pt1)` computes. Coefficient `i` is that of the product of `b` with the array whose first `i` entries are
already results. -/
theorem C115_conv (a b : Fin N → ℝ) :
    Ok (Simple.convOver1 a b) fun c => ∀ i, c i = negconv (fun k => if k < i then c k else a k) b i := by
  unfold Simple.convOver1
  refine Ok.mono (forUp_inv (P := fun n (d : Fin N → ℝ) => (∀ i : Fin N, i.val < n → d i = negconv (fun k => if k < i then d k else a k) b i) ∧
    ∀ i : Fin N, n ≤ i.val → d i = a i) (Nat.zero_le N) ⟨fun i h => absurd h (by omega), fun i _ => rfl⟩ fun n d _ hn ⟨hd, ha⟩ => ?_)
    fun c hc i => hc.1 i i.isLt
  rw [simple_convCoeff_eq d b hn, pure_bind, wr_of_lt _ hn]
  refine Ok.pure ⟨fun i hi => ?_, fun i hi => ?_⟩
  · by_cases e : i = ⟨n, hn⟩
    · subst e
      rw [Function.update_self]
      congr 1
      funext k
      by_cases hk : k < ⟨n, hn⟩
      · rw [if_pos hk, Function.update_of_ne hk.ne]
      · rw [if_neg hk]
        exact ha k (not_lt.1 hk)
    · have hin : i.val < n := by
        have : i.val ≠ n := fun h => e (Fin.ext h)
        omega
      rw [Function.update_of_ne e, hd i hin]
      congr 1
      funext k
      by_cases hk : k < i
      · have hkn : k ≠ ⟨n, hn⟩ := fun h => by
          have : k.val < i.val := hk
          rw [h] at this
          exact absurd this (by simp only []; omega)
        rw [if_pos hk, if_pos hk, Function.update_of_ne hkn]
      · rw [if_neg hk, if_neg hk]
  · rw [Function.update_of_ne (fun h => by rw [h] at hi; exact absurd hi (by simp only []; omega))]
    exact ha i (by omega)

/-- C115: `conv(pt1,pt2,pt2)` is `conv(pt2,pt1,pt2)`. -/
theorem C115_conv_second (a b : Fin N → ℝ) : Simple.convOver2 a b = Simple.convOver1 b a := by
  have key : ∀ (f g : Nat → (Fin N → ℝ) → M (Fin N → ℝ)) (hfg : ∀ i d, i < N → f i d = g i d) (x : Fin N → ℝ),
      (∀ i d, i < N → Ok (g i d) fun _ => True) → forUp 0 N f x = forUp 0 N g x := fun f g hfg x hg => by
    have h : ∀ c lo, lo + c ≤ N → ∀ x, forFrom f lo c x = forFrom g lo c x := fun c => by
      induction c with
      | zero => intro lo _ x; rfl
      | succ c ih =>
        intro lo hl x
        rw [forFrom, forFrom, hfg lo x (by omega)]
        congr 1
        funext y
        exact ih (lo + 1) (by omega) y
    unfold forUp
    exact h _ _ (by omega) x
  unfold Simple.convOver2 Simple.convOver1
  refine key _ _ (fun i d hi => ?_) b fun i d hi => ?_
  · rw [simple_convCoeff_eq _ _ hi, simple_convCoeff_eq _ _ hi, negconv_comm]
  · rw [simple_convCoeff_eq _ _ hi, pure_bind, wr_of_lt _ hi]
    exact Ok.pure trivial

theorem negconv_const (x b : Fin N → ℝ) (hb : ∀ j : Fin N, j.val ≠ 0 → b j = 0) (i : Fin N) :
    negconv x b i = x i * b ⟨0, by have := i.isLt; omega⟩ := by
  unfold negconv
  rw [sum_eq_single i]
  · rw [dif_pos le_rfl]
    congr 2
    exact Fin.ext (Nat.sub_self _)
  · intro j _ hj
    have hv : j.val ≠ i.val := fun h => hj (Fin.ext h)
    by_cases h : j ≤ i
    · have h' : j.val ≤ i.val := h
      rw [dif_pos h, hb _ (by simp only []; omega), mul_zero]
    · have h' : ¬ j.val ≤ i.val := h
      rw [dif_neg h, hb _ (by simp only []; omega), mul_zero, neg_zero]
  · exact fun h => absurd (mem_univ _) h

/-- C115: `conv(pt1,pt2,pt1)` is right for every `pt1` exactly when `pt2` is constant. -/
theorem C115_conv_iff (b : Fin N → ℝ) :
    (∀ a, Simple.convOver1 a b = Simple.conv a b) ↔ ∀ j : Fin N, j.val ≠ 0 → b j = 0 := by
  constructor
  · intro h
    by_contra hne
    have hex : ∃ n : Nat, n ≠ 0 ∧ ∃ hn : n < N, b ⟨n, hn⟩ ≠ 0 := by
      by_contra hcon
      refine hne fun j hj => ?_
      by_contra hb
      exact hcon ⟨j, hj, j.isLt, hb⟩
    classical
    obtain ⟨j, ⟨hj0, hjN, hbj⟩, hmin⟩ : ∃ j : Nat, (j ≠ 0 ∧ ∃ hn : j < N, b ⟨j, hn⟩ ≠ 0) ∧
        ∀ k : Fin N, k.val ≠ 0 → k.val < j → b k = 0 := by
      refine ⟨Nat.find hex, Nat.find_spec hex, fun k hk hkj => ?_⟩
      by_contra hb
      exact Nat.find_min hex hkj ⟨hk, k.isLt, hb⟩
    set a : Fin N → ℝ := fun k => if k.val = N - j then 1 else 0 with ha
    obtain ⟨c, ec, hc⟩ := C115_conv a b
    have hca : c = negconv a b := by
      have := h a
      rw [ec, simple_conv_eq] at this
      exact pure_inj this
    have hc0 : c ⟨0, by omega⟩ = - b ⟨j, hjN⟩ := by
      rw [hca]
      unfold negconv
      rw [sum_eq_single (⟨N - j, by omega⟩ : Fin N)]
      · rw [dif_neg (by intro h0; have : N - j ≤ 0 := h0; omega), ha]
        simp only [if_true, one_mul]
        congr 2
        exact Fin.ext (by simp only []; omega)
      · intro k _ hk
        have : a k = 0 := by
          rw [ha]
          exact if_neg fun h => hk (Fin.ext h)
        rw [this]
        split <;> simp
      · exact fun h => absurd (mem_univ _) h
    have h1 := hc ⟨j, hjN⟩
    have h2 := congrFun hca ⟨j, hjN⟩
    rw [h2] at h1
    have h3 : negconv (fun k => if k < ⟨j, hjN⟩ then c k else a k) b ⟨j, hjN⟩ - negconv a b ⟨j, hjN⟩ =
        (c ⟨0, by omega⟩ - a ⟨0, by omega⟩) * b ⟨j, hjN⟩ := by
      unfold negconv
      beta_reduce
      rw [← sum_sub_distrib, sum_eq_single (⟨0, by omega⟩ : Fin N)]
      · have hz : (⟨0, by omega⟩ : Fin N) < ⟨j, hjN⟩ := Nat.pos_of_ne_zero hj0
        rw [dif_pos hz.le, dif_pos hz.le, if_pos hz, ← sub_mul]
        rfl
      · intro k _ hk
        have hk0 : k.val ≠ 0 := fun h => hk (Fin.ext h)
        by_cases hkj : k < ⟨j, hjN⟩
        · have hkv : k.val < j := hkj
          rw [dif_pos hkj.le, dif_pos hkj.le, hmin _ (by simp only []; omega) (by simp only []; omega), mul_zero, mul_zero, sub_zero]
        · rw [if_neg hkj, sub_self]
      · exact fun h => absurd (mem_univ _) h
    have ha0 : a ⟨0, by omega⟩ = 0 := by
      rw [ha]
      exact if_neg (by simp only []; omega)
    rw [← h1, sub_self, hc0, ha0, sub_zero] at h3
    have : b ⟨j, hjN⟩ * b ⟨j, hjN⟩ = 0 := by linarith
    exact hbj (mul_self_eq_zero.1 this)
  · intro hb a
    obtain ⟨c, ec, hc⟩ := C115_conv a b
    rw [ec, simple_conv_eq]
    congr 1
    funext i
    rw [hc i, negconv_const _ _ hb, negconv_const _ _ hb, if_neg (lt_irrefl i)]

/-- C115: `conv(pt,X,pt)` fills the array with the negated last coefficient; into another object it shifts the coefficients. -/
theorem C115_conv_X (hN : 2 ≤ N) (a : Fin N → ℝ) :
    Ok (Simple.convOver1 a fun k => if k.val = 1 then 1 else 0) fun c => ∀ i, c i = - a ⟨N - 1, by omega⟩ := by
  have hX : ∀ (x : Fin N → ℝ) (i : Fin N), negconv x (fun k : Fin N => if k.val = 1 then (1:ℝ) else 0) i =
      if h : i.val = 0 then - x ⟨N - 1, by omega⟩ else x ⟨i - 1, by omega⟩ := fun x i => by
    unfold negconv
    beta_reduce
    by_cases h : i.val = 0
    · rw [dif_pos h, sum_eq_single (⟨N - 1, by omega⟩ : Fin N)]
      · rw [dif_neg (by intro h0; have : N - 1 ≤ i.val := h0; omega), if_pos (by simp only []; omega), mul_one]
      · intro k _ hk
        have hk0 : k.val ≠ N - 1 := fun h => hk (Fin.ext h)
        by_cases hki : k ≤ i
        · have : k.val ≤ i.val := hki
          rw [dif_pos hki, if_neg (by simp only []; omega), mul_zero]
        · rw [dif_neg hki, if_neg (by simp only []; omega), mul_zero, neg_zero]
      · exact fun h => absurd (mem_univ _) h
    · rw [dif_neg h, sum_eq_single (⟨i - 1, by omega⟩ : Fin N)]
      · rw [dif_pos (by show i.val - 1 ≤ i.val; omega), if_pos (by simp only []; omega), mul_one]
      · intro k _ hk
        have hk0 : k.val ≠ i.val - 1 := fun h => hk (Fin.ext h)
        by_cases hki : k ≤ i
        · have : k.val ≤ i.val := hki
          rw [dif_pos hki, if_neg (by simp only []; omega), mul_zero]
        · have : ¬ k.val ≤ i.val := hki
          rw [dif_neg hki, if_neg (by simp only []; omega), mul_zero, neg_zero]
      · exact fun h => absurd (mem_univ _) h
  refine Ok.mono (C115_conv a _) fun c hc i => ?_
  obtain ⟨i, hi⟩ := i
  induction i with
  | zero =>
    rw [hc, hX, dif_pos rfl, if_neg (by intro h; exact absurd (show N - 1 < 0 from h) (by omega))]
  | succ i ih =>
    rw [hc, hX, dif_neg (by simp), if_pos (Fin.mk_lt_mk.2 (show i + 1 - 1 < i + 1 by omega))]
    exact ih (by omega)

end

section
variable {k : Nat}

theorem rotateOnceOver_inv {N : Nat} (hN : 10 * N ≤ INT_MAX) (hN1 : 1 ≤ N) (a : Fin N → ℝ) (R : Nat → (Fin N → ℝ) → Prop) (h0 : R 0 a)
    (hs : ∀ n (hn : n < N) d, R n d → R (n + 1) (Function.update d ⟨5 * n % N, Nat.mod_lt _ hN1⟩
      (if 5 * n / N % 2 = 1 then - d ⟨n, hn⟩ else d ⟨n, hn⟩))) :
    Ok (Simple.rotateOnceOver a) fun b => R N b := by
  unfold Simple.rotateOnceOver
  refine forUp_inv (P := R) (Nat.zero_le N) h0 fun n d _ hn hd => ?_
  have h := hs n hn d hd
  rw [idxM_ok (by omega), pure_bind, rd_of_lt _ hn, pure_bind, wr_of_lt _ (Nat.mod_lt _ hN1), pure_bind]
  by_cases hq : 5 * n / N % 2 = 1
  · rw [if_pos hq] at h ⊢
    rw [rd_of_lt _ (Nat.mod_lt _ hN1), pure_bind, wr_of_lt _ (Nat.mod_lt _ hN1), Function.update_self, Function.update_idem]
    exact Ok.pure h
  · rw [if_neg hq] at h ⊢
    exact Ok.pure h

/-- C115: `rotate_once(pt,pt)` is right for every `pt` exactly when `N` is at most 4. -/
theorem C115_rotate_once_iff (hk : k ≤ 27) (r0 : Fin (2^k) → ℝ) :
    (∀ a : Fin (2^k) → ℝ, Simple.rotateOnceOver a = Simple.rotate_once a r0) ↔ k ≤ 2 := by
  have hN : 10 * 2^k ≤ INT_MAX := by
    have : 2^k ≤ 2^27 := Nat.pow_le_pow_right (by norm_num) hk
    have : INT_MAX = 2147483647 := by decide
    omega
  have hg : ∀ j j' : Fin (2^k), 5 * j.val % 2^k = 5 * j'.val % 2^k → j = j' :=
    fun j j' e => pos_inj_of_coprime (odd_coprime k (by norm_num)) j j' e
  have hN1 : 1 ≤ 2^k := Nat.one_le_two_pow
  have hsg : ∀ n, 5 * n / 2^k % 2 = 1 ↔ ¬ (5 * n % (2 * 2^k) < 2^k) := fun n => by
    rw [Nat.mul_comm 2 (2^k), Nat.mod_mul]
    have := Nat.mod_lt (5 * n) hN1
    rcases Nat.mod_two_eq_zero_or_one (5 * n / 2^k) with h | h <;> rw [h] <;> simp
    omega
  constructor
  · intro h
    by_contra hk3
    have h8 : 8 ≤ 2^k := by
      have : 2^3 ≤ 2^k := Nat.pow_le_pow_right (by norm_num) (by omega)
      omega
    have h5 : 5 * 1 % 2^k = 5 := Nat.mod_eq_of_lt (by omega)
    obtain ⟨b, eb, hb⟩ := rotateOnceOver_inv hN hN1 (fun i : Fin (2^k) => if i.val = 1 then (1:ℝ) else 0)
      (fun n d => (n ≤ 1 → d ⟨1, by omega⟩ = 1) ∧ (1 < n → n ≤ 5 → |d ⟨5, by omega⟩| = 1) ∧
        (5 < n → |d ⟨5 * 5 % 2^k, Nat.mod_lt _ hN1⟩| = 1)) ⟨fun _ => by simp, fun h => absurd h (by omega), fun h => absurd h (by omega)⟩
      (fun n hn d ⟨d1, d2, d3⟩ => by
        have hne : ∀ m (hm : m < 2^k), n ≠ m → (⟨5 * m % 2^k, Nat.mod_lt _ hN1⟩ : Fin (2^k)) ≠ ⟨5 * n % 2^k, Nat.mod_lt _ hN1⟩ :=
          fun m hm hnm e => hnm (Fin.ext_iff.1 (hg ⟨m, hm⟩ ⟨n, hn⟩ (Fin.ext_iff.1 e))).symm
        have e5 : (⟨5, by omega⟩ : Fin (2^k)) = ⟨5 * 1 % 2^k, Nat.mod_lt _ hN1⟩ := Fin.ext h5.symm
        have habs : ∀ (p : Prop) [Decidable p] (x : ℝ), |if p then -x else x| = |x| := fun p _ x => by
          split
          · exact abs_neg x
          · rfl
        refine ⟨fun h1 => ?_, fun h1 h2 => ?_, fun h1 => ?_⟩
        · have hn0 : n = 0 := by omega
          subst hn0
          rw [Function.update_of_ne (fun e => by have := Fin.ext_iff.1 e; simp at this)]
          exact d1 (by omega)
        · by_cases hn1 : n = 1
          · subst hn1
            rw [e5, Function.update_self, habs, d1 le_rfl, abs_one]
          · rw [e5, Function.update_of_ne (hne 1 (by omega) hn1), ← e5]
            exact d2 (by omega) (by omega)
        · by_cases hn5 : n = 5
          · subst hn5
            rw [Function.update_self, habs]
            exact d2 (by omega) le_rfl
          · rw [Function.update_of_ne (hne 5 (by omega) hn5)]
            exact d3 (by omega))
    have hb3 := hb.2.2 (by omega)
    have e := h (fun i : Fin (2^k) => if i.val = 1 then (1:ℝ) else 0)
    rw [eb, rotate_once_eq hN hN1 hg] at e
    rw [pure_inj e, autom_at hg _ ⟨5, by omega⟩ _ rfl] at hb3
    simp at hb3
  · intro h a
    rw [rotate_once_eq hN hN1 hg]
    have hfix : ∀ n, n < 2^k → 5 * n % 2^k = n := by
      interval_cases k <;> intro n hn <;> omega
    obtain ⟨b, eb, hb⟩ := rotateOnceOver_inv hN hN1 a
      (fun n d => ∀ i : Fin (2^k), d i = if i.val < n then autom 5 a i else a i) (fun i => by rw [if_neg (by omega)])
      (fun n hn d hd i => by
        have e5 : (⟨5 * n % 2^k, Nat.mod_lt _ hN1⟩ : Fin (2^k)) = ⟨n, hn⟩ := Fin.ext (hfix n hn)
        rw [e5]
        by_cases hi : i = ⟨n, hn⟩
        · subst hi
          rw [Function.update_self, if_pos (Nat.lt_succ_self n), autom_at hg a ⟨n, hn⟩ ⟨n, hn⟩ (hfix n hn), hd, if_neg (lt_irrefl n)]
          by_cases hq : 5 * n / 2^k % 2 = 1
          · rw [if_pos hq, if_neg ((hsg n).1 hq)]
          · rw [if_neg hq, if_pos (not_not.1 fun h => hq ((hsg n).2 h))]
        · have hv : i.val ≠ n := fun h => hi (Fin.ext h)
          rw [Function.update_of_ne hi, hd]
          by_cases hlt : i.val < n
          · rw [if_pos hlt, if_pos (by omega)]
          · rw [if_neg hlt, if_neg (by omega)])
    rw [eb]
    congr 1
    funext i
    rw [hb, if_pos i.isLt]

/-- C115: `rotate(pt,pt,r)` is right for every `pt` and `r`: it works on a copy. -/
theorem C115_rotate (hk : k ≤ 27) (a : Fin (2^k) → ℝ) (r : Nat) : Simple.rotateOver a r = Simple.rotate a r := by
  have hN : 10 * 2^k ≤ INT_MAX := by
    have : 2^k ≤ 2^27 := Nat.pow_le_pow_right (by norm_num) hk
    have : INT_MAX = 2147483647 := by decide
    omega
  have hg : ∀ j j' : Fin (2^k), 5 * j.val % 2^k = 5 * j'.val % 2^k → j = j' :=
    fun j j' e => pos_inj_of_coprime (odd_coprime k (by norm_num)) j j' e
  have hcopy : ∀ s d : Fin (2^k) → ℝ, Simple.copyLoop s d = pure s := fun s d => by
    unfold Simple.copyLoop
    obtain ⟨v, e, hv⟩ := forUp_inv (body := fun i (d : Fin (2^k) → ℝ) => do
        let x ← rd s i
        wr d i x) (s := d) (P := fun n (d : Fin (2^k) → ℝ) => ∀ i : Fin (2^k), i.val < n → d i = s i) (Nat.zero_le (2^k))
      (fun i h => absurd h (by omega)) fun n d _ hn hd => by
        rw [rd_of_lt _ hn, pure_bind, wr_of_lt _ hn]
        refine Ok.pure fun i hi => ?_
        by_cases e : i = ⟨n, hn⟩
        · subst e
          rw [Function.update_self]
        · have hv : i.val ≠ n := fun h => e (Fin.ext h)
          rw [Function.update_of_ne e]
          exact hd i (by omega)
    rw [e]
    congr 1
    exact funext fun i => hv i i.isLt
  rw [rotate_eq hk]
  have : Ok (Simple.rotateOver a r) fun b => b = autom (5^r) a := by
    unfold Simple.rotateOver
    refine Ok.bind (forUp_inv (P := fun _ d => d = a) (Nat.zero_le (2^k)) rfl fun n d _ hn hd => ?_) fun d hd => ?_
    · rw [rd_of_lt _ hn, pure_bind, wr_of_lt _ hn, Function.update_eq_self]
      exact Ok.pure hd
    · rw [hd]
      refine Ok.bind (forUp_inv (P := fun n (st : (Fin (2^k) → ℝ) × (Fin (2^k) → ℝ)) => st.2 = autom (5^n) a) (Nat.zero_le r)
        (by rw [pow_zero, autom_one]) fun n st _ _ hst => ?_) fun st hst => Ok.pure hst
      rw [hcopy, pure_bind, rotate_once_eq hN Nat.one_le_two_pow hg, pure_bind]
      refine Ok.pure ?_
      show autom 5 st.2 = _
      rw [hst, autom_autom (by norm_num), pow_succ, mul_comm]
  obtain ⟨v, e, rfl⟩ := this
  exact e

end

/-- A call that is right and one that is not: the factor 3, and the factor `X`, in degree 4. -/
example : (∀ a, Simple.convOver1 a (fun k : Fin 4 => if k.val = 0 then 3 else 0) = Simple.conv a fun k => if k.val = 0 then 3 else 0) ∧
    ¬ ∀ a, Simple.convOver1 a (fun k : Fin 4 => if k.val = 1 then 1 else 0) = Simple.conv a fun k => if k.val = 1 then 1 else 0 := by
  refine ⟨(C115_conv_iff _).2 fun j hj => if_neg hj, fun h => ?_⟩
  have := (C115_conv_iff _).1 h 1 (by decide)
  norm_num at this

/-- The ring degree of the experiments, 2^15, is one where `rotate_once` in place is wrong. -/
example (r0 : Fin (2^15) → ℝ) : ∃ a : Fin (2^15) → ℝ, Simple.rotateOnceOver a ≠ Simple.rotate_once a r0 := by
  by_contra h
  push Not at h
  exact absurd ((C115_rotate_once_iff (by norm_num) r0).1 h) (by norm_num)

end EvalRound

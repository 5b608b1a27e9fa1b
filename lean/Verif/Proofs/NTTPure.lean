import Verif.Proofs.Util
import Verif.Spec.Negacyclic
import Mathlib.Algebra.BigOperators.Ring.Finset
import Mathlib.Algebra.BigOperators.Intervals
import Mathlib.Tactic.LinearCombination
import Mathlib.Algebra.Field.Basic

/-! # The butterfly network over a commutative ring -/

namespace EvalRound
open Finset

variable {F : Type*} [CommRing F]

/-- value at `y` of the polynomial with coefficients `f 0 .. f (n-1)` -/
def pev (f : Nat → F) (n : Nat) (y : F) : F := ∑ j ∈ range n, f j * y^j

/-- one forward stage: half block length `t`, twiddle `S i` for block `i` -/
def fwdStage (t : Nat) (S : Nat → F) (f : Nat → F) : Nat → F := fun x =>
  if x % (2*t) < t then f x + f (x+t) * S (x / (2*t)) else f (x-t) - f x * S (x / (2*t))

/-- one backward stage -/
def bwdStage (t : Nat) (S : Nat → F) (f : Nat → F) : Nat → F := fun x =>
  if x % (2*t) < t then f x + f (x+t) else (f (x-t) - f x) * S (x / (2*t))

theorem block_lo {t i j : Nat} (hj : j < t) : (i*(2*t) + j) % (2*t) = j ∧ (i*(2*t) + j) / (2*t) = i := by
  have : 0 < 2*t := by omega
  constructor
  · rw [Nat.mul_comm, Nat.mul_add_mod]; exact Nat.mod_eq_of_lt (by omega)
  · rw [Nat.mul_comm, Nat.mul_add_div this, Nat.div_eq_of_lt (by omega), Nat.add_zero]

theorem block_hi {t i j : Nat} (hj : j < t) :
    (i*(2*t) + t + j) % (2*t) = t + j ∧ (i*(2*t) + t + j) / (2*t) = i := by
  have : 0 < 2*t := by omega
  rw [Nat.add_assoc]
  constructor
  · rw [Nat.mul_comm, Nat.mul_add_mod]; exact Nat.mod_eq_of_lt (by omega)
  · rw [Nat.mul_comm, Nat.mul_add_div this, Nat.div_eq_of_lt (by omega), Nat.add_zero]

theorem fwd_lo (t : Nat) (S f : Nat → F) {i j : Nat} (hj : j < t) :
    fwdStage t S f (i*(2*t) + j) = f (i*(2*t) + j) + f (i*(2*t) + t + j) * S i := by
  obtain ⟨h1, h2⟩ := block_lo (i := i) hj
  unfold fwdStage
  rw [h1, h2, if_pos hj, show i*(2*t) + j + t = i*(2*t) + t + j by omega]

theorem fwd_hi (t : Nat) (S f : Nat → F) {i j : Nat} (hj : j < t) :
    fwdStage t S f (i*(2*t) + t + j) = f (i*(2*t) + j) - f (i*(2*t) + t + j) * S i := by
  obtain ⟨h1, h2⟩ := block_hi (i := i) hj
  unfold fwdStage
  rw [h1, h2, if_neg (by omega), show i*(2*t) + t + j - t = i*(2*t) + j by omega]

theorem bwd_lo (t : Nat) (S f : Nat → F) {i j : Nat} (hj : j < t) :
    bwdStage t S f (i*(2*t) + j) = f (i*(2*t) + j) + f (i*(2*t) + t + j) := by
  obtain ⟨h1, h2⟩ := block_lo (i := i) hj
  unfold bwdStage
  rw [h1, if_pos hj, show i*(2*t) + j + t = i*(2*t) + t + j by omega]

theorem bwd_hi (t : Nat) (S f : Nat → F) {i j : Nat} (hj : j < t) :
    bwdStage t S f (i*(2*t) + t + j) = (f (i*(2*t) + j) - f (i*(2*t) + t + j)) * S i := by
  obtain ⟨h1, h2⟩ := block_hi (i := i) hj
  unfold bwdStage
  rw [h1, h2, if_neg (by omega), show i*(2*t) + t + j - t = i*(2*t) + j by omega]

/-- every index is in the low or high half of a block -/
theorem block_cases {t : Nat} (ht : 0 < t) (x : Nat) :
    (∃ i j, j < t ∧ x = i*(2*t) + j) ∨ (∃ i j, j < t ∧ x = i*(2*t) + t + j) := by
  have h1 := Nat.div_add_mod x (2*t)
  have h2 := Nat.mod_lt x (show 0 < 2*t by omega)
  rw [Nat.mul_comm] at h1
  by_cases h : x % (2*t) < t
  · left; exact ⟨x/(2*t), x%(2*t), h, h1.symm⟩
  · right; exact ⟨x/(2*t), x%(2*t) - t, by omega, by omega⟩

/-- a backward stage undoes a forward stage, up to a factor 2, on the blocks where the twiddles
are inverse to each other -/
theorem bwd_fwd {t : Nat} (ht : 0 < t) {S S' f : Nat → F} {x m : Nat} (hx : x < m * (2*t))
    (hS : ∀ i, i < m → S i * S' i = 1) :
    bwdStage t S' (fwdStage t S f) x = 2 * f x := by
  rcases block_cases ht x with ⟨i, j, hj, rfl⟩ | ⟨i, j, hj, rfl⟩
  · rw [bwd_lo _ _ _ hj, fwd_lo _ _ _ hj, fwd_hi _ _ _ hj]; ring
  · rw [bwd_hi _ _ _ hj, fwd_lo _ _ _ hj, fwd_hi _ _ _ hj]
    have hi : i < m := by
      by_contra h
      have := Nat.mul_le_mul_right (2*t) (Nat.not_lt.1 h)
      omega
    linear_combination 2 * f (i*(2*t)+t+j) * hS i hi

theorem bwd_congr {t : Nat} (ht : 0 < t) {S f g : Nat → F} {m : Nat}
    (h : ∀ x, x < m * (2*t) → f x = g x) {x : Nat} (hx : x < m * (2*t)) :
    bwdStage t S f x = bwdStage t S g x := by
  have key : ∀ i j, j < t → i*(2*t) + j < m * (2*t) → i*(2*t) + t + j < m*(2*t) := by
    intro i j hj h1
    have hi : i < m := by
      by_contra h
      have := Nat.mul_le_mul_right (2*t) (Nat.not_lt.1 h)
      omega
    have := Nat.mul_le_mul_right (2*t) (Nat.succ_le_of_lt hi)
    rw [Nat.succ_mul] at this
    omega
  rcases block_cases ht x with ⟨i, j, hj, rfl⟩ | ⟨i, j, hj, rfl⟩
  · rw [bwd_lo _ _ _ hj, bwd_lo _ _ _ hj, h _ hx, h _ (key i j hj hx)]
  · rw [bwd_hi _ _ _ hj, bwd_hi _ _ _ hj, h _ hx, h (i*(2*t)+j) (by omega)]

theorem bwd_smul (t : Nat) (S f : Nat → F) (c : F) (x : Nat) :
    bwdStage t S (fun x => c * f x) x = c * bwdStage t S f x := by
  unfold bwdStage
  split <;> ring

theorem fwd_congr {t : Nat} (ht : 0 < t) {S f g : Nat → F} {m : Nat}
    (h : ∀ x, x < m * (2*t) → f x = g x) {x : Nat} (hx : x < m * (2*t)) :
    fwdStage t S f x = fwdStage t S g x := by
  have key : ∀ i j, j < t → i*(2*t) + j < m * (2*t) → i*(2*t) + t + j < m*(2*t) := by
    intro i j hj h1
    have hi : i < m := by
      by_contra h
      have := Nat.mul_le_mul_right (2*t) (Nat.not_lt.1 h)
      omega
    have := Nat.mul_le_mul_right (2*t) (Nat.succ_le_of_lt hi)
    rw [Nat.succ_mul] at this
    omega
  rcases block_cases ht x with ⟨i, j, hj, rfl⟩ | ⟨i, j, hj, rfl⟩
  · rw [fwd_lo _ _ _ hj, fwd_lo _ _ _ hj, h _ hx, h _ (key i j hj hx)]
  · rw [fwd_hi _ _ _ hj, fwd_hi _ _ _ hj, h _ hx, h (i*(2*t)+j) (by omega)]

variable (k : Nat) (psi ipsi : F)

/-- twiddle table -/
def tw (psi : F) (k : Nat) (x : Nat) : F := psi ^ bitRev k x

/-- the first `s` forward stages for length `2^k` -/
def fwdN (k : Nat) (psi : F) : Nat → (Nat → F) → (Nat → F)
  | 0, f => f
  | s+1, f => fwdStage (2^(k-s-1)) (fun i => tw psi k (2^s+i)) (fwdN k psi s f)

/-- the backward stages with half block lengths `1, 2, .., 2^(s-1)` -/
def bwdN (k : Nat) (ipsi : F) : Nat → (Nat → F) → (Nat → F)
  | 0, f => f
  | s+1, f => bwdStage (2^s) (fun i => tw ipsi k (2^(k-s-1)+i)) (bwdN k ipsi s f)

/-- the root that block `i` of level `s` stands for -/
def rt (k : Nat) (psi : F) (s i : Nat) : F := psi^(2^(k-s) * (2 * bitRev s i + 1))

variable {k} {psi ipsi}

theorem bitRev_mul_pow (s d x : Nat) (h : x < 2^s) : bitRev (s+d) x = 2^d * bitRev s x := by
  induction d with
  | zero => simp
  | succ d ih =>
    rw [← Nat.add_assoc, bitRev_succ_lt (lt_of_lt_of_le h (Nat.pow_le_pow_right (by norm_num) (by omega))),
      ih, pow_succ]; ring

theorem tw_eq {s i : Nat} (hs : s < k) (hi : i < 2^s) :
    tw psi k (2^s + i) = psi^(2^(k-s-1) * (2 * bitRev s i + 1)) := by
  unfold tw
  have e : k = (s+1) + (k-s-1) := by omega
  have hlt : 2^s + i < 2^(s+1) := by rw [pow_succ]; omega
  conv_lhs => rw [e]
  rw [bitRev_mul_pow _ _ _ hlt, bitRev_add_pow hi]

theorem rt_lo {s i : Nat} (hs : s < k) (hi : i < 2^s) :
    rt k psi (s+1) (2*i) = tw psi k (2^s+i) := by
  rw [tw_eq hs hi, rt, bitRev_double, Nat.sub_sub]

theorem rt_hi {s i : Nat} (hs : s < k) (hi : i < 2^s) (hpsi : psi^(2^k) = -1) :
    rt k psi (s+1) (2*i+1) = - tw psi k (2^s+i) := by
  rw [tw_eq hs hi, rt, bitRev_double_add_one, Nat.sub_sub]
  have : 2^(k-(s+1)) * (2*(2^s + bitRev s i) + 1) = 2^k + 2^(k-(s+1)) * (2*bitRev s i + 1) := by
    have : 2^k = 2^(k-(s+1)) * (2 * 2^s) := by
      rw [← pow_succ', ← pow_add]; congr 1; omega
    rw [this]; ring
  rw [this, pow_add, hpsi]; ring

theorem rt_sq {s i : Nat} (hs : s < k) (hi : i < 2^s) : tw psi k (2^s+i) ^ 2 = rt k psi s i := by
  rw [tw_eq hs hi, rt, ← pow_mul]
  congr 1
  have : 2^(k-s) = 2^(k-s-1) * 2 := by rw [← pow_succ]; congr 1; omega
  rw [this]; ring

theorem pev_split (f : Nat → F) (n : Nat) (y : F) :
    pev f (n + n) y = pev f n y + y^n * pev (fun j => f (n + j)) n y := by
  unfold pev
  rw [sum_range_add, mul_sum]
  congr 1
  apply sum_congr rfl
  intro j _
  rw [pow_add]; ring

theorem pev_add (f g : Nat → F) (c : F) (n : Nat) (y : F) :
    pev (fun j => f j + g j * c) n y = pev f n y + c * pev g n y := by
  unfold pev
  rw [mul_sum, ← sum_add_distrib]
  apply sum_congr rfl
  intro j _; ring

theorem pev_congr {f g : Nat → F} {n : Nat} (h : ∀ j, j < n → f j = g j) (y : F) :
    pev f n y = pev g n y := by
  unfold pev
  apply sum_congr rfl
  intro j hj; rw [h j (mem_range.1 hj)]

/-- Block `i` of level `s` is the input polynomial modulo `X^(2^(k-s)) - rt s i`: both agree at
every root of that binomial. -/
theorem fwdN_eval (hpsi : psi^(2^k) = -1) (f : Nat → F) (s : Nat) (hs : s ≤ k) (i : Nat)
    (hi : i < 2^s) (y : F) (hy : y^(2^(k-s)) = rt k psi s i) :
    pev (fun j => fwdN k psi s f (i * 2^(k-s) + j)) (2^(k-s)) y = pev f (2^k) y := by
  induction s generalizing i y with
  | zero =>
    have : i = 0 := by simpa using hi
    subst this
    simp [fwdN]
  | succ s ih =>
    have hs' : s < k := by omega
    set t := 2^(k-s-1) with ht
    have ht2 : 2^(k-s) = 2*t := by rw [ht, ← pow_succ']; congr 1; omega
    have ht1 : 2^(k-(s+1)) = t := by rw [ht]; congr 1
    rw [ht1] at hy ⊢
    have hi2 : i/2 < 2^s := by rw [pow_succ] at hi; omega
    have key : ∀ i', i' < 2^s → ∀ c : F, c^2 = rt k psi s i' → y^t = c →
        pev (fun j => fwdN k psi s f (i' * (2*t) + j) + fwdN k psi s f (i' * (2*t) + t + j) * c) t y
          = pev f (2^k) y := by
      intro i' hi' c hc hyc
      have h := ih (by omega) i' hi' y (by rw [ht2, Nat.mul_comm 2 t, pow_mul, hyc, hc])
      rw [ht2] at h
      have h2 := pev_split (fun j => fwdN k psi s f (i' * (2*t) + j)) t y
      rw [← Nat.two_mul] at h2
      rw [h2, hyc] at h
      rw [pev_add, ← h]
      simp only [Nat.add_assoc]
    rcases Nat.mod_two_eq_zero_or_one i with he | ho
    · obtain ⟨i', rfl⟩ : ∃ i', i = 2*i' := ⟨i/2, by omega⟩
      have hi' : i' < 2^s := by omega
      rw [rt_lo hs' hi'] at hy
      rw [← key i' hi' _ (rt_sq hs' hi') hy]
      apply pev_congr
      intro j hj
      show fwdStage t _ _ _ = _
      rw [show 2*i'*t + j = i' * (2*t) + j by ring, fwd_lo _ _ _ hj]
    · obtain ⟨i', rfl⟩ : ∃ i', i = 2*i'+1 := ⟨i/2, by omega⟩
      have hi' : i' < 2^s := by omega
      rw [rt_hi hs' hi' hpsi] at hy
      rw [← key i' hi' _ (by rw [neg_sq]; exact rt_sq hs' hi') hy]
      apply pev_congr
      intro j hj
      show fwdStage t _ _ _ = _
      rw [show (2*i'+1)*t + j = i' * (2*t) + t + j by ring, fwd_hi _ _ _ hj]
      ring

/-- the network computes the values at the odd powers of `psi`, in bit-reversed order -/
theorem fwdN_value (hpsi : psi^(2^k) = -1) (f : Nat → F) {i : Nat} (hi : i < 2^k) :
    fwdN k psi k f i = pev f (2^k) (psi^(2 * bitRev k i + 1)) := by
  have h := fwdN_eval hpsi f k le_rfl i hi (psi^(2 * bitRev k i + 1)) (by simp [rt])
  rw [← h]
  simp [pev]

theorem fwdN_congr {f g : Nat → F} (h : ∀ x, x < 2^k → f x = g x) (s : Nat) (hs : s ≤ k) {x : Nat}
    (hx : x < 2^k) : fwdN k psi s f x = fwdN k psi s g x := by
  induction s generalizing x with
  | zero => exact h x hx
  | succ s ih =>
    have e : 2^k = 2^s * (2 * 2^(k-s-1)) := by
      rw [← pow_succ', ← pow_add]; congr 1; omega
    exact fwd_congr (by positivity) (m := 2^s) (fun x hx => ih (by omega) (by rw [e]; exact hx))
      (by rw [← e]; exact hx)

theorem bwdN_congr {f g : Nat → F} (h : ∀ x, x < 2^k → f x = g x) (s : Nat) (hs : s ≤ k) {x : Nat}
    (hx : x < 2^k) : bwdN k ipsi s f x = bwdN k ipsi s g x := by
  induction s generalizing x with
  | zero => exact h x hx
  | succ s ih =>
    have e : 2^k = 2^(k-s-1) * (2 * 2^s) := by
      rw [← pow_succ', ← pow_add]; congr 1; omega
    exact bwd_congr (by positivity) (m := 2^(k-s-1)) (fun x hx => ih (by omega) (by rw [e]; exact hx))
      (by rw [← e]; exact hx)

/-- undoing the last `s` stages leaves `2^s` times the state before them -/
theorem bwdN_fwdN (h1 : psi * ipsi = 1) (f : Nat → F) (s : Nat) (hs : s ≤ k) {x : Nat} (hx : x < 2^k) :
    bwdN k ipsi s (fwdN k psi k f) x = 2^s * fwdN k psi (k-s) f x := by
  induction s generalizing x with
  | zero => simp [bwdN]
  | succ s ih =>
    have e : 2^k = 2^(k-s-1) * (2 * 2^s) := by
      rw [← pow_succ', ← pow_add]; congr 1; omega
    have hk : k - s = (k - s - 1) + 1 := by omega
    show bwdStage (2^s) _ (bwdN k ipsi s _) x = _
    rw [bwd_congr (by positivity) (m := 2^(k-s-1)) (g := fun x => 2^s * fwdN k psi (k-s) f x)
      (fun x hx => ih (by omega) (by rw [e]; exact hx)) (by rw [← e]; exact hx), bwd_smul]
    rw [hk]
    show 2^s * bwdStage (2^s) _ (fwdStage (2^(k - (k-s-1) - 1)) _ _) x = _
    rw [show k - (k-s-1) - 1 = s by omega,
      bwd_fwd (by positivity) (m := 2^(k-s-1)) (by rw [← e]; exact hx)]
    · rw [show k - s - 1 = k - (s+1) by omega, pow_succ]; ring
    · intro i hi
      unfold tw
      rw [show k - s - 1 + 1 - 1 = k - s - 1 by omega, ← mul_pow, h1, one_pow]

/-- evaluation at a root of `X^N + 1` turns the negacyclic product into a product -/
theorem pev_negconv {N : Nat} (a b : Fin N → F) {y : F} (hy : y^N = -1) :
    ∑ i, negconv a b i * y^(i:Nat) = (∑ i, a i * y^(i:Nat)) * (∑ i, b i * y^(i:Nat)) := by
  unfold negconv
  simp_rw [sum_mul, mul_sum]
  rw [sum_comm]
  apply sum_congr rfl
  intro j _
  -- substitute i = j + l mod N
  symm
  refine sum_bij' (i := fun (l : Fin N) _ => if h : j.val + l.val < N then (⟨j.val + l.val, h⟩ : Fin N)
      else ⟨j.val + l.val - N, by omega⟩)
    (j := fun (i : Fin N) _ => if h : j ≤ i then (⟨i - j, by omega⟩ : Fin N) else ⟨N + i - j, by omega⟩)
    (by simp) (by simp) ?_ ?_ ?_
  · intro l _
    by_cases h : j.val + l.val < N
    · have hle : j ≤ (⟨j.val + l.val, h⟩ : Fin N) := by show j.val ≤ j.val + l.val; omega
      simp only [h, dif_pos, hle]
      apply Fin.ext; simp
    · have hle : ¬ j ≤ (⟨j.val + l.val - N, by omega⟩ : Fin N) := by
        show ¬ j.val ≤ j.val + l.val - N; omega
      simp only [h, dif_neg, not_false_iff, hle]
      apply Fin.ext; simp only; omega
  · intro i _
    by_cases h : j ≤ i
    · have : j.val ≤ i.val := h
      have h2 : j.val + (i.val - j.val) < N := by omega
      simp only [h, dif_pos, h2]
      apply Fin.ext; simp only; omega
    · have : ¬ j.val ≤ i.val := h
      have h2 : ¬ j.val + (N + i.val - j.val) < N := by omega
      simp only [h, dif_neg, not_false_iff, h2]
      apply Fin.ext; simp only; omega
  · intro l _
    by_cases h : j.val + l.val < N
    · have hle : j ≤ (⟨j.val + l.val, h⟩ : Fin N) := by show j.val ≤ j.val + l.val; omega
      simp only [h, dif_pos, hle]
      have : (⟨j.val + l.val - j.val, by omega⟩ : Fin N) = l := by apply Fin.ext; simp
      rw [this, pow_add]; ring
    · have hle : ¬ j ≤ (⟨j.val + l.val - N, by omega⟩ : Fin N) := by
        show ¬ j.val ≤ j.val + l.val - N; omega
      simp only [h, dif_neg, not_false_iff, hle]
      have : (⟨N + (j.val + l.val - N) - j.val, by omega⟩ : Fin N) = l := by
        apply Fin.ext; simp only; omega
      rw [this]
      have e : y^j.val * y^l.val = - y^(j.val + l.val - N) := by
        rw [← pow_add, show j.val + l.val = N + (j.val + l.val - N) by omega, pow_add, hy,
          show N + (j.val + l.val - N) - N = j.val + l.val - N by omega]; ring
      linear_combination a j * b l * e

end EvalRound

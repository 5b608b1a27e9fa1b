import Verif.Spec.Autom
import Verif.Proofs.NegRing
import Mathlib.Data.Nat.Factorization.Basic
import Mathlib.Data.Fintype.EquivFin

/-! # Lemmas about `autom` -/

namespace EvalRound
open Finset

section Group
variable {R : Type*} [AddCommGroup R] {N : Nat}

theorem autom_congr {g g' : Nat} (h : g % (2 * N) = g' % (2 * N)) (a : Fin N → R) : autom g a = autom g' a := by
  funext i
  unfold autom
  apply sum_congr rfl
  intro j _
  have : g * j % (2 * N) = g' * j % (2 * N) := by rw [Nat.mul_mod, h, ← Nat.mul_mod]
  rw [this]

/-- the value at the position that `X^j` is sent to -/
theorem autom_at {g : Nat} (hg : ∀ j j' : Fin N, g * j % N = g * j' % N → j = j') (a : Fin N → R)
    (j i : Fin N) (hi : g * j % N = i) :
    autom g a i = if g * j % (2 * N) < N then a j else - a j := by
  have hN : 0 < N := by have := i.isLt; omega
  have hmm : ∀ x, x % (2 * N) % N = x % N := fun x => Nat.mod_mod_of_dvd _ ⟨2, by ring⟩
  have hlt : ∀ x, x % (2 * N) < 2 * N := fun x => Nat.mod_lt _ (by omega)
  have hiN := i.isLt
  unfold autom
  rw [sum_eq_single j]
  · have h1 := hmm (g * j)
    have h2 := hlt (g * j)
    rw [hi] at h1
    generalize g * j % (2 * N) = t at *
    by_cases ht : t < N
    · rw [Nat.mod_eq_of_lt ht] at h1
      rw [if_pos h1, if_pos ht]
    · rw [Nat.mod_eq_sub_mod (by omega), Nat.mod_eq_of_lt (by omega)] at h1
      rw [if_neg (by omega), if_pos (by omega), if_neg ht]
  · intro j' _ hne
    have h1 := hmm (g * j')
    have hcon : g * j' % N ≠ i := fun h => hne (hg _ _ (h.trans hi.symm))
    rw [if_neg, if_neg]
    · intro h
      rw [h, Nat.add_mod_right, Nat.mod_eq_of_lt hiN] at h1
      exact hcon h1.symm
    · intro h
      rw [h, Nat.mod_eq_of_lt hiN] at h1
      exact hcon h1.symm
  · intro h; exact absurd (mem_univ j) h

theorem pos_surj {g : Nat} (hg : ∀ j j' : Fin N, g * j % N = g * j' % N → j = j') (i : Fin N) :
    ∃ j : Fin N, g * j % N = i := by
  have hN : 0 < N := by have := i.isLt; omega
  let f : Fin N → Fin N := fun j => ⟨g * j % N, Nat.mod_lt _ hN⟩
  have hf : Function.Injective f := fun a b h => hg a b (Fin.ext_iff.1 h)
  obtain ⟨j, hj⟩ := (Finite.injective_iff_surjective.1 hf) i
  exact ⟨j, Fin.ext_iff.1 hj⟩

theorem pos_inj_of_coprime {g : Nat} (h : Nat.Coprime N g) (j j' : Fin N)
    (e : g * j % N = g * j' % N) : j = j' := by
  have : (j : Nat) ≡ j' [MOD N] := Nat.ModEq.cancel_left_of_coprime h e
  unfold Nat.ModEq at this
  rw [Nat.mod_eq_of_lt j.isLt, Nat.mod_eq_of_lt j'.isLt] at this
  exact Fin.ext this

theorem autom_add (g : Nat) (a b : Fin N → R) : autom g (a + b) = autom g a + autom g b := by
  funext i
  simp only [autom, Pi.add_apply]
  rw [← sum_add_distrib]
  apply sum_congr rfl
  intro j _
  split
  · rfl
  · split
    · rw [neg_add]
    · simp

theorem autom_map {S : Type*} [AddCommGroup S] (φ : R →+ S) (g : Nat) (a : Fin N → R) (i : Fin N) :
    φ (autom g a i) = autom g (fun j => φ (a j)) i := by
  unfold autom
  rw [map_sum]
  apply sum_congr rfl
  intro j _
  split
  · rfl
  · split <;> simp

theorem autom_one (a : Fin N → R) : autom 1 a = a := by
  funext i
  have hi := i.isLt
  rw [autom_at (g := 1) (fun j j' e => pos_inj_of_coprime (Nat.coprime_one_right N) j j' e) a i i
    (by rw [one_mul, Nat.mod_eq_of_lt hi]), one_mul, Nat.mod_eq_of_lt (by omega), if_pos hi]

end Group

section Ring
variable {R : Type*} [CommRing R] {N : Nat}

/-- evaluating at a root `y` of `X^N + 1` -/
theorem eval_autom (g : Nat) (a : Fin N → R) {y : R} (hy : y^N = -1) :
    ∑ i, autom g a i * y^(i:Nat) = ∑ j, a j * (y^g)^(j:Nat) := by
  simp only [autom, sum_mul]
  rw [sum_comm]
  apply sum_congr rfl
  intro j _
  have hN : 0 < N := by have := j.isLt; omega
  have hy2 : y^(2*N) = 1 := by rw [mul_comm, pow_mul, hy]; ring
  have e : (y^g)^(j:Nat) = y^(g * j % (2*N)) := by
    rw [← pow_mul]
    conv_lhs => rw [← Nat.div_add_mod (g * j) (2*N), pow_add, pow_mul, hy2, one_pow, one_mul]
  rw [e]
  have hlt : g * j % (2*N) < 2 * N := Nat.mod_lt _ (by omega)
  generalize g * j % (2*N) = t at *
  by_cases ht : t < N
  · rw [sum_eq_single ⟨t, ht⟩]
    · simp
    · intro i _ hi
      have : ¬ t = i.val := fun h => hi (Fin.ext h.symm)
      rw [if_neg this, if_neg (by omega), zero_mul]
    · intro h; exact absurd (mem_univ _) h
  · rw [sum_eq_single ⟨t - N, by omega⟩]
    · simp only []
      rw [if_neg (by omega), if_pos (by omega)]
      have : y^t = y^(t - N) * y^N := by rw [← pow_add]; congr 1; omega
      rw [this, hy]; ring
    · intro i _ hi
      have : ¬ t - N = i.val := fun h => hi (Fin.ext h.symm)
      rw [if_neg (by have := i.isLt; omega), if_neg (by omega), zero_mul]
    · intro h; exact absurd (mem_univ _) h

theorem odd_pow_root {g : Nat} (hg : g % 2 = 1) {y : R} (hy : y^N = -1) : (y^g)^N = -1 := by
  rw [← pow_mul, mul_comm, pow_mul, hy]
  exact Odd.neg_one_pow (Nat.odd_iff.2 hg)

theorem emb_autom (g : Nat) (a : Fin N → R) :
    emb (autom g a) = ∑ j, algebraMap R (NegRing R N) (a j) *
      ((AdjoinRoot.root (Polynomial.X^N + 1 : Polynomial R))^g)^(j:Nat) := by
  rw [← eval_autom _ _ (root_pow R N)]
  unfold emb
  apply sum_congr rfl
  intro i _
  congr 1
  exact autom_map (algebraMap R (NegRing R N)).toAddMonoidHom g a i

/-- substituting an odd power of `X` is multiplicative -/
theorem autom_negconv {g : Nat} (hg : g % 2 = 1) (a b : Fin N → R) :
    autom g (negconv a b) = negconv (autom g a) (autom g b) := by
  apply emb_injective
  rw [emb_negconv, emb_autom, emb_autom, emb_autom]
  have := pev_negconv (fun j => algebraMap R (NegRing R N) (a j)) (fun j => algebraMap R (NegRing R N) (b j))
    (odd_pow_root hg (root_pow R N))
  rw [← this]
  apply sum_congr rfl
  intro i _
  rw [negconv_map]

theorem autom_autom {g g' : Nat} (hg : g' % 2 = 1) (a : Fin N → R) :
    autom g' (autom g a) = autom (g' * g) a := by
  apply emb_injective
  rw [emb_autom, emb_autom]
  have h := eval_autom g (fun j => algebraMap R (NegRing R N) (a j)) (odd_pow_root hg (root_pow R N))
  rw [pow_mul, ← h]
  apply sum_congr rfl
  intro i _
  congr 1
  exact autom_map (algebraMap R (NegRing R N)).toAddMonoidHom g a i

end Ring

/-- `5^(2^(k-1)) ≡ 1` modulo `2^(k+1)` -/
theorem five_pow (k : Nat) (hk : 1 ≤ k) : 5^(2^(k-1)) % (2 * 2^k) = 1 := by
  obtain ⟨n, rfl⟩ : ∃ n, k = n + 1 := ⟨k - 1, by omega⟩
  rw [Nat.add_sub_cancel]
  have key : ∀ n, ∃ c, 5^(2^n) = 1 + c * (2 * 2^(n+1)) := by
    intro n
    induction n with
    | zero => exact ⟨1, by norm_num⟩
    | succ n ih =>
      obtain ⟨c, hc⟩ := ih
      refine ⟨c + c^2 * 2^(n+1), ?_⟩
      rw [pow_succ, pow_mul, hc]; ring
  obtain ⟨c, hc⟩ := key n
  rw [hc, Nat.add_mul_mod_self_right, Nat.mod_eq_of_lt]
  have : 0 < 2^(n+1) := by positivity
  omega

theorem five_pow_odd (r : Nat) : 5^r % 2 = 1 := Nat.odd_iff.1 (Odd.pow (by decide))

theorem five_pow_coprime (k r : Nat) : Nat.Coprime (2^k) (5^r) :=
  Nat.Coprime.pow _ _ (by decide)

theorem odd_coprime (k : Nat) {g : Nat} (h : g % 2 = 1) : Nat.Coprime (2^k) g :=
  Nat.Coprime.pow_left _ ((Nat.coprime_two_left).2 (Nat.odd_iff.2 h))

end EvalRound

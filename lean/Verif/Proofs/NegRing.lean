import Verif.Proofs.Negacyclic
import Verif.Proofs.NTTPure
import Mathlib.RingTheory.AdjoinRoot

/-! # The negacyclic product is the product of `R[X]/(X^N+1)` -/

namespace EvalRound
open Finset Polynomial

variable {R : Type*} [CommRing R] {N : Nat}

/-- `R[X]/(X^N+1)` -/
abbrev NegRing (R : Type*) [CommRing R] (N : Nat) := AdjoinRoot (X^N + 1 : R[X])

/-- the class of the polynomial with the given coefficients -/
noncomputable def emb (a : Fin N → R) : NegRing R N :=
  ∑ i, algebraMap R (NegRing R N) (a i) * (AdjoinRoot.root (X^N + 1 : R[X]))^(i:Nat)

theorem root_pow (R : Type*) [CommRing R] (N : Nat) :
    (AdjoinRoot.root (X^N + 1 : R[X]))^N = -1 := by
  have := AdjoinRoot.eval₂_root (X^N + 1 : R[X])
  simp only [eval₂_add, eval₂_pow, eval₂_X, eval₂_one] at this
  exact eq_neg_of_add_eq_zero_left this

theorem emb_negconv (a b : Fin N → R) : emb (negconv a b) = emb a * emb b := by
  unfold emb
  rw [← pev_negconv _ _ (root_pow R N)]
  apply sum_congr rfl
  intro i _
  rw [negconv_map]

theorem emb_injective : Function.Injective (emb : (Fin N → R) → NegRing R N) := by
  nontriviality R
  intro a b hab
  rcases Nat.eq_zero_or_pos N with rfl | hN
  · exact funext fun i => i.elim0
  let p : R[X] := ∑ i : Fin N, C (a i - b i) * X^(i:Nat)
  have hmk : AdjoinRoot.mk (X^N + 1 : R[X]) p = 0 := by
    have : AdjoinRoot.mk (X^N + 1 : R[X]) p = emb a - emb b := by
      simp only [p, map_sum, map_mul, AdjoinRoot.mk_C, map_pow, AdjoinRoot.mk_X, emb]
      rw [← sum_sub_distrib]
      apply sum_congr rfl
      intro i _
      rw [← sub_mul, map_sub]; rfl
    rw [this, hab, sub_self]
  rw [AdjoinRoot.mk_eq_zero] at hmk
  have hmonic : (X^N + 1 : R[X]).Monic := monic_X_pow_add_C (1:R) hN.ne'
  have hdeg : p.degree < (X^N + 1 : R[X]).degree := by
    have : (X^N + 1 : R[X]).degree = N := degree_X_pow_add_C hN (1:R)
    rw [this]
    refine lt_of_le_of_lt (degree_sum_le _ _) ?_
    rw [Finset.sup_lt_iff (by exact_mod_cast WithBot.bot_lt_coe N)]
    intro i _
    refine lt_of_le_of_lt (degree_C_mul_X_pow_le _ _) ?_
    exact_mod_cast i.isLt
  have hp : p = 0 := by
    by_contra h
    exact hmonic.not_dvd_of_degree_lt h hdeg hmk
  funext i
  have : p.coeff i = a i - b i := by
    simp only [p, finsetSum_coeff, coeff_C_mul, coeff_X_pow]
    rw [sum_eq_single i]
    · simp
    · intro j _ hj
      have : ¬ (i:Nat) = j := fun h => hj (Fin.ext h.symm)
      simp [this]
    · intro h; exact absurd (mem_univ i) h
  rw [hp, coeff_zero] at this
  exact (sub_eq_zero.1 this.symm)

theorem negconv_comm (a b : Fin N → R) : negconv a b = negconv b a :=
  emb_injective (by rw [emb_negconv, emb_negconv, mul_comm])

theorem negconv_assoc (a b c : Fin N → R) : negconv (negconv a b) c = negconv a (negconv b c) :=
  emb_injective (by simp only [emb_negconv, mul_assoc])

theorem negconv_add (a b c : Fin N → R) : negconv a (b + c) = negconv a b + negconv a c :=
  funext fun i => negconv_add_right a b c i

theorem add_negconv (a b c : Fin N → R) : negconv (a + b) c = negconv a c + negconv b c :=
  funext fun i => negconv_add_left a b c i

theorem negconv_neg (a b : Fin N → R) : negconv a (-b) = - negconv a b :=
  funext fun i => negconv_neg_right a b i

theorem neg_negconv (a b : Fin N → R) : negconv (-a) b = - negconv a b :=
  funext fun i => negconv_neg_left a b i

theorem negconv_smul (a b : Fin N → R) (c : R) : negconv a (c • b) = c • negconv a b := by
  funext i
  simp only [negconv, Pi.smul_apply, smul_eq_mul, mul_sum]
  apply sum_congr rfl
  intro j _
  split <;> ring

theorem smul_negconv (a b : Fin N → R) (c : R) : negconv (c • a) b = c • negconv a b := by
  rw [negconv_comm, negconv_smul, negconv_comm]

theorem negconv_map' {S : Type*} [CommRing S] (φ : R →+* S) (a b : Fin N → R) :
    (fun i => φ (negconv a b i)) = negconv (fun j => φ (a j)) (fun j => φ (b j)) :=
  funext fun i => negconv_map φ a b i

end EvalRound

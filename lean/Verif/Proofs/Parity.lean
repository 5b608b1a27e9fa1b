import Verif.Props.EncNoise
import Verif.Proofs.NegRing
import Mathlib.RingTheory.Nilpotent.Basic

/-! # Parity of the sum of the coefficients, and units of `Z/2^Q[X]/(X^N+1)` -/

namespace EvalRound
open Finset Z_Q

section
variable {LOGQ N : Nat} [NeZero LOGQ]

/-- reduction modulo 2 -/
noncomputable def mod2 (LOGQ : Nat) [NeZero LOGQ] : ZMod (2^LOGQ) →+* ZMod 2 :=
  ZMod.castHom (dvd_pow_self 2 (NeZero.ne LOGQ)) (ZMod 2)

theorem mod2_cls (x : Z_Q LOGQ) : mod2 LOGQ x.cls = ((x.sval : Int) : ZMod 2) := by
  rw [← sval_cls, map_intCast]

theorem sum_negconv_mod2 (a b : Fin N → ZMod 2) : ∑ i, negconv a b i = (∑ i, a i) * ∑ i, b i := by
  have h := pev_negconv a b (y := 1) (by rw [one_pow]; decide)
  simpa using h

theorem ternary_sum {s : Fin N → Int} (hs : Ternary s) : ((∑ k, s k : Int) : ZMod 2) = (weight s : ZMod 2) := by
  unfold weight
  rw [Finset.card_filter]
  push_cast
  refine sum_congr rfl fun k _ => ?_
  rcases hs k with h | h | h <;> rw [h] <;> simp

/-- the sum of the coefficients of the phase, modulo 2 -/
theorem phase_parity {s : Fin N → Int} (ct : R_Q_square LOGQ N) {m : R_Q LOGQ N}
    (hm : R_Q.cls m = R_Q_square.phase s ct) :
    ((∑ i, (m i).sval : Int) : ZMod 2) =
      ((∑ i, (ct.1 i).sval : Int) : ZMod 2) + ((∑ k, s k : Int) : ZMod 2) * ((∑ i, (ct.2 i).sval : Int) : ZMod 2) := by
  rw [phase_eq] at hm
  have h : ∀ i, ((m i).sval : ZMod 2) = ((ct.1 i).sval : ZMod 2) +
      negconv (fun j => ((s j : Int) : ZMod 2)) (fun j => ((ct.2 j).sval : ZMod 2)) i := fun i => by
    have h1 := congrArg (mod2 LOGQ) (congrFun hm i)
    rw [Pi.add_apply, map_add] at h1
    have h2 := congrFun (negconv_map' (mod2 LOGQ) (red LOGQ s) (R_Q.cls ct.2)) i
    rw [h2] at h1
    unfold R_Q.cls red at h1
    simp only [mod2_cls, map_intCast] at h1
    exact h1
  push_cast
  rw [sum_congr rfl fun i _ => h i, sum_add_distrib, sum_negconv_mod2]

end

/-! ## units -/

section
variable {A : Type*} [CommRing A]

theorem add_pow_two_pow (a b : A) (j : Nat) : ∃ c, (a + b)^(2^j) = a^(2^j) + b^(2^j) + 2 * c := by
  induction j with
  | zero => exact ⟨0, by simp⟩
  | succ j ih =>
    obtain ⟨c, hc⟩ := ih
    refine ⟨a^(2^j) * b^(2^j) + 2 * c * (a^(2^j) + b^(2^j)) + 2 * c^2, ?_⟩
    rw [pow_succ 2 j, pow_mul, pow_mul, pow_mul, hc]
    ring

theorem sum_pow_two_pow {ι : Type*} (S : Finset ι) (x : ι → A) (j : Nat) :
    ∃ c, (∑ i ∈ S, x i)^(2^j) = ∑ i ∈ S, x i^(2^j) + 2 * c := by
  classical
  induction S using Finset.induction_on with
  | empty => exact ⟨0, by simp⟩
  | insert a S ha ih =>
    obtain ⟨c, hc⟩ := ih
    obtain ⟨d, hd⟩ := add_pow_two_pow (x a) (∑ i ∈ S, x i) j
    refine ⟨c + d, ?_⟩
    rw [sum_insert ha, sum_insert ha, hd, hc]
    ring

end

/-- an integer polynomial with odd sum of coefficients is a unit of `Z/2^Q[X]/(X^N+1)`, `N` a power of two -/
theorem emb_isUnit {LOGQ j : Nat} {s : Fin (2^j) → Int} (hodd : (∑ k, s k) % 2 = 1) :
    IsUnit (emb (red LOGQ s) : NegRing (ZMod (2^LOGQ)) (2^j)) := by
  obtain ⟨c, hc⟩ := sum_pow_two_pow univ (fun i : Fin (2^j) => algebraMap (ZMod (2^LOGQ)) (NegRing (ZMod (2^LOGQ)) (2^j)) (red LOGQ s i) *
    (AdjoinRoot.root (Polynomial.X^(2^j) + 1 : Polynomial (ZMod (2^LOGQ))))^(i:Nat)) j
  have hterm : ∀ i : Fin (2^j), ∃ d : NegRing (ZMod (2^LOGQ)) (2^j),
      (algebraMap (ZMod (2^LOGQ)) (NegRing (ZMod (2^LOGQ)) (2^j)) (red LOGQ s i) *
    (AdjoinRoot.root (Polynomial.X^(2^j) + 1 : Polynomial (ZMod (2^LOGQ))))^(i:Nat))^(2^j) = ((s i : Int) : NegRing (ZMod (2^LOGQ)) (2^j)) + 2 * d := fun i => by
    have hpar : ∃ d : Int, s i^(2^j) * (-1)^(i:Nat) = s i + 2 * d := by
      have : (2:Int) ∣ s i^(2^j) * (-1)^(i:Nat) - s i := by
        rw [← Int.modEq_iff_dvd]
        refine Int.ModEq.symm ?_
        refine (Int.emod_emod_of_dvd _ (dvd_refl 2)).symm.trans ?_ |>.trans rfl
        rcases Int.even_or_odd (s i) with h | h
        · have h2 : Even (s i^(2^j) * (-1)^(i:Nat)) := (h.pow_of_ne_zero (by positivity)).mul_right _
          rw [Int.even_iff] at h h2
          omega
        · have h2 : Odd (s i^(2^j) * (-1)^(i:Nat)) := (h.pow).mul (Odd.pow (by decide))
          rw [Int.odd_iff] at h h2
          omega
      obtain ⟨d, hd⟩ := this
      exact ⟨d, by omega⟩
    obtain ⟨d, hd⟩ := hpar
    refine ⟨(d : Int), ?_⟩
    rw [mul_pow, ← pow_mul, mul_comm (i:Nat), pow_mul, root_pow]
    unfold red
    rw [map_intCast]
    have h := congrArg (Int.cast : Int → NegRing (ZMod (2^LOGQ)) (2^j)) hd
    push_cast at h
    exact h
  choose d hd using hterm
  obtain ⟨t, ht⟩ : ∃ t, ∑ k, s k = 1 + 2 * t := ⟨(∑ k, s k) / 2, by omega⟩
  have hS : (emb (red LOGQ s) : NegRing (ZMod (2^LOGQ)) (2^j))^(2^j) = 1 + 2 * ((t : Int) + ∑ i, d i + c) := by
    unfold emb
    rw [hc, sum_congr rfl fun i _ => hd i, sum_add_distrib, ← mul_sum, ← Int.cast_sum, ht]
    push_cast
    ring
  have h2 : (2 : NegRing (ZMod (2^LOGQ)) (2^j))^LOGQ = 0 := by
    have h0 : ((2^LOGQ : Nat) : ZMod (2^LOGQ)) = 0 := ZMod.natCast_self _
    have h1 := congrArg (algebraMap (ZMod (2^LOGQ)) (NegRing (ZMod (2^LOGQ)) (2^j))) h0
    rw [map_natCast, map_zero] at h1
    push_cast at h1
    exact h1
  have hnil : IsNilpotent (2 * ((t : Int) + ∑ i, d i + c) : NegRing (ZMod (2^LOGQ)) (2^j)) := ⟨LOGQ, by rw [mul_pow, h2, zero_mul]⟩
  have hu : IsUnit ((emb (red LOGQ s) : NegRing (ZMod (2^LOGQ)) (2^j))^(2^j)) := by
    rw [hS]
    exact hnil.isUnit_one_add
  exact (isUnit_pow_iff (by positivity)).1 hu

/-- multiplication by such a polynomial is a bijection -/
theorem negconv_bij {LOGQ j : Nat} {s : Fin (2^j) → Int} (hodd : (∑ k, s k) % 2 = 1) :
    Function.Bijective fun a : Fin (2^j) → ZMod (2^LOGQ) => negconv (red LOGQ s) a := by
  have : NeZero (2^LOGQ) := ⟨by positivity⟩
  have hinj : Function.Injective fun a : Fin (2^j) → ZMod (2^LOGQ) => negconv (red LOGQ s) a := fun a b h => by
    have h1 := congrArg (emb : _ → NegRing (ZMod (2^LOGQ)) (2^j)) h
    simp only [emb_negconv] at h1
    exact emb_injective ((emb_isUnit hodd).mul_left_cancel h1)
  exact Finite.injective_iff_bijective.1 hinj

/-- every polynomial over `Z/2^Q` has a canonical representative -/
theorem exists_canonical_cls {LOGQ N : Nat} [NeZero LOGQ] (v : Fin N → ZMod (2^LOGQ)) : ∃ a : R_Q LOGQ N, a.Canonical ∧ R_Q.cls a = v := by
  have : NeZero (2^LOGQ) := ⟨by positivity⟩
  refine ⟨fun i => ofNat LOGQ (v i).val, fun i => ?_, funext fun i => ?_⟩
  · unfold Z_Q.Canonical
    rw [val_ofNat_of_lt (ZMod.val_lt _)]
    exact ZMod.val_lt _
  · show (ofNat LOGQ (v i).val).cls = _
    unfold Z_Q.cls
    rw [val_ofNat_of_lt (ZMod.val_lt _), ZMod.natCast_zmod_val]

/-! ## the parity of the noise -/

/-- `∑_{x<b} (-1)^(x mod 9)` -/
theorem sum_sign9 (b : Nat) : ∑ x ∈ range b, (-1:Int)^(x % 9) = b / 9 + b % 9 % 2 := by
  induction b with
  | zero => simp
  | succ b ih =>
    rw [sum_range_succ, ih]
    have h9 : b % 9 < 9 := Nat.mod_lt _ (by norm_num)
    have hb := Nat.div_add_mod b 9
    generalize hr : b % 9 = r at *
    generalize hq : b / 9 = q at *
    have e1 : ((b:ℤ) / 9) = q := by omega
    have e2 : ((b:ℤ) % 9) = r := by omega
    rw [e1, e2]
    push_cast
    interval_cases r <;> norm_num <;> omega

theorem sum_noise_sign (b : Nat) : ∑ v : Fin 2 → Fin b, (-1:Int)^(noiseVal (v 0) (v 1)).natAbs = b * (b / 9 + b % 9 % 2) := by
  have h0 : ∀ x y : Nat, (noiseVal x y).natAbs = x % 9 := fun x y => by unfold noiseVal; split_ifs <;> omega
  simp only [h0]
  rw [← sum_sign9, ← (finTwoArrowEquiv (Fin b)).symm.sum_comp, Fintype.sum_prod_type]
  simp only [finTwoArrowEquiv_symm_apply, Matrix.cons_val_zero, sum_const, card_univ, Fintype.card_fin, nsmul_eq_mul]
  rw [← mul_sum, Finset.sum_range]

theorem neg_one_pow_noise {N b : Nat} (u : Fin N → Fin 2 → Fin b) :
    ∏ i, (-1:Int)^(noiseVal (u i 0) (u i 1)).natAbs = if (∑ i, noiseVal (u i 0) (u i 1)) % 2 = 0 then 1 else -1 := by
  rw [prod_pow_eq_pow_sum]
  have h : ((∑ i, (noiseVal (u i 0) (u i 1)).natAbs : Nat) : Int) % 2 = (∑ i, noiseVal (u i 0) (u i 1)) % 2 := by
    rw [Nat.cast_sum, Finset.sum_int_mod, Finset.sum_int_mod univ 2 (fun i => noiseVal (u i 0) (u i 1))]
    congr 1
    refine sum_congr rfl fun i _ => ?_
    omega
  split_ifs with h2
  · exact Even.neg_one_pow (by rw [Nat.even_iff]; omega)
  · exact Odd.neg_one_pow (by rw [Nat.odd_iff]; omega)

/-- of all values of the noise draws, those with an even sum exceed those with an odd sum by `(b·(b/9 + (b mod 9) mod 2))^N` -/
theorem noise_parity_count (N b : Nat) :
    ((univ.filter fun u : Fin N → Fin 2 → Fin b => (∑ i, noiseVal (u i 0) (u i 1)) % 2 = 0).card : Int) -
      (univ.filter fun u : Fin N → Fin 2 → Fin b => ¬ (∑ i, noiseVal (u i 0) (u i 1)) % 2 = 0).card = (b * (b / 9 + b % 9 % 2))^N := by
  have h : ∑ u : Fin N → Fin 2 → Fin b, ∏ i, (-1:Int)^(noiseVal (u i 0) (u i 1)).natAbs = (b * (b / 9 + b % 9 % 2))^N := by
    have := (Finset.prod_univ_sum (fun _ : Fin N => (univ : Finset (Fin 2 → Fin b))) (fun _ v => (-1:Int)^(noiseVal (v 0) (v 1)).natAbs)).symm
    rw [Fintype.piFinset_univ] at this
    rw [this]
    simp only [sum_noise_sign, prod_const, card_univ, Fintype.card_fin]
  rw [← h, sum_congr rfl fun u _ => neg_one_pow_noise u, Finset.sum_ite]
  simp
  ring

end EvalRound

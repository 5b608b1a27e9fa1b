import Verif.Props.Boot

/-!
# C53: the range of EvalMod and the weight of the key
-/

namespace EvalRound
open Z_Q Finset

/-- the key with `h` leading ones -/
def onesKey (N h : Nat) : Fin N → Int := fun k => if k.val < h then 1 else 0

theorem onesKey_tern {N h : Nat} : Ternary (onesKey N h) := by
  intro k; unfold onesKey; split_ifs <;> simp

theorem onesKey_weight {N h : Nat} (hh : h ≤ N) : (univ.filter fun k => onesKey N h k ≠ 0).card = h := by
  have e : (univ.filter fun k => onesKey N h k ≠ 0) = univ.filter fun k : Fin N => k.val < h := by
    refine filter_congr fun k _ => ?_
    unfold onesKey
    split_ifs with h1 <;> simp [h1]
  rw [e, Fin.card_filter_val_lt, min_eq_right hh]

/-- the ciphertext with first component zero and all coefficients of the second component equal to `-2^(LF-1)` -/
def halfCt (LF N : Nat) [NeZero LF] : R_Q_square LF N := (R_Q.setzero, fun _ => Z_Q.ofNat LF (2^(LF-1)))

theorem half_lt (LF : Nat) [NeZero LF] : 2^(LF-1) < 2^LF :=
  Nat.pow_lt_pow_right (by norm_num) (by have := NeZero.pos LF; omega)

theorem halfCt_canonical {LF N : Nat} [NeZero LF] : (halfCt LF N).Canonical := by
  refine ⟨fun k => canonical_setzero, fun k => ?_⟩
  unfold halfCt Canonical
  simp only []
  rw [val_ofNat_of_lt (half_lt LF)]
  exact half_lt LF

theorem halfCt_sval {LF N : Nat} [NeZero LF] : R_Q.sval (halfCt LF N).2 = fun _ => -2^(LF-1) := by
  funext k
  have h := halfCt_canonical (LF := LF) (N := N)
  have e : ((halfCt LF N).2 k).val = 2^(LF-1) := val_ofNat_of_lt (half_lt LF)
  refine sval_eq_of_cls ?_ le_rfl ?_
  · unfold cls
    rw [e]
    have h2 : (2:ℤ)^LF = 2 * 2^(LF-1) := by exact_mod_cast two_mul_half LF
    have h3 : (((2^(LF-1) : ℕ) : ℤ) : ZMod (2^LF)) = ((-2^(LF-1) : ℤ) : ZMod (2^LF)) := by
      rw [ZMod.intCast_eq_intCast_iff_dvd_sub]
      refine ⟨-1, ?_⟩
      push_cast
      rw [h2]; ring
    exact_mod_cast h3
  · have : (0:ℤ) < 2^(LF-1) := by positivity
    linarith

theorem negconv_last {N : Nat} (a : Fin N → Int) (c : Int) (k : Fin N) (hk : k.val + 1 = N) :
    negconv a (fun _ => c) k = (∑ j, a j) * c := by
  unfold negconv
  rw [sum_mul]
  refine sum_congr rfl fun j _ => ?_
  rw [dif_pos (by have := j.isLt; exact Fin.le_def.2 (by omega))]

/-- C53: the bound of C27 is attained up to 1. For every number of coefficients and every even weight `h` there are a key
of weight `h` and a ciphertext such that the last coefficient of the message is 0 and becomes `-(h/2) * 2^LF` when the
modulus is raised. -/
theorem C53_attained {LF QT N : Nat} [NeZero LF] [NeZero QT] (hN : N ≤ 2^30) (h : Nat) (hh : 2 * h ≤ N)
    (hw : h * 2^LF ≤ 2^(QT-1)) : ∃ s : Fin N → Int, (∀ k, s k = -1 ∨ s k = 0 ∨ s k = 1) ∧
      (univ.filter fun k => s k ≠ 0).card = 2 * h ∧ ∃ ct : R_Q_square LF N, ct.Canonical ∧
      ∃ m M, dec ct s = pure m ∧ dec (mod_raise QT ct) s = pure M ∧
        ∀ k : Fin N, k.val + 1 = N → (m k).sval = 0 ∧ (M k).sval = -(h * 2^LF) := by
  refine ⟨onesKey N (2*h), onesKey_tern, onesKey_weight hh, halfCt LF N, halfCt_canonical, ?_⟩
  obtain ⟨m, h1, _, h3⟩ := dec_spec hN onesKey_tern (halfCt LF N)
  obtain ⟨M, g1, _, g3⟩ := dec_spec hN onesKey_tern (mod_raise QT (halfCt LF N))
  refine ⟨m, M, h1, g1, fun k hk => ?_⟩
  have hsum : ∑ j, onesKey N (2*h) j = 2 * h := by
    unfold onesKey
    rw [sum_ite, sum_const_zero, add_zero, sum_const, Fin.card_filter_val_lt, min_eq_right hh]
    simp
  have h2 : (2:ℤ)^LF = 2 * 2^(LF-1) := by exact_mod_cast two_mul_half LF
  have key : negconv (onesKey N (2*h)) (fun _ => -2^(LF-1)) k = -(h * 2^LF) := by
    rw [negconv_last _ _ k hk, hsum, h2]; ring
  constructor
  · have hp : (0:ℤ) < 2^(LF-1) := by positivity
    refine sval_eq_of_cls (t := 0) ?_ (by linarith) hp
    have e := congrFun h3 k
    have z : R_Q.cls (halfCt LF N).1 = 0 := R_Q.cls_setzero
    rw [phase_eq, z, zero_add, cls_red_sval (halfCt LF N).2, halfCt_sval, ← red_negconv] at e
    refine Eq.trans e ?_
    simp only [red]
    rw [key]
    rw [ZMod.intCast_eq_intCast_iff_dvd_sub]
    exact ⟨h, by push_cast; ring⟩
  · have hw' : (h:ℤ) * 2^LF ≤ 2^(QT-1) := by exact_mod_cast hw
    have hp : (0:ℤ) < 2^(QT-1) := by positivity
    have hp2 : (0:ℤ) ≤ h * 2^LF := by positivity
    refine sval_eq_of_cls ?_ (by linarith) (by linarith)
    have e := congrFun g3 k
    have z : R_Q.cls (mod_raise QT (halfCt LF N)).1 = red QT (R_Q.sval (halfCt LF N).1) :=
      funext fun i => cls_resize (halfCt_canonical.1 i)
    have z' : R_Q.cls (mod_raise QT (halfCt LF N)).2 = red QT (R_Q.sval (halfCt LF N).2) :=
      funext fun i => cls_resize (halfCt_canonical.2 i)
    have z0 : R_Q.sval (halfCt LF N).1 = 0 := funext fun i =>
      sval_eq_of_cls (t := 0) (by
        have := congrFun (R_Q.cls_setzero (LOGQ := LF) (N := N)) i
        exact this.trans (by simp)) (by simp) (by positivity)
    rw [phase_eq, z, z', z0, halfCt_sval, ← red_negconv, ← red_add, zero_add] at e
    refine Eq.trans e ?_
    simp only [red]
    rw [key]

/-- C53 for the drivers: with 512 or more coefficients, a modulus of `2^60` and a key of weight 128, the message of the raised
ciphertext can be `-64 * 2^60`, out of the range `[-23.75, 24.25] * 2^60` of EvalMod with `K = 24`. -/
theorem C53_drivers {QT N : Nat} [NeZero QT] (hN : N ≤ 2^30) (hN' : 512 ≤ N) (hQT : 67 ≤ QT) : 
    ∃ s : Fin N → Int, (∀ k, s k = -1 ∨ s k = 0 ∨ s k = 1) ∧
      (univ.filter fun k => s k ≠ 0).card = 128 ∧ ∃ ct : R_Q_square 60 N, ct.Canonical ∧
      ∃ M, dec (mod_raise QT ct) s = pure M ∧ ∃ k, (M k).sval = -(64 * 2^60) := by
  have hw : 64 * 2^60 ≤ 2^(QT-1) := le_trans (b := 2^66) (by norm_num) (Nat.pow_le_pow_right (by norm_num) (by omega))
  obtain ⟨s, h1, h2, ct, h3, m, M, h4, h5, h6⟩ := C53_attained (LF := 60) (QT := QT) hN 64 (by omega) hw
  exact ⟨s, h1, h2, ct, h3, M, h5, ⟨N-1, by omega⟩, (h6 ⟨N-1, by omega⟩ (by simp; omega)).2⟩

-- the parameters of the drivers
example : 2^9 ≤ 2^30 ∧ 2^17 ≤ 2^30 ∧ 512 ≤ 2^9 ∧ 67 ≤ 1450 := by norm_num

end EvalRound

import Verif.Proofs.RaiseProb
import Verif.Proofs.NoiseProb

/-!
# Rescaling a ciphertext with a random mask

Helper lemmas for C100.
-/

set_option linter.unusedSectionVars false

namespace EvalRound
open Finset Z_Q

variable {N : Nat}

/-! ## the rounding error of one coefficient -/

/-- the rounding of `x` to a multiple of `2p` takes off the centred remainder -/
theorem round_centred {p : Nat} (hp : 0 < p) (x : Nat) :
    ((2*p : Nat) : Int) * ((x + p) / (2*p) : Nat) = x - centred p (x % (2*p)) := by
  have h1 := Nat.div_add_mod x (2*p)
  have h2 := Nat.mod_lt x (show 0 < 2*p by omega)
  obtain ⟨q, hq⟩ : ∃ q, q = x / (2*p) := ⟨_, rfl⟩
  obtain ⟨r, hr⟩ : ∃ r, r = x % (2*p) := ⟨_, rfl⟩
  rw [← hq, ← hr] at h1
  rw [← hr] at h2 ⊢
  unfold centred
  split_ifs with h
  · have : (x + p) / (2*p) = q := by
      rw [← h1, add_assoc, Nat.mul_add_div (by omega), Nat.div_eq_of_lt (by omega), add_zero]
    rw [this]
    have := congrArg (Nat.cast : Nat → Int) h1
    push_cast at this ⊢
    linarith
  · have : (x + p) / (2*p) = q + 1 := by
      rw [← h1, add_assoc, Nat.mul_add_div (by omega)]
      congr 1
      rw [Nat.div_eq_iff (by omega)]
      constructor <;> omega
    rw [this]
    have := congrArg (Nat.cast : Nat → Int) h1
    push_cast at this ⊢
    linarith

theorem round_exact {LF LT p : Nat} (h : LT < LF) (hp : p = 2^(LF-LT-1)) (x y : Nat)
    (hy : y = (x + 2^(LF-LT) / 2) / 2^(LF-LT) % 2^LT) :
    ((2^(LF-LT) * y : Int) : ZMod (2^LF)) = ((x - centred p (x % (2*p)) : Int) : ZMod (2^LF)) := by
  have e : 2^LF = 2^(LF-LT) * 2^LT := by rw [← pow_add]; congr 1; omega
  have e2 : 2^(LF-LT) = 2*p := by rw [hp, ← pow_succ']; congr 1; omega
  have hp0 : 0 < p := by rw [hp]; positivity
  have e3 : (2:Int)^(LF-LT) = ((2*p : Nat) : Int) := by exact_mod_cast e2
  rw [← round_centred hp0 x, e3]
  rw [e2, Nat.mul_div_cancel_left p (by norm_num)] at hy
  rw [ZMod.intCast_eq_intCast_iff_dvd_sub, e, e2]
  have h1 := Nat.div_add_mod ((x + p) / (2*p)) (2^LT)
  rw [← hy] at h1
  refine ⟨((((x + p) / (2*p)) / 2^LT : Nat) : Int), ?_⟩
  have h2 := congrArg (Nat.cast : Nat → Int) h1
  rw [← h2]
  push_cast
  ring

/-- `RS` with the error of the mask as a function of the mask -/
theorem RS_round {LF LT p : Nat} [NeZero LF] [NeZero LT] (h : LT < LF) (hp : p = 2^(LF-LT-1)) (ct : R_Q_square LF N)
    (hc : ct.Canonical) (ct0 : R_Q_square LT N) (s : Fin N → Int) :
    Ok (RS ct ct0) fun y => y.Canonical ∧ ∀ m : Fin N → Int, red LT m = R_Q_square.phase s y →
      ∃ δ : Fin N → Int, (∀ i, 2 * |δ i| ≤ 2^(LF-LT)) ∧
        red LF ((2^(LF-LT) : Int) • m) = R_Q_square.phase s ct +
          red LF (δ - negconv s (fun j => centred p ((ct.2 j).val % (2*p)))) := by
  unfold RS
  refine Ok.bind (tabM_spec (P := fun i (q : Z_Q LT × Z_Q LT) => ∀ h : i < N,
      q.1.val = ((ct.1 ⟨i, h⟩).val + 2^(LF-LT) / 2) / 2^(LF-LT) % 2^LT ∧
      q.2.val = ((ct.2 ⟨i, h⟩).val + 2^(LF-LT) / 2) / 2^(LF-LT) % 2^LT) ?_) fun r hr => ?_
  · intro i hi
    simp only [rd_of_lt _ hi, pure_bind]
    refine Ok.bind (shift_right_spec (hc.1 ⟨i, hi⟩) _ h.le) fun a ha => ?_
    refine Ok.bind (shift_right_spec (hc.2 ⟨i, hi⟩) _ h.le) fun b hb => Ok.pure fun _ => ⟨ha, hb⟩
  · choose δ0 h0 using fun i : Fin N => round_int h.le (ct.1 i).val (r i).1.val (hr i i.isLt).1
    have h1 := fun i : Fin N => round_exact h hp (ct.2 i).val (r i).2.val (hr i i.isLt).2
    refine Ok.pure ⟨⟨fun i => canonical_of_mod (hr i i.isLt).1, fun i => canonical_of_mod (hr i i.isLt).2⟩, fun m hm => ?_⟩
    refine ⟨δ0, fun i => (h0 i).1, ?_⟩
    have e0 : red LF ((2^(LF-LT) : Int) • fun i => ((r i).1.val : Int)) = R_Q.cls ct.1 + red LF δ0 := by
      rw [R_Q_cls_val, ← red_add]
      funext i
      exact (h0 i).2
    have e1 : red LF ((2^(LF-LT) : Int) • fun i => ((r i).2.val : Int)) =
        R_Q.cls ct.2 + red LF (-(fun j => centred p ((ct.2 j).val % (2*p)))) := by
      rw [R_Q_cls_val, ← red_add]
      funext i
      exact h1 i
    have hm' : red LT m = red LT ((fun i => ((r i).1.val : Int)) + negconv s (fun i => ((r i).2.val : Int))) := by
      rw [hm, phase_eq, red_add, red_negconv]
      congr 1
      · exact R_Q_cls_val _
      · congr 1; exact R_Q_cls_val _
    have en : negconv s (-(fun j => centred p ((ct.2 j).val % (2*p)))) = -negconv s (fun j => centred p ((ct.2 j).val % (2*p))) := by
      have := negconv_smul s (fun j => centred p ((ct.2 j).val % (2*p))) (-1)
      simpa using this
    rw [red_scale h.le hm', smul_add, red_add, ← negconv_smul, red_negconv, e0, e1, negconv_add, phase_eq,
      sub_eq_add_neg, ← en, red_add, red_negconv]
    abel

/-! ## residues of the masks -/

theorem card_residue {m n : Nat} (b : Fin n) : (univ.filter fun x : Fin (m*n) => x.modNat = b).card = m := by
  have h : (univ.filter fun x : Fin (m*n) => x.modNat = b) = (univ : Finset (Fin m)).map ⟨fun i => finProdFinEquiv (i, b), fun i j h => by
      have := finProdFinEquiv.injective h
      exact (Prod.mk.inj this).1⟩ := by
    ext x
    simp only [mem_filter, mem_univ, true_and, mem_map]
    constructor
    · rintro rfl
      exact ⟨x.divNat, finProdFinEquiv.apply_symm_apply x⟩
    · rintro ⟨i, rfl⟩
      have := finProdFinEquiv.symm_apply_apply (i, b)
      exact congrArg Prod.snd this
  rw [h, card_map, card_univ, Fintype.card_fin]

open Classical in
/-- a property of the residues of the numbers below `q = m·n` has the same proportion as among the residues -/
theorem residue_count {q m n : Nat} (hq : q = m*n) (hn : 0 < n) (P : (Fin N → Fin n) → Prop) :
    (univ.filter fun a : Fin N → Fin q => P fun j => ⟨(a j).val % n, Nat.mod_lt _ hn⟩).card = m^N * (univ.filter P).card := by
  subst hq
  have h := card_comp_fibre (fun (a : Fin N → Fin (m*n)) (j : Fin N) => (a j).modNat) (m^N) (fun b => by
    have := card_pi_fibre (ι := Fin N) (fun x : Fin (m*n) => x.modNat) m card_residue b
    rwa [Fintype.card_fin] at this) P
  exact h

/-! ## the product with the key -/

theorem convMat_tern {s : Fin N → Int} (hs : Ternary s) (i : Fin N) :
    ∑ j, |convMat (fun k => (s k : ℝ)) i j| = weight s := by
  have h : ∀ j, |convMat (fun k => (s k : ℝ)) i j| = convMat (fun k => (s k : ℝ)) i j ^ 2 := fun j => by
    have ht : ∀ k, |(s k : ℝ)| = (s k : ℝ)^2 := fun k => by rcases hs k with h | h | h <;> simp [h]
    unfold convMat
    split_ifs
    · exact ht _
    · rw [abs_neg, neg_sq]; exact ht _
  rw [sum_congr rfl fun j _ => h j, convMat_sq]
  have : ∀ k, (s k : ℝ)^2 = ((|s k| : Int) : ℝ) := fun k => by rcases hs k with h | h | h <;> simp [h]
  rw [sum_congr rfl fun k _ => this k, ← Int.cast_sum, hs.sum_abs, Int.cast_natCast]

theorem key_squares {s : Fin N → Int} (hs : Ternary s) {h : Nat} (hh : weight s ≤ h) : ∑ k, (s k : ℝ)^2 ≤ h := by
  have : ∀ k, (s k : ℝ)^2 = ((|s k| : Int) : ℝ) := fun k => by rcases hs k with h | h | h <;> simp [h]
  rw [sum_congr rfl fun k _ => this k, ← Int.cast_sum, hs.sum_abs, Int.cast_natCast]
  exact_mod_cast hh

theorem slotOf_abs {m : Fin N → ℝ} {ε : ℝ} (h : ∀ k, |m k| ≤ ε) (i : Nat) : ‖slotOf m i‖ ≤ N * ε := by
  rw [slotOf_zeta]
  refine (norm_sum_le _ _).trans ((sum_le_sum fun k _ => show _ ≤ ε from ?_).trans (le_of_eq ?_))
  · rw [norm_mul, norm_zeta_pow, mul_one, Complex.norm_real, Real.norm_eq_abs]
    exact h k
  · rw [sum_const, card_univ, Fintype.card_fin, nsmul_eq_mul]

theorem negconv_real (s c : Fin N → Int) (i : Fin N) :
    ((negconv s c i : Int) : ℝ) = ∑ j, convMat (fun k => (s k : ℝ)) i j * (c j : ℝ) := by
  rw [negconv_comm, ← negconv_mat]
  unfold negconv
  rw [Int.cast_sum]
  refine sum_congr rfl fun j _ => ?_
  split_ifs <;> push_cast <;> rfl

/-- the error of the mask is the product of the key with the centred remainders up to their mean -/
theorem mask_error {s : Fin N → Int} (hs : Ternary s) {h : Nat} (hh : weight s ≤ h) {p : Nat} (hp : 0 < p) (c : Fin N → Int) (i : Fin N) {t : ℝ}
    (ht : |∑ j, convMat (fun k => (s k : ℝ)) i j * (((c j : ℝ) + 1/2) / (2*p))| < t) :
    |((negconv s c i : Int) : ℝ)| < 2*p*t + h/2 := by
  have hp' : (0:ℝ) < p := by exact_mod_cast hp
  rw [negconv_real]
  have e : ∑ j, convMat (fun k => (s k : ℝ)) i j * (c j : ℝ) =
      2*p * ∑ j, convMat (fun k => (s k : ℝ)) i j * (((c j : ℝ) + 1/2) / (2*p)) - (∑ j, convMat (fun k => (s k : ℝ)) i j) / 2 := by
    rw [mul_sum, sum_div, ← sum_sub_distrib]
    refine sum_congr rfl fun j _ => ?_
    field_simp
    ring
  have h1 : |∑ j, convMat (fun k => (s k : ℝ)) i j| ≤ h := by
    refine (abs_sum_le_sum_abs _ _).trans ?_
    rw [convMat_tern hs]
    exact_mod_cast hh
  rw [e]
  refine (abs_sub _ _).trans_lt ?_
  rw [abs_mul, abs_of_pos (show (0:ℝ) < 2*p by positivity), abs_div, abs_two]
  have := mul_lt_mul_of_pos_left ht (show (0:ℝ) < 2*p by positivity)
  linarith

/-! ## a fresh ciphertext -/

section
variable {LF LT : Nat} [NeZero LF] [NeZero LT]

/-- a rescaled residue is determined by its product with `2^(LF-LT)` modulo `2^LF` -/
theorem rescaled_value (h : LT ≤ LF) {m : Z_Q LT} {x : Int}
    (hm : ((2^(LF-LT) * m.sval : Int) : ZMod (2^LF)) = (x : ZMod (2^LF))) (hx : 2 * |x| < 2^LF) :
    2^(LF-LT) * m.sval = x := by
  rw [ZMod.intCast_eq_intCast_iff_dvd_sub] at hm
  obtain ⟨c, hc⟩ := hm
  obtain ⟨b1, b2⟩ := sval_bounds m
  have eT : (2:Int)^LT = 2 * 2^(LT-1) := by exact_mod_cast two_mul_half LT
  have e : (2:Int)^LF = 2^(LF-LT) * 2^LT := by rw [← pow_add]; congr 1; omega
  have hp : (0:Int) < 2^(LF-LT) := by positivity
  have h1 : -2^LF ≤ 2 * (2^(LF-LT) * m.sval) ∧ 2 * (2^(LF-LT) * m.sval) < 2^LF := by
    rw [e, eT]
    constructor <;> nlinarith
  push_cast at hc
  have hx1 := neg_abs_le x
  have hx2 := le_abs_self x
  generalize (2:Int)^(LF-LT) * m.sval = y at *
  generalize (2:Int)^LF = q at *
  have hc0 : c = 0 := by
    by_contra hne
    rcases lt_or_gt_of_ne hne with h | h
    · have : q * c ≤ q * (-1) := mul_le_mul_of_nonneg_left (by omega) (by omega)
      omega
    · have : q * 1 ≤ q * c := mul_le_mul_of_nonneg_left (by omega) (by omega)
      omega
  rw [hc0] at hc
  omega

theorem centred_abs {p x : Nat} (hx : x < 2*p) : 2 * |centred p x| ≤ 2*p := by
  unfold centred
  split_ifs with h
  · rw [abs_of_nonneg (by omega)]; omega
  · rw [abs_of_nonpos (by omega)]; omega

/-- encryption, rescaling and decryption -/
theorem rescale_fresh (R : Nat) (hN : N ≤ 2^30) {p : Nat} (hl : LT < LF) (hp : p = 2^(LF-LT-1)) {s : Fin N → Int} (hs : Ternary s)
    {h : ℕ} (hh : weight s ≤ h) (pt : R_Q LF N) (hpt : ∀ k, 2 * (|(pt k).sval| + 8) + 2^(LF-LT) * (h+1) < 2^LF)
    (ct0 : R_Q_square LF N) (ct1 : R_Q_square LT N) (ω : Rng) :
    Ok (do
        let ct ← enc R pt s ct0 ω
        let ct' ← RS ct.1 ct1
        dec ct' s) fun m => ∃ δ e : Fin N → Int, (∀ i, 2 * |δ i| ≤ 2*p) ∧ (∀ i, |e i| ≤ 8) ∧
      ∀ i, ((2*p : Nat) : Int) * (m i).sval = (pt i).sval + e i + δ i -
        negconv s (fun j => centred p (((encMask R ct0.2 ω).1 j).val % (2*p))) i := by
  have hp0 : 0 < p := by rw [hp]; positivity
  have e2 : (2:Int)^(LF-LT) = ((2*p : Nat) : Int) := by
    rw [hp]; push_cast; rw [← pow_succ']; congr 1; omega
  obtain ⟨ct, ect, hct, e, he, hph⟩ := enc_spec R hN hs pt ct0 ω
  have em : ct.1.2 = (encMask R ct0.2 ω).1 := by
    unfold enc at ect
    obtain ⟨c, ec, _⟩ := convS_spec hN s (encMask R ct0.2 ω).1
    simp only [ec, pure_bind] at ect
    exact (congrArg (fun r => r.1.2) (pure_inj ect)).symm
  rw [ect, pure_bind]
  refine Ok.bind (RS_round hl hp ct.1 hct ct1 s) fun y ⟨_, hy⟩ => ?_
  refine Ok.mono (dec_spec hN hs y) fun m ⟨_, hm⟩ => ?_
  obtain ⟨δ, hδ, hE⟩ := hy (R_Q.sval m) (by rw [← cls_red_sval, hm])
  rw [em, hph] at hE
  obtain ⟨c, hc⟩ : ∃ c : Fin N → Int, c = fun j => centred p (((encMask R ct0.2 ω).1 j).val % (2*p)) := ⟨_, rfl⟩
  rw [← hc] at hE
  refine ⟨δ, e, fun i => ?_, he, fun i => ?_⟩
  · have := hδ i; rw [e2] at this; exact_mod_cast this
  · have hcb : ∀ j, |2 * c j| ≤ 2^(LF-LT) := fun j => by
      rw [e2, hc, abs_mul, abs_two]
      exact_mod_cast centred_abs (Nat.mod_lt _ (by omega))
    have h1 : |negconv s (fun j => 2 * c j) i| ≤ (∑ k, |s k|) * 2^(LF-LT) := negconv_abs_le s _ hcb i
    have h2 : negconv s (fun j => 2 * c j) i = 2 * negconv s c i := congrFun (negconv_smul s c 2) i
    rw [h2, abs_mul, abs_two, hs.sum_abs] at h1
    have hw : ((weight s : Int) * 2^(LF-LT)) ≤ h * 2^(LF-LT) := mul_le_mul_of_nonneg_right (by exact_mod_cast hh) (by positivity)
    have h3 : ((2^(LF-LT) * (m i).sval : Int) : ZMod (2^LF)) = (((pt i).sval + e i + δ i - negconv s c i : Int) : ZMod (2^LF)) := by
      have := congrFun hE i
      rw [cls_red_sval] at this
      simp only [red, Pi.add_apply, Pi.sub_apply, Pi.smul_apply, smul_eq_mul, R_Q.sval] at this
      rw [this]
      push_cast
      ring
    rw [← e2, ← hc]
    refine rescaled_value hl.le h3 ?_
    have h4 := hpt i
    have h5 := hδ i
    have h6 := he i
    have a1 := abs_sub ((pt i).sval + e i + δ i) (negconv s c i)
    have a2 := abs_add_le ((pt i).sval + e i) (δ i)
    have a3 := abs_add_le ((pt i).sval) (e i)
    have a4 : (2:Int)^(LF-LT) * (h+1) = h * 2^(LF-LT) + 2^(LF-LT) := by ring
    rw [a4] at h4
    linarith

open Classical in
theorem count_residue {p : Nat} (hl : LT < LF) (hp : p = 2^(LF-LT-1)) {b : Fin N → ℝ} {h : ℕ} (hb : ∑ k, b k ^ 2 ≤ h) {T : ℝ} (hT : 0 ≤ T) :
    ((univ.filter fun a : Fin N → Fin (2*2^(LF-1)) => ∃ i, T ≤ |∑ j, convMat b i j *
      (((centred p (((polyOf a : R_Q LF N) j).val % (2*p)) : Int) + 1/2) / (2*p))|).card : ℝ) ≤
      2 * N * Real.exp (-(6*T^2/h)) * ((2*2^(LF-1) : ℕ):ℝ)^N := by
  have hp0 : 0 < p := by rw [hp]; positivity
  have hq : 2*2^(LF-1) = 2^LT * (2*p) := by
    rw [hp, ← pow_succ', ← pow_succ', ← pow_add]; congr 1
    have := NeZero.ne LF
    omega
  have h1 := residue_count (N := N) hq (show 0 < 2*p by omega) (fun a => ∃ i, T ≤ |∑ j, convMat b i j * (((centred p (a j).val : Int) + 1/2) / (2*p))|)
  have h2 : (univ.filter fun a : Fin N → Fin (2*2^(LF-1)) => ∃ i, T ≤ |∑ j, convMat b i j *
      (((centred p (((polyOf a : R_Q LF N) j).val % (2*p)) : Int) + 1/2) / (2*p))|) =
      (univ.filter fun a : Fin N → Fin (2*2^(LF-1)) => ∃ i, T ≤ |∑ j, convMat b i j * (((centred p ((a j).val % (2*p)) : Int) + 1/2) / (2*p))|) := by
    refine filter_congr fun a _ => ?_
    have : ∀ j, ((polyOf a : R_Q LF N) j).val = (a j).val := fun j => val_ofNat_of_lt (lt_of_fin _)
    simp only [this]
  rw [h2]
  have h3 := count_large p hp0 b (12*T/h) T (by positivity)
  have h4 : (∑ k, b k ^ 2) * (12*T/h)^2/24 - (12*T/h)*T ≤ -(6*T^2/h) := by
    rcases Nat.eq_zero_or_pos h with rfl | h0
    · simp
    · have h0' : (0:ℝ) < h := by exact_mod_cast h0
      have : (∑ k, b k ^ 2) * (12*T/h)^2/24 ≤ h * (12*T/h)^2/24 := by
        refine div_le_div_of_nonneg_right (mul_le_mul_of_nonneg_right hb (by positivity)) (by norm_num)
      refine (sub_le_sub_right this _).trans (le_of_eq ?_)
      field_simp
      ring
  have h5 := h3.trans (mul_le_mul_of_nonneg_right (mul_le_mul_of_nonneg_left (Real.exp_le_exp.2 h4) (by positivity)) (by positivity))
  refine (le_of_eq (congrArg (Nat.cast : Nat → ℝ) (Eq.trans (by congr!) h1))).trans ?_
  rw [hq]
  push_cast
  push_cast at h5
  rw [mul_pow]
  refine (le_of_eq ?_).trans ((mul_le_mul_of_nonneg_left h5 (by positivity : (0:ℝ) ≤ (2^LT)^N)).trans (le_of_eq ?_))
  · congr!
  · ring

end

open Classical in
/-- all slots of independent copies of a sub-Gaussian value -/
theorem slots_tail_sub {α : Type*} [Fintype α] (f : α → ℝ) {v : ℝ} (hv : 0 < v)
    (hf : ∀ l, ∑ x, Real.exp (l * f x) ≤ Fintype.card α * Real.exp (v * l^2 / 2)) (hN : 0 < N) (h2 : 2 ∣ N) {T : ℝ} (hT : 0 ≤ T) :
    ((univ.filter fun u : Fin N → α => ∃ i < N/2, T ≤ ‖slotOf (fun k => f (u k)) i‖).card : ℝ) ≤
      2*N * Real.exp (-(T^2 / (2 * v * N))) * Fintype.card (Fin N → α) := by
  obtain ⟨τ, hτ⟩ : ∃ τ, τ = T / Real.sqrt 2 := ⟨_, rfl⟩
  have hτ0 : 0 ≤ τ := by rw [hτ]; positivity
  have hτ2 : τ^2 = T^2/2 := by rw [hτ, div_pow, Real.sq_sqrt (by norm_num)]
  have hN0 : (0:ℝ) < N := by exact_mod_cast hN
  obtain ⟨E, hE⟩ : ∃ E, E = Real.exp (-(T^2 / (2 * v * N))) * Fintype.card (Fin N → α) := ⟨_, rfl⟩
  -- one combination with squares `N/2`
  have key : ∀ w : Fin N → ℝ, ∑ k, w k^2 = N/2 →
      ((univ.filter fun u : Fin N → α => τ ≤ ∑ k, w k * f (u k)).card : ℝ) ≤ E := by
    intro w hw
    have h := chernoff_sub f hv hf w (W := N/2) (by positivity) hw.le hτ0
    refine h.trans (le_of_eq ?_)
    rw [hE, hτ2]
    congr 3
    rw [div_eq_div_iff (by positivity) (by positivity)]
    ring
  have hre : ∀ (u : Fin N → α) (i : Nat), (slotOf (fun k => f (u k)) i).re =
      ∑ k : Fin N, (zeta N ^ (5^i * k.val)).re * f (u k) := fun u i => by
    rw [slotOf_zeta, Complex.re_sum]
    exact sum_congr rfl fun k _ => by rw [Complex.re_ofReal_mul, mul_comm]
  have him : ∀ (u : Fin N → α) (i : Nat), (slotOf (fun k => f (u k)) i).im =
      ∑ k : Fin N, (zeta N ^ (5^i * k.val)).im * f (u k) := fun u i => by
    rw [slotOf_zeta, Complex.im_sum]
    exact sum_congr rfl fun k _ => by rw [Complex.im_ofReal_mul, mul_comm]
  -- the four sides of one slot
  have hslot : ∀ i : Nat, ((univ.filter fun u : Fin N → α =>
      T ≤ ‖slotOf (fun k => f (u k)) i‖).card : ℝ) ≤ 4 * E := by
    intro i
    obtain ⟨q1, q2⟩ := slot_squares hN h2 i
    have k1 := key (fun k => (zeta N ^ (5^i * k.val)).re) q1
    have k2 := key (fun k => -(zeta N ^ (5^i * k.val)).re) (by simpa using q1)
    have k3 := key (fun k => (zeta N ^ (5^i * k.val)).im) q2
    have k4 := key (fun k => -(zeta N ^ (5^i * k.val)).im) (by simpa using q2)
    have hsub : (univ.filter fun u : Fin N → α => T ≤ ‖slotOf (fun k => f (u k)) i‖) ⊆
        ((univ.filter fun u : Fin N → α => τ ≤ ∑ k, (zeta N ^ (5^i * k.val)).re * f (u k)) ∪
         (univ.filter fun u : Fin N → α => τ ≤ ∑ k, -(zeta N ^ (5^i * k.val)).re * f (u k))) ∪
        ((univ.filter fun u : Fin N → α => τ ≤ ∑ k, (zeta N ^ (5^i * k.val)).im * f (u k)) ∪
         (univ.filter fun u : Fin N → α => τ ≤ ∑ k, -(zeta N ^ (5^i * k.val)).im * f (u k))) := by
      intro u hu
      rw [mem_filter] at hu
      have := norm_split hτ2 hT hu.2
      rw [hre, him] at this
      simp only [mem_union, mem_filter, mem_univ, true_and, neg_mul, sum_neg_distrib]
      tauto
    have c1 := card_le_card hsub
    have c2 := c1.trans ((card_union_le _ _).trans (Nat.add_le_add (card_union_le _ _) (card_union_le _ _)))
    have c3 : ((univ.filter fun u : Fin N → α => T ≤ ‖slotOf (fun k => f (u k)) i‖).card : ℝ) ≤ _ :=
      Nat.cast_le.2 c2
    push_cast at c3
    linarith
  have hsub : (univ.filter fun u : Fin N → α => ∃ i < N/2, T ≤ ‖slotOf (fun k => f (u k)) i‖) ⊆
      (range (N/2)).biUnion fun i => univ.filter fun u : Fin N → α => T ≤ ‖slotOf (fun k => f (u k)) i‖ := by
    intro u hu
    simp only [mem_filter, mem_univ, true_and, mem_biUnion, mem_range] at hu ⊢
    exact hu
  have h5 : ((univ.filter fun u : Fin N → α => ∃ i < N/2, T ≤ ‖slotOf (fun k => f (u k)) i‖).card : ℝ) ≤
      ∑ i ∈ range (N/2), ((univ.filter fun u : Fin N → α => T ≤ ‖slotOf (fun k => f (u k)) i‖).card : ℝ) := by
    rw [← Nat.cast_sum]
    exact Nat.cast_le.2 ((card_le_card hsub).trans card_biUnion_le)
  refine h5.trans ((sum_le_sum fun i _ => hslot i).trans (le_of_eq ?_))
  obtain ⟨m, rfl⟩ := h2
  rw [sum_const, card_range, nsmul_eq_mul, Nat.mul_div_cancel_left _ (by norm_num), hE]
  push_cast
  ring

/-! ## slots of the residues -/

section
variable {LF LT : Nat} [NeZero LF] [NeZero LT]

open Classical in
theorem count_residue_slots {p : Nat} (hl : LT < LF) (hp : p = 2^(LF-LT-1)) (hN : 0 < N) (h2 : 2 ∣ N) {T : ℝ} (hT : 0 ≤ T) :
    ((univ.filter fun a : Fin N → Fin (2*2^(LF-1)) => ∃ i < N/2, T ≤ ‖slotOf (fun j =>
      (((centred p (((polyOf a : R_Q LF N) j).val % (2*p)) : Int) : ℝ) + 1/2) / (2*p)) i‖).card : ℝ) ≤
      2 * N * Real.exp (-(6*T^2/N)) * ((2*2^(LF-1) : ℕ):ℝ)^N := by
  have hp0 : 0 < p := by rw [hp]; positivity
  have hq : 2*2^(LF-1) = 2^LT * (2*p) := by
    rw [hp, ← pow_succ', ← pow_succ', ← pow_add]; congr 1
    have := NeZero.ne LF
    omega
  have h1 := residue_count (N := N) hq (show 0 < 2*p by omega) (fun a => ∃ i < N/2, T ≤ ‖slotOf (fun j =>
      (((centred p (a j).val : Int) : ℝ) + 1/2) / (2*p)) i‖)
  have h3 : (univ.filter fun a : Fin N → Fin (2*2^(LF-1)) => ∃ i < N/2, T ≤ ‖slotOf (fun j =>
      (((centred p (((polyOf a : R_Q LF N) j).val % (2*p)) : Int) : ℝ) + 1/2) / (2*p)) i‖) =
      (univ.filter fun a : Fin N → Fin (2*2^(LF-1)) => ∃ i < N/2, T ≤ ‖slotOf (fun j =>
      (((centred p ((a j).val % (2*p)) : Int) : ℝ) + 1/2) / (2*p)) i‖) := by
    refine filter_congr fun a _ => ?_
    have : ∀ j, ((polyOf a : R_Q LF N) j).val = (a j).val := fun j => val_ofNat_of_lt (lt_of_fin _)
    simp only [this]
  rw [h3]
  have h5 := slots_tail_sub (N := N) (fun x : Fin (2*p) => (((centred p x.val : Int) : ℝ) + 1/2) / (2*p)) (v := 1/12) (by norm_num) (fun l => by
    rw [Fin.sum_univ_eq_sum_range (fun x => Real.exp (l * ((((centred p x : Int) : ℝ) + 1/2) / (2*p)))), Fintype.card_fin]
    refine (mgf_le p hp0 l).trans (le_of_eq ?_)
    push_cast
    congr 2
    ring) hN h2 hT
  have e6 : T^2 / (2 * (1/12) * (N:ℝ)) = 6*T^2/N := by
    have : (0:ℝ) < N := by exact_mod_cast hN
    field_simp
    ring
  rw [e6, Fintype.card_fun, Fintype.card_fin, Fintype.card_fin] at h5
  refine (le_of_eq (congrArg (Nat.cast : Nat → ℝ) (Eq.trans (by congr!) h1))).trans ?_
  rw [hq]
  push_cast
  push_cast at h5
  rw [mul_pow]
  refine (le_of_eq ?_).trans ((mul_le_mul_of_nonneg_left h5 (by positivity : (0:ℝ) ≤ (2^LT)^N)).trans (le_of_eq ?_))
  · congr!
  · ring

end

end EvalRound

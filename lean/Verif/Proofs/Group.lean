import Verif.Proofs.LinTransSlots
import Verif.Props.Matrix

/-! # Grouped linear transforms -/

set_option linter.unusedSectionVars false

namespace EvalRound
open Z_Q Finset SparseDiagonal

variable {H S S1 S2 D : Nat}

/-- shape of the matrices that can be multiplied -/
structure SDOk (A : SD2 H S) : Prop where
  rng : A.1.InRange
  off : A.1.SameOff A.2
  flag : A.1.FlagSound ∧ A.2.FlagSound

/-- shape of a product -/
structure SDProd (A : SD2 H S) : Prop extends SDOk A where
  offEq : A.1.off = A.2.off
  own : A.1.FirstOwns ∧ A.2.FirstOwns

theorem LTMat.ok {A : SD2 H S} {ρ : ℝ} (h : LTMat A ρ) : SDOk A := ⟨h.rng, fun s _ => congrFun h.off s, h.flag⟩

theorem matMulC_ok (hH : H ≤ 2^30) (hH1 : 1 ≤ H) {A : SD2 H S1} {B : SD2 H S2} (hA : SDOk A) (hB : SDOk B)
    (C0 C1 : SparseDiagonal H (S1 * S2)) :
    Ok (MatMulC A.1 A.2 B.1 B.2 C0 C1) fun C => SDProd C ∧ denC C.1 C.2 = denC A.1 A.2 * denC B.1 B.2 :=
  Ok.mono (C31_MatMulC hH hH1 hA.rng hB.rng hA.off hB.off hA.flag.1 hA.flag.2 hB.flag.1 hB.flag.2 C0 C1)
    fun _ ⟨h1, h2, h3, h4, h5, h6, h7⟩ => ⟨⟨⟨h2, fun s _ => congrFun h3 s, h4, h5⟩, h3, h6, h7⟩, h1⟩

/-- an entry of a diagonal is an entry of the matrix, or zero -/
theorem SDProd.entry {A : SD2 H S} (h : SDProd A) (s : Fin S) (i : Fin H) :
    ‖(⟨A.1.vec s i, A.2.vec s i⟩ : ℂ)‖ ≤ ‖denC A.1 A.2 i (shift (A.1.off s) i)‖ := by
  by_cases hex : ∃ s', s' < s ∧ A.1.off s' = A.1.off s
  · obtain ⟨s', h1, h2⟩ := hex
    rw [h.own.1 s' s h1 h2 i, h.own.2 s' s h1 (by rw [← h.offEq]; exact h2) i]
    have : (⟨0, 0⟩ : ℂ) = 0 := rfl
    rw [this, norm_zero]
    exact norm_nonneg _
  · have hne : ∀ s', s' < s → shift (A.1.off s') i ≠ shift (A.1.off s) i := fun s' hs' e =>
      hex ⟨s', hs', shift_inj_off (h.rng s') (h.rng s) e⟩
    have r2 : InRange A.2 := fun s => by rw [← h.offEq]; exact h.rng s
    apply le_of_eq
    unfold denC
    rw [den_of_first h.rng h.own.1 rfl hne, den_of_first r2 h.own.2 (s := s) (by rw [← h.offEq])
      (fun s' hs' => by rw [← h.offEq]; exact hne s' hs')]

theorem row_mul {M M' : Matrix (Fin H) (Fin H) ℂ} {ρ ρ' : ℝ} (hρ : 0 ≤ ρ') (h : ∀ i, ∑ j, ‖M i j‖ ≤ ρ)
    (h' : ∀ i, ∑ j, ‖M' i j‖ ≤ ρ') (i : Fin H) : ∑ j, ‖(M * M') i j‖ ≤ ρ * ρ' := by
  calc ∑ j, ‖(M * M') i j‖ ≤ ∑ j, ∑ l, ‖M i l‖ * ‖M' l j‖ := by
        refine sum_le_sum fun j _ => ?_
        rw [Matrix.mul_apply]
        refine (norm_sum_le _ _).trans (le_of_eq ?_)
        exact sum_congr rfl fun l _ => norm_mul _ _
    _ = ∑ l, ‖M i l‖ * ∑ j, ‖M' l j‖ := by rw [sum_comm]; exact sum_congr rfl fun l _ => by rw [mul_sum]
    _ ≤ ∑ l, ‖M i l‖ * ρ' := sum_le_sum fun l _ => mul_le_mul_of_nonneg_left (h' l) (norm_nonneg _)
    _ = (∑ l, ‖M i l‖) * ρ' := by rw [sum_mul]
    _ ≤ ρ * ρ' := mul_le_mul_of_nonneg_right (h i) hρ

theorem SDProd.lt {A : SD2 H S} (h : SDProd A) {ρ : ℝ} (hr : ∀ i, ∑ j, ‖denC A.1 A.2 i j‖ ≤ ρ) : LTMat A ρ :=
  ⟨h.offEq, h.rng, h.flag, fun s i => (h.entry s i).trans
    ((single_le_sum (f := fun j => ‖denC A.1 A.2 i j‖) (fun _ _ => norm_nonneg _) (mem_univ _)).trans (hr i)), hr⟩

theorem seqMat_add (A : Nat → Matrix (Fin H) (Fin H) ℂ) (a b : Nat) :
    seqMat A (a + b) = seqMat (fun j => A (a + j)) b * seqMat A a := by
  induction b with
  | zero => rw [add_zero]; simp only [seqMat, Matrix.one_mul]
  | succ b ih => rw [← add_assoc, seqMat, ih, seqMat, Matrix.mul_assoc]

theorem seqMat_group {A B : Nat → Matrix (Fin H) (Fin H) ℂ} {g t : Nat}
    (h : ∀ i, i < t → B i = seqMat (fun j => A (g * i + j)) g) : seqMat B t = seqMat A (g * t) := by
  induction t with
  | zero => rfl
  | succ t ih => rw [seqMat, ih (fun i hi => h i (by omega)), h t (by omega), Nat.mul_succ, seqMat_add]

theorem div_idx {D g i j : Nat} (hi : i < D / g) (hj : j < g) : g * i + j < D := by
  have h1 : D / g * g ≤ D := Nat.div_mul_le_self D g
  have h2 : (i + 1) * g ≤ D / g * g := Nat.mul_le_mul_right g hi
  have h3 : (i + 1) * g = g * i + g := by ring
  omega

/-- what a group of `g` matrices is replaced by -/
def GroupOf (A : Fin D → SD2 H S) (g i : Nat) (B : SD2 H S2) : Prop :=
  SDProd B ∧ denC B.1 B.2 = seqMat (fun j => mats A (g * i + j)) g

theorem group2_spec (hH : H ≤ 2^30) (hH1 : 1 ≤ H) {A : Fin D → SD2 H S} (hA : ∀ d, SDOk (A d)) (hD : D % 2 = 0) :
    Ok (group2 A) fun B => ∀ i : Fin (D/2), GroupOf A 2 i (B i) := by
  unfold group2
  rw [show assertM (decide (D % 2 = 0)) = pure () by rw [hD]; rfl, pure_bind]
  refine tabM_spec (P := fun i b => GroupOf A 2 i b) fun i hi => ?_
  have d0 := div_idx (j := 0) hi (by norm_num)
  have d1 := div_idx (j := 1) hi (by norm_num)
  rw [rd_of_lt A d1, pure_bind, rd_of_lt A (show 2*i < D from d0), pure_bind]
  refine Ok.mono (matMulC_ok hH hH1 (hA _) (hA _) _ _) fun B ⟨h1, h2⟩ => ⟨h1, ?_⟩
  rw [h2]
  simp only [seqMat, mul_one]
  rw [mats_lt A d1, mats_lt A d0]
  rfl

theorem group3_spec (hH : H ≤ 2^30) (hH1 : 1 ≤ H) {A : Fin D → SD2 H S} (hA : ∀ d, SDOk (A d)) (hD : D % 3 = 0) :
    Ok (group3 A) fun B => ∀ i : Fin (D/3), GroupOf A 3 i (B i) := by
  unfold group3
  rw [show assertM (decide (D % 3 = 0)) = pure () by rw [hD]; rfl, pure_bind]
  refine tabM_spec (P := fun i b => GroupOf A 3 i b) fun i hi => ?_
  have d0 := div_idx (j := 0) hi (by norm_num)
  have d1 := div_idx (j := 1) hi (by norm_num)
  have d2 := div_idx (j := 2) hi (by norm_num)
  rw [rd_of_lt A d1, pure_bind, rd_of_lt A (show 3*i < D from d0), pure_bind]
  refine Ok.bind (matMulC_ok hH hH1 (hA _) (hA _) _ _) fun B ⟨h1, h2⟩ => ?_
  rw [rd_of_lt A d2, pure_bind]
  refine Ok.mono (matMulC_ok hH hH1 (hA _) h1.toSDOk _ _) fun C ⟨h3, h4⟩ => ⟨h3, ?_⟩
  rw [h4, h2]
  simp only [seqMat, mul_one]
  rw [mats_lt A d2, mats_lt A d1, mats_lt A d0]
  rfl

theorem group4_spec (hH : H ≤ 2^30) (hH1 : 1 ≤ H) {A : Fin D → SD2 H S} (hA : ∀ d, SDOk (A d)) (hD : D % 4 = 0) :
    Ok (group4 A) fun B => ∀ i : Fin (D/4), GroupOf A 4 i (B i) := by
  unfold group4
  rw [show assertM (decide (D % 4 = 0)) = pure () by rw [hD]; rfl, pure_bind]
  refine tabM_spec (P := fun i b => GroupOf A 4 i b) fun i hi => ?_
  have d0 := div_idx (j := 0) hi (by norm_num)
  have d1 := div_idx (j := 1) hi (by norm_num)
  have d2 := div_idx (j := 2) hi (by norm_num)
  have d3 := div_idx (j := 3) hi (by norm_num)
  rw [rd_of_lt A d1, pure_bind, rd_of_lt A (show 4*i < D from d0), pure_bind]
  refine Ok.bind (matMulC_ok hH hH1 (hA _) (hA _) _ _) fun B ⟨h1, h2⟩ => ?_
  rw [rd_of_lt A d2, pure_bind]
  refine Ok.bind (matMulC_ok hH hH1 (hA _) h1.toSDOk _ _) fun C ⟨h3, h4⟩ => ?_
  rw [rd_of_lt A d3, pure_bind]
  refine Ok.mono (matMulC_ok hH hH1 (hA _) h3.toSDOk _ _) fun E ⟨h5, h6⟩ => ⟨h5, ?_⟩
  rw [h6, h4, h2]
  simp only [seqMat, mul_one]
  rw [mats_lt A d3, mats_lt A d2, mats_lt A d1, mats_lt A d0]
  rfl

theorem GroupOf.seq {A : Fin D → SD2 H S} {g : Nat} (hD : D % g = 0) {B : Fin (D/g) → SD2 H S2}
    (h : ∀ i : Fin (D/g), GroupOf A g i (B i)) : seqMat (mats B) (D/g) = seqMat (mats A) D := by
  rw [seqMat_group (A := mats A) (g := g) (fun i hi => ?_), Nat.mul_div_cancel' (Nat.dvd_of_mod_eq_zero hD)]
  rw [mats_lt B hi]
  exact (h ⟨i, hi⟩).2

theorem GroupOf.lt {A : Fin D → SD2 H S} {g i : Nat} {ρ : ℝ} (hρ : 0 ≤ ρ) (hA : ∀ d, LTMat (A d) ρ)
    (hi : i < D/g) {B : SD2 H S2} (h : GroupOf A g i B) : LTMat B (ρ^g) := by
  refine h.1.lt fun p => ?_
  rw [h.2]
  have key : ∀ t, t ≤ g → ∀ p, ∑ j, ‖seqMat (fun j => mats A (g * i + j)) t p j‖ ≤ ρ^t := by
    intro t
    induction t with
    | zero =>
      intro _ p
      rw [seqMat, pow_zero]
      refine (sum_le_sum (g := fun j => if j = p then (1:ℝ) else 0) fun j _ => ?_).trans (le_of_eq (by simp))
      rw [Matrix.one_apply]
      by_cases hj : j = p
      · rw [if_pos hj, if_pos hj.symm, norm_one]
      · rw [if_neg hj, if_neg (Ne.symm hj), norm_zero]
    | succ t ih =>
      intro ht p
      rw [seqMat, pow_succ']
      refine row_mul (pow_nonneg hρ t) ?_ (ih (by omega)) p
      rw [mats_lt A (div_idx hi ht)]
      exact (hA _).row
  exact key g (le_refl g) p

section
variable {LOGQ n : Nat} [NeZero LOGQ]

theorem GroupOf.entry {A : Fin D → SD2 H S} {g i : Nat} {β : ℝ}
    (hβ : ∀ p q, ‖seqMat (fun j => mats A (g * i + j)) g p q‖ ≤ β) {B : SD2 H S2} (h : GroupOf A g i B)
    (s : Fin S2) (p : Fin H) : ‖(⟨B.1.vec s p, B.2.vec s p⟩ : ℂ)‖ ≤ β := by
  refine (h.1.entry s p).trans ?_
  rw [h.2]
  exact hβ _ _

/-- with a bound `β` for the entries of the groups -/
theorem groupedLT_slots' (R LOGDELTA : Nat) (hL : LOGDELTA < 64) (h1 : ConvLOGQ LOGQ) (h2 : ConvLOGQ (2 * LOGQ))
    (hn1 : 1 ≤ n) (hn : n ≤ 16) {s : Fin (2^(n+1)) → Int} (hs : Ternary s)
    {A : Fin D → SD2 (2^n) S} {ρ : ℝ} (hA : ∀ d, LTMat (A d) ρ) (hρ : 0 ≤ ρ) {G : Nat} (hG1 : 1 ≤ G) (hG : G ≤ 4)
    (hD : D % G = 0)
    {β : ℝ} (hβ : ∀ i, i < D/G → ∀ p q, ‖seqMat (fun j => mats A (G * i + j)) G p q‖ ≤ β)
    (hβA : ∀ d s i, ‖(⟨(A d).1.vec s i, (A d).2.vec s i⟩ : ℂ)‖ ≤ β) (hβ0 : 0 ≤ β)
    (hw : β * 2^LOGDELTA + 1/2 < 2^64) (hq : β * 2^LOGDELTA + 1/2 < 2^(LOGQ-1))
    {ct : R_Q_square LOGQ (2^(n+1))} (hct : ct.Canonical) {m : Fin (2^(n+1)) → Int}
    (hm : R_Q_square.phase s ct = red LOGQ m) (ω : Rng) :
    Ok (groupedLT (LOGN := n+1) R LOGDELTA G A ct s ω) fun r => r.1.Canonical ∧ ∃ w : Fin (2^(n+1)) → Int,
      R_Q_square.phase s r.1 = red LOGQ w ∧
      ∀ Z : ℝ, (∀ i, ‖slots n m i‖ ≤ Z) → ∀ i,
        ‖slots n w i - (2^LOGDELTA)^(D/G) * (seqMat (mats A) D).mulVec (slots n m) i‖ ≤
          ltSize n (S^G) (weight s) (ρ^G) β (2^LOGDELTA) Z (D/G) - (2^LOGDELTA * ρ^G)^(D/G) * Z := by
  have hH : 2^n ≤ 2^30 := Nat.pow_le_pow_right (by norm_num) (by omega)
  have hH1 : 1 ≤ 2^n := Nat.one_le_two_pow
  have hok := fun d => (hA d).ok
  interval_cases G
  · have := serialLT_slots' R LOGDELTA hL h1 h2 hn1 hn hs hA hρ hβA hβ0 hw hq hct hm ω
    simp only [pow_one, Nat.div_one]
    exact this
  · show Ok (group2 A >>= _) _
    refine Ok.bind (group2_spec hH hH1 hok hD) fun B hB => ?_
    have := serialLT_slots' R LOGDELTA hL h1 h2 hn1 hn hs (fun d => (hB d).lt hρ hA d.isLt) (by positivity)
      (fun d => (hB d).entry (hβ d d.isLt)) hβ0 hw hq hct hm ω
    rw [GroupOf.seq hD hB] at this
    rw [show S^2 = S * S by ring]
    exact this
  · show Ok (group3 A >>= _) _
    refine Ok.bind (group3_spec hH hH1 hok hD) fun B hB => ?_
    have := serialLT_slots' R LOGDELTA hL h1 h2 hn1 hn hs (fun d => (hB d).lt hρ hA d.isLt) (by positivity)
      (fun d => (hB d).entry (hβ d d.isLt)) hβ0 hw hq hct hm ω
    rw [GroupOf.seq hD hB] at this
    rw [show S^3 = S * (S * S) by ring]
    exact this
  · show Ok (group4 A >>= _) _
    refine Ok.bind (group4_spec hH hH1 hok hD) fun B hB => ?_
    have := serialLT_slots' R LOGDELTA hL h1 h2 hn1 hn hs (fun d => (hB d).lt hρ hA d.isLt) (by positivity)
      (fun d => (hB d).entry (hβ d d.isLt)) hβ0 hw hq hct hm ω
    rw [GroupOf.seq hD hB] at this
    rw [show S^4 = S * (S * (S * S)) by ring]
    exact this

theorem groupedLT_slots (R LOGDELTA : Nat) (hL : LOGDELTA < 64) (h1 : ConvLOGQ LOGQ) (h2 : ConvLOGQ (2 * LOGQ))
    (hn1 : 1 ≤ n) (hn : n ≤ 16) {s : Fin (2^(n+1)) → Int} (hs : Ternary s)
    {A : Fin D → SD2 (2^n) S} {ρ : ℝ} (hA : ∀ d, LTMat (A d) ρ) (hρ : 0 ≤ ρ) {G : Nat} (hG1 : 1 ≤ G) (hG : G ≤ 4)
    (hD : D % G = 0)
    (hw : ρ^G * 2^LOGDELTA + 1/2 < 2^64) (hq : ρ^G * 2^LOGDELTA + 1/2 < 2^(LOGQ-1))
    {ct : R_Q_square LOGQ (2^(n+1))} (hct : ct.Canonical) {m : Fin (2^(n+1)) → Int}
    (hm : R_Q_square.phase s ct = red LOGQ m) (ω : Rng) :
    Ok (groupedLT (LOGN := n+1) R LOGDELTA G A ct s ω) fun r => r.1.Canonical ∧ ∃ w : Fin (2^(n+1)) → Int,
      R_Q_square.phase s r.1 = red LOGQ w ∧
      ∀ Z : ℝ, (∀ i, ‖slots n m i‖ ≤ Z) → ∀ i,
        ‖slots n w i - (2^LOGDELTA)^(D/G) * (seqMat (mats A) D).mulVec (slots n m) i‖ ≤
          ltSize n (S^G) (weight s) (ρ^G) (ρ^G) (2^LOGDELTA) Z (D/G) - (2^LOGDELTA * ρ^G)^(D/G) * Z := by
  have hH : 2^n ≤ 2^30 := Nat.pow_le_pow_right (by norm_num) (by omega)
  have hH1 : 1 ≤ 2^n := Nat.one_le_two_pow
  have hok := fun d => (hA d).ok
  interval_cases G
  · have := serialLT_slots R LOGDELTA hL h1 h2 hn1 hn hs hA hρ (by simpa using hw) (by simpa using hq) hct hm ω
    simp only [pow_one, Nat.div_one]
    exact this
  · show Ok (group2 A >>= _) _
    refine Ok.bind (group2_spec hH hH1 hok hD) fun B hB => ?_
    have := serialLT_slots R LOGDELTA hL h1 h2 hn1 hn hs (fun d => (hB d).lt hρ hA d.isLt) (by positivity) hw hq hct hm ω
    rw [GroupOf.seq hD hB] at this
    rw [show S^2 = S * S by ring]
    exact this
  · show Ok (group3 A >>= _) _
    refine Ok.bind (group3_spec hH hH1 hok hD) fun B hB => ?_
    have := serialLT_slots R LOGDELTA hL h1 h2 hn1 hn hs (fun d => (hB d).lt hρ hA d.isLt) (by positivity) hw hq hct hm ω
    rw [GroupOf.seq hD hB] at this
    rw [show S^3 = S * (S * S) by ring]
    exact this
  · show Ok (group4 A >>= _) _
    refine Ok.bind (group4_spec hH hH1 hok hD) fun B hB => ?_
    have := serialLT_slots R LOGDELTA hL h1 h2 hn1 hn hs (fun d => (hB d).lt hρ hA d.isLt) (by positivity) hw hq hct hm ω
    rw [GroupOf.seq hD hB] at this
    rw [show S^4 = S * (S * (S * S)) by ring]
    exact this

end
end EvalRound

import Verif.Proofs.FloatMessage
import Verif.Props.Endecode

/-! # C84: the functions on messages in binary64 -/

namespace EvalRound
open Finset

variable {n : Nat}

/-- the complex number in slot `i` -/
local notation "slot(" z "," i ")" => Complex.mk (Prod.fst z i) (Prod.snd z i)

/-- C84: `add` rounds every slot of the sum once. -/
theorem C84_add (z w : (Fin n → ℝ) × (Fin n → ℝ)) (h : ∀ i, ‖slot(z,i) + slot(w,i)‖ ≤ 2^1000) :
    Ok (MsgF.add z w) fun r => ∀ i, ‖slot(r,i) - (slot(z,i) + slot(w,i))‖ ≤ 1/2^53 * ‖slot(z,i) + slot(w,i)‖ + 1/2^1074 := by
  unfold MsgF.add
  refine Ok.bind (tabM_spec (P := fun i (v : ℝ × ℝ) => ∀ hi : i < n,
    ‖(⟨v.1, v.2⟩ : ℂ) - (slot(z,⟨i, hi⟩) + slot(w,⟨i, hi⟩))‖ ≤ 1/2^53 * ‖slot(z,⟨i, hi⟩) + slot(w,⟨i, hi⟩)‖ + 1/2^1074) ?_)
    fun t ht => Ok.pure fun i => ht i i.isLt
  intro i hi
  simp only [rd_of_lt _ hi, pure_bind]
  have hb := h ⟨i, hi⟩
  have l1 : (2:ℝ)^1000 ≤ 2^1020 := pow_le_pow_right₀ (by norm_num) (by norm_num)
  refine Ok.bind (fl_near (((Complex.abs_re_le_norm _).trans hb).trans l1)) fun r hr => ?_
  refine Ok.bind (fl_near (((Complex.abs_im_le_norm _).trans hb).trans l1)) fun s hs => Ok.pure fun _ => ?_
  have k := norm_comp (z := slot(z,⟨i, hi⟩) + slot(w,⟨i, hi⟩)) uF_pos.le etaF_pos.le hr hs
  rw [two_eta, uF_eq] at k
  exact k

/-- C84: and `sub` every slot of the difference. -/
theorem C84_sub (z w : (Fin n → ℝ) × (Fin n → ℝ)) (h : ∀ i, ‖slot(z,i) - slot(w,i)‖ ≤ 2^1000) :
    Ok (MsgF.sub z w) fun r => ∀ i, ‖slot(r,i) - (slot(z,i) - slot(w,i))‖ ≤ 1/2^53 * ‖slot(z,i) - slot(w,i)‖ + 1/2^1074 := by
  unfold MsgF.sub
  refine Ok.bind (tabM_spec (P := fun i (v : ℝ × ℝ) => ∀ hi : i < n,
    ‖(⟨v.1, v.2⟩ : ℂ) - (slot(z,⟨i, hi⟩) - slot(w,⟨i, hi⟩))‖ ≤ 1/2^53 * ‖slot(z,⟨i, hi⟩) - slot(w,⟨i, hi⟩)‖ + 1/2^1074) ?_)
    fun t ht => Ok.pure fun i => ht i i.isLt
  intro i hi
  simp only [rd_of_lt _ hi, pure_bind]
  have hb := h ⟨i, hi⟩
  have l1 : (2:ℝ)^1000 ≤ 2^1020 := pow_le_pow_right₀ (by norm_num) (by norm_num)
  refine Ok.bind (fl_near (((Complex.abs_re_le_norm _).trans hb).trans l1)) fun r hr => ?_
  refine Ok.bind (fl_near (((Complex.abs_im_le_norm _).trans hb).trans l1)) fun s hs => Ok.pure fun _ => ?_
  have k := norm_comp (z := slot(z,⟨i, hi⟩) - slot(w,⟨i, hi⟩)) uF_pos.le etaF_pos.le hr hs
  rw [two_eta, uF_eq] at k
  exact k

/-- C84: `mul` is accurate to three units of rounding in every slot. -/
theorem C84_mul (z w : (Fin n → ℝ) × (Fin n → ℝ)) (h : ∀ i, ‖slot(z,i)‖ * ‖slot(w,i)‖ ≤ 2^1000) :
    Ok (MsgF.mul z w) fun r => ∀ i, ‖slot(r,i) - slot(z,i) * slot(w,i)‖ ≤ 3/2^53 * (‖slot(z,i)‖ * ‖slot(w,i)‖) + 1/2^1072 := by
  unfold MsgF.mul
  refine Ok.bind (tabM_spec (P := fun i (v : ℝ × ℝ) => ∀ hi : i < n,
    ‖(⟨v.1, v.2⟩ : ℂ) - slot(z,⟨i, hi⟩) * slot(w,⟨i, hi⟩)‖ ≤ 3/2^53 * (‖slot(z,⟨i, hi⟩)‖ * ‖slot(w,⟨i, hi⟩)‖) + 1/2^1072) ?_)
    fun t ht => Ok.pure fun i => ht i i.isLt
  intro i hi
  simp only [rd_of_lt _ hi, pure_bind]
  have hb := (h ⟨i, hi⟩).trans (pow_le_pow_right₀ (by norm_num) (by norm_num) : (2:ℝ)^1000 ≤ 2^1010)
  have h1 := mul2F_sub (cs_re slot(z,⟨i, hi⟩) slot(w,⟨i, hi⟩)) hb
  have h2 := mul2F_ok (a := z.1 ⟨i, hi⟩) (x := w.2 ⟨i, hi⟩) (b := z.2 ⟨i, hi⟩) (y := w.1 ⟨i, hi⟩)
    (by have := cs_im slot(z,⟨i, hi⟩) slot(w,⟨i, hi⟩); rw [abs_neg] at this; exact this) hb
  have e : (do
      let p ← fl (z.1 ⟨i, hi⟩ * w.1 ⟨i, hi⟩)
      let q ← fl (z.2 ⟨i, hi⟩ * w.2 ⟨i, hi⟩)
      let r ← fl (p - q)
      let p' ← fl (z.1 ⟨i, hi⟩ * w.2 ⟨i, hi⟩)
      let q' ← fl (z.2 ⟨i, hi⟩ * w.1 ⟨i, hi⟩)
      let s ← fl (p' + q')
      pure (r, s) : M (ℝ × ℝ)) = (do
      let r ← (do
        let p ← fl (z.1 ⟨i, hi⟩ * w.1 ⟨i, hi⟩)
        let q ← fl (z.2 ⟨i, hi⟩ * w.2 ⟨i, hi⟩)
        fl (p - q))
      let s ← (do
        let p ← fl (z.1 ⟨i, hi⟩ * w.2 ⟨i, hi⟩)
        let q ← fl (z.2 ⟨i, hi⟩ * w.1 ⟨i, hi⟩)
        fl (p + q))
      pure (r, s)) := by simp only [bind_assoc]
  rw [e]
  refine Ok.bind h1 fun r hr => ?_
  refine Ok.bind h2 fun s hs => Ok.pure fun _ => ?_
  have k := norm_le_two (z := (⟨r, s⟩ : ℂ) - slot(z,⟨i, hi⟩) * slot(w,⟨i, hi⟩)) hr hs
  refine k.trans ?_
  have hT : 0 ≤ uF * (‖slot(z,⟨i, hi⟩)‖ * ‖slot(w,⟨i, hi⟩)‖) := mul_nonneg uF_pos.le (by positivity)
  have hη := etaF_pos.le
  rw [show (1:ℝ)/2^1072 = 8 * etaF by rw [etaF_eq, show 1075 = 3 + 1072 by norm_num, pow_add]; field_simp; norm_num,
    show (3:ℝ)/2^53 = 3 * uF by rw [uF_eq]; ring]
  linarith

/-- C84: `norm` is the Euclidean norm up to a relative error of `(1.1n+5)/2^53`. -/
theorem C84_norm (hn : n ≤ 2^20) (z : (Fin n → ℝ) × (Fin n → ℝ)) (h : ∑ i, ‖slot(z,i)‖^2 ≤ 2^1000) :
    Ok (MsgF.norm z) fun r => 0 ≤ r ∧ |r - Real.sqrt (∑ i, ‖slot(z,i)‖^2)| ≤
      (1.1 * n + 5)/2^53 * Real.sqrt (∑ i, ‖slot(z,i)‖^2) + 1/2^519 := by
  unfold MsgF.norm
  refine Ok.bind (msg_square_sumF hn z h) fun s hs => ?_
  have hκ := kappa_le hn
  have hu := uF_pos.le
  have hη := etaF_pos.le
  have ht := sqrt_tiny hn
  refine Ok.mono (fl_sqrt_near (sum_nonneg fun _ _ => by positivity) h (mul_nonneg (by positivity) hu) hκ
    (mul_nonneg (by positivity) hη) ht hs) fun r ⟨h0, hr⟩ => ⟨h0, hr.trans ?_⟩
  have h1 := Real.sqrt_nonneg (∑ i, ‖slot(z,i)‖^2)
  generalize Real.sqrt (∑ i, ‖slot(z,i)‖^2) = R at *
  have p : 0 ≤ uF * R := mul_nonneg hu h1
  have p2 : 0 ≤ n * (uF * R) := mul_nonneg (Nat.cast_nonneg n) p
  have e1 : ((3.01 + 1.01 * (n:ℝ)) * uF + 1.01 * uF) * R = 4.02 * (uF * R) + 1.01 * (n * (uF * R)) := by ring
  have e2 : (1.1 * (n:ℝ) + 5)/2^53 * R = 1.1 * (n * (uF * R)) + 5 * (uF * R) := by rw [uF_eq]; ring
  have e3 : (1:ℝ)/2^519 = 2 * (1/2^520) := by rw [show 520 = 1 + 519 by norm_num, pow_add]; field_simp
  have e4 : etaF ≤ 1/2 * (1/2^520) := by
    rw [etaF_eq, show (1:ℝ)/2 * (1/2^520) = 1/2^521 by rw [show 521 = 1 + 520 by norm_num, pow_add]; field_simp]
    exact one_div_le_one_div_of_le (by positivity) (pow_le_pow_right₀ (by norm_num) (by norm_num))
  rw [e1, e2, e3]
  generalize (1:ℝ)/2^520 = X at *
  linarith

/-- C84: `sup_norm` is the largest absolute value of a slot up to a relative error of `4/2^53`. -/
theorem C84_sup_norm (z : (Fin n → ℝ) × (Fin n → ℝ)) (h : ∀ i, ‖slot(z,i)‖ ≤ 2^500) :
    Ok (MsgF.sup_norm z) fun r => |r - ⨆ i, ‖slot(z,i)‖| ≤ 4/2^53 * (⨆ i, ‖slot(z,i)‖) + 1/2^530 := by
  unfold MsgF.sup_norm
  have hu := uF_pos.le
  have hη := etaF_pos.le
  refine forUp_maxF (a := fun i => ‖slot(z,i)‖) (fun i => norm_nonneg _) (by positivity) (by positivity) ?_
    (fun i => le_ciSup (f := fun i => ‖slot(z,i)‖) (Set.finite_range _).bddAbove i) (fun h0 => ?_) (fun h0 => ?_)
  · intro i hi m hm
    rw [rd_of_lt _ hi, pure_bind, rd_of_lt _ hi, pure_bind]
    have hz := h ⟨i, hi⟩
    have hS : ‖slot(z,⟨i, hi⟩)‖^2 ≤ 2^1000 := by
      calc ‖slot(z,⟨i, hi⟩)‖^2 ≤ (2^500)^2 := pow_le_pow_left₀ (norm_nonneg _) hz 2
        _ = 2^1000 := by rw [← pow_mul]
    have h1 := mul2F_ok (a := z.1 ⟨i, hi⟩) (x := z.1 ⟨i, hi⟩) (b := z.2 ⟨i, hi⟩) (y := z.2 ⟨i, hi⟩) (T := ‖slot(z,⟨i, hi⟩)‖^2)
      (by rw [abs_mul_abs_self, abs_mul_abs_self, norm_sq_eq]) (hS.trans (pow_le_pow_right₀ (by norm_num) (by norm_num)))
    obtain ⟨t, e1, ht⟩ := h1
    have e : (do
        let p ← fl (z.1 ⟨i, hi⟩ * z.1 ⟨i, hi⟩)
        let q ← fl (z.2 ⟨i, hi⟩ * z.2 ⟨i, hi⟩)
        let t ← fl (p + q)
        let a ← fl (Real.sqrt t)
        pure (if a > m then a else m) : M ℝ) = (do
        let t ← (do
          let p ← fl (z.1 ⟨i, hi⟩ * z.1 ⟨i, hi⟩)
          let q ← fl (z.2 ⟨i, hi⟩ * z.2 ⟨i, hi⟩)
          fl (p + q))
        let a ← fl (Real.sqrt t)
        pure (if a > m then a else m)) := by simp only [bind_assoc]
    rw [e, e1, pure_bind]
    rw [← norm_sq_eq] at ht
    have hτ : Real.sqrt (4 * etaF) ≤ 1/2^536 := by
      rw [Real.sqrt_le_left (by positivity), etaF_eq, div_pow, one_pow, ← pow_mul]
      rw [show (4:ℝ) * (1/2^1075) = 1/2^1073 by rw [show 1075 = 2 + 1073 by norm_num, pow_add]; field_simp; norm_num]
      exact one_div_le_one_div_of_le (by positivity) (pow_le_pow_right₀ (by norm_num) (by norm_num))
    have hτ2 : (1:ℝ)/2^536 ≤ 1/2^520 := one_div_le_one_div_of_le (by positivity) (pow_le_pow_right₀ (by norm_num) (by norm_num))
    refine Ok.bind (fl_sqrt_near (κ := 2.001 * uF) (τ := 4 * etaF) (by positivity) hS (by positivity)
      (by have := uF_le; linarith) (by positivity) (hτ.trans hτ2) ht) fun a ⟨ha0, ha⟩ => Ok.pure ⟨a, ha0, ?_, ?_⟩
    · rw [max_def]
      split_ifs <;> first | rfl | linarith
    · rw [Real.sqrt_sq (norm_nonneg _)] at ha
      refine ha.trans ?_
      have p : 0 ≤ uF * ‖slot(z,⟨i, hi⟩)‖ := mul_nonneg hu (norm_nonneg _)
      have e2 : (2.001 * uF + 1.01 * uF) * ‖slot(z,⟨i, hi⟩)‖ = 3.011 * (uF * ‖slot(z,⟨i, hi⟩)‖) := by ring
      have e3 : (4:ℝ)/2^53 * ‖slot(z,⟨i, hi⟩)‖ = 4 * (uF * ‖slot(z,⟨i, hi⟩)‖) := by rw [uF_eq]; ring
      have e4 : (1:ℝ)/2^530 = 64 * (1/2^536) := by rw [show 536 = 6 + 530 by norm_num, pow_add]; field_simp; norm_num
      have e5 : etaF ≤ 1/2^536 := by
        rw [etaF_eq]
        exact one_div_le_one_div_of_le (by positivity) (pow_le_pow_right₀ (by norm_num) (by norm_num))
      rw [e2, e3, e4]
      have p2 := etaF_pos.le
      generalize (1:ℝ)/2^536 = X at *
      linarith
  · have : Nonempty (Fin n) := ⟨⟨0, h0⟩⟩
    obtain ⟨i, hi⟩ := exists_eq_ciSup_of_finite (f := fun i => ‖slot(z,i)‖)
    exact ⟨i, hi.symm⟩
  · subst h0
    exact Real.iSup_of_isEmpty _

/-- C84: every slot of the dense product with `K` diagonals is off by at most `(2K+5)/2^53` of the sum of the absolute values of its terms. -/
theorem C84_mvp {K : Nat} (hK : K ≤ 2^20) (hnK : n + K ≤ INT_MAX) (z : (Fin n → ℝ) × (Fin n → ℝ)) (A : Fin K → (Fin n → ℝ) × (Fin n → ℝ))
    (h : ∀ i : Fin n, ∑ k : Fin K, ‖slot(A k,i)‖ * ‖slot(z,⟨(i + k) % n, Nat.mod_lt _ i.pos⟩)‖ ≤ 2^1000) :
    Ok (MsgF.mvp z A) fun w => ∀ i : Fin n, ‖slot(w,i) - ∑ k : Fin K, slot(A k,i) * slot(z,⟨(i + k) % n, Nat.mod_lt _ i.pos⟩)‖ ≤
      (2 * K + 5)/2^53 * (∑ k : Fin K, ‖slot(A k,i)‖ * ‖slot(z,⟨(i + k) % n, Nat.mod_lt _ i.pos⟩)‖) + K/2^1071 := by
  unfold MsgF.mvp
  refine Ok.bind (tabM_spec (P := fun i (v : ℝ × ℝ) => ∀ hi : i < n,
    ‖(⟨v.1, v.2⟩ : ℂ) - ∑ k : Fin K, slot(A k,⟨i, hi⟩) * slot(z,⟨(i + k) % n, Nat.mod_lt _ (by omega)⟩)‖ ≤
      (2 * K + 5)/2^53 * (∑ k : Fin K, ‖slot(A k,⟨i, hi⟩)‖ * ‖slot(z,⟨(i + k) % n, Nat.mod_lt _ (by omega)⟩)‖) + K/2^1071) ?_)
    fun t ht => Ok.pure fun i => ht i i.isLt
  intro i hi
  refine Ok.mono (P := fun v : ℝ × ℝ => ‖(⟨v.1, v.2⟩ : ℂ) - ∑ k : Fin K, slot(A k,⟨i, hi⟩) * slot(z,⟨(i + k) % n, Nat.mod_lt _ (by omega)⟩)‖ ≤
      (2 * K + 5)/2^53 * (∑ k : Fin K, ‖slot(A k,⟨i, hi⟩)‖ * ‖slot(z,⟨(i + k) % n, Nat.mod_lt _ (by omega)⟩)‖) + K/2^1071) ?_ fun v hv _ => hv
  unfold MsgF.mvpRow
  have hB := h ⟨i, hi⟩
  rw [sum_fin_norm] at hB ⊢
  rw [sum_fin_mul]
  refine dotF_ok hK _ _ hB _ fun k c hk => ?_
  rw [idxM_ok (by omega), pure_bind, rd_of_lt _ hk, pure_bind, rd_of_lt _ hi, pure_bind, rd_of_lt _ hi, pure_bind,
    rd_of_lt _ (Nat.mod_lt _ (by omega)), pure_bind, rd_of_lt _ (Nat.mod_lt _ (by omega)), pure_bind, accSub_eq]
  simp only [accAdd_eq, dif_pos hk]

/-- C84: and so is every slot of the sparse product, where diagonals of zeros may be skipped. -/
theorem C84_sparse {S : Nat} (hS : S ≤ 2^20) (hn : n ≤ 2^30) (z : (Fin n → ℝ) × (Fin n → ℝ)) (Ar Ai : SparseDiagonal n S)
    (hr : Ar.InRange) (ho : Ar.SameOff Ai) (fr : Ar.FlagSound) (fi : Ai.FlagSound)
    (h : ∀ i : Fin n, ∑ s : Fin S, ‖(⟨Ar.vec s i, Ai.vec s i⟩ : ℂ)‖ * ‖slot(z,(shift (Ar.off s) i))‖ ≤ 2^1000) :
    Ok (MsgF.mvpSparse z Ar Ai) fun w => ∀ i : Fin n,
      ‖slot(w,i) - (SparseDiagonal.denC Ar Ai).mulVec (fun j => slot(z,j)) i‖ ≤
        (2 * S + 5)/2^53 * (∑ s : Fin S, ‖(⟨Ar.vec s i, Ai.vec s i⟩ : ℂ)‖ * ‖slot(z,(shift (Ar.off s) i))‖) + S/2^1071 := by
  unfold MsgF.mvpSparse
  refine Ok.bind (tabM_spec (P := fun i (v : ℝ × ℝ) => ∀ hi : i < n,
    ‖(⟨v.1, v.2⟩ : ℂ) - (SparseDiagonal.denC Ar Ai).mulVec (fun j => slot(z,j)) ⟨i, hi⟩‖ ≤
      (2 * S + 5)/2^53 * (∑ s : Fin S, ‖(⟨Ar.vec s ⟨i, hi⟩, Ai.vec s ⟨i, hi⟩⟩ : ℂ)‖ * ‖slot(z,(shift (Ar.off s) ⟨i, hi⟩))‖) + S/2^1071) ?_)
    fun t ht => Ok.pure fun i => ht i i.isLt
  intro i hi
  refine Ok.mono (P := fun v : ℝ × ℝ => ‖(⟨v.1, v.2⟩ : ℂ) - (SparseDiagonal.denC Ar Ai).mulVec (fun j => slot(z,j)) ⟨i, hi⟩‖ ≤
      (2 * S + 5)/2^53 * (∑ s : Fin S, ‖(⟨Ar.vec s ⟨i, hi⟩, Ai.vec s ⟨i, hi⟩⟩ : ℂ)‖ * ‖slot(z,(shift (Ar.off s) ⟨i, hi⟩))‖) + S/2^1071)
    ?_ fun v hv _ => hv
  unfold MsgF.mvpSparseRow
  have hB := h ⟨i, hi⟩
  have hsum : (SparseDiagonal.denC Ar Ai).mulVec (fun j => slot(z,j)) ⟨i, hi⟩ =
      ∑ s : Fin S, (⟨Ar.vec s ⟨i, hi⟩, Ai.vec s ⟨i, hi⟩⟩ : ℂ) * slot(z,(shift (Ar.off s) ⟨i, hi⟩)) := by
    have := sum_rowTerm z.1 z.2 Ar Ai ⟨i, hi⟩ (fun s h => ho s fun hz => by
      rcases h with h | h
      · exact h (fr s hz.1 _)
      · exact h (fi s hz.2 _))
    refine Eq.trans this.symm ?_
    rw [Finset.sum_range]
    exact sum_congr rfl fun s _ => by unfold rowTerm toC; rw [dif_pos s.isLt]
  rw [hsum]
  rw [sum_fin_norm] at hB ⊢
  rw [sum_fin_mul]
  refine dotF_skip hS _ _ hB _ fun k c hk => ?_
  rw [rd_of_lt _ hk, pure_bind, rd_of_lt _ hk, pure_bind]
  by_cases hz : Ar.zero ⟨k, hk⟩ = true ∧ Ai.zero ⟨k, hk⟩ = true
  · right
    rw [hz.1, hz.2, dif_pos hk, fr _ hz.1, fi _ hz.2]
    exact ⟨rfl, rfl⟩
  · left
    have hz' : (!Ar.zero ⟨k, hk⟩ || !Ai.zero ⟨k, hk⟩) = true := by
      cases h1 : Ar.zero ⟨k, hk⟩ <;> cases h2 : Ai.zero ⟨k, hk⟩ <;> simp_all
    rw [if_pos hz']
    have ho' := ho _ hz
    have h1 := wrapIdx_ok hn (hr ⟨k, hk⟩) ⟨i, hi⟩
    simp only [] at h1
    rw [rd_of_lt _ hk, pure_bind, rd_of_lt _ hk, pure_bind, ← ho', h1, pure_bind, pure_bind, rd_of_lt _ hk,
      pure_bind, rd_of_lt _ hi, pure_bind, rd_of_lt _ hk, pure_bind, rd_of_lt _ hi, pure_bind, rd_fin, pure_bind, rd_fin, pure_bind, accSub_eq]
    simp only [accAdd_eq, dif_pos hk]

/-! The hypotheses hold for messages with `3+4i` in every slot. -/

theorem norm34 : ‖Complex.mk 3 4‖ = 5 := by
  have h := norm_sq_eq 3 4
  nlinarith [norm_nonneg (Complex.mk 3 4)]

theorem five_le : (5:ℝ) ≤ 2^500 := by
  calc (5:ℝ) ≤ 2^3 := by norm_num
    _ ≤ 2^500 := pow_le_pow_right₀ (by norm_num) (by norm_num)

theorem p20_le : (2:ℝ)^20 ≤ 2^1000 := pow_le_pow_right₀ (by norm_num) (by norm_num)

example : Ok (MsgF.mul (n := 4) (fun _ => 3, fun _ => 4) (fun _ => 3, fun _ => 4)) fun r =>
    ∀ i, ‖slot(r,i) - Complex.mk 3 4 * Complex.mk 3 4‖ ≤ 3/2^53 * (5 * 5) + 1/2^1072 := by
  have := C84_mul (n := 4) (fun _ => 3, fun _ => 4) (fun _ => 3, fun _ => 4) (fun i => by
    show ‖Complex.mk 3 4‖ * ‖Complex.mk 3 4‖ ≤ _
    rw [norm34]; exact (by norm_num : (5:ℝ) * 5 ≤ 2^20).trans p20_le)
  simpa only [norm34] using this

example : Ok (MsgF.norm (n := 4) (fun _ => 3, fun _ => 4)) fun r =>
    |r - 10| ≤ (1.1 * 4 + 5)/2^53 * 10 + 1/2^519 := by
  have h1 : ∑ i : Fin 4, ‖Complex.mk ((fun _ : Fin 4 => (3:ℝ)) i) ((fun _ : Fin 4 => (4:ℝ)) i)‖^2 = 100 := by
    simp only [norm34]; norm_num
  have := C84_norm (n := 4) (by norm_num) (fun _ => 3, fun _ => 4)
    (by rw [h1]; exact (by norm_num : (100:ℝ) ≤ 2^20).trans p20_le)
  rw [h1, show (100:ℝ) = 10 * 10 by norm_num, Real.sqrt_mul_self (by norm_num)] at this
  exact Ok.mono this fun r hr => hr.2

example : Ok (MsgF.sup_norm (n := 4) (fun _ => 3, fun _ => 4)) fun r => |r - 5| ≤ 4/2^53 * 5 + 1/2^530 := by
  have := C84_sup_norm (n := 4) (fun _ => 3, fun _ => 4) (fun i => by
    show ‖Complex.mk 3 4‖ ≤ _
    rw [norm34]; exact five_le)
  simpa only [norm34, ciSup_const] using this

example : Ok (MsgF.mvp (n := 4) (K := 4) (fun _ => 3, fun _ => 4) (fun _ => (fun _ => 3, fun _ => 4))) fun w =>
    ∀ i, ‖slot(w,i) - 4 * (Complex.mk 3 4 * Complex.mk 3 4)‖ ≤ 13/2^53 * 100 + 4/2^1071 := by
  have := C84_mvp (n := 4) (K := 4) (by norm_num) (by decide) (fun _ => 3, fun _ => 4) (fun _ => (fun _ => 3, fun _ => 4)) (fun i => by
    simp only [norm34]
    refine le_trans ?_ p20_le
    norm_num)
  refine Ok.mono this fun w hw i => ?_
  have h := hw i
  simp only [norm34, sum_const, card_univ, Fintype.card_fin, nsmul_eq_mul] at h
  refine le_trans (by push_cast at h; exact h) (le_of_eq ?_)
  norm_num

/-- one diagonal of ones at offset 1 and one of zeros that is skipped -/
noncomputable def exDiag : SparseDiagonal 4 2 := ⟨fun s _ => if s = 0 then 1 else 0, fun s => if s = 0 then 1 else 2, fun s => s = 1⟩

example (z : (Fin 4 → ℝ) × (Fin 4 → ℝ)) (hz : ∀ i, ‖slot(z,i)‖ ≤ 5) : Ok (MsgF.mvpSparse z exDiag exDiag) fun w => ∀ i,
    ‖slot(w,i) - (SparseDiagonal.denC exDiag exDiag).mulVec (fun j => slot(z,j)) i‖ ≤
      (2 * (2:Nat) + 5)/2^53 * (∑ s : Fin 2, ‖(⟨exDiag.vec s i, exDiag.vec s i⟩ : ℂ)‖ * ‖slot(z,(shift (exDiag.off s) i))‖) + (2:Nat)/2^1071 := by
  have fs : exDiag.FlagSound := fun s hs i => by
    simp only [exDiag, decide_eq_true_eq] at hs ⊢
    rw [if_neg (by rw [hs]; decide)]
  refine C84_sparse (by norm_num) (by norm_num) z exDiag exDiag (fun s => ?_) (fun s _ => rfl) fs fs fun i => ?_
  · fin_cases s <;> simp [exDiag]
  · refine le_trans ?_ p20_le
    rw [Fin.sum_univ_two]
    have h1 : ∀ s : Fin 2, ‖(⟨exDiag.vec s i, exDiag.vec s i⟩ : ℂ)‖ ≤ 2 := fun s => by
      have h := norm_sq_eq (exDiag.vec s i) (exDiag.vec s i)
      have : exDiag.vec s i = 1 ∨ exDiag.vec s i = 0 := by
        simp only [exDiag]; split <;> simp
      rcases this with e | e <;> rw [e] at h ⊢ <;> nlinarith [norm_nonneg (Complex.mk 1 1), norm_nonneg (Complex.mk 0 0)]
    have h2 : ∀ s : Fin 2, ‖(⟨exDiag.vec s i, exDiag.vec s i⟩ : ℂ)‖ * ‖slot(z,(shift (exDiag.off s) i))‖ ≤ 2 * 5 := fun s =>
      mul_le_mul (h1 s) (hz _) (norm_nonneg _) (by norm_num)
    have := h2 0
    have := h2 1
    norm_num at *
    linarith

end EvalRound

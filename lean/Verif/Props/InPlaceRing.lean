import Verif.Proofs.InPlace

/-!
# C109: products and `resize` whose result is also an operand
-/

namespace EvalRound
open Z_Q Finset

section
variable {LOGQ N : Nat} [NeZero LOGQ]

/-- C109: `conv(s,A,A)` with a constant `s`, for instance 1, gives zero for every `A`: each coefficient is cleared before it is read. -/
theorem C109_conv_const (s : Fin N → Int) (hs : ∀ k : Fin N, k.val ≠ 0 → s k = 0) (A : R_Q LOGQ N) :
    Ok (convSOver s A) fun B => ∀ i, (B i).sval = 0 := by
  unfold convSOver
  refine Ok.mono (forUp_inv (P := fun n (d : R_Q LOGQ N) => ∀ i : Fin N, i.val < n → (d i).cls = 0) (Nat.zero_le _)
    (fun i h => absurd h (by omega)) fun i d _ hi hd => ?_) fun B hB i =>
      sval_eq_of_cls (by rw [Int.cast_zero]; exact hB i i.isLt) (by simp) (by positivity)
  rw [wr_of_lt _ hi, pure_bind]
  refine Ok.mono (forUp_inv (P := fun k (d : R_Q LOGQ N) => (∀ j : Fin N, j.val < i + 1 → (d j).cls = 0) ∧ (k = 0 → d ⟨i, hi⟩ = setzero)) (Nat.zero_le _)
    ⟨fun j hj => ?_, fun _ => by rw [Function.update_self]⟩ fun k e _ hk ⟨he, he0⟩ => ?_) fun d hd => hd.1
  · by_cases hji : j = ⟨i, hi⟩
    · subst hji
      rw [Function.update_self]; exact cls_setzero
    · rw [Function.update_of_ne hji]
      exact hd j (by have : j.val ≠ i := fun h => hji (Fin.ext h)
                     omega)
  · unfold convSOverBody
    rw [rd_of_lt _ hk, pure_bind]
    by_cases hz : s ⟨k, hk⟩ = 0
    · rw [if_neg (by simpa using hz)]
      exact Ok.pure ⟨he, fun h => absurd h (by omega)⟩
    · have hk0 : k = 0 := by
        by_contra h
        exact hz (hs ⟨k, hk⟩ h)
      subst hk0
      rw [if_pos hz, rd_of_lt _ hi, pure_bind, if_pos (Nat.zero_le _), Nat.sub_zero, rd_of_lt _ hi, pure_bind, he0 rfl, if_pos rfl]
      have key : ∀ v : Z_Q LOGQ, v.cls = 0 → Ok (wr e i v) fun d => (∀ j : Fin N, j.val < i + 1 → (d j).cls = 0) ∧ (0 + 1 = 0 → d ⟨i, hi⟩ = setzero) :=
        fun v hv => by
        rw [wr_of_lt _ hi]
        refine Ok.pure ⟨fun j hj => ?_, fun h => absurd h (by omega)⟩
        by_cases hji : j = ⟨i, hi⟩
        · subst hji
          rw [Function.update_self]; exact hv
        · rw [Function.update_of_ne hji]; exact he j hj
      by_cases h1 : (s ⟨0, hk⟩ == 1) = true
      · rw [if_pos h1]
        refine key _ ?_
        rw [(addSelf_iff _).2 fun j _ => ?_, cls_setzero, mul_zero]
        have : dig (setzero : Z_Q LOGQ).data j = 0 := by
          unfold dig setzero
          split_ifs <;> simp
        rw [this]; norm_num
      · rw [if_neg h1]
        exact key _ (by rw [cls_sub, cls_setzero, sub_zero])

/-- C109: `conv(s,A,C)` into another object with the same `s` is the product, for the constant 1 `A` itself. -/
theorem C109_conv_const_right (hN : N ≤ 2^30) (s : Fin N → Int) (hs : ∀ k : Fin N, k.val ≠ 0 → s k = 0) (hN1 : 1 ≤ N) (h1 : s ⟨0, hN1⟩ = 1) (A : R_Q LOGQ N) :
    Ok (convS s A) fun B => ∀ i, (B i).cls = (A i).cls := by
  refine Ok.mono (convS_spec hN s A) fun B ⟨_, hB⟩ i => ?_
  rw [show (B i).cls = R_Q.cls B i from rfl, hB]
  unfold negconv
  rw [Finset.sum_eq_single_of_mem ⟨0, hN1⟩ (mem_univ _) fun j _ hj => ?_]
  · rw [dif_pos (Fin.mk_le_of_le_val (Nat.zero_le _))]
    simp [h1, tern, R_Q.cls]
  · have : s j = 0 := hs j fun h => hj (Fin.ext h)
    simp [this, tern]

/-- C109: `resize(x,x)` to the same size keeps negative values and loses all others. -/
theorem C109_resize (x : Z_Q LOGQ) (hx : x.Canonical) : (resizeOver x).Canonical ∧ (resizeOver x).sval = min x.sval 0 := by
  have hc : (resizeOver x).Canonical := canonical_remove_clutter _
  refine ⟨hc, ?_⟩
  by_cases h : 2^(LOGQ-1) ≤ x.val
  · have e : resizeOver x = resize LOGQ x := by
      unfold resizeOver resize
      rw [is_bigger_canonical hx, decide_eq_true h]; rfl
    have hb := sval_bounds x
    rw [e, sval_eq_of_cls (cls_resize hx) hb.1 hb.2]
    have : x.sval < 0 := by
      rw [sval_canonical hx, if_pos h]
      have : (x.val : Int) < 2^LOGQ := by exact_mod_cast hx
      omega
    omega
  · have hn : 0 ≤ x.sval := by rw [sval_canonical hx, if_neg h]; exact Int.natCast_nonneg _
    rw [min_eq_right hn]
    refine sval_eq_of_cls ?_ (by simp) (by positivity)
    unfold resizeOver
    rw [is_bigger_canonical hx, decide_eq_false h]
    simp only [if_false, Bool.false_eq_true]
    rw [cls_remove_clutter, cls_copyMin, val_setzero]
    simp

end

/-- C109: `ct *= ct[0]` multiplies the second component by the square of the first. -/
theorem C109_mul_first {LOGQ k : Nat} [NeZero LOGQ] (hQ : LOGQ ≤ 60 ∨ 65 ≤ LOGQ ∧ LOGQ ≤ 3051) (hk1 : 1 ≤ k) (hk : k ≤ 17) (x : R_Q_square LOGQ (2^k))
    (hx : x.Canonical) :
    (Ok (mulFirst x) fun y => y.Canonical ∧ ∀ i, (y.1 i).cls = negconv (fun j => (x.1 j).cls) (fun j => (x.1 j).cls) i ∧
      (y.2 i).cls = negconv (fun j => (x.2 j).cls) (negconv (fun j => (x.1 j).cls) (fun j => (x.1 j).cls)) i) ∧
    Ok (R_Q_square.mulR x x.1) fun y => ∀ i, (y.1 i).cls = negconv (fun j => (x.1 j).cls) (fun j => (x.1 j).cls) i ∧
      (y.2 i).cls = negconv (fun j => (x.2 j).cls) (fun j => (x.1 j).cls) i := by
  constructor
  · unfold mulFirst
    refine Ok.bind (conv_spec hQ hk1 hk (A := R_Q.copy x.1) hx.1 hx.1) fun a ⟨a1, a2⟩ => ?_
    refine Ok.bind (conv_spec hQ hk1 hk (A := R_Q.copy x.2) hx.2 a1) fun b ⟨b1, b2⟩ => ?_
    rw [a2] at b2
    exact Ok.pure ⟨⟨a1, b1⟩, fun i => ⟨congrFun a2 i, congrFun b2 i⟩⟩
  · exact Ok.mono (mulR_spec hQ hk1 hk hx hx.1) fun y ⟨_, h1, h2⟩ i => ⟨congrFun h1 i, congrFun h2 i⟩

/-! ## cases that meet the hypotheses, with a wrong result -/

/-- the constant 1 in dimension 8: the product in place with the polynomial 5 is zero -/
example : Ok (convSOver (fun k => if k.val = 0 then 1 else 0) (fun _ => ofNat 100 5 : R_Q 100 8)) fun B => ∀ i, (B i).sval = 0 :=
  C109_conv_const _ (fun _ hk => if_neg hk) _

/-- 5 does not survive `resize` in place -/
example : (ofNat 100 5).Canonical ∧ (resizeOver (ofNat 100 5)).sval = 0 := by
  have hc : (ofNat 100 5).Canonical := by unfold Z_Q.Canonical; rw [val_ofNat_of_lt (by norm_num)]; norm_num
  refine ⟨hc, ?_⟩
  rw [(C109_resize _ hc).2, sval_canonical hc, val_ofNat_of_lt (by norm_num)]
  norm_num

/-- `(2, 1)` in dimension 2: in place the second component becomes 4, into another object it is 2 -/
example : negconv (fun j : Fin 2 => if j.val = 0 then (1 : ZMod (2^100)) else 0)
      (negconv (fun j => if j.val = 0 then 2 else 0) (fun j => if j.val = 0 then 2 else 0)) 0 = 4 ∧
    negconv (fun j : Fin 2 => if j.val = 0 then (1 : ZMod (2^100)) else 0) (fun j => if j.val = 0 then 2 else 0) 0 = 2 := by
  constructor <;> (simp [negconv, Fin.sum_univ_two]; try norm_num)

end EvalRound

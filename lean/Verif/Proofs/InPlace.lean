import Verif.Model.InPlace
import Verif.Proofs.Rot
import Verif.Proofs.Sign

/-! # Lemmas for the calls whose result is also an operand -/

namespace EvalRound
open Z_Q Finset

theorem shift_right_indep {LF LT : Nat} [NeZero LF] [NeZero LT] {A : Z_Q LF} (hA : A.Canonical) (h : LT ≤ LF) (B B' : Z_Q LT) :
    shift_right A B = shift_right A B' := by
  obtain ⟨x, hx, h1⟩ := shift_right_spec hA B h
  obtain ⟨y, hy, h2⟩ := shift_right_spec hA B' h
  rw [hx, hy, val_inj (h1.trans h2.symm)]

theorem tabM_ext {α : Type _} {K : Nat} {f g : Nat → M α} (h : ∀ i, i < K → f i = g i) : tabM K f = tabM K g := by
  induction K with
  | zero => rfl
  | succ K ih => rw [tabM, tabM, ih fun i hi => h i (by omega), h K (by omega)]

/-- what `RS` writes does not depend on what was there -/
theorem RS_indep {N LF LT : Nat} [NeZero LF] [NeZero LT] (h : LT ≤ LF) {ct : R_Q_square LF N} (hc : ct.Canonical) (c c' : R_Q_square LT N) :
    RS ct c = RS ct c' := by
  unfold RS
  congr 1
  refine tabM_ext fun i hi => ?_
  rw [rd_of_lt _ hi, rd_of_lt _ hi, rd_of_lt _ hi, rd_of_lt _ hi, rd_of_lt _ hi, rd_of_lt _ hi]
  simp only [pure_bind]
  rw [shift_right_indep (hc.1 ⟨i, hi⟩) h (c.1 ⟨i, hi⟩) (c'.1 ⟨i, hi⟩), shift_right_indep (hc.2 ⟨i, hi⟩) h (c.2 ⟨i, hi⟩) (c'.2 ⟨i, hi⟩)]

section
variable {LOGQ k : Nat} [NeZero LOGQ]

theorem mulSwitch_ok (h : ConvLOGQ LOGQ) (h2 : ConvLOGQ (2 * LOGQ)) (hk1 : 1 ≤ k) (hk : k ≤ 17)
    {evk : R_Q_square (2 * LOGQ) (2^k)} (hevk : evk.Canonical) {c1 c2 : R_Q LOGQ (2^k)} (h1 : c1.Canonical) (h3 : c2.Canonical) (c : R_Q_square LOGQ (2^k)) :
    Ok (mulSwitch c1 c2 evk c) fun y => y.Canonical ∧ (∀ c', mulSwitch c1 c2 evk c' = pure y) ∧
      (R_Q.cls c1 = 0 ∨ R_Q.cls c2 = 0 → R_Q.cls y.1 = 0 ∧ R_Q.cls y.2 = 0) := by
  unfold mulSwitch
  simp only [R_Q_square.copy_eq]
  obtain ⟨d2, e2, d2c, d2v⟩ := conv_spec h hk1 hk h1 h3
  obtain ⟨x, ex, xc, xv0, xv1⟩ := mulR_spec h2 hk1 hk hevk (B := R_Q.resize (2 * LOGQ) d2) (fun i => canonical_resize _)
  have hle : LOGQ ≤ 2 * LOGQ := by omega
  obtain ⟨y, ey, yc, δ0, δ1, b0, b1, v0, v1⟩ := RS_int hle x xc c
  have e : ∀ c', (conv c1 c2 >>= fun d2 => R_Q_square.mulR evk (R_Q.resize (2 * LOGQ) d2) >>= fun e => RS e c') = pure y := fun c' => by
    rw [e2, pure_bind, ex, pure_bind, RS_indep hle xc c' c, ey]
  refine ⟨y, e c, yc, e, fun hz => ?_⟩
  have hd : R_Q.cls d2 = 0 := by
    rw [d2v]
    rcases hz with hz | hz <;> rw [hz] <;> funext i <;> simp [negconv]
  have hr : R_Q.cls (R_Q.resize (2 * LOGQ) d2) = 0 := by
    funext i
    have h0 : (d2 i).cls = ((0:Int) : ZMod (2^LOGQ)) := by
      have := congrFun hd i
      simpa [R_Q.cls] using this
    have hs : (d2 i).sval = 0 := sval_eq_of_cls h0 (by have : (0:Int) < 2^(LOGQ-1) := by positivity
                                                       omega) (by positivity)
    show (resize (2 * LOGQ) (d2 i)).cls = 0
    rw [cls_resize (d2c i), hs]
    simp
  rw [hr] at xv0 xv1
  have hn : ∀ a : Fin (2^k) → ZMod (2^(2*LOGQ)), negconv a 0 = 0 := fun a => by funext i; simp [negconv]
  rw [hn] at xv0 xv1
  have z : x = (fun _ => setzero, fun _ => setzero) := by
    refine Prod.ext (R_Q.ext_cls xc.1 (fun _ => canonical_setzero) ?_) (R_Q.ext_cls xc.2 (fun _ => canonical_setzero) ?_)
    · rw [xv0]; funext i; exact cls_setzero.symm
    · rw [xv1]; funext i; exact cls_setzero.symm
  subst z
  have hzero : ∀ i, (y.1 i).val = 0 ∧ (y.2 i).val = 0 := by
    unfold RS at ey
    obtain ⟨r, er, ey⟩ := bind_eq_pure ey
    obtain ⟨r', er', hr'⟩ := tabM_spec (n := 2^k) (f := fun i => do
      let x ← rd (fun _ => setzero : R_Q (2*LOGQ) (2^k)) i
      let x0 ← rd c.1 i
      let a ← shift_right x x0
      let y ← rd (fun _ => setzero : R_Q (2*LOGQ) (2^k)) i
      let y0 ← rd c.2 i
      let b ← shift_right y y0
      pure (a, b)) (P := fun i (p : Z_Q LOGQ × Z_Q LOGQ) => p.1.val = 0 ∧ p.2.val = 0) (fun i hi => by
        rw [rd_of_lt _ hi, rd_of_lt _ hi, rd_of_lt _ hi]
        simp only [pure_bind]
        have hs : ∀ B, Ok (shift_right (setzero : Z_Q (2*LOGQ)) B) fun b : Z_Q LOGQ => b.val = 0 := fun B =>
          Ok.mono (shift_right_spec canonical_setzero B hle) fun b hb => by
            rw [hb, val_setzero, Nat.zero_add, Nat.div_eq_of_lt, Nat.zero_mod]
            exact Nat.div_lt_self (by positivity) (by norm_num)
        exact Ok.bind (hs _) fun a ha => Ok.bind (hs _) fun b hb => Ok.pure ⟨ha, hb⟩)
    obtain rfl := pure_inj (er.symm.trans er')
    obtain rfl := pure_inj ey
    exact fun i => hr' i
  constructor
  · funext i; show ((y.1 i).val : ZMod (2^LOGQ)) = 0; rw [(hzero i).1]; simp
  · funext i; show ((y.2 i).val : ZMod (2^LOGQ)) = 0; rw [(hzero i).2]; simp

theorem mulRest_ok (h : ConvLOGQ LOGQ) (hk1 : 1 ≤ k) (hk : k ≤ 17) {a b c : R_Q_square LOGQ (2^k)} (ha : a.Canonical) (hb : b.Canonical) :
    Ok (mulRest a b c) fun y => y.Canonical ∧
      R_Q.cls y.1 = R_Q.cls c.1 + negconv (R_Q.cls a.1) (R_Q.cls b.1) ∧
      R_Q.cls y.2 = R_Q.cls c.2 + (negconv (R_Q.cls a.2) (R_Q.cls b.1) + negconv (R_Q.cls a.1) (R_Q.cls b.2)) := by
  unfold mulRest
  refine Ok.bind (conv_spec h hk1 hk ha.1 hb.2) fun d01 ⟨_, hd01⟩ => ?_
  refine Ok.bind (conv_spec h hk1 hk ha.2 hb.1) fun d10 ⟨_, hd10⟩ => ?_
  refine Ok.bind (conv_spec h hk1 hk ha.1 hb.1) fun d00 ⟨_, hd00⟩ => ?_
  refine Ok.pure ⟨⟨R_Q.canonical_add _ _, R_Q.canonical_add _ _⟩, ?_, ?_⟩
  · show R_Q.cls (R_Q.add c.1 d00) = _
    rw [R_Q.cls_add, hd00]
  · show R_Q.cls (R_Q.add c.2 (R_Q.add d10 d01)) = _
    rw [R_Q.cls_add, R_Q.cls_add, hd10, hd01]

theorem Mul_eq (ct1 ct2 : R_Q_square LOGQ (2^k)) (evk : R_Q_square (2 * LOGQ) (2^k)) (c : R_Q_square LOGQ (2^k)) :
    Mul ct1 ct2 evk c = mulSwitch ct1.2 ct2.2 evk c >>= fun w => mulRest ct1 ct2 w := by
  unfold Mul mulSwitch mulRest
  simp only [bind_assoc]

end

section
variable {LOGQ N : Nat} [NeZero LOGQ]

theorem conjOver_spec (hN1 : 1 ≤ N) (A : R_Q LOGQ N) :
    Ok (conjOver A) fun B => ∀ i : Fin N, (B i).cls =
      if h : i.val = 0 then (A i).cls else if 2 * i.val ≤ N then -(A ⟨N - i, by omega⟩).cls else (A i).cls := by
  unfold conjOver
  rw [rd_of_lt _ hN1, pure_bind, wr_of_lt _ hN1, pure_bind]
  refine Ok.mono (forUp_inv (P := fun n (d : R_Q LOGQ N) => ∀ i : Fin N, (d i).cls =
    if h : i.val = 0 then (A i).cls else if 2 * i.val ≤ N ∧ i.val < n then -(A ⟨N - i, by omega⟩).cls else (A i).cls) hN1 ?_ ?_)
    fun d hd i => ?_
  · intro i
    have e : Function.update A ⟨0, hN1⟩ (Z_Q.copy (A ⟨0, hN1⟩)) = A := by rw [Z_Q.copy_eq, Function.update_eq_self]
    rw [e]
    split_ifs with h1 h2
    · rfl
    · omega
    · rfl
  · intro n d hn1 hn hd
    rw [rd_of_lt _ (by omega : N - n < N), pure_bind, wr_of_lt _ hn, pure_bind, rd_of_lt _ hn, pure_bind,
      wr_of_lt _ hn, Function.update_self, Function.update_idem]
    refine Ok.pure fun i => ?_
    by_cases e : i = ⟨n, hn⟩
    · subst e
      have h0 := hd ⟨N - n, by omega⟩
      simp only [] at h0
      rw [dif_neg (by omega : ¬ N - n = 0)] at h0
      rw [Function.update_self, cls_negate, Z_Q.copy_eq, h0]
      simp only []
      rw [dif_neg (by omega : ¬ n = 0)]
      by_cases h2 : 2 * n ≤ N
      · rw [if_neg (by omega), if_pos ⟨h2, by omega⟩]
      · rw [if_pos ⟨by omega, by omega⟩, if_neg (by omega), neg_neg]
        congr 2
        exact Fin.ext (by simp only []; omega)
    · have hne : i.val ≠ n := fun h => e (Fin.ext h)
      rw [Function.update_of_ne e, hd i]
      split_ifs <;> first | rfl | omega
  · rw [hd i]
    split_ifs <;> first | rfl | omega

/-- an invariant of the rounds of the rotation in place -/
theorem rotOver_inv (hN : 10 * N ≤ INT_MAX) (hN1 : 1 ≤ N) (r : Nat) (A : R_Q LOGQ N) (R : Nat → R_Q LOGQ N → Prop) (h0 : R 0 A)
    (hs : ∀ n (hn : n < N) d, R n d → R (n + 1) (Function.update d ⟨5^r * n % N, Nat.mod_lt _ hN1⟩
      (if 5^r * n % (2 * N) < N then d ⟨n, hn⟩ else negate (d ⟨n, hn⟩)))) :
    Ok (rotOver A r) fun B => R N B := by
  unfold rotOver
  refine Ok.bind (rotPow_spec (N := N) hN hN1 r) fun pow hp => ?_
  generalize 5^r = g at *
  refine Ok.bind (forUp_inv (P := fun n (st : R_Q LOGQ N × Nat) => st.2 = g * n % (2 * N) ∧ R n st.1) (Nat.zero_le N) ?_ ?_)
    fun st hst => Ok.pure hst.2
  · exact ⟨by simp, h0⟩
  · rintro n ⟨d, j⟩ _ hn ⟨h1, h2⟩
    simp only [] at h1 h2
    subst h1
    have hlt : g * n % (2 * N) < 2 * N := Nat.mod_lt _ (by omega)
    have hpos := pos_of (N := N) (by omega) (g * n)
    have hpl : g * n % N < N := Nat.mod_lt _ (by omega)
    have hplt : pow < 2 * N := by rw [hp]; exact Nat.mod_lt _ (by omega)
    have hbody : (if g * n % (2 * N) < N then do
          let d ← wr d (g * n % (2 * N)) (d ⟨n, hn⟩)
          let j ← rotNext N pow (g * n % (2 * N))
          pure (d, j)
        else do
          let d ← wr d (g * n % (2 * N) - N) (d ⟨n, hn⟩)
          let y ← rd d (g * n % (2 * N) - N)
          let d ← wr d (g * n % (2 * N) - N) (negate y)
          let j ← rotNext N pow (g * n % (2 * N))
          pure (d, j)) = (do
            let j ← rotNext N pow (g * n % (2 * N))
            pure (Function.update d ⟨g * n % N, hpl⟩ (if g * n % (2 * N) < N then d ⟨n, hn⟩ else negate (d ⟨n, hn⟩)), j) : M (R_Q LOGQ N × Nat)) := by
      rcases hpos with ⟨a1, a2⟩ | ⟨a1, a2⟩
      · rw [if_pos a1, if_pos a1, wr_of_lt _ (by omega), pure_bind]
        simp only [a2]
      · rw [if_neg a1, if_neg a1, wr_of_lt _ (by omega), pure_bind, rd_of_lt _ (by omega), pure_bind, wr_of_lt _ (by omega), pure_bind,
          Function.update_self, Function.update_idem]
        simp only [a2]
    rw [rd_of_lt _ hn, pure_bind]
    simp only [Z_Q.copy_eq]
    rw [hbody]
    unfold rotNext
    rw [idxM_ok (by omega), pure_bind, pure_bind]
    refine Ok.pure ⟨?_, hs n hn d h2⟩
    simp only []
    rw [hp, ← Nat.add_mod, Nat.mul_add, Nat.mul_one]

/-- coefficient 1 is carried to position `q`, where the power of five is `q` modulo `N`, and from there on -/
theorem rotOver_carry (hN : 10 * N ≤ INT_MAX) (hN2 : 2 ≤ N) (r : Nat) (A : R_Q LOGQ N)
    (hg : ∀ i j : Nat, i < N → j < N → 5^r * i % N = 5^r * j % N → i = j) (hq : 5^r % N ≠ 1) :
    Ok (rotOver A r) fun B => (B ⟨5^r * (5^r % N) % N, Nat.mod_lt _ (by omega)⟩).cls =
      (if 5^r * (5^r % N) % (2 * N) < N then 1 else -1) * ((if 5^r % (2 * N) < N then 1 else -1) * (A ⟨1, hN2⟩).cls) := by
  have hq0 : 5^r % N ≠ 0 := fun h => by
    have := hg 1 0 (by omega) (by omega) (by rw [mul_one, mul_zero, Nat.zero_mod, h])
    omega
  have hqN : 5^r % N < N := Nat.mod_lt _ (by omega)
  refine Ok.mono (rotOver_inv hN (by omega) r A (fun n d => (n ≤ 1 → d ⟨1, hN2⟩ = A ⟨1, hN2⟩) ∧
    (2 ≤ n → n ≤ 5^r % N → (d ⟨5^r % N, hqN⟩).cls = (if 5^r % (2 * N) < N then 1 else -1) * (A ⟨1, hN2⟩).cls) ∧
    (5^r % N + 1 ≤ n → (d ⟨5^r * (5^r % N) % N, Nat.mod_lt _ (by omega)⟩).cls =
      (if 5^r * (5^r % N) % (2 * N) < N then 1 else -1) * ((if 5^r % (2 * N) < N then 1 else -1) * (A ⟨1, hN2⟩).cls)))
    ⟨fun _ => rfl, fun h => by omega, fun h => by omega⟩ ?_) fun B hB => hB.2.2 (by omega)
  have hsgn : ∀ (c : Prop) [Decidable c] (v : Z_Q LOGQ), (if c then v else negate v).cls = (if c then 1 else -1) * v.cls := fun c _ v => by
    split_ifs
    · rw [one_mul]
    · rw [cls_negate, neg_one_mul]
  intro n hn d ⟨h2, h3, h4⟩
  refine ⟨fun h => ?_, fun ha hb => ?_, fun ha => ?_⟩
  · have hn0 : n = 0 := by omega
    subst hn0
    rw [Function.update_of_ne (fun e => by have := Fin.ext_iff.1 e; simp at this)]
    exact h2 (by omega)
  · by_cases hn1 : n = 1
    · subst hn1
      have e5 : (⟨5^r % N, hqN⟩ : Fin N) = ⟨5^r * 1 % N, Nat.mod_lt _ (by omega)⟩ := Fin.ext (by simp only [mul_one])
      rw [e5, Function.update_self, hsgn, h2 le_rfl, mul_one]
    · rw [Function.update_of_ne (fun e => ?_)]
      · exact h3 (by omega) (by omega)
      · have h5 : 5^r % N = 5^r * n % N := Fin.ext_iff.1 e
        have := hg 1 n (by omega) hn (by rw [mul_one, h5])
        omega
  · by_cases hnq : n = 5^r % N
    · have e5 : (⟨5^r * (5^r % N) % N, Nat.mod_lt _ (by omega)⟩ : Fin N) = ⟨5^r * n % N, Nat.mod_lt _ (by omega)⟩ :=
        Fin.ext (by simp only [hnq])
      have e6 : (⟨n, hn⟩ : Fin N) = ⟨5^r % N, hqN⟩ := Fin.ext hnq
      rw [e5, Function.update_self, hsgn, e6, h3 (by omega) (by omega), ← hnq]
    · rw [Function.update_of_ne (fun e => ?_)]
      · exact h4 (by omega)
      · have h5 : 5^r * (5^r % N) % N = 5^r * n % N := Fin.ext_iff.1 e
        exact hnq (hg _ n hqN hn h5).symm

/-- when the power of five is 1 modulo `N` every round stays at its own position -/
theorem rotOver_stay (hN : 10 * N ≤ INT_MAX) (hN1 : 1 ≤ N) (r : Nat) {A : R_Q LOGQ N} (hA : R_Q.Canonical A) (hq : ∀ i < N, 5^r * i % N = i) :
    Ok (rotOver A r) fun B => R_Q.Canonical B ∧ ∀ i : Fin N, (B i).cls = if 5^r * i.val % (2 * N) < N then (A i).cls else -(A i).cls := by
  refine Ok.mono (rotOver_inv hN hN1 r A (fun n d => R_Q.Canonical d ∧ ∀ i : Fin N, (d i).cls =
    if i.val < n then (if 5^r * i.val % (2 * N) < N then (A i).cls else -(A i).cls) else (A i).cls)
    ⟨hA, fun i => by rw [if_neg (by omega)]⟩ ?_) fun B hB => ⟨hB.1, fun i => by rw [hB.2, if_pos i.isLt]⟩
  intro n hn d ⟨h1, h2⟩
  have e : (⟨5^r * n % N, Nat.mod_lt _ hN1⟩ : Fin N) = ⟨n, hn⟩ := Fin.ext (hq n hn)
  rw [e]
  refine ⟨fun i => ?_, fun i => ?_⟩
  · by_cases hi : i = ⟨n, hn⟩
    · subst hi
      rw [Function.update_self]
      split_ifs
      · exact h1 _
      · exact canonical_negate _
    · rw [Function.update_of_ne hi]; exact h1 i
  · by_cases hi : i = ⟨n, hn⟩
    · subst hi
      have h3 := h2 ⟨n, hn⟩
      rw [if_neg (lt_irrefl n)] at h3
      rw [Function.update_self, if_pos (Nat.lt_succ_self n)]
      by_cases hc : 5^r * n % (2 * N) < N
      · rw [if_pos hc]
        refine h3.trans ?_
        rw [if_pos hc]
      · rw [if_neg hc, cls_negate, h3]
        rw [if_neg hc]
    · have hne : i.val ≠ n := fun h => hi (Fin.ext h)
      rw [Function.update_of_ne hi, h2]
      have hiff : i.val < n ↔ i.val < n + 1 := by omega
      simp only [hiff]

end

end EvalRound

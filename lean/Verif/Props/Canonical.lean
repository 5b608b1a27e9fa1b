import Verif.Proofs.Matrix
import Verif.Props.Core
import Verif.Props.Rot
import Verif.Model.Poly
import Verif.Proofs.Poly
import Verif.Props.DFT

/-!
# C43: the coefficients stay below `2^LOGQ`

`Held` is the set of polynomials and ciphertexts a program can hold after any sequence of calls that
return, starting from data whose coefficients are in range. The destination of a call may hold
anything before the call, unless the function leaves part of it in place.
-/

set_option linter.unusedSectionVars false

namespace EvalRound
open Z_Q

/-- A polynomial or a ciphertext, at any modulus and ring degree. -/
inductive Obj where
  | poly (LOGQ N : Nat) (A : R_Q LOGQ N)
  | ct (LOGQ N : Nat) (c : R_Q_square LOGQ N)

/-- every coefficient, read as a number from its limbs, is below `2^LOGQ` -/
def Obj.InRange : Obj → Prop
  | .poly LOGQ _ A => ∀ i, (A i).val < 2^LOGQ
  | .ct LOGQ _ c => ∀ i, (c.1 i).val < 2^LOGQ ∧ (c.2 i).val < 2^LOGQ

/-- What a program can hold after any sequence of calls. -/
inductive Held : Obj → Prop where
  -- data from outside
  | input {o : Obj} (h : o.InRange) : Held o
  -- R_Q
  | setzero (LOGQ N) [NeZero LOGQ] : Held (.poly LOGQ N R_Q.setzero)
  | copy {LOGQ N A} [NeZero LOGQ] (h : Held (.poly LOGQ N A)) : Held (.poly LOGQ N (R_Q.copy A))
  | add {LOGQ N} [NeZero LOGQ] (A B : R_Q LOGQ N) : Held (.poly LOGQ N (R_Q.add A B))
  | addSelf {LOGQ N} [NeZero LOGQ] (A : R_Q LOGQ N) : Held (.poly LOGQ N (R_Q.addSelf A))
  | sub {LOGQ N} [NeZero LOGQ] (A B : R_Q LOGQ N) : Held (.poly LOGQ N (R_Q.sub A B))
  | mulW {LOGQ N} [NeZero LOGQ] (A : R_Q LOGQ N) (a : W) : Held (.poly LOGQ N (R_Q.mulW A a))
  | resize {LF LT N} [NeZero LF] [NeZero LT] (A : R_Q LF N) : Held (.poly LT N (R_Q.resize LT A))
  | conv {LOGQ N} [NeZero LOGQ] {A B C : R_Q LOGQ N} (h : conv A B = pure C) : Held (.poly LOGQ N C)
  | convS {LOGQ N} [NeZero LOGQ] {s} {A C : R_Q LOGQ N} (h : convS s A = pure C) : Held (.poly LOGQ N C)
  | rot {LOGQ N A d0 r B} [NeZero LOGQ] (hA : Held (.poly LOGQ N A)) (hd : Held (.poly LOGQ N d0))
      (h : rotR A d0 r = pure B) : Held (.poly LOGQ N B)
  | rot2 {LOGQ k A d0 r B} [NeZero LOGQ] (hk : k ≤ 27) (hA : Held (.poly LOGQ (2^k) A))
      (h : rotR A d0 r = pure B) : Held (.poly LOGQ (2^k) B)
  | conj {LOGQ N A d0 B} [NeZero LOGQ] (hA : Held (.poly LOGQ N A)) (h : conjR A d0 = pure B) :
      Held (.poly LOGQ N B)
  -- R_Q_square
  | pair {LOGQ N A B} (hA : Held (.poly LOGQ N A)) (hB : Held (.poly LOGQ N B)) : Held (.ct LOGQ N (A, B))
  | fst {LOGQ N c} (h : Held (.ct LOGQ N c)) : Held (.poly LOGQ N c.1)
  | snd {LOGQ N c} (h : Held (.ct LOGQ N c)) : Held (.poly LOGQ N c.2)
  | ctSetzero (LOGQ N) [NeZero LOGQ] : Held (.ct LOGQ N R_Q_square.setzero)
  | ctCopy {LOGQ N c} [NeZero LOGQ] (h : Held (.ct LOGQ N c)) : Held (.ct LOGQ N (R_Q_square.copy c))
  | ctAdd {LOGQ N} [NeZero LOGQ] (c d : R_Q_square LOGQ N) : Held (.ct LOGQ N (R_Q_square.add c d))
  | ctAddSelf {LOGQ N} [NeZero LOGQ] (c : R_Q_square LOGQ N) : Held (.ct LOGQ N (R_Q_square.addSelf c))
  | ctSub {LOGQ N} [NeZero LOGQ] (c d : R_Q_square LOGQ N) : Held (.ct LOGQ N (R_Q_square.sub c d))
  | ctMulW {LOGQ N} [NeZero LOGQ] (c : R_Q_square LOGQ N) (a : W) : Held (.ct LOGQ N (R_Q_square.mulW c a))
  | ctMulR {LOGQ N} [NeZero LOGQ] {c d : R_Q_square LOGQ N} {B} (h : R_Q_square.mulR c B = pure d) :
      Held (.ct LOGQ N d)
  | ctResize {LF LT N} [NeZero LF] [NeZero LT] (c : R_Q_square LF N) :
      Held (.ct LT N (R_Q_square.resize LT c))
  | modRaise {LF LT N} [NeZero LF] [NeZero LT] (c : R_Q_square LF N) : Held (.ct LT N (mod_raise LT c))
  -- core.h
  | enc {LOGQ N} [NeZero LOGQ] {RM} {pt : R_Q LOGQ N} {s ct0 ω c ω'} (h : enc RM pt s ct0 ω = pure (c, ω')) :
      Held (.ct LOGQ N c)
  | dec {LOGQ N} [NeZero LOGQ] {c : R_Q_square LOGQ N} {s pt} (h : dec c s = pure pt) : Held (.poly LOGQ N pt)
  | swkgen {LOGQ N} [NeZero LOGQ] {RM} {s s' : Fin N → Int} {k0 ω k ω'}
      (h : swkgen (LOGQ := LOGQ) RM s s' k0 ω = pure (k, ω')) : Held (.ct (2 * LOGQ) N k)
  | RS {LF LT N c} [NeZero LF] [NeZero LT] {c0 d} (hc : Held (.ct LF N c))
      (h : RS (LT := LT) c c0 = pure d) : Held (.ct LT N d)
  | ks {LOGQ N} [NeZero LOGQ] {k} {c d : R_Q_square LOGQ N} (h : ks k c = pure d) : Held (.ct LOGQ N d)
  | Mul {LOGQ N} [NeZero LOGQ] {c1 c2 c30 d : R_Q_square LOGQ N} {evk} (h : Mul c1 c2 evk c30 = pure d) :
      Held (.ct LOGQ N d)
  -- linear_transform.h and bootstrap.h
  | rotCt {LOGQ N} [NeZero LOGQ] {c c0 d : R_Q_square LOGQ N} {r key} (h : rot_ct c r key c0 = pure d) :
      Held (.ct LOGQ N d)
  | conjCt {LOGQ N} [NeZero LOGQ] {c c0 d : R_Q_square LOGQ N} {key} (h : conj_ct c key c0 = pure d) :
      Held (.ct LOGQ N d)
  | linTransKeys {LOGQ LOGN S} [NeZero LOGQ] {LD} {A : SD2 (2^(LOGN-1)) S} {c d : R_Q_square LOGQ (2^LOGN)}
      {key mem} (h : linTransKeys LD A c key mem = pure d) : Held (.ct LOGQ (2^LOGN) d)
  | linTrans {LOGQ LOGN S} [NeZero LOGQ] {RM LD} {A : SD2 (2^(LOGN-1)) S} {c d : R_Q_square LOGQ (2^LOGN)}
      {s ω ω'} (h : linTrans RM LD A c s ω = pure (d, ω')) : Held (.ct LOGQ (2^LOGN) d)
  | serialLT {LOGQ LOGN S D c} [NeZero LOGQ] {RM LD} {A : Fin D → SD2 (2^(LOGN-1)) S}
      {s ω d ω'} (hc : Held (.ct LOGQ (2^LOGN) c)) (h : serialLT RM LD A c s ω = pure (d, ω')) :
      Held (.ct LOGQ (2^LOGN) d)
  | groupedLT {LOGQ LOGN S D c} [NeZero LOGQ] {RM LD G} {A : Fin D → SD2 (2^(LOGN-1)) S}
      {s ω d ω'} (hc : Held (.ct LOGQ (2^LOGN) c)) (h : groupedLT RM LD G A c s ω = pure (d, ω')) :
      Held (.ct LOGQ (2^LOGN) d)
  | coeffToSlot0 {LOGQ LOGN} [NeZero LOGQ] {RM LD G} {c d e : R_Q_square LOGQ (2^LOGN)}
      {s ω ω'} (h : CoeffToSlot RM LD G c s ω = pure ((d, e), ω')) : Held (.ct LOGQ (2^LOGN) d)
  | coeffToSlot1 {LOGQ LOGN} [NeZero LOGQ] {RM LD G} {c d e : R_Q_square LOGQ (2^LOGN)}
      {s ω ω'} (h : CoeffToSlot RM LD G c s ω = pure ((d, e), ω')) : Held (.ct LOGQ (2^LOGN) e)
  | slotToCoeff {LOGQ LOGN} [NeZero LOGQ] {RM LD G} {c0 c1 d : R_Q_square LOGQ (2^LOGN)}
      {s ω ω'} (h : SlotToCoeff RM LD G c0 c1 s ω = pure (d, ω')) : Held (.ct LOGQ (2^LOGN) d)
  -- endecode.h
  | encode {LOGQ LOGN} [NeZero LOGQ] {z : CVec LOGN} {Delta pt} (hQ : 64 ≤ LOGQ)
      (h : encode LOGQ z Delta = pure pt) : Held (.poly LOGQ (2^LOGN) pt)
  -- poly.h
  | deg3 {Q0 Q1 Q2 N} [NeZero Q0] [NeZero Q1] [NeZero Q2] {LD u} {c : R_Q_square Q0 N}
      {e1 : R_Q_square (2 * Q0) N} {e2 : R_Q_square (2 * Q1) N} {d : R_Q_square Q2 N}
      (h : eval_poly_deg3 LD u c e1 e2 = pure d) : Held (.ct Q2 N d)
  | deg7 {Q0 Q1 Q2 Q3 N} [NeZero Q0] [NeZero Q1] [NeZero Q2] [NeZero Q3] {LD u} {c : R_Q_square Q0 N}
      {e1 : R_Q_square (2 * Q0) N} {e2 : R_Q_square (2 * Q1) N} {e3 : R_Q_square (2 * Q2) N}
      {d : R_Q_square Q3 N} (h : eval_poly_deg7 LD u c e1 e2 e3 = pure d) : Held (.ct Q3 N d)
  | deg15 {Q0 Q1 Q2 Q3 Q4 N} [NeZero Q0] [NeZero Q1] [NeZero Q2] [NeZero Q3] [NeZero Q4] {LD u}
      {c : R_Q_square Q0 N} {e1 : R_Q_square (2 * Q0) N} {e2 : R_Q_square (2 * Q1) N}
      {e3 : R_Q_square (2 * Q2) N} {e4 : R_Q_square (2 * Q3) N} {d : R_Q_square Q4 N}
      (h : eval_poly_deg15 LD u c e1 e2 e3 e4 = pure d) : Held (.ct Q4 N d)
  | deg31 {Q0 Q1 Q2 Q3 Q4 Q5 N} [NeZero Q0] [NeZero Q1] [NeZero Q2] [NeZero Q3] [NeZero Q4] [NeZero Q5] {LD u}
      {c : R_Q_square Q0 N} {e1 : R_Q_square (2 * Q0) N} {e2 : R_Q_square (2 * Q1) N}
      {e3 : R_Q_square (2 * Q2) N} {e4 : R_Q_square (2 * Q3) N} {e5 : R_Q_square (2 * Q4) N}
      {d : R_Q_square Q5 N} (h : eval_poly_deg31 LD u c e1 e2 e3 e4 e5 = pure d) : Held (.ct Q5 N d)
  | deg63 {Q0 Q1 Q2 Q3 Q4 Q5 Q6 N} [NeZero Q0] [NeZero Q1] [NeZero Q2] [NeZero Q3] [NeZero Q4] [NeZero Q5]
      [NeZero Q6] {LD u} {c : R_Q_square Q0 N} {e1 : R_Q_square (2 * Q0) N} {e2 : R_Q_square (2 * Q1) N}
      {e3 : R_Q_square (2 * Q2) N} {e4 : R_Q_square (2 * Q3) N} {e5 : R_Q_square (2 * Q4) N}
      {e6 : R_Q_square (2 * Q5) N} {d : R_Q_square Q6 N}
      (h : eval_poly_deg63 LD u c e1 e2 e3 e4 e5 e6 = pure d) : Held (.ct Q6 N d)
  | deg127 {Q0 Q1 Q2 Q3 Q4 Q5 Q6 Q7 N} [NeZero Q0] [NeZero Q1] [NeZero Q2] [NeZero Q3] [NeZero Q4] [NeZero Q5]
      [NeZero Q6] [NeZero Q7] {LD u} {c : R_Q_square Q0 N} {e1 : R_Q_square (2 * Q0) N}
      {e2 : R_Q_square (2 * Q1) N} {e3 : R_Q_square (2 * Q2) N} {e4 : R_Q_square (2 * Q3) N}
      {e5 : R_Q_square (2 * Q4) N} {e6 : R_Q_square (2 * Q5) N} {e7 : R_Q_square (2 * Q6) N}
      {d : R_Q_square Q7 N} (h : eval_poly_deg127 LD u c e1 e2 e3 e4 e5 e6 e7 = pure d) : Held (.ct Q7 N d)

/-! ## what each call returns -/

section
variable {LOGQ N : Nat} [NeZero LOGQ]

theorem crt_canonical {L : Nat} {C : CRT L LOGQ} {a : Fin L → W} {x : Z_Q LOGQ} (h : C.crt a = pure x) :
    x.Canonical := by
  obtain ⟨_, _, h⟩ := bind_eq_pure h
  obtain ⟨_, _, h⟩ := bind_eq_pure h
  rw [← pure_inj h]
  unfold CRT.signed
  dsimp only
  split
  · exact canonical_negate _
  · exact canonical_resize _

theorem conv_canonical {A B C : R_Q LOGQ N} (h : conv A B = pure C) : C.Canonical := by
  obtain ⟨_, _, h⟩ := bind_eq_pure h
  obtain ⟨_, _, h⟩ := bind_eq_pure h
  obtain ⟨_, _, h⟩ := bind_eq_pure h
  obtain ⟨_, _, h⟩ := bind_eq_pure h
  intro i
  obtain ⟨_, _, h⟩ := bind_eq_pure (SparseDiagonal.tabM_partial h i)
  exact crt_canonical h

theorem convS_canonical {s : Fin N → Int} {A C : R_Q LOGQ N} (h : convS s A = pure C) : C.Canonical := by
  intro i
  refine forUp_partial (fun c : Z_Q LOGQ => c.Canonical) canonical_setzero ?_
    (SparseDiagonal.tabM_partial h i)
  intro k c c' _ _ hc hb
  obtain ⟨sk, _, hb⟩ := bind_eq_pure hb
  dsimp only at hb
  split at hb
  · split at hb
    · obtain ⟨t, _, hb⟩ := bind_eq_pure hb
      rw [← pure_inj hb]
      split
      · exact canonical_add _ _
      · exact canonical_sub _ _
    · obtain ⟨j, _, hb⟩ := bind_eq_pure hb
      obtain ⟨t, _, hb⟩ := bind_eq_pure hb
      rw [← pure_inj hb]
      split
      · exact canonical_add _ _
      · exact canonical_sub _ _
  · rw [← pure_inj hb]; exact hc

theorem addSelf_canonical (A : R_Q LOGQ N) : (R_Q.addSelf A).Canonical := by
  unfold R_Q.addSelf
  rw [forFin_map (fun _ => Z_Q.addSelf)]
  intro i
  show (Z_Q.addSelf (A i)).Canonical
  rw [addSelf_eq]
  exact canonical_remove_clutter _

theorem mulR_canonical {c d : R_Q_square LOGQ N} {B : R_Q LOGQ N} (h : R_Q_square.mulR c B = pure d) :
    d.Canonical := by
  obtain ⟨_, h1, h⟩ := bind_eq_pure h
  obtain ⟨_, h2, h⟩ := bind_eq_pure h
  rw [← pure_inj h]
  exact ⟨conv_canonical h1, conv_canonical h2⟩

theorem ctAdd_canonical (c d : R_Q_square LOGQ N) : (R_Q_square.add c d).Canonical :=
  ⟨R_Q.canonical_add _ _, R_Q.canonical_add _ _⟩

theorem ctSetzero_canonical : (R_Q_square.setzero : R_Q_square LOGQ N).Canonical :=
  ⟨R_Q.canonical_setzero, R_Q.canonical_setzero⟩

theorem enc_canonical {RM : Nat} {pt : R_Q LOGQ N} {s : Fin N → Int} {ct0 : R_Q_square LOGQ N} {ω : Rng}
    {r : R_Q_square LOGQ N × Rng} (h : enc RM pt s ct0 ω = pure r) : r.1.Canonical := by
  obtain ⟨_, _, h⟩ := bind_eq_pure h
  rw [← pure_inj h]
  exact ⟨R_Q.canonical_sub _ _, encMask_canonical _ _ _⟩

theorem swkgen_canonical {RM : Nat} {s s' : Fin N → Int} {k0 : R_Q_square (2 * LOGQ) N} {ω : Rng}
    {r : R_Q_square (2 * LOGQ) N × Rng} (h : swkgen RM s s' k0 ω = pure r) : r.1.Canonical := by
  obtain ⟨_, _, h⟩ := bind_eq_pure h
  obtain ⟨_, _, h⟩ := bind_eq_pure h
  exact enc_canonical h

theorem RS_returns {LF LT : Nat} [NeZero LF] [NeZero LT] {c : R_Q_square LF N} {c0 d : R_Q_square LT N}
    (hc : c.Canonical) (h : RS c c0 = pure d) : d.Canonical := by
  rcases Nat.eq_zero_or_pos N with h0 | h0
  · subst h0; exact ⟨fun i => i.elim0, fun i => i.elim0⟩
  · have : NeZero N := ⟨by omega⟩
    rcases Nat.lt_or_ge LF LT with hl | hl
    · rw [C23_RS_up hl] at h; exact absurd h (ub_ne_pure _)
    · obtain ⟨y, e, hy⟩ := RS_canonical hl c hc c0
      rw [e] at h; rw [← pure_inj h]; exact hy

theorem ks_canonical {k : R_Q_square (2 * LOGQ) N} {c d : R_Q_square LOGQ N} (h : ks k c = pure d) :
    d.Canonical := by
  obtain ⟨_, _, h⟩ := bind_eq_pure h
  obtain ⟨_, _, h⟩ := bind_eq_pure h
  rw [← pure_inj h]
  exact ctAdd_canonical _ _

theorem Mul_canonical {c1 c2 c30 d : R_Q_square LOGQ N} {evk : R_Q_square (2 * LOGQ) N}
    (h : Mul c1 c2 evk c30 = pure d) : d.Canonical := by
  obtain ⟨_, _, h⟩ := bind_eq_pure h
  obtain ⟨_, _, h⟩ := bind_eq_pure h
  obtain ⟨_, _, h⟩ := bind_eq_pure h
  obtain ⟨_, _, h⟩ := bind_eq_pure h
  obtain ⟨_, _, h⟩ := bind_eq_pure h
  obtain ⟨_, _, h⟩ := bind_eq_pure h
  rw [← pure_inj h]
  exact ctAdd_canonical _ _

theorem wr_canonical {A B : R_Q LOGQ N} {i : Nat} {z : Z_Q LOGQ} (hA : A.Canonical) (hz : z.Canonical)
    (h : wr A i z = pure B) : B.Canonical := by
  by_cases hi : i < N
  · rw [wr_of_lt _ hi] at h
    rw [← pure_inj h]
    intro j
    rw [Function.update_apply]
    split
    · exact hz
    · exact hA j
  · unfold wr at h
    rw [dif_neg hi] at h
    exact absurd h (ub_ne_pure _)

theorem rd_canonical {A : R_Q LOGQ N} {i : Nat} {z : Z_Q LOGQ} (hA : A.Canonical) (h : rd A i = pure z) :
    z.Canonical := by
  by_cases hi : i < N
  · rw [rd_of_lt _ hi] at h
    rw [← pure_inj h]; exact hA _
  · rw [rd_of_ge _ (by omega)] at h
    exact absurd h (ub_ne_pure _)

theorem rotR_canonical {A d0 B : R_Q LOGQ N} {r : Nat} (hA : A.Canonical) (hd : d0.Canonical)
    (h : rotR A d0 r = pure B) : B.Canonical := by
  obtain ⟨_, _, h⟩ := bind_eq_pure h
  obtain ⟨_, h1, h⟩ := bind_eq_pure h
  rw [← pure_inj h]
  refine forUp_partial (fun st : R_Q LOGQ N × Nat => R_Q.Canonical st.1) hd ?_ h1
  intro i st st' _ _ hst hb
  obtain ⟨x, hx, hb⟩ := bind_eq_pure hb
  dsimp only at hb
  split at hb
  · obtain ⟨d, hd', hb⟩ := bind_eq_pure hb
    obtain ⟨j, _, hb⟩ := bind_eq_pure hb
    rw [← pure_inj hb]
    exact wr_canonical hst (rd_canonical hA hx) hd'
  · obtain ⟨_, h2, hb⟩ := bind_eq_pure hb
    obtain ⟨_, h3, hb⟩ := bind_eq_pure hb
    obtain ⟨d, hd', hb⟩ := bind_eq_pure hb
    obtain ⟨j, _, hb⟩ := bind_eq_pure hb
    rw [← pure_inj hb]
    exact wr_canonical (wr_canonical hst (rd_canonical hA hx) h2) (canonical_negate _) hd'

theorem conjR_canonical {A d0 B : R_Q LOGQ N} (hA : A.Canonical) (h : conjR A d0 = pure B) : B.Canonical := by
  rcases Nat.eq_zero_or_pos N with h0 | h0
  · subst h0; exact fun i => i.elim0
  · obtain ⟨y, e, hy, _⟩ := conjR_spec h0 hA d0
    rw [e] at h; rw [← pure_inj h]; exact hy

theorem polyLast_canonical {LF LT LD K : Nat} [NeZero LF] [NeZero LT] {T : R_Q_square LF N}
    {L : Fin K → R_Q_square LF N} {evk : R_Q_square (2 * LF) N} {d : R_Q_square LT N}
    (h : polyLast LT LD T L evk = pure d) : d.Canonical := by
  obtain ⟨_, _, h⟩ := bind_eq_pure h
  obtain ⟨_, _, h⟩ := bind_eq_pure h
  obtain ⟨_, _, h⟩ := bind_eq_pure h
  obtain ⟨_, _, h⟩ := bind_eq_pure h
  exact RS_returns (ctAdd_canonical _ _) h

end

section
variable {LOGQ LOGN S : Nat} [NeZero LOGQ]

theorem encode_canonical {z : CVec LOGN} {Delta : W} {pt : R_Q LOGQ (2^LOGN)} (hQ : 64 ≤ LOGQ)
    (h : encode LOGQ z Delta = pure pt) : pt.Canonical := by
  obtain ⟨m, _, h⟩ := bind_eq_pure h
  intro i
  obtain ⟨x, _, h⟩ := bind_eq_pure (SparseDiagonal.tabM_partial h i)
  obtain ⟨w, _, h⟩ := bind_eq_pure h
  rw [← pure_inj h]
  split
  · exact canonical_negate _
  · exact ofW_canonical hQ w

theorem linTransKeys_canonical {LD : Nat} {A : SD2 (2^(LOGN-1)) S} {c d : R_Q_square LOGQ (2^LOGN)}
    {key : Fin S → R_Q_square (2 * LOGQ) (2^LOGN)} {mem : Fin S → Option (R_Q_square LOGQ (2^LOGN))}
    (h : linTransKeys LD A c key mem = pure d) : d.Canonical := by
  refine forUp_partial (fun c : R_Q_square LOGQ (2^LOGN) => c.Canonical)
    ctSetzero_canonical ?_ h
  intro i st st' _ hi hst hb
  rw [dif_pos hi] at hb
  unfold ltKeysStep at hb
  split at hb
  · obtain ⟨_, _, hb⟩ := bind_eq_pure hb
    obtain ⟨_, _, hb⟩ := bind_eq_pure hb
    obtain ⟨_, _, hb⟩ := bind_eq_pure hb
    obtain ⟨_, _, hb⟩ := bind_eq_pure hb
    obtain ⟨_, _, hb⟩ := bind_eq_pure hb
    rw [← pure_inj hb]; exact ctAdd_canonical _ _
  · rw [← pure_inj hb]; exact hst

theorem linTrans_canonical {RM LD : Nat} {A : SD2 (2^(LOGN-1)) S} {c : R_Q_square LOGQ (2^LOGN)}
    {s : Fin (2^LOGN) → Int} {ω : Rng} {r : R_Q_square LOGQ (2^LOGN) × Rng}
    (h : linTrans RM LD A c s ω = pure r) : r.1.Canonical := by
  have h0 : R_Q_square.Canonical ((R_Q_square.setzero : R_Q_square LOGQ (2^LOGN)), ω).1 := ctSetzero_canonical
  unfold linTrans at h
  refine forUp_partial (fun c : R_Q_square LOGQ (2^LOGN) × Rng => c.1.Canonical) h0 ?_ h
  intro i st st' _ hi hst hb
  rw [dif_pos hi] at hb
  unfold ltStep at hb
  obtain ⟨_, _, hb⟩ := bind_eq_pure hb
  split at hb
  · rw [← pure_inj hb]; exact hst
  · obtain ⟨_, _, hb⟩ := bind_eq_pure hb
    obtain ⟨_, _, hb⟩ := bind_eq_pure hb
    obtain ⟨_, _, hb⟩ := bind_eq_pure hb
    obtain ⟨_, _, hb⟩ := bind_eq_pure hb
    rw [← pure_inj hb]; exact ctAdd_canonical _ _

theorem serialLT_canonical {RM LD D : Nat} {A : Fin D → SD2 (2^(LOGN-1)) S} {c : R_Q_square LOGQ (2^LOGN)}
    {s : Fin (2^LOGN) → Int} {ω : Rng} {r : R_Q_square LOGQ (2^LOGN) × Rng} (hc : c.Canonical)
    (h : serialLT RM LD A c s ω = pure r) : r.1.Canonical := by
  refine forUp_partial (fun c : R_Q_square LOGQ (2^LOGN) × Rng => c.1.Canonical) hc ?_ h
  intro i st st' _ hi hst hb
  obtain ⟨_, _, hb⟩ := bind_eq_pure hb
  exact linTrans_canonical hb

theorem groupedLT_canonical {RM LD G D : Nat} {A : Fin D → SD2 (2^(LOGN-1)) S} {c : R_Q_square LOGQ (2^LOGN)}
    {s : Fin (2^LOGN) → Int} {ω : Rng} {r : R_Q_square LOGQ (2^LOGN) × Rng} (hc : c.Canonical)
    (h : groupedLT RM LD G A c s ω = pure r) : r.1.Canonical := by
  unfold groupedLT at h
  split at h
  · exact serialLT_canonical hc h
  · obtain ⟨_, _, h⟩ := bind_eq_pure h; exact serialLT_canonical hc h
  · obtain ⟨_, _, h⟩ := bind_eq_pure h; exact serialLT_canonical hc h
  · obtain ⟨_, _, h⟩ := bind_eq_pure h; exact serialLT_canonical hc h
  · exact nomatch h

theorem cts_canonical {RM LD G : Nat} {c : R_Q_square LOGQ (2^LOGN)} {s : Fin (2^LOGN) → Int} {ω : Rng}
    {r : (R_Q_square LOGQ (2^LOGN) × R_Q_square LOGQ (2^LOGN)) × Rng}
    (h : CoeffToSlot RM LD G c s ω = pure r) : r.1.1.Canonical ∧ r.1.2.Canonical := by
  obtain ⟨_, _, h⟩ := bind_eq_pure h
  obtain ⟨_, _, h⟩ := bind_eq_pure h
  obtain ⟨_, _, h⟩ := bind_eq_pure h
  obtain ⟨_, _, h⟩ := bind_eq_pure h
  obtain ⟨_, _, h⟩ := bind_eq_pure h
  obtain ⟨_, _, h⟩ := bind_eq_pure h
  obtain ⟨_, h1, h⟩ := bind_eq_pure h
  rw [← pure_inj h]
  exact ⟨ctAdd_canonical _ _, mulR_canonical h1⟩

theorem stc_canonical {RM LD G : Nat} {c0 c1 : R_Q_square LOGQ (2^LOGN)} {s : Fin (2^LOGN) → Int} {ω : Rng}
    {r : R_Q_square LOGQ (2^LOGN) × Rng} (h : SlotToCoeff RM LD G c0 c1 s ω = pure r) : r.1.Canonical := by
  obtain ⟨_, _, h⟩ := bind_eq_pure h
  obtain ⟨_, _, h⟩ := bind_eq_pure h
  obtain ⟨_, _, h⟩ := bind_eq_pure h
  rw [← pure_inj h]
  exact ctAdd_canonical _ _

end

theorem deg3_canonical {Q0 Q1 Q2 N} [NeZero Q0] [NeZero Q1] [NeZero Q2] {LD u} {c : R_Q_square Q0 N}
      {e1 : R_Q_square (2 * Q0) N} {e2 : R_Q_square (2 * Q1) N} {d : R_Q_square Q2 N}
    (h : eval_poly_deg3 LD u c e1 e2 = pure d) : d.Canonical := by
  unfold eval_poly_deg3 at h
  obtain ⟨_, _, h⟩ := bind_eq_pure h
  obtain ⟨_, _, h⟩ := bind_eq_pure h
  obtain ⟨_, _, h⟩ := bind_eq_pure h
  exact polyLast_canonical h

theorem deg7_canonical {Q0 Q1 Q2 Q3 N} [NeZero Q0] [NeZero Q1] [NeZero Q2] [NeZero Q3] {LD u} {c : R_Q_square Q0 N}
      {e1 : R_Q_square (2 * Q0) N} {e2 : R_Q_square (2 * Q1) N} {e3 : R_Q_square (2 * Q2) N}
      {d : R_Q_square Q3 N}
    (h : eval_poly_deg7 LD u c e1 e2 e3 = pure d) : d.Canonical := by
  unfold eval_poly_deg7 at h
  obtain ⟨_, _, h⟩ := bind_eq_pure h
  obtain ⟨_, _, h⟩ := bind_eq_pure h
  obtain ⟨_, _, h⟩ := bind_eq_pure h
  obtain ⟨_, _, h⟩ := bind_eq_pure h
  obtain ⟨_, _, h⟩ := bind_eq_pure h
  obtain ⟨_, _, h⟩ := bind_eq_pure h
  obtain ⟨_, _, h⟩ := bind_eq_pure h
  obtain ⟨_, _, h⟩ := bind_eq_pure h
  obtain ⟨_, _, h⟩ := bind_eq_pure h
  obtain ⟨_, _, h⟩ := bind_eq_pure h
  exact polyLast_canonical h

theorem deg15_canonical {Q0 Q1 Q2 Q3 Q4 N} [NeZero Q0] [NeZero Q1] [NeZero Q2] [NeZero Q3] [NeZero Q4] {LD u}
      {c : R_Q_square Q0 N} {e1 : R_Q_square (2 * Q0) N} {e2 : R_Q_square (2 * Q1) N}
      {e3 : R_Q_square (2 * Q2) N} {e4 : R_Q_square (2 * Q3) N} {d : R_Q_square Q4 N}
    (h : eval_poly_deg15 LD u c e1 e2 e3 e4 = pure d) : d.Canonical := by
  unfold eval_poly_deg15 at h
  obtain ⟨_, _, h⟩ := bind_eq_pure h
  obtain ⟨_, _, h⟩ := bind_eq_pure h
  obtain ⟨_, _, h⟩ := bind_eq_pure h
  obtain ⟨_, _, h⟩ := bind_eq_pure h
  obtain ⟨_, _, h⟩ := bind_eq_pure h
  obtain ⟨_, _, h⟩ := bind_eq_pure h
  obtain ⟨_, _, h⟩ := bind_eq_pure h
  exact polyLast_canonical h

theorem deg31_canonical {Q0 Q1 Q2 Q3 Q4 Q5 N} [NeZero Q0] [NeZero Q1] [NeZero Q2] [NeZero Q3] [NeZero Q4] [NeZero Q5] {LD u}
      {c : R_Q_square Q0 N} {e1 : R_Q_square (2 * Q0) N} {e2 : R_Q_square (2 * Q1) N}
      {e3 : R_Q_square (2 * Q2) N} {e4 : R_Q_square (2 * Q3) N} {e5 : R_Q_square (2 * Q4) N}
      {d : R_Q_square Q5 N}
    (h : eval_poly_deg31 LD u c e1 e2 e3 e4 e5 = pure d) : d.Canonical := by
  unfold eval_poly_deg31 at h
  obtain ⟨_, _, h⟩ := bind_eq_pure h
  obtain ⟨_, _, h⟩ := bind_eq_pure h
  obtain ⟨_, _, h⟩ := bind_eq_pure h
  obtain ⟨_, _, h⟩ := bind_eq_pure h
  obtain ⟨_, _, h⟩ := bind_eq_pure h
  obtain ⟨_, _, h⟩ := bind_eq_pure h
  obtain ⟨_, _, h⟩ := bind_eq_pure h
  obtain ⟨_, _, h⟩ := bind_eq_pure h
  obtain ⟨_, _, h⟩ := bind_eq_pure h
  exact polyLast_canonical h

theorem deg63_canonical {Q0 Q1 Q2 Q3 Q4 Q5 Q6 N} [NeZero Q0] [NeZero Q1] [NeZero Q2] [NeZero Q3] [NeZero Q4] [NeZero Q5]
      [NeZero Q6] {LD u} {c : R_Q_square Q0 N} {e1 : R_Q_square (2 * Q0) N} {e2 : R_Q_square (2 * Q1) N}
      {e3 : R_Q_square (2 * Q2) N} {e4 : R_Q_square (2 * Q3) N} {e5 : R_Q_square (2 * Q4) N}
      {e6 : R_Q_square (2 * Q5) N} {d : R_Q_square Q6 N}
    (h : eval_poly_deg63 LD u c e1 e2 e3 e4 e5 e6 = pure d) : d.Canonical := by
  unfold eval_poly_deg63 at h
  obtain ⟨_, _, h⟩ := bind_eq_pure h
  obtain ⟨_, _, h⟩ := bind_eq_pure h
  obtain ⟨_, _, h⟩ := bind_eq_pure h
  obtain ⟨_, _, h⟩ := bind_eq_pure h
  obtain ⟨_, _, h⟩ := bind_eq_pure h
  obtain ⟨_, _, h⟩ := bind_eq_pure h
  obtain ⟨_, _, h⟩ := bind_eq_pure h
  obtain ⟨_, _, h⟩ := bind_eq_pure h
  obtain ⟨_, _, h⟩ := bind_eq_pure h
  obtain ⟨_, _, h⟩ := bind_eq_pure h
  obtain ⟨_, _, h⟩ := bind_eq_pure h
  exact polyLast_canonical h

theorem deg127_canonical {Q0 Q1 Q2 Q3 Q4 Q5 Q6 Q7 N} [NeZero Q0] [NeZero Q1] [NeZero Q2] [NeZero Q3] [NeZero Q4] [NeZero Q5]
      [NeZero Q6] [NeZero Q7] {LD u} {c : R_Q_square Q0 N} {e1 : R_Q_square (2 * Q0) N}
      {e2 : R_Q_square (2 * Q1) N} {e3 : R_Q_square (2 * Q2) N} {e4 : R_Q_square (2 * Q3) N}
      {e5 : R_Q_square (2 * Q4) N} {e6 : R_Q_square (2 * Q5) N} {e7 : R_Q_square (2 * Q6) N}
      {d : R_Q_square Q7 N}
    (h : eval_poly_deg127 LD u c e1 e2 e3 e4 e5 e6 e7 = pure d) : d.Canonical := by
  unfold eval_poly_deg127 at h
  obtain ⟨_, _, h⟩ := bind_eq_pure h
  obtain ⟨_, _, h⟩ := bind_eq_pure h
  obtain ⟨_, _, h⟩ := bind_eq_pure h
  obtain ⟨_, _, h⟩ := bind_eq_pure h
  obtain ⟨_, _, h⟩ := bind_eq_pure h
  obtain ⟨_, _, h⟩ := bind_eq_pure h
  obtain ⟨_, _, h⟩ := bind_eq_pure h
  obtain ⟨_, _, h⟩ := bind_eq_pure h
  obtain ⟨_, _, h⟩ := bind_eq_pure h
  obtain ⟨_, _, h⟩ := bind_eq_pure h
  obtain ⟨_, _, h⟩ := bind_eq_pure h
  obtain ⟨_, _, h⟩ := bind_eq_pure h
  obtain ⟨_, _, h⟩ := bind_eq_pure h
  exact polyLast_canonical h

theorem inRange_poly {LOGQ N : Nat} {A : R_Q LOGQ N} : (Obj.poly LOGQ N A).InRange ↔ A.Canonical := Iff.rfl

theorem inRange_ct {LOGQ N : Nat} {c : R_Q_square LOGQ N} : (Obj.ct LOGQ N c).InRange ↔ c.Canonical :=
  forall_and

/-- C43: whatever a program holds after any sequence of calls has all coefficients below `2^LOGQ`. -/
theorem C43_canonical {o : Obj} (h : Held o) : o.InRange := by
  induction h with
  | input h => exact h
  | setzero LOGQ N => exact fun _ => canonical_setzero
  | copy _ ih => exact ih
  | add A B => exact R_Q.canonical_add A B
  | addSelf A => exact addSelf_canonical A
  | sub A B => exact R_Q.canonical_sub A B
  | mulW A a => exact R_Q.canonical_mulW A a
  | resize A => exact fun _ => canonical_resize _
  | conv h => exact conv_canonical h
  | convS h => exact convS_canonical h
  | rot _ _ h iA id => exact rotR_canonical iA id h
  | rot2 hk _ h iA =>
    obtain ⟨y, e, hy, _⟩ := rotR_pow2 hk _ (inRange_poly.1 iA) _
    rw [e] at h; rw [← pure_inj h]; exact hy
  | conj _ h iA => exact conjR_canonical iA h
  | pair _ _ iA iB => exact fun i => ⟨iA i, iB i⟩
  | fst _ ih => exact fun i => (ih i).1
  | snd _ ih => exact fun i => (ih i).2
  | ctSetzero LOGQ N => exact fun _ => ⟨canonical_setzero, canonical_setzero⟩
  | ctCopy _ ih => exact ih
  | ctAdd c d => exact inRange_ct.2 (ctAdd_canonical c d)
  | ctAddSelf c => exact inRange_ct.2 ⟨addSelf_canonical _, addSelf_canonical _⟩
  | ctSub c d => exact inRange_ct.2 ⟨R_Q.canonical_sub _ _, R_Q.canonical_sub _ _⟩
  | ctMulW c a => exact inRange_ct.2 ⟨R_Q.canonical_mulW _ _, R_Q.canonical_mulW _ _⟩
  | ctMulR h => exact inRange_ct.2 (mulR_canonical h)
  | ctResize c => exact fun _ => ⟨canonical_resize _, canonical_resize _⟩
  | modRaise c => exact fun _ => ⟨canonical_resize _, canonical_resize _⟩
  | enc h => have t := enc_canonical h; exact inRange_ct.2 t
  | dec h =>
    obtain ⟨_, _, h⟩ := bind_eq_pure h
    rw [← pure_inj h]; exact R_Q.canonical_add _ _
  | swkgen h => have t := swkgen_canonical h; exact inRange_ct.2 t
  | RS _ h ih => exact inRange_ct.2 (RS_returns (inRange_ct.1 ih) h)
  | ks h => exact inRange_ct.2 (ks_canonical h)
  | Mul h => exact inRange_ct.2 (Mul_canonical h)
  | rotCt h =>
    obtain ⟨_, _, h⟩ := bind_eq_pure h
    obtain ⟨_, _, h⟩ := bind_eq_pure h
    exact inRange_ct.2 (ks_canonical h)
  | conjCt h =>
    obtain ⟨_, _, h⟩ := bind_eq_pure h
    obtain ⟨_, _, h⟩ := bind_eq_pure h
    exact inRange_ct.2 (ks_canonical h)
  | linTransKeys h => exact inRange_ct.2 (linTransKeys_canonical h)
  | linTrans h => have t := linTrans_canonical h; exact inRange_ct.2 t
  | serialLT _ h ih => have t := serialLT_canonical (inRange_ct.1 ih) h; exact inRange_ct.2 t
  | groupedLT _ h ih => have t := groupedLT_canonical (inRange_ct.1 ih) h; exact inRange_ct.2 t
  | coeffToSlot0 h => have t := (cts_canonical h).1; exact inRange_ct.2 t
  | coeffToSlot1 h => have t := (cts_canonical h).2; exact inRange_ct.2 t
  | slotToCoeff h => have t := stc_canonical h; exact inRange_ct.2 t
  | encode hQ h => exact encode_canonical hQ h
  | deg3 h => exact inRange_ct.2 (deg3_canonical h)
  | deg7 h => exact inRange_ct.2 (deg7_canonical h)
  | deg15 h => exact inRange_ct.2 (deg15_canonical h)
  | deg31 h => exact inRange_ct.2 (deg31_canonical h)
  | deg63 h => exact inRange_ct.2 (deg63_canonical h)
  | deg127 h => exact inRange_ct.2 (deg127_canonical h)

/-- The restriction to 64 bits and more in `Held.encode` is needed: `encode` stores the rounded value
without reducing it, so at a smaller modulus a coefficient can be out of range. -/
theorem C43_encode_small {LOGQ LOGN : Nat} [NeZero LOGQ] (hQ : LOGQ < 64) (h1 : 2 ≤ LOGN) (h2 : LOGN ≤ 27) :
    ∃ z pt, encode LOGQ (LOGN := LOGN) z (BitVec.ofNat 64 (2^63)) = pure pt ∧
      ¬ (Obj.poly LOGQ (2^LOGN) pt).InRange := by
  obtain ⟨z, ez, _⟩ := C28_fft h1 h2 (Pi.single 0 1 : Fin (2^LOGN) → ℝ)
  have e := C28_ifft_fft h1 h2 (Pi.single 0 1 : Fin (2^LOGN) → ℝ) (fun _ => 0)
  rw [ez, pure_bind] at e
  have hD : (BitVec.ofNat 64 (2^63)).toNat = 2^63 := rfl
  have hc : ∀ x : ℝ, x = 0 ∨ x = 1 → encodeCoeff LOGQ (BitVec.ofNat 64 (2^63)) x =
      pure (ofW (if x = 1 then BitVec.ofNat 64 (2^63) else 0)) := by
    intro x hx
    unfold encodeCoeff
    dsimp only
    rw [hD]
    rcases hx with rfl | rfl
    · have : cround (|(0:ℝ)| * ((2^63 : ℕ) : ℝ)) = 0 := by
        rw [abs_zero, zero_mul]; unfold cround; norm_num
      rw [this]
      unfold toU64
      rw [if_pos ⟨le_refl _, by norm_num⟩, pure_bind, if_neg (lt_irrefl _), if_neg (by norm_num)]
      rfl
    · have : cround (|(1:ℝ)| * ((2^63 : ℕ) : ℝ)) = 2^63 := by
        rw [abs_one, one_mul]; unfold cround
        rw [if_pos (by positivity)]
        rw [Int.floor_eq_iff]; push_cast; constructor <;> norm_num
      rw [this]
      unfold toU64
      rw [if_pos ⟨by norm_num, by norm_num⟩, pure_bind, if_neg (by norm_num), if_pos rfl]
      rfl
  refine ⟨z, fun i => ofW (if i = 0 then BitVec.ofNat 64 (2^63) else 0), ?_, ?_⟩
  · unfold encode
    rw [e, pure_bind]
    refine tabM_eq fun i => ?_
    rw [rd_of_lt _ i.isLt, pure_bind, hc _ (by rw [Pi.single_apply]; split <;> simp)]
    congr 2
    by_cases h0 : i = 0
    · rw [h0]; simp
    · rw [Pi.single_eq_of_ne h0, if_neg h0, if_neg (by norm_num)]
  · intro h
    have h3 := h 0
    dsimp only at h3
    rw [if_pos rfl, val_setLow, hD] at h3
    exact absurd (Nat.pow_lt_pow_iff_right (by norm_num) |>.1 h3) (by omega)

/-- A case: a fresh encryption at modulus `2^130` of a message with all bits set, rescaled to modulus
`2^70`. Both calls return, so the theorem speaks about the result. -/
example (s : Fin 4 → Int) (ω : Rng) (ct0 : R_Q_square 130 4) :
    ∃ c ω' d, enc 32767 (fun _ => (⟨fun _ => -1⟩ : Z_Q 130)) s ct0 ω = pure (c, ω') ∧
      RS (LT := 70) c R_Q_square.setzero = pure d ∧ Held (.ct 70 4 d) := by
  obtain ⟨e, he, _⟩ := convS_spec (by norm_num) s (encMask 32767 ct0.2 ω).1
  have hE : ∃ c ω', enc 32767 (fun _ => (⟨fun _ => -1⟩ : Z_Q 130)) s ct0 ω = pure (c, ω') := by
    unfold enc
    dsimp only
    rw [he, pure_bind]
    exact ⟨_, _, rfl⟩
  obtain ⟨c, ω', hE⟩ := hE
  have hc : Held (.ct 130 4 c) := Held.enc hE
  obtain ⟨d, hd, _⟩ := RS_canonical (LT := 70) (by norm_num) c (inRange_ct.1 (C43_canonical hc)) R_Q_square.setzero
  exact ⟨c, ω', d, hE, hd, Held.RS hc hd⟩

end EvalRound

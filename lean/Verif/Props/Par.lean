import Verif.Proofs.Par
import Verif.Props.Conv

/-! # C38: the parallel loops under every schedule -/

namespace EvalRound
open Z_Q

variable {A : Type} [DecidableEq A] {L LOGQ N : Nat}

/-- C38: iterations that write disjoint sets of cells and otherwise read only cells that no iteration writes:
if the loop in source order ends in memory `m'`, every interleaving of the accesses ends in `m'`. -/
theorem C38_schedule {V : A → Type} {n : Nat} {p : Fin n → Prog A V Unit} {m m' : (a : A) → V a} (Own : Fin n → A → Prop)
    (Sh : A → Prop) (hdis : ∀ i j a, Own i a → Own j a → i = j) (hsh : ∀ i a, Sh a → ¬ Own i a)
    (hd : ∀ i, (p i).Disc (fun a => Own i a ∨ Sh a) (Own i)) (hseq : seqRun n p m = pure m') : AllSchedules p m m' :=
  let h := seqRun_solo Sh hdis hsh hd hseq
  all_schedules Sh hdis hsh hd h.1 h.2

/-- C38: `conv(s,A,C)`. With `C` at cells `dst` away from the cells `src` of `A`, every interleaving of the
iterations stores the result of the loop in source order and leaves the other cells alone. -/
theorem C38_conv_key [NeZero LOGQ] (s : Fin N → Int) (src dst : Fin N → Fin (nlimb LOGQ) → A)
    (hdst : ∀ i j i' j', dst i j = dst i' j' → i = i' ∧ j = j') (hne : ∀ i j i' j', src i j ≠ dst i' j')
    (X Y : R_Q LOGQ N) (m : A → W) (hX : ∀ i j, m (src i j) = (X i).data j) (h : convS s X = pure Y) :
    ∃ m', AllSchedules (convSP s src dst) m m' ∧ (∀ i j, m' (dst i j) = (Y i).data j) ∧
      ∀ a, (∀ i j, a ≠ dst i j) → m' a = m a := by
  have hY := SparseDiagonal.tabM_partial h
  obtain ⟨m', hm', hout⟩ := exists_store (f := fun k : _ × _ => dst k.1 k.2)
    (fun k k' e => Prod.ext (hdst _ _ _ _ e).1 (hdst _ _ _ _ e).2) (fun k => (Y k.1).data k.2) m
  replace hm' := fun i j => hm' (i, j)
  replace hout := fun a (ha : ∀ i j, a ≠ dst i j) => hout a fun k => ha k.1 k.2
  refine ⟨m', all_schedules (Own := fun i a => ∃ j, a = dst i j) (fun a => ∃ i j, a = src i j) ?_ ?_ ?_ ?_ ?_, hm', hout⟩
  · rintro i i' a ⟨j, rfl⟩ ⟨j', e⟩
    exact (hdst _ _ _ _ e).1
  · rintro i a ⟨i', j', rfl⟩ ⟨j, e⟩
    exact hne _ _ _ _ e
  · intro i
    exact convSP_disc (fun j => ⟨j, rfl⟩) (fun j => Or.inl ⟨j, rfl⟩) fun i' j => Or.inr ⟨i', j, rfl⟩
  · intro i
    refine Ok.mono (convSP_exec (fun j j' e => (hdst _ _ _ _ e).2) (fun i' j' j => hne _ _ _ _) hX (hY i)) ?_
    rintro r ⟨h1, _⟩ a ⟨j, rfl⟩
    rw [h1, hm']
  · intro a ha
    exact hout a fun i j e => ha i ⟨j, e⟩

/-- C38: `icrt_polynomial`. -/
theorem C38_residues [NeZero LOGQ] (C : CONV L LOGQ N) (src : Fin N → Fin (nlimb LOGQ) → A) (dst : Fin L → Fin N → A)
    (hdst : ∀ j i j' i', dst j i = dst j' i' → j = j' ∧ i = i') (hne : ∀ i k j i', src i k ≠ dst j i')
    (X : R_Q LOGQ N) (Y : Fin L → Fin N → W) (m : A → W) (hX : ∀ i j, m (src i j) = (X i).data j)
    (h : C.icrt_polynomial X = pure Y) :
    ∃ m', AllSchedules (icrtP C src dst) m m' ∧ (∀ j i, m' (dst j i) = Y j i) ∧
      ∀ a, (∀ j i, a ≠ dst j i) → m' a = m a := by
  obtain ⟨cols, hc, hc2⟩ := bind_eq_pure h
  have hc' := SparseDiagonal.tabM_partial hc
  have hY : ∀ i : Fin N, C.crt.icrt (X i) = pure (fun j => Y j i) := by
    intro i
    have := hc' i
    rw [rd_of_lt _ i.isLt, pure_bind] at this
    rw [← pure_inj hc2]
    exact this
  obtain ⟨m', hm', hout⟩ := exists_store (f := fun k : _ × _ => dst k.1 k.2)
    (fun k k' e => Prod.ext (hdst _ _ _ _ e).1 (hdst _ _ _ _ e).2) (fun k => Y k.1 k.2) m
  replace hm' := fun i j => hm' (i, j)
  replace hout := fun a (ha : ∀ i j, a ≠ dst i j) => hout a fun k => ha k.1 k.2
  refine ⟨m', all_schedules (Own := fun i a => ∃ j, a = dst j i) (fun a => ∃ i j, a = src i j) ?_ ?_ ?_ ?_ ?_, hm', hout⟩
  · rintro i i' a ⟨j, rfl⟩ ⟨j', e⟩
    exact (hdst _ _ _ _ e).2
  · rintro i a ⟨i', j', rfl⟩ ⟨j, e⟩
    exact hne _ _ _ _ e
  · intro i
    exact icrtP_disc (fun j => Or.inr ⟨i, j, rfl⟩) fun j => ⟨j, rfl⟩
  · intro i
    refine Ok.mono (icrtP_exec (fun j j' e => (hdst _ _ _ _ e).1) (hX i) (hY i)) ?_
    rintro r h1 a ⟨j, rfl⟩
    rw [h1, hm']
  · intro a ha
    exact hout a fun i j e => ha j ⟨i, e⟩

/-- C38: `crt_polynomial`. -/
theorem C38_reconstruct [NeZero LOGQ] (C : CONV L LOGQ N) (src : Fin L → Fin N → A) (dst : Fin N → Fin (nlimb LOGQ) → A)
    (hdst : ∀ i j i' j', dst i j = dst i' j' → i = i' ∧ j = j') (hne : ∀ j i i' k, src j i ≠ dst i' k)
    (X : Fin L → Fin N → W) (Y : R_Q LOGQ N) (m : A → W) (hX : ∀ j i, m (src j i) = X j i)
    (h : C.crt_polynomial X = pure Y) :
    ∃ m', AllSchedules (crtP C src dst) m m' ∧ (∀ i j, m' (dst i j) = (Y i).data j) ∧
      ∀ a, (∀ i j, a ≠ dst i j) → m' a = m a := by
  have hc' := SparseDiagonal.tabM_partial h
  have hY : ∀ i : Fin N, C.crt.crt (fun j => X j i) = pure (Y i) := by
    intro i
    obtain ⟨a, h1, h2⟩ := bind_eq_pure (hc' i)
    have : a = fun j => X j i := by
      funext j
      have := SparseDiagonal.tabM_partial h1 j
      rw [rd_of_lt _ j.isLt, pure_bind, rd_of_lt _ i.isLt] at this
      exact (pure_inj this).symm
    rwa [this] at h2
  obtain ⟨m', hm', hout⟩ := exists_store (f := fun k : _ × _ => dst k.1 k.2)
    (fun k k' e => Prod.ext (hdst _ _ _ _ e).1 (hdst _ _ _ _ e).2) (fun k => (Y k.1).data k.2) m
  replace hm' := fun i j => hm' (i, j)
  replace hout := fun a (ha : ∀ i j, a ≠ dst i j) => hout a fun k => ha k.1 k.2
  refine ⟨m', all_schedules (Own := fun i a => ∃ j, a = dst i j) (fun a => ∃ j i, a = src j i) ?_ ?_ ?_ ?_ ?_, hm', hout⟩
  · rintro i i' a ⟨j, rfl⟩ ⟨j', e⟩
    exact (hdst _ _ _ _ e).1
  · rintro i a ⟨i', j', rfl⟩ ⟨j, e⟩
    exact hne _ _ _ _ e
  · intro i
    exact crtP_disc (fun j => Or.inr ⟨j, i, rfl⟩) fun j => ⟨j, rfl⟩
  · intro i
    refine Ok.mono (crtP_exec (fun j j' e => (hdst _ _ _ _ e).2) (fun j => hX j i) (hY i)) ?_
    rintro r h1 a ⟨j, rfl⟩
    rw [h1, hm']
  · intro a ha
    exact hout a fun i j e => ha i ⟨j, e⟩

/-- C38: the loop over the primes in `CONV::conv`; `cell` gives the places of `A_rns` (0), `B_rns` (1) and
`C_rns` (2). -/
theorem C38_primes (C : CONV L LOGQ N) (cell : Fin 3 → Fin L → Fin N → A)
    (hc : ∀ t i j t' i' j', cell t i j = cell t' i' j' → t = t' ∧ i = i' ∧ j = j')
    (X Y Z : Fin L → Fin N → W) (m : A → W) (hX : ∀ i j, m (cell 0 i j) = X i j) (hY : ∀ i j, m (cell 1 i j) = Y i j)
    (h : tabM L (C.row X Y) = pure Z) :
    ∃ m', AllSchedules (rowP C (cell 0) (cell 1) (cell 2)) m m' ∧ (∀ i j, m' (cell 2 i j) = Z i j) ∧
      ∀ a, (∀ t i j, a ≠ cell t i j) → m' a = m a := by
  have hZ := SparseDiagonal.tabM_partial h
  have hrow : ∀ i : Fin L, ∃ x y, (C.ntt i).ntt (X i) = pure x ∧ (C.ntt i).ntt (Y i) = pure y := by
    intro i
    have := hZ i
    unfold CONV.row at this
    rw [rd_of_lt _ i.isLt, pure_bind, rd_of_lt _ i.isLt, pure_bind, rd_of_lt _ i.isLt, pure_bind] at this
    obtain ⟨x, h1, this⟩ := bind_eq_pure this
    obtain ⟨y, h2, this⟩ := bind_eq_pure this
    exact ⟨x, y, h1, h2⟩
  choose x y hx hy using hrow
  let v : Fin 3 → Fin L → Fin N → W := fun t i j => if t = 0 then x i j else if t = 1 then y i j else Z i j
  obtain ⟨m', hm', hout⟩ := exists_store (f := fun k : Fin 3 × Fin L × Fin N => cell k.1 k.2.1 k.2.2)
    (fun k k' e => by
      obtain ⟨e1, e2, e3⟩ := hc _ _ _ _ _ _ e
      exact Prod.ext e1 (Prod.ext e2 e3)) (fun k => v k.1 k.2.1 k.2.2) m
  replace hm' := fun t i j => hm' (t, i, j)
  replace hout := fun a (ha : ∀ t i j, a ≠ cell t i j) => hout a fun k => ha k.1 k.2.1 k.2.2
  refine ⟨m', all_schedules (Own := fun i a => ∃ t j, a = cell t i j) (fun _ => False) ?_ ?_ ?_ ?_ ?_,
    fun i j => hm' 2 i j, hout⟩
  · rintro i i' a ⟨t, j, rfl⟩ ⟨t', j', e⟩
    exact (hc _ _ _ _ _ _ e).2.1
  · exact fun _ _ h => h.elim
  · intro i
    exact rowP_disc (fun j => ⟨0, j, rfl⟩) (fun j => ⟨1, j, rfl⟩) (fun j => ⟨2, j, rfl⟩) fun _ h => Or.inl h
  · intro i
    refine Ok.mono (rowP_exec (fun j j' e => (hc _ _ _ _ _ _ e).2.2) (fun j j' e => (hc _ _ _ _ _ _ e).2.2)
      (fun j j' e => (hc _ _ _ _ _ _ e).2.2) (fun j k e => absurd (hc _ _ _ _ _ _ e).1 (by decide))
      (fun j k e => absurd (hc _ _ _ _ _ _ e).1 (by decide)) (fun j k e => absurd (hc _ _ _ _ _ _ e).1 (by decide))
      (hX i) (hY i) (hx i) (hy i) (hZ i)) ?_
    rintro r ⟨h1, h2, h3⟩ a ⟨t, j, rfl⟩
    rw [hm']
    fin_cases t
    · exact h1 j
    · exact h2 j
    · exact h3 j
  · intro a ha
    exact hout a fun t i j e => ha i ⟨t, j, e⟩

/-- The words used by a call of `CONV::conv`: the operands, `A_rns`, `B_rns`, `C_rns`, and the result. -/
inductive ConvCell (L LOGQ N : Nat)
  | arg (b : Bool) (i : Fin N) (j : Fin (nlimb LOGQ))
  | rns (t : Fin 3) (j : Fin L) (i : Fin N)
  | res (i : Fin N) (j : Fin (nlimb LOGQ))
  deriving DecidableEq

/-- C38: the four parallel loops of a call `CONV::conv(A,B,C)`, conv/conv.h:32-51, one after the other, each in
any interleaving of its iterations: `C` receives the value of the sequential model, the operands stay. -/
theorem C38_conv [NeZero LOGQ] (C : CONV L LOGQ N) (X Y Z : R_Q LOGQ N) (h : C.conv X Y = pure Z)
    (m0 : ConvCell L LOGQ N → W) (hX : ∀ i j, m0 (.arg false i j) = (X i).data j) (hY : ∀ i j, m0 (.arg true i j) = (Y i).data j) :
    ∃ m1 m2 m3 m4, AllSchedules (icrtP C (ConvCell.arg false) (ConvCell.rns 0)) m0 m1 ∧
      AllSchedules (icrtP C (ConvCell.arg true) (ConvCell.rns 1)) m1 m2 ∧
      AllSchedules (rowP C (ConvCell.rns 0) (ConvCell.rns 1) (ConvCell.rns 2)) m2 m3 ∧
      AllSchedules (crtP C (ConvCell.rns 2) ConvCell.res) m3 m4 ∧
      (∀ i j, m4 (.res i j) = (Z i).data j) ∧ ∀ b i j, m4 (.arg b i j) = m0 (.arg b i j) := by
  obtain ⟨A_rns, h1, h⟩ := bind_eq_pure h
  obtain ⟨B_rns, h2, h⟩ := bind_eq_pure h
  obtain ⟨C_rns, h3, h4⟩ := bind_eq_pure h
  obtain ⟨m1, a1, b1, c1⟩ := C38_residues C (ConvCell.arg false) (ConvCell.rns 0)
    (fun j i j' i' e => by injection e with _ e1 e2; exact ⟨e1, e2⟩) (fun i k j i' e => nomatch e) X A_rns m0 hX h1
  obtain ⟨m2, a2, b2, c2⟩ := C38_residues C (ConvCell.arg true) (ConvCell.rns 1)
    (fun j i j' i' e => by injection e with _ e1 e2; exact ⟨e1, e2⟩) (fun i k j i' e => nomatch e) Y B_rns m1
    (fun i j => (c1 (.arg true i j) fun _ _ e => nomatch e).trans (hY i j)) h2
  obtain ⟨m3, a3, b3, c3⟩ := C38_primes C ConvCell.rns
    (fun t i j t' i' j' e => by injection e with e1 e2 e3; exact ⟨e1, e2, e3⟩) A_rns B_rns C_rns m2
    (fun i j => (c2 _ fun _ _ e => by injection e with e _ _; exact absurd e (by decide)).trans (b1 i j)) b2 h3
  obtain ⟨m4, a4, b4, c4⟩ := C38_reconstruct C (ConvCell.rns 2) ConvCell.res
    (fun i j i' j' e => by injection e with e1 e2; exact ⟨e1, e2⟩) (fun i k j i' e => nomatch e) C_rns Z m3 b3 h4
  refine ⟨m1, m2, m3, m4, a1, a2, a3, a4, b4, fun b i j => ?_⟩
  exact (c4 (.arg b i j) fun _ _ e => nomatch e).trans ((c3 (.arg b i j) fun _ _ _ e => nomatch e).trans
    ((c2 (.arg b i j) fun _ _ e => nomatch e).trans (c1 (.arg b i j) fun _ _ e => nomatch e)))

/-! ## the hypotheses can be met, and are needed -/

/-- `C38_conv` applies to every product of canonical polynomials of a supported size: the memory ends up with
the negacyclic product. -/
example [NeZero LOGQ] (hQ : LOGQ ≤ 60 ∨ 65 ≤ LOGQ ∧ LOGQ ≤ 3051) (k : Nat) (hk1 : 1 ≤ k) (hk : k ≤ 17)
    (X Y : R_Q LOGQ (2^k)) (hX : X.Canonical) (hY : Y.Canonical) :
    ∃ C : CONV (convL LOGQ) LOGQ (2^k), ∃ Z, C.conv X Y = pure Z ∧
      ∀ i, (Z i).cls = negconv (fun j => (X j).cls) (fun j => (Y j).cls) i := by
  obtain ⟨Z, h, _, h2⟩ := C15_conv hQ k hk1 hk X Y hX hY
  obtain ⟨C, _, h3⟩ := bind_eq_pure h
  exact ⟨C, Z, h3, h2⟩

/-- `C38_conv_key` applies to every ternary key. -/
example [NeZero LOGQ] (hN : N ≤ 2^30) (s : Fin N → Int) (hs : ∀ k, s k = -1 ∨ s k = 0 ∨ s k = 1) (X : R_Q LOGQ N) :
    ∃ Y, convS s X = pure Y :=
  let ⟨Y, h, _⟩ := C17_convS hN s hs X
  ⟨Y, h⟩

/-- Memory with `A` and `C` side by side. -/
example [NeZero LOGQ] (s : Fin N → Int) (X Y : R_Q LOGQ N) (h : convS s X = pure Y) (m : Fin 2 × Fin N × Fin (nlimb LOGQ) → W)
    (hX : ∀ i j, m (0, i, j) = (X i).data j) :
    ∃ m', AllSchedules (convSP s (fun i j => (0, i, j)) (fun i j => ((1 : Fin 2), i, j))) m m' ∧
      ∀ i j, m' (1, i, j) = (Y i).data j :=
  let ⟨m', h1, h2, _⟩ := C38_conv_key s (fun i j => (0, i, j)) (fun i j => ((1 : Fin 2), i, j))
    (fun i j i' j' e => by simp only [Prod.mk.injEq, true_and] at e; exact e)
    (fun i j i' j' e => by simp at e) X Y m hX h
  ⟨m', h1, h2⟩

/-- the key `x` of the example below -/
def exParS : Fin 2 → Int := ![0, 1]

/-- the memory of the example below -/
def exParM : Fin 2 × Fin (nlimb 64) → W := fun a => if a.1 = 0 then 1 else 2

/-- C38: with `C` the same object as `A` the result depends on the schedule: for the key `x`, ring degree 2 and
64-bit coefficients `(1, 2)` there is no memory that every schedule leads to. -/
theorem C38_alias : ∃ (s : Fin 2 → Int) (m : Fin 2 × Fin (nlimb 64) → W),
    ¬ ∃ m', AllSchedules (convSP (LOGQ := 64) s (fun i j => (i, j)) (fun i j => (i, j))) m m' := by
  refine ⟨exParS, exParM, ?_⟩
  rintro ⟨m', -, h⟩
  let p := convSP (LOGQ := 64) exParS (fun i j => (i, j)) (fun i j => (i, j))
  have run : ∀ (i i' : Fin 2) (w : W), i ≠ i' → (Ok ((p i).exec exParM) fun r => Ok ((p i').exec r.2) fun r' => r'.2 (0, bot 64) = w) →
      m' (0, bot 64) = w := by
    rintro i i' w hii ⟨r, hr, r', hr', e⟩
    obtain ⟨t, ht⟩ := steps_exec (i := i) (Pool.Steps.zero ⟨exParM, p⟩) rfl hr
    obtain ⟨t', ht'⟩ := steps_exec (i := i') ht (Function.update_of_ne hii.symm _ _) hr'
    rcases h _ _ ht' with ⟨_, h2⟩ | ⟨h1, _⟩
    · rw [← h2]; exact e
    · refine absurd (fun k => ?_) h1
      show Function.update (Function.update p i (Prog.ret ())) i' (Prog.ret ()) k = _
      by_cases hk : k = i'
      · subst hk; rw [Function.update_self]
      · rw [Function.update_of_ne hk]
        have : k = i := by omega
        subst this; rw [Function.update_self]
  have r1 := run 0 1 (-2) (by decide) ⟨_, rfl, _, rfl, by decide +kernel⟩
  have r2 := run 1 0 (-1) (by decide) ⟨_, rfl, _, rfl, by decide +kernel⟩
  rw [r1] at r2
  exact absurd r2 (by decide)

end EvalRound

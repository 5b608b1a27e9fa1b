import Verif.Model.Par
import Verif.Proofs.Matrix

/-! # The iterations of the parallel loops, run alone -/

set_option linter.unusedSimpArgs false
set_option linter.unusedSectionVars false

namespace EvalRound
open Z_Q

variable {A : Type} [DecidableEq A] {L LOGQ N : Nat}

/-- memory with given contents at distinct cells -/
theorem exists_store {K : Type} {f : K → A} (hf : Function.Injective f) (v : K → W) (m : A → W) :
    ∃ m' : A → W, (∀ k, m' (f k) = v k) ∧ ∀ a, (∀ k, a ≠ f k) → m' a = m a := by
  refine ⟨Function.extend f v m, fun k => hf.extend_apply _ _ _, fun a ha => ?_⟩
  exact Function.extend_apply' _ _ _ fun ⟨k, hk⟩ => ha k hk.symm

theorem readP_exec {n : Nat} (p : Fin n → A) (m : A → W) :
    (readP p).exec m = pure (fun j => m (p j), m) := Prog.exec_tab fun _ => rfl

theorem readP_disc {n : Nat} {R T : A → Prop} {p : Fin n → A} (h : ∀ j, R (p j)) : (readP p).Disc R T :=
  Prog.Disc.tab fun j => Prog.Disc.get (h j)

theorem writeP_disc {n : Nat} {R T : A → Prop} {p : Fin n → A} (v : Fin n → W) (h : ∀ j, T (p j)) :
    (writeP p v).Disc R T := Prog.Disc.forFin (fun j _ => Prog.Disc.put _ (h j)) _

/-- stores to distinct cells -/
theorem puts_exec {n : Nat} {p : Fin n → A} (hp : Function.Injective p) (v : Fin n → W) (m : A → W) :
    Ok ((Prog.forFin n (fun j (_ : Unit) => (Prog.put (p j) (v j) : WProg A Unit)) ()).exec m) fun r =>
      (∀ j, r.2 (p j) = v j) ∧ ∀ a, (∀ j, a ≠ p j) → r.2 a = m a := by
  refine Ok.mono (Prog.exec_forFin_inv (fun c (_ : Unit) m' => (∀ j : Fin n, j.val < c → m' (p j) = v j) ∧
    ∀ a, (∀ j, a ≠ p j) → m' a = m a) ?_ ⟨fun j h => absurd h (by omega), fun _ _ => rfl⟩)
    fun r h => ⟨fun j => h.1 j j.isLt, h.2⟩
  intro i s m' ⟨h1, h2⟩
  refine Ok.pure ⟨fun j hj => ?_, fun a ha => ?_⟩
  · show Function.update m' (p i) (v i) (p j) = v j
    by_cases e : j = i
    · subst e; simp
    · rw [Function.update_of_ne (fun h => e (hp h))]
      exact h1 j (by have : j.val ≠ i.val := fun h => e (Fin.ext h); omega)
  · show Function.update m' (p i) (v i) a = m a
    rw [Function.update_of_ne (ha i)]
    exact h2 a ha

theorem writeP_exec {n : Nat} {p : Fin n → A} (hp : Function.Injective p) (v : Fin n → W) (m : A → W) :
    Ok ((writeP p v).exec m) fun r => (∀ j, r.2 (p j) = v j) ∧ ∀ a, (∀ j, a ≠ p j) → r.2 a = m a :=
  puts_exec hp v m

theorem addStepP_exec (d : A) (a : WProg A W) (y : W) (c : Bool) (m : A → W)
    (ha : ∀ v, a.exec (Function.update m d v) = pure (y, Function.update m d v)) :
    (addStepP d a c).exec m = pure ((addStep (m d) y c).2, Function.update m d (addStep (m d) y c).1) := by
  have ha0 : a.exec m = pure (y, m) := by
    have := ha (m d)
    rwa [Function.update_eq_self] at this
  unfold addStepP
  simp only [Prog.bind_def, Prog.exec_bind]
  have e1 : ∀ m : A → W, (Prog.get d : WProg A W).exec m = pure (m d, m) := fun _ => rfl
  have e2 : ∀ (m : A → W) v, (Prog.put d v : WProg A Unit).exec m = pure ((), Function.update m d v) := fun _ _ => rfl
  rw [e1, pure_bind, ha0, pure_bind, e2, pure_bind, e1, pure_bind, ha, pure_bind]
  simp only [Function.update_self]
  cases c
  · simp only [Bool.false_eq_true, if_false]
    rfl
  · simp only [if_true, Prog.bind_def, Prog.exec_bind]
    rw [e1, pure_bind, e2, pure_bind, e1, pure_bind]
    simp only [Function.update_self, Function.update_idem, addStep, if_true, Bool.true_and]
    rfl

theorem clutterP_exec [NeZero LOGQ] {d : Fin (nlimb LOGQ) → A} (hd : Function.Injective d) (x : Z_Q LOGQ) (m : A → W)
    (hx : ∀ j, m (d j) = x.data j) :
    Ok ((clutterP d).exec m) fun r => (∀ j, r.2 (d j) = (remove_clutter x).data j) ∧ ∀ a, (∀ j, a ≠ d j) → r.2 a = m a := by
  refine ⟨((), Function.update (Function.update m (d (top LOGQ)) (m (d (top LOGQ)) <<< (64 * nlimb LOGQ - LOGQ)))
    (d (top LOGQ)) ((Function.update m (d (top LOGQ)) (m (d (top LOGQ)) <<< (64 * nlimb LOGQ - LOGQ))) (d (top LOGQ))
      >>> (64 * nlimb LOGQ - LOGQ))), rfl, fun j => ?_, fun a ha => ?_⟩
  · simp only [Function.update_self, Function.update_idem, remove_clutter, hx]
    by_cases e : j = top LOGQ
    · subst e; simp
    · rw [Function.update_of_ne (fun h => e (hd h)), Function.update_of_ne e, hx]
  · simp only [Function.update_idem]
    rw [Function.update_of_ne (ha _)]

theorem addP_exec [NeZero LOGQ] {d : Fin (nlimb LOGQ) → A} (hd : Function.Injective d) (x y : Z_Q LOGQ) (m : A → W)
    {a : Fin (nlimb LOGQ) → WProg A W} (hx : ∀ j, m (d j) = x.data j)
    (ha : ∀ j (m' : A → W), (∀ b, (∀ j, b ≠ d j) → m' b = m b) → (a j).exec m' = pure (y.data j, m')) :
    Ok ((addP d a).exec m) fun r => (∀ j, r.2 (d j) = (add x y).data j) ∧ ∀ b, (∀ j, b ≠ d j) → r.2 b = m b := by
  unfold addP
  simp only [Prog.bind_def, Prog.exec_bind]
  refine Ok.bind (Prog.exec_forFin (fun (c : Bool) m' (t : (Fin (nlimb LOGQ) → W) × Bool) => c = t.2 ∧
    (∀ j, m' (d j) = t.1 j) ∧ ∀ b, (∀ j, b ≠ d j) → m' b = m b)
    (g := fun i (s : (Fin (nlimb LOGQ) → W) × Bool) =>
      let r := addStep (s.1 i) (y.data i) s.2
      (Function.update s.1 i r.1, r.2)) ?_ (t := (x.data, false)) ⟨rfl, hx, fun _ _ => rfl⟩) ?_
  · rintro i c m' ⟨t, c'⟩ ⟨h1, h2, h3⟩
    subst h1
    have hupd : ∀ v b, (∀ j, b ≠ d j) → Function.update m' (d i) v b = m b := by
      intro v b hb
      rw [Function.update_of_ne (hb i)]; exact h3 b hb
    refine ⟨_, addStepP_exec (d i) (a i) (y.data i) c m' (fun v => ha i _ (hupd v)), ?_, fun j => ?_, hupd _⟩
    · rw [h2 i]
    · by_cases e : j = i
      · subst e; simp [h2 j]
      · simp only [Function.update_of_ne e, Function.update_of_ne (fun h => e (hd h))]
        exact h2 j
  · rintro ⟨c, m'⟩ ⟨_, h2, h3⟩
    refine Ok.mono (clutterP_exec hd ⟨_⟩ m' h2) fun r ⟨g1, g2⟩ => ⟨g1, fun b hb => (g2 b hb).trans (h3 b hb)⟩

theorem addP_disc [NeZero LOGQ] {R T : A → Prop} {d : Fin (nlimb LOGQ) → A} {a : Fin (nlimb LOGQ) → WProg A W}
    (hd : ∀ j, T (d j)) (hR : ∀ j, R (d j)) (ha : ∀ j, (a j).Disc R T) : (addP d a).Disc R T := by
  refine Prog.Disc.bind (Prog.Disc.forFin (fun j c => ?_) _) fun _ => ?_
  · refine Prog.Disc.bind (Prog.Disc.get (hR j)) fun _ => Prog.Disc.bind (ha j) fun _ =>
      Prog.Disc.bind (Prog.Disc.put _ (hd j)) fun _ => Prog.Disc.bind (Prog.Disc.get (hR j)) fun _ =>
      Prog.Disc.bind (ha j) fun _ => ?_
    show Prog.Disc R T (ite _ _ _)
    split
    · exact Prog.Disc.bind (Prog.Disc.get (hR j)) fun _ => Prog.Disc.bind (Prog.Disc.put _ (hd j)) fun _ =>
        Prog.Disc.bind (Prog.Disc.get (hR j)) fun _ => trivial
    · trivial
  · exact Prog.Disc.bind (Prog.Disc.get (hR _)) fun _ => Prog.Disc.bind (Prog.Disc.put _ (hd _)) fun _ =>
      Prog.Disc.bind (Prog.Disc.get (hR _)) fun _ => Prog.Disc.put _ (hd _)

theorem subP_exec [NeZero LOGQ] {d p : Fin (nlimb LOGQ) → A} (hd : Function.Injective d) (x y : Z_Q LOGQ) (m : A → W)
    (hx : ∀ j, m (d j) = x.data j) (hy : ∀ j, m (p j) = y.data j) :
    Ok ((subP d p).exec m) fun r => (∀ j, r.2 (d j) = (sub x y).data j) ∧ ∀ b, (∀ j, b ≠ d j) → r.2 b = m b := by
  unfold subP
  simp only [Prog.bind_def, Prog.exec_bind]
  rw [readP_exec, pure_bind]
  have : (fun j => m (p j)) = y.data := funext hy
  simp only [this]
  exact addP_exec hd x (negate y) m hx fun j m' _ => rfl

theorem subP_disc [NeZero LOGQ] {R T : A → Prop} {d p : Fin (nlimb LOGQ) → A}
    (hd : ∀ j, T (d j)) (hR : ∀ j, R (d j)) (hp : ∀ j, R (p j)) : (subP d p).Disc R T :=
  Prog.Disc.bind (readP_disc hp) fun _ => addP_disc hd hR fun _ => trivial

/-! ## conv(s,A,C) -/

theorem convSBodyP_exec [NeZero LOGQ] {s : Fin N → Int} {src dst : Fin N → Fin (nlimb LOGQ) → A} {i : Fin N}
    (hd : Function.Injective (dst i)) (hne : ∀ i' j' j, src i' j' ≠ dst i j) {X : R_Q LOGQ N} {m0 : A → W}
    (hX : ∀ i' j, m0 (src i' j) = (X i').data j)
    (k : Nat) (m : A → W) (c c' : Z_Q LOGQ) (hc : ∀ j, m (dst i j) = c.data j) (hm : ∀ b, (∀ j, b ≠ dst i j) → m b = m0 b)
    (h : convSBody s X i k c = pure c') :
    Ok ((convSBodyP s src dst i k).exec m) fun r => (∀ j, r.2 (dst i j) = c'.data j) ∧ ∀ b, (∀ j, b ≠ dst i j) → r.2 b = m0 b := by
  have hsrc : ∀ i' j', ∀ m' : A → W, (∀ b, (∀ j, b ≠ dst i j) → m' b = m b) → m' (src i' j') = (X i').data j' := by
    intro i' j' m' hm'
    rw [hm' _ (hne i' j'), hm _ (hne i' j'), hX]
  have hadd : ∀ i', Ok ((addP (dst i) (fun j => Prog.get (src i' j))).exec m) fun r =>
      (∀ j, r.2 (dst i j) = (add c (X i')).data j) ∧ ∀ b, (∀ j, b ≠ dst i j) → r.2 b = m0 b := by
    intro i'
    refine Ok.mono (addP_exec hd c (X i') m hc fun j m' hm' => ?_) fun r ⟨h1, h2⟩ => ⟨h1, fun b hb => (h2 b hb).trans (hm b hb)⟩
    show pure (m' (src i' j), m') = _
    rw [hsrc i' j m' hm']
  have hsub : ∀ i', Ok ((subP (dst i) (src i')).exec m) fun r =>
      (∀ j, r.2 (dst i j) = (sub c (X i')).data j) ∧ ∀ b, (∀ j, b ≠ dst i j) → r.2 b = m0 b := by
    intro i'
    exact Ok.mono (subP_exec hd c (X i') m hc fun j => hsrc i' j m fun _ _ => rfl)
      fun r ⟨h1, h2⟩ => ⟨h1, fun b hb => (h2 b hb).trans (hm b hb)⟩
  unfold convSBody at h
  obtain ⟨sk, h1, h2⟩ := bind_eq_pure h
  unfold convSBodyP
  simp only [Prog.bind_def, Prog.exec_bind]
  rw [Prog.exec_lift h1, pure_bind]
  by_cases hs : sk ≠ 0
  · rw [if_pos hs] at h2
    simp only [if_pos hs]
    by_cases hk : k ≤ i.val
    · rw [if_pos hk] at h2
      rw [if_pos hk]
      have hik : i.val - k < N := by omega
      rw [rd_of_lt _ hik, pure_bind] at h2
      have h2' := pure_inj h2
      simp only [Prog.exec_bind]
      rw [Prog.exec_lift (rd_of_lt _ hik), pure_bind]
      by_cases hsg : (sk == 1) = true
      · rw [if_pos hsg] at h2'
        rw [if_pos hsg, ← h2']
        exact hadd _
      · rw [if_neg hsg] at h2'
        rw [if_neg hsg, ← h2']
        exact hsub _
    · rw [if_neg hk] at h2
      rw [if_neg hk]
      obtain ⟨j, h3, h4⟩ := bind_eq_pure h2
      obtain ⟨x, h5, h6⟩ := bind_eq_pure h4
      have hj : j - k < N := by
        by_contra hh
        rw [rd_of_ge _ (by omega)] at h5
        exact ub_ne_pure _ h5
      rw [rd_of_lt _ hj] at h5
      have h5' := pure_inj h5
      have h6' := pure_inj h6
      simp only [Prog.exec_bind]
      rw [Prog.exec_lift h3, pure_bind]
      simp only [Prog.exec_bind]
      rw [Prog.exec_lift (rd_of_lt _ hj), pure_bind]
      by_cases hsg : (!(sk == 1)) = true
      · rw [if_pos hsg, ← h5'] at h6'
        rw [if_pos hsg, ← h6']
        exact hadd _
      · rw [if_neg hsg, ← h5'] at h6'
        rw [if_neg hsg, ← h6']
        exact hsub _
  · rw [if_neg hs] at h2
    simp only [if_neg hs]
    have h2' := pure_inj h2
    subst h2'
    exact Ok.pure ⟨hc, hm⟩

theorem convSP_exec [NeZero LOGQ] {s : Fin N → Int} {src dst : Fin N → Fin (nlimb LOGQ) → A} {i : Fin N}
    (hd : Function.Injective (dst i)) (hne : ∀ i' j' j, src i' j' ≠ dst i j) {X : R_Q LOGQ N} {m0 : A → W}
    (hX : ∀ i' j, m0 (src i' j) = (X i').data j) {c : Z_Q LOGQ} (h : forUp 0 N (convSBody s X i) setzero = pure c) :
    Ok ((convSP s src dst i).exec m0) fun r => (∀ j, r.2 (dst i j) = c.data j) ∧ ∀ b, (∀ j, b ≠ dst i j) → r.2 b = m0 b := by
  unfold convSP
  simp only [Prog.bind_def, Prog.exec_bind]
  refine Ok.bind (writeP_exec hd _ _) fun r ⟨h1, h2⟩ => ?_
  exact Prog.exec_forFrom (fun (_ : Unit) m (c : Z_Q LOGQ) => (∀ j, m (dst i j) = c.data j) ∧ ∀ b, (∀ j, b ≠ dst i j) → m b = m0 b)
    (fun k _ m t t' ⟨g1, g2⟩ ht => convSBodyP_exec hd hne hX k m t t' g1 g2 ht) (t := setzero) ⟨h1, h2⟩ h

theorem convSP_disc [NeZero LOGQ] {R T : A → Prop} {s : Fin N → Int} {src dst : Fin N → Fin (nlimb LOGQ) → A} {i : Fin N}
    (hd : ∀ j, T (dst i j)) (hR : ∀ j, R (dst i j)) (hs : ∀ i j, R (src i j)) : (convSP s src dst i).Disc R T := by
  refine Prog.Disc.bind (writeP_disc _ hd) fun _ => Prog.Disc.forFrom (fun k _ => ?_) _ _ _
  unfold convSBodyP
  refine Prog.Disc.bind (Prog.Disc.lift _) fun sk => ?_
  have ht : ∀ (x : M (Fin (nlimb LOGQ) → A)) (f : (Fin (nlimb LOGQ) → A) → WProg A Unit),
      (∀ y, x = pure y → (f y).Disc R T) → (Prog.Disc R T ((Prog.lift x).bind f)) := by
    intro x f hf
    match x, hf with
    | none, _ => trivial
    | some (.error e), _ => trivial
    | some (.ok a), hf => exact hf a rfl
  have hb : ∀ (b : Bool) (n : Nat), Prog.Disc R T ((Prog.lift (rd src n)).bind fun temp =>
      if b = true then addP (dst i) (fun j => Prog.get (temp j)) else subP (dst i) temp) := by
    intro b n
    refine ht _ _ fun y hy => ?_
    have : ∀ j, R (y j) := by
      intro j
      unfold rd at hy
      split at hy
      · rw [← pure_inj hy]; exact hs _ _
      · exact absurd hy (ub_ne_pure _)
    split
    · exact addP_disc hd hR fun j => Prog.Disc.get (this j)
    · exact subP_disc hd hR this
  show Prog.Disc R T (ite _ _ _)
  split
  · show Prog.Disc R T (ite _ _ _)
    split
    · exact hb _ _
    · exact Prog.Disc.bind (Prog.Disc.lift _) fun _ => hb _ _
  · trivial

/-! ## conv/conv.h -/

theorem icrtP_exec [NeZero LOGQ] {C : CONV L LOGQ N} {src : Fin N → Fin (nlimb LOGQ) → A} {dst : Fin L → Fin N → A}
    {i : Fin N} (hd : Function.Injective fun j => dst j i) {X : R_Q LOGQ N} {m0 : A → W}
    (hX : ∀ j, m0 (src i j) = (X i).data j) {c : Fin L → W} (h : C.crt.icrt (X i) = pure c) :
    Ok ((icrtP C src dst i).exec m0) fun r => ∀ j, r.2 (dst j i) = c j := by
  unfold icrtP
  simp only [Prog.bind_def, Prog.exec_bind]
  rw [readP_exec, pure_bind]
  have : (fun j => m0 (src i j)) = (X i).data := funext hX
  simp only [this, Prog.exec_bind]
  rw [Prog.exec_lift h, pure_bind]
  exact Ok.mono (puts_exec hd c m0) fun r hr => hr.1

theorem icrtP_disc [NeZero LOGQ] {R T : A → Prop} {C : CONV L LOGQ N} {src : Fin N → Fin (nlimb LOGQ) → A}
    {dst : Fin L → Fin N → A} {i : Fin N} (hs : ∀ j, R (src i j)) (hd : ∀ j, T (dst j i)) : (icrtP C src dst i).Disc R T :=
  Prog.Disc.bind (readP_disc hs) fun _ => Prog.Disc.bind (Prog.Disc.lift _) fun _ =>
    Prog.Disc.forFin (fun j _ => Prog.Disc.put _ (hd j)) _

theorem crtP_exec [NeZero LOGQ] {C : CONV L LOGQ N} {src : Fin L → Fin N → A} {dst : Fin N → Fin (nlimb LOGQ) → A}
    {i : Fin N} (hd : Function.Injective (dst i)) {X : Fin L → Fin N → W} {m0 : A → W}
    (hX : ∀ j, m0 (src j i) = X j i) {c : Z_Q LOGQ} (h : C.crt.crt (fun j => X j i) = pure c) :
    Ok ((crtP C src dst i).exec m0) fun r => ∀ j, r.2 (dst i j) = c.data j := by
  unfold crtP
  simp only [Prog.bind_def, Prog.exec_bind]
  rw [readP_exec, pure_bind]
  have : (fun j => m0 (src j i)) = fun j => X j i := funext hX
  simp only [this, Prog.exec_bind]
  rw [Prog.exec_lift h, pure_bind]
  exact Ok.mono (writeP_exec hd _ m0) fun r hr => hr.1

theorem crtP_disc [NeZero LOGQ] {R T : A → Prop} {C : CONV L LOGQ N} {src : Fin L → Fin N → A}
    {dst : Fin N → Fin (nlimb LOGQ) → A} {i : Fin N} (hs : ∀ j, R (src j i)) (hd : ∀ j, T (dst i j)) :
    (crtP C src dst i).Disc R T :=
  Prog.Disc.bind (readP_disc hs) fun _ => Prog.Disc.bind (Prog.Disc.lift _) fun _ => writeP_disc _ hd

theorem rowP_exec {C : CONV L LOGQ N} {a b c : Fin L → Fin N → A} {i : Fin L}
    (ha : Function.Injective (a i)) (hb : Function.Injective (b i)) (hc : Function.Injective (c i))
    (hab : ∀ j k, a i j ≠ b i k) (hac : ∀ j k, a i j ≠ c i k) (hbc : ∀ j k, b i j ≠ c i k)
    {X Y : Fin L → Fin N → W} {m0 : A → W} (hX : ∀ j, m0 (a i j) = X i j) (hY : ∀ j, m0 (b i j) = Y i j)
    {x y z : Fin N → W} (hx : (C.ntt i).ntt (X i) = pure x) (hy : (C.ntt i).ntt (Y i) = pure y)
    (h : C.row X Y i = pure z) :
    Ok ((rowP C a b c i).exec m0) fun r => (∀ j, r.2 (a i j) = x j) ∧ (∀ j, r.2 (b i j) = y j) ∧ ∀ j, r.2 (c i j) = z j := by
  unfold CONV.row at h
  rw [rd_of_lt _ i.isLt, pure_bind, rd_of_lt _ i.isLt, pure_bind, rd_of_lt _ i.isLt, pure_bind] at h
  simp only [Fin.eta] at h
  rw [hx, pure_bind, hy, pure_bind] at h
  obtain ⟨w, hw, hz⟩ := bind_eq_pure h
  have hw' : ∀ j : Fin N, mul_mod (x j) (y j) (C.ntt i).q = pure (w j) := by
    intro j
    have := SparseDiagonal.tabM_partial hw j
    rwa [rd_of_lt _ j.isLt, pure_bind, rd_of_lt _ j.isLt, pure_bind] at this
  unfold rowP
  simp only [Prog.bind_def, Prog.exec_bind]
  rw [readP_exec, pure_bind]
  have e1 : (fun j => m0 (a i j)) = X i := funext hX
  simp only [e1, Prog.exec_bind]
  rw [Prog.exec_lift hx, pure_bind]
  refine Ok.bind (writeP_exec ha x m0) fun r ⟨h1, h2⟩ => ?_
  rw [readP_exec, pure_bind]
  have e2 : (fun j => r.2 (b i j)) = Y i := funext fun j => (h2 _ fun k => (hab k j).symm).trans (hY j)
  simp only [e2, Prog.exec_bind]
  rw [Prog.exec_lift hy, pure_bind]
  refine Ok.bind (writeP_exec hb y r.2) fun r1 ⟨h3, h4⟩ => ?_
  have hA : ∀ j, r1.2 (a i j) = x j := fun j => (h4 _ fun k => hab j k).trans (h1 j)
  refine Ok.bind (Prog.exec_forFin_inv (fun t (_ : Unit) m' => (∀ j : Fin N, j.val < t → m' (c i j) = w j) ∧
    (∀ j, m' (a i j) = x j) ∧ ∀ j, m' (b i j) = y j) ?_ ⟨fun j h => absurd h (by omega), hA, h3⟩) ?_
  · intro j _ m' ⟨g1, g2, g3⟩
    refine ⟨((), Function.update m' (c i j) (w j)), ?_, fun k hk => ?_, fun k => ?_, fun k => ?_⟩
    · simp only [Prog.exec_bind]
      show (Prog.exec (Prog.lift (mul_mod (m' (a i j)) (m' (b i j)) (C.ntt i).q)) m' >>= _) = _
      rw [g2, g3, Prog.exec_lift (hw' j), pure_bind]
      rfl
    · show Function.update m' (c i j) (w j) (c i k) = w k
      by_cases e : k = j
      · subst e; simp
      · rw [Function.update_of_ne (fun h => e (hc h))]
        exact g1 k (by have : k.val ≠ j.val := fun h => e (Fin.ext h); omega)
    · show Function.update m' (c i j) (w j) (a i k) = x k
      rw [Function.update_of_ne (hac k j)]; exact g2 k
    · show Function.update m' (c i j) (w j) (b i k) = y k
      rw [Function.update_of_ne (hbc k j)]; exact g3 k
  · rintro ⟨_, m2⟩ ⟨g1, g2, g3⟩
    rw [readP_exec, pure_bind]
    have e3 : (fun j => m2 (c i j)) = w := funext fun j => g1 j j.isLt
    simp only [e3, Prog.exec_bind]
    rw [Prog.exec_lift hz, pure_bind]
    exact Ok.mono (writeP_exec hc z m2) fun r ⟨k1, k2⟩ =>
      ⟨fun j => (k2 _ fun k => hac j k).trans (g2 j), fun j => (k2 _ fun k => hbc j k).trans (g3 j), k1⟩

theorem rowP_disc {R T : A → Prop} {C : CONV L LOGQ N} {a b c : Fin L → Fin N → A} {i : Fin L}
    (ha : ∀ j, T (a i j)) (hb : ∀ j, T (b i j)) (hc : ∀ j, T (c i j)) (hTR : ∀ x, T x → R x) : (rowP C a b c i).Disc R T := by
  refine Prog.Disc.bind (readP_disc fun j => hTR _ (ha j)) fun _ => Prog.Disc.bind (Prog.Disc.lift _) fun _ =>
    Prog.Disc.bind (writeP_disc _ ha) fun _ => Prog.Disc.bind (readP_disc fun j => hTR _ (hb j)) fun _ =>
    Prog.Disc.bind (Prog.Disc.lift _) fun _ => Prog.Disc.bind (writeP_disc _ hb) fun _ =>
    Prog.Disc.bind (Prog.Disc.forFin (fun j _ => ?_) _) fun _ =>
    Prog.Disc.bind (readP_disc fun j => hTR _ (hc j)) fun _ => Prog.Disc.bind (Prog.Disc.lift _) fun _ => writeP_disc _ hc
  exact Prog.Disc.bind (Prog.Disc.get (hTR _ (ha j))) fun _ => Prog.Disc.bind (Prog.Disc.get (hTR _ (hb j))) fun _ =>
    Prog.Disc.bind (Prog.Disc.lift _) fun _ => Prog.Disc.put _ (hc j)

end EvalRound

import Verif.Model.Static

/-! # Static tables: the invariant -/

namespace EvalRound
open Z_Q

/-- The value of a call of the models without static variables. -/
noncomputable def Call.plain : (c : Call) → M c.Res
  | .conv _ _ _ A B => EvalRound.conv A B
  | .fft LOGN m => fftNR LOGN m
  | .ifft LOGN z => ifftNR LOGN z
  | .cts _ _ _ RAND_MAX LOGDELTA G ct s ω => CoeffToSlot RAND_MAX LOGDELTA G ct s ω
  | .stc _ _ _ RAND_MAX LOGDELTA G ct0 ct1 s ω => SlotToCoeff RAND_MAX LOGDELTA G ct0 ct1 s ω

namespace Statics

/-- the table is untouched or complete -/
def FacOk {LOGN : Nat} (init : M (Fin (LOGN - 1) → Fac LOGN)) (st : FacStatic LOGN) : Prop :=
  st = ⟨false, fac0 LOGN⟩ ∨ st.is_init = true ∧ init = pure st.U

def ConvOk {LOGQ N : Nat} (st : ConvStatic LOGQ N) : Prop :=
  st = ⟨none, false⟩ ∨ st.initialized = true ∧ ∃ C, st.theConv = some C ∧ theConv LOGQ N = pure C

def StcOk {LOGN : Nat} (st : StcStatic LOGN) : Prop :=
  st = ⟨false, fac0 LOGN, fac0 LOGN⟩ ∨ st.is_init = true ∧ stcTable LOGN = pure (st.U, st.iU)

structure Inv (st : Statics) : Prop where
  conv : ∀ LOGQ N, ConvOk (st.conv LOGQ N)
  fft : ∀ LOGN, FacOk (splitU0NR LOGN (fac0 LOGN)) (st.fft LOGN)
  ifft : ∀ LOGN, FacOk (adjTable LOGN) (st.ifft LOGN)
  cts : ∀ LOGQ LOGN LOGDELTA G, FacOk (ctsTable LOGN) (st.cts LOGQ LOGN LOGDELTA G)
  stc : ∀ LOGQ LOGN LOGDELTA G, StcOk (st.stc LOGQ LOGN LOGDELTA G)

theorem Inv.start : Inv start where
  conv _ _ := Or.inl rfl
  fft _ := Or.inl rfl
  ifft _ := Or.inl rfl
  cts _ _ _ _ := Or.inl rfl
  stc _ _ _ _ := Or.inl rfl

/-- a call that uses a table through `init if needed` -/
theorem facCall {LOGN : Nat} {α : Type} {init : M (Fin (LOGN - 1) → Fac LOGN)} {st : FacStatic LOGN}
    {initAt : (Fin (LOGN - 1) → Fac LOGN) → M (Fin (LOGN - 1) → Fac LOGN)} (hi : initAt (fac0 LOGN) = init)
    (h : FacOk init st) (use : (Fin (LOGN - 1) → Fac LOGN) → M α) :
    ((do
      let st ← (if st.is_init = false then do
        let U ← initAt st.U
        pure (⟨true, U⟩ : FacStatic LOGN) else pure st)
      let r ← use st.U
      pure (r, st)) : M (α × FacStatic LOGN)) = (do
        let U ← init
        let r ← use U
        pure (r, (⟨true, U⟩ : FacStatic LOGN))) := by
  rcases h with h | ⟨h1, h2⟩
  · subst h
    simp only [if_true, hi, bind_assoc, pure_bind]
  · obtain ⟨b, U⟩ := st
    have h1 : b = true := h1
    subst h1
    rw [h2]
    simp

theorem convCall_eq {LOGQ N : Nat} [NeZero LOGQ] {st : ConvStatic LOGQ N} (h : ConvOk st) (A B : R_Q LOGQ N) :
    convCall st A B = (do
      let C ← theConv LOGQ N
      let r ← C.conv A B
      pure (r, (⟨some C, true⟩ : ConvStatic LOGQ N))) := by
  unfold convCall
  rcases h with h | ⟨h1, C, h2, h3⟩
  · subst h
    simp only [if_true, bind_assoc, pure_bind]
    rfl
  · obtain ⟨p, b⟩ := st
    have h1 : b = true := h1
    have h2 : p = some C := h2
    subst h1 h2
    rw [h3]
    simp [derefConv]

theorem stcInto_eq (LOGN : Nat) (T : Fin (LOGN - 1) → Fac LOGN) :
    stcRealInto T (fac0 LOGN) = stcReal T ∧ stcImagInto T (fac0 LOGN) = stcImag T := by
  have aux : ∀ {α : Type} (f g : Nat → M α) (n : Nat), (∀ i, i < n → f i = g i) → tabM n f = tabM n g := by
    intro α f g n
    induction n with
    | zero => intro _; rfl
    | succ n ih =>
      intro h
      show (tabM n f >>= _) = (tabM n g >>= _)
      rw [ih fun i hi => h i (by omega), h n (by omega)]
  constructor <;>
  · refine aux _ _ _ fun i hi => ?_
    simp only [rd_of_lt _ hi, pure_bind]
    rfl

theorem stcCall_eq {LOGQ LOGN : Nat} [NeZero LOGQ] (RAND_MAX LOGDELTA G : Nat) {st : StcStatic LOGN} (h : StcOk st)
    (ct0 ct1 : R_Q_square LOGQ (2^LOGN)) (s : Fin (2^LOGN) → Int) (ω : Rng) :
    stcCall RAND_MAX LOGDELTA G st ct0 ct1 s ω = (do
      let T ← stcTable LOGN
      let r ← stcWith RAND_MAX LOGDELTA G T.1 T.2 ct0 ct1 s ω
      pure (r, (⟨true, T.1, T.2⟩ : StcStatic LOGN))) := by
  unfold stcCall
  rcases h with h | ⟨h1, h2⟩
  · subst h
    unfold stcTable
    simp only [if_true, bind_assoc, pure_bind, stcInto_eq]
  · obtain ⟨b, U, iU⟩ := st
    have h1 : b = true := h1
    subst h1
    rw [h2]
    simp

/-- one call: the result is that of the stateless model, and the invariant is kept -/
theorem Inv.run {st : Statics} (h : Inv st) (c : Call) :
    (do let r ← c.run st; pure r.1) = c.plain ∧ ∀ r st', c.run st = pure (r, st') → Inv st' := by
  cases c with
  | conv LOGQ N hn A B =>
    simp only [Call.run, Call.plain]
    rw [convCall_eq (h.conv LOGQ N)]
    refine ⟨?_, fun r st' e => ?_⟩
    · simp only [bind_assoc, pure_bind]
      exact bind_congr fun U => bind_pure _
    · obtain ⟨x, h1, h2⟩ := bind_eq_pure e
      obtain ⟨C, h3, h4⟩ := bind_eq_pure h1
      obtain ⟨y, h5, h6⟩ := bind_eq_pure h4
      have e2 := congrArg Prod.snd (pure_inj h2)
      have e3 := congrArg Prod.snd (pure_inj h6)
      simp only at e2 e3
      subst e2
      refine ⟨fun Q' N' => ?_, h.fft, h.ifft, h.cts, h.stc⟩
      by_cases hQ : Q' = LOGQ
      · subst hQ
        by_cases hN : N' = N
        · subst hN
          simp only [Function.update_self, ← e3]
          exact Or.inr ⟨rfl, C, rfl, h3⟩
        · simp only [Function.update_self, Function.update_of_ne hN]
          exact h.conv _ _
      · simp only [Function.update_of_ne hQ]
        exact h.conv _ _
  | fft LOGN m =>
    simp only [Call.run, Call.plain, fftNRCall]
    rw [facCall (initAt := splitU0NR LOGN) rfl (h.fft LOGN) (fun U => fftNRWith LOGN U m)]
    refine ⟨?_, fun r st' e => ?_⟩
    · simp only [bind_assoc, pure_bind]
      exact bind_congr fun U => bind_pure _
    · obtain ⟨x, h1, h2⟩ := bind_eq_pure e
      obtain ⟨C, h3, h4⟩ := bind_eq_pure h1
      obtain ⟨y, h5, h6⟩ := bind_eq_pure h4
      have e2 := congrArg Prod.snd (pure_inj h2)
      have e3 := congrArg Prod.snd (pure_inj h6)
      simp only at e2 e3
      subst e2
      refine ⟨h.conv, fun n => ?_, h.ifft, h.cts, h.stc⟩
      by_cases hn : n = LOGN
      · subst hn
        simp only [Function.update_self, ← e3]
        exact Or.inr ⟨rfl, h3⟩
      · simp only [Function.update_of_ne hn]
        exact h.fft _
  | ifft LOGN z =>
    simp only [Call.run, Call.plain, ifftNRCall]
    rw [facCall (initAt := ifftInit) rfl (h.ifft LOGN) (fun U => ifftNRWith LOGN U z)]
    refine ⟨?_, fun r st' e => ?_⟩
    · simp only [bind_assoc, pure_bind]
      exact bind_congr fun U => bind_pure _
    · obtain ⟨x, h1, h2⟩ := bind_eq_pure e
      obtain ⟨C, h3, h4⟩ := bind_eq_pure h1
      obtain ⟨y, h5, h6⟩ := bind_eq_pure h4
      have e2 := congrArg Prod.snd (pure_inj h2)
      have e3 := congrArg Prod.snd (pure_inj h6)
      simp only at e2 e3
      subst e2
      refine ⟨h.conv, h.fft, fun n => ?_, h.cts, h.stc⟩
      by_cases hn : n = LOGN
      · subst hn
        simp only [Function.update_self, ← e3]
        exact Or.inr ⟨rfl, h3⟩
      · simp only [Function.update_of_ne hn]
        exact h.ifft _
  | cts LOGQ LOGN hn RAND_MAX LOGDELTA G ct s ω =>
    simp only [Call.run, Call.plain, ctsCall]
    rw [facCall (initAt := ctsInit) rfl (h.cts LOGQ LOGN LOGDELTA G) (fun U => ctsWith RAND_MAX LOGDELTA G U ct s ω)]
    refine ⟨?_, fun r st' e => ?_⟩
    · simp only [bind_assoc, pure_bind]
      exact bind_congr fun U => bind_pure _
    · obtain ⟨x, h1, h2⟩ := bind_eq_pure e
      obtain ⟨C, h3, h4⟩ := bind_eq_pure h1
      obtain ⟨y, h5, h6⟩ := bind_eq_pure h4
      have e2 := congrArg Prod.snd (pure_inj h2)
      have e3 := congrArg Prod.snd (pure_inj h6)
      simp only at e2 e3
      subst e2
      refine ⟨h.conv, h.fft, h.ifft, fun Q n D g => ?_, h.stc⟩
      by_cases h1 : Q = LOGQ
      · subst h1
        by_cases h2 : n = LOGN
        · subst h2
          by_cases h3 : D = LOGDELTA
          · subst h3
            by_cases h4 : g = G
            · subst h4
              simp only [Function.update_self, ← e3]
              exact Or.inr ⟨rfl, by assumption⟩
            · simp only [Function.update_self, Function.update_of_ne h4]
              exact h.cts _ _ _ _
          · simp only [Function.update_self, Function.update_of_ne h3]
            exact h.cts _ _ _ _
        · simp only [Function.update_self, Function.update_of_ne h2]
          exact h.cts _ _ _ _
      · simp only [Function.update_of_ne h1]
        exact h.cts _ _ _ _
  | stc LOGQ LOGN hn RAND_MAX LOGDELTA G ct0 ct1 s ω =>
    simp only [Call.run, Call.plain]
    rw [stcCall_eq RAND_MAX LOGDELTA G (h.stc LOGQ LOGN LOGDELTA G) ct0 ct1 s ω]
    refine ⟨?_, fun r st' e => ?_⟩
    · simp only [bind_assoc, pure_bind]
      exact bind_congr fun U => bind_pure _
    · obtain ⟨x, h1, h2⟩ := bind_eq_pure e
      obtain ⟨C, h3, h4⟩ := bind_eq_pure h1
      obtain ⟨y, h5, h6⟩ := bind_eq_pure h4
      have e2 := congrArg Prod.snd (pure_inj h2)
      have e3 := congrArg Prod.snd (pure_inj h6)
      simp only at e2 e3
      subst e2
      refine ⟨h.conv, h.fft, h.ifft, h.cts, fun Q n D g => ?_⟩
      by_cases h1 : Q = LOGQ
      · subst h1
        by_cases h2 : n = LOGN
        · subst h2
          by_cases h3 : D = LOGDELTA
          · subst h3
            by_cases h4 : g = G
            · subst h4
              simp only [Function.update_self, ← e3]
              exact Or.inr ⟨rfl, by assumption⟩
            · simp only [Function.update_self, Function.update_of_ne h4]
              exact h.stc _ _ _ _
          · simp only [Function.update_self, Function.update_of_ne h3]
            exact h.stc _ _ _ _
        · simp only [Function.update_self, Function.update_of_ne h2]
          exact h.stc _ _ _ _
      · simp only [Function.update_of_ne h1]
        exact h.stc _ _ _ _

theorem After.inv {cs : List Call} {st : Statics} (h : After cs st) : Inv st := by
  induction h with
  | start => exact Inv.start
  | call _ c r e ih => exact (ih.run c).2 _ _ e

end Statics

end EvalRound

import Verif.Proofs.Static
import Verif.Props.Conv

/-! # C39: the static tables do not carry history -/

namespace EvalRound
open Z_Q

/-- C39: after any sequence of calls of any instances, a call has the outcome that it has as the first call of
the program. -/
theorem C39_history {cs : List Call} {st : Statics} (h : Statics.After cs st) (c : Call) :
    (do let r ← c.run st; pure r.1) = (do let r ← c.run Statics.start; pure r.1) :=
  (h.inv.run c).1.trans (Statics.Inv.start.run c).1.symm

/-- C39: after any sequence of calls of any instances, a call has the outcome of the models without static
variables that the other properties are about. -/
theorem C39_model {cs : List Call} {st : Statics} (h : Statics.After cs st) (c : Call) :
    (do let r ← c.run st; pure r.1) = c.plain := (h.inv.run c).1

/-- There are histories of every length, here of products in one ring. -/
example (n : Nat) : ∃ cs st, cs.length = n ∧ Statics.After cs st := by
  haveI : NeZero 50 := ⟨by norm_num⟩
  have hc : R_Q.Canonical (fun _ => setzero : R_Q 50 (2^3)) := fun _ => canonical_setzero
  induction n with
  | zero => exact ⟨[], _, rfl, .start⟩
  | succ n ih =>
    obtain ⟨cs, st, hl, ha⟩ := ih
    let c : Call := .conv 50 (2^3) ⟨by norm_num⟩ (fun _ => setzero) (fun _ => setzero)
    have h1 := C39_model ha c
    obtain ⟨Z, hZ, _⟩ := C15_conv (LOGQ := 50) (by norm_num) 3 (by norm_num) (by norm_num) _ _ hc hc
    have h2 : c.plain = pure Z := hZ
    rw [h2] at h1
    obtain ⟨r, h3, _⟩ := bind_eq_pure h1
    exact ⟨cs ++ [c], r.2, by simp [hl], .call ha c r.1 h3⟩

end EvalRound

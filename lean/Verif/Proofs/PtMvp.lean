import Verif.Proofs.LinTransSlots

/-! # The plaintext matrix-vector products of impl/plaintext.h -/

namespace EvalRound
open Z_Q Finset

variable {LOGQ n : Nat} [NeZero LOGQ]

/-- `acc` holds an integer polynomial with slots within `e` of `x` -/
def Holds (acc : R_Q LOGQ (2^(n+1))) (x : Fin (2^n) → ℂ) (e : ℝ) : Prop :=
  R_Q.Canonical acc ∧ ∃ w : Fin (2^(n+1)) → Int, R_Q.cls acc = red LOGQ w ∧ ∀ i, ‖slots n w i - x i‖ ≤ e

theorem Holds.zero : Holds (LOGQ := LOGQ) (n := n) R_Q.setzero (fun _ => 0) 0 := by
  refine ⟨fun k => canonical_setzero, 0, ?_, fun i => ?_⟩
  · funext k; simp [R_Q.cls, red, R_Q.setzero, cls_setzero]
  · unfold slots
    simp only [Pi.zero_apply, Int.cast_zero, sub_zero]
    rw [slotOf_zero, norm_zero]

/-- one diagonal -/
theorem mvpStep (h1 : ConvLOGQ LOGQ) (hn1 : 1 ≤ n) (hn : n ≤ 16) {pt : R_Q LOGQ (2^(n+1))} (hpt : R_Q.Canonical pt)
    {Z : ℝ} (hZ : ∀ i, ‖slots n (R_Q.sval pt) i‖ ≤ Z) (z : CVec (n+1)) (Delta : W) {B : ℝ}
    (hz : ∀ i : Fin (2^n), ‖(⟨z.1 i, z.2 i⟩ : ℂ)‖ ≤ B)
    (hw : B * Delta.toNat + 1/2 < 2^64) (hq : B * Delta.toNat + 1/2 < 2^(LOGQ-1))
    {o : Int} (ho : 0 ≤ o) {acc : R_Q LOGQ (2^(n+1))} {x : Fin (2^n) → ℂ} {e : ℝ} (hacc : Holds acc x e) :
    Ok (do
      let pt_v ← encode LOGQ (LOGN := n+1) z Delta
      let pt_rot ← rotR pt R_Q.setzero o.toNat
      let pt_conv ← conv pt_v pt_rot
      pure (R_Q.add acc pt_conv)) fun r =>
        Holds r (fun i => x i + Delta.toNat * ((⟨z.1 i, z.2 i⟩ : ℂ) * slots n (R_Q.sval pt) (shift o i))) (e + 2^n * Z) := by
  obtain ⟨v, ev, hv, hvs, _⟩ := encode_slots hn1 (by omega) z Delta hz hw hq
  obtain ⟨y, ey, hy, hyc⟩ := rotR_pow2 (k := n+1) (by omega) o.toNat hpt R_Q.setzero
  obtain ⟨c, ec, _, hcc⟩ := conv_spec (k := n+1) h1 (by omega) (by omega) hv hy
  refine ⟨R_Q.add acc c, ?_, ?_⟩
  · rw [ev, pure_bind, ey, pure_bind, ec, pure_bind]
  obtain ⟨_, w, hwc, hws⟩ := hacc
  refine ⟨R_Q.canonical_add acc c, w + negconv (R_Q.sval v) (autom (5^o.toNat) (R_Q.sval pt)), ?_, fun i => ?_⟩
  · rw [red_add, red_negconv, red_autom, ← hwc, ← cls_red_sval, ← cls_red_sval, ← hyc, ← hcc]
    exact R_Q.cls_add acc c
  · rw [slots_add, slots_negconv, slots_rot _ ho]
    have e1 : slots n w i + slots n (R_Q.sval v) i * slots n (R_Q.sval pt) (shift o i) -
        (x i + Delta.toNat * ((⟨z.1 i, z.2 i⟩ : ℂ) * slots n (R_Q.sval pt) (shift o i))) =
        (slots n w i - x i) + (slots n (R_Q.sval v) i - Delta.toNat * ⟨z.1 i, z.2 i⟩) * slots n (R_Q.sval pt) (shift o i) := by
      ring
    rw [e1]
    refine (norm_add_le _ _).trans (add_le_add (hws i) ?_)
    rw [norm_mul]
    exact mul_le_mul (hvs i) (hZ _) (norm_nonneg _) (by positivity)

/-- reading the polynomial back -/
theorem Holds.sval {acc : R_Q LOGQ (2^(n+1))} {x : Fin (2^n) → ℂ} {e : ℝ} (h : Holds acc x e) (hn1 : 1 ≤ n)
    (hn : n ≤ 16) {X : ℝ} (hX : ∀ i, ‖x i‖ ≤ X) (hq : X + e < 2^(LOGQ-1)) (i : Fin (2^n)) :
    ‖slots n (R_Q.sval acc) i - x i‖ ≤ e := by
  obtain ⟨_, w, hw, hs⟩ := h
  have e1 : R_Q.sval acc = w := by
    funext k
    have h1 := coeff_le_slots hn1 (by omega) (m := fun k => (w k : ℝ)) (B := X + e) (fun i => by
      have := norm_sub_norm_le (slots n w i) (x i)
      have h2 := hs i
      have h3 := hX i
      show ‖slots n w i‖ ≤ _
      linarith) k
    have h2 : |(w k : ℝ)| < 2^(LOGQ-1) := lt_of_le_of_lt h1 hq
    have h3 : |w k| < 2^(LOGQ-1) := by exact_mod_cast h2
    have h4 := abs_lt.1 h3
    exact sval_eq_of_cls (congrFun hw k) h4.1.le h4.2
  rw [e1]
  exact hs i

end EvalRound

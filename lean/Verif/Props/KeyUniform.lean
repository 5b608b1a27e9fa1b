import Verif.Proofs.KeyUniform

/-!
# C86: `keygen` samples the sparse ternary keys uniformly

Draws are counted: with `L` draws of `rand()`, each from `0` to `RAND_MAX`, there are `(RAND_MAX+1)^L` possible
sequences of draws, all equally likely if `rand()` is ideal.
-/

namespace EvalRound
open Finset

/-- the draws `t` are enough for `keygen`, and the key is `s`: it returns `s` on every stream of random numbers that begins with
`t`, and has used at most the draws in `t` -/
def KeyFrom (N : Nat) [NeZero N] (h RAND_MAX L : Nat) (s : Fin N → Int) (t : Fin L → Fin (RAND_MAX+1)) : Prop :=
  ∃ d, d ≤ L ∧ ∀ ω : Rng, (∀ i : Fin L, ω i = t i) → keygen N h ω = pure (s, ω.drop d)

theorem keyFrom_iff {N : Nat} [NeZero N] {h R L : Nat} {s : Fin N → Int} {t : Fin L → Fin (R+1)} :
    KeyFrom N h R L s t ↔ Uses h (fun _ => 0) s t := by
  unfold KeyFrom Uses
  refine exists_congr fun d => and_congr_right fun _ => ⟨fun hd σ => ?_, fun hd ω hω => ?_⟩
  · rw [← keygen_rounds]
    refine hd _ fun i => ?_
    unfold drawStream
    rw [dif_pos i.isLt]
  · have e : ω = drawStream t (ω.drop L) := by
      funext n
      unfold drawStream
      split_ifs with hn
      · exact hω ⟨n, hn⟩
      · show ω n = ω (L + (n - L))
        rw [Nat.add_sub_cancel' (by omega)]
    have := hd (ω.drop L)
    rw [← e, ← keygen_rounds] at this
    exact this

open Classical in
/-- the number of sequences of `L` draws that give the key `s` -/
noncomputable def keyDraws (N : Nat) [NeZero N] (h RAND_MAX L : Nat) (s : Fin N → Int) : ℕ :=
  (univ.filter (KeyFrom N h RAND_MAX L s)).card

/-- the draws `t` are not enough for `keygen` -/
def NotEnough (N : Nat) [NeZero N] (h RAND_MAX L : Nat) (t : Fin L → Fin (RAND_MAX+1)) : Prop := ¬ ∃ s : Fin N → Int, KeyFrom N h RAND_MAX L s t

open Classical in
/-- the number of sequences of `L` draws after which `keygen` has not returned -/
noncomputable def lateDraws (N : Nat) [NeZero N] (h RAND_MAX L : Nat) : ℕ :=
  (univ.filter (NotEnough N h RAND_MAX L)).card

variable {N : Nat} [NeZero N] {h R : Nat}

theorem keyDraws_eq (L : Nat) (s : Fin N → Int) : keyDraws N h R L s = cnt (R+1) L (Uses h (fun _ => 0) s) := by
  unfold keyDraws
  exact cnt_congr fun t => keyFrom_iff

theorem lateDraws_eq (L : Nat) : lateDraws N h R L = cnt (R+1) L (fun t => ¬ Returned h (fun _ : Fin N => (0:Int)) t) := by
  unfold lateDraws
  exact cnt_congr (P := NotEnough N h R L) fun t => not_congr (exists_congr fun s => keyFrom_iff)

/-- C86: every ternary key of weight `h` comes from the same number of sequences of draws, however many draws are
counted, when `N` and 2 divide `RAND_MAX+1`. -/
theorem C86_uniform (hN : N ∣ R+1) (h2 : 2 ∣ R+1) (L : Nat) {s s' : Fin N → Int}
    (hs : ∀ k, s k = -1 ∨ s k = 0 ∨ s k = 1) (hw : (univ.filter fun k => s k ≠ 0).card = h)
    (hs' : ∀ k, s' k = -1 ∨ s' k = 0 ∨ s' k = 1) (hw' : (univ.filter fun k => s' k ≠ 0).card = h) :
    keyDraws N h R L s = keyDraws N h R L s' := by
  obtain ⟨Q, hQ⟩ := hN
  obtain ⟨Q2, hQ2⟩ := h2
  obtain ⟨n, hn⟩ := (cnt_uses hQ hQ2 h L).1 h
  have h0 : weight (fun _ : Fin N => (0:Int)) + h = h := by simp [weight]
  rw [keyDraws_eq, keyDraws_eq, hn _ s hs (fun k hk => absurd rfl hk) h0 hw, hn _ s' hs' (fun k hk => absurd rfl hk) h0 hw']

/-- C86: few sequences of draws are not enough. The sum is the mean number of draws: for each of the `h` positions one
draw for the sign and `N/(N-i)` draws for a position that is still zero when `i` of them are set. -/
theorem C86_returns (hN : N ∣ R+1) (h2 : 2 ∣ R+1) (hh : h ≤ N) (L : Nat) :
    L * (lateDraws N h R L : ℝ) ≤ (∑ i ∈ range h, ((N:ℝ) / (N - i) + 1)) * ((R:ℝ)+1)^L := by
  obtain ⟨Q, hQ⟩ := hN
  obtain ⟨Q2, hQ2⟩ := h2
  have w0 : weight (fun _ : Fin N => (0:Int)) = 0 := by simp [weight]
  have := late_le hQ hQ2 (Nat.succ_pos _) L h (fun _ : Fin N => (0:Int)) (by omega)
  rw [w0, meanDraws_eq] at this
  unfold late at this
  have hp : (0:ℝ) < ((R+1 : ℕ):ℝ)^L := by positivity
  rw [← mul_div_assoc, div_le_iff₀ hp, ← lateDraws_eq] at this
  simpa using this

/-- C86: the probability of each key is `1/(C(N,h)·2^h)`, with a relative error of at most the mean number of draws over `L`
for the sequences of draws that are not enough. -/
theorem C86_probability (hN : N ∣ R+1) (h2 : 2 ∣ R+1) (hh : h ≤ N) {L : Nat} {s : Fin N → Int} (hL : 0 < L)
    (hs : ∀ k, s k = -1 ∨ s k = 0 ∨ s k = 1) (hw : (univ.filter fun k => s k ≠ 0).card = h) :
    (1 - (∑ i ∈ range h, ((N:ℝ) / (N - i) + 1)) / L) / (N.choose h * 2^h) ≤ (keyDraws N h R L s : ℝ) / ((R:ℝ)+1)^L ∧
    (keyDraws N h R L s : ℝ) / ((R:ℝ)+1)^L ≤ 1 / (N.choose h * 2^h) := by
  have h1 := sum_cnt_keys (N := N) (b := R+1) L h
  rw [← lateDraws_eq, sum_congr rfl (g := fun _ => keyDraws N h R L s) fun s' hs' => by
    rw [← keyDraws_eq]
    obtain ⟨a, b⟩ := mem_keys.1 hs'
    exact C86_uniform hN h2 L a b hs hw, sum_const, card_keys, smul_eq_mul] at h1
  have h3 := C86_returns hN h2 hh L
  have h1' : (N.choose h * 2^h : ℝ) * keyDraws N h R L s + lateDraws N h R L = ((R:ℝ)+1)^L := by exact_mod_cast h1
  have hp : (0:ℝ) < ((R:ℝ)+1)^L := by positivity
  have hc : (0:ℝ) < N.choose h * 2^h := by
    have : (0:ℝ) < N.choose h := by exact_mod_cast Nat.choose_pos hh
    positivity
  have hLr : (0:ℝ) < L := by exact_mod_cast hL
  have hl : (0:ℝ) ≤ lateDraws N h R L := Nat.cast_nonneg _
  generalize (∑ i ∈ range h, ((N:ℝ) / (N - i) + 1)) = E at *
  generalize ((R:ℝ)+1)^L = P at *
  generalize (N.choose h * 2^h : ℝ) = C at *
  constructor
  · rw [div_le_div_iff₀ hc hp, sub_mul, one_mul]
    have : (lateDraws N h R L : ℝ) ≤ E / L * P := by
      rw [div_mul_eq_mul_div, le_div_iff₀ hLr]; linarith
    linarith
  · rw [div_le_div_iff₀ hp hc]
    linarith

/-- C86: the mean number of draws is at most `3h` when at most half of the positions are set. -/
theorem C86_mean (hh : 2 * h ≤ N) : ∑ i ∈ range h, ((N:ℝ) / (N - i) + 1) ≤ 3 * h := by
  have hN : (0:ℝ) < N := by exact_mod_cast Nat.pos_of_ne_zero (NeZero.ne N)
  have : ∀ i ∈ range h, (N:ℝ) / (N - i) + 1 ≤ 3 := fun i hi => by
    have h1 : (2:ℝ) * i ≤ N := by exact_mod_cast (by have := mem_range.1 hi; omega : 2 * i ≤ N)
    have h2 : (0:ℝ) < N - i := by linarith
    have : (N:ℝ) / (N - i) ≤ 2 := by rw [div_le_iff₀ h2]; linarith
    linarith
  have := sum_le_card_nsmul (range h) _ 3 this
  rw [card_range, nsmul_eq_mul] at this
  linarith

/-- C86: when 2 and `N` do not divide `RAND_MAX+1` the keys are not equally likely: with `RAND_MAX = 2` the key `X` comes from 2 of
the 9 sequences of two draws and the key `1` from 4. -/
theorem C86_biased : keyDraws 2 1 2 2 (fun k => if k = 0 then 1 else 0) = 4 ∧ keyDraws 2 1 2 2 (fun k => if k = 0 then 0 else 1) = 2 := by
  classical
  have e : ∀ (s : Fin 2 → Int) (t : Fin 2 → Fin 3), KeyFrom 2 1 2 2 s t ↔
      Function.update (fun _ => 0) (Fin.ofNat 2 (t 0).val) (if (t 1).val % 2 = 0 then (1:Int) else -1) = s := by
    intro s t
    rw [keyFrom_iff]
    have ht : t = (Fin.cons (t 0) (Fin.cons (t 1) Fin.elim0 : Fin 1 → Fin 3) : Fin 2 → Fin 3) := by
      funext i
      match i with
      | 0 => rfl
      | 1 => rfl
    conv_lhs => rw [ht]
    rw [uses_cons_free 0 _ s _ _ rfl, usesB_cons, uses_zero]
  have hc : ∀ s, keyDraws 2 1 2 2 s = (univ.filter fun t : Fin 2 → Fin 3 =>
      Function.update (fun _ => 0) (Fin.ofNat 2 (t 0).val) (if (t 1).val % 2 = 0 then (1:Int) else -1) = s).card := by
    intro s
    unfold keyDraws
    refine congrArg card (Finset.ext fun t => ?_)
    rw [mem_filter, mem_filter, e]
  rw [hc, hc]
  constructor <;> decide +kernel

-- the parameters of the drivers: N = 2^17, H = 192 and RAND_MAX = 2^31-1; within 2^20 draws `keygen` has returned in all but a
-- fraction 576/2^20 of the cases
example : (2^17 : ℕ) ∣ 2147483647 + 1 ∧ 2 ∣ 2147483647 + 1 ∧ 2 * 192 ≤ 2^17 := ⟨⟨2^14, by norm_num⟩, ⟨2^30, by norm_num⟩, by norm_num⟩

-- two different keys of weight 2 among four positions
example : keyDraws 4 2 2147483647 10 ![1, 0, -1, 0] = keyDraws 4 2 2147483647 10 ![0, 1, 1, 0] :=
  C86_uniform ⟨2^29, by norm_num⟩ ⟨2^30, by norm_num⟩ 10 (by decide) (by decide) (by decide) (by decide)

end EvalRound

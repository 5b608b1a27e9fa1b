import Verif.Model.Section3
import Verif.Proofs.Uniform
import Verif.Props.HomTests

/-!
# C67, C68: the error measurements of section 3
-/

namespace EvalRound
open Z_Q Finset MeasureTheory

section
variable {N : Nat}

theorem simple_square_sum (a : Fin N → ℝ) : Simple.square_sum a = ∑ i, a i ^ 2 := by
  unfold Simple.square_sum
  have h := forFin_inv (n := N) (s := (0:ℝ)) (f := fun i sum => sum + a i * a i)
    (P := fun k s => s = ∑ j ∈ range k, if h : j < N then a ⟨j, h⟩ ^ 2 else 0) (by simp) (fun k s hs => by
      rw [sum_range_succ, ← hs, dif_pos k.isLt, pow_two])
  rw [h, ← Fin.sum_univ_eq_sum_range (fun j => if h : j < N then a ⟨j, h⟩ ^ 2 else 0)]
  exact sum_congr rfl fun i _ => dif_pos i.isLt

/-- the matrix of the multiplication by `b` -/
def convMat (b : Fin N → ℝ) (i j : Fin N) : ℝ :=
  if h : j ≤ i then b ⟨i - j, by omega⟩ else - b ⟨N + i - j, by omega⟩

theorem negconv_mat (a b : Fin N → ℝ) (i : Fin N) : negconv a b i = ∑ j, convMat b i j * a j := by
  unfold negconv convMat
  refine sum_congr rfl fun j _ => ?_
  split <;> ring

theorem convMat_sq (b : Fin N → ℝ) (i : Fin N) : ∑ j, convMat b i j ^ 2 = ∑ k, b k ^ 2 := by
  haveI : NeZero N := ⟨by have := i.isLt; omega⟩
  rw [← Equiv.sum_comp (Equiv.subLeft i) fun k => b k ^ 2]
  refine sum_congr rfl fun j _ => ?_
  have hi := i.isLt
  have hj := j.isLt
  unfold convMat
  split
  · rename_i h
    congr 2
    rw [Equiv.subLeft_apply]
    apply Fin.ext
    rw [Fin.sub_val_of_le h]
  · rename_i h
    have h' : i.val < j.val := not_le.1 h
    rw [neg_sq]
    congr 2
    rw [Equiv.subLeft_apply]
    apply Fin.ext
    rw [Fin.coe_sub_iff_lt.2 h']

/-- the worst case -/
theorem negconv_sq_le {a b : Fin N → ℝ} {c : ℝ} (ha : ∀ k, |a k| ≤ c) : ∑ i, negconv a b i ^ 2 ≤ N * (N * c^2) * ∑ k, b k ^ 2 := by
  have h1 : ∀ i, negconv a b i ^ 2 ≤ (N * c^2) * ∑ k, b k ^ 2 := by
    intro i
    rw [negconv_mat]
    refine (sum_mul_sq_le_sq_mul_sq _ _ _).trans ?_
    rw [convMat_sq, mul_comm]
    refine mul_le_mul_of_nonneg_right ?_ (sum_nonneg fun k _ => sq_nonneg _)
    refine (sum_le_sum (g := fun _ => c^2) fun k _ => ?_).trans (by simp)
    exact sq_le_sq' (abs_le.1 (ha k)).1 (abs_le.1 (ha k)).2
  refine (sum_le_sum fun i _ => h1 i).trans (le_of_eq ?_)
  rw [sum_const, card_univ, Fintype.card_fin, nsmul_eq_mul]
  ring

end

/-- C67: `expected` of `measure_conv_error` is the mean of the measured quantity when the rounding errors are independent and
uniform on [-1/2, 1/2]. -/
theorem C67_mean {N : Nat} (pt : Fin N → ℝ) :
    ∫ e in Set.univ.pi fun _ : Fin N => Set.Icc (-1/2 : ℝ) (1/2), ∑ i, negconv e pt i ^ 2 = N / 12 * ∑ k, pt k ^ 2 := by
  show ∫ e in cube (Fin N), ∑ i, negconv e pt i ^ 2 = _
  simp only [negconv_mat]
  rw [integral_finsetSum _ fun i _ => cube_integrable (by fun_prop)]
  simp only [cube_linear_sq, convMat_sq]
  rw [sum_const, card_univ, Fintype.card_fin, nsmul_eq_mul]
  ring

/-- C67: the same for a sum of products with different polynomials, independent errors in each. -/
theorem C67_sum_mean {N K : Nat} (pt : Fin K → Fin N → ℝ) :
    ∫ e in Set.univ.pi fun _ : Fin K × Fin N => Set.Icc (-1/2 : ℝ) (1/2),
      ∑ i, (∑ k, negconv (fun j => e (k, j)) (pt k) i) ^ 2 = N / 12 * ∑ k, ∑ j, pt k j ^ 2 := by
  show ∫ e in cube (Fin K × Fin N), _ = _
  have h : ∀ (e : Fin K × Fin N → ℝ) (i : Fin N), ∑ k, negconv (fun j => e (k, j)) (pt k) i =
      ∑ p : Fin K × Fin N, convMat (pt p.1) i p.2 * e p := by
    intro e i
    rw [Fintype.sum_prod_type]
    exact sum_congr rfl fun k _ => negconv_mat _ _ _
  simp only [h]
  rw [integral_finsetSum _ fun i _ => cube_integrable (by fun_prop)]
  simp only [cube_linear_sq]
  have h2 : ∀ i : Fin N, ∑ p : Fin K × Fin N, convMat (pt p.1) i p.2 ^ 2 = ∑ k, ∑ j, pt k j ^ 2 := by
    intro i
    rw [Fintype.sum_prod_type]
    exact sum_congr rfl fun k _ => convMat_sq (pt k) i
  simp only [h2]
  rw [sum_const, card_univ, Fintype.card_fin, nsmul_eq_mul]
  ring

/-! ## the programs -/

/-- the stream after `c` calls -/
def RealRng.drop (ρ : RealRng) (c : Nat) : RealRng := fun j => ρ (c + j)

theorem RealRng.drop_drop (ρ : RealRng) (a b : Nat) : (ρ.drop a).drop b = ρ.drop (a + b) := by
  funext j; unfold RealRng.drop; rw [add_assoc]

theorem runRounds_spec {rounds c : Nat} {body : RealRng → M (ℝ × RealRng)} {ρ : RealRng} {P : RealRng → ℝ → Prop}
    (h : ∀ r, Ok (body (ρ.drop (r * c))) fun o => P (ρ.drop (r * c)) o.1 ∧ o.2 = ρ.drop (r * c + c)) :
    Ok (runRounds rounds body ρ) fun l => l.length = rounds ∧ ∀ r (hr : r < l.length), P (ρ.drop (r * c)) l[r] := by
  unfold runRounds
  refine Ok.bind (forUp_inv (P := fun n (p : List ℝ × RealRng) => p.1.length = n ∧ p.2 = ρ.drop (n * c) ∧
    ∀ r (hr : r < p.1.length), P (ρ.drop (r * c)) p.1[r]) (Nat.zero_le rounds) ?_ ?_) fun p hp => Ok.pure ⟨hp.1, hp.2.2⟩
  · refine ⟨rfl, ?_, fun r hr => absurd hr (Nat.not_lt_zero _)⟩
    funext j; simp [RealRng.drop]
  · intro n p _ _ ⟨h1, h2, h3⟩
    rw [h2]
    refine Ok.bind (h n) fun o ⟨ho1, ho2⟩ => Ok.pure ⟨?_, ?_, ?_⟩
    · rw [List.length_append, h1]; rfl
    · rw [ho2, add_mul, one_mul]
    · intro r hr
      by_cases hrn : r < p.1.length
      · have := h3 r hrn
        simp only [List.getElem_append_left hrn]
        exact this
      · have hr' : r < p.1.length + 1 := by simpa using hr
        have e : r = p.1.length := by omega
        subst e
        simp only [List.getElem_concat_length]
        rw [h1]; exact ho1

/-- `encode_raw` and `encode` of SimplePlaintext -/
theorem simple_encode_spec {LOGN : Nat} (h1 : 2 ≤ LOGN) (h2 : LOGN ≤ 27) (z : CVec LOGN) (D : Nat) (hD : D < 64) :
    ∃ m : Fin (2^LOGN) → ℝ, (∀ i : Fin (2^(LOGN-1)), slotOf m i = ⟨z.1 i, z.2 i⟩) ∧
      Simple.encode_raw z (BitVec.ofNat 64 (2^D)) = pure (fun k => m k * 2^D) ∧
      Simple.encode z (BitVec.ofNat 64 (2^D)) = pure (fun k => (cround (m k * 2^D) : ℝ)) := by
  have hδ : (((BitVec.ofNat 64 (2^D)).toNat : ℕ) : ℝ) = 2^D := by
    rw [BitVec.toNat_ofNat, Nat.mod_eq_of_lt (Nat.pow_lt_pow_right (by norm_num) hD)]; push_cast; rfl
  obtain ⟨m, em, hs, _⟩ := ifft_slot h1 h2 z (fun _ => 0)
  refine ⟨m, hs, ?_, ?_⟩
  · unfold Simple.encode_raw
    rw [em, pure_bind, hδ]
  · unfold Simple.encode
    rw [em, pure_bind, hδ]

/-- C67: `measure_conv_error` prints N/12 times the square sum of the encoded test message, and in each round the square sum of its
product with the rounding errors of a fresh random message, which is at most 3N times as large. -/
theorem C67_conv_error {LOGN : Nat} (h1 : 2 ≤ LOGN) (h2 : LOGN ≤ 27) (rounds : Nat) (ρ : RealRng) :
    Ok (measure_conv_error LOGN rounds ρ) fun o => ∃ m0 pt : Fin (2^LOGN) → ℝ,
      (∀ i : Fin (2^(LOGN-1)), slotOf m0 i = ⟨(set_test_message LOGN).1 i, (set_test_message LOGN).2 i⟩) ∧
      (∀ k, |pt k - 2^50 * m0 k| ≤ 1/2 ∧ ∃ a : Int, pt k = a) ∧
      o.1 = 2^LOGN / 12 * ∑ k, pt k ^ 2 ∧ o.2.length = rounds ∧
      ∀ r (hr : r < o.2.length), ∃ m e : Fin (2^LOGN) → ℝ,
        (∀ i : Fin (2^(LOGN-1)), slotOf m i = ⟨ρ (r * 2^LOGN + i), ρ (r * 2^LOGN + (2^(LOGN-1) + i))⟩) ∧
        (∀ k, |e k| ≤ 1/2 ∧ ∃ a : Int, 2^50 * m k = a + e k) ∧
        o.2[r] = ∑ i, negconv e pt i ^ 2 ∧ o.2[r] ≤ 3 * 2^LOGN * o.1 := by
  unfold measure_conv_error
  rw [shl1_eq (by norm_num), pure_bind]
  obtain ⟨m0, hm0, _, ept⟩ := simple_encode_spec h1 h2 (set_test_message LOGN) 50 (by norm_num)
  rw [ept, pure_bind]
  obtain ⟨pt, hpe⟩ : ∃ pt : Fin (2^LOGN) → ℝ, pt = fun k => (cround (m0 k * 2^50) : ℝ) := ⟨_, rfl⟩
  have hpt : ∀ k, |pt k - 2^50 * m0 k| ≤ 1/2 ∧ ∃ a : Int, pt k = a := fun k => by
    rw [hpe]
    refine ⟨?_, _, rfl⟩
    rw [mul_comm (2^50 : ℝ)]
    exact cround_err _
  rw [← hpe]
  clear hpe ept
  refine Ok.bind (runRounds_spec (c := 2^LOGN) (P := fun ρ' x => ∃ m e : Fin (2^LOGN) → ℝ,
      (∀ i : Fin (2^(LOGN-1)), slotOf m i = ⟨ρ' i, ρ' (2^(LOGN-1) + i)⟩) ∧
      (∀ k, |e k| ≤ 1/2 ∧ ∃ a : Int, 2^50 * m k = a + e k) ∧ x = ∑ i, negconv e pt i ^ 2) fun r => ?_) fun l ⟨hl, hr⟩ =>
    Ok.pure ⟨m0, pt, hm0, hpt, ?_, hl, fun r hrl => ?_⟩
  · unfold convErrorRound
    obtain ⟨m, hm, er, ee⟩ := simple_encode_spec h1 h2 (set_random_message LOGN (ρ.drop (r * 2^LOGN))).1 50 (by norm_num)
    dsimp only
    rw [er, pure_bind, ee, pure_bind, simple_conv_eq, pure_bind, simple_square_sum]
    refine Ok.pure ⟨⟨m, _, hm, fun k => ⟨?_, cround (m k * 2^50), ?_⟩, rfl⟩, RealRng.drop_drop _ _ _⟩
    · show |m k * 2^50 - (cround (m k * 2^50) : ℝ)| ≤ 1/2
      rw [abs_sub_comm]
      exact cround_err _
    · show 2^50 * m k = (cround (m k * 2^50) : ℝ) + (m k * 2^50 - (cround (m k * 2^50) : ℝ))
      ring
  · rw [simple_square_sum]; push_cast; rfl
  · obtain ⟨m, e, hm, he, hx⟩ := hr r hrl
    refine ⟨m, e, hm, he, hx, ?_⟩
    rw [simple_square_sum]
    dsimp only
    rw [hx]
    refine (negconv_sq_le fun k => (he k).1).trans (le_of_eq ?_)
    push_cast
    ring

/-- C67: `measure_conv_sum_error` prints `Diag` times as much as `measure_conv_error` does, and in each round the square sum of the
product of the encoded test message, never rotated, with the sum of the rounding errors of `Diag` fresh random messages. -/
theorem C67_conv_sum_error {LOGN : Nat} (h1 : 2 ≤ LOGN) (h2 : LOGN ≤ 27) (Diag : Nat) (hD : Diag * 2^LOGN < 2^31) (rounds : Nat)
    (ρ : RealRng) :
    Ok (measure_conv_sum_error Diag LOGN rounds ρ) fun o => ∃ m0 pt : Fin (2^LOGN) → ℝ,
      (∀ i : Fin (2^(LOGN-1)), slotOf m0 i = ⟨(set_test_message LOGN).1 i, (set_test_message LOGN).2 i⟩) ∧
      (∀ k, |pt k - 2^50 * m0 k| ≤ 1/2 ∧ ∃ a : Int, pt k = a) ∧
      o.1 = Diag * 2^LOGN / 12 * ∑ k, pt k ^ 2 ∧ o.2.length = rounds ∧
      ∀ r (hr : r < o.2.length), ∃ m e : Fin Diag → Fin (2^LOGN) → ℝ,
        (∀ d (i : Fin (2^(LOGN-1))), slotOf (m d) i =
          ⟨ρ (r * (Diag * 2^LOGN) + (d * 2^LOGN + i)), ρ (r * (Diag * 2^LOGN) + (d * 2^LOGN + (2^(LOGN-1) + i)))⟩) ∧
        (∀ d k, |e d k| ≤ 1/2 ∧ ∃ a : Int, 2^50 * m d k = a + e d k) ∧
        o.2[r] = ∑ i, (∑ d, negconv (e d) pt i) ^ 2 ∧ o.2[r] ≤ 3 * (Diag * 2^LOGN) * o.1 := by
  unfold measure_conv_sum_error
  rw [shl1_eq (by norm_num), pure_bind]
  obtain ⟨m0, hm0, _, ept⟩ := simple_encode_spec h1 h2 (set_test_message LOGN) 50 (by norm_num)
  rw [ept, pure_bind]
  obtain ⟨pt, hpe⟩ : ∃ pt : Fin (2^LOGN) → ℝ, pt = fun k => (cround (m0 k * 2^50) : ℝ) := ⟨_, rfl⟩
  have hpt : ∀ k, |pt k - 2^50 * m0 k| ≤ 1/2 ∧ ∃ a : Int, pt k = a := fun k => by
    rw [hpe]
    refine ⟨?_, _, rfl⟩
    rw [mul_comm (2^50 : ℝ)]
    exact cround_err _
  rw [← hpe]
  clear hpe ept
  have hint : intM ((Diag : ℤ) * (2^LOGN : Nat)) = pure ((Diag : ℤ) * (2^LOGN : Nat)) := by
    have h0 : (0 : ℤ) ≤ (Diag : ℤ) * (2^LOGN : Nat) := by positivity
    have h3 : (Diag : ℤ) * (2^LOGN : Nat) < 2^31 := by exact_mod_cast hD
    exact intM_ok (by linarith) (by linarith)
  rw [hint, pure_bind]
  refine Ok.bind (runRounds_spec (c := Diag * 2^LOGN) (P := fun ρ' x => ∃ m e : Fin Diag → Fin (2^LOGN) → ℝ,
      (∀ d (i : Fin (2^(LOGN-1))), slotOf (m d) i = ⟨ρ' (d * 2^LOGN + i), ρ' (d * 2^LOGN + (2^(LOGN-1) + i))⟩) ∧
      (∀ d k, |e d k| ≤ 1/2 ∧ ∃ a : Int, 2^50 * m d k = a + e d k) ∧ x = ∑ i, (∑ d, negconv (e d) pt i) ^ 2) fun r => ?_)
    fun l ⟨hl, hr⟩ => Ok.pure ⟨m0, pt, hm0, hpt, ?_, hl, fun r hrl => ?_⟩
  · generalize hρ' : ρ.drop (r * (Diag * 2^LOGN)) = ρ'
    have hfin : ρ.drop (r * (Diag * 2^LOGN) + Diag * 2^LOGN) = ρ'.drop (Diag * 2^LOGN) := by rw [← hρ', RealRng.drop_drop]
    rw [hfin]
    clear hfin hρ'
    unfold convSumRound
    refine Ok.bind (forUp_inv (P := fun d (p : (Fin (2^LOGN) → ℝ) × RealRng) => p.2 = ρ'.drop (d * 2^LOGN) ∧
      ∃ m e : Nat → Fin (2^LOGN) → ℝ,
        (∀ d' < d, ∀ i : Fin (2^(LOGN-1)), slotOf (m d') i = ⟨ρ' (d' * 2^LOGN + i), ρ' (d' * 2^LOGN + (2^(LOGN-1) + i))⟩) ∧
        (∀ d' < d, ∀ k, |e d' k| ≤ 1/2 ∧ ∃ a : Int, 2^50 * m d' k = a + e d' k) ∧
        p.1 = fun i => ∑ d' ∈ range d, negconv (e d') pt i) (Nat.zero_le Diag) ?_ ?_) ?_
    · refine ⟨?_, fun _ _ => 0, fun _ _ => 0, fun d' h => absurd h (Nat.not_lt_zero _), fun d' h => absurd h (Nat.not_lt_zero _), ?_⟩
      · funext j; simp [RealRng.drop]
      · funext i; simp
    · intro d p _ hd ⟨hp, m, e, hm, he, hs⟩
      dsimp only
      rw [hp]
      obtain ⟨m', hm', er, ee⟩ := simple_encode_spec h1 h2 (set_random_message LOGN (ρ'.drop (d * 2^LOGN))).1 50 (by norm_num)
      rw [er, pure_bind, ee, pure_bind, rotate_eq h2, pure_bind, simple_conv_eq, pure_bind]
      refine Ok.pure ⟨?_, Function.update m d m', Function.update e d
          (Simple.sub (fun k => m' k * 2^50) fun k => (cround (m' k * 2^50) : ℝ)), fun d' h => ?_, fun d' h => ?_, ?_⟩
      · show (ρ'.drop (d * 2^LOGN)).drop (2^LOGN) = _
        rw [RealRng.drop_drop, add_mul, one_mul]
      · by_cases hdd : d' = d
        · subst hdd
          rw [Function.update_self]
          exact hm'
        · rw [Function.update_of_ne hdd]
          exact hm d' (by omega)
      · by_cases hdd : d' = d
        · subst hdd
          rw [Function.update_self, Function.update_self]
          intro k
          show |m' k * 2^50 - (cround (m' k * 2^50) : ℝ)| ≤ 1/2 ∧
            ∃ a : ℤ, 2^50 * m' k = a + (m' k * 2^50 - (cround (m' k * 2^50) : ℝ))
          refine ⟨?_, cround (m' k * 2^50), by ring⟩
          rw [abs_sub_comm]
          exact cround_err _
        · rw [Function.update_of_ne hdd, Function.update_of_ne hdd]
          exact he d' (by omega)
      · generalize (Simple.sub (fun k => m' k * 2^50) fun k => (cround (m' k * 2^50) : ℝ)) = e'
        funext i
        rw [sum_range_succ, Function.update_self, hs]
        have hc : ∑ d' ∈ range d, negconv (Function.update e d e' d') pt i = ∑ d' ∈ range d, negconv (e d') pt i :=
          sum_congr rfl fun d' hd' => by rw [Function.update_of_ne (ne_of_lt (mem_range.1 hd'))]
        rw [hc]
        show negconv e' pt i + (∑ d' ∈ range d, negconv (e d') pt i : ℝ) = _
        exact add_comm (negconv e' pt i) _
    · rintro ⟨s, ρ''⟩ ⟨hp, m, e, hm, he, hs⟩
      refine Ok.pure ⟨⟨fun d => m d, fun d => e d, fun d => hm d d.isLt, fun d => he d d.isLt, ?_⟩, hp⟩
      rw [simple_square_sum]
      dsimp only at hs ⊢
      rw [hs]
      refine sum_congr rfl fun i _ => ?_
      beta_reduce
      rw [← Fin.sum_univ_eq_sum_range (fun d' => negconv (e d') pt i)]
  · rw [simple_square_sum]; push_cast; rfl
  · obtain ⟨m, e, hm, he, hx⟩ := hr r hrl
    refine ⟨m, e, hm, he, hx, ?_⟩
    rw [simple_square_sum]
    dsimp only
    rw [hx]
    have hsum : ∀ i, ∑ d, negconv (e d) pt i = negconv (fun k => ∑ d, e d k) pt i := by
      intro i
      simp only [negconv_mat, mul_sum]
      rw [sum_comm]
    simp only [hsum]
    refine (negconv_sq_le (c := Diag / 2) fun k => ?_).trans (le_of_eq ?_)
    · refine (abs_sum_le_sum_abs _ _).trans ((sum_le_sum fun d _ => (he d k).1).trans (le_of_eq ?_))
      simp; ring
    · push_cast
      ring

/-- The hypotheses hold for the parameters of section3.h at `LOGN = 15` and `LOGN = 16` and for 100 rounds. -/
example (LOGN : Nat) (h : LOGN = 15 ∨ LOGN = 16) (ρ : RealRng) :
    (Ok (measure_conv_error LOGN 100 ρ) fun o => o.2.length = 100) ∧ Ok (measure_conv_sum_error 16 LOGN 100 ρ) fun o => o.2.length = 100 :=
  ⟨Ok.mono (C67_conv_error (by omega) (by omega) 100 ρ) fun _ ⟨_, _, _, _, _, h, _⟩ => h,
   Ok.mono (C67_conv_sum_error (by omega) (by omega) 16 (by rcases h with rfl | rfl <;> norm_num) 100 ρ)
     fun _ ⟨_, _, _, _, _, h, _⟩ => h⟩

/-- One coefficient: the mean of `e²c²` is `c²/12`. -/
example (c : ℝ) : ∫ e in Set.univ.pi fun _ : Fin 1 => Set.Icc (-1/2 : ℝ) (1/2), ∑ i, negconv e (fun _ => c) i ^ 2 = c^2 / 12 := by
  rw [C67_mean]
  simp
  ring

end EvalRound

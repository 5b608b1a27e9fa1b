import Verif.Proofs.Float
import Verif.Proofs.L2

/-! # A matrix-vector product in binary64 -/

namespace EvalRound
open Finset SparseDiagonal

/-- the unit roundoff -/
noncomputable def uF : ℝ := 1/2^53

/-- half the smallest positive number -/
noncomputable def etaF : ℝ := 1/2^1075

theorem uF_pos : 0 < uF := by unfold uF; positivity

theorem uF_le : uF ≤ 1/10^9 := by unfold uF; norm_num

theorem etaF_pos : 0 < etaF := by unfold etaF; positivity

theorem etaF_le : etaF ≤ 1/10^9 := by
  have : (1:ℝ)/2^1075 ≤ 1/2^53 := one_div_le_one_div_of_le (by positivity) (pow_le_pow_right₀ (by norm_num) (by norm_num))
  exact this.trans uF_le

theorem fl_near {x : ℝ} (hx : |x| ≤ 2^1020) : Ok (fl x) fun r => |r - x| ≤ uF * |x| + etaF := fl_ok hx

theorem uF_eq : uF = 1/2^53 := rfl

theorem etaF_eq : etaF = 1/2^1075 := rfl

attribute [irreducible] uF etaF

theorem acc_arith {u η E S T T1 T2 s s0 r p q x y s' : ℝ} (hu : 0 ≤ u) (hu2 : u ≤ 1/10^9) (hη : 0 ≤ η)
    (hT1 : |x| ≤ T1) (hT2 : |y| ≤ T2) (hT : T1 + T2 ≤ T) (hs : |s - s0| ≤ E) (hs0 : |s0| ≤ S)
    (h1 : |p - x| ≤ u * |x| + η) (h2 : |q - y| ≤ u * |y| + η) (h3 : |r - (p - q)| ≤ u * |p - q| + η)
    (h4 : |s' - (s + r)| ≤ u * |s + r| + η) :
    |s' - (s0 + (x - y))| ≤ (1 + u) * E + u * S + 3.001 * u * T + 6 * η := by
  have hT10 : 0 ≤ T1 := (abs_nonneg _).trans hT1
  have hT20 : 0 ≤ T2 := (abs_nonneg _).trans hT2
  have hT0 : 0 ≤ T := by linarith
  have h1' : |p - x| ≤ u * T1 + η := by nlinarith
  have h2' : |q - y| ≤ u * T2 + η := by nlinarith
  have m1 : u * T1 + u * T2 ≤ u * T := by nlinarith
  have P : |p - q| ≤ T + u * T + 2 * η := by
    have : p - q = (p - x) - (q - y) + (x - y) := by ring
    rw [this]
    have a1 := abs_add_le ((p - x) - (q - y)) (x - y)
    have a2 := abs_sub (p - x) (q - y)
    have a3 := abs_sub x y
    linarith
  have h3' : |r - (p - q)| ≤ u * (T + u * T + 2 * η) + η := by nlinarith
  have R : |s + r| ≤ S + E + (T + u * T + 2 * η) + u * (T + u * T + 2 * η) + η := by
    have : s + r = (s - s0) + s0 + (r - (p - q)) + (p - q) := by ring
    rw [this]
    have a1 := abs_add_le ((s - s0) + s0 + (r - (p - q))) (p - q)
    have a2 := abs_add_le ((s - s0) + s0) (r - (p - q))
    have a3 := abs_add_le (s - s0) s0
    linarith
  have h4' : |s' - (s + r)| ≤ u * (S + E + (T + u * T + 2 * η) + u * (T + u * T + 2 * η) + η) + η := by nlinarith
  have tot : |s' - (s0 + (x - y))| ≤ |s' - (s + r)| + |s - s0| + |r - (p - q)| + (|p - x| + |q - y|) := by
    have : s' - (s0 + (x - y)) = (s' - (s + r)) + (s - s0) + (r - (p - q)) + ((p - x) - (q - y)) := by ring
    rw [this]
    have a1 := abs_add_le ((s' - (s + r)) + (s - s0) + (r - (p - q))) ((p - x) - (q - y))
    have a2 := abs_add_le ((s' - (s + r)) + (s - s0)) (r - (p - q))
    have a3 := abs_add_le (s' - (s + r)) (s - s0)
    have a4 := abs_sub (p - x) (q - y)
    linarith
  have k1 : 0 ≤ u * T := mul_nonneg hu hT0
  have k2 : u * (u * T) ≤ 1/10^9 * (u * T) := mul_le_mul_of_nonneg_right hu2 k1
  have k20 : 0 ≤ u * (u * T) := mul_nonneg hu k1
  have k3 : u * (u * (u * T)) ≤ 1/10^9 * (u * (u * T)) := mul_le_mul_of_nonneg_right hu2 k20
  have k4 : u * η ≤ 1/10^9 * η := mul_le_mul_of_nonneg_right hu2 hη
  have k40 : 0 ≤ u * η := mul_nonneg hu hη
  have k5 : u * (u * η) ≤ 1/10^9 * (u * η) := mul_le_mul_of_nonneg_right hu2 k40
  have e1 : u * (T + u * T + 2 * η) = u * T + u * (u * T) + 2 * (u * η) := by ring
  have e2 : u * (S + E + (T + u * T + 2 * η) + u * (T + u * T + 2 * η) + η) =
    u * S + u * E + (u * T + u * (u * T) + 2 * (u * η)) + (u * (u * T) + u * (u * (u * T)) + 2 * (u * (u * η))) + u * η := by ring
  rw [e1] at h3'
  rw [e2] at h4'
  have e3 : (1 + u) * E + u * S + 3.001 * u * T + 6 * η = E + u * E + u * S + 3.001 * (u * T) + 6 * η := by ring
  rw [e3]
  linarith

theorem accF_ok {s s0 a x b y E S T : ℝ} (ha : |a| * |x| + |b| * |y| ≤ T) (hs : |s - s0| ≤ E) (hs0 : |s0| ≤ S)
    (hT : T ≤ 2^1010) (hES : S + E ≤ 2^1010) :
    Ok (accF s a x b y) fun r => |r - (s0 + (a * x - b * y))| ≤ (1 + uF) * E + uF * S + 3.001 * uF * T + 6 * etaF := by
  have hu := uF_pos.le
  have hu2 := uF_le
  have hη := etaF_pos.le
  have hη2 := etaF_le
  have p1 := abs_nonneg (a * x)
  have p2 := abs_nonneg (b * y)
  have e1 := abs_mul a x
  have e2 := abs_mul b y
  have hL : (2:ℝ)^1020 = 1024 * 2^1010 := by rw [show 1020 = 10 + 1010 by norm_num, pow_add]; norm_num
  have h1L : (1:ℝ) ≤ 2^1010 := one_le_pow₀ (by norm_num)
  have key : ∀ x r : ℝ, |r - x| ≤ uF * |x| + etaF → |r| ≤ 2 * |x| + 1 := by
    intro x r h
    have := abs_nonneg x
    have a1 := abs_add_le (r - x) x
    rw [sub_add_cancel] at a1
    have : uF * |x| ≤ 1/10^9 * |x| := mul_le_mul_of_nonneg_right hu2 this
    linarith
  unfold accF
  have hL2 : ∀ x : ℝ, |x| ≤ 1024 * 2^1010 → |x| ≤ 2^1020 := fun x h => by rw [hL]; exact h
  clear hL
  generalize (2:ℝ)^1010 = L at *
  refine Ok.bind (fl_near (hL2 _ (by linarith))) fun p hp => ?_
  refine Ok.bind (fl_near (hL2 _ (by linarith))) fun q hq => ?_
  have kp := key _ _ hp
  have kq := key _ _ hq
  have a1 := abs_sub p q
  refine Ok.bind (fl_near (hL2 _ (by linarith))) fun r hr => ?_
  have kr := key _ _ hr
  have a2 := abs_add_le s r
  have a3 := abs_add_le (s - s0) s0
  rw [sub_add_cancel] at a3
  refine Ok.mono (fl_near (hL2 _ (by linarith))) fun t ht => ?_
  exact acc_arith hu hu2 hη e1.le e2.le ha hs hs0 hp hq hr ht

theorem cs_re (c z : ℂ) : |c.re| * |z.re| + |c.im| * |z.im| ≤ ‖c‖ * ‖z‖ := by
  refine abs_le_of_sq_le_sq' (a := |c.re| * |z.re| + |c.im| * |z.im|) ?_ (by positivity) |>.2
  rw [mul_pow, ← Complex.normSq_eq_norm_sq, ← Complex.normSq_eq_norm_sq, Complex.normSq_apply, Complex.normSq_apply]
  have e : ∀ x : ℝ, x * x = |x| * |x| := fun x => (abs_mul_abs_self x).symm
  rw [e c.re, e c.im, e z.re, e z.im]
  nlinarith [sq_nonneg (|c.re| * |z.im| - |c.im| * |z.re|)]

theorem cs_im (c z : ℂ) : |c.re| * |z.im| + |-c.im| * |z.re| ≤ ‖c‖ * ‖z‖ := by
  rw [abs_neg]
  refine abs_le_of_sq_le_sq' (a := |c.re| * |z.im| + |c.im| * |z.re|) ?_ (by positivity) |>.2
  rw [mul_pow, ← Complex.normSq_eq_norm_sq, ← Complex.normSq_eq_norm_sq, Complex.normSq_apply, Complex.normSq_apply]
  have e : ∀ x : ℝ, x * x = |x| * |x| := fun x => (abs_mul_abs_self x).symm
  rw [e c.re, e c.im, e z.re, e z.im]
  nlinarith [sq_nonneg (|c.re| * |z.re| - |c.im| * |z.im|)]

theorem norm_le_two {z : ℂ} {A : ℝ} (h1 : |z.re| ≤ A) (h2 : |z.im| ≤ A) : ‖z‖ ≤ 1.4143 * A := by
  have hA : 0 ≤ A := (abs_nonneg _).trans h1
  refine abs_le_of_sq_le_sq' (a := ‖z‖) ?_ (by positivity) |>.2
  rw [← Complex.normSq_eq_norm_sq, Complex.normSq_apply]
  have e1 := abs_mul_abs_self z.re
  have e2 := abs_mul_abs_self z.im
  have := abs_nonneg z.re
  have := abs_nonneg z.im
  nlinarith

theorem mvpRowF_ok {H : Nat} (hH : H ≤ 2^30) (zr zi : Fin H → ℝ) {Ar Ai : SparseDiagonal H 3}
    (hr : Ar.InRange) (ho : Ar.off = Ai.off) (i : Fin H) {B : ℝ} (hB : B ≤ 2^1000)
    (hrow : ∀ n, ‖rowTerm zr zi Ar Ai i n‖ ≤ B) :
    Ok (mvpRowF zr zi Ar Ai i) fun r => ‖(⟨r.1, r.2⟩ : ℂ) - (denC Ar Ai).mulVec (toC zr zi) i‖ ≤
      7.1 * uF * ∑ n ∈ range 3, ‖rowTerm zr zi Ar Ai i n‖ + 30 * etaF := by
  have hu := uF_pos.le
  have hu2 := uF_le
  have hη := etaF_pos.le
  have hη2 := etaF_le
  have hS0 : ∀ k, 0 ≤ ∑ n ∈ range k, ‖rowTerm zr zi Ar Ai i n‖ := fun k => sum_nonneg fun _ _ => norm_nonneg _
  have hS1 : ∀ k, ∑ n ∈ range k, ‖rowTerm zr zi Ar Ai i n‖ ≤ k * B := by
    intro k
    have := sum_le_card_nsmul (range k) (fun n => ‖rowTerm zr zi Ar Ai i n‖) B fun n _ => hrow n
    rwa [card_range, nsmul_eq_mul] at this
  have hB0 : 0 ≤ B := (norm_nonneg _).trans (hrow 0)
  have hL : (2:ℝ)^1010 = 1024 * 2^1000 := by rw [show 1010 = 10 + 1000 by norm_num, pow_add]; norm_num
  have h1L : (1:ℝ) ≤ 2^1000 := one_le_pow₀ (by norm_num)
  have hL2 : ∀ x : ℝ, x ≤ 1024 * 2^1000 → x ≤ 2^1010 := fun x h => by rw [hL]; exact h
  clear hL
  generalize (2:ℝ)^1000 = L at *
  unfold mvpRowF
  refine Ok.mono (forUp_inv (P := fun k (r : ℝ × ℝ) =>
    |r.1 - (∑ n ∈ range k, rowTerm zr zi Ar Ai i n).re| ≤
      (2 + 1.002 * k) * (uF * ∑ n ∈ range k, ‖rowTerm zr zi Ar Ai i n‖) + 7 * k * etaF ∧
    |r.2 - (∑ n ∈ range k, rowTerm zr zi Ar Ai i n).im| ≤
      (2 + 1.002 * k) * (uF * ∑ n ∈ range k, ‖rowTerm zr zi Ar Ai i n‖) + 7 * k * etaF)
    (Nat.zero_le 3) ?_ ?_) ?_
  · simp
  · rintro k ⟨sr, si⟩ _ hk ⟨h1, h2⟩
    simp only at h1 h2
    have hw := wrapIdx_ok hH (hr ⟨k, hk⟩) i
    rw [rd_of_lt _ hk, pure_bind, rd_of_lt _ hk, pure_bind, ← ho, hw, pure_bind, pure_bind, rd_of_lt _ hk,
      pure_bind, rd_fin, pure_bind, rd_of_lt _ hk, pure_bind, rd_fin, pure_bind, rd_fin, pure_bind, rd_fin, pure_bind]
    have hrt : rowTerm zr zi Ar Ai i k = (⟨Ar.vec ⟨k, hk⟩ i, Ai.vec ⟨k, hk⟩ i⟩ : ℂ) * toC zr zi (shift (Ar.off ⟨k, hk⟩) i) := by
      unfold rowTerm
      rw [dif_pos hk]
    have hn : ‖∑ n ∈ range k, rowTerm zr zi Ar Ai i n‖ ≤ ∑ n ∈ range k, ‖rowTerm zr zi Ar Ai i n‖ := norm_sum_le _ _
    have hre := (Complex.abs_re_le_norm (∑ n ∈ range k, rowTerm zr zi Ar Ai i n)).trans hn
    have him := (Complex.abs_im_le_norm (∑ n ∈ range k, rowTerm zr zi Ar Ai i n)).trans hn
    have c1 := cs_re (⟨Ar.vec ⟨k, hk⟩ i, Ai.vec ⟨k, hk⟩ i⟩ : ℂ) (toC zr zi (shift (Ar.off ⟨k, hk⟩) i))
    have c2 := cs_im (⟨Ar.vec ⟨k, hk⟩ i, Ai.vec ⟨k, hk⟩ i⟩ : ℂ) (toC zr zi (shift (Ar.off ⟨k, hk⟩) i))
    rw [← norm_mul, ← hrt] at c1 c2
    have q0 := hS0 k
    have q1 := hS1 k
    have q2 := hrow k
    have q3 := norm_nonneg (rowTerm zr zi Ar Ai i k)
    have hk3 : (k:ℝ) ≤ 2 := by exact_mod_cast Nat.le_of_lt_succ hk
    have hk0 : (0:ℝ) ≤ k := Nat.cast_nonneg _
    have es : ∑ n ∈ range (k+1), ‖rowTerm zr zi Ar Ai i n‖ = ∑ n ∈ range k, ‖rowTerm zr zi Ar Ai i n‖ + ‖rowTerm zr zi Ar Ai i k‖ :=
      sum_range_succ _ _
    have et : ∑ n ∈ range (k+1), rowTerm zr zi Ar Ai i n = ∑ n ∈ range k, rowTerm zr zi Ar Ai i n + rowTerm zr zi Ar Ai i k :=
      sum_range_succ _ _
    rw [es, et]
    generalize ∑ n ∈ range k, ‖rowTerm zr zi Ar Ai i n‖ = S at *
    generalize ∑ n ∈ range k, rowTerm zr zi Ar Ai i n = s0 at *
    have hBk : (k:ℝ) * B ≤ 2 * B := mul_le_mul_of_nonneg_right hk3 hB0
    have hSL : S ≤ 2 * L := by linarith
    have huS0 : 0 ≤ uF * S := mul_nonneg hu q0
    have huS : uF * S ≤ 1/10^9 * S := mul_le_mul_of_nonneg_right hu2 q0
    have hE : (2 + 1.002 * k) * (uF * S) + 7 * k * etaF ≤ L := by
      have : (2 + 1.002 * (k:ℝ)) * (uF * S) ≤ 5 * (1/10^9 * S) :=
        mul_le_mul (by linarith) huS huS0 (by norm_num)
      have : 7 * (k:ℝ) * etaF ≤ 14 * (1/10^9) := mul_le_mul (by linarith) hη2 hη (by norm_num)
      linarith
    have fin : (1 + uF) * ((2 + 1.002 * k) * (uF * S) + 7 * k * etaF) + uF * S + 3.001 * uF * ‖rowTerm zr zi Ar Ai i k‖ + 6 * etaF ≤
        (2 + 1.002 * ((k+1 : ℕ) : ℝ)) * (uF * (S + ‖rowTerm zr zi Ar Ai i k‖)) + 7 * ((k+1 : ℕ) : ℝ) * etaF := by
      push_cast
      generalize ‖rowTerm zr zi Ar Ai i k‖ = T at *
      have huT0 : 0 ≤ uF * T := mul_nonneg hu q3
      have k1 : 0 ≤ (k:ℝ) * (uF * T) := mul_nonneg hk0 huT0
      have k2 : uF * ((2 + 1.002 * k) * (uF * S)) ≤ 1/10^9 * (5 * (uF * S)) :=
        mul_le_mul hu2 (mul_le_mul_of_nonneg_right (by linarith) huS0) (by positivity) (by norm_num)
      have k3 : uF * (7 * k * etaF) ≤ 1/10^9 * (14 * etaF) :=
        mul_le_mul hu2 (mul_le_mul_of_nonneg_right (by linarith) hη) (by positivity) (by norm_num)
      have e1 : (1 + uF) * ((2 + 1.002 * k) * (uF * S) + 7 * k * etaF) + uF * S + 3.001 * uF * T + 6 * etaF =
        (2 + 1.002 * k) * (uF * S) + 7 * k * etaF + uF * ((2 + 1.002 * k) * (uF * S)) + uF * (7 * k * etaF) + uF * S + 3.001 * (uF * T) + 6 * etaF := by
        ring
      have e2 : (2 + 1.002 * ((k:ℝ) + 1)) * (uF * (S + T)) + 7 * ((k:ℝ) + 1) * etaF =
        (2 + 1.002 * k) * (uF * S) + 1.002 * (uF * S) + 3.002 * (uF * T) + 1.002 * (k * (uF * T)) + 7 * k * etaF + 7 * etaF := by ring
      rw [e1, e2]
      linarith
    have lim : ‖rowTerm zr zi Ar Ai i k‖ ≤ 2^1010 := hL2 _ (by linarith)
    have lim2 : S + ((2 + 1.002 * k) * (uF * S) + 7 * k * etaF) ≤ 2^1010 := hL2 _ (by linarith)
    refine Ok.bind (accF_ok c1 h1 hre lim lim2) fun r1 hr1 => ?_
    refine Ok.bind (accF_ok c2 h2 him lim lim2) fun r2 hr2 => ?_
    refine Ok.pure ⟨?_, ?_⟩
    · simp only []
      refine le_trans (le_of_eq ?_) (hr1.trans fin)
      rw [Complex.add_re, hrt, Complex.mul_re]
      rfl
    · simp only []
      refine le_trans (le_of_eq ?_) (hr2.trans fin)
      rw [Complex.add_im, hrt, Complex.mul_im, neg_mul, sub_neg_eq_add]
      rfl
  · rintro ⟨sr, si⟩ ⟨h1, h2⟩
    rw [← sum_rowTerm zr zi Ar Ai i (fun s _ => congrFun ho s)]
    refine (norm_le_two (z := (⟨sr, si⟩ : ℂ) - ∑ n ∈ range 3, rowTerm zr zi Ar Ai i n) h1 h2).trans ?_
    have q0 := mul_nonneg hu (hS0 3)
    push_cast
    generalize ∑ n ∈ range 3, ‖rowTerm zr zi Ar Ai i n‖ = S at *
    rw [mul_assoc]
    linarith

theorem mvpF_ok {H : Nat} (hH : H ≤ 2^30) (zr zi : Fin H → ℝ) {Ar Ai : SparseDiagonal H 3}
    (hr : Ar.InRange) (ho : Ar.off = Ai.off) {c : ℝ} (hc2 : c ≤ 2)
    (hc : ∀ k i, ‖(⟨Ar.vec k i, Ai.vec k i⟩ : ℂ)‖ ≤ c) (hc0 : 0 ≤ c) (hz : l2 (toC zr zi) ≤ 2^990) :
    Ok (matrix_vector_productF zr zi Ar Ai) fun r =>
      l2 (toC r.1 r.2 - (denC Ar Ai).mulVec (toC zr zi)) ≤ 21.3 * uF * c * l2 (toC zr zi) + H * (30 * etaF) := by
  have hu := uF_pos.le
  have hη := etaF_pos.le
  have hrow : ∀ i n, ‖rowTerm zr zi Ar Ai i n‖ ≤ 2 * 2^990 := by
    intro i n
    unfold rowTerm
    split
    · rw [norm_mul]
      exact mul_le_mul ((hc _ _).trans hc2) ((le_l2 _ _).trans hz) (norm_nonneg _) (by norm_num)
    · rw [norm_zero]; positivity
  have hL : (2:ℝ) * 2^990 ≤ 2^1000 := by
    rw [show 1000 = 10 + 990 by norm_num, pow_add]
    exact mul_le_mul_of_nonneg_right (by norm_num) (by positivity)
  unfold matrix_vector_productF
  refine Ok.bind (tabM_spec (P := fun n (r : ℝ × ℝ) => ∀ h : n < H,
    ‖(⟨r.1, r.2⟩ : ℂ) - (denC Ar Ai).mulVec (toC zr zi) ⟨n, h⟩‖ ≤
      7.1 * uF * ∑ k ∈ range 3, ‖rowTerm zr zi Ar Ai ⟨n, h⟩ k‖ + 30 * etaF) ?_) ?_
  · intro n hn
    exact Ok.mono (mvpRowF_ok hH zr zi hr ho ⟨n, hn⟩ hL (hrow _)) fun r h _ => h
  · intro rows h
    refine Ok.pure ?_
    have h1 : l2 (toC (fun i => (rows i).1) (fun i => (rows i).2) - (denC Ar Ai).mulVec (toC zr zi)) ≤
        l2 ((∑ k : Fin 3, fun i => (((7.1 * uF * ‖(⟨Ar.vec k i, Ai.vec k i⟩ : ℂ)‖ : ℝ) : ℂ)) *
          ((‖toC zr zi (shift (Ar.off k) i)‖ : ℝ) : ℂ)) + fun _ => ((30 * etaF : ℝ) : ℂ)) := by
      refine l2_mono fun i => ?_
      have e := h i i.isLt
      refine e.trans (le_of_eq ?_)
      rw [Pi.add_apply, Finset.sum_apply, Finset.sum_range]
      simp only [← Complex.ofReal_mul, ← Complex.ofReal_add, ← Complex.ofReal_sum]
      rw [Complex.norm_real, Real.norm_eq_abs, abs_of_nonneg (by positivity), mul_sum]
      congr 1
      refine sum_congr rfl fun k _ => ?_
      unfold rowTerm
      rw [dif_pos k.isLt, norm_mul]
      ring
    refine h1.trans ((l2_add_le _ _).trans (add_le_add ?_ ?_))
    · refine (l2_sum_le _ _).trans ((sum_le_sum (g := fun _ => 7.1 * uF * c * l2 (toC zr zi)) fun k _ => ?_).trans (le_of_eq ?_))
      · have := l2_mul_shift_le (s := fun i => (((7.1 * uF * ‖(⟨Ar.vec k i, Ai.vec k i⟩ : ℂ)‖ : ℝ) : ℂ)))
          (x := fun i => ((‖toC zr zi i‖ : ℝ) : ℂ)) (c := 7.1 * uF * c) (by positivity) (fun i => by
            rw [Complex.norm_real, Real.norm_eq_abs, abs_of_nonneg (by positivity)]
            exact mul_le_mul_of_nonneg_left (hc k i) (by positivity)) (Ar.off k)
        refine this.trans (mul_le_mul_of_nonneg_left (l2_mono fun i => ?_) (by positivity))
        rw [Complex.norm_real, norm_norm]
      · rw [sum_const, card_univ, Fintype.card_fin, nsmul_eq_mul]
        push_cast
        ring
    · refine l2_le fun i => ?_
      rw [Complex.norm_real, Real.norm_eq_abs, abs_of_nonneg (by positivity)]

end EvalRound

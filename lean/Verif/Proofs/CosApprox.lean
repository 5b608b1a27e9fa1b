import Verif.Proofs.Poly
import Verif.Model.EvalMod
import Mathlib.Analysis.Real.Pi.Bounds
import Mathlib.Analysis.SpecialFunctions.Trigonometric.Chebyshev.Basic

/-! # The constants of `EvalMod` approximate `cos(3πt)`

Chebyshev series with rational coefficients are lists; the series of the evaluation tree and of a
Taylor polynomial of the cosine are computed and compared coefficient by coefficient. -/

namespace EvalRound
open Finset

/-- `T_k(x)` for a real `x` -/
noncomputable def rT (k : Nat) (x : ℝ) : ℝ := (Polynomial.Chebyshev.T ℝ (k : ℤ)).eval x

/-- the series with coefficients `l`, starting with `T_k` -/
noncomputable def csum (x : ℝ) : List ℚ → Nat → ℝ
  | [], _ => 0
  | c :: l, k => (c : ℝ) * rT k x + csum x l (k+1)

/-- add `v` to entry `i` -/
def bump : Nat → ℚ → List ℚ → List ℚ
  | 0, v, [] => [v]
  | 0, v, c :: l => (c + v) :: l
  | i+1, v, [] => 0 :: bump i v []
  | i+1, v, c :: l => c :: bump i v l

def addL : List ℚ → List ℚ → List ℚ
  | [], b => b
  | a, [] => a
  | c :: a, d :: b => (c + d) :: addL a b

def smulL (v : ℚ) (l : List ℚ) : List ℚ := l.map (v * ·)

/-- the series times `T_a` -/
def mulT (a : Nat) : List ℚ → Nat → List ℚ
  | [], _ => []
  | c :: l, k => bump (k + a) (c / 2) (bump ((k - a) + (a - k)) (c / 2) (mulT a l (k+1)))

def sumAbs : List ℚ → ℚ
  | [] => 0
  | c :: l => |c| + sumAbs l

/-- the series of the evaluation tree -/
def treeL (u : Nat → ℚ) : Nat → Nat → List ℚ
  | 0, n => [u n]
  | j+1, n => addL (treeL u j (2*n)) (mulT (2^j) (treeL u j (2*n+1)) 0)

/-- a rational close to π -/
def piQ : ℚ := 314159265358979323846 / 10^20

/-- Horner scheme for the Taylor polynomial of `cos(3*piQ*t)`, from term `j` on -/
def horL : Nat → Nat → List ℚ
  | _, 0 => []
  | j, f+1 =>
    let h := horL (j+1) f
    bump 0 1 (smulL (-(9 * piQ^2) / ((2*j+1) * (2*j+2)) / 2) (addL h (mulT 2 h 0)))

theorem csum_bump (x : ℝ) (i : Nat) (v : ℚ) : ∀ (l : List ℚ) (k : Nat), csum x (bump i v l) k = csum x l k + v * rT (k + i) x := by
  induction i with
  | zero =>
    intro l k
    cases l with
    | nil => simp [bump, csum]
    | cons c l => simp only [bump, csum, add_zero]; push_cast; ring
  | succ i ih =>
    intro l k
    cases l with
    | nil => simp only [bump, csum]; rw [ih, show k + 1 + i = k + (i+1) by ring]; simp [csum]
    | cons c l => simp only [bump, csum]; rw [ih, show k + 1 + i = k + (i+1) by ring]; ring

theorem csum_addL (x : ℝ) : ∀ (a b : List ℚ) (k : Nat), csum x (addL a b) k = csum x a k + csum x b k
  | [], b, k => by simp [addL, csum]
  | c :: a, [], k => by simp [addL, csum]
  | c :: a, d :: b, k => by
    simp only [addL, csum]
    rw [csum_addL x a b]; push_cast; ring

theorem csum_smulL (x : ℝ) (v : ℚ) : ∀ (l : List ℚ) (k : Nat), csum x (smulL v l) k = v * csum x l k
  | [], k => by simp [smulL, csum]
  | c :: l, k => by
    have := csum_smulL x v l (k+1)
    unfold smulL at this ⊢
    simp only [List.map_cons, csum]
    rw [this]; push_cast; ring

theorem rT_mul (a k : Nat) (x : ℝ) : rT a x * rT k x = rT (k + a) x / 2 + rT ((k - a) + (a - k)) x / 2 := by
  have h := congrArg (Polynomial.eval x) (Polynomial.Chebyshev.T_mul_T ℝ (k : ℤ) (a : ℤ))
  simp only [Polynomial.eval_mul, Polynomial.eval_add, Polynomial.eval_ofNat] at h
  have e : ((((k - a) + (a - k) : Nat)) : ℤ) = ((k : ℤ) - (a : ℤ)).natAbs := by omega
  have e2 : rT ((k - a) + (a - k)) x = (Polynomial.Chebyshev.T ℝ ((k : ℤ) - (a : ℤ))).eval x := by
    unfold rT
    rw [e, Polynomial.Chebyshev.T_natAbs]
  rw [e2]
  unfold rT
  push_cast
  linarith

theorem csum_mulT (x : ℝ) (a : Nat) : ∀ (l : List ℚ) (k : Nat), csum x (mulT a l k) 0 = rT a x * csum x l k
  | [], k => by simp [mulT, csum]
  | c :: l, k => by
    simp only [mulT, csum]
    rw [csum_bump, csum_bump, csum_mulT x a l (k+1), zero_add, zero_add, mul_add, mul_left_comm, rT_mul]
    push_cast; ring

theorem csum_le {x : ℝ} (hx : |x| ≤ 1) : ∀ (l : List ℚ) (k : Nat), |csum x l k| ≤ sumAbs l
  | [], k => by simp [csum, sumAbs]
  | c :: l, k => by
    simp only [csum, sumAbs]
    have h1 := csum_le hx l (k+1)
    have h2 : |rT k x| ≤ 1 := Polynomial.Chebyshev.abs_eval_T_real_le_one (k : ℤ) hx
    refine (abs_add_le _ _).trans ?_
    rw [abs_mul]
    push_cast
    have := mul_le_mul_of_nonneg_left h2 (abs_nonneg (c : ℝ))
    linarith

theorem chebT_real (k : Nat) (x : ℝ) : chebT k (x : ℂ) = (rT k x : ℝ) := by
  unfold chebT rT; simp

theorem treeVal_treeL (u : Nat → ℚ) (x : ℝ) (j : Nat) : ∀ n,
    treeVal (fun i => (u i : ℝ)) (x : ℂ) j n = (csum x (treeL u j n) 0 : ℝ) := by
  induction j with
  | zero => intro n; simp [treeVal, treeL, csum, rT]
  | succ j ih =>
    intro n
    simp only [treeVal, treeL]
    rw [ih, ih, csum_addL, csum_mulT, chebT_real]
    push_cast; ring

theorem rT_two (x : ℝ) : rT 2 x = 2 * x^2 - 1 := by
  have : (Polynomial.Chebyshev.T ℝ ((2 : ℕ) : ℤ)) = 2 * Polynomial.X ^ 2 - 1 := Polynomial.Chebyshev.T_two ℝ
  unfold rT
  rw [this]; simp

/-- the terms of the Taylor series of the cosine -/
noncomputable def cosTerm (z : ℝ) (k : Nat) : ℝ := (-1)^k * z^(2*k) / (2*k).factorial

theorem cosTerm_succ (z : ℝ) (k : Nat) : cosTerm z (k+1) = cosTerm z k * (-(z^2) / ((2*k+1) * (2*k+2))) := by
  unfold cosTerm
  have e : 2 * (k+1) = 2*k+1+1 := by ring
  rw [e, Nat.factorial_succ, Nat.factorial_succ]
  have h1 : ((2*k).factorial : ℝ) ≠ 0 := by positivity
  have h2 : (2*(k:ℝ)+1) ≠ 0 := by positivity
  have h3 : (2*(k:ℝ)+2) ≠ 0 := by positivity
  push_cast
  have h4 : (2*(k:ℝ)+1+1) ≠ 0 := by positivity
  field_simp
  ring

theorem horL_spec (x : ℝ) (f : Nat) : ∀ j, cosTerm (3 * piQ * x) j * csum x (horL j f) 0 =
    ∑ i ∈ range f, cosTerm (3 * piQ * x) (j + i) := by
  induction f with
  | zero => intro j; simp [horL, csum]
  | succ f ih =>
    intro j
    simp only [horL]
    rw [csum_bump, csum_smulL, csum_addL, csum_mulT, sum_range_succ', add_zero]
    have h1 := ih (j+1)
    rw [cosTerm_succ] at h1
    have e : ∑ i ∈ range f, cosTerm (3 * piQ * x) (j + (i+1)) = ∑ i ∈ range f, cosTerm (3 * piQ * x) (j + 1 + i) :=
      sum_congr rfl fun i _ => by rw [show j + (i+1) = j + 1 + i by ring]
    rw [e, ← h1, rT_two]
    have e0 : rT (0+0) x = 1 := by simp [rT]
    rw [e0]
    have h2 : (2*(j:ℝ)+1) ≠ 0 := by positivity
    have h3 : (2*(j:ℝ)+2) ≠ 0 := by positivity
    push_cast
    field_simp
    ring_nf

theorem cos_taylor (z : ℝ) (f : Nat) (hz : |z| / (2*f+1) ≤ 1/2) :
    |Real.cos z - ∑ i ∈ range f, cosTerm z i| ≤ |z|^(2*f) / (2*f).factorial * 2 := by
  have h := Complex.exp_bound' (x := (z : ℂ) * Complex.I) (n := 2*f) (by
    rw [norm_mul, Complex.norm_I, Complex.norm_real, mul_one, Real.norm_eq_abs]
    push_cast; exact hz)
  rw [norm_mul, Complex.norm_I, Complex.norm_real, mul_one, Real.norm_eq_abs] at h
  refine le_trans ?_ h
  have hre : ∀ f : Nat, (∑ m ∈ range (2*f), ((z : ℂ) * Complex.I)^m / m.factorial).re = ∑ i ∈ range f, cosTerm z i := by
    intro f
    induction f with
    | zero => simp
    | succ f ih =>
      rw [show 2 * (f+1) = 2*f+1+1 by ring, sum_range_succ, sum_range_succ, sum_range_succ, Complex.add_re, Complex.add_re, ih]
      have hI : Complex.I ^ (2*f) = (((-1)^f : ℝ) : ℂ) := by rw [pow_mul, Complex.I_sq]; push_cast; rfl
      have a1 : (((z : ℂ) * Complex.I)^(2*f) / (2*f).factorial) = ((cosTerm z f : ℝ) : ℂ) := by
        rw [mul_pow, hI]; unfold cosTerm; push_cast; ring
      have a2 : (((z : ℂ) * Complex.I)^(2*f+1) / (2*f+1).factorial).re = 0 := by
        rw [pow_succ, mul_pow, hI]
        have : (z : ℂ)^(2*f) * (((-1)^f : ℝ) : ℂ) * ((z : ℂ) * Complex.I) / ((2*f+1).factorial : ℂ) =
            ((z^(2*f) * (-1)^f * z / (2*f+1).factorial : ℝ) : ℂ) * Complex.I := by push_cast; ring
        rw [this, Complex.re_ofReal_mul, Complex.I_re, mul_zero]
      rw [a1, a2, Complex.ofReal_re, add_zero]
  have hcos : (Complex.exp ((z : ℂ) * Complex.I)).re = Real.cos z := Complex.exp_ofReal_mul_I_re z
  rw [← hcos, ← hre f, ← Complex.sub_re]
  exact Complex.abs_re_le_norm _

/-- the constants as rationals -/
def evalModQ (i : Nat) : ℚ := (evalModDigits.getD i 0 : ℚ) / 10^17

theorem arr_evalModU : arr evalModU = fun i => (evalModQ i : ℝ) := by
  funext i
  unfold arr evalModQ
  by_cases h : i < 32
  · rw [dif_pos h]; unfold evalModU; push_cast; rfl
  · rw [dif_neg h]
    have : evalModDigits.getD i 0 = 0 := by
      rw [List.getD_eq_getElem?_getD, List.getElem?_eq_none (by show 32 ≤ i; omega)]; rfl
    rw [this]; simp

theorem tree_hor_close : sumAbs (addL (treeL evalModQ 5 0) (smulL (-1) (horL 0 27))) ≤ 232 / 10^16 := by
  decide +kernel

theorem piQ_close : |Real.pi - piQ| ≤ 1 / 10^20 := by
  have h1 := Real.pi_gt_d20
  have h2 := Real.pi_lt_d20
  unfold piQ
  push_cast
  rw [abs_le]
  constructor <;> norm_num at h1 h2 ⊢ <;> linarith

theorem hor_cos {x : ℝ} (hx : |x| ≤ 1) : |csum x (horL 0 27) 0 - Real.cos (3 * Real.pi * x)| ≤ 3 / 10^18 := by
  have hq : (piQ : ℝ) ≤ 3.15 := by unfold piQ; push_cast; norm_num
  have hq0 : (0:ℝ) ≤ piQ := by unfold piQ; push_cast; norm_num
  have h1 := horL_spec x 27 0
  have e0 : cosTerm (3 * piQ * x) 0 = 1 := by simp [cosTerm]
  rw [e0, one_mul] at h1
  simp only [zero_add] at h1
  have hz : |3 * (piQ:ℝ) * x| ≤ 9.45 := by
    rw [abs_mul, abs_of_nonneg (by positivity)]
    have := mul_le_mul_of_nonneg_left hx (show (0:ℝ) ≤ 3 * piQ by positivity)
    linarith
  have h2 := cos_taylor (3 * piQ * x) 27 (by
    rw [div_le_iff₀ (by norm_num)]; push_cast; linarith)
  rw [← h1] at h2
  have h3 : |3 * (piQ:ℝ) * x|^(2*27) / (2*27).factorial * 2 ≤ 2 / 10^18 := by
    have a := pow_le_pow_left₀ (abs_nonneg _) hz (2*27)
    have b : (0:ℝ) < ((2*27).factorial : ℝ) := by positivity
    have c : (9.45:ℝ)^(2*27) * 10^18 ≤ (2*27).factorial := by
      have e : Nat.factorial (2*27) = 230843697339241380472092742683027581083278564571807941132288000000000000 := by
        decide +kernel
      rw [e]; norm_num
    rw [← div_le_div_iff_of_pos_right (show (0:ℝ) < 2 by norm_num), mul_div_assoc, div_self (by norm_num), mul_one,
      div_le_iff₀ b]
    have d : (9.45:ℝ)^(2*27) ≤ (2*27).factorial / 10^18 := by rw [le_div_iff₀ (by positivity)]; exact c
    calc _ ≤ _ := a
      _ ≤ _ := d
      _ = _ := by ring
  have h4 : |Real.cos (3 * piQ * x) - Real.cos (3 * Real.pi * x)| ≤ 3 / 10^20 := by
    refine (Real.abs_cos_sub_cos_le _ _).trans ?_
    rw [show 3 * (piQ:ℝ) * x - 3 * Real.pi * x = -(3 * x * (Real.pi - piQ)) by ring, abs_neg, abs_mul, abs_mul,
      abs_of_pos (show (0:ℝ) < 3 by norm_num)]
    have := mul_le_mul hx piQ_close (abs_nonneg _) zero_le_one
    linarith
  have e : csum x (horL 0 27) 0 - Real.cos (3 * Real.pi * x) =
      -(Real.cos (3 * piQ * x) - csum x (horL 0 27) 0) + (Real.cos (3 * piQ * x) - Real.cos (3 * Real.pi * x)) := by ring
  rw [e]
  refine (abs_add_le _ _).trans ?_
  rw [abs_neg]
  refine (add_le_add (h2.trans h3) h4).trans ?_
  norm_num

/-- the tree with the constants of `EvalMod` is `cos(3πx)` up to `2.33*10^-14` -/
theorem tree_cos_sharp {x : ℝ} (hx : |x| ≤ 1) :
    ‖treeVal (arr evalModU) (x : ℂ) 5 0 - (Real.cos (3 * Real.pi * x) : ℝ)‖ ≤ 233 / 10^16 := by
  rw [arr_evalModU, treeVal_treeL, ← Complex.ofReal_sub, Complex.norm_real, Real.norm_eq_abs]
  have h1 := csum_le hx (addL (treeL evalModQ 5 0) (smulL (-1) (horL 0 27))) 0
  rw [csum_addL, csum_smulL] at h1
  have h2 : ((sumAbs (addL (treeL evalModQ 5 0) (smulL (-1) (horL 0 27))) : ℚ) : ℝ) ≤ ((232 / 10^16 : ℚ) : ℝ) :=
    Rat.cast_le.2 tree_hor_close
  have h3 := hor_cos hx
  have e : csum x (treeL evalModQ 5 0) 0 - Real.cos (3 * Real.pi * x) =
      (csum x (treeL evalModQ 5 0) 0 + ((-1 : ℚ) : ℝ) * csum x (horL 0 27) 0) +
      (csum x (horL 0 27) 0 - Real.cos (3 * Real.pi * x)) := by push_cast; ring
  rw [e]
  refine (abs_add_le _ _).trans ((add_le_add (h1.trans h2) h3).trans ?_)
  push_cast
  norm_num

theorem tree_cos {x : ℝ} (hx : |x| ≤ 1) :
    ‖treeVal (arr evalModU) (x : ℂ) 5 0 - (Real.cos (3 * Real.pi * x) : ℝ)‖ ≤ 4 / 10^14 :=
  (tree_cos_sharp hx).trans (by norm_num)

end EvalRound

import Verif.Proofs.FloatEndecode

/-! # `decode` in binary64, one coefficient -/

namespace EvalRound
open Z_Q

/-- the value of `power` before iteration `j` -/
noncomputable def powerAt (j : Nat) : Option ℝ := if j ≤ 15 then some (2^(64*j)) else none

theorem rnd_pow (k : Nat) : rnd ((2:ℝ)^k) = 2^k :=
  rnd_exact (k := 1) (e := k) (by norm_num) (by omega) (by rw [zpow_natCast]; norm_num)

theorem mulBeta_powerAt (j : Nat) : mulBeta (powerAt j) = powerAt (j+1) := by
  unfold powerAt
  by_cases h : j ≤ 15
  · rw [if_pos h]
    have e : (2:ℝ)^(64*j) * 2^64 = 2^(64*(j+1)) := by rw [← pow_add]; congr 1
    simp only [mulBeta]
    rw [e, rnd_pow, abs_of_pos (by positivity)]
    by_cases h2 : j + 1 ≤ 15
    · rw [if_pos (pow_lt_pow_right₀ (by norm_num) (by omega)), if_pos h2]
    · rw [if_neg (not_lt.2 (pow_le_pow_right₀ (by norm_num) (by omega))), if_neg h2]
  · rw [if_neg h, if_neg (by omega)]
    rfl

/-- one term of the sum -/
theorem decodeTermF_spec {Delta w : W} (hD : Delta ≠ 0) {j : Nat} (hj : j ≤ 15) (hb : (w.toNat : ℝ) * 2^(64*j) ≤ 2^1000) :
    Ok (decodeTermF Delta w (powerAt j)) fun y => 0 ≤ y ∧
      |y - (w.toNat : ℝ) * 2^(64*j) / Delta.toNat| ≤ 4.01 * uF * ((w.toNat : ℝ) * 2^(64*j) / Delta.toNat) + 4 * etaF := by
  have hu := uF_pos.le
  have hu2 := uF_le
  have hη := etaF_pos.le
  have hη2 := etaF_le_uF
  have hΔ1 : (1:ℝ) ≤ Delta.toNat := by
    have : Delta.toNat ≠ 0 := fun h => hD (BitVec.eq_of_toNat_eq (by simpa using h))
    exact_mod_cast Nat.pos_of_ne_zero this
  unfold powerAt
  rw [if_pos hj]
  simp only [decodeTermF]
  have hp : (1:ℝ) ≤ 2^(64*j) := one_le_pow₀ (by norm_num)
  have hw0 : (0:ℝ) ≤ w.toNat := Nat.cast_nonneg _
  generalize hpp : (2:ℝ)^(64*j) = p at *
  refine Ok.bind (fl_word w) fun y1 ⟨h10, h1⟩ => ?_
  have hy1p : |y1 * p - w.toNat * p| ≤ 1.0001 * uF * (w.toNat * p) := by
    rw [← sub_mul, abs_mul, abs_of_pos (show 0 < p by linarith)]
    refine (mul_le_mul_of_nonneg_right h1 (by linarith)).trans (le_of_eq (by ring))
  have hy10 : 0 ≤ y1 * p := mul_nonneg h10 (by linarith)
  generalize y1 * p = Y1 at *
  have hW0 : 0 ≤ (w.toNat : ℝ) * p := by positivity
  generalize (w.toNat : ℝ) * p = X at *
  have huX : 0 ≤ uF * X := mul_nonneg hu hW0
  have huX2 : uF * X ≤ 1/10^9 * X := mul_le_mul_of_nonneg_right hu2 hW0
  have hY1 : Y1 ≤ 2^1020 := by
    have : Y1 ≤ 2 * X := by have := (abs_le.1 hy1p).2; linarith
    have h3 : (2:ℝ) * 2^1000 ≤ 2^1020 := by
      rw [show (2:ℝ) * 2^1000 = 2^1001 by rw [pow_succ (2:ℝ) 1000, mul_comm]]
      exact pow_le_pow_right₀ (by norm_num) (by norm_num)
    refine this.trans (le_trans ?_ h3)
    exact mul_le_mul_of_nonneg_left hb (by norm_num)
  refine Ok.bind (fl_near0 hy10 hY1) fun y2 ⟨h20, h2⟩ => ?_
  refine Ok.bind (fl_word Delta) fun d ⟨hd0, hd⟩ => ?_
  generalize (Delta.toNat : ℝ) = Δ at *
  have huΔ : uF * Δ ≤ 1/10^9 * Δ := mul_le_mul_of_nonneg_right hu2 (by linarith)
  have hd2 := abs_le.1 hd
  have hdp : 0 < d := by linarith
  rw [if_neg hdp.ne']
  have hΔ0 : 0 < Δ := by linarith
  have hy2 : |y2 - X| ≤ 2.001 * (uF * X) + etaF := by
    have k1 := abs_add_le (y2 - Y1) (Y1 - X)
    rw [sub_add_sub_cancel] at k1
    have k2 : uF * Y1 ≤ uF * (1.0001 * X) := mul_le_mul_of_nonneg_left (by have := (abs_le.1 hy1p).2; linarith) hu
    linarith
  have hq : |y2 / d - X / Δ| ≤ 3.002 * (uF * (X / Δ)) + 1.01 * etaF := by
    have e : y2 / d - X / Δ = ((y2 - X) + (X / Δ) * (Δ - d)) / d := by field_simp; ring
    have hXΔ : 0 ≤ X / Δ := by positivity
    have k1 : |(y2 - X) + (X / Δ) * (Δ - d)| ≤ 3.0012 * (uF * X) + etaF := by
      have a1 := abs_add_le (y2 - X) ((X / Δ) * (Δ - d))
      have a2 : |(X / Δ) * (Δ - d)| ≤ 1.0001 * (uF * X) := by
        rw [abs_mul, abs_of_nonneg hXΔ, abs_sub_comm]
        refine (mul_le_mul_of_nonneg_left hd hXΔ).trans (le_of_eq ?_)
        field_simp
      linarith
    rw [e, abs_div, abs_of_pos hdp, div_le_iff₀ hdp]
    refine k1.trans ?_
    have k3 : 0.99999 * Δ ≤ d := by linarith
    have k4 : (3.002 * (uF * (X / Δ)) + 1.01 * etaF) * (0.99999 * Δ) ≤ (3.002 * (uF * (X / Δ)) + 1.01 * etaF) * d :=
      mul_le_mul_of_nonneg_left k3 (by positivity)
    have k5 : (3.002 * (uF * (X / Δ)) + 1.01 * etaF) * (0.99999 * Δ) = 3.002 * 0.99999 * (uF * X) + 1.01 * 0.99999 * (etaF * Δ) := by
      field_simp
    have k6 : etaF ≤ etaF * Δ := by nlinarith
    linarith
  have hq0 : 0 ≤ y2 / d := by positivity
  have hXΔ0 : 0 ≤ X / Δ := by positivity
  have hXΔ : X / Δ ≤ X := by rw [div_le_iff₀ hΔ0]; nlinarith
  have huq : 0 ≤ uF * (X / Δ) := mul_nonneg hu hXΔ0
  have huq2 : uF * (X / Δ) ≤ 1/10^9 * (X / Δ) := mul_le_mul_of_nonneg_right hu2 hXΔ0
  generalize y2 / d = q at *
  generalize X / Δ = V at *
  have hqb : q ≤ 1.0001 * V + 2 * etaF := by have := (abs_le.1 hq).2; linarith
  have hq1020 : q ≤ 2^1020 := by
    have h3 : (2:ℝ) * 2^1000 ≤ 2^1020 := by
      rw [show (2:ℝ) * 2^1000 = 2^1001 by rw [pow_succ (2:ℝ) 1000, mul_comm]]
      exact pow_le_pow_right₀ (by norm_num) (by norm_num)
    refine le_trans ?_ h3
    have h4 : (1:ℝ) ≤ 2^1000 := one_le_pow₀ (by norm_num)
    clear hY1 h3
    generalize (2:ℝ)^1000 = T at *
    linarith
  refine Ok.mono (fl_near0 hq0 hq1020) fun r ⟨hr0, hr⟩ => ⟨hr0, ?_⟩
  have k1 := abs_add_le (r - q) (q - V)
  rw [sub_add_sub_cancel] at k1
  have k2 : uF * q ≤ uF * (1.0001 * V + 2 * etaF) := mul_le_mul_of_nonneg_left hqb hu
  have k3 : uF * etaF ≤ 1/10^9 * etaF := mul_le_mul_of_nonneg_right hu2 hη
  rw [mul_add] at k2
  clear hq1020 hb hY1
  linarith

theorem lv_mono {n : Nat} (a : Fin n → W) {j k : Nat} (h : j ≤ k) : lv a j ≤ lv a k := by
  induction k, h using Nat.le_induction with
  | base => exact le_rfl
  | succ k _ ih => rw [lv_succ]; omega

theorem sum_arith {u η m S y T r k : ℝ} (hu : 0 ≤ u) (hu2 : u ≤ 1/10^9) (hη : 0 ≤ η) (hS : 0 ≤ S) (hT : S ≤ T) (hk : 0 ≤ k) (hk2 : k ≤ 16)
    (hm : |m - S| ≤ 6.1 * u * S + k * (8 * η)) (hy : |y - T| ≤ 4.01 * u * T + 4 * η) (hr : |r - (m + y)| ≤ u * (m + y) + η) :
    |r - (S + T)| ≤ 6.1 * u * (S + T) + (k + 1) * (8 * η) := by
  have h1 := (abs_le.1 hm).2
  have h2 := (abs_le.1 hy).2
  have uS : 0 ≤ u * S := mul_nonneg hu hS
  have uT : u * S ≤ u * T := mul_le_mul_of_nonneg_left hT hu
  have uS2 : u * S ≤ 1/10^9 * S := mul_le_mul_of_nonneg_right hu2 hS
  have uT2 : u * T ≤ 1/10^9 * T := mul_le_mul_of_nonneg_right hu2 (hS.trans hT)
  have uη : u * η ≤ 1/10^9 * η := mul_le_mul_of_nonneg_right hu2 hη
  have kη : k * (8 * η) ≤ 16 * (8 * η) := mul_le_mul_of_nonneg_right hk2 (by positivity)
  have h3 : u * (m + y) ≤ u * (1.0001 * (S + T) + 200 * η) := mul_le_mul_of_nonneg_left (by linarith) hu
  have h4 := abs_add_le (r - (m + y)) ((m - S) + (y - T))
  have h5 := abs_add_le (m - S) (y - T)
  rw [show r - (m + y) + ((m - S) + (y - T)) = r - (S + T) by ring] at h4
  have e1 : u * (1.0001 * (S + T) + 200 * η) = 1.0001 * (u * S) + 1.0001 * (u * T) + 200 * (u * η) := by ring
  have e2 : 6.1 * u * (S + T) + (k + 1) * (8 * η) = 6.1 * (u * S) + 6.1 * (u * T) + k * (8 * η) + 8 * η := by ring
  rw [e1] at h3
  rw [e2]
  linarith

variable {Q : Nat} [NeZero Q]

/-- The loop body of `decode`: a relative error of a few units of rounding. -/
theorem decodeCoeffF_spec {x : Z_Q Q} (hx : x.Canonical) {Delta : W} (hD : Delta ≠ 0) (hb : |(x.sval : ℝ)| ≤ 2^950) :
    Ok (decodeCoeffF Delta x) fun m => |m - (x.sval : ℝ) / Delta.toNat| ≤ 7 * uF * |(x.sval : ℝ) / Delta.toNat| + 2^60 * etaF := by
  have hu := uF_pos.le
  have hu2 := uF_le
  have hη := etaF_pos.le
  have hη2 := etaF_le_uF
  have hΔ1 : (1:ℝ) ≤ Delta.toNat := by
    have : Delta.toNat ≠ 0 := fun h => hD (BitVec.eq_of_toNat_eq (by simpa using h))
    exact_mod_cast Nat.pos_of_ne_zero this
  have hΔ0 : (0:ℝ) < Delta.toNat := by linarith
  unfold decodeCoeffF
  have ha := abs_val hx
  generalize (if x.is_bigger_than_halfQ then negate (copy x) else copy x) = a at ha
  simp only []
  have hav : (a.val : ℝ) = |(x.sval : ℝ)| := by rw [ha.1, Nat.cast_natAbs, Int.cast_abs]
  have hlv : ∀ j, j ≤ nlimb Q → lv a.data j ≤ a.val := by
    intro j hj
    exact lv_mono a.data hj
  refine Ok.bind (forUp_inv (lo := 0) (hi := nlimb Q) (s := ((0:ℝ), some (1:ℝ)))
    (body := fun j (s : ℝ × Option ℝ) => do
      let w ← rd a.data j
      let m ← if w ≠ 0 then do
          let y ← decodeTermF Delta w s.2
          fl (s.1 + y)
        else pure s.1
      pure (m, mulBeta s.2)) (Nat.zero_le _)
    (P := fun j s => s.2 = powerAt j ∧ 0 ≤ s.1 ∧
      |s.1 - (lv a.data j : ℝ) / Delta.toNat| ≤ 6.1 * uF * ((lv a.data j : ℝ) / Delta.toNat) + (min j 16 : ℕ) * (8 * etaF))
    ⟨rfl, le_rfl, by simp⟩ ?_) fun s ⟨_, hs0, hs⟩ => Ok.pure ?_
  · rintro j ⟨m, pw⟩ _ hj ⟨hpw, hm0, hm⟩
    simp only at hpw hm0 hm ⊢
    subst hpw
    rw [rd_of_lt a.data hj, pure_bind]
    have els : (lv a.data (j+1) : ℝ) / Delta.toNat = (lv a.data j : ℝ) / Delta.toNat + ((a.data ⟨j, hj⟩).toNat : ℝ) * 2^(64*j) / Delta.toNat := by
      rw [lv_succ, dig_of_lt _ hj]
      push_cast
      ring
    rw [els]
    by_cases hw : a.data ⟨j, hj⟩ = 0
    · rw [if_neg (not_not.2 hw), pure_bind, hw]
      refine Ok.pure ⟨mulBeta_powerAt j, hm0, ?_⟩
      have : ((min j 16 : ℕ) : ℝ) ≤ (min (j+1) 16 : ℕ) := by exact_mod_cast min_le_min_right 16 (Nat.le_succ j)
      have := mul_le_mul_of_nonneg_right this (show 0 ≤ 8 * etaF by positivity)
      simp only [BitVec.toNat_zero, BitVec.ofNat_eq_ofNat, BitVec.toNat_ofNat, Nat.zero_mod, Nat.cast_zero, zero_mul, zero_div, add_zero]
      linarith
    · have hw1 : 1 ≤ (a.data ⟨j, hj⟩).toNat := by
        rcases Nat.eq_zero_or_pos (a.data ⟨j, hj⟩).toNat with h | h
        · exact absurd (BitVec.eq_of_toNat_eq (by simpa using h)) hw
        · exact h
      have hterm : (a.data ⟨j, hj⟩).toNat * 2^(64*j) ≤ a.val := by
        have h5 := hlv (j+1) hj
        rw [lv_succ, dig_of_lt _ hj] at h5
        omega
      have htermR : ((a.data ⟨j, hj⟩).toNat : ℝ) * 2^(64*j) ≤ 2^950 := by
        refine le_trans ?_ hb
        rw [← hav]
        exact_mod_cast hterm
      have hj15 : j ≤ 15 := by
        by_contra hlt
        have h6 : (2:ℝ)^1024 ≤ ((a.data ⟨j, hj⟩).toNat : ℝ) * 2^(64*j) := by
          have h7 : (2:ℝ)^1024 ≤ 2^(64*j) := pow_le_pow_right₀ (by norm_num) (by omega)
          have h8 : (1:ℝ) ≤ ((a.data ⟨j, hj⟩).toNat : ℝ) := by exact_mod_cast hw1
          refine h7.trans ?_
          exact le_mul_of_one_le_left (by positivity) h8
        have h9 : (2:ℝ)^950 < 2^1024 := pow_lt_pow_right₀ (by norm_num) (by norm_num)
        exact absurd (h6.trans htermR) (not_le.2 h9)
      rw [if_pos hw]
      refine Ok.bind (decodeTermF_spec hD hj15 (htermR.trans (pow_le_pow_right₀ (by norm_num) (by norm_num)))) fun y ⟨hy0, hy⟩ => ?_
      have hS0 : 0 ≤ (lv a.data j : ℝ) / Delta.toNat := by positivity
      have hST : (lv a.data j : ℝ) / Delta.toNat ≤ ((a.data ⟨j, hj⟩).toNat : ℝ) * 2^(64*j) / Delta.toNat := by
        refine div_le_div_of_nonneg_right ?_ hΔ0.le
        have h5 : lv a.data j ≤ (a.data ⟨j, hj⟩).toNat * 2^(64*j) :=
          (lv_lt a.data j).le.trans (Nat.le_mul_of_pos_left _ hw1)
        exact_mod_cast h5
      have hTb : ((a.data ⟨j, hj⟩).toNat : ℝ) * 2^(64*j) / Delta.toNat ≤ 2^950 := by
        refine (div_le_self (by positivity) hΔ1).trans htermR
      clear hterm htermR els
      have hk16 : ((min j 16 : ℕ) : ℝ) ≤ 16 := by exact_mod_cast min_le_right j 16
      have ek : ((min (j+1) 16 : ℕ) : ℝ) = (min j 16 : ℕ) + 1 := by
        rw [min_eq_left (by omega), min_eq_left (by omega)]
        push_cast
        rfl
      have hk0 : (0:ℝ) ≤ (min j 16 : ℕ) := Nat.cast_nonneg _
      rw [ek]
      generalize ((min j 16 : ℕ) : ℝ) = k at *
      generalize (lv a.data j : ℝ) / Delta.toNat = S at *
      generalize ((a.data ⟨j, hj⟩).toNat : ℝ) * 2^(64*j) / Delta.toNat = T at *
      have hmy : m + y ≤ 2^1020 := by
        have h950 : (1:ℝ) ≤ 2^950 := one_le_pow₀ (by norm_num)
        have h1020 : (2:ℝ)^20 * 2^950 ≤ 2^1020 := by rw [← pow_add]; exact pow_le_pow_right₀ (by norm_num) (by norm_num)
        refine le_trans ?_ h1020
        have k1 := (abs_le.1 hm).2
        have k2 := (abs_le.1 hy).2
        have k3 : uF * S ≤ 1/10^9 * S := mul_le_mul_of_nonneg_right hu2 hS0
        have k4 : uF * T ≤ 1/10^9 * T := mul_le_mul_of_nonneg_right hu2 (hS0.trans hST)
        have k5 : k * (8 * etaF) ≤ 16 * (8 * etaF) := mul_le_mul_of_nonneg_right hk16 (by positivity)
        clear h1020 hb
        generalize (2:ℝ)^950 = P at *
        linarith
      refine Ok.bind (fl_near0 (add_nonneg hm0 hy0) hmy) fun r ⟨hr0, hr⟩ => Ok.pure ⟨mulBeta_powerAt j, hr0, ?_⟩
      exact sum_arith hu hu2 hη hS0 hST hk0 hk16 hm hy hr
  · have e : (lv a.data (nlimb Q) : ℝ) / Delta.toNat = |(x.sval : ℝ) / Delta.toNat| := by
      rw [abs_div, abs_of_pos hΔ0, ← hav]
      rfl
    rw [e] at hs
    have hsg : ∀ y : ℝ, |(if x.is_bigger_than_halfQ = true then -y else y) - (x.sval : ℝ) / Delta.toNat| =
        abs (y - abs ((x.sval : ℝ) / Delta.toNat)) := by
      intro y
      have h := ha.2.2
      split
      · rename_i hbig
        have : (x.sval : ℝ) / Delta.toNat < 0 := div_neg_of_neg_of_pos (by exact_mod_cast h.1 hbig) hΔ0
        rw [abs_of_neg this, ← abs_neg]
        congr 1
        ring
      · rename_i hbig
        have : 0 ≤ x.sval := by
          by_contra hlt
          exact hbig (h.2 (by omega))
        have : 0 ≤ (x.sval : ℝ) / Delta.toNat := div_nonneg (by exact_mod_cast this) hΔ0.le
        rw [abs_of_nonneg this]
    rw [hsg]
    have hk16 : ((min (nlimb Q) 16 : ℕ) : ℝ) ≤ 16 := by exact_mod_cast min_le_right _ 16
    have k5 : ((min (nlimb Q) 16 : ℕ) : ℝ) * (8 * etaF) ≤ 16 * (8 * etaF) := mul_le_mul_of_nonneg_right hk16 (by positivity)
    have k6 : 0 ≤ uF * |(x.sval : ℝ) / Delta.toNat| := mul_nonneg hu (abs_nonneg _)
    clear hb
    linarith

theorem exists_val {v : Nat} (hv : v < 2^Q) : ∃ x : Z_Q Q, x.Canonical ∧ x.val = v := by
  have key : ∀ k, k ≤ nlimb Q → lv (fun i : Fin (nlimb Q) => BitVec.ofNat 64 (v / 2^(64*i.val))) k = v % 2^(64*k) := by
    intro k
    induction k with
    | zero => intro _; simp [Nat.mod_one]
    | succ k ih =>
      intro hk
      rw [lv_succ, ih (by omega), dig_of_lt _ (show k < nlimb Q by omega), BitVec.toNat_ofNat, mul_add 64, pow_add, Nat.mod_mul, mul_one,
        mul_comm (2^(64*k))]
  refine ⟨⟨fun i => BitVec.ofNat 64 (v / 2^(64*i.val))⟩, ?_, ?_⟩ <;>
  · have h := key (nlimb Q) le_rfl
    have h2 : 2^Q ≤ 2^(64 * nlimb Q) := Nat.pow_le_pow_right (by norm_num) (lim_bounds Q).2.1
    rw [Nat.mod_eq_of_lt (by omega)] at h
    first
    | exact h
    | exact lt_of_le_of_lt (le_of_eq h) hv

theorem forUp_ub {σ : Type} {body : Nat → σ → M σ} {lo hi k : Nat} {s : σ} (h1 : lo ≤ k) (h2 : k < hi) (P : Nat → σ → Prop) (h0 : P lo s)
    (hs : ∀ i s, lo ≤ i → i < k → P i s → body i s = ub ∨ Ok (body i s) (P (i+1))) (hk : ∀ s, P k s → body k s = ub) :
    forUp lo hi body s = ub := by
  have key : ∀ c lo' s, lo ≤ lo' → lo' ≤ k → k < lo' + c → P lo' s → forFrom body lo' c s = ub := by
    intro c
    induction c with
    | zero => intro lo' s _ _ _ _; omega
    | succ c ih =>
      intro lo' s a1 a2 a3 hP
      show (body lo' s >>= fun s => forFrom body (lo'+1) c s) = ub
      rcases Nat.eq_or_lt_of_le a2 with rfl | hlt
      · rw [hk s hP]; rfl
      · rcases hs lo' s a1 hlt hP with e | ⟨s', e, hP'⟩
        · rw [e]; rfl
        · rw [e, pure_bind]
          exact ih (lo'+1) s' (by omega) hlt (by omega) hP'
  exact key (hi - lo) lo s le_rfl h1 (by omega) h0

/-- either undefined or a value -/
def UbOr {α : Type} (x : M α) : Prop := x = ub ∨ ∃ a, x = pure a

theorem UbOr.bind {α β : Type} {x : M α} {f : α → M β} (hx : UbOr x) (hf : ∀ a, UbOr (f a)) : UbOr (x >>= f) := by
  rcases hx with e | ⟨a, e⟩
  · left; rw [e]; rfl
  · rw [e, pure_bind]; exact hf a

theorem UbOr.fl (x : ℝ) : UbOr (fl x) := by
  unfold EvalRound.fl
  split
  · exact Or.inr ⟨_, rfl⟩
  · exact Or.inl rfl

theorem UbOr.term (Delta w : W) (p : Option ℝ) : UbOr (decodeTermF Delta w p) := by
  cases p with
  | none => exact Or.inl rfl
  | some p =>
    refine (UbOr.fl _).bind fun y => (UbOr.fl _).bind fun y => (UbOr.fl _).bind fun d => ?_
    split
    · exact Or.inl rfl
    · exact UbOr.fl _

/-- a coefficient of `2^1024` or more overflows -/
theorem decodeCoeffF_ub {x : Z_Q Q} (hx : x.Canonical) (Delta : W) (hb : 2^1024 ≤ |x.sval|) : decodeCoeffF Delta x = ub := by
  unfold decodeCoeffF
  have ha := abs_val hx
  generalize (if x.is_bigger_than_halfQ then negate (copy x) else copy x) = a at ha
  simp only []
  have hval : 2^1024 ≤ a.val := by
    rw [ha.1]
    have := hb
    rw [Int.abs_eq_natAbs] at this
    exact_mod_cast this
  obtain ⟨k, hk16, hk⟩ : ∃ k : Fin (nlimb Q), 16 ≤ k.val ∧ a.data k ≠ 0 := by
    by_contra hno
    push Not at hno
    have h := lv_eq_of_zero_above a.data (k := 16) (by
      intro i hi
      by_cases e : i < nlimb Q
      · rw [dig_of_lt _ e, hno ⟨i, e⟩ hi]; rfl
      · exact dig_of_ge _ (by omega))
    have h2 := lv_lt a.data 16
    have h3 : a.val ≤ lv a.data 16 := by
      have h4 : a.val = lv a.data (nlimb Q) := rfl
      by_cases h5 : nlimb Q ≤ 16
      · rw [h4]; exact lv_mono a.data h5
      · rw [Nat.min_eq_left (by omega)] at h
        rw [h4, h]
    exact absurd (hval.trans h3) (not_le.2 h2)
  rw [forUp_ub (k := k.val) (Nat.zero_le _) k.isLt (P := fun j s => s.2 = powerAt j) rfl ?_ ?_]
  · rfl
  · rintro i ⟨m, pw⟩ _ hi hP
    simp only at hP
    subst hP
    have hin : i < nlimb Q := hi.trans k.isLt
    rw [rd_of_lt a.data hin, pure_bind]
    split
    · rcases (UbOr.term Delta (a.data ⟨i, hin⟩) (powerAt i)).bind (fun y => UbOr.fl (m + y)) with e | ⟨v, e⟩
      · left
        rw [← bind_assoc, e]
        rfl
      · right
        rw [← bind_assoc, e, pure_bind]
        exact Ok.pure (mulBeta_powerAt i)
    · right
      exact Ok.pure (mulBeta_powerAt i)
  · rintro ⟨m, pw⟩ hP
    simp only at hP
    subst hP
    rw [rd_of_lt a.data k.isLt, pure_bind, if_pos hk]
    have : powerAt k.val = none := by unfold powerAt; rw [if_neg (by omega)]
    rw [this]
    rfl

section
variable {n : Nat} {L : Libm}
open Finset

set_option maxHeartbeats 1000000 in
theorem fftF_of_coeff (hL : L.Accurate) (h1 : 1 ≤ n) (hn : n ≤ 26) {m c : Fin (2^(n+1)) → ℝ} (hc2 : ∀ k, |c k| ≤ 2^900)
    (hm : ∀ k, |m k - c k| ≤ 7 * uF * |c k| + 2^60 * etaF) :
    Ok (fftF L (n+1) m) fun z => l2 (toC (n := 2^n) z.1 z.2 - fun i : Fin (2^n) => slotOf c i) ≤
      Real.sqrt 2 ^ n * ((28 * n + 8) * uF * l2 (pairC n c) + 2^80 * etaF) := by
  have hu := uF_pos.le
  have hu2 := uF_le
  have hη := etaF_pos.le
  have hη2 := etaF_le_uF
  have hθ := thF_le hn
  have hθ0 := thF_nonneg n
  have hn' : (n:ℝ) ≤ 26 := by exact_mod_cast hn
  have hn0 : (0:ℝ) ≤ n := Nat.cast_nonneg _
  have hs := sqrt2_succ hn
  have hd := pair_scale (a := fun k => m k - c k) (b := c) (e := 2^60 * etaF) (by positivity) (by positivity) hm
  have hX0 := l2_nonneg (pairC n c)
  have ha := pair_add (fun k => m k - c k) c
  simp only [sub_add_cancel] at ha
  have hsη : Real.sqrt 2 ^ (n+1) * (2^60 * etaF) ≤ 2^14 * (2^60 * etaF) := mul_le_mul_of_nonneg_right hs (by positivity)
  have huX : 0 ≤ uF * l2 (pairC n c) := mul_nonneg hu hX0
  have huX2 : uF * l2 (pairC n c) ≤ 1/10^9 * l2 (pairC n c) := mul_le_mul_of_nonneg_right hu2 hX0
  have hcl : l2 (pairC n c) ≤ 2^14 * 2^900 := by
    have := pair_scale (n := n) (a := c) (b := fun _ => 0) (c := 0) (e := 2^900) le_rfl (by positivity) fun k => by
      rw [zero_mul, zero_add]; exact hc2 k
    rw [zero_mul, zero_add] at this
    exact this.trans (mul_le_mul_of_nonneg_right hs (by positivity))
  have hm950 : l2 (pairC n m) ≤ 2^950 := by
    have ht : 2^74 * etaF ≤ 1 := by
      have := etaF_eq
      have h3 : 2^74 * etaF ≤ 1/2^900 := tiny_le' (mul_le_mul_of_nonneg_right (by norm_num) hη)
      exact h3.trans ((div_le_one (by positivity)).2 (one_le_pow₀ (by norm_num)))
    have : l2 (pairC n m) ≤ 2^16 * 2^900 := by
      have h900 : (1:ℝ) ≤ 2^900 := one_le_pow₀ (by norm_num)
      generalize (2:ℝ)^900 = T at *
      linarith
    refine this.trans ?_
    rw [← pow_add]
    exact pow_le_pow_right₀ (by norm_num) (by norm_num)
  refine Ok.mono (fftF_spec hL h1 hn m hm950) fun z hz => ?_
  have htot := l2_add_le (toC (n := 2^n) z.1 z.2 - fun i : Fin (2^n) => slotOf m i)
    ((fun i : Fin (2^n) => slotOf m i) - fun i : Fin (2^n) => slotOf c i)
  rw [sub_add_sub_cancel] at htot
  have esl : ((fun i : Fin (2^n) => slotOf m i) - fun i : Fin (2^n) => slotOf c i) = fun i : Fin (2^n) => slotOf (fun k => m k - c k) i :=
    funext fun i => (slotOf_sub m c i).symm
  rw [esl, slots_l2] at htot
  refine htot.trans ((add_le_add hz le_rfl).trans ?_)
  rw [← mul_add]
  refine mul_le_mul_of_nonneg_left ?_ (by positivity)
  generalize l2 (pairC n c) = X at *
  have k1 : 28 * uF * l2 (pairC n m) ≤ 28 * (uF * X) + 28 * (7.001 * (uF * (uF * X)) + 2^74 * (uF * etaF)) := by
    have : uF * l2 (pairC n m) ≤ uF * (X + (7 * uF * X + 2^74 * etaF)) := mul_le_mul_of_nonneg_left (by linarith) hu
    have e : uF * (X + (7 * uF * X + 2^74 * etaF)) = uF * X + (7 * (uF * (uF * X)) + 2^74 * (uF * etaF)) := by ring
    have : 0 ≤ uF * (uF * X) := mul_nonneg hu huX
    linarith
  have k2 : uF * (uF * X) ≤ 1/10^9 * (uF * X) := mul_le_mul_of_nonneg_right hu2 huX
  have k3 : uF * etaF ≤ 1/10^9 * etaF := mul_le_mul_of_nonneg_right hu2 hη
  have k4 : n * (28 * uF * l2 (pairC n m) + 2 * thF n) ≤ n * (28 * (uF * X)) + 26 * (1/10^6 * (uF * X) + 2^50 * etaF) := by
    have : n * (28 * uF * l2 (pairC n m) + 2 * thF n) ≤ n * (28 * (uF * X) + (1/10^6 * (uF * X) + 2^50 * etaF)) :=
      mul_le_mul_of_nonneg_left (by linarith) hn0
    have k5 : (n:ℝ) * (1/10^6 * (uF * X) + 2^50 * etaF) ≤ 26 * (1/10^6 * (uF * X) + 2^50 * etaF) :=
      mul_le_mul_of_nonneg_right hn' (by linarith)
    rw [mul_add] at this
    linarith
  have e6 : (28 * n + 8) * uF * X = n * (28 * (uF * X)) + 8 * (uF * X) := by ring
  rw [e6]
  linarith


end

end EvalRound

import Verif.Proofs.FloatFFT
import Verif.Proofs.Endecode

/-! # Encoding and decoding in binary64, one coefficient -/

namespace EvalRound
open Z_Q

theorem roundEven_nonneg {x : ℝ} (h : 0 ≤ x) : 0 ≤ roundEven x := by
  have : 0 ≤ ⌊x⌋ := Int.floor_nonneg.2 h
  unfold roundEven
  split
  · exact this
  · split
    · omega
    · split <;> omega

theorem rnd_nonneg {x : ℝ} (h : 0 ≤ x) : 0 ≤ rnd x := by
  unfold rnd
  have h1 : (0:ℝ) < 2^ulpExp x := by positivity
  have h2 : 0 ≤ roundEven (x / 2^ulpExp x) := roundEven_nonneg (by positivity)
  have h3 : (0:ℝ) ≤ (roundEven (x / 2^ulpExp x) : ℝ) := by exact_mod_cast h2
  exact mul_nonneg h3 h1.le

theorem fl_near0 {x : ℝ} (h0 : 0 ≤ x) (hx : x ≤ 2^1020) : Ok (fl x) fun r => 0 ≤ r ∧ |r - x| ≤ uF * x + etaF := by
  have h := fl_near (x := x) (by rw [abs_of_nonneg h0]; exact hx)
  obtain ⟨r, e, hr⟩ := h
  refine ⟨r, e, ?_, by rw [abs_of_nonneg h0] at hr; exact hr⟩
  unfold fl at e
  split at e
  · have := pure_inj e
    rw [← this]
    exact rnd_nonneg h0
  · cases e

section
variable {Q : Nat} [NeZero Q]

/-- an integer below `2^64` with a sign -/
theorem signedW_spec {v : Int} (h0 : 0 ≤ v) (h1 : v < 2^64) (b : Prop) [Decidable b] :
    Ok (do
      let w ← toU64 v
      let p : Z_Q Q := ofW w
      pure (if b then negate p else p)) fun p =>
      v < 2^(Q-1) → p.Canonical ∧ p.sval = if b then -v else v := by
  unfold toU64
  rw [if_pos ⟨h0, h1⟩, pure_bind]
  obtain ⟨v, rfl⟩ := Int.eq_ofNat_of_zero_le h0
  have hvlt : v < 2^64 := by exact_mod_cast h1
  have hval : (ofW (BitVec.ofInt 64 (v : Int)) : Z_Q Q).val = v := by
    rw [val_setLow, BitVec.ofInt_natCast, BitVec.toNat_ofNat, Nat.mod_eq_of_lt hvlt]
  have hcls : (ofW (BitVec.ofInt 64 (v : Int)) : Z_Q Q).cls = (v : ZMod (2^Q)) := by
    rw [cls, hval]
  have hfin : (if b then negate (ofW (BitVec.ofInt 64 (v : Int)) : Z_Q Q) else ofW (BitVec.ofInt 64 (v : Int))).cls
      = (((if b then -(v : Int) else v : Int)) : ZMod (2^Q)) := by
    split
    · rw [cls_negate, hcls]; push_cast; rfl
    · rw [hcls]; push_cast; rfl
  refine Ok.pure fun h2 => ?_
  have h2' : v < 2^(Q-1) := by exact_mod_cast h2
  constructor
  · split
    · exact canonical_negate _
    · unfold Canonical
      rw [hval]
      have := two_mul_half Q
      omega
  · refine sval_eq_of_cls hfin ?_ ?_
    · split <;> omega
    · split <;> omega

theorem etaF_le_uF : etaF ≤ 1/10^9 * uF := by
  rw [etaF_eq, uF_eq]
  have : (1:ℝ)/2^1075 ≤ 1/2^100 := one_div_le_one_div_of_le (by positivity) (pow_le_pow_right₀ (by norm_num) (by norm_num))
  refine this.trans ?_
  norm_num

theorem big_le {a : Nat} (ha : a ≤ 1020) {x : ℝ} (hx : x ≤ 2^a) : x ≤ 2^1020 :=
  hx.trans (pow_le_pow_right₀ (by norm_num) ha)

theorem fl_zero : fl 0 = pure 0 := by
  unfold fl
  rw [rnd_zero, abs_zero, if_pos (by positivity)]

/-- a 64 bit word as a `double` -/
theorem fl_word (w : W) : Ok (fl (w.toNat : ℝ)) fun r => 0 ≤ r ∧ |r - w.toNat| ≤ 1.0001 * uF * w.toNat := by
  have hw : (w.toNat : ℝ) ≤ 2^64 := by exact_mod_cast w.isLt.le
  rcases Nat.eq_zero_or_pos w.toNat with e | e
  · rw [e, Nat.cast_zero, fl_zero]
    exact Ok.pure (by simp)
  · refine Ok.mono (fl_near0 (Nat.cast_nonneg _) (big_le (by norm_num) hw)) fun r ⟨h0, h⟩ => ⟨h0, ?_⟩
    have h1 : (1:ℝ) ≤ w.toNat := by exact_mod_cast e
    have h2 := etaF_le_uF
    have h3 := uF_pos.le
    nlinarith

/-- The loop body of `encode`: the coefficient times `Delta`, rounded once more, and the nearest integer. -/
theorem encodeCoeffF_spec {Delta : W} {x K : ℝ} (hx : |x| * Delta.toNat ≤ K)
    (hw : K * (1 + 3 * uF) + 1 < 2^64) (hq : K * (1 + 3 * uF) + 1 < 2^(Q-1)) :
    Ok (encodeCoeffF Q Delta x) fun p => p.Canonical ∧ ∃ y, |y - x * Delta.toNat| ≤ 2.001 * uF * (|x| * Delta.toNat) + 2 * etaF ∧
      |(p.sval : ℝ) - y| ≤ 1/2 := by
  have hu := uF_pos.le
  have hu2 := uF_le
  have hη := etaF_pos.le
  have hη2 := etaF_le
  unfold encodeCoeffF
  refine Ok.bind (fl_word Delta) fun d ⟨hd0, hd⟩ => ?_
  have hx0 := abs_nonneg x
  have hD0 : (0:ℝ) ≤ Delta.toNat := Nat.cast_nonneg _
  have hxd : |(|x| * d - |x| * Delta.toNat)| ≤ 1.0001 * uF * (|x| * Delta.toNat) := by
    rw [← mul_sub, abs_mul, abs_abs]
    refine (mul_le_mul_of_nonneg_left hd hx0).trans (le_of_eq (by ring))
  generalize hP : |x| * (Delta.toNat : ℝ) = P at *
  have hP0 : 0 ≤ P := by rw [← hP]; positivity
  have hxd0 : 0 ≤ |x| * d := mul_nonneg hx0 hd0
  generalize |x| * d = X at *
  have huP : 0 ≤ uF * P := mul_nonneg hu hP0
  have huP2 : uF * P ≤ 1/10^9 * P := mul_le_mul_of_nonneg_right hu2 hP0
  have hXP := abs_le.1 hxd
  have hK0 : 0 ≤ uF * K := mul_nonneg hu (hP0.trans hx)
  have hX64 : X ≤ 2^65 := by
    have : K ≤ 2^64 := by linarith
    linarith
  refine Ok.bind (fl_near0 hxd0 (big_le (by norm_num) hX64)) fun y ⟨hy0, hy⟩ => ?_
  have huX : uF * X ≤ uF * (1.0000001 * P) := mul_le_mul_of_nonneg_left (by linarith) hu
  have hyP : |y - P| ≤ 2.001 * uF * P + 2 * etaF := by
    have := abs_add_le (y - X) (X - P)
    rw [sub_add_sub_cancel] at this
    linarith
  have hyP2 := abs_le.1 hyP
  have huK : uF * P ≤ uF * K := mul_le_mul_of_nonneg_left hx hu
  have hr := cround_err y
  have hr2 := abs_le.1 hr
  have hv0 : 0 ≤ cround y := cround_nonneg hy0
  have hv1 : (cround y : ℝ) < K * (1 + 3 * uF) + 1 := by linarith
  have hv64 : cround y < 2^64 := by exact_mod_cast hv1.trans hw
  have hvq : cround y < 2^(Q-1) := by exact_mod_cast hv1.trans hq
  refine Ok.mono (signedW_spec hv0 hv64 (x < 0)) fun p hp => ?_
  obtain ⟨hc, hs⟩ := hp hvq
  refine ⟨hc, if x < 0 then -y else y, ?_, ?_⟩
  · split
    · rename_i hneg
      have e : -y - x * Delta.toNat = -(y - P) := by rw [← hP, abs_of_neg hneg]; ring
      rw [e, abs_neg]
      exact hyP
    · rename_i hneg
      have e : y - x * Delta.toNat = y - P := by rw [← hP, abs_of_nonneg (by linarith)]
      rw [e]
      exact hyP
  · rw [hs]
    split
    · push_cast
      rw [show -(cround y : ℝ) - -y = -((cround y : ℝ) - y) by ring, abs_neg]
      exact hr
    · exact hr

theorem horner_arith {u η m M w q w' r : ℝ} (hu : 0 ≤ u) (hu2 : u ≤ 1/10^9) (hη : 0 ≤ η) (hη2 : η ≤ 1/10^9 * u)
    (hM : 0 ≤ M) (hM1 : M ≤ 1) (hw : 0 ≤ w) (h : |m - M| ≤ 2.2 * u * M + u / 100) (hq0 : 0 ≤ q) (hw0 : 0 ≤ w')
    (hq : |q - m| ≤ u * m + η) (hw' : |w' - w| ≤ 1.0001 * u * w) (hr : |r - (q + w')| ≤ u * (q + w') + η) :
    |r - (M + w)| ≤ 2.2 * u * (M + w) + 3 * u := by
  have hm := abs_le.1 h
  have hq2 := abs_le.1 hq
  have hw2 := abs_le.1 hw'
  have hr2 := abs_le.1 hr
  have k0 : 0 ≤ u * w := mul_nonneg hu hw
  have kM : 0 ≤ u * M := mul_nonneg hu hM
  have k1 : u * m ≤ u * (M + (2.2 * u * M + u / 100)) := mul_le_mul_of_nonneg_left (by linarith) hu
  have k4 : u * (u * M) ≤ 1/10^9 * (u * M) := mul_le_mul_of_nonneg_right hu2 kM
  have k5 : u * M ≤ u := by nlinarith
  have k2 : u * u ≤ 1/10^9 * u := mul_le_mul_of_nonneg_right hu2 hu
  have k3 : u * (q + w') ≤ u * (1.001 * (M + w) + u) := by
    refine mul_le_mul_of_nonneg_left ?_ hu
    have : u * w ≤ 1/10^9 * w := mul_le_mul_of_nonneg_right hu2 hw
    have : u * M ≤ 1/10^9 * M := mul_le_mul_of_nonneg_right hu2 hM
    nlinarith
  rw [abs_le]
  constructor <;> nlinarith

theorem mvd_top {a : Z_Q Q} (ha : a.Canonical) {k : Fin (nlimb Q)} (e : a.max_valid_digit = k.val)
    (hv : a.val = lv a.data (k.val+1)) : 2^(64*k.val) ≤ a.val := by
  by_cases hb : a.is_bigger_than_halfQ = true
  · rw [is_bigger_canonical ha, decide_eq_true_iff] at hb
    obtain ⟨b1, b2, b3⟩ := lim_bounds Q
    have := k.isLt
    exact (Nat.pow_le_pow_right (by norm_num) (by omega)).trans hb
  · have hb : a.is_bigger_than_halfQ = false := by simpa using hb
    have hl := mvd_loop a.data 0
    unfold max_valid_digit at e
    rw [hb] at e
    simp only [Bool.false_eq_true, if_false] at e
    rcases hl with ⟨h1, h2⟩ | ⟨k', h1, h2, h3⟩
    · have h4 := h1.symm.trans e
      omega
    · have h4 := h1.symm.trans e
      have hk : k' = k := Fin.ext (by omega)
      subst hk
      rw [hv, lv_succ, dig_fin]
      have : 1 ≤ (a.data k').toNat := by
        rcases Nat.eq_zero_or_pos (a.data k').toNat with h | h
        · exact absurd (BitVec.eq_of_toNat_eq (by simpa using h)) h2
        · exact h
      nlinarith [Nat.two_pow_pos (64 * k'.val)]

/-- The loop body of `decode_log`: a relative error of a few units of rounding. -/
theorem decodeLogCoeffF_spec {x : Z_Q Q} (hx : x.Canonical) (hL : Q ≤ 2^29) {D : Nat} (hD : D ≤ 2^30)
    (hb : |(x.sval : ℝ)| ≤ 2^900 * 2^D) :
    Ok (decodeLogCoeffF (D : Int) x) fun m => |m - (x.sval : ℝ) / 2^D| ≤ 7 * uF * |(x.sval : ℝ) / 2^D| + etaF := by
  have hu := uF_pos.le
  have hu2 := uF_le
  have hη := etaF_pos.le
  have hη2 := etaF_le_uF
  unfold decodeLogCoeffF
  have ha := abs_val hx
  have hs := sval_real hx
  have hbd := sval_bounds x
  generalize (if x.is_bigger_than_halfQ then negate (copy x) else copy x) = a at ha
  simp only []
  have hle : a.val ≤ 2^(Q-1) := by
    rw [ha.1]
    have : ((2^(Q-1) : Nat) : Int) = 2^(Q-1) := by push_cast; rfl
    omega
  have hn : nlimb Q ≤ 2^23 + 1 := by unfold nlimb; omega
  rcases mvd_abs ha.2.1 hle with ⟨e, hv⟩ | ⟨k, e, hv⟩
  · rw [e, intM_ok (by decide) (by decide), pure_bind, intM_ok (by norm_num [INT_MAX] <;> omega) (by norm_num [INT_MAX] <;> omega),
      pure_bind]
    have : forUp 0 ((-1 : Int) + 1).toNat (fun j (m : ℝ) => do
      let w ← rd a.data j
      let q ← fl (m / 2^64)
      let w ← fl (w.toNat : ℝ)
      fl (q + w)) 0 = pure 0 := rfl
    rw [this, pure_bind]
    have h0 : x.sval = 0 := by rw [hv] at ha; omega
    rw [zero_mul, fl_zero, pure_bind, h0]
    refine Ok.pure ?_
    simp [etaF_pos.le]
  · have hk := k.isLt
    rw [e, intM_ok (by norm_num [INT_MAX] <;> omega) (by norm_num [INT_MAX] <;> omega), pure_bind,
      intM_ok (by norm_num [INT_MAX] <;> omega) (by norm_num [INT_MAX] <;> omega), pure_bind]
    have hlv : ∀ j : Nat, (lv a.data j : ℝ) / 2^(64*j) ≤ 1 := by
      intro j
      rw [div_le_one (by positivity)]
      exact_mod_cast (lv_lt a.data j).le
    refine Ok.bind (forUp_inv (lo := 0) (hi := ((k.val : Int) + 1).toNat) (s := (0:ℝ))
      (body := fun j (m : ℝ) => do
        let w ← rd a.data j
        let q ← fl (m / 2^64)
        let w ← fl (w.toNat : ℝ)
        fl (q + w)) (Nat.zero_le _)
      (P := fun j m => 0 ≤ m ∧ |m - (lv a.data j : ℝ) / 2^(64*j) * 2^64| ≤ 2.2 * uF * ((lv a.data j : ℝ) / 2^(64*j) * 2^64) + 3 * uF)
      ⟨le_rfl, by simp [hu]⟩ (by
        intro j m _ hj ⟨hm0, hm⟩
        have hjl : j < nlimb Q := by omega
        rw [rd_of_lt a.data hjl, pure_bind]
        have h1 := hlv j
        have hl0 : 0 ≤ (lv a.data j : ℝ) / 2^(64*j) := by positivity
        have els : (lv a.data (j+1) : ℝ) / 2^(64*(j+1)) * 2^64 = (lv a.data j : ℝ) / 2^(64*j) + ((a.data ⟨j, hjl⟩).toNat : ℝ) := by
          rw [lv_succ, dig_of_lt _ hjl, mul_add 64, pow_add]
          push_cast
          field_simp
        rw [els]
        generalize (lv a.data j : ℝ) / 2^(64*j) = Mj at *
        have hm2 : |m / 2^64 - Mj| ≤ 2.2 * uF * Mj + uF / 100 := by
          rw [show m / 2^64 - Mj = (m - Mj * 2^64) * (1/2^64) by ring, abs_mul, abs_of_pos (show (0:ℝ) < 1/2^64 by norm_num)]
          refine (mul_le_mul_of_nonneg_right hm (by norm_num)).trans ?_
          rw [show (2.2 * uF * (Mj * 2^64) + 3 * uF) * (1/2^64) = 2.2 * uF * Mj + 3 * uF * (1/2^64) by ring]
          norm_num
          linarith
        have hm64 : 0 ≤ m / 2^64 := by positivity
        have hm64' : m / 2^64 ≤ 2^2 := by
          have := (abs_le.1 hm2).2
          nlinarith
        generalize m / 2^64 = mm at *
        refine Ok.bind (fl_near0 hm64 (big_le (by norm_num) hm64')) fun q ⟨hq0, hq⟩ => ?_
        refine Ok.bind (fl_word _) fun w' ⟨hw0, hw'⟩ => ?_
        have hw64 : ((a.data ⟨j, hjl⟩).toNat : ℝ) ≤ 2^64 := by exact_mod_cast (a.data ⟨j, hjl⟩).isLt.le
        have hwn : (0:ℝ) ≤ ((a.data ⟨j, hjl⟩).toNat : ℝ) := Nat.cast_nonneg _
        generalize ((a.data ⟨j, hjl⟩).toNat : ℝ) = w at *
        have hqw : q + w' ≤ 2^66 := by
          have := (abs_le.1 hq).2
          have := (abs_le.1 hw').2
          nlinarith
        refine Ok.mono (fl_near0 (add_nonneg hq0 hw0) (big_le (by norm_num) hqw)) fun r ⟨hr0, hr⟩ => ⟨hr0, ?_⟩
        exact horner_arith hu hu2 hη hη2 hl0 h1 hwn hm2 hq0 hw0 hq hw' hr)) fun m ⟨hm0, hm⟩ => ?_
    rw [show ((k.val : Int) + 1).toNat = k.val + 1 by omega] at hm
    rw [← hv] at hm
    have htop := mvd_top ha.2.1 e hv
    have eM : (a.val : ℝ) / 2^(64*(k.val+1)) * 2^64 = a.val / 2^(64*k.val) := by
      rw [mul_add 64, pow_add]
      field_simp
    rw [eM] at hm
    have hM1 : 1 ≤ (a.val : ℝ) / 2^(64*k.val) := by
      rw [one_le_div (by positivity)]
      exact_mod_cast htop
    have eS : (a.val : ℝ) / 2^(64*k.val) * (2:ℝ)^(64 * (k.val : Int) - D) = |(x.sval : ℝ) / 2^D| := by
      rw [abs_div, abs_of_pos (show (0:ℝ) < 2^D by positivity), zpow_sub₀ (by norm_num),
        show (64 * (k.val : Int)) = ((64 * k.val : ℕ) : Int) by push_cast; rfl, zpow_natCast, zpow_natCast, ha.1,
        Nat.cast_natAbs, Int.cast_abs]
      field_simp
    have hg : (0:ℝ) < (2:ℝ)^(64 * (k.val : Int) - D) := by positivity
    have hS : |(x.sval : ℝ) / 2^D| ≤ 2^900 := by
      rw [abs_div, abs_of_pos (show (0:ℝ) < 2^D by positivity), div_le_iff₀ (by positivity)]
      exact hb
    have hS0 := abs_nonneg ((x.sval : ℝ) / 2^D)
    generalize (2:ℝ)^(64 * (k.val : Int) - D) = g at *
    generalize (a.val : ℝ) / 2^(64*k.val) = V at *
    have hmg : abs (m * g - abs ((x.sval : ℝ) / 2^D)) ≤ 5.2 * uF * |(x.sval : ℝ) / 2^D| := by
      rw [← eS, ← sub_mul, abs_mul, abs_of_pos hg]
      have : |m - V| ≤ 5.2 * uF * V := hm.trans (by nlinarith)
      refine (mul_le_mul_of_nonneg_right this hg.le).trans (le_of_eq (by ring))
    have hmg0 : 0 ≤ m * g := by positivity
    have hsg : ∀ y : ℝ, |(if x.is_bigger_than_halfQ = true then -y else y) - (x.sval : ℝ) / 2^D| = abs (y - abs ((x.sval : ℝ) / 2^D)) := by
      intro y
      have h := ha.2.2
      split
      · rename_i hbig
        have : (x.sval : ℝ) / 2^D < 0 := div_neg_of_neg_of_pos (by exact_mod_cast h.1 hbig) (by positivity)
        rw [abs_of_neg this, ← abs_neg]
        congr 1
        ring
      · rename_i hbig
        have : 0 ≤ x.sval := by
          by_contra hlt
          exact hbig (h.2 (by omega))
        have : 0 ≤ (x.sval : ℝ) / 2^D := div_nonneg (by exact_mod_cast this) (by positivity)
        rw [abs_of_nonneg this]
    generalize |(x.sval : ℝ) / 2^D| = S at *
    have huS : 0 ≤ uF * S := mul_nonneg hu hS0
    have huS2 : uF * S ≤ 1/10^9 * S := mul_le_mul_of_nonneg_right hu2 hS0
    have hmgS : m * g ≤ 2 * S := by
      have := (abs_le.1 hmg).2
      linarith
    have hbig : m * g ≤ 2^901 := by
      rw [pow_succ]
      have h900 := hS
      generalize (2:ℝ)^900 = T at *
      linarith
    refine Ok.bind (fl_near0 hmg0 (big_le (by norm_num) hbig)) fun y ⟨_, hy⟩ => Ok.pure ?_
    rw [hsg y]
    have h3 := abs_add_le (y - m * g) (m * g - S)
    rw [sub_add_sub_cancel] at h3
    have h4 : uF * (m * g) ≤ uF * (1.1 * S) := by
      refine mul_le_mul_of_nonneg_left ?_ hu
      have := (abs_le.1 hmg).2
      linarith
    linarith

end

end EvalRound

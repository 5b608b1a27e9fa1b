import Verif.Proofs.Slots
import Verif.Props.DFT
import Verif.Props.Rot

/-!
# C29, C30, C40, C45: encoding, slots and messages

Exact real arithmetic.
-/

namespace EvalRound
open Z_Q Finset

variable {LOGQ LOGN : Nat} [NeZero LOGQ]

/-! ## C29 -/

theorem scaled_bound {B x δ : ℝ} (hδ : 0 ≤ δ) (hx : |x| ≤ B) {K : ℕ} (h : B * δ + 1/2 < 2^K) :
    |cround (x * δ)| < 2^K := by
  have h1 := cround_err (x * δ)
  have h2 : |x * δ| ≤ B * δ := by rw [abs_mul, abs_of_nonneg hδ]; exact mul_le_mul_of_nonneg_right hx hδ
  have h3 : |(cround (x * δ) : ℝ)| < 2^K := by
    have := abs_sub_abs_le_abs_sub (cround (x*δ) : ℝ) (x * δ)
    linarith
  exact_mod_cast h3

/-- C29: what `encode` returns: the coefficients `m` with slots `z`, scaled and rounded. -/
theorem C29_encode (h1 : 2 ≤ LOGN) (h2 : LOGN ≤ 27) (z : CVec LOGN) (Delta : W) (B : ℝ)
    (hz : ∀ i : Fin (2^(LOGN-1)), ‖(⟨z.1 i, z.2 i⟩ : ℂ)‖ ≤ B)
    (hw : B * Delta.toNat + 1/2 < 2^64) (hq : B * Delta.toNat + 1/2 < 2^(LOGQ-1)) :
    Ok (encode LOGQ z Delta) fun pt => ∃ m : Fin (2^LOGN) → ℝ,
      (∀ i : Fin (2^(LOGN-1)), slotOf m i = ⟨z.1 i, z.2 i⟩) ∧
      ∀ k, (pt k).Canonical ∧ |((pt k).sval : ℝ) - m k * Delta.toNat| ≤ 1/2 := by
  unfold encode
  refine Ok.bind (ifft_slot h1 h2 z _) fun m ⟨hs, hb⟩ => ?_
  refine Ok.mono (tabM_spec (P := fun i p => ∀ h : i < 2^LOGN, p.Canonical ∧ |(p.sval : ℝ) - m ⟨i, h⟩ * Delta.toNat| ≤ 1/2)
    fun i hi => ?_) fun pt hpt => ⟨m, hs, fun k => hpt k k.isLt⟩
  rw [rd_of_lt _ hi, pure_bind]
  have hδ : (0:ℝ) ≤ Delta.toNat := Nat.cast_nonneg _
  refine Ok.mono (encodeCoeff_spec (scaled_bound hδ (hb B hz _) hw)) fun p hp _ => ?_
  obtain ⟨c, e⟩ := hp.2 (scaled_bound hδ (hb B hz _) hq)
  exact ⟨c, by rw [e]; exact cround_err _⟩

/-- C29: the round trip through `decode`. -/
theorem C29_roundtrip (h1 : 2 ≤ LOGN) (h2 : LOGN ≤ 27) (z : CVec LOGN) (Delta : W) (hD : Delta ≠ 0) (B : ℝ)
    (hz : ∀ i : Fin (2^(LOGN-1)), ‖(⟨z.1 i, z.2 i⟩ : ℂ)‖ ≤ B)
    (hw : B * Delta.toNat + 1/2 < 2^64) (hq : B * Delta.toNat + 1/2 < 2^(LOGQ-1)) :
    Ok (do
      let pt ← encode LOGQ z Delta
      decode pt Delta) fun z' => ∀ i : Fin (2^(LOGN-1)),
        ‖(⟨z'.1 i, z'.2 i⟩ : ℂ) - ⟨z.1 i, z.2 i⟩‖ ≤ 2^LOGN / (2 * Delta.toNat) := by
  have hδ : (0:ℝ) < Delta.toNat := by
    have : Delta.toNat ≠ 0 := fun h => hD (BitVec.eq_of_toNat_eq (by simpa using h))
    exact_mod_cast Nat.pos_of_ne_zero this
  refine Ok.bind (C29_encode h1 h2 z Delta B hz hw hq) fun pt ⟨m, hs, hm⟩ => ?_
  unfold decode
  refine Ok.mono (C28_fft h1 h2 _) fun z' hz' i => ?_
  rw [hz' i, ← hs i]
  refine (slotOf_sub_le (ε := 1 / (2 * Delta.toNat)) (fun k => ?_) i).trans (le_of_eq ?_)
  · rw [decodeCoeff_spec (hm k).1]
    have e : ((pt k).sval : ℝ) / Delta.toNat - m k = ((pt k).sval - m k * Delta.toNat) / Delta.toNat := by field_simp
    rw [e, abs_div, abs_of_pos hδ, div_le_iff₀ hδ]
    refine (hm k).2.trans (le_of_eq ?_)
    field_simp
  · push_cast; ring

/-- C29: the round trip through `decode_log`, for `Delta = 2^LOGDELTA`. -/
theorem C29_roundtrip_log (h1 : 2 ≤ LOGN) (h2 : LOGN ≤ 27) (hQ : LOGQ ≤ 2^29) (LOGDELTA : Nat) (hL : LOGDELTA < 64)
    (z : CVec LOGN) (B : ℝ)
    (hz : ∀ i : Fin (2^(LOGN-1)), ‖(⟨z.1 i, z.2 i⟩ : ℂ)‖ ≤ B)
    (hw : B * 2^LOGDELTA + 1/2 < 2^64) (hq : B * 2^LOGDELTA + 1/2 < 2^(LOGQ-1)) :
    Ok (do
      let pt ← encode LOGQ z (BitVec.ofNat 64 (2^LOGDELTA))
      decode_log pt LOGDELTA) fun z' => ∀ i : Fin (2^(LOGN-1)),
        ‖(⟨z'.1 i, z'.2 i⟩ : ℂ) - ⟨z.1 i, z.2 i⟩‖ ≤ 2^LOGN / (2 * 2^LOGDELTA) := by
  have hlt : 2^LOGDELTA < 2^64 := Nat.pow_lt_pow_right (by norm_num) hL
  have hv : (BitVec.ofNat 64 (2^LOGDELTA)).toNat = 2^LOGDELTA := by
    rw [BitVec.toNat_ofNat, Nat.mod_eq_of_lt hlt]
  have hvr : ((BitVec.ofNat 64 (2^LOGDELTA)).toNat : ℝ) = 2^LOGDELTA := by rw [hv]; push_cast; rfl
  have hδ : (0:ℝ) < 2^LOGDELTA := by positivity
  refine Ok.bind (C29_encode (LOGQ := LOGQ) h1 h2 z (BitVec.ofNat 64 (2^LOGDELTA)) B hz (by rw [hvr]; exact hw)
    (by rw [hvr]; exact hq)) fun pt ⟨m, hs, hm⟩ => ?_
  rw [hvr] at hm
  unfold decode_log
  have e : tabM (2^LOGN) (fun i => do
      let x ← rd pt i
      decodeLogCoeff LOGDELTA x) = pure (fun i => ((pt i).sval : ℝ) / (2:ℝ)^(LOGDELTA : Int)) := by
    refine tabM_eq fun i => ?_
    rw [rd_of_lt _ i.isLt, pure_bind]
    exact decodeLogCoeff_spec (hm i).1 hQ (by omega) (by omega)
  rw [e, pure_bind]
  refine Ok.mono (C28_fft h1 h2 _) fun z' hz' i => ?_
  rw [hz' i, ← hs i]
  refine (slotOf_sub_le (ε := 1 / (2 * 2^LOGDELTA)) (fun k => ?_) i).trans (le_of_eq ?_)
  · rw [zpow_natCast]
    have e : ((pt k).sval : ℝ) / 2^LOGDELTA - m k = ((pt k).sval - m k * 2^LOGDELTA) / 2^LOGDELTA := by field_simp
    rw [e, abs_div, abs_of_pos hδ, div_le_iff₀ hδ]
    refine (hm k).2.trans (le_of_eq ?_)
    field_simp
  · push_cast; ring

theorem tabM_ub {α : Type} {n : Nat} {f : Nat → M α} (h : ∀ i, i < n → (∃ a, f i = pure a) ∨ f i = ub)
    (k : Nat) (hk : k < n) (e : f k = ub) : tabM n f = ub := by
  induction n generalizing k with
  | zero => omega
  | succ n ih =>
    show (tabM n f >>= fun a => f n >>= fun x => _) = ub
    have ih := ih fun i hi => h i (by omega)
    by_cases hall : ∀ i : Fin n, ∃ a, f i = pure a
    · have : k = n := by
        by_contra hne
        obtain ⟨a, ha⟩ := hall ⟨k, by omega⟩
        rw [e] at ha
        simp [ub, throw, throwThe, MonadExceptOf.throw, ExceptT.mk, pure, ExceptT.pure] at ha
        exact nomatch ha
      subst this
      choose a ha using hall
      rw [tabM_eq ha, pure_bind, e]; rfl
    · push Not at hall
      obtain ⟨i, hi⟩ := hall
      rw [ih i i.isLt ((h i (by have := i.isLt; omega)).resolve_left fun ⟨a, ha⟩ => hi a ha)]; rfl

/-- C29: out of the range of `uint64_t` the conversion in `encode` is undefined. -/
theorem C29_encode_ub (h1 : 2 ≤ LOGN) (h2 : LOGN ≤ 27) (m : Fin (2^LOGN) → ℝ) (z : CVec LOGN)
    (hz : ∀ i : Fin (2^(LOGN-1)), slotOf m i = ⟨z.1 i, z.2 i⟩) (Delta : W)
    (k : Fin (2^LOGN)) (hk : 2^64 ≤ |cround (m k * Delta.toNat)|) : encode LOGQ z Delta = ub := by
  have e : ifft LOGN z (fun _ => 0) = pure m := by
    have h := C28_ifft_fft h1 h2 m (fun _ => 0)
    obtain ⟨z', e', hz'⟩ := C28_fft h1 h2 m
    rw [e', pure_bind] at h
    have : z' = z := toC_inj (funext fun i => (hz' i).trans (hz i))
    rw [← this, h]
  unfold encode
  rw [e, pure_bind]
  refine tabM_ub (fun i hi => ?_) k k.isLt ?_
  · rw [rd_of_lt _ hi, pure_bind]
    unfold encodeCoeff toU64
    split
    · left; exact ⟨_, rfl⟩
    · right; rfl
  · rw [rd_of_lt _ k.isLt, pure_bind]
    unfold encodeCoeff toU64
    have hk' : ¬ (0 ≤ |cround (m k * Delta.toNat)| ∧ |cround (m k * Delta.toNat)| < 2^64) := by omega
    rw [cround_abs _ _ (Nat.cast_nonneg _), if_neg hk']
    rfl

/-- the hypotheses of `C29_roundtrip` are met: the message `(1, i)`, `Delta = 2^40`, `LOGQ = 100` -/
example : Ok (do
      let pt ← encode 100 (LOGN := 2) (![1, 0], ![0, 1]) 1099511627776
      decode pt 1099511627776) fun z' => ∀ i : Fin 2,
        ‖(⟨z'.1 i, z'.2 i⟩ : ℂ) - ⟨![1, 0] i, ![0, 1] i⟩‖ ≤ 2^2 / (2 * 1099511627776) := by
  have e : (1099511627776 : W).toNat = 1099511627776 := rfl
  have h := C29_roundtrip (LOGQ := 100) (LOGN := 2) (by norm_num) (by norm_num) (![1, 0], ![0, 1]) 1099511627776
    (by decide) 1 (fun i => by
      have hi : i.val < 2 := i.isLt
      obtain ⟨i, _⟩ := i
      rcases (by omega : i = 0 ∨ i = 1) with rfl | rfl
      · have : (⟨1, 0⟩ : ℂ) = 1 := rfl
        show ‖(⟨1, 0⟩ : ℂ)‖ ≤ 1
        rw [this]; simp
      · have : (⟨0, 1⟩ : ℂ) = Complex.I := rfl
        show ‖(⟨0, 1⟩ : ℂ)‖ ≤ 1
        rw [this]; simp) (by rw [e]; norm_num) (by rw [e]; norm_num)
  rw [e] at h
  refine Ok.mono h fun z' hz' i => ?_
  have := hz' i
  push_cast at this
  exact this

/-! ## C30 -/

/-- C30: the product of `SimplePlaintext`s is the slotwise product of messages. -/
theorem C30_mul (h1 : 2 ≤ LOGN) (h2 : LOGN ≤ 27) (a b : Fin (2^LOGN) → ℝ) :
    (do
      let c ← Simple.conv a b
      fft LOGN c) =
    (do
      let za ← fft LOGN a
      let zb ← fft LOGN b
      pure (Msg.mul za zb)) := by
  rw [simple_conv_eq, pure_bind]
  obtain ⟨za, ea, ha⟩ := C28_fft h1 h2 a
  obtain ⟨zb, eb, hb⟩ := C28_fft h1 h2 b
  obtain ⟨zc, ec, hc⟩ := C28_fft h1 h2 (negconv a b)
  rw [ea, eb, ec, pure_bind, pure_bind]
  congr 1
  refine toC_inj (funext fun i => (hc i).trans ?_)
  rw [slotOf_negconv (by positivity), ← ha, ← hb]
  apply Complex.ext
  · simp [toC, Msg.mul]
  · simp [toC, Msg.mul]

/-- C30: rotating a `SimplePlaintext` by `r` shifts the slots cyclically to the left by `r`. -/
theorem C30_rotate (h1 : 2 ≤ LOGN) (h2 : LOGN ≤ 27) (a : Fin (2^LOGN) → ℝ) (r : Nat) :
    Ok (do
      let b ← Simple.rotate a r
      let zb ← fft LOGN b
      let za ← fft LOGN a
      pure (zb, za)) fun p => ∀ i : Fin (2^(LOGN-1)),
        p.1.1 i = p.2.1 ⟨(i + r) % 2^(LOGN-1), Nat.mod_lt _ (by positivity)⟩ ∧
        p.1.2 i = p.2.2 ⟨(i + r) % 2^(LOGN-1), Nat.mod_lt _ (by positivity)⟩ := by
  rw [rotate_eq h2, pure_bind]
  refine Ok.bind (C28_fft h1 h2 _) fun zb hb => Ok.bind (C28_fft h1 h2 _) fun za ha => Ok.pure fun i => ?_
  have h := hb i
  rw [slotOf_rot (by positivity)] at h
  obtain ⟨n, rfl⟩ : ∃ n, LOGN = n + 1 := ⟨LOGN - 1, by omega⟩
  have h' := ha ⟨(i + r) % 2^n, Nat.mod_lt _ (by positivity)⟩
  simp only [slotOf_mod] at h'
  have := h.trans h'.symm
  exact ⟨congrArg Complex.re this, congrArg Complex.im this⟩

theorem decode_slots (h1 : 2 ≤ LOGN) (h2 : LOGN ≤ 27) {A : R_Q LOGQ (2^LOGN)} (hA : A.Canonical) (Delta : W) :
    Ok (decode A Delta) fun z => ∀ i : Fin (2^(LOGN-1)),
      (⟨z.1 i, z.2 i⟩ : ℂ) = slotOf (fun k => ((A k).sval : ℝ)) i * ((Delta.toNat : ℝ)⁻¹ : ℝ) := by
  unfold decode
  refine Ok.mono (C28_fft h1 h2 _) fun z hz i => (hz i).trans ?_
  rw [← slotOf_smul]
  congr 1
  funext k
  rw [decodeCoeff_spec (hA k), div_eq_mul_inv]

theorem sval_autom {g N : Nat} (hg : ∀ j j' : Fin N, g * j % N = g * j' % N → j = j') {A B : R_Q LOGQ N}
    (h : R_Q.cls B = autom g (R_Q.cls A)) (hA : ∀ k, |(A k).sval| < 2^(LOGQ-1)) :
    R_Q.sval B = autom g (R_Q.sval A) := by
  funext k
  have hb : |autom g (R_Q.sval A) k| ≤ 2^(LOGQ-1) - 1 := autom_abs hg (fun i => by
    have : |R_Q.sval A i| < 2^(LOGQ-1) := hA i
    omega) k
  rw [abs_le] at hb
  refine sval_eq_of_cls ?_ (by omega) (by omega)
  rw [cls_red_sval A, ← red_autom] at h
  exact congrFun h k

/-- C30: `rot` of a polynomial shifts the decoded slots cyclically to the left by `r`. The
coefficient `-2^(LOGQ-1)`, which is its own negative, is excluded. -/
theorem C30_rot (h1 : 2 ≤ LOGN) (h2 : LOGN ≤ 27) (A d0 : R_Q LOGQ (2^LOGN)) (hA : R_Q.Canonical A)
    (hs : ∀ k, |(A k).sval| < 2^(LOGQ-1)) (r : Nat) (Delta : W) :
    Ok (do
      let B ← rotR A d0 r
      let zb ← decode B Delta
      let za ← decode A Delta
      pure (zb, za)) fun p => ∀ i : Fin (2^(LOGN-1)),
        p.1.1 i = p.2.1 ⟨(i + r) % 2^(LOGN-1), Nat.mod_lt _ (by positivity)⟩ ∧
        p.1.2 i = p.2.2 ⟨(i + r) % 2^(LOGN-1), Nat.mod_lt _ (by positivity)⟩ := by
  refine Ok.bind (rotR_pow2 h2 r hA d0) fun B ⟨hB, e⟩ => ?_
  have e2 := sval_autom (fun j j' e => pos_inj_of_coprime (five_pow_coprime LOGN r) j j' e) e hs
  refine Ok.bind (decode_slots h1 h2 hB Delta) fun zb hb => Ok.bind (decode_slots h1 h2 hA Delta) fun za ha =>
    Ok.pure fun i => ?_
  have h := hb i
  have e3 : (fun k => ((B k).sval : ℝ)) = autom (5^r) (fun k => ((A k).sval : ℝ)) := by
    funext k
    have : (B k).sval = autom (5^r) (R_Q.sval A) k := congrFun e2 k
    rw [this]
    exact autom_map (Int.castAddHom ℝ) _ _ _
  rw [e3, slotOf_rot (by positivity)] at h
  obtain ⟨n, rfl⟩ : ∃ n, LOGN = n + 1 := ⟨LOGN - 1, by omega⟩
  have h' := ha ⟨(i + r) % 2^n, Nat.mod_lt _ (by positivity)⟩
  simp only [slotOf_mod] at h'
  have := h.trans h'.symm
  exact ⟨congrArg Complex.re this, congrArg Complex.im this⟩

/-- C30: `conj` of a polynomial conjugates the decoded slots. -/
theorem C30_conj (h1 : 2 ≤ LOGN) (h2 : LOGN ≤ 27) (A d0 : R_Q LOGQ (2^LOGN)) (hA : R_Q.Canonical A)
    (hs : ∀ k, |(A k).sval| < 2^(LOGQ-1)) (Delta : W) :
    Ok (do
      let B ← conjR A d0
      let zb ← decode B Delta
      let za ← decode A Delta
      pure (zb, za)) fun p => ∀ i, p.1.1 i = p.2.1 i ∧ p.1.2 i = - p.2.2 i := by
  refine Ok.bind (conjR_spec Nat.one_le_two_pow hA d0) fun B ⟨hB, e⟩ => ?_
  have e2 := sval_autom (fun j j' e => conj_pos Nat.one_le_two_pow j j' e) e hs
  refine Ok.bind (decode_slots h1 h2 hB Delta) fun zb hb => Ok.bind (decode_slots h1 h2 hA Delta) fun za ha =>
    Ok.pure fun i => ?_
  have h := hb i
  have e3 : (fun k => ((B k).sval : ℝ)) = autom (2*2^LOGN-1) (fun k => ((A k).sval : ℝ)) := by
    funext k
    have : (B k).sval = autom (2*2^LOGN-1) (R_Q.sval A) k := congrFun e2 k
    rw [this]
    exact autom_map (Int.castAddHom ℝ) _ _ _
  rw [e3, slotOf_conj (by positivity), ← Complex.conj_ofReal (Delta.toNat : ℝ)⁻¹, ← map_mul, ← ha i] at h
  exact ⟨congrArg Complex.re h, congrArg Complex.im h⟩

/-- C30: the product of polynomials that does not wrap decodes to the slotwise product. -/
theorem C30_conv (h1 : 2 ≤ LOGN) (h2 : LOGN ≤ 17) (hQ : LOGQ ≤ 60 ∨ 65 ≤ LOGQ ∧ LOGQ ≤ 3051)
    (A B : R_Q LOGQ (2^LOGN)) (hA : R_Q.Canonical A) (hB : R_Q.Canonical B) (a b : Int) (hb0 : 0 ≤ b)
    (ha : ∀ k, |(A k).sval| ≤ a) (hb : ∀ k, |(B k).sval| ≤ b) (hab : 2^LOGN * a * b < 2^(LOGQ-1))
    (Delta1 Delta2 Delta3 : W) (hD : Delta3.toNat = Delta1.toNat * Delta2.toNat) :
    Ok (do
      let C ← conv A B
      let zc ← decode C Delta3
      let za ← decode A Delta1
      let zb ← decode B Delta2
      pure (zc, Msg.mul za zb)) fun p => p.1 = p.2 := by
  refine Ok.bind (conv_spec hQ (by omega) h2 hA hB) fun C ⟨hC, e⟩ => ?_
  have h27 : LOGN ≤ 27 := by omega
  refine Ok.bind (decode_slots h1 h27 hC Delta3) fun zc hzc => Ok.bind (decode_slots h1 h27 hA Delta1) fun za hza =>
    Ok.bind (decode_slots h1 h27 hB Delta2) fun zb hzb => Ok.pure ?_
  have e2 : ∀ k, (C k).sval = negconv (R_Q.sval A) (R_Q.sval B) k := by
    intro k
    have hbd := negconv_abs_le' (R_Q.sval A) (R_Q.sval B) ha hb0 hb k
    push_cast at hbd
    rw [abs_le] at hbd
    refine sval_eq_of_cls ?_ (by linarith) (by linarith)
    rw [cls_red_sval A, cls_red_sval B, ← red_negconv] at e
    exact congrFun e k
  have e3 : (fun k => ((C k).sval : ℝ)) = negconv (fun k => ((A k).sval : ℝ)) (fun k => ((B k).sval : ℝ)) := by
    funext k
    rw [e2]
    unfold negconv
    push_cast
    exact sum_congr rfl fun j _ => by split <;> simp [R_Q.sval]
  refine toC_inj (funext fun i => (hzc i).trans ?_)
  have : toC (Msg.mul za zb).1 (Msg.mul za zb).2 i = (⟨za.1 i, za.2 i⟩ : ℂ) * ⟨zb.1 i, zb.2 i⟩ := by
    apply Complex.ext
    · simp [toC, Msg.mul]
    · simp [toC, Msg.mul]
  rw [this, hza i, hzb i, e3, slotOf_negconv (by positivity), hD]
  push_cast
  rw [mul_inv]
  ring

/-- the hypotheses of `C30_rot` and `C30_conv` are met by `X` in `Z_{2^100}[X]/(X^4+1)` -/
example : ∃ A : R_Q 100 (2^2), R_Q.Canonical A ∧ (∀ k, |(A k).sval| ≤ 1) ∧ (A 1).sval = 1 ∧
    (2^2 * 1 * 1 : Int) < 2^(100-1) := by
  refine ⟨fun k => if k = 1 then Z_Q.ofNat 100 1 else Z_Q.ofNat 100 0, ?_, ?_, ?_, by norm_num⟩
  · intro k; unfold Z_Q.Canonical; revert k; decide +kernel
  · decide +kernel
  · decide +kernel

/-! ## C40 -/

/-- C40: `aggregate` always reads its second argument out of bounds. -/
theorem C40_aggregate (hN : 1 ≤ LOGN) (z1 z2 : CVec LOGN) : Msg.aggregate LOGN z1 z2 = ub := by
  have hp : 2^LOGN = 2 * 2^(LOGN-1) := by
    conv_lhs => rw [show LOGN = (LOGN-1)+1 by omega, pow_succ, mul_comm]
  have hpos : 0 < 2^(LOGN-1) := by positivity
  have : Msg.aggregateHalf LOGN z1.1 z2.1 = ub := by
    unfold Msg.aggregateHalf
    refine tabM_ub (fun i hi => ?_) (2^(LOGN-1)) (by omega) ?_
    · by_cases h : i < 2^LOGN / 2
      · left; exact ⟨_, by rw [if_pos h, rd_of_lt _ (by omega)]⟩
      · right; rw [if_neg h, rd_of_ge _ (by omega)]
    · rw [if_neg (by omega), rd_of_ge _ (le_refl _)]
  unfold Msg.aggregate
  rw [this]; rfl

/-! ## C45: messages -/

/-- C45: `mul` on messages is the complex product when the result is a third object. -/
theorem C45_mul {n : Nat} (a b : (Fin n → ℝ) × (Fin n → ℝ)) (i : Fin n) :
    (⟨(Msg.mul a b).1 i, (Msg.mul a b).2 i⟩ : ℂ) = ⟨a.1 i, a.2 i⟩ * ⟨b.1 i, b.2 i⟩ := by
  apply Complex.ext
  · simp [Msg.mul]
  · simp [Msg.mul]

/-- C45: what `mul(z1, z2, z1)` computes: the imaginary part uses the new real part. -/
theorem C45_mul_alias_value {n : Nat} (a b : (Fin n → ℝ) × (Fin n → ℝ)) (i : Fin n) :
    (Msg.mulAlias a b).1 i = a.1 i * b.1 i - a.2 i * b.2 i ∧
    (Msg.mulAlias a b).2 i = (a.1 i * b.1 i - a.2 i * b.2 i) * b.2 i + a.2 i * b.1 i := by
  have h := forFin_inv (n := n) (s := a) (f := Msg.mulAliasStep b)
    (P := fun k s => ∀ j : Fin n, if j.val < k then s.1 j = a.1 j * b.1 j - a.2 j * b.2 j ∧
      s.2 j = (a.1 j * b.1 j - a.2 j * b.2 j) * b.2 j + a.2 j * b.1 j else s.1 j = a.1 j ∧ s.2 j = a.2 j)
    (fun j => by rw [if_neg (by omega)]; exact ⟨rfl, rfl⟩) (fun k s hs j => by
      unfold Msg.mulAliasStep
      by_cases e : j = k
      · subst e
        have := hs j
        rw [if_neg (by omega)] at this
        rw [if_pos (by omega)]
        simp only [Function.update_self, this.1, this.2, and_self]
      · have hne : j.val ≠ k.val := fun h => e (Fin.ext h)
        have := hs j
        simp only [Function.update_of_ne e]
        by_cases hlt : j.val < k.val
        · rw [if_pos hlt] at this; rw [if_pos (by omega)]; exact this
        · rw [if_neg hlt] at this; rw [if_neg (by omega)]; exact this)
  have := h i
  rw [if_pos i.isLt] at this
  exact this

/-- C45: so `mul(z1, z2, z1)` is the complex product exactly in the slots where the imaginary part
of `z2` vanishes or the real part of `z1` is unchanged by the product. -/
theorem C45_mul_alias {n : Nat} (a b : (Fin n → ℝ) × (Fin n → ℝ)) (i : Fin n) :
    (⟨(Msg.mulAlias a b).1 i, (Msg.mulAlias a b).2 i⟩ : ℂ) = ⟨a.1 i, a.2 i⟩ * ⟨b.1 i, b.2 i⟩ ↔
      b.2 i = 0 ∨ a.1 i * b.1 i - a.2 i * b.2 i = a.1 i := by
  rw [(C45_mul_alias_value a b i).1, (C45_mul_alias_value a b i).2, Complex.ext_iff]
  simp only [Complex.mul_re, Complex.mul_im, true_and]
  constructor
  · intro h
    have : (a.1 i * b.1 i - a.2 i * b.2 i - a.1 i) * b.2 i = 0 := by linarith
    rcases mul_eq_zero.1 this with h | h
    · right; linarith
    · left; exact h
  · rintro (h | h)
    · rw [h]; ring
    · rw [h]

-- `i * i` computed in place gives `-1 - i`
example : (⟨(Msg.mulAlias (n := 1) (![0], ![1]) (![0], ![1])).1 0, (Msg.mulAlias (n := 1) (![0], ![1]) (![0], ![1])).2 0⟩ : ℂ) =
    ⟨-1, -1⟩ := by
  rw [(C45_mul_alias_value _ _ 0).1, (C45_mul_alias_value _ _ 0).2]
  norm_num

/-- C45: `norm` is the Euclidean norm. -/
theorem C45_norm {n : Nat} (z : (Fin n → ℝ) × (Fin n → ℝ)) :
    Msg.norm z = Real.sqrt (∑ i, ‖(⟨z.1 i, z.2 i⟩ : ℂ)‖^2) := by
  unfold Msg.norm Msg.square_sum
  congr 1
  have h := forFin_inv (n := n) (s := (0:ℝ)) (f := fun i s => s + (z.1 i * z.1 i + z.2 i * z.2 i))
    (P := fun k s => s = ∑ j ∈ range k, if h : j < n then ‖(⟨z.1 ⟨j, h⟩, z.2 ⟨j, h⟩⟩ : ℂ)‖^2 else 0)
    (by simp) (fun k s hs => by
      rw [sum_range_succ, ← hs, dif_pos k.isLt, ← Complex.normSq_eq_norm_sq, Complex.normSq_mk])
  rw [h, ← Fin.sum_univ_eq_sum_range (fun j => if h : j < n then ‖(⟨z.1 ⟨j, h⟩, z.2 ⟨j, h⟩⟩ : ℂ)‖^2 else 0)]
  exact sum_congr rfl fun k _ => dif_pos k.isLt

/-- C45: `sup_norm` is the largest absolute value of a slot, `0` for no slots. -/
theorem C45_sup_norm {n : Nat} (z : (Fin n → ℝ) × (Fin n → ℝ)) :
    (∀ i, ‖(⟨z.1 i, z.2 i⟩ : ℂ)‖ ≤ Msg.sup_norm z) ∧
    (0 < n → ∃ i, ‖(⟨z.1 i, z.2 i⟩ : ℂ)‖ = Msg.sup_norm z) ∧ (n = 0 → Msg.sup_norm z = 0) := by
  have e : ∀ i, Real.sqrt (z.1 i * z.1 i + z.2 i * z.2 i) = ‖(⟨z.1 i, z.2 i⟩ : ℂ)‖ := by
    intro i
    rw [Complex.norm_def, Complex.normSq_mk]
  have h := forFin_inv (n := n) (s := (0:ℝ)) (f := fun i mx =>
      let a := Real.sqrt (z.1 i * z.1 i + z.2 i * z.2 i)
      if a > mx then a else mx)
    (P := fun k s => 0 ≤ s ∧ (∀ j : Fin n, j.val < k → ‖(⟨z.1 j, z.2 j⟩ : ℂ)‖ ≤ s) ∧
      ((s = 0) ∨ ∃ j : Fin n, ‖(⟨z.1 j, z.2 j⟩ : ℂ)‖ = s))
    ⟨le_refl _, fun j hj => by omega, Or.inl rfl⟩ (fun k s ⟨h0, h1, h2⟩ => by
      simp only [e]
      split
      · rename_i hgt
        refine ⟨norm_nonneg _, fun j hj => ?_, Or.inr ⟨k, rfl⟩⟩
        by_cases hjk : j = k
        · rw [hjk]
        · have : j.val ≠ k.val := fun h => hjk (Fin.ext h)
          exact (h1 j (by omega)).trans (le_of_lt hgt)
      · rename_i hle
        refine ⟨h0, fun j hj => ?_, h2⟩
        by_cases hjk : j = k
        · rw [hjk]; exact not_lt.1 hle
        · have : j.val ≠ k.val := fun h => hjk (Fin.ext h)
          exact h1 j (by omega))
  refine ⟨fun i => h.2.1 i i.isLt, fun hn => ?_, fun hn => ?_⟩
  · rcases h.2.2 with h0 | h0
    · refine ⟨⟨0, hn⟩, le_antisymm (h.2.1 _ hn) ?_⟩
      rw [show Msg.sup_norm z = 0 from h0]; exact norm_nonneg _
    · exact h0
  · subst hn; rfl

/-- C45: the dense `matrix_vector_product` sums the slotwise products of the `k`-th diagonal with
the message shifted by `k`. -/
theorem C45_mvp {n K : Nat} (hnK : n + K ≤ INT_MAX) (z : (Fin n → ℝ) × (Fin n → ℝ))
    (A : Fin K → (Fin n → ℝ) × (Fin n → ℝ)) :
    Ok (Msg.mvp z A) fun w => ∀ i : Fin n, (⟨w.1 i, w.2 i⟩ : ℂ) =
      ∑ k : Fin K, (⟨(A k).1 i, (A k).2 i⟩ : ℂ) *
        ⟨z.1 ⟨(i + k) % n, Nat.mod_lt _ (by have := i.isLt; omega)⟩, z.2 ⟨(i + k) % n, Nat.mod_lt _ (by have := i.isLt; omega)⟩⟩ := by
  unfold Msg.mvp
  refine Ok.bind (tabM_spec (P := fun i (v : ℝ × ℝ) => ∀ h : i < n, (⟨v.1, v.2⟩ : ℂ) =
      ∑ k : Fin K, (⟨(A k).1 ⟨i, h⟩, (A k).2 ⟨i, h⟩⟩ : ℂ) *
        ⟨z.1 ⟨(i + k) % n, Nat.mod_lt _ (by omega)⟩, z.2 ⟨(i + k) % n, Nat.mod_lt _ (by omega)⟩⟩) ?_)
    fun rows hr => Ok.pure fun i => hr i i.isLt
  intro i hi
  unfold Msg.mvpRow
  refine Ok.mono (forUp_inv (P := fun m (s : ℝ × ℝ) => (⟨s.1, s.2⟩ : ℂ) = ∑ k ∈ range m, if h : k < K then
      (⟨(A ⟨k, h⟩).1 ⟨i, hi⟩, (A ⟨k, h⟩).2 ⟨i, hi⟩⟩ : ℂ) *
        ⟨z.1 ⟨(i + k) % n, Nat.mod_lt _ (by omega)⟩, z.2 ⟨(i + k) % n, Nat.mod_lt _ (by omega)⟩⟩ else 0)
      (Nat.zero_le K) (by simp; rfl) ?_) fun v hv _ => ?_
  · intro k s _ hk hs
    have hm : (i + k) % n < n := Nat.mod_lt _ (by omega)
    rw [idxM_ok (by omega), pure_bind, rd_of_lt _ hk, pure_bind, rd_of_lt _ hi, pure_bind, rd_of_lt _ hi, pure_bind,
      rd_of_lt _ hm, pure_bind, rd_of_lt _ hm, pure_bind]
    refine Ok.pure ?_
    rw [sum_range_succ, ← hs, dif_pos hk]
    apply Complex.ext
    · simp
    · simp
  · rw [hv, ← Fin.sum_univ_eq_sum_range]
    exact sum_congr rfl fun k _ => dif_pos k.isLt

end EvalRound

import Verif.Props.SimpleNorm

/-!
# C114: plaintexts of doubles and plaintexts of `R_Q` agree as long as nothing wraps around
-/

namespace EvalRound
open Z_Q Finset

variable {LOGQ LOGN : Nat} [NeZero LOGQ]

/-- Specification: the plaintext of doubles whose coefficients are the signed values of `A`. -/
noncomputable def asSimple (A : R_Q LOGQ (2^LOGN)) : Fin (2^LOGN) → ℝ := fun k => ((A k).sval : ℝ)

/-- C114: `encode` into `R_Q` is `encode` into doubles modulo 2^LOGQ, and the same integers if these are below Q/2. It is undefined
exactly when a coefficient has 2^64 or more as absolute value. -/
theorem C114_encode (h1 : 2 ≤ LOGN) (h2 : LOGN ≤ 27) (z : CVec LOGN) (Delta : W) :
    ∃ w : Fin (2^LOGN) → Int, Simple.encode z Delta = pure (fun k => (w k : ℝ)) ∧
      ((∃ k, 2^64 ≤ |w k|) → encode LOGQ z Delta = ub) ∧
      ((∀ k, |w k| < 2^64) → Ok (encode LOGQ z Delta) fun pt => R_Q.cls pt = (fun k => (w k : ZMod (2^LOGQ))) ∧
        ((∀ k, |w k| < 2^(LOGQ-1)) → R_Q.Canonical pt ∧ Simple.encode z Delta = pure (asSimple pt))) := by
  obtain ⟨m, em, hs, _⟩ := ifft_slot h1 h2 z (fun _ => 0)
  have es : Simple.encode z Delta = pure (fun k => (cround (m k * (Delta.toNat : ℝ)) : ℝ)) := by
    unfold Simple.encode
    rw [em, pure_bind]
  refine ⟨fun k => cround (m k * (Delta.toNat : ℝ)), es, fun ⟨k, hk⟩ => C29_encode_ub h1 h2 m z hs Delta k hk, fun hw => ?_⟩
  unfold encode
  rw [em, pure_bind]
  refine Ok.mono (tabM_spec (P := fun i p => ∀ h : i < 2^LOGN, p.cls = (cround (m ⟨i, h⟩ * Delta.toNat) : ZMod (2^LOGQ)) ∧
      (|cround (m ⟨i, h⟩ * Delta.toNat)| < 2^(LOGQ-1) → p.Canonical ∧ p.sval = cround (m ⟨i, h⟩ * Delta.toNat)))
    fun i hi => ?_) fun pt hpt => ⟨funext fun k => (hpt k k.isLt).1, fun hq => ⟨fun k => ((hpt k k.isLt).2 (hq k)).1, ?_⟩⟩
  · rw [rd_of_lt _ hi, pure_bind]
    exact Ok.mono (encodeCoeff_spec (hw ⟨i, hi⟩)) fun p hp _ => hp
  · rw [es]
    congr 1
    funext k
    unfold asSimple
    rw [((hpt k k.isLt).2 (hq k)).2]

/-- C114: `decode` of a canonical polynomial is `decode` of its signed values. -/
theorem C114_decode (pt : R_Q LOGQ (2^LOGN)) (h : R_Q.Canonical pt) (Delta : W) (_hD : Delta ≠ 0) :
    decode pt Delta = Simple.decode (asSimple pt) Delta := by
  unfold decode Simple.decode
  congr 1
  exact funext fun k => decodeCoeff_spec (h k) Delta

/-- C114: `decode_log` with `LOGDELTA` is `decode` with the scale `2^LOGDELTA`, and `decode` of the signed values. -/
theorem C114_decode_log (hQ : LOGQ ≤ 2^29) (pt : R_Q LOGQ (2^LOGN)) (h : R_Q.Canonical pt) (LOGDELTA : Nat) (hL : LOGDELTA < 64) :
    decode_log pt LOGDELTA = decode pt (BitVec.ofNat 64 (2^LOGDELTA)) ∧
      decode_log pt LOGDELTA = Simple.decode (asSimple pt) (BitVec.ofNat 64 (2^LOGDELTA)) := by
  have hlt : 2^LOGDELTA < 2^64 := Nat.pow_lt_pow_right (by norm_num) hL
  have hv : (BitVec.ofNat 64 (2^LOGDELTA)).toNat = 2^LOGDELTA := by
    rw [BitVec.toNat_ofNat, Nat.mod_eq_of_lt hlt]
  have hD : BitVec.ofNat 64 (2^LOGDELTA) ≠ 0 := fun e => by
    have := congrArg BitVec.toNat e
    rw [hv] at this
    exact absurd this (by positivity)
  rw [C114_decode pt h _ hD]
  refine and_self_iff.2 ?_
  unfold decode_log Simple.decode
  obtain ⟨m, em, hm⟩ := tabM_spec (n := 2^LOGN) (f := fun i => do
      let x ← rd pt i
      decodeLogCoeff (LOGDELTA : Int) x) (P := fun i y => ∀ hi : i < 2^LOGN, y = ((pt ⟨i, hi⟩).sval : ℝ) / 2^LOGDELTA)
    fun i hi => by
      rw [rd_of_lt _ hi, pure_bind, decodeLogCoeff_spec (h _) hQ (by omega) (by omega)]
      exact Ok.pure fun _ => by rw [zpow_natCast]
  rw [em, pure_bind, hv]
  congr 1
  funext k
  rw [hm k k.isLt]
  push_cast
  rfl

/-- C114: sums and differences that do not wrap around. -/
theorem C114_add_sub (A B : R_Q LOGQ (2^LOGN)) :
    ((∀ k, |(A k).sval + (B k).sval| < 2^(LOGQ-1)) →
      R_Q.Canonical (R_Q.add A B) ∧ asSimple (R_Q.add A B) = Simple.add (asSimple A) (asSimple B)) ∧
    ((∀ k, |(A k).sval - (B k).sval| < 2^(LOGQ-1)) →
      R_Q.Canonical (R_Q.sub A B) ∧ asSimple (R_Q.sub A B) = Simple.sub (asSimple A) (asSimple B)) := by
  refine ⟨fun h => ⟨R_Q.canonical_add A B, funext fun k => ?_⟩, fun h => ⟨R_Q.canonical_sub A B, funext fun k => ?_⟩⟩
  · have hk := abs_lt.1 (h k)
    have e : (R_Q.add A B k).cls = (((A k).sval + (B k).sval : Int) : ZMod (2^LOGQ)) := by
      rw [Int.cast_add, sval_cls, sval_cls]
      exact congrFun (R_Q.cls_add A B) k
    unfold asSimple Simple.add
    rw [sval_eq_of_cls e hk.1.le hk.2]
    push_cast
    rfl
  · have hk := abs_lt.1 (h k)
    have e : (R_Q.sub A B k).cls = (((A k).sval - (B k).sval : Int) : ZMod (2^LOGQ)) := by
      rw [Int.cast_sub, sval_cls, sval_cls]
      exact congrFun (R_Q.cls_sub A B) k
    unfold asSimple Simple.sub
    rw [sval_eq_of_cls e hk.1.le hk.2]
    push_cast
    rfl

/-- C114: `conv` of polynomials whose product does not wrap around is `conv` of the doubles. -/
theorem C114_conv (h1 : 1 ≤ LOGN) (h2 : LOGN ≤ 17) (hQ : LOGQ ≤ 60 ∨ 65 ≤ LOGQ ∧ LOGQ ≤ 3051)
    (A B : R_Q LOGQ (2^LOGN)) (hA : R_Q.Canonical A) (hB : R_Q.Canonical B) (a b : Int) (hb0 : 0 ≤ b)
    (ha : ∀ k, |(A k).sval| ≤ a) (hb : ∀ k, |(B k).sval| ≤ b) (hab : 2^LOGN * a * b < 2^(LOGQ-1)) :
    Ok (conv A B) fun C => R_Q.Canonical C ∧ Simple.conv (asSimple A) (asSimple B) = pure (asSimple C) := by
  refine Ok.mono (conv_spec hQ (by omega) h2 hA hB) fun C ⟨hC, e⟩ => ⟨hC, ?_⟩
  have e2 : ∀ k, (C k).sval = negconv (R_Q.sval A) (R_Q.sval B) k := by
    intro k
    have hbd := negconv_abs_le' (R_Q.sval A) (R_Q.sval B) ha hb0 hb k
    push_cast at hbd
    rw [abs_le] at hbd
    refine sval_eq_of_cls ?_ (by linarith) (by linarith)
    rw [cls_red_sval A, cls_red_sval B, ← red_negconv] at e
    exact congrFun e k
  rw [simple_conv_eq]
  congr 1
  funext k
  unfold asSimple
  rw [e2]
  unfold negconv
  push_cast
  exact sum_congr rfl fun j _ => by split <;> simp [R_Q.sval]

/-- C114: `rot` of a polynomial without the coefficient -Q/2 is `rotate` of the doubles. -/
theorem C114_rotate (h2 : LOGN ≤ 27) (A d0 : R_Q LOGQ (2^LOGN)) (hA : R_Q.Canonical A)
    (hs : ∀ k, |(A k).sval| < 2^(LOGQ-1)) (r : Nat) :
    Ok (rotR A d0 r) fun B => R_Q.Canonical B ∧ Simple.rotate (asSimple A) r = pure (asSimple B) := by
  refine Ok.mono (rotR_pow2 h2 r hA d0) fun B ⟨hB, e⟩ => ⟨hB, ?_⟩
  have e2 := sval_autom (fun j j' e => pos_inj_of_coprime (five_pow_coprime LOGN r) j j' e) e hs
  rw [rotate_eq h2]
  congr 1
  funext k
  have : (B k).sval = autom (5^r) (R_Q.sval A) k := congrFun e2 k
  unfold asSimple
  rw [this]
  exact (autom_map (Int.castAddHom ℝ) _ _ _).symm

/-- The hypotheses are met by `X` in `Z_{2^100}[X]/(X^4+1)`: not zero, canonical, small enough for sums, products and rotations. -/
example : ∃ A : R_Q 100 (2^2), R_Q.Canonical A ∧ (∀ k, |(A k).sval| ≤ 1) ∧ (A 1).sval = 1 ∧
    (∀ k, |(A k).sval + (A k).sval| < 2^(100-1)) ∧ (2^2 * 1 * 1 : Int) < 2^(100-1) := by
  refine ⟨fun k => if k = 1 then Z_Q.ofNat 100 1 else Z_Q.ofNat 100 0, ?_, ?_, ?_, ?_, by norm_num⟩
  · intro k; unfold Z_Q.Canonical; revert k; decide +kernel
  · decide +kernel
  · decide +kernel
  · decide +kernel

/-- The second case of `C114_encode`: slots of absolute value at most 1 and scale 2^40 give coefficients below 2^64. -/
example (z : CVec 2) (hz : ∀ i : Fin (2^(2-1)), ‖(⟨z.1 i, z.2 i⟩ : ℂ)‖ ≤ 1) :
    Ok (encode 100 z (BitVec.ofNat 64 (2^40))) fun pt => R_Q.Canonical pt ∧
      Simple.encode z (BitVec.ofNat 64 (2^40)) = pure (asSimple pt) := by
  have eD : (((BitVec.ofNat 64 (2^40)).toNat : ℕ) : ℝ) = 2^40 := by norm_cast
  obtain ⟨w, ew, _, h⟩ := C114_encode (LOGQ := 100) (LOGN := 2) (by norm_num) (by norm_num) z (BitVec.ofNat 64 (2^40))
  obtain ⟨m, em, _, hb⟩ := ifft_slot (LOGN := 2) (by norm_num) (by norm_num) z (fun _ => 0)
  have hw : ∀ k, |w k| < 2^42 := fun k => by
    have e : (w k : ℝ) = cround (m k * 2^40) := by
      have h0 := ew
      unfold Simple.encode at h0
      rw [em, pure_bind, eD] at h0
      exact (congrFun (pure_inj h0) k).symm
    have h1 := cround_err (m k * 2^40)
    rw [← e] at h1
    have h2 : |m k * 2^40| ≤ 2^40 := by
      rw [abs_mul, abs_of_pos (by norm_num : (0:ℝ) < 2^40)]
      exact mul_le_of_le_one_left (by norm_num) (hb 1 hz k)
    have h3 : |(w k : ℝ)| < 2^42 := by
      rw [abs_le] at h1 h2
      rw [abs_lt]
      constructor <;> linarith [h1.1, h1.2, h2.1, h2.2]
    exact_mod_cast h3
  obtain ⟨pt, ept, _, h2⟩ := h fun k => (hw k).trans (by norm_num)
  exact ⟨pt, ept, h2 fun k => (hw k).trans (by norm_num)⟩

end EvalRound

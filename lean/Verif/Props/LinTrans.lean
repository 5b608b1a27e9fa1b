import Verif.Proofs.CtS

/-!
# C33, C34, C35, C42, C47: linear transforms

Matrices hold exact reals.
-/

namespace EvalRound
open Z_Q Finset SparseDiagonal

variable {LOGQ n S : Nat} [NeZero LOGQ]

/-- `linear_transform`, `CoeffToSlot` … multiply modulo `2^LOGQ` and modulo `2^(2*LOGQ)`: the sizes that
the convolution engine supports. -/
abbrev GoodQ (LOGQ : Nat) : Prop := LOGQ ≤ 30 ∨ 65 ≤ LOGQ ∧ LOGQ ≤ 1525 ∨ 33 ≤ LOGQ ∧ LOGQ ≤ 60

theorem GoodQ.one (h : GoodQ LOGQ) : ConvLOGQ LOGQ := by unfold GoodQ at h; unfold ConvLOGQ; omega
theorem GoodQ.two (h : GoodQ LOGQ) : ConvLOGQ (2 * LOGQ) := by unfold GoodQ at h; unfold ConvLOGQ; omega

theorem weight_eq {N : Nat} (s : Fin N → Int) : weight s = (univ.filter fun k => s k ≠ 0).card := rfl

/-! ## C33 -/

/-- C33: `linear_transform` with the secret key decrypts to the sum over the diagonals of the encoded
diagonal times the rotated plaintext, up to an error of `8N + (h+1)/2` for every unit of the sum of the
absolute values of the coefficients of the encoded diagonals. -/
theorem C33_linear_transform (RAND_MAX LOGDELTA : Nat) (hL : LOGDELTA < 64) (hQ : GoodQ LOGQ) (k : Nat)
    (hk1 : 1 ≤ k) (hk : k ≤ 17) (s : Fin (2^k) → Int) (hs : ∀ k, s k = -1 ∨ s k = 0 ∨ s k = 1)
    (A : SD2 (2^(k-1)) S) (hoff : A.1.off = A.2.off) (pt : Fin S → R_Q LOGQ (2^k))
    (hpt : ∀ t, ¬ (A.1.zero t = true ∧ A.2.zero t = true) →
      encode LOGQ (LOGN := k) (A.1.vec t, A.2.vec t) (BitVec.ofNat 64 (2^LOGDELTA)) = pure (pt t) ∧ (pt t).Canonical)
    (ct : R_Q_square LOGQ (2^k)) (hct : ct.Canonical) (ω : Rng) :
    Ok (do
      let r ← linTrans RAND_MAX LOGDELTA A ct s ω
      let m ← dec ct s
      let m' ← dec r.1 s
      pure (m, m')) fun p => ∃ E : Fin (2^k) → Int,
        (∀ i, 2 * |E i| ≤ (∑ t, if ¬ (A.1.zero t = true ∧ A.2.zero t = true) then ∑ j, |(pt t j).sval| else 0) *
          (16 * 2^k + (univ.filter fun k => s k ≠ 0).card + 1)) ∧
        ∀ i, (p.2 i).Canonical ∧ (p.2 i).cls =
          (∑ t, if ¬ (A.1.zero t = true ∧ A.2.zero t = true) then
            negconv (fun j => (pt t j).cls) (autom (5^(A.1.off t).toNat) (fun j => (p.1 j).cls)) i else 0) + E i := by
  have hN : 2^k ≤ 2^30 := Nat.pow_le_pow_right (by norm_num) (by omega)
  obtain ⟨m, hm⟩ := red_surj (LOGQ := LOGQ) (R_Q_square.phase s ct)
  have hs' : Ternary s := hs
  refine Ok.bind (linTrans_spec RAND_MAX LOGDELTA hL hQ.one hQ.two hk1 hk hs' hoff hpt
    (p := fun t => R_Q.sval (pt t)) (fun t _ => cls_red_sval (pt t)) hct hm.symm ω) fun r ⟨_, E, hE, hph⟩ => ?_
  refine Ok.bind (dec_spec hN hs' ct) fun x ⟨_, hx⟩ => ?_
  refine Ok.bind (dec_spec hN hs' r.1) fun y ⟨hy, hyp⟩ => Ok.pure ⟨E, hE, fun i => ⟨hy i, ?_⟩⟩
  have h1 := congrFun (hyp.trans hph) i
  have hxm : red LOGQ m = fun j => (x j).cls := hm.trans hx.symm
  refine h1.trans ?_
  rw [red_add, Pi.add_apply]
  congr 1
  unfold ltSum
  simp only [red, Finset.sum_apply]
  push_cast
  refine sum_congr rfl fun t _ => ?_
  by_cases ha : ¬ (A.1.zero t = true ∧ A.2.zero t = true)
  · rw [if_pos ha]
    have ha' : Act A t := ha
    rw [if_pos ha', ← hxm]
    have e := congrFun (red_negconv (LOGQ := LOGQ) (R_Q.sval (pt t)) (autom (5^(A.1.off t).toNat) m)) i
    rw [red_autom, ← cls_red_sval] at e
    exact e
  · rw [if_neg ha]
    have ha' : ¬ Act A t := ha
    rw [if_neg ha']
    simp

/-- The integer polynomial with small slots that a ciphertext decrypts to. -/
theorem dec_lift (hn1 : 1 ≤ n) (hn : n ≤ 16) {s : Fin (2^(n+1)) → Int} (hs : Ternary s) {c : R_Q_square LOGQ (2^(n+1))}
    {w : Fin (2^(n+1)) → Int} (hw : R_Q_square.phase s c = red LOGQ w) :
    Ok (dec c s) fun p => (∀ k, (p k).Canonical) ∧ ∀ B : ℝ, (∀ i, ‖slots n w i‖ ≤ B) → B < 2^(LOGQ-1) →
      (fun k => (p k).sval) = w := by
  have hN : 2^(n+1) ≤ 2^30 := Nat.pow_le_pow_right (by norm_num) (by omega)
  refine Ok.mono (dec_spec hN hs c) fun p ⟨hp, hpp⟩ => ⟨hp, fun B hB hq => funext fun k => ?_⟩
  have h1 := coeff_le_slots hn1 (by omega) (m := fun k => (w k : ℝ)) hB k
  have h2 : |(w k : ℝ)| < 2^(LOGQ-1) := lt_of_le_of_lt h1 hq
  have h3 : |w k| < 2^(LOGQ-1) := by exact_mod_cast h2
  have h4 := abs_lt.1 h3
  exact sval_eq_of_cls (congrFun (hpp.trans hw) k) h4.1.le h4.2

/-- C33: on slots, `linear_transform` multiplies the vector of slots by the matrix and by
`2^LOGDELTA`, up to the error `ltErr`, as long as the result does not wrap around. -/
theorem C33_slots (RAND_MAX LOGDELTA : Nat) (hL : LOGDELTA < 64) (hQ : GoodQ LOGQ)
    (hn1 : 1 ≤ n) (hn : n ≤ 16) (s : Fin (2^(n+1)) → Int) (hs : ∀ k, s k = -1 ∨ s k = 0 ∨ s k = 1)
    (A : SD2 (2^n) S) (ρ : ℝ) (hA : LTMat A ρ) (hρ : 0 ≤ ρ)
    (hw : ρ * 2^LOGDELTA + 1/2 < 2^64) (hq : ρ * 2^LOGDELTA + 1/2 < 2^(LOGQ-1))
    (ct : R_Q_square LOGQ (2^(n+1))) (hct : ct.Canonical) (ω : Rng) :
    Ok (do
      let m ← dec ct s
      let r ← linTrans (LOGN := n+1) RAND_MAX LOGDELTA A ct s ω
      let m' ← dec r.1 s
      pure (m, m')) fun p => ∀ Z : ℝ, (∀ i, ‖slots n (fun k => (p.1 k).sval) i‖ ≤ Z) →
        2^LOGDELTA * (ρ * Z) + ltErr n S (univ.filter fun k => s k ≠ 0).card ρ (2^LOGDELTA) Z < 2^(LOGQ-1) →
        ∀ i, ‖slots n (fun k => (p.2 k).sval) i -
          2^LOGDELTA * (denC A.1 A.2).mulVec (slots n fun k => (p.1 k).sval) i‖ ≤
            ltErr n S (univ.filter fun k => s k ≠ 0).card ρ (2^LOGDELTA) Z := by
  have hN : 2^(n+1) ≤ 2^30 := Nat.pow_le_pow_right (by norm_num) (by omega)
  have hs' : Ternary s := hs
  refine Ok.bind (dec_spec hN hs' ct) fun m ⟨_, hm⟩ => ?_
  rw [cls_red_sval] at hm
  refine Ok.bind (linTrans_slots RAND_MAX LOGDELTA hL hQ.one hQ.two hn1 hn hs' hA hρ hw hq hct hm.symm ω)
    fun r ⟨_, w, hph, he⟩ => ?_
  refine Ok.bind (dec_lift hn1 hn hs' hph) fun m' ⟨_, hm'⟩ => Ok.pure fun Z hZ hsmall i => ?_
  have e := hm' _ (fun i => ?_) hsmall
  · simp only []
    rw [e]
    exact he Z hZ i
  · have g1 := he Z hZ i
    have hZ0 : 0 ≤ Z := (norm_nonneg _).trans (hZ i)
    have g2 := norm_sub_norm_le (slots n w i) (2^LOGDELTA * (denC A.1 A.2).mulVec (slots n (R_Q.sval m)) i)
    have g3 := mulVec_norm hA.row hZ0 (x := slots n (R_Q.sval m)) hZ i
    rw [norm_mul, norm_pow, Complex.norm_ofNat] at g2
    have g4 := mul_le_mul_of_nonneg_left g3 (show (0:ℝ) ≤ 2^LOGDELTA by positivity)
    have e0 : ltErr n S (univ.filter fun k => s k ≠ 0).card ρ (2^LOGDELTA) Z = ltErr n S (weight s) ρ (2^LOGDELTA) Z := rfl
    rw [e0]
    linarith

/-- C33: different offsets in the real and the imaginary part fail the assertion. -/
theorem C33_offsets_rejected (RAND_MAX LOGDELTA : Nat) (k : Nat) (s : Fin (2^k) → Int)
    (A : SD2 (2^(k-1)) (S+1)) (h : A.1.off 0 ≠ A.2.off 0) (ct : R_Q_square LOGQ (2^k)) (ω : Rng) :
    linTrans RAND_MAX LOGDELTA A ct s ω = throw Fault.assertFail := by
  unfold linTrans
  refine forUp_fault (k := 0) (le_refl 0) (Nat.succ_pos S) (P := fun _ _ => True) trivial
    (fun i _ _ hi => absurd hi (by omega)) fun st _ => ?_
  rw [dif_pos (Nat.succ_pos S)]
  unfold ltStep
  have e : decide (A.1.off ⟨0, Nat.succ_pos S⟩ = A.2.off ⟨0, Nat.succ_pos S⟩) = false := decide_eq_false h
  rw [e]
  rfl

/-- an entry of a complex sparse matrix -/
theorem denC_apply {H : Nat} {A : SD2 H S} (ho : A.1.off = A.2.off) (i j : Fin H) :
    denC A.1 A.2 i j = ∑ t, if shift (A.1.off t) i = j then (⟨A.1.vec t i, A.2.vec t i⟩ : ℂ) else 0 := by
  unfold denC SparseDiagonal.den dg
  apply Complex.ext
  · simp only [Complex.re_sum]
    exact sum_congr rfl fun t _ => by split <;> rfl
  · simp only [Complex.im_sum, ← ho]
    exact sum_congr rfl fun t _ => by split <;> rfl

/-- the row sums of a matrix are bounded by those of its diagonals -/
theorem row_le_diagonals {H : Nat} {A : SD2 H S} (ho : A.1.off = A.2.off) (i : Fin H) :
    ∑ j, ‖denC A.1 A.2 i j‖ ≤ ∑ t, ‖(⟨A.1.vec t i, A.2.vec t i⟩ : ℂ)‖ := by
  have e := denC_apply ho i
  calc ∑ j, ‖denC A.1 A.2 i j‖ ≤ ∑ j, ∑ t, if shift (A.1.off t) i = j then ‖(⟨A.1.vec t i, A.2.vec t i⟩ : ℂ)‖ else 0 := by
        refine sum_le_sum fun j _ => ?_
        rw [e j]
        refine (norm_sum_le _ _).trans (le_of_eq (sum_congr rfl fun t _ => ?_))
        split <;> simp
    _ = _ := by
        rw [sum_comm]
        refine sum_congr rfl fun t _ => ?_
        rw [sum_ite_eq, if_pos (mem_univ _)]

/-- a matrix that meets the hypotheses above -/
theorem exA_lt : LTMat (exA, exZ) 18 := by
  have hb : ∀ (t : Fin 3) (i : Fin 4), ‖(⟨exA.vec t i, exZ.vec t i⟩ : ℂ)‖ ≤ 6 := by
    intro t i
    have e : (⟨exA.vec t i, exZ.vec t i⟩ : ℂ) = ((t.val + i.val + 1 : ℕ) : ℂ) := by
      apply Complex.ext <;> simp [exA, exZ]
    rw [e, Complex.norm_natCast]
    have := t.isLt; have := i.isLt
    exact_mod_cast (by omega : t.val + i.val + 1 ≤ 6)
  refine ⟨rfl, exA_inRange, ⟨exA_flagSound, exZ_flagSound⟩, fun t i => (hb t i).trans (by norm_num), fun i => ?_⟩
  refine (row_le_diagonals (A := (exA, exZ)) rfl i).trans ((sum_le_sum fun t _ => hb t i).trans ?_)
  simp; norm_num

/-- The hypotheses of C33 hold for `N = 8`, a 100 bit modulus, the scaling factor `2^20` and messages
with slots up to `2^40`. -/
example : GoodQ 100 ∧ (18:ℝ) * 2^20 + 1/2 < 2^64 ∧ (18:ℝ) * 2^20 + 1/2 < 2^(100-1) ∧
    2^20 * ((18:ℝ) * 2^40) + ltErr 2 3 8 18 (2^20) (2^40) < 2^(100-1) := by
  refine ⟨by unfold GoodQ; omega, by norm_num, by norm_num, ?_⟩
  unfold ltErr
  norm_num

example (s : Fin (2^(2+1)) → Int) (hs : ∀ k, s k = -1 ∨ s k = 0 ∨ s k = 1) (ct : R_Q_square 100 (2^(2+1)))
    (hct : ct.Canonical) (ω : Rng) : Ok (linTrans (LOGN := 2+1) 7 20 (exA, exZ) ct s ω) fun _ => True := by
  obtain ⟨m, hm⟩ := red_surj (LOGQ := 100) (R_Q_square.phase s ct)
  refine Ok.mono (linTrans_slots (n := 2) 7 20 (by norm_num) ?_ ?_ (by norm_num) (by norm_num) hs exA_lt (by norm_num)
    (by norm_num) (by norm_num) hct hm.symm ω) fun _ _ => trivial
  · unfold ConvLOGQ; omega
  · unfold ConvLOGQ; omega

/-! ## C42 -/

/-- C42: with an uninitialised `ct_rot`, as the source leaves it, a diagonal with offset 0 that is not
skipped makes the overload with a key array read indeterminate memory. -/
theorem C42_uninitialised (LOGDELTA : Nat) (hL : LOGDELTA < 64) (hQ : GoodQ LOGQ) (hn1 : 1 ≤ n) (hn : n ≤ 16)
    (A : SD2 (2^n) S) (ρ : ℝ) (hA : LTMat A ρ)
    (hw : ρ * 2^LOGDELTA + 1/2 < 2^64) (hq : ρ * 2^LOGDELTA + 1/2 < 2^(LOGQ-1))
    (ct : R_Q_square LOGQ (2^(n+1))) (hct : ct.Canonical)
    (rkey : Fin S → R_Q_square (2 * LOGQ) (2^(n+1))) (hr : ∀ t, (rkey t).Canonical)
    (t0 : Fin S) (ha : ¬ (A.1.zero t0 = true ∧ A.2.zero t0 = true)) (ho : A.1.off t0 = 0) :
    linTransKeys (LOGN := n+1) LOGDELTA A ct rkey (fun _ => none) = ub := by
  refine linTransKeys_ub (k := n+1) LOGDELTA hL hQ.one hQ.two (by omega) (by omega) (A := A) (fun t _ => ?_) hct hr t0 ha ho
  have hlt : 2^LOGDELTA < 2^64 := Nat.pow_lt_pow_right (by norm_num) hL
  have hv : (BitVec.ofNat 64 (2^LOGDELTA)).toNat = 2^LOGDELTA := by
    rw [BitVec.toNat_ofNat, Nat.mod_eq_of_lt hlt]
  have hvr : ((BitVec.ofNat 64 (2^LOGDELTA)).toNat : ℝ) = 2^LOGDELTA := by rw [hv]; push_cast; rfl
  exact Ok.mono (encode_slots (LOGQ := LOGQ) hn1 (by omega) (A.1.vec t, A.2.vec t) (BitVec.ofNat 64 (2^LOGDELTA))
      (B := ρ) (hA.entry t) (by rw [hvr]; exact hw) (by rw [hvr]; exact hq)) fun _ h => h.1

/-- C42: when the memory happens to hold the ciphertexts `g`, a diagonal with offset 0 multiplies `g`,
not `ct`. `y` are the rotated ciphertexts of the other diagonals. -/
theorem C42_memory (LOGDELTA : Nat) (hL : LOGDELTA < 64) (hQ : GoodQ LOGQ) (k : Nat)
    (hk1 : 1 ≤ k) (hk : k ≤ 17) (s : Fin (2^k) → Int) (hs : ∀ k, s k = -1 ∨ s k = 0 ∨ s k = 1)
    (A : SD2 (2^(k-1)) S) (pt : Fin S → R_Q LOGQ (2^k))
    (hpt : ∀ t, ¬ (A.1.zero t = true ∧ A.2.zero t = true) →
      encode LOGQ (LOGN := k) (A.1.vec t, A.2.vec t) (BitVec.ofNat 64 (2^LOGDELTA)) = pure (pt t) ∧ (pt t).Canonical)
    (ct : R_Q_square LOGQ (2^k)) (rkey : Fin S → R_Q_square (2 * LOGQ) (2^k))
    (g y : Fin S → R_Q_square LOGQ (2^k)) (hg : ∀ t, (g t).Canonical) (hy : ∀ t, (y t).Canonical)
    (hrot : ∀ t, rot_ct ct (A.1.off t).toNat (rkey t) R_Q_square.setzero = pure (y t)) :
    Ok (do
      let r ← linTransKeys LOGDELTA A ct rkey (fun t => some (g t))
      dec r s) fun p => ∀ i, (p i).cls =
        ∑ t, if ¬ (A.1.zero t = true ∧ A.2.zero t = true) then
          negconv (fun j => (pt t j).cls) (R_Q_square.phase s (if A.1.off t = 0 then g t else y t)) i else 0 := by
  have hN : 2^k ≤ 2^30 := Nat.pow_le_pow_right (by norm_num) (by omega)
  refine Ok.bind (linTransKeys_spec LOGDELTA hL hQ.one hk1 hk hpt (ct := ct) (rkey := rkey)
    (mem := fun t => some (g t)) (src := fun t => if A.1.off t = 0 then g t else y t) (fun t _ => ?_) s)
    fun r ⟨_, hr⟩ => Ok.mono (dec_spec hN hs r) fun p ⟨_, hp⟩ i => ?_
  · by_cases h : A.1.off t = 0
    · simp only [h, if_true]; exact ⟨hg t, trivial⟩
    · simp only [h, if_false]; exact ⟨hy t, hrot t⟩
  · refine (congrFun (hp.trans hr) i).trans ?_
    rw [Finset.sum_apply]
    refine sum_congr rfl fun t _ => ?_
    by_cases ha : ¬ (A.1.zero t = true ∧ A.2.zero t = true)
    · rw [if_pos ha]
      have ha' : Act A t := ha
      rw [if_pos ha']; rfl
    · rw [if_neg ha]
      have ha' : ¬ Act A t := ha
      rw [if_neg ha']; rfl

/-- C42: without a diagonal of offset 0 the overload does what C33 describes, whatever memory holds.
What is missing from the expected property are the matrices with such a diagonal, for which it fails. -/
theorem C42_linear_transform_keys_partial (RAND_MAX LOGDELTA : Nat) (hL : LOGDELTA < 64) (hQ : GoodQ LOGQ) (k : Nat)
    (hk1 : 1 ≤ k) (hk : k ≤ 17) (s : Fin (2^k) → Int) (hs : ∀ k, s k = -1 ∨ s k = 0 ∨ s k = 1)
    (A : SD2 (2^(k-1)) S) (hno : ∀ t, ¬ (A.1.zero t = true ∧ A.2.zero t = true) → A.1.off t ≠ 0)
    (pt : Fin S → R_Q LOGQ (2^k))
    (hpt : ∀ t, ¬ (A.1.zero t = true ∧ A.2.zero t = true) →
      encode LOGQ (LOGN := k) (A.1.vec t, A.2.vec t) (BitVec.ofNat 64 (2^LOGDELTA)) = pure (pt t) ∧ (pt t).Canonical)
    (ct : R_Q_square LOGQ (2^k)) (hct : ct.Canonical) (rkey : Fin S → R_Q_square (2 * LOGQ) (2^k))
    (hkey : ∀ t, ∃ ω rk0 ω', (do
      let s_rot ← rotI s (fun _ => 0) (A.1.off t).toNat
      swkgen RAND_MAX s_rot s rk0 ω) = pure (rkey t, ω'))
    (mem : Fin S → Option (R_Q_square LOGQ (2^k))) :
    Ok (do
      let r ← linTransKeys LOGDELTA A ct rkey mem
      let m ← dec ct s
      let m' ← dec r s
      pure (m, m')) fun p => ∃ E : Fin (2^k) → Int,
        (∀ i, 2 * |E i| ≤ (∑ t, if ¬ (A.1.zero t = true ∧ A.2.zero t = true) then ∑ j, |(pt t j).sval| else 0) *
          (16 * 2^k + (univ.filter fun k => s k ≠ 0).card + 1)) ∧
        ∀ i, (p.2 i).Canonical ∧ (p.2 i).cls =
          (∑ t, if ¬ (A.1.zero t = true ∧ A.2.zero t = true) then
            negconv (fun j => (pt t j).cls) (autom (5^(A.1.off t).toNat) (fun j => (p.1 j).cls)) i else 0) + E i := by
  have hN : 2^k ≤ 2^30 := Nat.pow_le_pow_right (by norm_num) (by omega)
  have hs' : Ternary s := hs
  have hy : ∀ t : Fin S, ∃ y : R_Q_square LOGQ (2^k), ∃ E : Fin (2^k) → Int,
      rot_ct ct (A.1.off t).toNat (rkey t) R_Q_square.setzero = pure y ∧ y.Canonical ∧
      (∀ i, 2 * |E i| ≤ 16 * 2^k + weight s + 1) ∧
      R_Q_square.phase s y = autom (5^(A.1.off t).toNat) (R_Q_square.phase s ct) + red LOGQ E := by
    intro t
    obtain ⟨ω, rk0, ω', hk'⟩ := hkey t
    have hg := fun (j j' : Fin (2^k)) e => pos_inj_of_coprime (five_pow_coprime k (A.1.off t).toNat) j j' e
    rw [C25_rot_key k (by omega) _ s _ (fun i => by rcases hs i with h | h | h <;> omega), pure_bind] at hk'
    have hb : ∀ i, -2^31 < autom (5^(A.1.off t).toNat) s i ∧ autom (5^(A.1.off t).toNat) s i < 2^31 := fun i => by
      have := abs_le.1 (autom_abs hg hs'.abs_le i); omega
    obtain ⟨rk, e, hr, e', he', hph⟩ := swkgen_spec (LOGQ := LOGQ) RAND_MAX hN hb hs' rk0 ω
    rw [e] at hk'
    have hrk := pure_inj hk'
    subst hrk
    obtain ⟨y, ey, hyc, E, hE, hyp⟩ := rot_ct_spec hQ.two hk1 hk _ hr he' hph hct R_Q_square.setzero
    refine ⟨y, E, ey, hyc, fun i => ?_, hyp⟩
    have h3 := hE i
    rw [hs'.sum_abs] at h3
    push_cast at h3
    linarith
  choose y E hy1 hy2 hy3 hy4 using hy
  refine Ok.bind (linTransKeys_spec LOGDELTA hL hQ.one hk1 hk hpt (ct := ct) (rkey := rkey)
    (mem := mem) (src := y) (fun t ht => ⟨hy2 t, by rw [if_neg (hno t ht)]; exact hy1 t⟩) s) fun r ⟨_, hr⟩ => ?_
  refine Ok.bind (dec_spec hN hs' ct) fun x ⟨_, hx⟩ => ?_
  refine Ok.bind (dec_spec hN hs' r) fun z ⟨hz, hzp⟩ => Ok.pure
    ⟨∑ t, if Act A t then negconv (R_Q.sval (pt t)) (E t) else 0, fun i => ?_, fun i => ⟨hz i, ?_⟩⟩
  · rw [Finset.sum_apply, mul_comm 2, sum_mul]
    have h3 : |∑ t, (if Act A t then negconv (R_Q.sval (pt t)) (E t) else 0) i| * 2 ≤
        ∑ t, |(if Act A t then negconv (R_Q.sval (pt t)) (E t) else 0) i| * 2 := by
      rw [← sum_mul]
      exact mul_le_mul_of_nonneg_right (abs_sum_le_sum_abs _ _) (by norm_num)
    refine h3.trans (sum_le_sum fun t _ => ?_)
    by_cases ha : ¬ (A.1.zero t = true ∧ A.2.zero t = true)
    · have ha' : Act A t := ha
      rw [if_pos ha, if_pos ha']
      have h4 := negconv_abs_le (R_Q.sval (pt t)) (fun j => 2 * E t j)
        (B := 16 * 2^k + weight s + 1) (fun j => by rw [abs_mul]; exact hy3 t j) i
      have h5 : negconv (R_Q.sval (pt t)) (fun j => 2 * E t j) i = 2 * negconv (R_Q.sval (pt t)) (E t) i := by
        have : (fun j => 2 * E t j) = fun j => E t j + E t j := by funext j; ring
        rw [this, negconv_add_right]; ring
      rw [h5, abs_mul] at h4
      have : |(2:Int)| = 2 := rfl
      rw [this] at h4
      rw [mul_comm]
      exact h4
    · have ha' : ¬ Act A t := ha
      rw [if_neg ha, if_neg ha']
      simp
  · refine (congrFun (hzp.trans hr) i).trans ?_
    simp only [Finset.sum_apply]
    push_cast
    rw [← sum_add_distrib]
    refine sum_congr rfl fun t _ => ?_
    by_cases ha : ¬ (A.1.zero t = true ∧ A.2.zero t = true)
    · have ha' : Act A t := ha
      rw [if_pos ha, if_pos ha', if_pos ha', hy4 t, negconv_add, ← hx]
      show _ + negconv (R_Q.cls (pt t)) (red LOGQ (E t)) i = _
      congr 1
      rw [cls_red_sval, ← red_negconv]
      rfl
    · have ha' : ¬ Act A t := ha
      rw [if_neg ha, if_neg ha', if_neg ha']
      simp

/-- The matrix `exA` has a diagonal of offset 0 that is not skipped: by `C42_uninitialised` the overload
fails on it, and by `C42_memory` its result is the first diagonal times the content of memory. -/
example : (exA, exZ).1.off 0 = 0 ∧ ¬ ((exA, exZ).1.zero 0 = true ∧ (exA, exZ).2.zero 0 = true) := by
  constructor
  · simp [exA]
  · simp [exA]

/-- The keys that `C42_linear_transform_keys_partial` asks for are those that `swkgen` makes. -/
example (k : Nat) (hk : k ≤ 17) (s : Fin (2^k) → Int) (hs : ∀ k, s k = -1 ∨ s k = 0 ∨ s k = 1) (r : Nat) (ω : Rng) :
    ∃ rk ω', (do
      let s_rot ← rotI s (fun _ => 0) r
      swkgen (LOGQ := LOGQ) 7 s_rot s R_Q_square.setzero ω) = pure (rk, ω') := by
  have hs' : Ternary s := hs
  have hN : 2^k ≤ 2^30 := Nat.pow_le_pow_right (by norm_num) (by omega)
  have hg := fun (j j' : Fin (2^k)) e => pos_inj_of_coprime (five_pow_coprime k r) j j' e
  rw [C25_rot_key k (by omega) _ s _ (fun i => by rcases hs i with h | h | h <;> omega), pure_bind]
  have hb : ∀ i, -2^31 < autom (5^r) s i ∧ autom (5^r) s i < 2^31 := fun i => by
    have := abs_le.1 (autom_abs hg hs'.abs_le i); omega
  obtain ⟨rk, e, _⟩ := swkgen_spec (LOGQ := LOGQ) 7 hN hb hs' R_Q_square.setzero ω
  exact ⟨rk.1, rk.2, e⟩

/-! ## C34 -/

section
variable {H D : Nat}

/-- C34: grouping by two: one product for every two matrices, and the sequence of the products is the
sequence of the matrices. -/
theorem C34_group2 (hH : H ≤ 2^30) (hH1 : 1 ≤ H) (A : Fin D → SD2 H S) (hr : ∀ d, (A d).1.InRange)
    (ho : ∀ d, (A d).1.SameOff (A d).2) (hf : ∀ d, (A d).1.FlagSound ∧ (A d).2.FlagSound) (hD : D % 2 = 0) :
    Ok (group2 A) fun B => (∀ i : Fin (D/2), ∀ h0 : 2*i.val < D, ∀ h1 : 2*i.val+1 < D,
        denC (B i).1 (B i).2 = denC (A ⟨_, h1⟩).1 (A ⟨_, h1⟩).2 * denC (A ⟨_, h0⟩).1 (A ⟨_, h0⟩).2) ∧
      seqMat (mats B) (D/2) = seqMat (mats A) D ∧ ∀ i, (B i).1.InRange ∧ (B i).1.off = (B i).2.off := by
  refine Ok.mono (group2_spec hH hH1 (fun d => ⟨hr d, ho d, hf d⟩) hD) fun B hB => ⟨fun i h0 h1 => ?_, GroupOf.seq hD hB,
    fun i => ⟨(hB i).1.rng, (hB i).1.offEq⟩⟩
  rw [(hB i).2]
  simp only [seqMat, Matrix.mul_one]
  rw [mats_lt A h1, mats_lt A (show 2 * i.val + 0 < D from h0)]
  rfl

/-- C34: grouping by three. -/
theorem C34_group3 (hH : H ≤ 2^30) (hH1 : 1 ≤ H) (A : Fin D → SD2 H S) (hr : ∀ d, (A d).1.InRange)
    (ho : ∀ d, (A d).1.SameOff (A d).2) (hf : ∀ d, (A d).1.FlagSound ∧ (A d).2.FlagSound) (hD : D % 3 = 0) :
    Ok (group3 A) fun B => (∀ i : Fin (D/3), ∀ h0 : 3*i.val < D, ∀ h1 : 3*i.val+1 < D, ∀ h2 : 3*i.val+2 < D,
        denC (B i).1 (B i).2 = denC (A ⟨_, h2⟩).1 (A ⟨_, h2⟩).2 *
          (denC (A ⟨_, h1⟩).1 (A ⟨_, h1⟩).2 * denC (A ⟨_, h0⟩).1 (A ⟨_, h0⟩).2)) ∧
      seqMat (mats B) (D/3) = seqMat (mats A) D ∧ ∀ i, (B i).1.InRange ∧ (B i).1.off = (B i).2.off := by
  refine Ok.mono (group3_spec hH hH1 (fun d => ⟨hr d, ho d, hf d⟩) hD) fun B hB => ⟨fun i h0 h1 h2 => ?_, GroupOf.seq hD hB,
    fun i => ⟨(hB i).1.rng, (hB i).1.offEq⟩⟩
  rw [(hB i).2]
  simp only [seqMat, Matrix.mul_one]
  rw [mats_lt A h2, mats_lt A h1, mats_lt A (show 3 * i.val + 0 < D from h0)]
  rfl

/-- C34: grouping by four. -/
theorem C34_group4 (hH : H ≤ 2^30) (hH1 : 1 ≤ H) (A : Fin D → SD2 H S) (hr : ∀ d, (A d).1.InRange)
    (ho : ∀ d, (A d).1.SameOff (A d).2) (hf : ∀ d, (A d).1.FlagSound ∧ (A d).2.FlagSound) (hD : D % 4 = 0) :
    Ok (group4 A) fun B => (∀ i : Fin (D/4), ∀ h0 : 4*i.val < D, ∀ h1 : 4*i.val+1 < D, ∀ h2 : 4*i.val+2 < D,
        ∀ h3 : 4*i.val+3 < D,
        denC (B i).1 (B i).2 = denC (A ⟨_, h3⟩).1 (A ⟨_, h3⟩).2 * (denC (A ⟨_, h2⟩).1 (A ⟨_, h2⟩).2 *
          (denC (A ⟨_, h1⟩).1 (A ⟨_, h1⟩).2 * denC (A ⟨_, h0⟩).1 (A ⟨_, h0⟩).2))) ∧
      seqMat (mats B) (D/4) = seqMat (mats A) D ∧ ∀ i, (B i).1.InRange ∧ (B i).1.off = (B i).2.off := by
  refine Ok.mono (group4_spec hH hH1 (fun d => ⟨hr d, ho d, hf d⟩) hD) fun B hB => ⟨fun i h0 h1 h2 h3 => ?_, GroupOf.seq hD hB,
    fun i => ⟨(hB i).1.rng, (hB i).1.offEq⟩⟩
  rw [(hB i).2]
  simp only [seqMat, Matrix.mul_one]
  rw [mats_lt A h3, mats_lt A h2, mats_lt A h1, mats_lt A (show 4 * i.val + 0 < D from h0)]
  rfl

/-- C34: a number of matrices that the group size does not divide fails the assertion. -/
theorem C34_not_divisible (A : Fin D → SD2 H S) :
    (D % 2 ≠ 0 → group2 A = throw Fault.assertFail) ∧ (D % 3 ≠ 0 → group3 A = throw Fault.assertFail) ∧
    (D % 4 ≠ 0 → group4 A = throw Fault.assertFail) := by
  refine ⟨fun h => ?_, fun h => ?_, fun h => ?_⟩
  · unfold group2; rw [decide_eq_false h]; rfl
  · unfold group3; rw [decide_eq_false h]; rfl
  · unfold group4; rw [decide_eq_false h]; rfl

end

/-- C34: so does a group size other than 1 to 4. -/
theorem C34_group_size (RAND_MAX LOGDELTA G : Nat) (hG : G = 0 ∨ 5 ≤ G) {D k : Nat} (A : Fin D → SD2 (2^(k-1)) S)
    (ct : R_Q_square LOGQ (2^k)) (s : Fin (2^k) → Int) (ω : Rng) :
    groupedLT RAND_MAX LOGDELTA G A ct s ω = throw Fault.assertFail := by
  rcases hG with rfl | h
  · rfl
  · obtain ⟨g, rfl⟩ := Nat.exists_eq_add_of_le' h
    rfl

/-- C34: the grouped transform multiplies the slots by the product of all matrices and by
`2^LOGDELTA` for every group; `ltSize` bounds the accumulated error. -/
theorem C34_grouped (RAND_MAX LOGDELTA : Nat) (hL : LOGDELTA < 64) (hQ : GoodQ LOGQ)
    (hn1 : 1 ≤ n) (hn : n ≤ 16) (s : Fin (2^(n+1)) → Int) (hs : ∀ k, s k = -1 ∨ s k = 0 ∨ s k = 1)
    {D : Nat} (A : Fin D → SD2 (2^n) S) (ρ : ℝ) (hA : ∀ d, LTMat (A d) ρ) (hρ : 0 ≤ ρ)
    (G : Nat) (hG1 : 1 ≤ G) (hG : G ≤ 4) (hD : D % G = 0)
    (hw : ρ^G * 2^LOGDELTA + 1/2 < 2^64) (hq : ρ^G * 2^LOGDELTA + 1/2 < 2^(LOGQ-1))
    (ct : R_Q_square LOGQ (2^(n+1))) (hct : ct.Canonical) (ω : Rng) :
    Ok (do
      let m ← dec ct s
      let r ← groupedLT (LOGN := n+1) RAND_MAX LOGDELTA G A ct s ω
      let m' ← dec r.1 s
      pure (m, m')) fun p => ∀ Z : ℝ, (∀ i, ‖slots n (fun k => (p.1 k).sval) i‖ ≤ Z) →
        ltSize n (S^G) (univ.filter fun k => s k ≠ 0).card (ρ^G) (ρ^G) (2^LOGDELTA) Z (D/G) < 2^(LOGQ-1) →
        ∀ i, ‖slots n (fun k => (p.2 k).sval) i -
          (2^LOGDELTA)^(D/G) * (seqMat (mats A) D).mulVec (slots n fun k => (p.1 k).sval) i‖ ≤
            ltSize n (S^G) (univ.filter fun k => s k ≠ 0).card (ρ^G) (ρ^G) (2^LOGDELTA) Z (D/G) -
              (2^LOGDELTA * ρ^G)^(D/G) * Z := by
  have hN : 2^(n+1) ≤ 2^30 := Nat.pow_le_pow_right (by norm_num) (by omega)
  have hs' : Ternary s := hs
  refine Ok.bind (dec_spec hN hs' ct) fun m ⟨_, hm⟩ => ?_
  rw [cls_red_sval] at hm
  refine Ok.bind (groupedLT_slots RAND_MAX LOGDELTA hL hQ.one hQ.two hn1 hn hs' hA hρ hG1 hG hD hw hq hct hm.symm ω)
    fun r ⟨_, w, hph, he⟩ => ?_
  refine Ok.bind (dec_lift hn1 hn hs' hph) fun m' ⟨_, hm'⟩ => Ok.pure fun Z hZ hsmall i => ?_
  have e := hm' _ (fun i => ?_) hsmall
  · simp only []
    rw [e]
    exact he Z hZ i
  · have g1 := he Z hZ i
    have hZ0 : 0 ≤ Z := (norm_nonneg _).trans (hZ i)
    have g2 := norm_sub_norm_le (slots n w i) ((2^LOGDELTA)^(D/G) * (seqMat (mats A) D).mulVec (slots n (R_Q.sval m)) i)
    have g3 := seqMat_norm hρ hA (z := slots n (R_Q.sval m)) hZ (le_refl D) i
    rw [norm_mul, norm_pow, norm_pow, Complex.norm_ofNat] at g2
    have g4 := mul_le_mul_of_nonneg_left g3 (show (0:ℝ) ≤ (2^LOGDELTA)^(D/G) by positivity)
    have e1 : (2^LOGDELTA * ρ^G)^(D/G) * Z = (2^LOGDELTA)^(D/G) * (ρ^D * Z) := by
      rw [mul_pow, ← pow_mul ρ, Nat.mul_div_cancel' (Nat.dvd_of_mod_eq_zero hD)]; ring
    rw [e1] at g1
    have e0 : (univ.filter fun k => s k ≠ 0).card = weight s := rfl
    rw [e0]
    linarith

/-- Two copies of `exA`, grouped by two, meet the hypotheses of C34: `N = 8`, a 200 bit modulus, slots
up to `2^40`. -/
example : (∀ d : Fin 2, LTMat ((fun _ => (exA, exZ)) d) 18) ∧ GoodQ 200 ∧ (18:ℝ)^2 * 2^20 + 1/2 < 2^64 ∧
    ltSize 2 (3^2) 8 (18^2) (18^2) (2^20) (2^40) (2/2) < 2^(200-1) := by
  refine ⟨fun _ => exA_lt, by unfold GoodQ; omega, by norm_num, ?_⟩
  norm_num [ltSize, ltErr]

/-! ## C35 -/

/-- C35: the matrices of `CoeffToSlot`, one after the other, take the slots of `m` to a vector `w` with
`w + conj w` the coefficients `m[bitrev i]` and `-i (w - conj w)` the coefficients `m[bitrev i + N/2]`. -/
theorem C35_CoeffToSlot (hn1 : 1 ≤ n) (hn : n ≤ 26) (m : Fin (2^(n+1)) → ℝ) :
    Ok (ctsTable (n+1)) fun U => ∀ w : Fin (2^n) → ℂ,
      w = (seqMat (mats (H := 2^n) U) n).mulVec (fun i => slotOf m i) →
      ∀ (i : Fin (2^n)) (h0 : bitRev n i < 2^(n+1)) (h1 : bitRev n i + 2^n < 2^(n+1)),
        w i + (starRingEnd ℂ) (w i) = m ⟨_, h0⟩ ∧
        -Complex.I * (w i - (starRingEnd ℂ) (w i)) = m ⟨_, h1⟩ := by
  refine Ok.mono (ctsTable_spec hn) fun U hU w hw i h0 h1 => ?_
  have e := congrFun (hw.trans (cts_apply hn1 hU m)) i
  have e2 : w i = ⟨m ⟨_, h0⟩ / 2, m ⟨_, h1⟩ / 2⟩ := by
    rw [e]
    apply Complex.ext
    · simp [brvPair, pairC]
    · simp [brvPair, pairC]
  rw [e2]
  constructor
  · apply Complex.ext <;> simp
  · apply Complex.ext <;> simp

/-- C35: the polynomial `pti` of `CoeffToSlot` multiplies every slot by `-i`. -/
theorem C35_pti : Ok (ctsPti LOGQ (n+1)) fun p => (∀ k, (p k).Canonical) ∧
    ∃ w : Fin (2^(n+1)) → Int, (∀ k, (p k).cls = w k) ∧ ∀ i, slots n w i = -Complex.I := by
  refine Ok.mono ctsPti_spec fun p ⟨h1, h2⟩ => ⟨h1, ptiPoly n, fun k => ?_, slots_pti⟩
  exact congrFun h2 k

/-- C35: the matrices of `SlotToCoeff` take the two vectors of coefficients back to the slots. -/
theorem C35_SlotToCoeff (hn1 : 1 ≤ n) (hn : n ≤ 26) (m : Fin (2^(n+1)) → ℝ) :
    Ok (stcTable (n+1)) fun T => ∀ (u v : Fin (2^n) → ℂ),
      (∀ (i : Fin (2^n)) (h0 : bitRev n i < 2^(n+1)) (h1 : bitRev n i + 2^n < 2^(n+1)),
        u i = m ⟨_, h0⟩ ∧ v i = m ⟨_, h1⟩) →
      ∀ i, (seqMat (mats (H := 2^n) T.1) n).mulVec u i + (seqMat (mats (H := 2^n) T.2) n).mulVec v i = slotOf m i := by
  refine Ok.mono (stcTable_spec hn) fun T ⟨hU, hV⟩ u v huv i => ?_
  rw [stc_seq_one hU, stc_seq_I hn1 hV, Matrix.smul_mulVec, ← fftMat_slot m i]
  have hp : 2^(n+1) = 2^n + 2^n := by rw [pow_succ]; ring
  have e : brvPair n m = u + Complex.I • v := by
    funext j
    have hb := bitRev_lt n j.val
    obtain ⟨a, b⟩ := huv j (by omega) (by omega)
    rw [Pi.add_apply, Pi.smul_apply, smul_eq_mul, a, b]
    apply Complex.ext <;> simp [brvPair, pairC]
  show _ = (fftMat n n).mulVec (brvPair n m) i
  rw [e, Matrix.mulVec_add, Matrix.mulVec_smul]
  rfl

/-- For one slot (`n = 1`, `N = 4`) C35 speaks of real tables. -/
example : Ok (ctsTable (1+1)) fun _ => True :=
  Ok.mono (C35_CoeffToSlot (n := 1) (le_refl 1) (by norm_num) fun k => k) fun _ _ => trivial

/-! ## C47 -/

/-- C47: `mat_to_vecs` lists the generalised diagonals of a square matrix. -/
theorem C47_mat_to_vecs {N : Nat} (hN : N ≤ 2^30) (A : Fin N → Fin N → ℝ) :
    Ok (mat_to_vecs A) fun V => ∀ i j h, V i j = A j ⟨(i.val + j.val) % N, h⟩ := by
  unfold mat_to_vecs
  refine Ok.mono (tabM_spec (P := fun i (v : Fin N → ℝ) => ∀ j h, v j = A j ⟨(i + j.val) % N, h⟩) fun i hi => ?_)
    fun V hV i j h => hV i j h
  refine Ok.mono (tabM_spec (P := fun j (v : ℝ) => ∀ (hj : j < N) h, v = A ⟨j, hj⟩ ⟨(i + j) % N, h⟩) fun j hj => ?_)
    fun V hV j h => hV j j.isLt h
  rw [rd_of_lt A hj, pure_bind]
  unfold idxM
  rw [if_pos (by unfold INT_MAX; omega), pure_bind, rd_of_lt _ (Nat.mod_lt _ (by omega))]
  exact Ok.pure fun _ _ => rfl

end EvalRound

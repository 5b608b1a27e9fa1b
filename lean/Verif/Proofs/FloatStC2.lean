import Verif.Proofs.FloatLT2

/-! # CoeffToSlot and SlotToCoeff in binary64, in the norm of the vector of slots -/

namespace EvalRound
open Z_Q Finset

variable {LOGQ n : Nat} [NeZero LOGQ]

theorem ctsWithF_real2 {L : Libm} (hLib : L.Accurate) (R LOGDELTA : Nat) (hL : LOGDELTA < 63) (h1 : ConvLOGQ LOGQ) (h2 : ConvLOGQ (2 * LOGQ))
    (hn1 : 1 ≤ n) (hn : n ≤ 16) {s : Fin (2^(n+1)) → Int} (hs : Ternary s)
    {U : Fin n → Fac (n+1)} (hU : NearFactors (H := 2^n) U (ctsR n)) {G : Nat} (hG1 : 1 ≤ G) (hG : G ≤ 4)
    (hD : n % G = 0) (hLQ : LOGDELTA + 2 < LOGQ)
    {ct : R_Q_square LOGQ (2^(n+1))} (hct : ct.Canonical) {m : Fin (2^(n+1)) → Int}
    (hm : R_Q_square.phase s ct = red LOGQ m) (ω : Rng) :
    Ok (ctsWithF (LOGN := n+1) L R LOGDELTA G U ct s ω) fun r => r.1.1.Canonical ∧ r.1.2.Canonical ∧
      ∃ w0 w1 : Fin (2^(n+1)) → Int,
      R_Q_square.phase s r.1.1 = red LOGQ w0 ∧ R_Q_square.phase s r.1.2 = red LOGQ w1 ∧ ∃ a0 a1 : Fin (2^n) → ℝ,
      (∀ i, ‖slots n w0 i - (a0 i : ℂ)‖ ≤ ksErr n (weight s)) ∧ (∀ i, ‖slots n w1 i - (a1 i : ℂ)‖ ≤ ksErr n (weight s)) ∧
      ∀ Z : ℝ, l2 (slots n m) ≤ Z → ∀ i : Fin (2^n),
        |a0 i - (2^LOGDELTA)^(n/G) * (brvPair n (fun k => (m k : ℝ)) i).re| ≤ 2 * grpErr2 n (weight s) G (Real.sqrt 2 / 2) ((1/2)^G) (2^LOGDELTA) Z ∧
        |a1 i - (2^LOGDELTA)^(n/G) * (brvPair n (fun k => (m k : ℝ)) i).im| ≤ 2 * grpErr2 n (weight s) G (Real.sqrt 2 / 2) ((1/2)^G) (2^LOGDELTA) Z := by
  unfold ctsWithF
  have hN : 2^(n+1) ≤ 2^30 := Nat.pow_le_pow_right (by norm_num) (by omega)
  have key := groupedLTF_l2 hLib R LOGDELTA (by omega) h1 h2 hn1 hn hs (D := n) (A := U) hU (σ := Real.sqrt 2 / 2) (by positivity) (fun d hd => ctsR_op hn1 hd)
    hG1 hG hD (β := (1/2)^G) (by positivity) (fun i hi => ctsR_entry hn1 (div_blk hD hi))
    (twoF_hw (pow_le_one₀ (by norm_num) (by norm_num)) hG hL) (twoF_hq (pow_le_one₀ (by norm_num) (by norm_num)) hG hLQ) hct hm ω
  refine Ok.bind key ?_
  rintro ⟨U0, ω1⟩ ⟨hU0, w, hph, hwe⟩
  simp only [] at hU0 hph ⊢
  rw [conjI_spec Nat.one_le_two_pow s _ (fun i => by rcases hs i with h | h | h <;> omega), pure_bind]
  refine Ok.bind (swkgen_spec R hN (fun i => ?_) hs R_Q_square.setzero ω1) fun ck ⟨hc, e, he, hcp⟩ => ?_
  · have := abs_le.1 (autom_abs (conj_pos Nat.one_le_two_pow) hs.abs_le i); omega
  refine Ok.bind (conj_ct_spec h2 (by omega) (by omega) hc he hcp hU0 _) fun y ⟨hy, E, hE, hyp⟩ => ?_
  refine Ok.bind ctsPti_spec fun p ⟨hp, hpc⟩ => ?_
  rw [R_Q_square.copy_eq]
  refine Ok.bind (mulR_phase h1 (by omega) (by omega) (x := R_Q_square.sub U0 y) ⟨R_Q.canonical_sub _ _, R_Q.canonical_sub _ _⟩ hp s)
    fun c1 ⟨hc1, hc1p⟩ => Ok.pure ⟨⟨R_Q.canonical_add _ _, R_Q.canonical_add _ _⟩, hc1, ?_⟩
  have hE' : ∀ i, 2 * |E i| ≤ 16 * 2^(n+1) + weight s + 1 := fun i => by
    have h3 := hE i
    rw [hs.sum_abs] at h3
    push_cast at h3
    linarith
  have hyr : R_Q_square.phase s y = red LOGQ (autom (2 * 2^(n+1) - 1) w + E) := by
    rw [hyp, hph, ← red_autom, red_add]
  refine ⟨w + (autom (2 * 2^(n+1) - 1) w + E), negconv (w - (autom (2 * 2^(n+1) - 1) w + E)) (ptiPoly n), ?_, ?_,
    fun i => 2 * (slots n w i).re, fun i => 2 * (slots n w i).im, fun i => ?_, fun i => ?_, ?_⟩
  · simp only []; rw [phase_add, hph, hyr, ← red_add]
  · simp only []; rw [hc1p, phase_sub, hph, hyr, hpc, red_negconv, red_sub]
  · have hee := slots_ksErr hE' i
    rw [slots_add, slots_add, slots_conj]
    have e2 : slots n w i + ((starRingEnd ℂ) (slots n w i) + slots n E i) - ((2 * (slots n w i).re : ℝ) : ℂ) = slots n E i := by
      have := Complex.add_conj (slots n w i)
      push_cast at this ⊢
      linear_combination this
    rw [e2]; exact hee
  · have hee := slots_ksErr hE' i
    rw [slots_negconv, slots_sub, slots_add, slots_conj, slots_pti]
    have e2 : (slots n w i - ((starRingEnd ℂ) (slots n w i) + slots n E i)) * -Complex.I - ((2 * (slots n w i).im : ℝ) : ℂ) =
        slots n E i * Complex.I := by
      have := Complex.sub_conj (slots n w i)
      push_cast at this ⊢
      linear_combination (-Complex.I) * this - 2 * ((slots n w i).im : ℂ) * Complex.I_mul_I
    rw [e2, norm_mul, Complex.norm_I, mul_one]; exact hee
  intro Z hZ i
  have hi := (le_l2 _ i).trans (hwe Z hZ)
  rw [Pi.sub_apply, Pi.smul_apply, smul_eq_mul] at hi
  have happ : (seqMat (ctsR n) n).mulVec (slots n m) i = brvPair n (fun k => (m k : ℝ)) i / 2 :=
    congrFun (ctsR_apply hn1 (fun k => (m k : ℝ))) i
  rw [happ] at hi
  have hg : ‖slots n w i - (2^LOGDELTA)^(n/G) * (brvPair n (fun k => (m k : ℝ)) i / 2)‖ ≤
      grpErr2 n (weight s) G (Real.sqrt 2 / 2) ((1/2)^G) (2^LOGDELTA) Z := by
    unfold grpErr2
    exact hi
  dsimp only
  generalize brvPair n (fun k => (m k : ℝ)) i = b at hg ⊢
  generalize slots n w i = x at hg ⊢
  have ec : ((2:ℂ)^LOGDELTA)^(n/G) * (b/2) = (((2:ℝ)^LOGDELTA)^(n/G) / 2 : ℝ) * b := by push_cast; ring
  rw [ec] at hg
  constructor
  · have g1 := (Complex.abs_re_le_norm _).trans hg
    rw [Complex.sub_re, Complex.re_ofReal_mul] at g1
    have e3 : 2 * x.re - (2^LOGDELTA)^(n/G) * b.re = 2 * (x.re - (2^LOGDELTA)^(n/G) / 2 * b.re) := by ring
    rw [e3, abs_mul, abs_two]
    linarith
  · have g1 := (Complex.abs_im_le_norm _).trans hg
    rw [Complex.sub_im, Complex.im_ofReal_mul] at g1
    have e3 : 2 * x.im - (2^LOGDELTA)^(n/G) * b.im = 2 * (x.im - (2^LOGDELTA)^(n/G) / 2 * b.im) := by ring
    rw [e3, abs_mul, abs_two]
    linarith

theorem stcWithF_slots2 {L : Libm} (hLib : L.Accurate) (R LOGDELTA : Nat) (hL : LOGDELTA < 63) (h1 : ConvLOGQ LOGQ) (h2 : ConvLOGQ (2 * LOGQ))
    (hn1 : 1 ≤ n) (hn : n ≤ 16) {s : Fin (2^(n+1)) → Int} (hs : Ternary s)
    {U V : Fin n → Fac (n+1)} (hU : NearFactors (H := 2^n) U (stcR n fun _ => 1))
    (hV : NearFactors (H := 2^n) V (stcR n unitI)) {G : Nat} (hG1 : 1 ≤ G) (hG : G ≤ 4)
    (hD : n % G = 0) (hLQ : LOGDELTA + 2 < LOGQ)
    {ct0 ct1 : R_Q_square LOGQ (2^(n+1))} (hct0 : ct0.Canonical) (hct1 : ct1.Canonical) {m0 m1 : Fin (2^(n+1)) → Int}
    (hm0 : R_Q_square.phase s ct0 = red LOGQ m0) (hm1 : R_Q_square.phase s ct1 = red LOGQ m1) (ω : Rng) :
    Ok (stcWithF (LOGN := n+1) L R LOGDELTA G U V ct0 ct1 s ω) fun r => r.1.Canonical ∧
      ∃ w : Fin (2^(n+1)) → Int, R_Q_square.phase s r.1 = red LOGQ w ∧
      ∀ Z : ℝ, l2 (slots n m0) ≤ Z → l2 (slots n m1) ≤ Z →
        l2 (slots n w - ((2:ℂ)^LOGDELTA)^(n/G) • (fftMat n n).mulVec (fun j => slots n m0 j + Complex.I * slots n m1 j)) ≤
          2 * grpErr2 n (weight s) G (Real.sqrt 2) 1 (2^LOGDELTA) Z := by
  unfold stcWithF
  have hw := twoF_hw (LD := LOGDELTA) le_rfl hG hL
  have hq := twoF_hq (LD := LOGDELTA) le_rfl hG hLQ
  refine Ok.bind (groupedLTF_l2 hLib R LOGDELTA (by omega) h1 h2 hn1 hn hs (D := n) (A := U) hU (Real.sqrt_nonneg 2) (fun d hd => stcR_op (fun _ => norm_one) hd)
    hG1 hG hD zero_le_one (fun i _ => stcR_entry (fun _ => norm_one) _ _) hw hq hct0 hm0 ω) fun a ⟨ha, wa, hpa, hea⟩ => ?_
  refine Ok.bind (groupedLTF_l2 hLib R LOGDELTA (by omega) h1 h2 hn1 hn hs (D := n) (A := V) hV (Real.sqrt_nonneg 2) (fun d hd => stcR_op norm_unitI hd)
    hG1 hG hD zero_le_one (fun i _ => stcR_entry norm_unitI _ _) hw hq hct1 hm1 a.2) fun b ⟨hb, wb, hpb, heb⟩ => ?_
  refine Ok.pure ⟨⟨R_Q.canonical_add _ _, R_Q.canonical_add _ _⟩, wa + wb, ?_, fun Z hZ0 hZ1 => ?_⟩
  · simp only []; rw [phase_add, hpa, hpb, red_add]
  have ga := hea Z hZ0
  have gb := heb Z hZ1
  have ea : seqMat (stcR n fun _ => 1) n = fftMat n n := by rw [stcR_seq, prod_const_one, one_smul]
  have eb : seqMat (stcR n unitI) n = Complex.I • fftMat n n := by
    rw [stcR_seq]
    unfold unitI
    rw [prod_ite_eq' (range n) 0 (fun _ => Complex.I), if_pos (mem_range.2 (by omega))]
  rw [ea] at ga
  rw [eb, Matrix.smul_mulVec] at gb
  have e3 : (fun j => slots n m0 j + Complex.I * slots n m1 j) = slots n m0 + Complex.I • slots n m1 := rfl
  have e5 : slots n (wa + wb) = slots n wa + slots n wb := funext fun i => slots_add wa wb i
  rw [e3, Matrix.mulVec_add, Matrix.mulVec_smul, e5]
  have e4 : slots n wa + slots n wb - ((2:ℂ)^LOGDELTA)^(n/G) • ((fftMat n n).mulVec (slots n m0) +
      Complex.I • (fftMat n n).mulVec (slots n m1)) =
      (slots n wa - ((2:ℂ)^LOGDELTA)^(n/G) • (fftMat n n).mulVec (slots n m0)) +
      (slots n wb - ((2:ℂ)^LOGDELTA)^(n/G) • (Complex.I • (fftMat n n).mulVec (slots n m1))) := by
    rw [smul_add]; abel
  rw [e4]
  refine (l2_add_le _ _).trans ((add_le_add ga gb).trans (le_of_eq ?_))
  unfold grpErr2
  ring

theorem stcWithF_coeff2 {L : Libm} (hLib : L.Accurate) (R LOGDELTA : Nat) (hL : LOGDELTA < 63) (h1 : ConvLOGQ LOGQ) (h2 : ConvLOGQ (2 * LOGQ))
    (hn1 : 1 ≤ n) (hn : n ≤ 16) {s : Fin (2^(n+1)) → Int} (hs : Ternary s)
    {U V : Fin n → Fac (n+1)} (hU : NearFactors (H := 2^n) U (stcR n fun _ => 1))
    (hV : NearFactors (H := 2^n) V (stcR n unitI)) {G : Nat} (hG1 : 1 ≤ G) (hG : G ≤ 4)
    (hD : n % G = 0) (hLQ : LOGDELTA + 2 < LOGQ)
    {ct0 ct1 : R_Q_square LOGQ (2^(n+1))} (hct0 : ct0.Canonical) (hct1 : ct1.Canonical) {m0 m1 : Fin (2^(n+1)) → Int}
    (hm0 : R_Q_square.phase s ct0 = red LOGQ m0) (hm1 : R_Q_square.phase s ct1 = red LOGQ m1) (ω : Rng) :
    Ok (stcWithF (LOGN := n+1) L R LOGDELTA G U V ct0 ct1 s ω) fun r => r.1.Canonical ∧
      ∃ w : Fin (2^(n+1)) → Int, R_Q_square.phase s r.1 = red LOGQ w ∧
      ∀ (m : Fin (2^(n+1)) → ℝ) (Z ε : ℝ), l2 (slots n m0) ≤ Z → l2 (slots n m1) ≤ Z →
        (∀ i, ‖slots n m0 i - ((brvPair n m i).re : ℂ)‖ ≤ ε) → (∀ i, ‖slots n m1 i - ((brvPair n m i).im : ℂ)‖ ≤ ε) →
        ∀ k, |(w k : ℝ) - (2^LOGDELTA)^(n/G) * m k| ≤
          2 * grpErr2 n (weight s) G (Real.sqrt 2) 1 (2^LOGDELTA) Z / Real.sqrt 2 ^ n + (2^LOGDELTA)^(n/G) * (2 * ε) := by
  refine Ok.mono (stcWithF_slots2 hLib R LOGDELTA hL h1 h2 hn1 hn hs hU hV hG1 hG hD hLQ hct0 hct1 hm0 hm1 ω)
    fun r ⟨hr, w, hp, he⟩ => ⟨hr, w, hp, fun m Z ε hZ0 hZ1 hε0 hε1 k => ?_⟩
  set x : Fin (2^n) → ℂ := fun j => slots n m0 j + Complex.I * slots n m1 j with hx
  have hslot : (fun i : Fin (2^n) => slotOf (fun k => (w k : ℝ) - (2^LOGDELTA)^(n/G) * unPair n x k) i) =
      slots n w - ((2:ℂ)^LOGDELTA)^(n/G) • (fftMat n n).mulVec x := by
    funext i
    have e1 : slotOf (fun k => (w k : ℝ) - (2^LOGDELTA)^(n/G) * unPair n x k) i =
        slots n w i - (2^LOGDELTA)^(n/G) * slotOf (unPair n x) i := by
      have h := slotOf_add (fun k => (w k : ℝ) - (2^LOGDELTA)^(n/G) * unPair n x k)
        (fun k => unPair n x k * (2^LOGDELTA)^(n/G)) i
      have h3 := slotOf_smul (unPair n x) ((2^LOGDELTA)^(n/G)) i
      rw [h3] at h
      have h4 : (fun k => (w k : ℝ) - (2^LOGDELTA)^(n/G) * unPair n x k + unPair n x k * (2^LOGDELTA)^(n/G)) =
          fun k => (w k : ℝ) := by
        funext k; ring
      rw [h4] at h
      show _ = slotOf (fun k => (w k : ℝ)) i - _
      rw [h]; push_cast; ring
    have e2 : slotOf (unPair n x) i = (fftMat n n).mulVec x i := by
      rw [← fftMat_slot]
      exact congrArg (fun y => (fftMat n n).mulVec y i) (brvPair_unPair x)
    rw [e1, e2, Pi.sub_apply, Pi.smul_apply, smul_eq_mul]
  have hc : |(w k : ℝ) - (2^LOGDELTA)^(n/G) * unPair n x k| ≤
      2 * grpErr2 n (weight s) G (Real.sqrt 2) 1 (2^LOGDELTA) Z / Real.sqrt 2 ^ n := by
    have g1 := he Z hZ0 hZ1
    rw [← hslot, slots_l2] at g1
    have g2 := abs_le_pair (fun k => (w k : ℝ) - (2^LOGDELTA)^(n/G) * unPair n x k) k
    have hpos : (0:ℝ) < Real.sqrt 2 ^ n := by positivity
    rw [le_div_iff₀ hpos, mul_comm]
    exact (mul_le_mul_of_nonneg_left g2 hpos.le).trans g1
  have hd : ∀ j, ‖x j - brvPair n m j‖ ≤ 2 * ε := by
    intro j
    have e2 : brvPair n m j = ((brvPair n m j).re : ℂ) + Complex.I * ((brvPair n m j).im : ℂ) := by
      rw [mul_comm]; exact (Complex.re_add_im _).symm
    have e3 : x j - brvPair n m j = (slots n m0 j - ((brvPair n m j).re : ℂ)) +
        Complex.I * (slots n m1 j - ((brvPair n m j).im : ℂ)) := by
      rw [hx]; conv_lhs => rw [e2]
      ring
    rw [e3]
    refine (norm_add_le _ _).trans ?_
    rw [norm_mul, Complex.norm_I, one_mul]
    exact (add_le_add (hε0 j) (hε1 j)).trans (le_of_eq (by ring))
  have hu := unPair_le hd k
  rw [unPair_brvPair] at hu
  have e4 : (w k : ℝ) - (2^LOGDELTA)^(n/G) * m k = ((w k : ℝ) - (2^LOGDELTA)^(n/G) * unPair n x k) +
      (2^LOGDELTA)^(n/G) * (unPair n x k - m k) := by ring
  rw [e4]
  refine (abs_add_le _ _).trans (add_le_add hc ?_)
  rw [abs_mul, abs_of_nonneg (a := ((2:ℝ)^LOGDELTA)^(n/G)) (by positivity)]
  exact mul_le_mul_of_nonneg_left hu (by positivity)

end EvalRound

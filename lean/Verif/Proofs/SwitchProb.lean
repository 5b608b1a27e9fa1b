import Verif.Props.EncNoise
import Verif.Props.Rot

/-!
# Key switching with the noise of the key in view

Helper lemmas for C99.
-/

set_option linter.unusedSectionVars false

namespace EvalRound
open Finset Z_Q

variable {LOGQ N : Nat} [NeZero LOGQ]

/-- `swkgen` on the draws `t`, `u`: the noise of the key is made of `u` -/
theorem swkgen_stream {R : Nat} (hN : N ≤ 2^30) {s_fr s_to : Fin N → Int}
    (hf : ∀ i, -2^31 < s_fr i ∧ s_fr i < 2^31) (hs : Ternary s_to) (swk0 : R_Q_square (2 * LOGQ) N)
    (t : Fin N → Fin (nlimb (2 * LOGQ)) → Fin 5 → Fin (R+1)) (u : Fin N → Fin 2 → Fin (R+1)) (ρ : Rng) :
    Ok (swkgen R s_fr s_to swk0 (maskStream t (noiseStream u ρ))) fun r => r.1.Canonical ∧ r.2 = ρ ∧
      R_Q_square.phase s_to r.1 = red (2 * LOGQ) ((2^LOGQ : Int) • s_fr + fun i => noiseVal (u i 0) (u i 1)) := by
  unfold swkgen
  have h1w : (1 : W).toNat = 1 := rfl
  have hL : 0 < LOGQ := Nat.pos_of_ne_zero (NeZero.ne LOGQ)
  have hone : (ofW 1 : Z_Q LOGQ).Canonical := by
    unfold Canonical; rw [val_setLow, h1w]; exact Nat.one_lt_two_pow hL.ne'
  refine Ok.bind (shift_left_spec (LT := 2 * LOGQ) hone setzero (by omega)) fun P hP => ?_
  rw [val_setLow, h1w, one_mul, show 2 * LOGQ - LOGQ = LOGQ by omega] at hP
  have hPc : P.Canonical := by
    unfold Canonical; rw [hP]; exact Nat.pow_lt_pow_right (by norm_num) (by omega)
  refine Ok.bind (P := fun Ps : R_Q (2 * LOGQ) N => R_Q.cls Ps = red (2 * LOGQ) ((2^LOGQ : Int) • s_fr)) ?_ ?_
  · refine Ok.mono (tabM_spec (P := fun i (z : Z_Q (2 * LOGQ)) => ∀ h : i < N,
      z.cls = ((2^LOGQ * s_fr ⟨i, h⟩ : Int) : ZMod (2^(2 * LOGQ)))) ?_) fun a ha => ?_
    · intro i hi
      rw [rd_of_lt _ hi, pure_bind]
      refine Ok.mono (swkEntry_spec P hPc (hf ⟨i, hi⟩).1 (hf ⟨i, hi⟩).2) fun z hz _ => ?_
      rw [hz.2]; unfold cls; rw [hP]; push_cast; ring
    · funext i
      exact ha i i.isLt
  · intro Ps hPs
    obtain ⟨r, hr, hρ, -, m, hm, hm2⟩ := C98_enc hN t u ρ Ps s_to hs swk0
    obtain ⟨r', hr', hc, -⟩ := enc_spec R hN hs Ps swk0 (maskStream t (noiseStream u ρ))
    have er : r = r' := pure_inj (hr.symm.trans hr')
    subst er
    obtain ⟨m', hm', -, hph⟩ := dec_spec hN hs r.1
    have em : m = m' := pure_inj (hm.symm.trans hm')
    subst em
    refine ⟨r, hr, hc, hρ, ?_⟩
    rw [← hph, red_add, ← hPs]
    funext i
    exact (hm2 i).2

/-- `switch_spec` with the error in terms of the product of the key's noise with `c` -/
theorem switch_err {k : Nat} (h : ConvLOGQ (2 * LOGQ)) (hk1 : 1 ≤ k) (hk : k ≤ 17)
    {swk : R_Q_square (2 * LOGQ) (2^k)} (hswk : swk.Canonical) {s s_fr e : Fin (2^k) → Int}
    (hph : R_Q_square.phase s swk = red (2 * LOGQ) ((2^LOGQ : Int) • s_fr + e))
    {cc : R_Q (2 * LOGQ) (2^k)} (hcc : R_Q.Canonical cc) {c : Fin (2^k) → Int}
    (hc : R_Q.cls cc = red (2 * LOGQ) c) (ct0 : R_Q_square LOGQ (2^k)) :
    Ok (R_Q_square.mulR swk cc >>= fun x => RS x ct0) fun y => y.Canonical ∧
      ∃ E : Fin (2^k) → Int,
        (∀ i, 2 * 2^LOGQ * |E i| ≤ 2 * |negconv e c i| + 2^LOGQ * ((∑ j, |s j|) + 1)) ∧
        R_Q_square.phase s y = red LOGQ (negconv s_fr c + E) := by
  have hd : 2 * LOGQ - LOGQ = LOGQ := by omega
  refine Ok.bind (mulR_phase h hk1 hk hswk hcc s) fun x ⟨hx, hxp⟩ => ?_
  refine Ok.mono (RS_phase (by omega) x hx ct0 s) fun y ⟨hy, hR⟩ => ⟨hy, ?_⟩
  obtain ⟨m, hm⟩ := red_surj (R_Q_square.phase s y)
  obtain ⟨E1, hE1, heq⟩ := hR m hm
  rw [hd] at hE1 heq
  rw [hxp, hph, hc, ← red_negconv, ← red_add, add_negconv, smul_negconv] at heq
  have hdiv : ∀ i, ∃ E : Int, negconv e c i + E1 i = 2^LOGQ * E := by
    intro i
    have h1 := congrFun heq i
    simp only [red] at h1
    rw [ZMod.intCast_eq_intCast_iff_dvd_sub] at h1
    have h2 : (2^LOGQ : Int) ∣ ((2^(2*LOGQ) : Nat) : Int) := by
      push_cast; exact pow_dvd_pow _ (by omega)
    have h3 := h2.trans h1
    simp only [Pi.add_apply, Pi.smul_apply, smul_eq_mul] at h3
    have : (2:Int)^LOGQ * negconv s_fr c i + negconv e c i + E1 i - 2^LOGQ * m i =
      2^LOGQ * (negconv s_fr c i - m i) + (negconv e c i + E1 i) := by ring
    rw [this] at h3
    exact (dvd_add_right (dvd_mul_right _ _)).1 h3
  choose E hE using hdiv
  refine ⟨E, fun i => ?_, ?_⟩
  · have b2 := hE1 i
    have b3 := abs_add_le (negconv e c i) (E1 i)
    have b4 : |negconv e c i + E1 i| = 2^LOGQ * |E i| := by
      rw [hE, abs_mul, abs_of_nonneg (by positivity)]
    rw [b4] at b3
    linarith
  · rw [← hm]
    apply red_unscale (LF := 2 * LOGQ) (LT := LOGQ) (by omega)
    rw [hd, heq]
    congr 1
    funext i
    simp only [Pi.add_apply, Pi.smul_apply, smul_eq_mul, mul_add]
    rw [← hE i]; ring

theorem ks_err {k : Nat} (h : ConvLOGQ (2 * LOGQ)) (hk1 : 1 ≤ k) (hk : k ≤ 17)
    {swk : R_Q_square (2 * LOGQ) (2^k)} (hswk : swk.Canonical) {s s_fr e : Fin (2^k) → Int}
    (hph : R_Q_square.phase s swk = red (2 * LOGQ) ((2^LOGQ : Int) • s_fr + e))
    {ct : R_Q_square LOGQ (2^k)} (hct : ct.Canonical) :
    Ok (ks swk ct) fun y => y.Canonical ∧ ∃ E : Fin (2^k) → Int,
      (∀ i, 2 * 2^LOGQ * |E i| ≤ 2 * |negconv e (fun j => ((ct.2 j).val : Int)) i| + 2^LOGQ * ((∑ j, |s j|) + 1)) ∧
      R_Q_square.phase s y = R_Q_square.phase s_fr ct + red LOGQ E := by
  unfold ks
  simp only [R_Q_square.copy_eq]
  have key := switch_err h hk1 hk hswk hph (cc := fun i => zext (ct.2 i))
    (fun i => (zext_spec (hct.2 i)).1) (c := fun i => ((ct.2 i).val : Int)) (by
      rw [R_Q_cls_val]; funext i; simp only [red]; rw [(zext_spec (hct.2 i)).2]) R_Q_square.setzero
  rw [← bind_assoc]
  refine Ok.bind key fun y ⟨hy, E, hE, hyp⟩ => ?_
  refine Ok.pure ⟨⟨R_Q.canonical_add _ _, R_Q.canonical_add _ _⟩, E, hE, ?_⟩
  rw [phase_add, hyp, phase_eq, phase_eq]
  simp only [R_Q.cls_setzero]
  rw [red_add, red_negconv, ← R_Q_cls_val]
  have : negconv (red LOGQ s) (0 : Fin (2^k) → ZMod (2^LOGQ)) = 0 := by
    have := negconv_smul (red LOGQ s) (0 : Fin (2^k) → ZMod (2^LOGQ)) 0
    simpa using this
  rw [this]; abel

/-- `Mul` with the error in terms of the product of the key's noise with a polynomial `c` that
depends on the ciphertexts only -/
theorem Mul_err {k : Nat} (h : ConvLOGQ LOGQ) (h2 : ConvLOGQ (2 * LOGQ)) (hk1 : 1 ≤ k) (hk : k ≤ 17)
    {ct1 ct2 : R_Q_square LOGQ (2^k)} (hct1 : ct1.Canonical) (hct2 : ct2.Canonical) :
    ∃ c : Fin (2^k) → Int, (∀ i, |c i| ≤ 2^(LOGQ-1)) ∧
    ∀ {evk : R_Q_square (2 * LOGQ) (2^k)} (_ : evk.Canonical) {s s2 e : Fin (2^k) → Int}
      (_ : red LOGQ s2 = negconv (red LOGQ s) (red LOGQ s))
      (_ : R_Q_square.phase s evk = red (2 * LOGQ) ((2^LOGQ : Int) • s2 + e)) (ct30 : R_Q_square LOGQ (2^k)),
    Ok (Mul ct1 ct2 evk ct30) fun y => y.Canonical ∧ ∃ E : Fin (2^k) → Int,
      (∀ i, 2 * 2^LOGQ * |E i| ≤ 2 * |negconv e c i| + 2^LOGQ * ((∑ j, |s j|) + 1)) ∧
      R_Q_square.phase s y =
        negconv (R_Q_square.phase s ct1) (R_Q_square.phase s ct2) + red LOGQ E := by
  obtain ⟨d2, hd, hd2, hd2c⟩ := conv_spec h hk1 hk hct1.2 hct2.2
  refine ⟨R_Q.sval d2, fun i => abs_sval_le _, fun {evk} hevk {s s2 e} hs2 hph ct30 => ?_⟩
  unfold Mul
  simp only [R_Q_square.copy_eq]
  rw [hd, pure_bind]
  have key := switch_err h2 hk1 hk hevk hph (cc := R_Q.resize (2 * LOGQ) d2)
    (fun i => canonical_resize _) (c := R_Q.sval d2) (by
      funext i; exact cls_resize (hd2 i)) ct30
  rw [← bind_assoc]
  refine Ok.bind key fun y ⟨hy, E, hE, hyp⟩ => ?_
  refine Ok.bind (conv_spec h hk1 hk hct1.1 hct2.2) fun d01 ⟨_, hd01⟩ => ?_
  refine Ok.bind (conv_spec h hk1 hk hct1.2 hct2.1) fun d10 ⟨_, hd10⟩ => ?_
  refine Ok.bind (conv_spec h hk1 hk hct1.1 hct2.1) fun d00 ⟨_, hd00⟩ => ?_
  refine Ok.pure ⟨⟨R_Q.canonical_add _ _, R_Q.canonical_add _ _⟩, E, hE, ?_⟩
  rw [phase_add, hyp, red_add, red_negconv, ← cls_red_sval, hd2c, hs2]
  simp only [phase_eq]
  rw [R_Q.cls_add, hd01, hd10, hd00]
  apply emb_injective
  have ea : ∀ a b : Fin (2^k) → ZMod (2^LOGQ), emb (a + b) = emb a + emb b := by
    intro a b; simp only [emb, Pi.add_apply, map_add, add_mul, sum_add_distrib]
  simp only [emb_negconv, ea]
  ring

theorem rot_ct_err {k : Nat} (h : ConvLOGQ (2 * LOGQ)) (hk1 : 1 ≤ k) (hk : k ≤ 17) (r : Nat)
    {ct : R_Q_square LOGQ (2^k)} (hct : ct.Canonical) (ct0 : R_Q_square LOGQ (2^k)) :
    ∃ c : Fin (2^k) → Int, (∀ i, |c i| ≤ 2^LOGQ) ∧
    ∀ {rkey : R_Q_square (2 * LOGQ) (2^k)} (_ : rkey.Canonical) {s e : Fin (2^k) → Int}
      (_ : R_Q_square.phase s rkey = red (2 * LOGQ) ((2^LOGQ : Int) • autom (5^r) s + e)),
    Ok (rot_ct ct r rkey ct0) fun y => y.Canonical ∧ ∃ E : Fin (2^k) → Int,
      (∀ i, 2 * 2^LOGQ * |E i| ≤ 2 * |negconv e c i| + 2^LOGQ * ((∑ j, |s j|) + 1)) ∧
      R_Q_square.phase s y = autom (5^r) (R_Q_square.phase s ct) + red LOGQ E := by
  have hN17 : 2^k ≤ 2^17 := Nat.pow_le_pow_right (by norm_num) (by omega)
  have hN : 10 * 2^k ≤ INT_MAX := by unfold INT_MAX; omega
  have hN1 : 1 ≤ 2^k := Nat.one_le_two_pow
  have hg := fun (j j' : Fin (2^k)) e => pos_inj_of_coprime (five_pow_coprime k r) j j' e
  obtain ⟨a, ha, a1, a2⟩ := rotR_spec hN hN1 r hg hct.1 ct0.1
  obtain ⟨b, hb, b1, b2⟩ := rotR_spec hN hN1 r hg hct.2 ct0.2
  refine ⟨fun j => ((b j).val : Int), fun i => ?_, fun {rkey} hr {s e} hph => ?_⟩
  · show |((b i).val : Int)| ≤ 2^LOGQ
    rw [abs_of_nonneg (by positivity)]
    have := b1 i
    unfold Canonical at this
    exact_mod_cast this.le
  unfold rot_ct
  rw [ha, pure_bind, hb, pure_bind]
  refine Ok.mono (ks_err h hk1 hk hr hph (ct := (a, b)) ⟨a1, b1⟩) fun y ⟨hy, E, hE, hp⟩ => ⟨hy, E, hE, ?_⟩
  rw [hp]
  exact congrArg (· + red LOGQ E) (phase_autom (ct := ct) (ct' := (a, b)) (five_pow_odd r) s a2 b2)

theorem conj_ct_err {k : Nat} (h : ConvLOGQ (2 * LOGQ)) (hk1 : 1 ≤ k) (hk : k ≤ 17)
    {ct : R_Q_square LOGQ (2^k)} (hct : ct.Canonical) (ct0 : R_Q_square LOGQ (2^k)) :
    ∃ c : Fin (2^k) → Int, (∀ i, |c i| ≤ 2^LOGQ) ∧
    ∀ {ckey : R_Q_square (2 * LOGQ) (2^k)} (_ : ckey.Canonical) {s e : Fin (2^k) → Int}
      (_ : R_Q_square.phase s ckey = red (2 * LOGQ) ((2^LOGQ : Int) • autom (2 * 2^k - 1) s + e)),
    Ok (conj_ct ct ckey ct0) fun y => y.Canonical ∧ ∃ E : Fin (2^k) → Int,
      (∀ i, 2 * 2^LOGQ * |E i| ≤ 2 * |negconv e c i| + 2^LOGQ * ((∑ j, |s j|) + 1)) ∧
      R_Q_square.phase s y = autom (2 * 2^k - 1) (R_Q_square.phase s ct) + red LOGQ E := by
  have hN1 : 1 ≤ 2^k := Nat.one_le_two_pow
  obtain ⟨a, ha, a1, a2⟩ := conjR_spec hN1 hct.1 ct0.1
  obtain ⟨b, hb, b1, b2⟩ := conjR_spec hN1 hct.2 ct0.2
  refine ⟨fun j => ((b j).val : Int), fun i => ?_, fun {ckey} hr {s e} hph => ?_⟩
  · show |((b i).val : Int)| ≤ 2^LOGQ
    rw [abs_of_nonneg (by positivity)]
    have := b1 i
    unfold Canonical at this
    exact_mod_cast this.le
  unfold conj_ct
  rw [ha, pure_bind, hb, pure_bind]
  refine Ok.mono (ks_err h hk1 hk hr hph (ct := (a, b)) ⟨a1, b1⟩) fun y ⟨hy, E, hE, hp⟩ => ⟨hy, E, hE, ?_⟩
  rw [hp]
  exact congrArg (· + red LOGQ E) (phase_autom (ct := ct) (ct' := (a, b)) (by omega) s a2 b2)

open Classical in
/-- few draws make a large product of the noise with `c` -/
theorem negconv_tail {b : Nat} (hb : 2 ∣ b) (hN : 0 < N) (c : Fin N → Int) {C : ℝ} (hC : 0 < C) (hc : ∀ i, |(c i : ℝ)| ≤ C) {T : ℝ} (hT : 0 ≤ T) :
    ((univ.filter fun u : Fin N → Fin 2 → Fin b => ∃ i, T ≤ |((negconv (fun j => noiseVal (u j 0) (u j 1)) c i : Int) : ℝ)|).card : ℝ) ≤
      2*N * Real.exp (-(3*T^2 / (136 * N * C^2))) * Fintype.card (Fin N → Fin 2 → Fin b) := by
  have hN0 : (0:ℝ) < N := by exact_mod_cast hN
  obtain ⟨E, hE⟩ : ∃ E, E = Real.exp (-(3*T^2 / (136 * N * C^2))) * Fintype.card (Fin N → Fin 2 → Fin b) := ⟨_, rfl⟩
  have key : ∀ w : Fin N → ℝ, (∀ j, |w j| ≤ C) →
      ((univ.filter fun u : Fin N → Fin 2 → Fin b => T ≤ ∑ k, w k * (noiseVal (u k 0) (u k 1) : ℝ)).card : ℝ) ≤ E := by
    intro w hw
    have h1 : ∑ j, w j^2 ≤ N * C^2 := by
      refine (sum_le_sum fun j _ => show w j^2 ≤ C^2 from ?_).trans (le_of_eq ?_)
      · rw [← sq_abs]; exact pow_le_pow_left₀ (abs_nonneg _) (hw j) 2
      · rw [sum_const, card_univ, Fintype.card_fin, nsmul_eq_mul]
    refine (noise_tail hb w (W := N * C^2) (by positivity) h1 hT).trans (le_of_eq ?_)
    rw [hE]
    congr 3
    rw [mul_assoc 136]
  obtain ⟨w, hw⟩ : ∃ w : Fin N → Fin N → ℝ, w = fun (i j : Fin N) => if h : j ≤ i then (c ⟨i - j, by omega⟩ : ℝ) else -(c ⟨N + i - j, by omega⟩ : ℝ) := ⟨_, rfl⟩
  have hwC : ∀ i j, |w i j| ≤ C := fun i j => by
    rw [hw]
    simp only
    split_ifs
    · exact hc _
    · rw [abs_neg]; exact hc _
  have hcv : ∀ (u : Fin N → Fin 2 → Fin b) (i : Fin N), ((negconv (fun j => noiseVal (u j 0) (u j 1)) c i : Int) : ℝ) =
      ∑ j, w i j * (noiseVal (u j 0) (u j 1) : ℝ) := fun u i => by
    unfold negconv
    rw [Int.cast_sum, hw]
    refine sum_congr rfl fun j _ => ?_
    simp only
    split_ifs
    · push_cast; ring
    · push_cast; ring
  have hone : ∀ i, ((univ.filter fun u : Fin N → Fin 2 → Fin b => T ≤ |((negconv (fun j => noiseVal (u j 0) (u j 1)) c i : Int) : ℝ)|).card : ℝ) ≤ 2 * E := by
    intro i
    have k1 := key (w i) (hwC i)
    have k2 := key (fun j => - w i j) (fun j => by rw [abs_neg]; exact hwC i j)
    have hsub : (univ.filter fun u : Fin N → Fin 2 → Fin b => T ≤ |((negconv (fun j => noiseVal (u j 0) (u j 1)) c i : Int) : ℝ)|) ⊆
        (univ.filter fun u : Fin N → Fin 2 → Fin b => T ≤ ∑ k, w i k * (noiseVal (u k 0) (u k 1) : ℝ)) ∪
        (univ.filter fun u : Fin N → Fin 2 → Fin b => T ≤ ∑ k, - w i k * (noiseVal (u k 0) (u k 1) : ℝ)) := by
      intro u hu
      simp only [mem_union, mem_filter, mem_univ, true_and, hcv] at hu ⊢
      simp only [neg_mul, sum_neg_distrib]
      exact le_abs.1 hu
    have c3 : ((univ.filter fun u : Fin N → Fin 2 → Fin b => T ≤ |((negconv (fun j => noiseVal (u j 0) (u j 1)) c i : Int) : ℝ)|).card : ℝ) ≤ _ :=
      Nat.cast_le.2 ((card_le_card hsub).trans (card_union_le _ _))
    push_cast at c3
    linarith
  have hsub : (univ.filter fun u : Fin N → Fin 2 → Fin b => ∃ i, T ≤ |((negconv (fun j => noiseVal (u j 0) (u j 1)) c i : Int) : ℝ)|) ⊆
      univ.biUnion fun i => univ.filter fun u : Fin N → Fin 2 → Fin b => T ≤ |((negconv (fun j => noiseVal (u j 0) (u j 1)) c i : Int) : ℝ)| := by
    intro u hu
    simp only [mem_filter, mem_univ, true_and, mem_biUnion] at hu ⊢
    exact hu
  have h5 : ((univ.filter fun u : Fin N → Fin 2 → Fin b => ∃ i, T ≤ |((negconv (fun j => noiseVal (u j 0) (u j 1)) c i : Int) : ℝ)|).card : ℝ) ≤
      ∑ i, ((univ.filter fun u : Fin N → Fin 2 → Fin b => T ≤ |((negconv (fun j => noiseVal (u j 0) (u j 1)) c i : Int) : ℝ)|).card : ℝ) := by
    rw [← Nat.cast_sum]
    exact Nat.cast_le.2 ((card_le_card hsub).trans card_biUnion_le)
  refine h5.trans ((sum_le_sum fun i _ => hone i).trans (le_of_eq ?_))
  rw [sum_const, card_univ, Fintype.card_fin, nsmul_eq_mul, hE]
  ring

open Classical in
/-- counting pairs of draws: if everything goes well unless the product of the noise with `c` is large, it goes wrong
for few draws only -/
theorem draws_tail {τ : Type} [Fintype τ] {b : Nat} (hb : 2 ∣ b) (hN : 0 < N) (c : Fin N → Int) {C : ℝ} (hC : 0 < C)
    (hc : ∀ i, |(c i : ℝ)| ≤ C) {T : ℝ} (hT : 0 ≤ T) (good : τ × (Fin N → Fin 2 → Fin b) → Prop)
    (hg : ∀ p, (∀ i, |((negconv (fun j => noiseVal (p.2 j 0) (p.2 j 1)) c i : Int) : ℝ)| < T * C) → good p) :
    ((univ.filter fun p => ¬ good p).card : ℝ) ≤
      2*N * Real.exp (-(3*T^2 / (136 * N))) * Fintype.card (τ × (Fin N → Fin 2 → Fin b)) := by
  have hsub : (univ.filter fun p => ¬ good p) ⊆ univ ×ˢ univ.filter fun u : Fin N → Fin 2 → Fin b =>
      ∃ i, T * C ≤ |((negconv (fun j => noiseVal (u j 0) (u j 1)) c i : Int) : ℝ)| := by
    intro p hp
    simp only [mem_filter, mem_univ, true_and, mem_product] at hp ⊢
    by_contra hcc
    push Not at hcc
    exact hp (hg p hcc)
  refine (Nat.cast_le.2 (card_le_card hsub)).trans ?_
  rw [card_product, card_univ, Fintype.card_prod, Nat.cast_mul, Nat.cast_mul]
  refine (mul_le_mul_of_nonneg_left (negconv_tail hb hN c hC hc (T := T * C) (by positivity)) (Nat.cast_nonneg _)).trans (le_of_eq ?_)
  have e : 3*(T*C)^2 / (136 * N * C^2) = 3*T^2 / (136*N) := by
    rw [mul_pow, ← mul_assoc]
    exact mul_div_mul_right _ _ (by positivity)
  rw [e]
  ring

/-- from the scaled error to the error -/
theorem err_scale {E nc : Int} {L h : Nat} {T : ℝ} (hE : 2 * 2^L * |E| ≤ 2 * |nc| + 2^L * ((h:Int) + 1)) (hn : |(nc : ℝ)| < T * 2^L) :
    2 * |(E : ℝ)| < 2*T + (h + 1) := by
  have h1 : (2:ℝ) * 2^L * |(E:ℝ)| ≤ 2 * |(nc:ℝ)| + 2^L * ((h:ℝ) + 1) := by exact_mod_cast hE
  have h2 : (0:ℝ) < 2^L := by positivity
  have h3 : (2:ℝ)^L * (2 * |(E:ℝ)|) < 2^L * (2*T + (h+1)) := by nlinarith
  exact lt_of_mul_lt_mul_left h3 h2.le

end EvalRound

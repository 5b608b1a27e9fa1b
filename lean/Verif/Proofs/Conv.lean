import Verif.Model.Conv
import Verif.Spec.Ring
import Verif.Proofs.CRT
import Verif.Proofs.Primes
import Verif.Proofs.Negacyclic

/-! # Lemmas about the polynomial product -/

set_option linter.unusedSectionVars false

namespace EvalRound
open Z_Q Finset

variable {L LOGQ N : Nat} [NeZero LOGQ]

/-- what the constructor of CONV establishes -/
structure CONVOk (C : CONV L LOGQ N) (k : Nat) : Prop where
  hcrt : CRTOk C.crt
  hntt : ∀ i, (C.ntt i).q = C.crt.q i ∧ ∃ psi ipsi, NTTOk (C.ntt i) k psi ipsi

theorem CONV_new_spec (LOGQ : Nat) {k : Nat} (q : Fin L → W) (hL : L < 2^63)
    (hp : ∀ i, (q i).toNat.Prime) (hd : ∀ i j, i ≠ j → (q i).toNat ≠ (q j).toNat)
    (hdvd : ∀ i, 2^(k+1) ∣ (q i).toNat - 1) (hk1 : 1 ≤ k)
    (hk : k ≤ 29) :
    Ok (CONV.new LOGQ (2^k) q) fun C => C.crt.q = q ∧ CONVOk C k := by
  unfold CONV.new
  refine Ok.bind (CRT_new_spec LOGQ q hL hp hd) fun crt ⟨hq, hcrt⟩ => ?_
  refine Ok.bind (tabM_spec (P := fun i (T : NTT (2^k)) => ∀ h : i < L, T.q = q ⟨i, h⟩ ∧
    ∃ psi ipsi, NTTOk T k psi ipsi) ?_) fun ntt hntt => Ok.pure ⟨hq, hcrt, fun i => ?_⟩
  · intro i hi
    rw [rd_of_lt _ hi, pure_bind]
    refine Ok.mono (NTT_new_spec (hp ⟨i, hi⟩) (hdvd _) hk1 hk) fun T hT _ => ?_
    obtain ⟨h1, psi, ipsi, h2, _⟩ := hT
    exact ⟨h1, psi, ipsi, h2⟩
  · have := hntt i i.isLt
    rw [hq]; exact this

/-- one prime: the row holds the negacyclic product of the residues -/
theorem row_spec {T : NTT N} {k : Nat} {psi ipsi : ZMod T.q.toNat} (H : NTTOk T k psi ipsi)
    (hk1 : 1 ≤ k) (a b : Fin N → W) :
    Ok (do
      let a ← T.ntt a
      let b ← T.ntt b
      let c ← tabM N (fun j => do
        let x ← rd a j
        let y ← rd b j
        mul_mod x y T.q)
      T.intt c) fun c => ∀ i : Fin N, ((c i).toNat : ZMod T.q.toNat) =
        negconv (fun j => ((a j).toNat : ZMod T.q.toNat)) (fun j => ((b j).toNat : ZMod T.q.toNat)) i := by
  refine Ok.bind (ntt_spec H hk1 a) fun a' ha' => ?_
  refine Ok.bind (ntt_spec H hk1 b) fun b' hb' => ?_
  have hq0 := H.hq
  refine Ok.bind (P := fun c : Fin N → W => ∀ x, x < N →
    res T.q c x = res T.q a' x * res T.q b' x) ?_ ?_
  · refine Ok.mono (tabM_spec (P := fun j (v : W) =>
      (v.toNat : ZMod T.q.toNat) = res T.q a' j * res T.q b' j) ?_) ?_
    · intro j hj
      rw [rd_of_lt _ hj, pure_bind, rd_of_lt _ hj, pure_bind]
      refine Ok.mono (mul_mod_z hq0 _ _) fun r hr => ?_
      rw [hr.2]; unfold res; rw [dig_of_lt _ hj, dig_of_lt _ hj]
    · intro c hc x hx
      have := hc ⟨x, hx⟩
      rw [← this]; unfold res; rw [dig_of_lt _ hx]
  · intro c hc
    let f : Nat → ZMod T.q.toNat := fun x => if h : x < N then
      negconv (fun j => ((a j).toNat : ZMod T.q.toNat)) (fun j => ((b j).toNat : ZMod T.q.toNat)) ⟨x, h⟩ else 0
    refine Ok.mono (intt_ntt_spec H f c ?_) ?_
    · intro x hx
      have hx' : x < 2^k := by rw [← H.hN]; exact hx
      rw [hc x hx, (ha' x hx).2, (hb' x hx).2, fwdN_value H.hpsi _ hx', fwdN_value H.hpsi _ hx',
        fwdN_value H.hpsi _ hx']
      have hy : (psi^(2 * bitRev k x + 1))^N = -1 := by
        have hpN : psi^N = -1 := (congrArg (psi^·) H.hN).trans H.hpsi
        rw [← pow_mul, mul_comm, pow_mul, hpN, pow_succ, pow_mul]; simp
      generalize psi^(2 * bitRev k x + 1) = y at hy
      unfold pev
      have hr : range (2^k) = range N := by rw [← H.hN]
      rw [hr, sum_range, sum_range, sum_range]
      have := pev_negconv (fun j => ((a j).toNat : ZMod T.q.toNat)) (fun j => ((b j).toNat : ZMod T.q.toNat)) hy
      unfold res
      simp only [dig_fin]
      rw [← this]
      apply sum_congr rfl
      intro i _
      simp [f]
    · intro d hd i
      have := (hd i i.isLt).2
      unfold res at this
      rw [dig_fin] at this
      rw [this]; simp [f]

/-- `CONV::conv` from whatever residues `icrt` forms -/
theorem CONV_conv_gen {C : CONV L LOGQ N} {k : Nat} (H : CONVOk C k) (hk1 : 1 ≤ k)
    {A B : R_Q LOGQ N} (rA rB : (j : Fin L) → Fin N → ZMod (C.crt.q j).toNat)
    (hA : ∀ i, Ok (C.crt.icrt (A i)) fun a => ∀ j, ((a j).toNat : ZMod (C.crt.q j).toNat) = rA j i)
    (hB : ∀ i, Ok (C.crt.icrt (B i)) fun a => ∀ j, ((a j).toNat : ZMod (C.crt.q j).toNat) = rB j i) :
    Ok (C.conv A B) fun R => R.Canonical ∧ ∀ i, ∃ t : Int, (R i).cls = (t : ZMod (2^LOGQ)) ∧
      (∀ j, (t : ZMod (C.crt.q j).toNat) = negconv (rA j) (rB j) i) ∧
      2 * |t| ≤ ∏ i, ((C.crt.q i).toNat : Int) := by
  have hicrt : ∀ {X : R_Q LOGQ N} (rX : (j : Fin L) → Fin N → ZMod (C.crt.q j).toNat),
      (∀ i, Ok (C.crt.icrt (X i)) fun a => ∀ j, ((a j).toNat : ZMod (C.crt.q j).toNat) = rX j i) →
      Ok (C.icrt_polynomial X) fun a => ∀ j i,
        ((a j i).toNat : ZMod (C.crt.q j).toNat) = rX j i := by
    intro X rX hX
    unfold CONV.icrt_polynomial
    refine Ok.bind (tabM_spec (P := fun i (v : Fin L → W) => ∀ (h : i < N) j,
      ((v j).toNat : ZMod (C.crt.q j).toNat) = rX j ⟨i, h⟩) ?_)
      fun v hv => Ok.pure fun j i => hv i i.isLt j
    intro i hi
    rw [rd_of_lt _ hi, pure_bind]
    exact Ok.mono (hX ⟨i, hi⟩) fun v hv _ => hv
  unfold CONV.conv
  refine Ok.bind (hicrt rA hA) fun a ha => ?_
  refine Ok.bind (hicrt rB hB) fun b hb => ?_
  refine Ok.bind (P := fun c : Fin L → Fin N → W => ∀ j i, ((c j i).toNat : ZMod (C.crt.q j).toNat) =
    negconv (rA j) (rB j) i) ?_ ?_
  · refine Ok.mono (tabM_spec (P := fun j (v : Fin N → W) => ∀ (h : j < L) i,
      ((v i).toNat : ZMod (C.crt.q ⟨j, h⟩).toNat) =
        negconv (rA ⟨j, h⟩) (rB ⟨j, h⟩) i) ?_) fun v hv j => hv j j.isLt
    intro j hj
    unfold CONV.row
    rw [rd_of_lt _ hj, pure_bind, rd_of_lt _ hj, pure_bind, rd_of_lt _ hj, pure_bind]
    obtain ⟨e, psi, ipsi, HN⟩ := H.hntt ⟨j, hj⟩
    refine Ok.mono (row_spec HN hk1 (a ⟨j, hj⟩) (b ⟨j, hj⟩)) fun v hv _ i => ?_
    have h1 := hv i
    rw [e] at h1
    rw [h1]
    congr 1
    · funext i; rw [ha]
    · funext i; rw [hb]
  · intro c hc
    unfold CONV.crt_polynomial
    refine Ok.mono (tabM_spec (P := fun i (v : Z_Q LOGQ) => ∀ h : i < N, v.Canonical ∧
      ∃ t : Int, v.cls = (t : ZMod (2^LOGQ)) ∧
      (∀ j, (t : ZMod (C.crt.q j).toNat) = negconv (rA j) (rB j) ⟨i, h⟩) ∧
      2 * |t| ≤ ∏ i, ((C.crt.q i).toNat : Int)) ?_) fun R hR =>
        ⟨fun i => (hR i i.isLt).1, fun i => (hR i i.isLt).2⟩
    intro i hi
    refine Ok.bind (P := fun r : Fin L → W => ∀ j, r j = c j ⟨i, hi⟩) ?_ fun r hr => ?_
    · refine Ok.mono (tabM_spec (P := fun j (v : W) => ∀ h : j < L, v = c ⟨j, h⟩ ⟨i, hi⟩) ?_)
        fun r hr j => hr j j.isLt
      intro j hj
      rw [rd_of_lt _ hj, pure_bind, rd_of_lt _ hi]
      exact Ok.pure fun _ => rfl
    · refine Ok.mono (crt_spec H.hcrt r) fun v ⟨h1, t, h2, h3, h4, h5⟩ _ => ⟨h1, t, h2, ?_, ?_⟩
      · intro j; rw [h3 j, hr j, hc j]
      · rcases abs_cases t with h | h <;> omega

theorem CONV_conv_spec {C : CONV L LOGQ N} {k : Nat} (H : CONVOk C k) (hk1 : 1 ≤ k)
    {A B : R_Q LOGQ N} (hA : A.Canonical) (hB : B.Canonical)
    (hw : 64 < LOGQ ∨ ∀ i, 2^(LOGQ-1) ≤ (C.crt.q i).toNat)
    (hbig : 2 * N * 2^(2*(LOGQ-1)) < ∏ i, (C.crt.q i).toNat) :
    Ok (C.conv A B) fun R => R.Canonical ∧ ∀ i, (R i).cls = negconv A.cls B.cls i := by
  have hq0 : ∀ i, C.crt.q i ≠ 0 := by
    intro i h; have := H.hcrt.hq i; rw [h] at this; exact Nat.not_prime_zero this
  have hicrt : ∀ {X : R_Q LOGQ N}, X.Canonical → ∀ i, Ok (C.crt.icrt (X i)) fun a => ∀ j,
      ((a j).toNat : ZMod (C.crt.q j).toNat) = ((X.sval i : Int) : ZMod (C.crt.q j).toNat) := by
    intro X hX i
    refine icrt_spec C.crt hq0 (hX i) ?_
    refine hw.imp id fun h j => ?_
    have h1 := (sval_bounds (X i)).1
    have h2 : ((2^(LOGQ-1) : Nat) : Int) ≤ ((C.crt.q j).toNat : Int) := by exact_mod_cast h j
    push_cast at h2
    omega
  refine Ok.mono (CONV_conv_gen H hk1 _ _ (hicrt hA) (hicrt hB)) fun R hR => ⟨hR.1, fun i => ?_⟩
  obtain ⟨t, h2, h3, h6⟩ := hR.2 i
  have ht : t = negconv A.sval B.sval i := by
    refine crt_unique (q := fun i => (C.crt.q i).toNat) H.hcrt.hq H.hcrt.hcop (fun j => ?_) ?_
    · rw [h3 j]
      have := negconv_map (Int.castRingHom (ZMod (C.crt.q j).toNat)) A.sval B.sval i
      simp only [eq_intCast] at this
      exact this.symm
    · have hs : ∀ (X : R_Q LOGQ N) j, |X.sval j| ≤ 2^(LOGQ-1) := by
        intro X j
        have := sval_bounds (X j)
        exact abs_le.2 ⟨this.1, this.2.le⟩
      have hu := negconv_abs_le' A.sval B.sval (hs A) (by positivity) (hs B) i
      have hb' : 2 * (N * 2^(LOGQ-1) * 2^(LOGQ-1) : Int) < ∏ i, ((C.crt.q i).toNat : Int) := by
        have e : 2 * (N * 2^(LOGQ-1) * 2^(LOGQ-1) : Int) = ((2 * N * 2^(2*(LOGQ-1)) : Nat) : Int) := by
          push_cast; rw [two_mul (LOGQ-1), pow_add]; ring
        rw [e]; exact_mod_cast hbig
      have := abs_sub t (negconv A.sval B.sval i)
      omega
  rw [h2, ht]
  have := negconv_map (Int.castRingHom (ZMod (2^LOGQ))) A.sval B.sval i
  simp only [eq_intCast] at this
  rw [this]
  congr 1
  · funext i; exact sval_cls _
  · funext i; exact sval_cls _

/-- the admissible moduli of `conv` -/
def ConvLOGQ (LOGQ : Nat) : Prop := LOGQ ≤ 60 ∨ 65 ≤ LOGQ ∧ LOGQ ≤ 3051

theorem convL_bounds {LOGQ : Nat} (h1 : 1 ≤ LOGQ) (h : ConvLOGQ LOGQ) :
    1 ≤ convL LOGQ ∧ convL LOGQ ≤ 102 ∧ 2 * LOGQ + 16 ≤ 60 * convL LOGQ - 1 := by
  unfold convL ConvLOGQ at *; omega

theorem theConv_gen {k : Nat} (hL : convL LOGQ ≤ 102) (hk1 : 1 ≤ k) (hk : k ≤ 17) :
    Ok (theConv LOGQ (2^k)) fun C => CONVOk C k ∧
      C.crt.q = fun i : Fin (convL LOGQ) => Q_primes ⟨i.val, by omega⟩ := by
  unfold theConv
  have hread : tabM (convL LOGQ) (fun i => rd Q_primes i) =
      pure (fun i : Fin (convL LOGQ) => Q_primes ⟨i.val, by omega⟩) :=
    tabM_eq fun i => rd_of_lt _ (by omega)
  rw [hread, pure_bind]
  refine Ok.mono (CONV_new_spec LOGQ (k := k) _ (by omega) (fun i => Q_primes_prime _) ?_ ?_ hk1 (by omega)) ?_
  · intro i j hij e
    have := Q_primes_inj (BitVec.eq_of_toNat_eq e)
    exact hij (Fin.ext (Fin.mk.inj_iff.1 this))
  · intro i
    have := (Q_primes_residue ⟨i.val, by omega⟩).1
    refine dvd_trans (pow_dvd_pow 2 (show k + 1 ≤ 18 by omega)) ?_
    exact (Nat.modEq_iff_dvd' (Q_primes_prime _).one_lt.le).1 this.symm
  · rintro C ⟨hq, H⟩
    exact ⟨H, hq⟩

theorem theConv_spec {k : Nat} (h : ConvLOGQ LOGQ) (hk1 : 1 ≤ k) (hk : k ≤ 17) :
    Ok (theConv LOGQ (2^k)) fun C => CONVOk C k ∧ (64 < LOGQ ∨ ∀ i, 2^(LOGQ-1) ≤ (C.crt.q i).toNat) ∧
      2^(2 * LOGQ + 16) < ∏ i, (C.crt.q i).toNat := by
  have hpos : 1 ≤ LOGQ := Nat.one_le_iff_ne_zero.2 (NeZero.ne _)
  obtain ⟨hL1, hL, hL2⟩ := convL_bounds hpos h
  refine Ok.mono (theConv_gen hL hk1 hk) ?_
  rintro C ⟨H, hq⟩
  refine ⟨H, ?_, ?_⟩
  · rcases h with h | h
    · right; intro i
      rw [hq]
      exact (Nat.pow_le_pow_right (by norm_num) (by omega : LOGQ - 1 ≤ 59)).trans
        (Q_primes_residue _).2.1
    · left; omega
  · rw [hq, ← firstProd_eq _ hL]
    exact lt_of_le_of_lt (Nat.pow_le_pow_right (by norm_num) hL2) (firstProd_big hL1 hL)

theorem conv_spec {k : Nat} (h : ConvLOGQ LOGQ) (hk1 : 1 ≤ k) (hk : k ≤ 17)
    {A B : R_Q LOGQ (2^k)} (hA : A.Canonical) (hB : B.Canonical) :
    Ok (conv A B) fun R => R.Canonical ∧ R.cls = negconv A.cls B.cls := by
  have hpos : 1 ≤ LOGQ := Nat.one_le_iff_ne_zero.2 (NeZero.ne _)
  unfold conv
  refine Ok.bind (theConv_spec h hk1 hk) fun C ⟨H, hw, hbig⟩ => ?_
  refine Ok.mono (CONV_conv_spec H hk1 hA hB hw ?_) fun R hR => ⟨hR.1, funext hR.2⟩
  refine lt_of_le_of_lt ?_ hbig
  rw [← pow_succ', ← pow_add]
  exact Nat.pow_le_pow_right (by norm_num) (by omega)


theorem idxM_ok {x : Nat} (h : x ≤ INT_MAX) : idxM x = pure x := by unfold idxM; rw [if_pos h]

theorem intM_ok {x : Int} (h1 : -2^31 ≤ x) (h2 : x < 2^31) : intM x = pure x := by
  unfold intM; rw [if_pos ⟨h1, h2⟩]

/-- what `conv(s,A,C)` takes an entry of the key for -/
def tern (x : Int) : Int := if x = 0 then 0 else if x = 1 then 1 else -1

theorem convSBody_spec (hN : N ≤ 2^30) (s : Fin N → Int) (A : R_Q LOGQ N) (i : Fin N) {k : Nat}
    (hk : k < N) (c : Z_Q LOGQ) (hc : c.Canonical) :
    Ok (convSBody s A i k c) fun r => r.Canonical ∧ r.cls = c.cls +
      negterm (fun j => ((tern (s j) : Int) : ZMod (2^LOGQ))) A.cls i k := by
  unfold convSBody negterm
  rw [rd_of_lt _ hk, pure_bind, dif_pos hk]
  by_cases h0 : s ⟨k, hk⟩ = 0
  · rw [if_neg (by simpa using h0)]
    refine Ok.pure ⟨hc, ?_⟩
    simp [tern, h0]
  rw [if_pos h0]
  have hi := i.isLt
  by_cases hki : k ≤ i.val
  · simp only [hki, if_true, dif_pos]
    rw [rd_of_lt _ (by omega : i.val - k < N), pure_bind]
    refine Ok.pure ?_
    by_cases h1 : s ⟨k, hk⟩ = 1
    · simp only [h1, tern, beq_self_eq_true, if_true]
      refine ⟨canonical_add _ _, ?_⟩
      rw [cls_add]; simp [R_Q.cls]
    · have : (s ⟨k, hk⟩ == 1) = false := by simpa using h1
      simp only [this, tern, h0, h1, if_false, Bool.false_eq_true]
      refine ⟨canonical_sub _ _, ?_⟩
      rw [cls_sub]; simp [R_Q.cls, sub_eq_add_neg]
  · simp only [hki, if_false, dif_neg, not_false_iff]
    rw [idxM_ok (by unfold INT_MAX; omega), pure_bind, rd_of_lt _ (by omega : N + i.val - k < N), pure_bind]
    refine Ok.pure ?_
    by_cases h1 : s ⟨k, hk⟩ = 1
    · simp only [h1, tern, beq_self_eq_true, if_true, Bool.not_true, Bool.false_eq_true, if_false]
      refine ⟨canonical_sub _ _, ?_⟩
      rw [cls_sub]; simp [R_Q.cls, sub_eq_add_neg]
    · have : (s ⟨k, hk⟩ == 1) = false := by simpa using h1
      simp only [this, tern, h0, h1, if_false, Bool.not_false, if_true]
      refine ⟨canonical_add _ _, ?_⟩
      rw [cls_add]; simp [R_Q.cls]

theorem convS_spec (hN : N ≤ 2^30) (s : Fin N → Int) (A : R_Q LOGQ N) :
    Ok (convS s A) fun R => R.Canonical ∧
      R.cls = negconv (fun j => ((tern (s j) : Int) : ZMod (2^LOGQ))) A.cls := by
  unfold convS
  refine Ok.mono (tabM_spec (P := fun i (v : Z_Q LOGQ) => ∀ h : i < N, v.Canonical ∧
    v.cls = negconv (fun j => ((tern (s j) : Int) : ZMod (2^LOGQ))) A.cls ⟨i, h⟩) ?_)
    fun R hR => ⟨fun i => (hR i i.isLt).1, funext fun i => (hR i i.isLt).2⟩
  intro i hi
  refine Ok.mono (forUp_inv (P := fun k (c : Z_Q LOGQ) => c.Canonical ∧ c.cls = ∑ j ∈ range k,
    negterm (fun j => ((tern (s j) : Int) : ZMod (2^LOGQ))) A.cls ⟨i, hi⟩ j) (Nat.zero_le N)
    ⟨canonical_setzero, by rw [cls_setzero]; simp⟩ ?_) ?_
  · intro k c _ hk ⟨h1, h2⟩
    refine Ok.mono (convSBody_spec hN s A ⟨i, hi⟩ hk c h1) fun r hr => ⟨hr.1, ?_⟩
    rw [hr.2, h2, sum_range_succ]
  · rintro c ⟨h1, h2⟩ _
    exact ⟨h1, by rw [h2, negconv_range]⟩

/-- partial sums of a product of small vectors are small -/
theorem negterm_sum_abs (a b : Fin N → Int) (ha : ∀ j, |a j| ≤ 1) (hb : ∀ j, |b j| ≤ 1) (i : Fin N)
    (k : Nat) : |∑ j ∈ range k, negterm a b i j| ≤ k := by
  have h : ∀ j, |negterm a b i j| ≤ 1 := by
    intro j
    unfold negterm
    split
    · split
      · rw [abs_mul]; exact mul_le_one₀ (ha _) (abs_nonneg _) (hb _)
      · rw [abs_neg, abs_mul]; exact mul_le_one₀ (ha _) (abs_nonneg _) (hb _)
    · simp
  refine (abs_sum_le_sum_abs _ _).trans ?_
  calc ∑ j ∈ range k, |negterm a b i j| ≤ ∑ _j ∈ range k, (1:Int) := sum_le_sum fun j _ => h j
    _ = k := by simp

theorem convI_spec (hN : N ≤ 2^30) (a b : Fin N → Int) (ha : ∀ j, |a j| ≤ 1) (hb : ∀ j, |b j| ≤ 1) :
    convI a b = pure (negconv a b) := by
  unfold convI
  apply tabM_eq
  intro i
  have hi := i.isLt
  have hsm := negterm_sum_abs a b ha hb i
  have h1 : ∀ x y : Fin N, |a x * b y| ≤ 1 := by
    intro x y; rw [abs_mul]; exact mul_le_one₀ (ha _) (abs_nonneg _) (hb _)
  have hp : ∀ x y : Fin N, intM (a x * b y) = pure (a x * b y) := by
    intro x y
    have := abs_le.1 (h1 x y)
    exact intM_ok (by omega) (by omega)
  have key : Ok (do
    let c ← forUp 0 (i.val + 1) (fun k c => do
      let x ← rd a k
      let y ← rd b (i.val - k)
      let p ← intM (x * y)
      intM (c + p)) 0
    forUp (i.val + 1) N (fun k c => do
      let x ← rd a k
      let j ← idxM (i.val + N)
      let y ← rd b (j - k)
      let p ← intM (x * y)
      intM (c - p)) c) (fun c => c = negconv a b i) := by
    refine Ok.bind (forUp_inv (P := fun k c => c = ∑ j ∈ range k, negterm a b i j) (Nat.zero_le _)
      (by simp) ?_) ?_
    · intro k c _ hk hc
      have e : negterm a b i k = a ⟨k, by omega⟩ * b ⟨i - k, by omega⟩ := by
        unfold negterm; rw [dif_pos (by omega), dif_pos (by omega)]
      have hb2 := abs_le.1 (hsm (k+1))
      rw [sum_range_succ, e, ← hc] at hb2
      rw [rd_of_lt _ (by omega : k < N), pure_bind, rd_of_lt _ (by omega : i.val - k < N), pure_bind,
        hp, pure_bind, intM_ok (by push_cast at hb2; omega) (by push_cast at hb2; omega)]
      exact Ok.pure (by rw [sum_range_succ, e, ← hc])
    · intro c hc
      refine Ok.mono (forUp_inv (P := fun k c => c = ∑ j ∈ range k, negterm a b i j) (by omega) hc ?_) ?_
      · intro k c hk1 hk hc
        have e : negterm a b i k = -(a ⟨k, by omega⟩ * b ⟨N + i - k, by omega⟩) := by
          unfold negterm; rw [dif_pos (by omega), dif_neg (by omega)]
        have hb2 := abs_le.1 (hsm (k+1))
        rw [sum_range_succ, e, ← hc] at hb2
        have e2 : (⟨i.val + N - k, by omega⟩ : Fin N) = ⟨N + i.val - k, by omega⟩ := by
          apply Fin.ext; simp only []; omega
        rw [rd_of_lt _ (by omega : k < N), pure_bind, idxM_ok (by unfold INT_MAX; omega), pure_bind,
          rd_of_lt _ (by omega : i.val + N - k < N), pure_bind, hp, pure_bind, e2,
          intM_ok (by push_cast at hb2; omega) (by push_cast at hb2; omega)]
        exact Ok.pure (by rw [sum_range_succ, e, ← hc, sub_eq_add_neg])
      · intro c hc; rw [hc, negconv_range]
  obtain ⟨c, hc, e⟩ := key
  rw [hc, e]

/-- beyond 102 primes the constructor reads past the table -/
theorem conv_ub (h : 3052 ≤ LOGQ) (A B : R_Q LOGQ N) : conv A B = ub := by
  have hL : 102 < convL LOGQ := by unfold convL; omega
  have key : ∀ n, 102 < n → tabM n (fun i => rd Q_primes i) = ub := by
    intro n hn
    induction n, hn using Nat.le_induction with
    | base =>
      have : tabM 102 (fun i => rd Q_primes i) = pure Q_primes :=
        tabM_eq fun i => rd_of_lt _ i.isLt
      change (do
        let a ← tabM 102 (fun i => rd Q_primes i)
        let x ← rd Q_primes 102
        pure (fun i : Fin (102+1) => if h : i.val < 102 then a ⟨i.val, h⟩ else x)) = ub
      rw [this, pure_bind, rd_of_ge _ (le_refl 102)]; rfl
    | succ n hn ih =>
      change (do
        let a ← tabM n (fun i => rd Q_primes i)
        let x ← rd Q_primes n
        pure (fun i : Fin (n+1) => if h : i.val < n then a ⟨i.val, h⟩ else x)) = ub
      rw [ih]; rfl
  unfold conv theConv
  rw [key _ hL]; rfl

end EvalRound

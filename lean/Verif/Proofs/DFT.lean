import Verif.Model.DFT
import Verif.Spec.Matrix
import Verif.Proofs.Matrix
import Verif.Proofs.FFTPure

/-! # The functions of DFT.h -/

set_option linter.unusedSimpArgs false

namespace EvalRound
open Real Complex Finset SparseDiagonal

/-- offsets, ownership and flags of a factor are in order -/
structure Good {H : Nat} (O : Fin 3 → Int) (A : SparseDiagonal H 3) : Prop where
  off : A.off = O
  own : FirstOwns A
  flag : FlagSound A

/-- the offsets of `splitU0NR` -/
def splitOff (H M : Nat) : Fin 3 → Int := fun s => if s = 0 then 0 else if s = 1 then M else H - M

theorem set_good {H : Nat} (hH : H ≤ 2^30) {O : Fin 3 → Int} (hO : ∀ s, 0 ≤ O s ∧ O s < H)
    {A : SparseDiagonal H 3} (h : Good O A) (i j : Fin H) (hex : ∃ s, shift (O s) i = j) (v : ℝ) :
    Ok (set_element A i j v) fun A' => Good O A' ∧
      ∀ i' j', den A' i' j' = if i' = i ∧ j' = j then v else den A i' j' := by
  obtain ⟨A', e, h1, h2, h3, -⟩ := set_element_spec hH (A := A) (by intro s; rw [h.off]; exact hO s) h.own i j
    (by rw [h.off]; exact hex) v
  exact ⟨A', e, ⟨h1.trans h.off, h2, set_element_flag h.flag e⟩, h3⟩

theorem splitOff_range {H M : Nat} (h1 : 0 < M) (h2 : M < H) (s : Fin 3) :
    0 ≤ splitOff H M s ∧ splitOff H M s < H := by
  unfold splitOff
  split
  · omega
  · split <;> omega

theorem setOffs_good {H M : Nat} (A : SparseDiagonal H 3) : Good (splitOff H M) (setOffs A.setzero M) := by
  refine ⟨?_, ?_, ?_⟩
  · funext s
    fin_cases s <;> simp [setOffs, splitOff, setzero_eq, Function.update]
  · intro s s' _ _ i
    simp [setOffs, setzero_eq]
  · intro s _ i
    simp [setOffs, setzero_eq]

theorem den_setOffs {H M : Nat} (A : SparseDiagonal H 3) (p q : Fin H) : den (setOffs A.setzero M) p q = 0 := by
  simp [den, dg, setOffs, setzero_eq]

theorem shift_of_val {H : Nat} {o : Int} {i j : Fin H} (h : ((i.val : Int) + o) % H = j.val) : shift o i = j := by
  apply Fin.ext
  have := shift_val o i
  omega

/-- the rows written before iteration `(k,i)` -/
def Done (M k i p : Nat) : Prop := p / (2*M) < k ∨ p / (2*M) = k ∧ p % M < i

instance (M k i p : Nat) : Decidable (Done M k i p) := by unfold Done; infer_instance

theorem step_den {H M k i : Nat} (hM : 0 < M) (hi : i < M) {ω : Nat → ℂ} {c s : ℝ}
    (hcs : (⟨c, s⟩ : ℂ) = ω i) {ar ai ar' ai' : Matrix (Fin H) (Fin H) ℝ} {P0 P1 : Fin H}
    (hP0 : P0.val = 2*M*k + i) (hP1 : P1.val = 2*M*k + M + i)
    (h3 : ∀ p q : Fin H, (⟨ar p q, ai p q⟩ : ℂ) = if Done M k i p then bfly H M ω p q else 0)
    (hr : ∀ p q, ar' p q = if p = P1 ∧ q = P1 then -c else if p = P0 ∧ q = P1 then c else
      if p = P1 ∧ q = P0 then 1 else if p = P0 ∧ q = P0 then 1 else ar p q)
    (hs : ∀ p q, ai' p q = if p = P1 ∧ q = P1 then -s else if p = P0 ∧ q = P1 then s else ai p q)
    (p q : Fin H) :
    (⟨ar' p q, ai' p q⟩ : ℂ) = if Done M k (i+1) p then bfly H M ω p q else 0 := by
  have b0 := blk (M := M) (b := k) (c := 0) hi (by omega)
  have b1 := blk (M := M) (b := k) (c := 1) hi (by omega)
  have l0 := lo_blk (M := M) (b := k) (c := 0) hi (by omega)
  have l1 := lo_blk (M := M) (b := k) (c := 1) hi (by omega)
  have s0 := sgn_blk (M := M) (b := k) (c := 0) hi (by omega)
  have s1 := sgn_blk (M := M) (b := k) (c := 1) hi (by omega)
  rw [show 2*M*k + 0*M + i = P0.val by omega] at b0 l0 s0
  rw [show 2*M*k + 1*M + i = P1.val by omega] at b1 l1 s1
  have hne : P0 ≠ P1 := by intro e; have := congrArg Fin.val e; omega
  have z0 : ∀ q, ar P0 q = 0 ∧ ai P0 q = 0 := by
    intro q
    have := h3 P0 q
    rw [if_neg (by unfold Done; rw [b0.1, b0.2.2.1]; omega)] at this
    exact ⟨congrArg Complex.re this, congrArg Complex.im this⟩
  have z1 : ∀ q, ar P1 q = 0 ∧ ai P1 q = 0 := by
    intro q
    have := h3 P1 q
    rw [if_neg (by unfold Done; rw [b1.1, b1.2.2.1]; omega)] at this
    exact ⟨congrArg Complex.re this, congrArg Complex.im this⟩
  have v0 : 2*M*k + i = P0.val := hP0.symm
  have v1 : P0.val + M = P1.val := by omega
  by_cases hp0 : p = P0
  · subst hp0
    rw [if_pos (by unfold Done; rw [b0.1, b0.2.2.1]; omega), hr, hs, bfly, l0, s0, b0.2.2.1, v0, v1]
    by_cases hq : q = p
    · subst hq
      simp only [hne, and_false, and_true, if_true, if_false, (z0 q).2]
      rfl
    · by_cases hq1 : q = P1
      · subst hq1
        simp only [hne, false_and, and_true, if_true, if_false, hne.symm, Fin.val_inj, hcs]
        simp
      · simp only [hq, hq1, and_false, if_false, Fin.val_inj, z0]
        rfl
  · by_cases hp1 : p = P1
    · subst hp1
      rw [if_pos (by unfold Done; rw [b1.1, b1.2.2.1]; omega), hr, hs, bfly, l1, s1, b1.2.2.1, v0, v1]
      by_cases hq : q = p
      · subst hq
        simp only [hne.symm, and_self, if_true, if_false, Fin.val_inj]
        rw [← hcs]
        apply Complex.ext <;> simp
      · by_cases hq0 : q = P0
        · subst hq0
          simp only [hne, hne.symm, and_false, false_and, and_true, if_true, if_false, (z1 q).2]
          rfl
        · simp only [hq, hq0, and_false, if_false, Fin.val_inj, z1]
          rfl
    · rw [hr, hs]
      simp only [hp0, hp1, false_and, if_false]
      rw [h3]
      have : Done M k (i+1) p ↔ Done M k i p := by
        unfold Done
        constructor
        · rintro (h | ⟨h1, h2⟩)
          · exact Or.inl h
          · refine Or.inr ⟨h1, ?_⟩
            by_contra h4
            have h5 : p.val % M = i := by omega
            obtain ⟨b, e, j, e1, he, hj⟩ := exists_blk hM p.val
            have hb := blk (b := b) hj he
            rw [← e1] at hb
            have hbk : b = k := by omega
            have hji : j = i := by omega
            subst hbk
            subst hji
            have : e = 0 ∨ e = 1 := by omega
            rcases this with rfl | rfl
            · exact hp0 (Fin.ext (by omega))
            · exact hp1 (Fin.ext (by omega))
        · rintro (h | ⟨h1, h2⟩)
          · exact Or.inl h
          · exact Or.inr ⟨h1, by omega⟩
      simp only [this]

theorem splitStep_spec {n d k i f : Nat} (hn : n ≤ 30) (hd : d < n) (hk : k < 2^d) (hi : i < 2^(n-1-d))
    (hf : zeta (2^(n+1)) ^ f = ctw n (n-1-d) i) {A : Fac (n+1)}
    (h1 : Good (splitOff (2^n) (2^(n-1-d))) A.1) (h2 : Good (splitOff (2^n) (2^(n-1-d))) A.2)
    (h3 : ∀ p q : Fin (2^n), denC A.1 A.2 p q =
      if Done (2^(n-1-d)) k i p then bfly (2^n) (2^(n-1-d)) (ctw n (n-1-d)) p q else 0) :
    Ok (splitStep (n+1) (2^(n-1-d)) k i f A) fun A =>
      Good (splitOff (2^n) (2^(n-1-d))) A.1 ∧ Good (splitOff (2^n) (2^(n-1-d))) A.2 ∧
      ∀ p q : Fin (2^n), denC A.1 A.2 p q =
        if Done (2^(n-1-d)) k (i+1) p then bfly (2^n) (2^(n-1-d)) (ctw n (n-1-d)) p q else 0 := by
  have hH : 2^n ≤ 2^30 := Nat.pow_le_pow_right (by norm_num) hn
  have hMpos : 0 < 2^(n-1-d) := Nat.two_pow_pos _
  have hdiv : 2^n = 2 * 2^(n-1-d) * 2^d := by
    rw [show 2 * 2^(n-1-d) = 2^(n-d) by rw [← pow_succ']; congr 1; omega, ← pow_add]; congr 1; omega
  have hcs : (⟨Real.cos (π / ((2^(n+1) : ℕ) : ℝ) * f), Real.sin (π / ((2^(n+1) : ℕ) : ℝ) * f)⟩ : ℂ) =
      ctw n (n-1-d) i := by
    rw [cos_sin_zeta]; exact hf
  have hle : 2*2^(n-1-d)*(k+1) ≤ 2^n := by rw [hdiv]; exact Nat.mul_le_mul_left _ hk
  have hexp : 2*2^(n-1-d)*(k+1) = 2*2^(n-1-d)*k + 2*2^(n-1-d) := by ring
  have hP0 : 2*2^(n-1-d)*k + i < 2^n := by omega
  have hP1 : 2*2^(n-1-d)*k + 2^(n-1-d) + i < 2^n := by omega
  have hO := splitOff_range (H := 2^n) hMpos (by omega)
  have x00 : ∃ s, shift (splitOff (2^n) (2^(n-1-d)) s) (⟨_, hP0⟩ : Fin (2^n)) = ⟨_, hP0⟩ :=
    ⟨0, by simp [splitOff, shift_zero]⟩
  have x11 : ∃ s, shift (splitOff (2^n) (2^(n-1-d)) s) (⟨_, hP1⟩ : Fin (2^n)) = ⟨_, hP1⟩ :=
    ⟨0, by simp [splitOff, shift_zero]⟩
  have x01 : ∃ s, shift (splitOff (2^n) (2^(n-1-d)) s) (⟨_, hP0⟩ : Fin (2^n)) = ⟨_, hP1⟩ :=
    ⟨1, shift_of_val (by
      simp only [splitOff]
      rw [if_neg (by decide), if_pos trivial, Int.emod_eq_of_lt (by omega) (by omega)]
      omega)⟩
  have x10 : ∃ s, shift (splitOff (2^n) (2^(n-1-d)) s) (⟨_, hP1⟩ : Fin (2^n)) = ⟨_, hP0⟩ :=
    ⟨2, shift_of_val (by
      simp only [splitOff]
      rw [if_neg (by decide), if_neg (by decide), show (((2*2^(n-1-d)*k + 2^(n-1-d) + i : ℕ) : Int) +
        (((2^n : ℕ) : Int) - ((2^(n-1-d) : ℕ) : Int))) = ((2*2^(n-1-d)*k + i : ℕ) : Int) + ((2^n : ℕ) : Int) by omega,
        Int.add_emod_right, Int.emod_eq_of_lt (by omega) (by omega)])⟩
  unfold splitStep
  refine Ok.bind (set_good hH hO h1 ⟨_, hP0⟩ ⟨_, hP0⟩ x00 1) fun a1 ⟨g1, d1⟩ => ?_
  refine Ok.bind (set_good hH hO g1 ⟨_, hP1⟩ ⟨_, hP0⟩ x10 1) fun a2 ⟨g2, d2⟩ => ?_
  refine Ok.bind (set_good hH hO g2 ⟨_, hP0⟩ ⟨_, hP1⟩ x01 _) fun a3 ⟨g3, d3⟩ => ?_
  refine Ok.bind (set_good hH hO h2 ⟨_, hP0⟩ ⟨_, hP1⟩ x01 _) fun b1 ⟨k1, e1⟩ => ?_
  refine Ok.bind (set_good hH hO g3 ⟨_, hP1⟩ ⟨_, hP1⟩ x11 _) fun a4 ⟨g4, d4⟩ => ?_
  refine Ok.bind (set_good hH hO k1 ⟨_, hP1⟩ ⟨_, hP1⟩ x11 _) fun b2 ⟨k2, e2⟩ => ?_
  refine Ok.pure ⟨g4, k2, fun p q => ?_⟩
  exact step_den hMpos hi hcs (P0 := ⟨_, hP0⟩) (P1 := ⟨_, hP1⟩) rfl rfl h3
    (fun p q => by rw [d4, d3, d2, d1]) (fun p q => by rw [e2, e1]) p q

theorem five_ok {N x : Nat} (h : x * 5 ≤ INT_MAX) : five N x = pure (x * 5 % (2*N)) := by
  unfold five
  rw [idxM_ok h, pure_bind]

/-- the offsets, the flags and the meaning of a factor of `splitU0NR` -/
structure IsFactor (n d : Nat) (A : Fac (n+1)) : Prop where
  re : Good (splitOff (2^n) (2^(n-1-d))) A.1
  im : Good (splitOff (2^n) (2^(n-1-d))) A.2
  den : denC A.1 A.2 = bfly (2^n) (2^(n-1-d)) (ctw n (n-1-d))

theorem five_bound {n x : Nat} (hn : n ≤ 26) (hx : x < 2 * 2^(n+1)) : x * 5 ≤ INT_MAX := by
  have h1 : 2^(n+1) ≤ 2^27 := Nat.pow_le_pow_right (by norm_num) (by omega)
  have h2 : INT_MAX = 2147483647 := by decide
  omega

theorem splitFactor_spec {n d : Nat} (hn : n ≤ 26) (hd : d < n) (A0 : Fac (n+1)) :
    Ok (splitFactor (n+1) d A0) (IsFactor n d) := by
  unfold splitFactor
  have hMpos : 0 < 2^(n-1-d) := Nat.two_pow_pos _
  have hdiv : 2^n = 2 * 2^(n-1-d) * 2^d := by
    rw [show 2 * 2^(n-1-d) = 2^(n-d) by rw [← pow_succ']; congr 1; omega, ← pow_add]; congr 1; omega
  rw [show n + 1 - d - 2 = n - 1 - d by omega]
  refine Ok.mono (forUp_inv (Nat.zero_le _) (P := fun k (A : Fac (n+1)) =>
    Good (splitOff (2^n) (2^(n-1-d))) A.1 ∧ Good (splitOff (2^n) (2^(n-1-d))) A.2 ∧
      ∀ p q : Fin (2^n), denC A.1 A.2 p q =
        if Done (2^(n-1-d)) k 0 p then bfly (2^n) (2^(n-1-d)) (ctw n (n-1-d)) p q else 0)
    ⟨setOffs_good _, setOffs_good _, fun p q => ?_⟩ ?_) ?_
  · rw [if_neg (by unfold Done; rintro (h | ⟨-, h⟩) <;> exact Nat.not_lt_zero _ h)]
    simp only [denC]
    rw [den_setOffs, den_setOffs]
    rfl
  · rintro k A - hk ⟨h1, h2, h3⟩
    refine Ok.bind (forUp_inv (Nat.zero_le _) (P := fun i (st : Fac (n+1) × Nat) =>
      st.2 = 2^d * 5^i % (2 * 2^(n+1)) ∧
      Good (splitOff (2^n) (2^(n-1-d))) st.1.1 ∧ Good (splitOff (2^n) (2^(n-1-d))) st.1.2 ∧
      ∀ p q : Fin (2^n), denC st.1.1 st.1.2 p q =
        if Done (2^(n-1-d)) k i p then bfly (2^n) (2^(n-1-d)) (ctw n (n-1-d)) p q else 0)
      ⟨?_, h1, h2, h3⟩ ?_) ?_
    · have : 2^d < 2^(n+1) := Nat.pow_lt_pow_right (by norm_num) (by omega)
      rw [pow_zero, mul_one, Nat.mod_eq_of_lt (by omega)]
    · rintro i ⟨A, f⟩ - hi ⟨hf, h1, h2, h3⟩
      simp only at hf h1 h2 h3
      have hz : zeta (2^(n+1)) ^ f = ctw n (n-1-d) i := by
        rw [hf, zeta_pow_mod (by positivity), ctw, show n - 1 - (n-1-d) = d by omega]
      refine Ok.bind (splitStep_spec (by omega) hd hk hi hz h1 h2 h3) fun A' h => ?_
      have hlt : f < 2 * 2^(n+1) := by rw [hf]; exact Nat.mod_lt _ (by positivity)
      rw [five_ok (five_bound hn hlt), pure_bind]
      refine Ok.pure ⟨?_, h⟩
      simp only [hf]
      rw [Nat.mod_mul_mod, pow_succ 5 i, mul_assoc]
    · rintro ⟨A, f⟩ ⟨-, h1, h2, h3⟩
      refine Ok.pure ⟨h1, h2, fun p q => ?_⟩
      rw [h3]
      have : Done (2^(n-1-d)) (k+1) 0 p.val ↔ Done (2^(n-1-d)) k (2^(n-1-d)) p.val := by
        unfold Done
        have := Nat.mod_lt p.val hMpos
        omega
      simp only [this]
  · rintro A ⟨h1, h2, h3⟩
    refine ⟨h1, h2, ?_⟩
    funext p q
    rw [h3, if_pos]
    left
    rw [Nat.div_lt_iff_lt_mul (by positivity), mul_comm, ← hdiv]
    exact p.isLt

theorem splitU0NR_spec {n : Nat} (hn : n ≤ 26) (A0 : Fin n → Fac (n+1)) :
    Ok (splitU0NR (n+1) A0) fun U => ∀ d : Fin n, IsFactor n d (U d) := by
  unfold splitU0NR
  refine tabM_spec (P := fun d A => IsFactor n d A) fun d hd => ?_
  rw [rd_of_lt A0 hd, pure_bind]
  exact splitFactor_spec hn hd _

/-! ## The transforms -/

/-- the complex vector of `fftNR` -/
noncomputable def pairC (n : Nat) (m : Fin (2^(n+1)) → ℝ) : Fin (2^n) → ℂ := fun p =>
  ⟨m ⟨p, by have := p.isLt; rw [pow_succ]; omega⟩, m ⟨p + 2^n, by have := p.isLt; rw [pow_succ]; omega⟩⟩

theorem halves_spec {n : Nat} (m : Fin (2^(n+1)) → ℝ) :
    Ok (halves (n+1) m) fun z => toC z.1 z.2 = pairC n m := by
  have h2 : 2^(n+1) = 2^n + 2^n := by ring
  show Ok (do
    let zr ← tabM (2^n) (fun i => rd m i)
    let zi ← tabM (2^n) (fun i => rd m (i + 2^n))
    pure (zr, zi)) _
  rw [tabM_eq (g := fun i : Fin (2^n) => m ⟨i, by have := i.isLt; omega⟩) (fun i => rd_of_lt m _), pure_bind,
    tabM_eq (g := fun i : Fin (2^n) => m ⟨i + 2^n, by have := i.isLt; omega⟩) (fun i => rd_of_lt m _), pure_bind]
  exact Ok.pure rfl

theorem fftNRWith_spec {n : Nat} (hn : n ≤ 30) {U : Fin n → Fac (n+1)} (hU : ∀ d : Fin n, IsFactor n d (U d))
    (m : Fin (2^(n+1)) → ℝ) :
    Ok (fftNRWith (n+1) U m) fun z => toC z.1 z.2 = (fftMat n n).mulVec (pairC n m) := by
  unfold fftNRWith
  refine Ok.bind (halves_spec m) fun z hz => ?_
  refine forUp_inv (Nat.zero_le _) (P := fun t (z : CVec (n+1)) =>
    toC z.1 z.2 = (fftMat n t).mulVec (pairC n m)) ?_ ?_
  · rw [hz, fftMat, Matrix.one_mulVec]
  · intro t z _ ht hz
    have ht : t < n := ht
    rw [show n + 1 - 2 - t = n - 1 - t by omega, rd_of_lt U (show n - 1 - t < n by omega), pure_bind]
    have hF := hU ⟨n-1-t, by omega⟩
    refine Ok.mono (mvp_spec (Nat.pow_le_pow_right (by norm_num) hn) z.1 z.2 (Ar := (U ⟨n-1-t, by omega⟩).1) ?_
      (hF.re.off.trans hF.im.off.symm)) fun r hr => ?_
    · intro s
      rw [hF.re.off]
      exact splitOff_range (Nat.two_pow_pos _) (Nat.pow_lt_pow_right (by norm_num) (by omega)) s
    · rw [hr, hF.den, hz, fftMat, ← Matrix.mulVec_mulVec]
      simp only [show n - 1 - (n-1-t) = t by omega]

theorem fftNR_spec {n : Nat} (hn : n ≤ 26) (m : Fin (2^(n+1)) → ℝ) :
    Ok (fftNR (n+1) m) fun z => toC z.1 z.2 = (fftMat n n).mulVec (pairC n m) := by
  unfold fftNR
  exact Ok.bind (splitU0NR_spec hn _) fun U hU => fftNRWith_spec (by omega) hU m

/-- the adjoint factors of `ifftNR` -/
structure IsAdj (n d : Nat) (A : Fac (n+1)) : Prop where
  rng : InRange A.1
  off : A.1.off = A.2.off
  own : FirstOwns A.1 ∧ FirstOwns A.2
  flag : FlagSound A.1 ∧ FlagSound A.2
  den : denC A.1 A.2 = (bfly (2^n) (2^(n-1-d)) (ctw n (n-1-d))).conjTranspose

theorem IsFactor.inRange {n d : Nat} (hd : d < n) {A : Fac (n+1)} (h : IsFactor n d A) :
    InRange A.1 ∧ InRange A.2 := by
  constructor <;> intro s
  · rw [h.re.off]
    exact splitOff_range (Nat.two_pow_pos _) (Nat.pow_lt_pow_right (by norm_num) (by omega)) s
  · rw [h.im.off]
    exact splitOff_range (Nat.two_pow_pos _) (Nat.pow_lt_pow_right (by norm_num) (by omega)) s

theorem den_neg {H S : Nat} (A : SparseDiagonal H S) : den { A with vec := fun s i => - A.vec s i } = - den A := by
  funext i j
  simp only [SparseDiagonal.den, dg, Matrix.neg_apply, ← sum_neg_distrib]
  refine sum_congr rfl fun s _ => ?_
  split <;> simp

theorem adjFactor_spec {n d : Nat} (hn : n ≤ 30) (hd : d < n) {A : Fac (n+1)} (h : IsFactor n d A) :
    Ok (adjFactor A) (IsAdj n d) := by
  unfold adjFactor
  obtain ⟨h1, h2⟩ := h.inRange hd
  have hH : 2^n ≤ 2^30 := Nat.pow_le_pow_right (by norm_num) hn
  rw [transpose_eq hH (fun s => ⟨(h1 s).1, (h1 s).2.le⟩), pure_bind,
    transpose_eq hH (fun s => ⟨(h2 s).1, (h2 s).2.le⟩), pure_bind, negate_eq]
  refine Ok.pure ⟨transposed_inRange h1, ?_, ⟨transposed_firstOwns h1 h.re.own, ?_⟩,
    ⟨transposed_flagSound h.re.flag, ?_⟩, ?_⟩
  · simp only [transposed]
    rw [h.re.off, h.im.off]
  · intro s s' hs ho i
    simp only [neg_eq_zero]
    exact transposed_firstOwns h2 h.im.own s s' hs ho i
  · intro s hs i
    simp only [neg_eq_zero]
    exact transposed_flagSound h.im.flag s hs i
  · funext p q
    simp only [denC]
    rw [den_transposed (fun s => (h1 s).1), den_neg, den_transposed (fun s => (h2 s).1), Matrix.conjTranspose_apply,
      ← h.den]
    rfl

theorem adjTable_spec {n : Nat} (hn : n ≤ 26) :
    Ok (adjTable (n+1)) fun U => ∀ d : Fin n, IsAdj n d (U d) := by
  unfold adjTable
  refine Ok.bind (splitU0NR_spec hn _) fun U hU => ?_
  refine tabM_spec (P := fun d A => IsAdj n d A) fun d hd => ?_
  rw [rd_of_lt U hd, pure_bind]
  exact adjFactor_spec (by omega) hd (hU ⟨d, hd⟩)

theorem ifftNRWith_spec {n : Nat} (hn : n ≤ 30) {U : Fin n → Fac (n+1)} (hU : ∀ d : Fin n, IsAdj n d (U d))
    (z : CVec (n+1)) :
    Ok (ifftNRWith (n+1) U z) fun m =>
      pairC n m = ((2^n : ℂ)⁻¹ • (fftMat n n).conjTranspose).mulVec (toC z.1 z.2) := by
  unfold ifftNRWith
  have h2 : 2^(n+1) = 2^n + 2^n := by ring
  refine Ok.bind (forUp_inv (Nat.zero_le _) (P := fun t (m : CVec (n+1)) =>
    toC m.1 m.2 = (ifftMat n t).mulVec (toC z.1 z.2)) ?_ ?_) ?_
  · rw [ifftMat, Matrix.one_mulVec]
  · intro d m _ hd hm
    have hd : d < n := hd
    rw [rd_of_lt U hd, pure_bind]
    have hF := hU ⟨d, hd⟩
    refine Ok.mono (mvp_spec (Nat.pow_le_pow_right (by norm_num) hn) m.1 m.2 hF.rng hF.off) fun r hr => ?_
    rw [hr, hF.den, hm, ifftMat, ← Matrix.mulVec_mulVec]
  · intro m hm
    have hm : toC m.1 m.2 = (ifftMat n n).mulVec (toC z.1 z.2) := hm
    rw [ifftMat_eq] at hm
    refine Ok.mono (tabM_spec (P := fun i (v : ℝ) => (∀ h : i < 2^n, v = m.1 ⟨i, h⟩ / 2^n) ∧
      (∀ h : i - 2^n < 2^n, 2^n ≤ i → v = m.2 ⟨i - 2^n, h⟩ / 2^n)) ?_) ?_
    · intro i hi
      have hr : ∀ x : ℝ, x * 2 / ((2^(n+1) : ℕ) : ℝ) = x / 2^n := by
        intro x; push_cast; rw [pow_succ]; field_simp
      by_cases h : i < 2^n
      · have e : readHalves m i = pure (m.1 ⟨i, h⟩) := by
          unfold readHalves
          exact (if_pos h).trans (rd_of_lt m.1 h)
        rw [e, pure_bind]
        exact Ok.pure ⟨fun _ => hr _, fun _ h3 => absurd h (by omega)⟩
      · have h3 : i - 2^n < 2^n := by omega
        have e : readHalves m i = pure (m.2 ⟨i - 2^n, h3⟩) := by
          unfold readHalves
          exact (if_neg h).trans (rd_of_lt m.2 h3)
        rw [e, pure_bind]
        exact Ok.pure ⟨fun h3 => absurd h3 h, fun _ _ => hr _⟩
    · intro r hr
      rw [Matrix.smul_mulVec, ← hm]
      funext p
      have hp := p.isLt
      have e1 := (hr ⟨p, by omega⟩).1 hp
      have e2 := (hr ⟨p + 2^n, by omega⟩).2 (by simp) (by simp)
      simp only [pairC]
      rw [e1, e2]
      have e3 : (⟨p.val + 2^n - 2^n, by simp⟩ : Fin (2^n)) = p := Fin.ext (by simp)
      rw [e3]
      have e4 : ((2:ℂ)^n)⁻¹ = ((((2:ℝ)^n)⁻¹ : ℝ) : ℂ) := by push_cast; rfl
      simp only [Pi.smul_apply, toC, smul_eq_mul]
      rw [e4]
      generalize hx : ((2:ℝ)^n)⁻¹ = x at *
      apply Complex.ext
      · rw [Complex.re_ofReal_mul]; simp only [div_eq_inv_mul, hx, Fin.eta]
      · rw [Complex.im_ofReal_mul]; simp only [div_eq_inv_mul, hx]

theorem ifftNR_spec {n : Nat} (hn : n ≤ 26) (z : CVec (n+1)) :
    Ok (ifftNR (n+1) z) fun m =>
      pairC n m = ((2^n : ℂ)⁻¹ • (fftMat n n).conjTranspose).mulVec (toC z.1 z.2) := by
  unfold ifftNR
  exact Ok.bind (adjTable_spec hn) fun U hU => ifftNRWith_spec (by omega) hU z

/-! ## Bit reversal around the transforms -/

theorem brv_ok {n i : Nat} (h1 : 1 ≤ n) (hn : n ≤ 31) (hi : i < 2^n) :
    Ok (bitReverse (BitVec.ofNat 32 i) n) fun r => r.toNat = bitRev n i := by
  refine Ok.mono (bitReverse_spec (BitVec.ofNat 32 i) h1 (by omega)) fun y hy => ?_
  have : 2^n < 2^32 := Nat.pow_lt_pow_right (by norm_num) (by omega)
  rw [hy, BitVec.toNat_ofNat, Nat.mod_eq_of_lt (by omega)]

theorem bitRev_inj {n i j : Nat} (hi : i < 2^n) (hj : j < 2^n) (h : bitRev n i = bitRev n j) : i = j := by
  rw [← bitRev_bitRev hi, h, bitRev_bitRev hj]

theorem wrM_of_lt {n : Nat} {α : Type} (a : Mem n α) {j : Nat} (h : j < n) (v : α) :
    wrM a j v = pure (Function.update a ⟨j, h⟩ (some v)) := by
  unfold wrM; exact wr_of_lt a h (some v)

theorem rdM_of_some {n : Nat} {α : Type} {a : Mem n α} {j : Nat} (h : j < n) {v : α} (e : a ⟨j, h⟩ = some v) :
    rdM a j = pure v := by
  unfold rdM; rw [dif_pos h, e]

theorem toNR_spec {n : Nat} (h1 : 1 ≤ n) (hn : n ≤ 31) (m : Fin (2^(n+1)) → ℝ) :
    Ok (do
      let mem ← toNR (n+1) m
      tabM (2^(n+1)) (fun i => rdM mem i)) fun r =>
      pairC n r = fun p : Fin (2^n) => pairC n m ⟨bitRev n p, bitRev_lt n p⟩ := by
  have h2 : 2^(n+1) = 2^n + 2^n := by ring
  unfold toNR
  refine Ok.bind (forUp_inv (Nat.zero_le _) (P := fun k (a : Mem (2^(n+1)) ℝ) => ∀ i (hi : i < 2^n), i < k →
    a ⟨bitRev n i, by have := bitRev_lt n i; omega⟩ = some (m ⟨i, by omega⟩) ∧
    a ⟨bitRev n i + 2^n, by have := bitRev_lt n i; omega⟩ = some (m ⟨i + 2^n, by omega⟩))
    (fun i _ h => absurd h (Nat.not_lt_zero _)) ?_) ?_
  · intro k a _ hk ha
    have hk : k < 2^n := hk
    refine Ok.bind (brv_ok h1 hn hk) fun r hr => ?_
    have hr : r.toNat = bitRev n k := hr
    have hb := bitRev_lt n k
    rw [hr, rd_of_lt m (show k < 2^(n+1) by omega), pure_bind, wrM_of_lt a (show bitRev n k < 2^(n+1) by omega), pure_bind,
      rd_of_lt m (show k + 2^(n+1-1) < 2^(n+1) by rw [show n + 1 - 1 = n from rfl]; omega), pure_bind,
      wrM_of_lt _ (show bitRev n k + 2^(n+1-1) < 2^(n+1) by rw [show n + 1 - 1 = n from rfl]; omega)]
    refine Ok.pure fun i hi hik => ?_
    have hbi := bitRev_lt n i
    by_cases e : i = k
    · subst e
      constructor
      · rw [Function.update_of_ne (by
          intro h; have := congrArg Fin.val h; simp only [show n + 1 - 1 = n from rfl] at this; omega), Function.update_self]
      · exact Function.update_self _ _ _
    · have hne : bitRev n i ≠ bitRev n k := fun h => e (bitRev_inj hi hk h)
      have := ha i hi (by omega)
      constructor
      · rw [Function.update_of_ne (by
          intro h; have := congrArg Fin.val h; simp only [show n + 1 - 1 = n from rfl] at this; omega),
          Function.update_of_ne (by intro h; exact hne (congrArg Fin.val h))]
        exact this.1
      · rw [Function.update_of_ne (by
          intro h; have := congrArg Fin.val h; simp only [show n + 1 - 1 = n from rfl] at this; omega),
          Function.update_of_ne (by intro h; have := congrArg Fin.val h; simp only at this; omega)]
        exact this.2
  · intro a ha
    have ha : ∀ i (hi : i < 2^n),
      a ⟨bitRev n i, by have := bitRev_lt n i; omega⟩ = some (m ⟨i, by omega⟩) ∧
      a ⟨bitRev n i + 2^n, by have := bitRev_lt n i; omega⟩ = some (m ⟨i + 2^n, by omega⟩) :=
      fun i hi => ha i hi hi
    have hlo : ∀ p (hp : p < 2^n), a ⟨p, by omega⟩ = some (m ⟨bitRev n p, by have := bitRev_lt n p; omega⟩) := by
      intro p hp
      have := (ha (bitRev n p) (bitRev_lt n p)).1
      simp only [bitRev_bitRev hp] at this
      exact this
    have hhi : ∀ p (hp : p < 2^n), a ⟨p + 2^n, by omega⟩ =
        some (m ⟨bitRev n p + 2^n, by have := bitRev_lt n p; omega⟩) := by
      intro p hp
      have := (ha (bitRev n p) (bitRev_lt n p)).2
      simp only [bitRev_bitRev hp] at this
      exact this
    have hall : ∀ i : Fin (2^(n+1)), ∃ v, a i = some v := by
      intro i
      by_cases h : i.val < 2^n
      · exact ⟨_, hlo i h⟩
      · have := hhi (i.val - 2^n) (by have := i.isLt; omega)
        simp only [show i.val - 2^n + 2^n = i.val by omega] at this
        exact ⟨_, this⟩
    rw [tabM_eq (g := fun i => (a i).get (by obtain ⟨v, hv⟩ := hall i; rw [hv]; rfl))
      (fun i => rdM_of_some i.isLt (Option.some_get _).symm)]
    refine Ok.pure ?_
    funext p
    simp only [pairC]
    have e1 := hlo p p.isLt
    have e2 := hhi p p.isLt
    simp only [e1, e2, Option.get_some]

theorem fft_spec {n : Nat} (h1 : 1 ≤ n) (hn : n ≤ 26) (m : Fin (2^(n+1)) → ℝ) :
    Ok (fft (n+1) m) fun z =>
      toC z.1 z.2 = (fftMat n n).mulVec (fun p => pairC n m ⟨bitRev n p, bitRev_lt n p⟩) := by
  have h := toNR_spec h1 (by omega) m
  have e : fft (n+1) m = (do
      let mem ← toNR (n+1) m
      tabM (2^(n+1)) (fun i => rdM mem i)) >>= fftNR (n+1) := by
    unfold fft
    rw [bind_assoc]
  rw [e]
  refine Ok.bind h fun r hr => ?_
  rw [← hr]
  exact fftNR_spec hn r

theorem fromNR_spec {n : Nat} (h1 : 1 ≤ n) (hn : n ≤ 31) (mNR m0 : Fin (2^(n+1)) → ℝ) :
    Ok (fromNR (n+1) mNR m0) fun r => pairC n r = fun p : Fin (2^n) => pairC n mNR ⟨bitRev n p, bitRev_lt n p⟩ := by
  have h2 : 2^(n+1) = 2^n + 2^n := by ring
  unfold fromNR
  refine Ok.mono (forUp_inv (Nat.zero_le _) (P := fun k (a : Fin (2^(n+1)) → ℝ) => ∀ i (hi : i < 2^n), i < k →
    a ⟨i, by omega⟩ = mNR ⟨bitRev n i, by have := bitRev_lt n i; omega⟩ ∧
    a ⟨i + 2^n, by omega⟩ = mNR ⟨bitRev n i + 2^n, by have := bitRev_lt n i; omega⟩)
    (fun i _ h => absurd h (Nat.not_lt_zero _)) ?_) ?_
  · intro k a _ hk ha
    have hk : k < 2^n := hk
    refine Ok.bind (brv_ok h1 hn hk) fun r hr => ?_
    have hr : r.toNat = bitRev n k := hr
    have hb := bitRev_lt n k
    rw [hr, rd_of_lt mNR (show bitRev n k < 2^(n+1) by omega), pure_bind, wr_of_lt a (show k < 2^(n+1) by omega), pure_bind,
      rd_of_lt mNR (show bitRev n k + 2^(n+1-1) < 2^(n+1) by rw [show n + 1 - 1 = n from rfl]; omega), pure_bind,
      wr_of_lt _ (show k + 2^(n+1-1) < 2^(n+1) by rw [show n + 1 - 1 = n from rfl]; omega)]
    refine Ok.pure fun i hi hik => ?_
    by_cases e : i = k
    · subst e
      constructor
      · rw [Function.update_of_ne (by
          intro h; have := congrArg Fin.val h; simp only [show n + 1 - 1 = n from rfl] at this; omega), Function.update_self]
      · exact Function.update_self _ _ _
    · have := ha i hi (by omega)
      constructor
      · rw [Function.update_of_ne (by
          intro h; have := congrArg Fin.val h; simp only [show n + 1 - 1 = n from rfl] at this; omega),
          Function.update_of_ne (by intro h; exact e (congrArg Fin.val h))]
        exact this.1
      · rw [Function.update_of_ne (by
          intro h; have := congrArg Fin.val h; simp only [show n + 1 - 1 = n from rfl] at this; omega),
          Function.update_of_ne (by intro h; have := congrArg Fin.val h; simp only at this; omega)]
        exact this.2
  · intro a ha
    funext p
    have := ha p p.isLt p.isLt
    simp only [pairC]
    rw [this.1, this.2]

theorem ifft_spec {n : Nat} (h1 : 1 ≤ n) (hn : n ≤ 26) (z : CVec (n+1)) (m0 : Fin (2^(n+1)) → ℝ) :
    Ok (ifft (n+1) z m0) fun m => pairC n m = fun p : Fin (2^n) =>
      ((2^n : ℂ)⁻¹ • (fftMat n n).conjTranspose).mulVec (toC z.1 z.2) ⟨bitRev n p, bitRev_lt n p⟩ := by
  unfold ifft
  refine Ok.bind (ifftNR_spec hn z) fun mNR h => ?_
  refine Ok.mono (fromNR_spec h1 (by omega) mNR m0) fun m hm => ?_
  rw [hm]
  funext p
  exact congrFun h _

/-! ## What the matrix means -/

theorem pairC_inj {n : Nat} {m m' : Fin (2^(n+1)) → ℝ} (h : pairC n m = pairC n m') : m = m' := by
  have h2 : 2^(n+1) = 2^n + 2^n := by ring
  funext i
  have hi := i.isLt
  by_cases hlt : i.val < 2^n
  · exact congrArg Complex.re (congrFun h ⟨i, hlt⟩)
  · have := congrArg Complex.im (congrFun h ⟨i.val - 2^n, by omega⟩)
    simp only [pairC, show i.val - 2^n + 2^n = i.val by omega] at this
    exact this

/-- bit reversal as a permutation -/
def brvEquiv (n : Nat) : Fin (2^n) ≃ Fin (2^n) where
  toFun p := ⟨bitRev n p, bitRev_lt n p⟩
  invFun p := ⟨bitRev n p, bitRev_lt n p⟩
  left_inv p := Fin.ext (bitRev_bitRev p.isLt)
  right_inv p := Fin.ext (bitRev_bitRev p.isLt)

theorem slotOf_zeta {N : Nat} (m : Fin N → ℝ) (i : Nat) :
    slotOf m i = ∑ k : Fin N, (m k : ℂ) * zeta N ^ (5^i * k.val) := by
  unfold slotOf
  refine sum_congr rfl fun k _ => ?_
  rw [zeta_pow]

theorem slotOf_pair {n : Nat} (m : Fin (2^(n+1)) → ℝ) (i : Nat) :
    slotOf m i = ∑ k : Fin (2^n), pairC n m k * zeta (2^(n+1)) ^ (5^i * k.val) := by
  have h2 : 2^(n+1) = 2^n + 2^n := by ring
  rw [slotOf_zeta, ← Equiv.sum_comp (finCongr h2.symm), Fin.sum_univ_add, ← sum_add_distrib]
  refine sum_congr rfl fun k _ => ?_
  have hI : zeta (2^(n+1)) ^ (5^i * 2^n) = I := by
    rw [mul_comm, pow_mul, show 2^(n+1) = 2*2^n by ring, zeta_half (by positivity)]
    have : ∃ c, 5^i = 4*c + 1 := by
      induction i with
      | zero => exact ⟨0, rfl⟩
      | succ i ih => obtain ⟨c, hc⟩ := ih; exact ⟨5*c+1, by rw [pow_succ, hc]; ring⟩
    obtain ⟨c, hc⟩ := this
    rw [hc, pow_add, pow_mul, Complex.I_pow_four, one_pow, one_mul, pow_one]
  have e1 : (finCongr h2.symm (Fin.castAdd (2^n) k)).val = k.val := rfl
  have e2 : (finCongr h2.symm (Fin.natAdd (2^n) k)).val = 2^n + k.val := rfl
  rw [e1, e2, mul_add (5^i), pow_add (zeta (2^(n+1))), hI]
  have e3 : (finCongr h2.symm (Fin.castAdd (2^n) k)) = ⟨k.val, by have := k.isLt; omega⟩ := rfl
  have e4 : (finCongr h2.symm (Fin.natAdd (2^n) k)) = ⟨k.val + 2^n, by have := k.isLt; omega⟩ :=
    Fin.ext (Nat.add_comm _ _)
  rw [e3, e4]
  have e5 : pairC n m k = (m ⟨k.val, by have := k.isLt; omega⟩ : ℂ) + (m ⟨k.val + 2^n, by have := k.isLt; omega⟩ : ℂ) * I := by
    unfold pairC
    apply Complex.ext <;> simp
  rw [e5]
  ring

theorem fftMat_slot {n : Nat} (m : Fin (2^(n+1)) → ℝ) (i : Fin (2^n)) :
    (fftMat n n).mulVec (fun p => pairC n m ⟨bitRev n p, bitRev_lt n p⟩) i = slotOf m i := by
  rw [slotOf_pair, Matrix.mulVec, dotProduct, ← Equiv.sum_comp (brvEquiv n)]
  refine sum_congr rfl fun k _ => ?_
  have e : (⟨bitRev n (brvEquiv n k), bitRev_lt n (brvEquiv n k)⟩ : Fin (2^n)) = k := (brvEquiv n).left_inv k
  rw [e, show brvEquiv n k = ⟨bitRev n k, bitRev_lt n k⟩ from rfl, fftMat_apply, mul_comm]

/-! ## The direct transforms -/

theorem addMod_ok {N x y : Nat} (h : x + y ≤ INT_MAX) : addMod N x y = pure ((x + y) % (2*N)) := by
  unfold addMod
  rw [idxM_ok h, pure_bind]

theorem mk_add (a b c d : ℝ) : (⟨a + c, b + d⟩ : ℂ) = ⟨a, b⟩ + ⟨c, d⟩ := rfl

theorem mk_smul (x c s : ℝ) : (⟨x * c, x * s⟩ : ℂ) = x * ⟨c, s⟩ := by
  apply Complex.ext <;> simp

theorem dftRow_spec {N : Nat} (hN : 0 < N) (hb : 10 * N ≤ INT_MAX) (m : Fin N → ℝ) {f : Nat} (hf : f < 2*N) :
    Ok (dftRow m f) fun r => (⟨r.1, r.2⟩ : ℂ) = ∑ k : Fin N, (m k : ℂ) * zeta N ^ (f * k.val) := by
  unfold dftRow
  refine Ok.bind (forUp_inv (Nat.zero_le _) (P := fun k (st : (ℝ × ℝ) × Nat) => st.2 = f * k % (2*N) ∧
    (⟨st.1.1, st.1.2⟩ : ℂ) = ∑ j : Fin N, if j.val < k then (m j : ℂ) * zeta N ^ (f * j.val) else 0)
    ⟨by simp, ?_⟩ ?_) ?_
  · simp only [Nat.not_lt_zero, if_false, sum_const_zero]; rfl
  · rintro k ⟨⟨a, b⟩, g⟩ - hk ⟨h1, h2⟩
    simp only at h1 h2
    have hg : g < 2*N := by rw [h1]; exact Nat.mod_lt _ (by omega)
    rw [rd_of_lt m hk, pure_bind, addMod_ok (by omega), pure_bind]
    refine Ok.pure ⟨?_, ?_⟩
    · simp only [h1]
      rw [Nat.mod_add_mod, Nat.mul_succ]
    · simp only []
      rw [mk_add, h2, mk_smul, cos_sin_zeta, h1, zeta_pow_mod hN]
      have : ∀ j : Fin N, (if j.val < k + 1 then (m j : ℂ) * zeta N ^ (f * j.val) else 0) =
          (if j.val < k then (m j : ℂ) * zeta N ^ (f * j.val) else 0) +
          (if j = ⟨k, hk⟩ then (m j : ℂ) * zeta N ^ (f * j.val) else 0) := by
        intro j
        by_cases e : j = ⟨k, hk⟩
        · rw [if_pos e, if_pos (by rw [e]; simp), if_neg (by rw [e]; simp), zero_add]
        · have : j.val ≠ k := fun h => e (Fin.ext h)
          rw [if_neg e, add_zero]
          by_cases h : j.val < k
          · rw [if_pos h, if_pos (by omega)]
          · rw [if_neg h, if_neg (by omega)]
      simp_rw [this]
      rw [sum_add_distrib, sum_ite_eq', if_pos (mem_univ _)]
  · rintro ⟨⟨a, b⟩, g⟩ ⟨-, h⟩
    refine Ok.pure ?_
    simp only at h ⊢
    rw [h]
    exact sum_congr rfl fun j _ => if_pos j.isLt

theorem dft_spec {N : Nat} (hN : 0 < N) (hb : 10 * N ≤ INT_MAX) (m : Fin N → ℝ)
    (z0 : (Fin (N/2) → ℝ) × (Fin (N/2) → ℝ)) :
    Ok (dft m z0) fun z => ∀ i : Fin (N/2), (⟨z.1 i, z.2 i⟩ : ℂ) = slotOf m i := by
  unfold dft
  refine Ok.bind (forUp_inv (Nat.zero_le _) (P := fun k (st : ((Fin (N/2) → ℝ) × (Fin (N/2) → ℝ)) × Nat) =>
    st.2 = 5^k % (2*N) ∧ ∀ i : Fin (N/2), i.val < k → (⟨st.1.1 i, st.1.2 i⟩ : ℂ) = slotOf m i)
    ⟨?_, fun i h => absurd h (Nat.not_lt_zero _)⟩ ?_) ?_
  · rw [pow_zero, Nat.mod_eq_of_lt (by omega)]
  · rintro k ⟨⟨a, b⟩, g⟩ - hk ⟨h1, h2⟩
    simp only at h1 h2 ⊢
    have hg : g < 2*N := by rw [h1]; exact Nat.mod_lt _ (by omega)
    refine Ok.bind (dftRow_spec hN hb m hg) fun r hr => ?_
    rw [wr_of_lt a hk, pure_bind, wr_of_lt b hk, pure_bind, five_ok (by omega), pure_bind]
    refine Ok.pure ⟨?_, fun i hi => ?_⟩
    · simp only [h1]
      rw [Nat.mod_mul_mod, pow_succ 5 k]
    · simp only []
      by_cases e : i = ⟨k, hk⟩
      · subst e
        rw [Function.update_self, Function.update_self, hr, slotOf_zeta]
        refine sum_congr rfl fun j _ => ?_
        rw [← zeta_pow_mod hN, h1, Nat.mod_mul_mod, zeta_pow_mod hN]
      · have : i.val ≠ k := fun h => e (Fin.ext h)
        rw [Function.update_of_ne e, Function.update_of_ne e]
        exact h2 i (by omega)
  · rintro ⟨z, g⟩ ⟨-, h⟩
    exact Ok.pure fun i => h i i.isLt

theorem idftRow_spec {N H : Nat} (hN : 0 < N) (hb : 10 * N ≤ INT_MAX) (zr zi : Fin H → ℝ) {k : Nat} (hk : k < 2*N) :
    Ok (idftRow N zr zi k) fun r => (⟨r.1, r.2⟩ : ℂ) = ∑ i : Fin H, star (zeta N ^ (5^i.val * k)) * toC zr zi i := by
  unfold idftRow
  refine Ok.bind (forUp_inv (Nat.zero_le _) (P := fun i (st : (ℝ × ℝ) × Nat) => st.2 = 5^i * k % (2*N) ∧
    (⟨st.1.1, st.1.2⟩ : ℂ) = ∑ j : Fin H, if j.val < i then star (zeta N ^ (5^j.val * k)) * toC zr zi j else 0)
    ⟨?_, ?_⟩ ?_) ?_
  · rw [pow_zero, one_mul, Nat.mod_eq_of_lt hk]
  · simp only [Nat.not_lt_zero, if_false, sum_const_zero]; rfl
  · rintro i ⟨⟨a, b⟩, g⟩ - hi ⟨h1, h2⟩
    simp only at h1 h2
    have hg : g < 2*N := by rw [h1]; exact Nat.mod_lt _ (by omega)
    rw [rd_of_lt zr hi, pure_bind, rd_of_lt zi hi, pure_bind, five_ok (by omega), pure_bind]
    refine Ok.pure ⟨?_, ?_⟩
    · simp only [h1]
      rw [Nat.mod_mul_mod, pow_succ 5 i]; congr 1; ring
    · simp only []
      have hz := cos_sin_zeta N g
      rw [mk_add, h2]
      have : ∀ j : Fin H, (if j.val < i + 1 then star (zeta N ^ (5^j.val * k)) * toC zr zi j else 0) =
          (if j.val < i then star (zeta N ^ (5^j.val * k)) * toC zr zi j else 0) +
          (if j = ⟨i, hi⟩ then star (zeta N ^ (5^j.val * k)) * toC zr zi j else 0) := by
        intro j
        by_cases e : j = ⟨i, hi⟩
        · rw [if_pos e, if_pos (by rw [e]; simp), if_neg (by rw [e]; simp), zero_add]
        · have : j.val ≠ i := fun h => e (Fin.ext h)
          rw [if_neg e, add_zero]
          by_cases h : j.val < i
          · rw [if_pos h, if_pos (by omega)]
          · rw [if_neg h, if_neg (by omega)]
      simp_rw [this]
      rw [sum_add_distrib, sum_ite_eq', if_pos (mem_univ _)]
      congr 1
      rw [← zeta_pow_mod hN (5^i * k), ← h1, ← hz]
      apply Complex.ext
      · simp [toC]
      · simp [toC]; ring
  · rintro ⟨⟨a, b⟩, g⟩ ⟨-, h⟩
    refine Ok.pure ?_
    simp only at h ⊢
    rw [h]
    exact sum_congr rfl fun j _ => if_pos j.isLt

theorem idft_spec {N : Nat} (hN : 0 < N) (he : N % 2 = 0) (hb : 10 * N ≤ INT_MAX) (zr zi : Fin (N/2) → ℝ) (m0 : Fin N → ℝ) :
    Ok (idft zr zi m0) fun m => ∀ k (hk : k < N/2),
      (⟨m ⟨k, by omega⟩, m ⟨k + N/2, by omega⟩⟩ : ℂ) =
        (2 / N : ℝ) * ∑ i : Fin (N/2), star (zeta N ^ (5^i.val * k)) * toC zr zi i := by
  unfold idft
  refine Ok.mono (forUp_inv (Nat.zero_le _) (P := fun c (m : Fin N → ℝ) => ∀ k (hk : k < N/2), k < c →
      (⟨m ⟨k, by omega⟩, m ⟨k + N/2, by omega⟩⟩ : ℂ) =
        (2 / N : ℝ) * ∑ i : Fin (N/2), star (zeta N ^ (5^i.val * k)) * toC zr zi i)
    (fun k _ h => absurd h (Nat.not_lt_zero _)) ?_) (fun m h k hk => h k hk hk)
  intro c m _ hc h
  refine Ok.bind (idftRow_spec hN hb zr zi (by omega)) fun r hr => ?_
  rw [wr_of_lt m (show c < N by omega), pure_bind, wr_of_lt _ (show c + N/2 < N by omega)]
  refine Ok.pure fun k hk hkc => ?_
  by_cases e : k = c
  · subst e
    rw [Function.update_self, Function.update_of_ne (by
      intro h; have := congrArg Fin.val h; simp only at this; omega), Function.update_self, ← hr, ← mk_smul]
  · rw [Function.update_of_ne (by intro h; have := congrArg Fin.val h; simp only at this; omega),
      Function.update_of_ne (by intro h; exact e (congrArg Fin.val h)),
      Function.update_of_ne (by intro h; have := congrArg Fin.val h; simp only at this; omega),
      Function.update_of_ne (by intro h; have := congrArg Fin.val h; simp only at this; omega)]
    exact h k hk (by omega)

/-! ## The overflow from `LOGN = 28` on -/

theorem five_ub {N x : Nat} (h : INT_MAX < x * 5) : five N x = ub := by
  unfold five idxM
  rw [if_neg (by omega)]
  rfl

theorem splitFactor_overflow (A0 : Fac 28) : splitFactor 28 0 A0 = ub := by
  unfold splitFactor
  refine forUp_fault (k := 0) (le_refl _) (by norm_num) (P := fun k A => k = 0 ∧ A =
    (setOffs A0.1.setzero (2^(28 - 0 - 2)), setOffs A0.2.setzero (2^(28-0-2)))) ⟨rfl, rfl⟩
    (fun i s h1 h2 => absurd h2 (by omega)) ?_
  rintro A ⟨-, rfl⟩
  have hI : INT_MAX = 2147483647 := by decide
  have hin : ∀ body, body = (fun i (st : Fac 28 × Nat) => do
      let A ← splitStep 28 (2^(28-0-2)) 0 i st.2 st.1
      let f ← five (2^28) st.2
      pure (A, f)) → forUp 0 (2^(28-0-2)) body ((setOffs A0.1.setzero (2^(28-0-2)),
        setOffs A0.2.setzero (2^(28-0-2))), 2^0) = (throw Fault.ub : M (Fac 28 × Nat)) := by
    rintro body rfl
    have hz : ∀ i f, f = 5^i % (2 * 2^28) → zeta (2^28) ^ f = ctw 27 26 i := by
      intro i f hf
      rw [hf, zeta_pow_mod (by positivity), ctw]; simp
    refine forUp_fault (k := 15) (by omega) (by norm_num) (P := fun i (st : Fac 28 × Nat) =>
      st.2 = 5^i % (2 * 2^28) ∧
      Good (splitOff (2^27) (2^26)) st.1.1 ∧ Good (splitOff (2^27) (2^26)) st.1.2 ∧
      ∀ p q : Fin (2^27), denC st.1.1 st.1.2 p q =
        if Done (2^26) 0 i p then bfly (2^27) (2^26) (ctw 27 26) p q else 0) ⟨by norm_num, setOffs_good _, setOffs_good _, ?_⟩ ?_ ?_
    · intro p q
      rw [if_neg (by unfold Done; rintro (h | ⟨-, h⟩) <;> exact Nat.not_lt_zero _ h)]
      simp only [denC]
      rw [den_setOffs, den_setOffs]
      rfl
    · rintro i ⟨A, f⟩ - hi ⟨hf, h1, h2, h3⟩
      simp only at hf h1 h2 h3
      have hf5 : f * 5 ≤ INT_MAX := by
        rw [hf, hI]
        interval_cases i <;> norm_num
      refine Ok.bind (splitStep_spec (n := 27) (d := 0) (by omega) (by omega) (by omega)
        (by have : (15 : Nat) < 2^26 := by norm_num
            show i < 2^26
            omega) (hz i f hf) h1 h2 h3) fun A' h => ?_
      rw [five_ok hf5, pure_bind]
      refine Ok.pure ⟨?_, h⟩
      simp only [hf]
      rw [Nat.mod_mul_mod, pow_succ 5 i]
    · rintro ⟨A, f⟩ ⟨hf, h1, h2, h3⟩
      simp only at hf h1 h2 h3
      obtain ⟨A', e, -⟩ := splitStep_spec (n := 27) (d := 0) (k := 0) (i := 15) (by omega) (by omega) (by omega)
        (by norm_num) (hz 15 f hf) h1 h2 h3
      have e' : splitStep 28 (2^(28-0-2)) 0 15 f A = pure A' := e
      simp only []
      rw [e', pure_bind, five_ub (by rw [hf, hI]; norm_num)]
      rfl
  rw [hin _ rfl]
  rfl

theorem tabM_fault {α : Type} {n : Nat} {f : Nat → M α} (h : f 0 = ub) : tabM (n+1) f = ub := by
  induction n with
  | zero =>
    show (tabM 0 f >>= fun a => f 0 >>= fun x => _) = ub
    have : tabM 0 f = pure (fun i => i.elim0) := tabM_eq (fun i => i.elim0)
    rw [this, pure_bind, h]
    rfl
  | succ n ih =>
    show (tabM (n+1) f >>= fun a => f (n+1) >>= fun x => _) = ub
    rw [ih]
    rfl

theorem splitU0NR_overflow (A0 : Fin 27 → Fac 28) : splitU0NR 28 A0 = ub := by
  unfold splitU0NR
  refine tabM_fault (n := 26) ?_
  rw [rd_of_lt A0 (by norm_num), pure_bind]
  exact splitFactor_overflow _

theorem fft_overflow (m : Fin (2^28) → ℝ) : fft 28 m = ub := by
  obtain ⟨r, e, -⟩ := toNR_spec (n := 27) (by norm_num) (by norm_num) m
  have e1 : fft 28 m = (do
      let mem ← toNR 28 m
      tabM (2^28) (fun i => rdM mem i)) >>= fftNR 28 := by
    unfold fft
    rw [bind_assoc]
  have e : (do
      let mem ← toNR 28 m
      tabM (2^28) (fun i => rdM mem i)) = pure r := e
  rw [e1, e, pure_bind, fftNR, splitU0NR_overflow]
  rfl

end EvalRound

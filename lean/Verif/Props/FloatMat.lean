import Verif.Proofs.FloatCtS
import Verif.Props.Float

/-! # C75: sparse matrices in binary64 -/

namespace EvalRound
open Finset SparseDiagonal

variable {n N S1 S2 : Nat} {L : LibmP}

/-- The sparse complex product of matrix.h:191-225 in binary64: no overflow, no assertion fails, the shape of the result is that of an exact
product, and each row differs from the one of the exact product by at most 25 units per pair of diagonals. -/
theorem C75_product (hN1 : 1 ≤ N) (hN : N ≤ 2^30) (hS : S1 * S2 ≤ 1000) (Ar Ai : SparseDiagonal N S1) (Br Bi : SparseDiagonal N S2)
    (ra : InRange Ar) (rb : InRange Br) (oa : Ar.off = Ai.off) (ob : Br.off = Bi.off)
    (fa : FlagSound Ar ∧ FlagSound Ai) (fb : FlagSound Br ∧ FlagSound Bi) (wa : FirstOwns Ar ∧ FirstOwns Ai) (wb : FirstOwns Br ∧ FirstOwns Bi)
    (ea : ∀ i l, ‖denC Ar Ai i l‖ ≤ 1.001) (sa : ∀ i, ∑ l, ‖denC Ar Ai i l‖ ≤ 2.001) (eb : ∀ i l, ‖denC Br Bi i l‖ ≤ 1.001)
    (C0 C1 : SparseDiagonal N (S1 * S2)) :
    Ok (MatMulCF Ar Ai Br Bi C0 C1) fun C => InRange C.1 ∧ C.1.off = C.2.off ∧ FlagSound C.1 ∧ FlagSound C.2 ∧
      RowNearC (denC C.1 C.2) (denC Ar Ai * denC Br Bi) (S1 * S2 * 25 / 2^53) := by
  refine Ok.mono (MatMulCF_spec (A := (Ar, Ai)) (B := (Br, Bi)) hN hN1 ⟨⟨ra, fun s _ => congrFun oa s, fa.1, fa.2⟩, oa, wa.1, wa.2⟩
    ⟨⟨rb, fun s _ => congrFun ob s, fb.1, fb.2⟩, ob, wb.1, wb.2⟩ hS ea sa eb C0 C1)
    fun C ⟨h1, h2⟩ => ⟨h1.rng, h1.offEq, h1.flag.1, h1.flag.2, fun i => (h2 i).trans (le_of_eq ?_)⟩
  rw [uF_eq]; ring

/-- Every factor of CoeffToSlot in binary64 is within 36 units of the exact one in each row. -/
theorem C75_cts_factors (hL : L.Accurate) (h1 : 1 ≤ n) (h2 : n ≤ 26) : ∃ U0 U, ctsTable (n+1) = pure U0 ∧ ctsTableF L (n+1) = pure U ∧
    ∀ d : Fin n, RowNearC (denC (N := 2^n) (U d).1 (U d).2) (denC (N := 2^n) (U0 d).1 (U0 d).2) (36 / 2^53) := by
  obtain ⟨U0, e0, h0⟩ := ctsTable_spec h2
  obtain ⟨U, e, h⟩ := ctsTableF_spec hL h1 h2
  refine ⟨U0, U, e0, e, fun d => ?_⟩
  have k := h.near d
  have e3 : denC (N := 2^n) (U0 d).1 (U0 d).2 = ctsR n d := (h0 d).den
  rw [uF_eq, ← e3] at k
  exact k.mono (le_of_eq (by ring))

/-- Every factor of SlotToCoeff in binary64 is within 36 units of the exact one in each row. -/
theorem C75_stc_factors (hL : L.toLibm.Accurate) (h2 : n ≤ 26) : ∃ T0 T, stcTable (n+1) = pure T0 ∧ stcTableF L.toLibm (n+1) = pure T ∧
    ∀ d : Fin n, RowNearC (denC (N := 2^n) (T.1 d).1 (T.1 d).2) (denC (N := 2^n) (T0.1 d).1 (T0.1 d).2) (36 / 2^53) ∧
      RowNearC (denC (N := 2^n) (T.2 d).1 (T.2 d).2) (denC (N := 2^n) (T0.2 d).1 (T0.2 d).2) (36 / 2^53) := by
  obtain ⟨U0, e0, h0⟩ := stcTable_spec h2
  obtain ⟨U, e, h⟩ := stcTableF_spec hL h2
  refine ⟨U0, U, e0, e, fun d => ⟨?_, ?_⟩⟩
  · have k := h.1.near d
    have e3 : denC (N := 2^n) (U0.1 d).1 (U0.1 d).2 = stcR n (fun _ => 1) d := (h0.1 d).den
    rw [uF_eq, ← e3] at k
    exact k.mono (le_of_eq (by ring))
  · have k := h.2.near d
    have e3 : denC (N := 2^n) (U0.2 d).1 (U0.2 d).2 = stcR n unitI d := (h0.2 d).den
    rw [uF_eq, ← e3] at k
    exact k.mono (le_of_eq (by ring))

theorem cts_mats (h1 : 1 ≤ n) {U0 : Fin n → Fac (n+1)} (h0 : ∀ d : Fin n, IsCts n d (U0 d)) {g i : Nat} (hi : i < n / g) :
    seqMat (fun j => mats (H := 2^n) U0 (g * i + j)) g = seqMat (fun j => ctsR n (g * i + j)) g :=
  seqMat_congr fun j hj => by
    have hd := div_idx hi hj
    rw [mats_lt (H := 2^n) U0 hd]
    exact (h0 ⟨_, hd⟩).den

theorem stc_mats {c : Nat → ℂ} {U0 : Fin n → Fac (n+1)} (h0 : ∀ d : Fin n, IsStc n d (c d) (U0 d)) {g i : Nat} (hi : i < n / g) :
    seqMat (fun j => mats (H := 2^n) U0 (g * i + j)) g = seqMat (fun j => stcR n c (g * i + j)) g :=
  seqMat_congr fun j hj => by
    have hd := div_idx hi hj
    rw [mats_lt (H := 2^n) U0 hd]
    exact (h0 ⟨_, hd⟩).den

theorem two_pow_le30 (h2 : n ≤ 26) : 2^n ≤ 2^30 := Nat.pow_le_pow_right (by norm_num) (by omega)

/-- Groups of two factors of CoeffToSlot, linear_transform.h:196-202. -/
theorem C75_cts2 (hL : L.Accurate) (h1 : 1 ≤ n) (h2 : n ≤ 26) (hd : n % 2 = 0) : ∃ U0 B0 U B,
    ctsTable (n+1) = pure U0 ∧ group2 (D := n) U0 = pure B0 ∧ ctsTableF L (n+1) = pure U ∧ group2F (D := n) U = pure B ∧
    ∀ i : Fin (n/2), RowNearC (denC (N := 2^n) (B i).1 (B i).2) (denC (N := 2^n) (B0 i).1 (B0 i).2) (400 / 2^53) := by
  obtain ⟨U0, e0, h0⟩ := ctsTable_spec h2
  obtain ⟨U, e, h⟩ := ctsTableF_spec hL h1 h2
  obtain ⟨B0, f0, g0⟩ := group2_spec (D := n) (two_pow_le30 h2) Nat.one_le_two_pow (fun d => (h0 d).shape.toSDOk) hd
  obtain ⟨B, f, g⟩ := group2F_spec (two_pow_le30 h2) Nat.one_le_two_pow h hd
  refine ⟨U0, B0, U, B, e0, f0, e, f, fun i => ?_⟩
  have e3 : denC (N := 2^n) (B0 i).1 (B0 i).2 = _ := (g0 i).2
  rw [e3, cts_mats h1 h0 i.isLt]
  exact (g i).2.mono (le_of_eq (by unfold matUlp; norm_num))

/-- Groups of three factors of CoeffToSlot, linear_transform.h:212-222. -/
theorem C75_cts3 (hL : L.Accurate) (h1 : 1 ≤ n) (h2 : n ≤ 26) (hd : n % 3 = 0) : ∃ U0 B0 U B,
    ctsTable (n+1) = pure U0 ∧ group3 (D := n) U0 = pure B0 ∧ ctsTableF L (n+1) = pure U ∧ group3F (D := n) U = pure B ∧
    ∀ i : Fin (n/3), RowNearC (denC (N := 2^n) (B i).1 (B i).2) (denC (N := 2^n) (B0 i).1 (B0 i).2) (1600 / 2^53) := by
  obtain ⟨U0, e0, h0⟩ := ctsTable_spec h2
  obtain ⟨U, e, h⟩ := ctsTableF_spec hL h1 h2
  obtain ⟨B0, f0, g0⟩ := group3_spec (D := n) (two_pow_le30 h2) Nat.one_le_two_pow (fun d => (h0 d).shape.toSDOk) hd
  obtain ⟨B, f, g⟩ := group3F_spec (two_pow_le30 h2) Nat.one_le_two_pow h hd
  refine ⟨U0, B0, U, B, e0, f0, e, f, fun i => ?_⟩
  have e3 : denC (N := 2^n) (B0 i).1 (B0 i).2 = _ := (g0 i).2
  rw [e3, cts_mats h1 h0 i.isLt]
  exact (g i).2.mono (le_of_eq (by unfold matUlp; norm_num))

/-- Groups of four factors of CoeffToSlot, linear_transform.h:232-243. -/
theorem C75_cts4 (hL : L.Accurate) (h1 : 1 ≤ n) (h2 : n ≤ 26) (hd : n % 4 = 0) : ∃ U0 B0 U B,
    ctsTable (n+1) = pure U0 ∧ group4 (D := n) U0 = pure B0 ∧ ctsTableF L (n+1) = pure U ∧ group4F (D := n) U = pure B ∧
    ∀ i : Fin (n/4), RowNearC (denC (N := 2^n) (B i).1 (B i).2) (denC (N := 2^n) (B0 i).1 (B0 i).2) (6400 / 2^53) := by
  obtain ⟨U0, e0, h0⟩ := ctsTable_spec h2
  obtain ⟨U, e, h⟩ := ctsTableF_spec hL h1 h2
  obtain ⟨B0, f0, g0⟩ := group4_spec (D := n) (two_pow_le30 h2) Nat.one_le_two_pow (fun d => (h0 d).shape.toSDOk) hd
  obtain ⟨B, f, g⟩ := group4F_spec (two_pow_le30 h2) Nat.one_le_two_pow h hd
  refine ⟨U0, B0, U, B, e0, f0, e, f, fun i => ?_⟩
  have e3 : denC (N := 2^n) (B0 i).1 (B0 i).2 = _ := (g0 i).2
  rw [e3, cts_mats h1 h0 i.isLt]
  exact (g i).2.mono (le_of_eq (by unfold matUlp; norm_num))

/-- Groups of two factors of SlotToCoeff, in both tables. -/
theorem C75_stc2 (hL : L.toLibm.Accurate) (h2 : n ≤ 26) (hd : n % 2 = 0) : ∃ T0 B0 C0 T B C,
    stcTable (n+1) = pure T0 ∧ group2 (D := n) T0.1 = pure B0 ∧ group2 (D := n) T0.2 = pure C0 ∧
    stcTableF L.toLibm (n+1) = pure T ∧ group2F (D := n) T.1 = pure B ∧ group2F (D := n) T.2 = pure C ∧
    ∀ i : Fin (n/2), RowNearC (denC (N := 2^n) (B i).1 (B i).2) (denC (N := 2^n) (B0 i).1 (B0 i).2) (400 / 2^53) ∧
      RowNearC (denC (N := 2^n) (C i).1 (C i).2) (denC (N := 2^n) (C0 i).1 (C0 i).2) (400 / 2^53) := by
  obtain ⟨T0, e0, h0⟩ := stcTable_spec h2
  obtain ⟨T, e, h⟩ := stcTableF_spec hL h2
  obtain ⟨B0, f0, g0⟩ := group2_spec (D := n) (two_pow_le30 h2) Nat.one_le_two_pow (fun d => (h0.1 d).shape.toSDOk) hd
  obtain ⟨C0, p0, q0⟩ := group2_spec (D := n) (two_pow_le30 h2) Nat.one_le_two_pow (fun d => (h0.2 d).shape.toSDOk) hd
  obtain ⟨B, f, g⟩ := group2F_spec (two_pow_le30 h2) Nat.one_le_two_pow h.1 hd
  obtain ⟨C, p, q⟩ := group2F_spec (two_pow_le30 h2) Nat.one_le_two_pow h.2 hd
  refine ⟨T0, B0, C0, T, B, C, e0, f0, p0, e, f, p, fun i => ⟨?_, ?_⟩⟩
  · have e3 : denC (N := 2^n) (B0 i).1 (B0 i).2 = _ := (g0 i).2
    rw [e3, stc_mats (c := fun _ => 1) h0.1 i.isLt]
    exact (g i).2.mono (le_of_eq (by unfold matUlp; norm_num))
  · have e3 : denC (N := 2^n) (C0 i).1 (C0 i).2 = _ := (q0 i).2
    rw [e3, stc_mats (c := unitI) h0.2 i.isLt]
    exact (q i).2.mono (le_of_eq (by unfold matUlp; norm_num))

/-- Groups of three factors of SlotToCoeff, in both tables. -/
theorem C75_stc3 (hL : L.toLibm.Accurate) (h2 : n ≤ 26) (hd : n % 3 = 0) : ∃ T0 B0 C0 T B C,
    stcTable (n+1) = pure T0 ∧ group3 (D := n) T0.1 = pure B0 ∧ group3 (D := n) T0.2 = pure C0 ∧
    stcTableF L.toLibm (n+1) = pure T ∧ group3F (D := n) T.1 = pure B ∧ group3F (D := n) T.2 = pure C ∧
    ∀ i : Fin (n/3), RowNearC (denC (N := 2^n) (B i).1 (B i).2) (denC (N := 2^n) (B0 i).1 (B0 i).2) (1600 / 2^53) ∧
      RowNearC (denC (N := 2^n) (C i).1 (C i).2) (denC (N := 2^n) (C0 i).1 (C0 i).2) (1600 / 2^53) := by
  obtain ⟨T0, e0, h0⟩ := stcTable_spec h2
  obtain ⟨T, e, h⟩ := stcTableF_spec hL h2
  obtain ⟨B0, f0, g0⟩ := group3_spec (D := n) (two_pow_le30 h2) Nat.one_le_two_pow (fun d => (h0.1 d).shape.toSDOk) hd
  obtain ⟨C0, p0, q0⟩ := group3_spec (D := n) (two_pow_le30 h2) Nat.one_le_two_pow (fun d => (h0.2 d).shape.toSDOk) hd
  obtain ⟨B, f, g⟩ := group3F_spec (two_pow_le30 h2) Nat.one_le_two_pow h.1 hd
  obtain ⟨C, p, q⟩ := group3F_spec (two_pow_le30 h2) Nat.one_le_two_pow h.2 hd
  refine ⟨T0, B0, C0, T, B, C, e0, f0, p0, e, f, p, fun i => ⟨?_, ?_⟩⟩
  · have e3 : denC (N := 2^n) (B0 i).1 (B0 i).2 = _ := (g0 i).2
    rw [e3, stc_mats (c := fun _ => 1) h0.1 i.isLt]
    exact (g i).2.mono (le_of_eq (by unfold matUlp; norm_num))
  · have e3 : denC (N := 2^n) (C0 i).1 (C0 i).2 = _ := (q0 i).2
    rw [e3, stc_mats (c := unitI) h0.2 i.isLt]
    exact (q i).2.mono (le_of_eq (by unfold matUlp; norm_num))

/-- Groups of four factors of SlotToCoeff, in both tables. -/
theorem C75_stc4 (hL : L.toLibm.Accurate) (h2 : n ≤ 26) (hd : n % 4 = 0) : ∃ T0 B0 C0 T B C,
    stcTable (n+1) = pure T0 ∧ group4 (D := n) T0.1 = pure B0 ∧ group4 (D := n) T0.2 = pure C0 ∧
    stcTableF L.toLibm (n+1) = pure T ∧ group4F (D := n) T.1 = pure B ∧ group4F (D := n) T.2 = pure C ∧
    ∀ i : Fin (n/4), RowNearC (denC (N := 2^n) (B i).1 (B i).2) (denC (N := 2^n) (B0 i).1 (B0 i).2) (6400 / 2^53) ∧
      RowNearC (denC (N := 2^n) (C i).1 (C i).2) (denC (N := 2^n) (C0 i).1 (C0 i).2) (6400 / 2^53) := by
  obtain ⟨T0, e0, h0⟩ := stcTable_spec h2
  obtain ⟨T, e, h⟩ := stcTableF_spec hL h2
  obtain ⟨B0, f0, g0⟩ := group4_spec (D := n) (two_pow_le30 h2) Nat.one_le_two_pow (fun d => (h0.1 d).shape.toSDOk) hd
  obtain ⟨C0, p0, q0⟩ := group4_spec (D := n) (two_pow_le30 h2) Nat.one_le_two_pow (fun d => (h0.2 d).shape.toSDOk) hd
  obtain ⟨B, f, g⟩ := group4F_spec (two_pow_le30 h2) Nat.one_le_two_pow h.1 hd
  obtain ⟨C, p, q⟩ := group4F_spec (two_pow_le30 h2) Nat.one_le_two_pow h.2 hd
  refine ⟨T0, B0, C0, T, B, C, e0, f0, p0, e, f, p, fun i => ⟨?_, ?_⟩⟩
  · have e3 : denC (N := 2^n) (B0 i).1 (B0 i).2 = _ := (g0 i).2
    rw [e3, stc_mats (c := fun _ => 1) h0.1 i.isLt]
    exact (g i).2.mono (le_of_eq (by unfold matUlp; norm_num))
  · have e3 : denC (N := 2^n) (C0 i).1 (C0 i).2 = _ := (q0 i).2
    rw [e3, stc_mats (c := unitI) h0.2 i.isLt]
    exact (q i).2.mono (le_of_eq (by unfold matUlp; norm_num))

/-! ## Concrete cases -/

/-- correctly rounded functions -/
noncomputable def exactLibmP : LibmP := { exactLibm with pow := fun x y => rnd (x ^ y) }

theorem exactLibmP_accurate : exactLibmP.Accurate :=
  ⟨exactLibm_accurate, fun x y hx _ hy _ => by
    have h1 : (1:ℝ) ≤ x ^ y := Real.one_le_rpow hx hy
    have h2 : |rnd (x ^ y) - x ^ y| ≤ uF * |x ^ y| + etaF := by rw [uF_eq, etaF_eq]; exact rnd_err (x ^ y)
    rw [abs_of_nonneg (show 0 ≤ x ^ y by linarith)] at h2
    have h3 : etaF ≤ uF := by
      have := etaF_le_uF
      have := uF_pos
      linarith
    have h4 := uF_pos
    have h5 : uF * 1 ≤ uF * x ^ y := mul_le_mul_of_nonneg_left h1 h4.le
    refine h2.trans (le_trans (b := 2 * (uF * x ^ y)) (by linarith) (le_of_eq ?_))
    rw [uF_eq]; ring⟩

/-- two factors of SlotToCoeff meet the hypotheses on the product -/
example : ∃ T, stcTableF exactLibm 17 = pure T ∧
    Ok (MatMulCF (T.1 1).1 (T.1 1).2 (T.1 0).1 (T.1 0).2 (sd0 _ _) (sd0 _ _)) fun C =>
      RowNearC (denC C.1 C.2) (denC (T.1 1).1 (T.1 1).2 * denC (T.1 0).1 (T.1 0).2) (225 / 2^53) := by
  obtain ⟨T, e, h, -⟩ := stcTableF_spec (n := 16) exactLibm_accurate (by norm_num)
  have hu := uF_pos
  have hu2 := uF_le
  have ent : ∀ d : Fin 16, ∀ i l, ‖denC (N := 2^16) (T.1 d).1 (T.1 d).2 i l‖ ≤ 1.001 := fun d i l =>
    ((h.near d).entry_le (h.ent1 d.isLt) i l).trans (by linarith)
  have row : ∀ d : Fin 16, ∀ i, ∑ l, ‖denC (N := 2^16) (T.1 d).1 (T.1 d).2 i l‖ ≤ 2.001 := fun d i =>
    ((h.near d).row_le (h.row _ d.isLt) i).trans (by linarith)
  have k := h.prod
  refine ⟨T, e, Ok.mono (C75_product (N := 2^16) (by norm_num) (by norm_num) (by norm_num) _ _ _ _ (k 1).rng (k 0).rng (k 1).offEq
    (k 0).offEq (k 1).flag (k 0).flag (k 1).own (k 0).own (ent 1) (row 1) (ent 0) _ _) fun C hC => hC.2.2.2.2.mono (by norm_num)⟩

/-- the sets of N = 2^17 with groups of four: 81 diagonals per group -/
example : ∃ U0 B0 U B, ctsTable 17 = pure U0 ∧ group4 (D := 16) U0 = pure B0 ∧ ctsTableF exactLibmP 17 = pure U ∧
    group4F (D := 16) U = pure B ∧
    ∀ i : Fin 4, RowNearC (denC (N := 2^16) (B i).1 (B i).2) (denC (N := 2^16) (B0 i).1 (B0 i).2) (6400 / 2^53) :=
  C75_cts4 (n := 16) exactLibmP_accurate (by norm_num) (by norm_num) (by norm_num)

example : ∃ T0 B0 C0 T B C,
    stcTable 13 = pure T0 ∧ group3 (D := 12) T0.1 = pure B0 ∧ group3 (D := 12) T0.2 = pure C0 ∧
    stcTableF exactLibm 13 = pure T ∧ group3F (D := 12) T.1 = pure B ∧ group3F (D := 12) T.2 = pure C ∧
    ∀ i : Fin 4, RowNearC (denC (N := 2^12) (B i).1 (B i).2) (denC (N := 2^12) (B0 i).1 (B0 i).2) (1600 / 2^53) ∧
      RowNearC (denC (N := 2^12) (C i).1 (C i).2) (denC (N := 2^12) (C0 i).1 (C0 i).2) (1600 / 2^53) :=
  C75_stc3 (n := 12) (L := exactLibmP) exactLibm_accurate (by norm_num) (by norm_num)

end EvalRound

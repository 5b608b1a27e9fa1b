import Verif.Model.NTT
import Verif.Proofs.NTTPure
import Verif.Proofs.Limb
import Verif.Proofs.Roots
import Mathlib.Data.ZMod.Basic

/-! # The loops of ntt.h compute the butterfly network -/

namespace EvalRound
open Finset

variable {N : Nat}

theorem rd_dig (a : Fin N → W) {j : Nat} (h : j < N) : Ok (rd a j) fun v => v.toNat = dig a j := by
  rw [rd_of_lt a h]; exact Ok.pure (by rw [dig_of_lt _ h])

theorem wr_dig (a : Fin N → W) {j : Nat} (h : j < N) (v : W) :
    Ok (wr a j v) fun b => ∀ x, dig b x = if x = j then v.toNat else dig a x := by
  rw [wr_of_lt a h]
  refine Ok.pure fun x => ?_
  by_cases hx : x < N
  · rw [dig_of_lt _ hx]
    by_cases e : x = j
    · subst e; simp
    · rw [if_neg e, dig_of_lt _ hx, Function.update_of_ne]
      intro h'; exact e (Fin.mk.inj_iff.1 h')
  · rw [dig_of_ge _ (by omega), dig_of_ge _ (by omega), if_neg (by omega)]

section words
variable {q : W} (hq : q ≠ 0)
include hq

theorem q_pos : 0 < q.toNat := Nat.pos_of_ne_zero
  fun h => hq (BitVec.eq_of_toNat_eq (by simpa using h))

theorem mul_mod_z (a b : W) : Ok (mul_mod a b q) fun r => r.toNat < q.toNat ∧
    (r.toNat : ZMod q.toNat) = a.toNat * b.toNat := by
  rw [mul_mod_spec a b q hq]
  refine Ok.pure ⟨?_, ?_⟩
  · rw [ofNat_mod_toNat _ _ hq]; exact Nat.mod_lt _ (q_pos hq)
  · rw [ofNat_mod_toNat _ _ hq, ZMod.natCast_mod]; push_cast; rfl

theorem add_mod_z (a b : W) : Ok (add_mod a b q) fun r => r.toNat < q.toNat ∧
    (r.toNat : ZMod q.toNat) = a.toNat + b.toNat := by
  rw [add_mod_spec a b q hq]
  refine Ok.pure ⟨?_, ?_⟩
  · rw [ofNat_mod_toNat _ _ hq]; exact Nat.mod_lt _ (q_pos hq)
  · rw [ofNat_mod_toNat _ _ hq, ZMod.natCast_mod]; push_cast; rfl

theorem sub_mod_z (a b : W) : Ok (sub_mod a b q) fun r => r.toNat < q.toNat ∧
    (r.toNat : ZMod q.toNat) = a.toNat - b.toNat := by
  rw [sub_mod_spec a b q hq]
  refine Ok.pure ⟨?_, ?_⟩
  · rw [ofNat_mod_toNat _ _ hq]; exact Nat.mod_lt _ (q_pos hq)
  · rw [ofNat_mod_toNat _ _ hq, ZMod.natCast_mod]
    rw [Nat.cast_add, Nat.cast_sub (Nat.mod_lt _ (q_pos hq)).le, ZMod.natCast_mod, ZMod.natCast_self]
    ring

/-- the values of an array as residues -/
abbrev res (q : W) (a : Fin N → W) (x : Nat) : ZMod q.toNat := (dig a x : ZMod q.toNat)

theorem nttInner_spec (S : W) (j1 t : Nat) (a : Fin N → W) (h : j1 + 2 * t ≤ N) :
    Ok (nttInner q S j1 t a) fun b =>
      (∀ x, j1 ≤ x → x < j1 + t →
        (dig b x < q.toNat ∧ res q b x = res q a x + res q a (x+t) * S.toNat) ∧
        (dig b (x+t) < q.toNat ∧ res q b (x+t) = res q a x - res q a (x+t) * S.toNat)) ∧
      (∀ x, (x < j1 ∨ j1 + 2*t ≤ x) → dig b x = dig a x) := by
  unfold nttInner
  refine Ok.mono (forUp_inv (P := fun j (b : Fin N → W) =>
      (∀ x, j1 ≤ x → x < j →
        (dig b x < q.toNat ∧ res q b x = res q a x + res q a (x+t) * S.toNat) ∧
        (dig b (x+t) < q.toNat ∧ res q b (x+t) = res q a x - res q a (x+t) * S.toNat)) ∧
      (∀ x, ¬ (j1 ≤ x ∧ x < j) → ¬ (j1 + t ≤ x ∧ x < j + t) → dig b x = dig a x))
      (by omega) ⟨fun x h1 h2 => by omega, fun x _ _ => rfl⟩ ?_) ?_
  · rintro j b hj1 hj2 ⟨hb1, hb2⟩
    refine Ok.bind (rd_dig b (show j < N by omega)) fun U hU => ?_
    refine Ok.bind (rd_dig b (show j + t < N by omega)) fun X hX => ?_
    refine Ok.bind (mul_mod_z hq X S) fun V hV => ?_
    refine Ok.bind (add_mod_z hq U V) fun u hu => ?_
    refine Ok.bind (wr_dig b (show j < N by omega) u) fun b' hb' => ?_
    refine Ok.bind (sub_mod_z hq U V) fun v hv => ?_
    refine Ok.mono (wr_dig b' (show j + t < N by omega) v) fun b'' hb'' => ?_
    rw [hb2 j (by omega) (by omega)] at hU
    rw [hb2 (j+t) (by omega) (by omega)] at hX
    have e1 : ∀ x, x ≠ j → x ≠ j + t → dig b'' x = dig b x := by
      intro x h1 h2; rw [hb'' x, if_neg h2, hb' x, if_neg h1]
    have e2 : dig b'' (j+t) = v.toNat := by rw [hb'', if_pos rfl]
    have e3 : dig b'' j = u.toNat := by rw [hb'', if_neg (by omega), hb', if_pos rfl]
    constructor
    · intro x h1 h2
      by_cases e : x = j
      · subst e
        unfold res
        rw [e2, e3, hu.2, hv.2, hV.2, hU, hX]
        exact ⟨⟨hu.1, rfl⟩, hv.1, rfl⟩
      · unfold res
        rw [e1 x e (by omega), e1 (x+t) (by omega) (by omega)]
        exact hb1 x h1 (by omega)
    · intro x h1 h2
      rw [e1 x (by omega) (by omega)]
      exact hb2 x (by omega) (by omega)
  · rintro b ⟨hb1, hb2⟩
    exact ⟨hb1, fun x hx => hb2 x (by omega) (by omega)⟩

theorem inttInner_spec (S : W) (j1 t : Nat) (a : Fin N → W) (h : j1 + 2 * t ≤ N) :
    Ok (inttInner q S j1 t a) fun b =>
      (∀ x, j1 ≤ x → x < j1 + t →
        (dig b x < q.toNat ∧ res q b x = res q a x + res q a (x+t)) ∧
        (dig b (x+t) < q.toNat ∧ res q b (x+t) = (res q a x - res q a (x+t)) * S.toNat)) ∧
      (∀ x, (x < j1 ∨ j1 + 2*t ≤ x) → dig b x = dig a x) := by
  unfold inttInner
  refine Ok.mono (forUp_inv (P := fun j (b : Fin N → W) =>
      (∀ x, j1 ≤ x → x < j →
        (dig b x < q.toNat ∧ res q b x = res q a x + res q a (x+t)) ∧
        (dig b (x+t) < q.toNat ∧ res q b (x+t) = (res q a x - res q a (x+t)) * S.toNat)) ∧
      (∀ x, ¬ (j1 ≤ x ∧ x < j) → ¬ (j1 + t ≤ x ∧ x < j + t) → dig b x = dig a x))
      (by omega) ⟨fun x h1 h2 => by omega, fun x _ _ => rfl⟩ ?_) ?_
  · rintro j b hj1 hj2 ⟨hb1, hb2⟩
    refine Ok.bind (rd_dig b (show j < N by omega)) fun U hU => ?_
    refine Ok.bind (rd_dig b (show j + t < N by omega)) fun V hV => ?_
    refine Ok.bind (add_mod_z hq U V) fun u hu => ?_
    refine Ok.bind (wr_dig b (show j < N by omega) u) fun b' hb' => ?_
    refine Ok.bind (sub_mod_z hq U V) fun d hd => ?_
    refine Ok.bind (mul_mod_z hq d S) fun v hv => ?_
    refine Ok.mono (wr_dig b' (show j + t < N by omega) v) fun b'' hb'' => ?_
    rw [hb2 j (by omega) (by omega)] at hU
    rw [hb2 (j+t) (by omega) (by omega)] at hV
    have e1 : ∀ x, x ≠ j → x ≠ j + t → dig b'' x = dig b x := by
      intro x h1 h2; rw [hb'' x, if_neg h2, hb' x, if_neg h1]
    have e2 : dig b'' (j+t) = v.toNat := by rw [hb'', if_pos rfl]
    have e3 : dig b'' j = u.toNat := by rw [hb'', if_neg (by omega), hb', if_pos rfl]
    constructor
    · intro x h1 h2
      by_cases e : x = j
      · subst e
        unfold res
        rw [e2, e3, hu.2, hv.2, hd.2, hU, hV]
        exact ⟨⟨hu.1, rfl⟩, hv.1, rfl⟩
      · unfold res
        rw [e1 x e (by omega), e1 (x+t) (by omega) (by omega)]
        exact hb1 x h1 (by omega)
    · intro x h1 h2
      rw [e1 x (by omega) (by omega)]
      exact hb2 x (by omega) (by omega)
  · rintro b ⟨hb1, hb2⟩
    exact ⟨hb1, fun x hx => hb2 x (by omega) (by omega)⟩

end words

theorem nttStage_spec (T : NTT N) (hq : T.q ≠ 0) {m t : Nat} (ht : 0 < t) (hN : m * (2*t) = N)
    (a : Fin N → W) :
    Ok (nttStage T m t a) fun b => ∀ x, x < N → dig b x < T.q.toNat ∧
      res T.q b x = fwdStage t (fun i => res T.q T.psi_rev (m+i)) (res T.q a) x := by
  unfold nttStage
  refine Ok.mono (forUp_inv (P := fun i (b : Fin N → W) =>
    (∀ x, x < i * (2*t) → dig b x < T.q.toNat ∧
      res T.q b x = fwdStage t (fun i => res T.q T.psi_rev (m+i)) (res T.q a) x) ∧
    (∀ x, i * (2*t) ≤ x → dig b x = dig a x)) (Nat.zero_le _)
    ⟨fun x h => by omega, fun x _ => rfl⟩ ?_) ?_
  · rintro i b - hi ⟨hb1, hb2⟩
    have hle : (i+1) * (2*t) ≤ m * (2*t) := Nat.mul_le_mul_right _ hi
    rw [Nat.succ_mul] at hle
    have hm : m + m ≤ N := by
      rw [← hN, ← Nat.mul_two]; exact Nat.mul_le_mul_left m (by omega)
    refine Ok.bind (rd_dig T.psi_rev (show m + i < N by omega)) fun S hS => ?_
    have ej : 2 * i * t = i * (2*t) := by ring
    simp only [ej]
    refine Ok.mono (nttInner_spec hq S (i*(2*t)) t b (by omega)) fun b' hb' => ?_
    obtain ⟨h1, h2⟩ := hb'
    rw [Nat.succ_mul]
    constructor
    · intro x hx
      by_cases hlt : x < i * (2*t)
      · have := h2 x (Or.inl hlt)
        unfold res
        rw [this]; exact hb1 x hlt
      · by_cases hlt2 : x < i * (2*t) + t
        · have h3 := (h1 x (by omega) hlt2).1
          refine ⟨h3.1, ?_⟩
          obtain ⟨j, rfl⟩ : ∃ j, x = i*(2*t) + j := ⟨x - i*(2*t), by omega⟩
          rw [h3.2, fwd_lo _ _ _ (show j < t by omega)]
          unfold res
          rw [hS, hb2 _ (by omega), hb2 _ (by omega), show i*(2*t)+j+t = i*(2*t)+t+j by omega]
        · obtain ⟨j, rfl⟩ : ∃ j, x = i*(2*t) + t + j := ⟨x - (i*(2*t)+t), by omega⟩
          have h3 := (h1 (i*(2*t)+j) (by omega) (by omega)).2
          rw [show i*(2*t)+j+t = i*(2*t)+t+j by omega] at h3
          refine ⟨h3.1, ?_⟩
          rw [h3.2, fwd_hi _ _ _ (show j < t by omega)]
          unfold res
          rw [hS, hb2 _ (by omega), hb2 _ (by omega)]
    · intro x hx
      rw [h2 x (Or.inr (by omega)), hb2 x (by omega)]
  · rintro b ⟨hb1, -⟩ x hx
    exact hb1 x (by omega)

theorem inttStage_spec (T : NTT N) (hq : T.q ≠ 0) {h t : Nat} (ht : 0 < t) (hN : h * (2*t) = N)
    (a : Fin N → W) :
    Ok (inttStage T (2*h) t a) fun b => ∀ x, x < N → dig b x < T.q.toNat ∧
      res T.q b x = bwdStage t (fun i => res T.q T.inv_psi_rev (h+i)) (res T.q a) x := by
  unfold inttStage
  have e2 : 2 * h / 2 = h := by omega
  simp only [e2]
  refine Ok.bind (P := fun s : (Fin N → W) × Nat => ∀ x, x < N → dig s.1 x < T.q.toNat ∧
      res T.q s.1 x = bwdStage t (fun i => res T.q T.inv_psi_rev (h+i)) (res T.q a) x) ?_
      fun s hs => Ok.pure hs
  refine Ok.mono (forUp_inv (P := fun i (s : (Fin N → W) × Nat) => s.2 = i * (2*t) ∧
    (∀ x, x < i * (2*t) → dig s.1 x < T.q.toNat ∧
      res T.q s.1 x = bwdStage t (fun i => res T.q T.inv_psi_rev (h+i)) (res T.q a) x) ∧
    (∀ x, i * (2*t) ≤ x → dig s.1 x = dig a x)) (Nat.zero_le _)
    ⟨by simp, fun x h => by omega, fun x _ => rfl⟩ ?_) ?_
  · rintro i ⟨b, j1⟩ - hi ⟨hj, hb1, hb2⟩
    simp only at hj hb1 hb2
    subst hj
    have hle : (i+1) * (2*t) ≤ h * (2*t) := Nat.mul_le_mul_right _ hi
    rw [Nat.succ_mul] at hle
    have hm : h + h ≤ N := by
      rw [← hN, ← Nat.mul_two]; exact Nat.mul_le_mul_left h (by omega)
    refine Ok.bind (rd_dig T.inv_psi_rev (show h + i < N by omega)) fun S hS => ?_
    refine Ok.bind (inttInner_spec hq S (i*(2*t)) t b (by omega)) fun b' hb' => Ok.pure ?_
    obtain ⟨h1, h2⟩ := hb'
    simp only
    rw [Nat.succ_mul i]
    refine ⟨rfl, ?_, ?_⟩
    · intro x hx
      by_cases hlt : x < i * (2*t)
      · have := h2 x (Or.inl hlt)
        unfold res
        rw [this]; exact hb1 x hlt
      · by_cases hlt2 : x < i * (2*t) + t
        · have h3 := (h1 x (by omega) hlt2).1
          refine ⟨h3.1, ?_⟩
          obtain ⟨j, rfl⟩ : ∃ j, x = i*(2*t) + j := ⟨x - i*(2*t), by omega⟩
          rw [h3.2, bwd_lo _ _ _ (show j < t by omega)]
          unfold res
          rw [hb2 _ (by omega), hb2 _ (by omega), show i*(2*t)+j+t = i*(2*t)+t+j by omega]
        · obtain ⟨j, rfl⟩ : ∃ j, x = i*(2*t) + t + j := ⟨x - (i*(2*t)+t), by omega⟩
          have h3 := (h1 (i*(2*t)+j) (by omega) (by omega)).2
          rw [show i*(2*t)+j+t = i*(2*t)+t+j by omega] at h3
          refine ⟨h3.1, ?_⟩
          rw [h3.2, bwd_hi _ _ _ (show j < t by omega)]
          unfold res
          rw [hS, hb2 _ (by omega), hb2 _ (by omega)]
    · intro x hx
      rw [h2 x (Or.inr (by omega)), hb2 x (by omega)]
  · rintro b ⟨-, hb1, -⟩ x hx
    exact hb1 x (by omega)

/-- the tables of an `NTT<2^k>` object hold the powers of a root of `X^N + 1` and its inverse -/
structure NTTOk (T : NTT N) (k : Nat) (psi ipsi : ZMod T.q.toNat) : Prop where
  hN : N = 2^k
  hk : k ≤ 29
  hq : T.q ≠ 0
  hpsi : psi^(2^k) = -1
  hinv : psi * ipsi = 1
  htab : ∀ x, x < N → res T.q T.psi_rev x = tw psi k x
  hitab : ∀ x, x < N → res T.q T.inv_psi_rev x = tw ipsi k x
  hinvN : (T.inv_N.toNat : ZMod T.q.toNat) * 2^k = 1

theorem ntt_spec {T : NTT N} {k : Nat} {psi ipsi : ZMod T.q.toNat} (H : NTTOk T k psi ipsi)
    (hk1 : 1 ≤ k) (a : Fin N → W) :
    Ok (T.ntt a) fun b => ∀ x, x < N → dig b x < T.q.toNat ∧
      res T.q b x = fwdN k psi k (res T.q a) x := by
  obtain ⟨hN, hk, hq, hpsi, hinv, htab, hitab, hinvN⟩ := H
  unfold NTT.ntt
  refine Ok.bind (P := fun s : (Fin N → W) × Nat × Nat => ∀ x, x < N → dig s.1 x < T.q.toNat ∧
      res T.q s.1 x = fwdN k psi k (res T.q a) x) ?_ fun s hs => Ok.pure hs
  refine Ok.mono (whileM_inv (P := fun s : (Fin N → W) × Nat × Nat => ∃ l, l ≤ k ∧ s.2.1 = 2^l ∧
      s.2.2 = 2^k / 2^(l+1) ∧ (∀ x, x < N → res T.q s.1 x = fwdN k psi l (res T.q a) x) ∧
      (1 ≤ l → ∀ x, x < N → dig s.1 x < T.q.toNat)) (μ := fun s => N - s.2.1) ?_
      (s := (a, 1, N/2)) ⟨0, by omega, rfl, by simp [hN], fun x _ => rfl, by omega⟩) ?_
  · rintro ⟨b, m, t⟩ ⟨l, hl, hm, ht, hb, -⟩ hc
    simp only [decide_eq_true_eq] at hm ht hb hc
    subst hm
    have hlk : l < k := by rw [hN] at hc; exact (Nat.pow_lt_pow_iff_right (by norm_num)).1 hc
    have ht' : t = 2^(k-l-1) := by
      rw [ht, Nat.pow_div (by omega) (by norm_num)]; rfl
    have eN : 2^l * (2 * t) = N := by
      rw [ht', hN, ← pow_succ', ← pow_add]; congr 1; omega
    refine Ok.bind (nttStage_spec T hq (by rw [ht']; positivity) eN b) fun b' hb' => ?_
    have hmax : 2^l * 2 ≤ INT_MAX := by
      rw [← pow_succ]
      have : 2^(l+1) ≤ 2^29 := Nat.pow_le_pow_right (by norm_num) (by omega)
      unfold INT_MAX; omega
    simp only [hmax, if_true]
    apply Ok.pure
    have hpos : 0 < 2^l := by positivity
    refine ⟨⟨l+1, hlk, (pow_succ 2 l).symm, ?_, ?_, fun _ x hx => (hb' x hx).1⟩, ?_⟩
    · simp only
      rw [ht, Nat.div_div_eq_div_mul, ← pow_succ]
    · intro x hx
      rw [(hb' x hx).2]
      show _ = fwdStage (2^(k-l-1)) _ _ x
      rw [← ht']
      rw [fwd_congr (by rw [ht']; positivity) (m := 2^l) (fun x hx => hb x (by rw [← eN]; exact hx))
        (by rw [eN]; exact hx)]
      unfold fwdStage
      have hdiv : x / (2*t) < 2^l := by
        rw [Nat.div_lt_iff_lt_mul (by rw [ht']; positivity), eN]; exact hx
      simp only []
      rw [htab]
      have h2 : 2^(l+1) ≤ N := by rw [hN]; exact Nat.pow_le_pow_right (by norm_num) hlk
      rw [pow_succ] at h2
      omega
    · simp only; omega
  · rintro ⟨b, m, t⟩ ⟨⟨l, hl, hm, ht, hb, hlt⟩, hc⟩ x hx
    simp only [decide_eq_false_iff_not] at hm ht hb hc hlt
    have : l = k := by
      by_contra hne
      apply hc
      rw [hm, hN]
      exact Nat.pow_lt_pow_right (by norm_num) (by omega)
    subst this
    exact ⟨hlt hk1 x hx, hb x hx⟩

theorem intt_spec {T : NTT N} {k : Nat} {psi ipsi : ZMod T.q.toNat} (H : NTTOk T k psi ipsi)
    (a : Fin N → W) :
    Ok (T.intt a) fun b => ∀ x, x < N → dig b x < T.q.toNat ∧
      res T.q b x = bwdN k ipsi k (res T.q a) x * T.inv_N.toNat := by
  obtain ⟨hN, hk, hq, hpsi, hinv, htab, hitab, hinvN⟩ := H
  unfold NTT.intt
  refine Ok.bind (P := fun s : (Fin N → W) × Nat × Nat => ∀ x, x < N →
      res T.q s.1 x = bwdN k ipsi k (res T.q a) x) ?_ ?_
  · refine Ok.mono (whileM_inv (P := fun s : (Fin N → W) × Nat × Nat => ∃ l, l ≤ k ∧ s.2.1 = 2^l ∧
        s.2.2 = 2^(k-l) ∧ (∀ x, x < N → res T.q s.1 x = bwdN k ipsi l (res T.q a) x))
        (μ := fun s => s.2.2) ?_
        (s := (a, 1, N)) ⟨0, by omega, rfl, by simp [hN], fun x _ => rfl⟩) ?_
    · rintro ⟨b, t, m⟩ ⟨l, hl, ht, hm, hb⟩ hc
      simp only [decide_eq_true_eq] at hm ht hb hc
      subst ht
      have hlk : l < k := by
        by_contra hge
        rw [hm, show k - l = 0 by omega] at hc
        simp at hc
      have hm' : m = 2 * 2^(k-l-1) := by
        rw [hm, ← pow_succ']; congr 1; omega
      have eN : 2^(k-l-1) * (2 * 2^l) = N := by
        rw [hN, ← pow_succ', ← pow_add]; congr 1; omega
      rw [hm']
      refine Ok.bind (inttStage_spec T hq (by positivity) eN b) fun b' hb' => ?_
      have hmax : 2^l * 2 ≤ INT_MAX := by
        rw [← pow_succ]
        have : 2^(l+1) ≤ 2^29 := Nat.pow_le_pow_right (by norm_num) (by omega)
        unfold INT_MAX; omega
      simp only [hmax, if_true]
      apply Ok.pure
      have hpos : 0 < 2^(k-l-1) := by positivity
      refine ⟨⟨l+1, hlk, (pow_succ 2 l).symm, ?_, ?_⟩, ?_⟩
      · simp only
        rw [Nat.mul_div_cancel_left _ (by norm_num)]; rfl
      · intro x hx
        rw [(hb' x hx).2]
        show _ = bwdStage (2^l) _ _ x
        rw [bwd_congr (by positivity) (m := 2^(k-l-1)) (fun x hx => hb x (by rw [← eN]; exact hx))
          (by rw [eN]; exact hx)]
        unfold bwdStage
        have hdiv : x / (2*2^l) < 2^(k-l-1) := by
          rw [Nat.div_lt_iff_lt_mul (by positivity), eN]; exact hx
        simp only []
        rw [hitab]
        have h2 : 2^(k-l) ≤ N := by rw [hN]; exact Nat.pow_le_pow_right (by norm_num) (by omega)
        omega
      · simp only; omega
    · rintro ⟨b, t, m⟩ ⟨⟨l, hl, ht, hm, hb⟩, hc⟩ x hx
      simp only [decide_eq_false_iff_not] at hm ht hb hc
      have : l = k := by
        by_contra hne
        apply hc
        rw [hm]
        exact Nat.one_lt_pow (by omega) (by norm_num)
      subst this
      exact hb x hx
  · rintro ⟨b, t, m⟩ hb
    simp only at hb ⊢
    refine Ok.mono (forUp_inv (P := fun j (c : Fin N → W) =>
      (∀ x, x < j → dig c x < T.q.toNat ∧ res T.q c x = res T.q b x * T.inv_N.toNat) ∧
      (∀ x, j ≤ x → dig c x = dig b x)) (Nat.zero_le _) ⟨fun x h => by omega, fun x _ => rfl⟩ ?_) ?_
    · rintro j c - hj ⟨hc1, hc2⟩
      refine Ok.bind (rd_dig c hj) fun X hX => ?_
      refine Ok.bind (mul_mod_z hq X T.inv_N) fun v hv => ?_
      refine Ok.mono (wr_dig c hj v) fun c' hc' => ?_
      rw [hc2 j (le_refl _)] at hX
      constructor
      · intro x hx
        unfold res
        rw [hc' x]
        by_cases e : x = j
        · subst e; rw [if_pos rfl, hv.2, hX]; exact ⟨hv.1, rfl⟩
        · rw [if_neg e]; exact hc1 x (by omega)
      · intro x hx
        rw [hc' x, if_neg (by omega), hc2 x (by omega)]
    · rintro c ⟨hc1, -⟩ x hx
      have := hc1 x hx
      rw [hb x hx] at this
      exact this

/-- forward then backward -/
theorem intt_ntt_spec {T : NTT N} {k : Nat} {psi ipsi : ZMod T.q.toNat} (H : NTTOk T k psi ipsi)
    (f : Nat → ZMod T.q.toNat) (b : Fin N → W)
    (hb : ∀ x, x < N → res T.q b x = fwdN k psi k f x) :
    Ok (T.intt b) fun c => ∀ x, x < N → dig c x < T.q.toNat ∧ res T.q c x = f x := by
  refine Ok.mono (intt_spec H b) fun c hc x hx => ⟨(hc x hx).1, ?_⟩
  have hx' : x < 2^k := by rw [← H.hN]; exact hx
  rw [(hc x hx).2, bwdN_congr (fun x hx => hb x (by rw [H.hN]; exact hx)) k le_rfl hx',
    bwdN_fwdN H.hinv f k le_rfl hx', Nat.sub_self]
  show 2^k * f x * _ = f x
  have := H.hinvN
  linear_combination f x * this

theorem rdM_some {α : Type} {n : Nat} {a : Mem n α} {j : Nat} (h : j < n) {v : α}
    (hv : a ⟨j, h⟩ = some v) : rdM a j = pure v := by
  unfold rdM; rw [dif_pos h, hv]

theorem powTable_spec {q : W} (hq : 1 < q.toNat) (hN : 0 < N) (psi : W) :
    Ok (powTable N psi q) fun a => ∀ x (h : x < N), ∃ v : W, a ⟨x, h⟩ = some v ∧
      (v.toNat : ZMod q.toNat) = (psi.toNat : ZMod q.toNat)^x := by
  have hq0 : q ≠ 0 := by rintro rfl; simp at hq
  unfold powTable wrM
  rw [wr_of_lt _ hN, pure_bind]
  refine Ok.mono (forUp_inv (P := fun i (a : Mem N W) => ∀ x (h : x < N), x < i → ∃ v : W,
    a ⟨x, h⟩ = some v ∧ (v.toNat : ZMod q.toNat) = (psi.toNat : ZMod q.toNat)^x) (by omega) ?_ ?_) ?_
  · intro x h hx
    have : x = 0 := by omega
    subst this
    refine ⟨1, by simp, ?_⟩
    have : (1:W).toNat = 1 := rfl
    rw [this]; simp
  · intro i a hi1 hi2 ha
    obtain ⟨v, hv, hv2⟩ := ha (i-1) (by omega) (by omega)
    rw [rdM_some (by omega) hv, pure_bind]
    refine Ok.bind (mul_mod_z hq0 psi v) fun w hw => ?_
    rw [wr_of_lt _ hi2]
    refine Ok.pure fun x h hx => ?_
    by_cases e : x = i
    · subst e
      refine ⟨w, by simp, ?_⟩
      rw [hw.2, hv2, ← pow_succ', Nat.sub_add_cancel hi1]
    · rw [Function.update_of_ne (fun h' => e (Fin.mk.inj_iff.1 h'))]
      exact ha x h (by omega)
  · intro a ha x h; exact ha x h h

theorem revTable_spec {q : W} {k : Nat} (hN : N = 2^k) (hk1 : 1 ≤ k) (hk : k ≤ 29)
    {psi : ZMod q.toNat} {a : Mem N W}
    (ha : ∀ x (h : x < N), ∃ v : W, a ⟨x, h⟩ = some v ∧ (v.toNat : ZMod q.toNat) = psi^x) :
    Ok (tabM N (fun i => do
      let b ← bitReverse (BitVec.ofNat 32 i) k
      rdM a b.toNat)) fun t => ∀ x, x < N → res q t x = tw psi k x := by
  refine Ok.mono (tabM_spec (P := fun i (v : W) => (v.toNat : ZMod q.toNat) = tw psi k i) ?_) ?_
  · intro i hi
    refine Ok.bind (bitReverse_spec (BitVec.ofNat 32 i) hk1 (by omega)) fun b hb => ?_
    have hi32 : i < 2^32 := by
      have : 2^k ≤ 2^29 := Nat.pow_le_pow_right (by norm_num) hk
      omega
    rw [BitVec.toNat_ofNat, Nat.mod_eq_of_lt hi32] at hb
    have hlt : b.toNat < N := by rw [hb, hN]; exact bitRev_lt k i
    obtain ⟨v, hv, hv2⟩ := ha b.toNat hlt
    rw [rdM_some hlt hv]
    refine Ok.pure ?_
    rw [hv2, hb]; rfl
  · intro t ht x hx
    unfold res
    rw [dig_of_lt _ hx]
    exact ht ⟨x, hx⟩

theorem NTT_new_spec {q : W} {k : Nat} (hp : q.toNat.Prime) (hdvd : 2^(k+1) ∣ q.toNat - 1) (hk1 : 1 ≤ k) (hk : k ≤ 29) :
    Ok (NTT.new (2^k) q) fun T => T.q = q ∧ ∃ psi ipsi : ZMod T.q.toNat, NTTOk T k psi ipsi ∧
      orderOf psi = 2 * 2^k := by
  have : Fact q.toNat.Prime := ⟨hp⟩
  have htwo := hp.two_le
  have hq1 : 1 < q.toNat := hp.one_lt
  have hq0 : q ≠ 0 := by rintro rfl; simp at hq1
  have h1w : (1:W).toNat = 1 := rfl
  have hp1 : (q - 1).toNat = q.toNat - 1 := by
    rw [BitVec.toNat_sub_of_le (by show (1:W).toNat ≤ q.toNat; rw [h1w]; omega), h1w]
  have hpow : 2^(k+1) ≤ 2^30 := Nat.pow_le_pow_right (by norm_num) (by omega)
  have hpow1 : 4 ≤ 2^(k+1) := by
    have : 2^2 ≤ 2^(k+1) := Nat.pow_le_pow_right (by norm_num) (by omega)
    omega
  have hle := Nat.le_of_dvd (by omega) hdvd
  have hne2 : q.toNat ≠ 2 := by omega
  have e2N : 2 * 2^k = 2^(k+1) := (pow_succ' 2 k).symm
  unfold NTT.new
  rw [logInt_pow (by omega), pure_bind]
  refine Ok.bind (findPrimitiveRoot_spec hp hne2) fun g hg => ?_
  rw [if_neg (by rw [e2N]; unfold INT_MAX; omega)]
  obtain ⟨hg1, hg2, hord⟩ := hg
  rw [pow_mod_spec _ _ _ hq1, pure_bind]
  have hdivw : ((q - 1) / BitVec.ofNat 64 (2 * 2^k)).toNat = (q.toNat - 1) / 2^(k+1) := by
    rw [BitVec.toNat_udiv, hp1, e2N, BitVec.toNat_ofNat, Nat.mod_eq_of_lt (a := 2^(k+1)) (by omega)]
  rw [hdivw]
  obtain ⟨c, hc⟩ := hdvd
  have hdiv : (q.toNat - 1) / 2^(k+1) = c := by
    rw [hc]; exact Nat.mul_div_cancel_left _ (by positivity)
  rw [hdiv]
  generalize hpw : BitVec.ofNat 64 (g.toNat ^ c % q.toNat) = pw
  have hpsi : (pw.toNat : ZMod q.toNat) = (g.toNat : ZMod q.toNat)^c := by
    rw [← hpw, ofNat_mod_toNat _ _ hq0, ZMod.natCast_mod]; push_cast; rfl
  set psi : ZMod q.toNat := (pw.toNat : ZMod q.toNat) with hpsidef
  have hordpsi : orderOf psi = 2 * 2^k := by
    rw [hpsi, orderOf_pow' _ (by rintro rfl; omega), hord, hc, Nat.gcd_mul_left_left,
      e2N]
    exact Nat.mul_div_cancel _ (Nat.pos_of_ne_zero (by rintro rfl; omega))
  have hpsiN : psi^(2^k) = -1 := by
    have hsq : (psi^(2^k))^2 = 1 := by
      rw [← pow_mul, Nat.mul_comm, ← hordpsi]; exact pow_orderOf_eq_one psi
    rcases mul_self_eq_one_iff.1 (show psi^(2^k) * psi^(2^k) = 1 by rw [← sq]; exact hsq) with h | h
    · exfalso
      have := Nat.le_of_dvd (by positivity) (orderOf_dvd_of_pow_eq_one h)
      have : 0 < 2^k := by positivity
      omega
    · exact h
  have hndvd : ¬ q.toNat ∣ pw.toNat := by
    intro h
    have h0 : psi = 0 := (ZMod.natCast_eq_zero_iff _ _).2 h
    rw [h0, zero_pow (by positivity)] at hpsiN
    exact one_ne_zero (neg_eq_zero.1 hpsiN.symm)
  refine Ok.bind (powTable_spec hq1 (by positivity) pw) fun po hpo => ?_
  refine Ok.bind (revTable_spec rfl hk1 hk hpo) fun pr hpr => ?_
  obtain ⟨ip, hip, hip1, hip2⟩ := inv_mod_spec pw q hp hndvd
  rw [hip, pure_bind]
  refine Ok.bind (powTable_spec hq1 (by positivity) ip) fun ipo hipo => ?_
  refine Ok.bind (revTable_spec rfl hk1 hk hipo) fun ipr hipr => ?_
  have hNw : (BitVec.ofNat 64 (2^k)).toNat = 2^k := by
    rw [BitVec.toNat_ofNat, Nat.mod_eq_of_lt]; omega
  have hNnd : ¬ q.toNat ∣ (BitVec.ofNat 64 (2^k)).toNat := by
    rw [hNw]
    intro h
    have := Nat.le_of_dvd (by positivity) h
    omega
  obtain ⟨iN, hiN, hiN1, hiN2⟩ := inv_mod_spec _ q hp hNnd
  rw [hiN, pure_bind]
  have cast1 : ∀ a b : Nat, a * b % q.toNat = 1 → (a : ZMod q.toNat) * b = 1 := by
    intro a b h
    have := congrArg (Nat.cast (R := ZMod q.toNat)) h
    rw [ZMod.natCast_mod] at this
    push_cast at this
    exact this
  refine Ok.pure ⟨rfl, psi, (ip.toNat : ZMod q.toNat), ?_, hordpsi⟩
  refine ⟨rfl, hk, hq0, hpsiN, cast1 _ _ hip2, hpr, hipr, ?_⟩
  have := cast1 _ _ hiN2
  rw [hNw] at this
  push_cast at this
  rw [mul_comm]; exact this

end EvalRound

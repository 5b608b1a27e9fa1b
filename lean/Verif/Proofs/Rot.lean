import Verif.Model.Rot
import Verif.Proofs.Autom
import Verif.Proofs.Core

/-! # Proofs about rotation and conjugation -/

set_option linter.unusedSectionVars false

namespace EvalRound
open Z_Q Finset

variable {LOGQ N : Nat}

theorem rotPow_spec (hN : 10 * N ≤ INT_MAX) (hN1 : 1 ≤ N) (r : Nat) :
    Ok (rotPow N r) fun p => p = 5^r % (2 * N) := by
  unfold rotPow
  refine Ok.mono (forUp_inv (P := fun i p => p = 5^i % (2 * N)) (Nat.zero_le r) ?_ ?_) fun _ h => h
  · rw [pow_zero, Nat.mod_eq_of_lt (by omega)]
  · intro i p _ _ hp
    have : p < 2 * N := by rw [hp]; exact Nat.mod_lt _ (by omega)
    rw [idxM_ok (by omega), pure_bind]
    refine Ok.pure ?_
    rw [hp, pow_succ, Nat.mul_comm (5^i), Nat.mul_mod 5 (5^i % _), Nat.mod_mod, ← Nat.mul_mod]

/-- The scattering loop shared by the overloads of `rot`. -/
theorem scatter {α : Type} (hN : 10 * N ≤ INT_MAX) (hN1 : 1 ≤ N) {pow g : Nat}
    (hp : pow = g % (2 * N)) (hg : ∀ j j' : Fin N, g * j % N = g * j' % N → j = j')
    (body : Nat → (Fin N → α) × Nat → M ((Fin N → α) × Nat)) (Q : Fin N → Fin N → α → Prop)
    (hb : ∀ (i : Fin N) (d : Fin N → α), ∃ v, Q i ⟨g * i % N, Nat.mod_lt _ hN1⟩ v ∧
      body i (d, g * i % (2 * N)) = (do
        let j ← rotNext N pow (g * i % (2 * N))
        pure (Function.update d ⟨g * i % N, Nat.mod_lt _ hN1⟩ v, j))) (d0 : Fin N → α) :
    Ok (forUp 0 N body (d0, 0)) fun st => ∀ p : Fin N, ∃ i : Fin N, g * i % N = p ∧ Q i p (st.1 p) := by
  refine Ok.mono (forUp_inv (P := fun n (st : (Fin N → α) × Nat) => st.2 = g * n % (2 * N) ∧
    ∀ i : Fin N, i.val < n → ∃ v, st.1 ⟨g * i % N, Nat.mod_lt _ hN1⟩ = v ∧
      Q i ⟨g * i % N, Nat.mod_lt _ hN1⟩ v) (Nat.zero_le N) ?_ ?_) ?_
  · exact ⟨by simp, fun i h => by omega⟩
  · rintro n ⟨d, j⟩ _ hn ⟨h1, h2⟩
    simp only [] at h1 h2
    subst h1
    obtain ⟨v, hv, hbd⟩ := hb ⟨n, hn⟩ d
    simp only [] at hbd
    rw [hbd]
    have hlt : g * n % (2 * N) < 2 * N := Nat.mod_lt _ (by omega)
    have hplt : pow < 2 * N := by rw [hp]; exact Nat.mod_lt _ (by omega)
    unfold rotNext
    rw [idxM_ok (by omega), pure_bind, pure_bind]
    refine Ok.pure ⟨?_, ?_⟩
    · simp only []
      rw [hp, ← Nat.add_mod, Nat.mul_add, Nat.mul_one]
    · intro i hi
      simp only []
      by_cases e : i = ⟨n, hn⟩
      · subst e
        exact ⟨v, by rw [Function.update_self], hv⟩
      · have hne : (⟨g * i % N, Nat.mod_lt _ hN1⟩ : Fin N) ≠ ⟨g * n % N, Nat.mod_lt _ hN1⟩ := by
          intro h
          exact e (hg i ⟨n, hn⟩ (Fin.ext_iff.1 h))
        rw [Function.update_of_ne hne]
        have : i.val ≠ n := fun h => e (Fin.ext h)
        exact h2 i (by omega)
  · rintro ⟨d, j⟩ ⟨_, h2⟩ p
    obtain ⟨i, hi⟩ := pos_surj hg p
    obtain ⟨v, hv, hQ⟩ := h2 i i.isLt
    have : (⟨g * i % N, Nat.mod_lt _ hN1⟩ : Fin N) = p := Fin.ext hi
    rw [this] at hv hQ
    exact ⟨i, hi, by simp only [] at hv ⊢; rw [hv]; exact hQ⟩

theorem pos_of (hN1 : 1 ≤ N) (x : Nat) :
    x % (2 * N) < N ∧ x % (2 * N) = x % N ∨ ¬ x % (2 * N) < N ∧ x % (2 * N) - N = x % N := by
  have hmm : x % (2 * N) % N = x % N := Nat.mod_mod_of_dvd _ ⟨2, by ring⟩
  have hlt : x % (2 * N) < 2 * N := Nat.mod_lt _ (by omega)
  generalize x % (2 * N) = t at *
  by_cases ht : t < N
  · left; rw [Nat.mod_eq_of_lt ht] at hmm; exact ⟨ht, hmm⟩
  · right; rw [Nat.mod_eq_sub_mod (by omega), Nat.mod_eq_of_lt (by omega)] at hmm; exact ⟨ht, hmm⟩

theorem rotI_spec (hN : 10 * N ≤ INT_MAX) (hN1 : 1 ≤ N) (r : Nat)
    (hg : ∀ j j' : Fin N, 5^r * j % N = 5^r * j' % N → j = j')
    (s d0 : Fin N → Int) (hs : ∀ i, -2^31 < s i ∧ s i < 2^31) :
    rotI s d0 r = pure (autom (5^r) s) := by
  have : Ok (rotI s d0 r) fun t => t = autom (5^r) s := by
    unfold rotI
    refine Ok.bind (rotPow_spec hN hN1 r) fun pow hp => ?_
    refine Ok.bind (scatter hN hN1 hp hg _ (Q := fun i _ v => v = if 5^r * i % (2*N) < N then s i else - s i) ?_ d0)
      fun st hst => Ok.pure ?_
    · intro i d
      refine ⟨_, rfl, ?_⟩
      rw [rd_of_lt _ i.isLt, pure_bind]
      simp only []
      rcases pos_of hN1 (5^r * i) with ⟨h1, h2⟩ | ⟨h1, h2⟩
      · rw [if_pos h1, if_pos h1, wr_of_lt _ (by rw [h2]; exact Nat.mod_lt _ hN1), pure_bind]
        simp only [h2]
      · rw [if_neg h1, if_neg h1, intM_ok (by have := hs i; simp only [Fin.eta]; omega) (by have := hs i; simp only [Fin.eta]; omega), pure_bind,
          wr_of_lt _ (by rw [h2]; exact Nat.mod_lt _ hN1), pure_bind]
        simp only [h2]
    · funext p
      obtain ⟨i, hi, h⟩ := hst p
      rw [h, autom_at hg s i p hi]
  obtain ⟨t, e, rfl⟩ := this
  exact e

theorem rotI1_spec (hN : 10 * N ≤ INT_MAX) (hN1 : 1 ≤ N)
    (hg : ∀ j j' : Fin N, 5 * j % N = 5 * j' % N → j = j')
    (s d0 : Fin N → Int) (hs : ∀ i, -2^31 < s i ∧ s i < 2^31) :
    rotI1 s d0 = pure (autom 5 s) := by
  have : Ok (rotI1 s d0) fun t => t = autom 5 s := by
    unfold rotI1
    refine Ok.mono (forUp_inv (P := fun n (d : Fin N → Int) => ∀ i : Fin N, i.val < n →
      d ⟨5 * i % N, Nat.mod_lt _ hN1⟩ = if 5 * i % (2*N) < N then s i else - s i) (Nat.zero_le N)
      (fun i h => by omega) ?_) ?_
    · intro n d _ hn hd
      rw [idxM_ok (by omega), pure_bind, rd_of_lt _ hn, pure_bind]
      have hpar : (5 * n / N) % 2 = 0 ↔ 5 * n % (2 * N) < N := by
        rw [Nat.mul_comm 2 N, Nat.mod_mul]
        have := Nat.mod_lt (5 * n) hN1
        have h2 := Nat.mod_lt (5 * n / N) (by norm_num : 0 < 2)
        constructor
        · intro h; rw [h]; omega
        · intro h
          by_contra hne
          have : 5 * n / N % 2 = 1 := by omega
          rw [this] at h; omega
      have key : rotVal (5 * n / N) (s ⟨n, hn⟩) =
          pure (if 5 * n % (2*N) < N then s ⟨n, hn⟩ else - s ⟨n, hn⟩) := by
        unfold rotVal
        by_cases h : 5 * n / N % 2 = 0
        · rw [if_pos h, if_pos (hpar.1 h)]
        · rw [if_neg h, if_neg (fun h' => h (hpar.2 h')),
            intM_ok (by have := hs ⟨n, hn⟩; omega) (by have := hs ⟨n, hn⟩; omega)]
      rw [key, pure_bind, wr_of_lt _ (Nat.mod_lt _ hN1)]
      refine Ok.pure fun i hi => ?_
      by_cases e : i = ⟨n, hn⟩
      · subst e; rw [Function.update_self]
      · have hne : (⟨5 * i % N, Nat.mod_lt _ hN1⟩ : Fin N) ≠ ⟨5 * n % N, Nat.mod_lt _ hN1⟩ := by
          intro h
          exact e (hg i ⟨n, hn⟩ (Fin.ext_iff.1 h))
        rw [Function.update_of_ne hne]
        have : i.val ≠ n := fun h => e (Fin.ext h)
        exact hd i (by omega)
    · intro d hd
      funext p
      obtain ⟨i, hi⟩ := pos_surj hg p
      have h := hd i i.isLt
      have e : (⟨5 * i % N, Nat.mod_lt _ hN1⟩ : Fin N) = p := Fin.ext hi
      rw [e] at h
      rw [h, autom_at hg s i p hi]
  obtain ⟨t, e, rfl⟩ := this
  exact e

variable [NeZero LOGQ]

theorem rotR_spec (hN : 10 * N ≤ INT_MAX) (hN1 : 1 ≤ N) (r : Nat)
    (hg : ∀ j j' : Fin N, 5^r * j % N = 5^r * j' % N → j = j')
    {A : R_Q LOGQ N} (hA : A.Canonical) (d0 : R_Q LOGQ N) :
    Ok (rotR A d0 r) fun B => B.Canonical ∧ R_Q.cls B = autom (5^r) (R_Q.cls A) := by
  unfold rotR
  refine Ok.bind (rotPow_spec hN hN1 r) fun pow hp => ?_
  refine Ok.bind (scatter hN hN1 hp hg _ (Q := fun i _ (v : Z_Q LOGQ) => v.Canonical ∧
    v.cls = if 5^r * i % (2*N) < N then (A i).cls else - (A i).cls) ?_ d0) fun st hst => Ok.pure ⟨?_, ?_⟩
  · intro i d
    refine ⟨if 5^r * i % (2*N) < N then A i else negate (A i), ?_, ?_⟩
    · split
      · exact ⟨hA i, rfl⟩
      · exact ⟨canonical_negate _, cls_negate _⟩
    · rw [rd_of_lt _ i.isLt, pure_bind]
      simp only [Z_Q.copy_eq]
      rcases pos_of hN1 (5^r * i) with ⟨h1, h2⟩ | ⟨h1, h2⟩
      · rw [if_pos h1, if_pos h1, wr_of_lt _ (by rw [h2]; exact Nat.mod_lt _ hN1), pure_bind]
        simp only [h2]
      · have hlt : 5^r * i % (2*N) - N < N := by rw [h2]; exact Nat.mod_lt _ hN1
        rw [if_neg h1, if_neg h1, wr_of_lt _ hlt, pure_bind, rd_of_lt _ hlt, pure_bind,
          wr_of_lt _ hlt, pure_bind, Function.update_self, Function.update_idem]
        simp only [h2]
  · intro p
    obtain ⟨i, hi, h⟩ := hst p
    exact h.1
  · funext p
    obtain ⟨i, hi, h⟩ := hst p
    rw [autom_at hg _ i p hi]
    exact h.2

/-! ## conjugation -/

theorem conj_pos (hN1 : 1 ≤ N) (j j' : Fin N) (e : (2*N-1) * j % N = (2*N-1) * j' % N) : j = j' := by
  apply pos_inj_of_coprime (g := 2*N-1) _ j j' e
  have h1 : Nat.Coprime (2*N) (2*N-1) := by
    have := (Nat.coprime_self_sub_right (by omega : 1 ≤ 2*N)).2 (Nat.coprime_one_right (2*N))
    exact this
  exact Nat.Coprime.coprime_dvd_left ⟨2, by ring⟩ h1

theorem autom_conj {R : Type*} [AddCommGroup R] (hN1 : 1 ≤ N) (a : Fin N → R) (i : Fin N) :
    autom (2*N-1) a i = if h : i.val = 0 then a i else - a ⟨N - i, by omega⟩ := by
  have hi := i.isLt
  by_cases h : i.val = 0
  · rw [dif_pos h, autom_at (conj_pos hN1) a i i (by rw [h]; simp), h]
    simp; omega
  · rw [dif_neg h]
    have e : (2*N-1) * (N - i) % (2*N) = N + i := by
      have : (2*N-1) * (N-i) = (N + i) + (2*N) * (N - i - 1) := by
        obtain ⟨m, hm⟩ : ∃ m, N = i + 1 + m := ⟨N - i - 1, by omega⟩
        generalize i.val = t at *
        subst hm
        rw [show t + 1 + m - t = m + 1 by omega, show m + 1 - 1 = m by omega,
          show 2 * (t + 1 + m) - 1 = 2 * t + 2 * m + 1 by omega]
        ring
      rw [this, Nat.add_mul_mod_self_left, Nat.mod_eq_of_lt (by omega)]
    have e2 : (2*N-1) * (N - i) % N = i := by
      have hmm : (2*N-1) * (N - i) % (2 * N) % N = (2*N-1) * (N - i) % N := Nat.mod_mod_of_dvd _ ⟨2, by ring⟩
      rw [← hmm, e, Nat.add_mod_left, Nat.mod_eq_of_lt hi]
    rw [autom_at (conj_pos hN1) a ⟨N - i, by omega⟩ i e2]
    simp only [e]
    rw [if_neg (by omega)]

theorem conjI_spec (hN1 : 1 ≤ N) (s d0 : Fin N → Int) (hs : ∀ i, -2^31 < s i ∧ s i < 2^31) :
    conjI s d0 = pure (autom (2*N-1) s) := by
  have : Ok (conjI s d0) fun t => t = autom (2*N-1) s := by
    unfold conjI
    rw [rd_of_lt _ hN1, pure_bind, wr_of_lt _ hN1, pure_bind]
    refine Ok.mono (forUp_inv (P := fun n (d : Fin N → Int) => ∀ i : Fin N, i.val < n →
      d i = autom (2*N-1) s i) hN1 ?_ ?_) fun d hd => funext fun i => hd i i.isLt
    · intro i hi
      have : i = ⟨0, hN1⟩ := Fin.ext (by simp only []; omega)
      rw [this, Function.update_self, autom_conj hN1, dif_pos rfl]
    · intro n d hn1 hn hd
      have := hs ⟨N - n, by omega⟩
      rw [rd_of_lt _ (by omega : N - n < N), pure_bind, intM_ok (by omega) (by omega), pure_bind, wr_of_lt _ hn]
      refine Ok.pure fun i hi => ?_
      by_cases e : i = ⟨n, hn⟩
      · subst e; rw [Function.update_self, autom_conj hN1, dif_neg (by simp only []; omega)]
      · have : i.val ≠ n := fun h => e (Fin.ext h)
        rw [Function.update_of_ne e]; exact hd i (by omega)
  obtain ⟨t, e, rfl⟩ := this
  exact e

theorem conjR_spec (hN1 : 1 ≤ N) {A : R_Q LOGQ N} (hA : A.Canonical) (d0 : R_Q LOGQ N) :
    Ok (conjR A d0) fun B => B.Canonical ∧ R_Q.cls B = autom (2*N-1) (R_Q.cls A) := by
  unfold conjR
  rw [rd_of_lt _ hN1, pure_bind, wr_of_lt _ hN1, pure_bind]
  refine Ok.mono (forUp_inv (P := fun n (d : R_Q LOGQ N) => ∀ i : Fin N, i.val < n →
    (d i).Canonical ∧ (d i).cls = autom (2*N-1) (R_Q.cls A) i) hN1 ?_ ?_)
    fun d hd => ⟨fun i => (hd i i.isLt).1, funext fun i => (hd i i.isLt).2⟩
  · intro i hi
    have : i = ⟨0, hN1⟩ := Fin.ext (by simp only []; omega)
    rw [this, Function.update_self, autom_conj hN1, dif_pos rfl]
    exact ⟨hA _, rfl⟩
  · intro n d hn1 hn hd
    rw [rd_of_lt _ (by omega : N - n < N), pure_bind, wr_of_lt _ hn, pure_bind, rd_of_lt _ hn, pure_bind,
      wr_of_lt _ hn, Function.update_self, Function.update_idem]
    refine Ok.pure fun i hi => ?_
    by_cases e : i = ⟨n, hn⟩
    · subst e; rw [Function.update_self, autom_conj hN1, dif_neg (by simp only []; omega)]
      exact ⟨canonical_negate _, by rw [cls_negate, Z_Q.copy_eq]; rfl⟩
    · have : i.val ≠ n := fun h => e (Fin.ext h)
      rw [Function.update_of_ne e]; exact hd i (by omega)

/-! ## ciphertexts -/

theorem red_autom (g : Nat) (s : Fin N → Int) : red LOGQ (autom g s) = autom g (red LOGQ s) :=
  funext fun i => autom_map (Int.castAddHom (ZMod (2^LOGQ))) g s i

theorem phase_autom {g : Nat} (hg : g % 2 = 1) (s : Fin N → Int) {ct ct' : R_Q_square LOGQ N}
    (h1 : R_Q.cls ct'.1 = autom g (R_Q.cls ct.1)) (h2 : R_Q.cls ct'.2 = autom g (R_Q.cls ct.2)) :
    R_Q_square.phase (autom g s) ct' = autom g (R_Q_square.phase s ct) := by
  rw [phase_eq, phase_eq, autom_add, autom_negconv hg, h1, h2, red_autom]

theorem rot_ct_spec {k : Nat} (h : ConvLOGQ (2 * LOGQ)) (hk1 : 1 ≤ k) (hk : k ≤ 17) (r : Nat)
    {rkey : R_Q_square (2 * LOGQ) (2^k)} (hr : rkey.Canonical) {s e : Fin (2^k) → Int} {B : Int}
    (hB : ∀ i, |e i| ≤ B)
    (hph : R_Q_square.phase s rkey = red (2 * LOGQ) ((2^LOGQ : Int) • autom (5^r) s + e))
    {ct : R_Q_square LOGQ (2^k)} (hct : ct.Canonical) (ct0 : R_Q_square LOGQ (2^k)) :
    Ok (rot_ct ct r rkey ct0) fun y => y.Canonical ∧ ∃ E : Fin (2^k) → Int,
      (∀ i, 2 * |E i| ≤ 2 * (2^k : Nat) * B + (∑ j, |s j|) + 1) ∧
      R_Q_square.phase s y = autom (5^r) (R_Q_square.phase s ct) + red LOGQ E := by
  have hN17 : 2^k ≤ 2^17 := Nat.pow_le_pow_right (by norm_num) (by omega)
  have hN : 10 * 2^k ≤ INT_MAX := by unfold INT_MAX; omega
  have hN1 : 1 ≤ 2^k := Nat.one_le_two_pow
  have hg := fun (j j' : Fin (2^k)) e => pos_inj_of_coprime (five_pow_coprime k r) j j' e
  unfold rot_ct
  refine Ok.bind (rotR_spec hN hN1 r hg hct.1 _) fun a ⟨a1, a2⟩ => ?_
  refine Ok.bind (rotR_spec hN hN1 r hg hct.2 _) fun b ⟨b1, b2⟩ => ?_
  refine Ok.mono (ks_spec h hk1 hk hr hB hph (ct := (a, b)) ⟨a1, b1⟩) fun y ⟨hy, E, hE, hp⟩ => ⟨hy, E, hE, ?_⟩
  rw [hp]
  exact congrArg (· + red LOGQ E) (phase_autom (ct := ct) (ct' := (a, b)) (five_pow_odd r) s a2 b2)

theorem conj_ct_spec {k : Nat} (h : ConvLOGQ (2 * LOGQ)) (hk1 : 1 ≤ k) (hk : k ≤ 17)
    {ckey : R_Q_square (2 * LOGQ) (2^k)} (hr : ckey.Canonical) {s e : Fin (2^k) → Int} {B : Int}
    (hB : ∀ i, |e i| ≤ B)
    (hph : R_Q_square.phase s ckey = red (2 * LOGQ) ((2^LOGQ : Int) • autom (2 * 2^k - 1) s + e))
    {ct : R_Q_square LOGQ (2^k)} (hct : ct.Canonical) (ct0 : R_Q_square LOGQ (2^k)) :
    Ok (conj_ct ct ckey ct0) fun y => y.Canonical ∧ ∃ E : Fin (2^k) → Int,
      (∀ i, 2 * |E i| ≤ 2 * (2^k : Nat) * B + (∑ j, |s j|) + 1) ∧
      R_Q_square.phase s y = autom (2 * 2^k - 1) (R_Q_square.phase s ct) + red LOGQ E := by
  have hN1 : 1 ≤ 2^k := Nat.one_le_two_pow
  unfold conj_ct
  refine Ok.bind (conjR_spec hN1 hct.1 _) fun a ⟨a1, a2⟩ => ?_
  refine Ok.bind (conjR_spec hN1 hct.2 _) fun b ⟨b1, b2⟩ => ?_
  refine Ok.mono (ks_spec h hk1 hk hr hB hph (ct := (a, b)) ⟨a1, b1⟩) fun y ⟨hy, E, hE, hp⟩ => ⟨hy, E, hE, ?_⟩
  rw [hp]
  exact congrArg (· + red LOGQ E) (phase_autom (ct := ct) (ct' := (a, b)) (by omega) s a2 b2)

theorem autom_abs {g : Nat} (hg : ∀ j j' : Fin N, g * j % N = g * j' % N → j = j') {s : Fin N → Int} {B : Int}
    (hs : ∀ i, |s i| ≤ B) (i : Fin N) : |autom g s i| ≤ B := by
  obtain ⟨j, hj⟩ := pos_surj hg i
  rw [autom_at hg s j i hj]
  split
  · exact hs j
  · rw [abs_neg]; exact hs j

/-! ## raising the modulus -/

theorem mod_raise_phase {LF LT : Nat} [NeZero LF] [NeZero LT] {ct : R_Q_square LF N} (hct : ct.Canonical)
    (s : Fin N → Int) (m : Fin N → Int) (hm : red LF m = R_Q_square.phase s ct)
    (hmb : ∀ i, |m i| ≤ 2^(LF-1)) :
    (mod_raise LT ct).Canonical ∧ ∃ I : Fin N → Int, (∀ i, 2 * |I i| ≤ (∑ k, |s k|) + 2) ∧
      R_Q_square.phase s (mod_raise LT ct) = red LT (m + (2^LF : Int) • I) := by
  refine ⟨⟨fun i => canonical_resize _, fun i => canonical_resize _⟩, ?_⟩
  let x : Fin N → Int := R_Q.sval ct.1 + negconv s (R_Q.sval ct.2)
  have hx : red LF x = red LF m := by
    rw [hm, phase_eq, red_add, red_negconv, ← cls_red_sval, ← cls_red_sval]
  have hdiv : ∀ i, ∃ t : Int, x i - m i = 2^LF * t := by
    intro i
    have := (congrFun hx i).symm
    simp only [red] at this
    rw [ZMod.intCast_eq_intCast_iff_dvd_sub] at this
    push_cast at this
    exact this
  choose I hI using hdiv
  refine ⟨I, fun i => ?_, ?_⟩
  · have b1 := negconv_abs_le s (R_Q.sval ct.2) (fun j => abs_sval_le (ct.2 j)) i
    have b2 := abs_sval_le (ct.1 i)
    have b3 : |x i| ≤ |(ct.1 i).sval| + |negconv s (R_Q.sval ct.2) i| := abs_add_le _ _
    have b4 := abs_sub (x i) (m i)
    rw [hI, abs_mul, abs_of_nonneg (by positivity : (0:Int) ≤ 2^LF)] at b4
    have e2 : (2:Int)^LF = 2 * 2^(LF-1) := by exact_mod_cast two_mul_half LF
    rw [e2] at b4
    have b5 := hmb i
    have hp : (0:Int) < 2^(LF-1) := by positivity
    have : (2^(LF-1) : Int) * (2 * |I i|) ≤ 2^(LF-1) * ((∑ k, |s k|) + 2) := by nlinarith
    exact le_of_mul_le_mul_left this hp
  · have h1 : R_Q.cls (mod_raise LT ct).1 = red LT (R_Q.sval ct.1) := funext fun i => cls_resize (hct.1 i)
    have h2 : R_Q.cls (mod_raise LT ct).2 = red LT (R_Q.sval ct.2) := funext fun i => cls_resize (hct.2 i)
    rw [phase_eq, h1, h2, ← red_negconv, ← red_add]
    congr 1
    funext i
    have := hI i
    simp only [Pi.add_apply, Pi.smul_apply, smul_eq_mul]
    have e : x i = (R_Q.sval ct.1) i + negconv s (R_Q.sval ct.2) i := rfl
    omega

end EvalRound

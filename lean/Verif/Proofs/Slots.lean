import Verif.Proofs.Endecode
import Verif.Proofs.Rot

/-! # Slots of products, rotations and conjugates -/

set_option linter.unusedSectionVars false

namespace EvalRound
open Finset

variable {N : Nat}

theorem slotOf_eval (m : Fin N → ℝ) (i : Nat) :
    slotOf m i = ∑ k : Fin N, (m k : ℂ) * (zeta N ^ (5^i))^(k:Nat) := by
  rw [slotOf_zeta]
  exact sum_congr rfl fun k _ => by rw [← pow_mul]

theorem zeta_root (hN : 0 < N) (i : Nat) : (zeta N ^ (5^i))^N = -1 := by
  have h : zeta N ^ N = -1 := zeta_pow_N hN
  exact odd_pow_root (five_pow_odd i) h

theorem ofReal_negconv (a b : Fin N → ℝ) (i : Fin N) :
    ((negconv a b i : ℝ) : ℂ) = negconv (fun k => (a k : ℂ)) (fun k => (b k : ℂ)) i := by
  unfold negconv
  rw [Complex.ofReal_sum]
  refine sum_congr rfl fun j _ => ?_
  split <;> simp

theorem slotOf_negconv (hN : 0 < N) (a b : Fin N → ℝ) (i : Nat) :
    slotOf (negconv a b) i = slotOf a i * slotOf b i := by
  rw [slotOf_eval, slotOf_eval, slotOf_eval, ← pev_negconv _ _ (zeta_root hN i)]
  exact sum_congr rfl fun k _ => by rw [ofReal_negconv]

theorem ofReal_autom (g : Nat) (a : Fin N → ℝ) (i : Fin N) :
    ((autom g a i : ℝ) : ℂ) = autom g (fun k => (a k : ℂ)) i :=
  autom_map (Complex.ofRealHom : ℝ →+* ℂ).toAddMonoidHom g a i

theorem slotOf_rot (hN : 0 < N) (r : Nat) (a : Fin N → ℝ) (i : Nat) :
    slotOf (autom (5^r) a) i = slotOf a (i + r) := by
  rw [slotOf_eval, slotOf_eval, pow_add, pow_mul, ← eval_autom (5^r) (fun k => (a k : ℂ)) (zeta_root hN i)]
  exact sum_congr rfl fun k _ => by rw [ofReal_autom]

theorem slotOf_mod {k : Nat} (a : Fin (2^(k+1)) → ℝ) (i : Nat) :
    slotOf a (i % 2^k) = slotOf a i := by
  rw [slotOf_eval, slotOf_eval]
  have h5 : 5^(2^k) % (2 * 2^(k+1)) = 1 := five_pow (k+1) (by omega)
  have h : 5^(i % 2^k) % (2 * 2^(k+1)) = 5^i % (2 * 2^(k+1)) := by
    conv_rhs => rw [← Nat.div_add_mod i (2^k), pow_add, pow_mul, Nat.mul_mod, Nat.pow_mod, h5, one_pow, Nat.one_mod_eq_one.2 (by
      have : 0 < 2^(k+1) := by positivity
      omega), one_mul, Nat.mod_mod]
  have e : zeta (2^(k+1)) ^ 5^(i % 2^k) = zeta (2^(k+1)) ^ 5^i := by
    have hp : 0 < 2^(k+1) := by positivity
    rw [← zeta_pow_mod hp, h, zeta_pow_mod hp]
  rw [e]

theorem slotOf_conj (hN : 0 < N) (a : Fin N → ℝ) (i : Nat) :
    slotOf (autom (2*N-1) a) i = (starRingEnd ℂ) (slotOf a i) := by
  rw [slotOf_eval, slotOf_eval, map_sum]
  have h := eval_autom (2*N-1) (fun k => (a k : ℂ)) (zeta_root hN i)
  have e : ∀ k, (((autom (2*N-1) a) k : ℝ) : ℂ) = autom (2*N-1) (fun k => (a k : ℂ)) k := fun k => ofReal_autom _ _ _
  simp only [e]
  rw [h]
  refine sum_congr rfl fun k _ => ?_
  rw [map_mul, Complex.conj_ofReal, map_pow]
  congr 2
  have h1 := star_zeta_pow N (5^i)
  have h2 : zeta N ^ 5^i * (zeta N ^ 5^i)^(2*N-1) = 1 := by
    rw [← pow_succ', show 2*N-1+1 = N*2 by omega, pow_mul, zeta_root hN i]; norm_num
  have h0 : zeta N ^ 5^i ≠ 0 := left_ne_zero_of_mul_eq_one h2
  exact mul_left_cancel₀ h0 (h2.trans h1.symm)

theorem slotOf_smul (a : Fin N → ℝ) (c : ℝ) (i : Nat) : slotOf (fun k => a k * c) i = slotOf a i * c := by
  rw [slotOf_eval, slotOf_eval, sum_mul]
  refine sum_congr rfl fun k _ => ?_
  push_cast; ring

/-! ## SimplePlaintext -/

theorem simple_conv_eq (a b : Fin N → ℝ) : Simple.conv a b = pure (negconv a b) := by
  unfold Simple.conv
  refine tabM_eq fun i => ?_
  have key : Ok (Simple.convCoeff a b i) fun v => v = negconv a b i := by
    unfold Simple.convCoeff
    have hi := i.isLt
    have pos : ∀ k (h : k < N), k ≤ i.val → (if h' : (⟨k, h⟩ : Fin N) ≤ i then a ⟨k, h⟩ * b ⟨i - k, by omega⟩
        else - (a ⟨k, h⟩ * b ⟨N + i - k, by have : ¬ k ≤ i.val := h'; omega⟩)) = a ⟨k, h⟩ * b ⟨i - k, by omega⟩ :=
      fun k h hk => dif_pos hk
    refine Ok.bind (forUp_inv (P := fun n s => s = ∑ k ∈ range n, if h : k < N then
      (if h' : (⟨k, h⟩ : Fin N) ≤ i then a ⟨k, h⟩ * b ⟨i - k, by omega⟩
        else - (a ⟨k, h⟩ * b ⟨N + i - k, by have : ¬ k ≤ i.val := h'; omega⟩)) else 0) (Nat.zero_le (i.val+1)) ?_ ?_) fun s hs => ?_
    · simp
    · intro k s _ hk hs
      rw [rd_of_lt _ (by omega : k < N), pure_bind, rd_of_lt _ (by omega : i.val - k < N), pure_bind]
      refine Ok.pure ?_
      rw [sum_range_succ, ← hs, dif_pos (by omega : k < N), pos k _ (by omega)]
    · refine Ok.mono (forUp_inv (P := fun n s => s = ∑ k ∈ range n, if h : k < N then
        (if h' : (⟨k, h⟩ : Fin N) ≤ i then a ⟨k, h⟩ * b ⟨i - k, by omega⟩
          else - (a ⟨k, h⟩ * b ⟨N + i - k, by have : ¬ k ≤ i.val := h'; omega⟩)) else 0) (by omega : i.val + 1 ≤ N) hs ?_) fun v hv => ?_
      · intro k s hk1 hk hs
        rw [rd_of_lt _ hk, pure_bind, rd_of_lt _ (by omega : i.val + N - k < N), pure_bind]
        refine Ok.pure ?_
        have : ¬ ((⟨k, hk⟩ : Fin N) ≤ i) := by
          intro h; have : k ≤ i.val := h; omega
        rw [sum_range_succ, ← hs, dif_pos hk, dif_neg this]
        simp only [Nat.add_comm i.val N]
        ring
      · rw [hv, ← Fin.sum_univ_eq_sum_range (fun k => if h : k < N then
          (if h' : (⟨k, h⟩ : Fin N) ≤ i then a ⟨k, h⟩ * b ⟨i - k, by omega⟩
            else - (a ⟨k, h⟩ * b ⟨N + i - k, by have : ¬ k ≤ i.val := h'; omega⟩)) else 0)]
        unfold negconv
        refine sum_congr rfl fun k _ => ?_
        rw [dif_pos k.isLt]
  obtain ⟨v, e, rfl⟩ := key
  exact e

theorem rotate_once_eq (hN : 10 * N ≤ INT_MAX) (hN1 : 1 ≤ N)
    (hg : ∀ j j' : Fin N, 5 * j % N = 5 * j' % N → j = j') (a r0 : Fin N → ℝ) :
    Simple.rotate_once a r0 = pure (autom 5 a) := by
  have : Ok (Simple.rotate_once a r0) fun b => b = autom 5 a := by
    unfold Simple.rotate_once
    refine Ok.mono (forUp_inv (P := fun n (b : Fin N → ℝ) => ∀ i : Fin N, i.val < n →
      b ⟨5 * i % N, Nat.mod_lt _ hN1⟩ = autom 5 a ⟨5 * i % N, Nat.mod_lt _ hN1⟩) (Nat.zero_le N) ?_ ?_) ?_
    · intro i h; omega
    · intro n b _ hn hb
      rw [idxM_ok (by omega), pure_bind, rd_of_lt _ hn, pure_bind, wr_of_lt _ (Nat.mod_lt _ hN1)]
      refine Ok.pure fun i hi => ?_
      by_cases e : i = ⟨n, hn⟩
      · subst e
        simp only []
        rw [Function.update_self, autom_at hg a ⟨n, hn⟩ _ rfl]
        simp only []
        have h2 : 5 * n / N % 2 = 1 ↔ ¬ (5 * n % (2 * N) < N) := by
          rw [Nat.mul_comm 2 N, Nat.mod_mul]
          have := Nat.mod_lt (5 * n) hN1
          rcases Nat.mod_two_eq_zero_or_one (5 * n / N) with h | h <;> rw [h] <;> simp <;> omega
        by_cases h : 5 * n % (2 * N) < N
        · rw [if_neg (by rw [h2]; exact not_not.2 h), if_pos h]
        · rw [if_pos (h2.2 h), if_neg h]
      · have hne : (⟨5 * i % N, Nat.mod_lt _ hN1⟩ : Fin N) ≠ ⟨5 * n % N, Nat.mod_lt _ hN1⟩ := by
          intro h
          exact e (hg i ⟨n, hn⟩ (Fin.ext_iff.1 h))
        rw [Function.update_of_ne hne]
        have : i.val ≠ n := fun h => e (Fin.ext h)
        exact hb i (by omega)
    · intro b hb
      funext p
      obtain ⟨i, hi⟩ := pos_surj hg p
      have := hb i i.isLt
      have e : (⟨5 * i % N, Nat.mod_lt _ hN1⟩ : Fin N) = p := Fin.ext hi
      rwa [e] at this
  obtain ⟨v, e, rfl⟩ := this
  exact e

theorem rotate_eq {k : Nat} (hk : k ≤ 27) (a : Fin (2^k) → ℝ) (r : Nat) :
    Simple.rotate a r = pure (autom (5^r) a) := by
  have hN : 10 * 2^k ≤ INT_MAX := by
    have : 2^k ≤ 2^27 := Nat.pow_le_pow_right (by norm_num) hk
    have : INT_MAX = 2147483647 := by decide
    omega
  have : Ok (Simple.rotate a r) fun b => b = autom (5^r) a := by
    unfold Simple.rotate
    refine Ok.mono (forUp_inv (P := fun n b => b = autom (5^n) a) (Nat.zero_le r) ?_ ?_) fun _ h => h
    · rw [pow_zero, autom_one]
    · intro n b _ _ hb
      rw [rotate_once_eq hN Nat.one_le_two_pow
        (fun j j' e => pos_inj_of_coprime (odd_coprime k (by norm_num)) j j' e)]
      refine Ok.pure ?_
      rw [hb, autom_autom (by norm_num), pow_succ, mul_comm]
  obtain ⟨v, e, rfl⟩ := this
  exact e

end EvalRound

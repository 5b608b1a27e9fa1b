import Verif.Proofs.Draws

/-! # C54: the random choices of key generation and encryption -/

set_option linter.unusedSectionVars false

namespace EvalRound
open Z_Q

/-- C54: every ternary key with `h` nonzero entries comes out of `keygen(h,s)` for some values of
`rand()` between 0 and `RAND_MAX`. -/
theorem C54_keygen_all {N : Nat} [NeZero N] (RAND_MAX : Nat) (hN : N ≤ RAND_MAX + 1) (hR : 1 ≤ RAND_MAX)
    (s : Fin N → Int) (hs : ∀ k, s k = -1 ∨ s k = 0 ∨ s k = 1) :
    ∃ ω ω' : Rng, (∀ n, ω n ≤ RAND_MAX) ∧
      keygen N ((Finset.univ.filter fun k => s k ≠ 0).card : Int) ω = pure (s, ω') :=
  keygen_reach RAND_MAX hN hR hs _ 0 (fun _ => 0) (fun k h => absurd rfl h) (by simp [weight])

variable {LOGQ N : Nat} [NeZero LOGQ]

/-- the stream that starts with the draws `t`, five for each limb of each coefficient, and goes on
with `ρ` -/
def maskStream {b : Nat} (t : Fin N → Fin (nlimb LOGQ) → Fin 5 → Fin b) (ρ : Rng) : Rng := fun n =>
  if h : n < 5 * nlimb LOGQ * N then
    (t ⟨n / (5 * nlimb LOGQ), Nat.div_lt_of_lt_mul h⟩
      ⟨n % (5 * nlimb LOGQ) / 5, Nat.div_lt_of_lt_mul (Nat.mod_lt _ (Nat.pos_of_ne_zero fun e => by
        rw [e] at h; simp at h))⟩
      ⟨n % 5, Nat.mod_lt _ (by norm_num)⟩).val
  else ρ (n - 5 * nlimb LOGQ * N)

theorem maskStream_block {b : Nat} (t : Fin N → Fin (nlimb LOGQ) → Fin 5 → Fin b) (ρ : Rng) (i : Fin N)
    (j : Fin (nlimb LOGQ)) (n : Nat) (hn : n < 5) :
    (maskStream t ρ).drop (5 * nlimb LOGQ * i + 5 * j) n = streamOf (t i j) n := by
  have hi := i.isLt
  have hj := j.isLt
  have hm : 5 * j.val + n < 5 * nlimb LOGQ := by omega
  have hlt : 5 * nlimb LOGQ * i + 5 * j + n < 5 * nlimb LOGQ * N := by
    calc 5 * nlimb LOGQ * i + 5 * j + n < 5 * nlimb LOGQ * i + 5 * nlimb LOGQ := by omega
      _ = 5 * nlimb LOGQ * (i + 1) := by ring
      _ ≤ _ := Nat.mul_le_mul_left _ hi
  have e1 : (5 * nlimb LOGQ * i + 5 * j + n) / (5 * nlimb LOGQ) = i := by
    rw [Nat.add_assoc, Nat.mul_add_div (by omega), Nat.div_eq_of_lt hm, Nat.add_zero]
  have e2 : (5 * nlimb LOGQ * i + 5 * j + n) % (5 * nlimb LOGQ) = 5 * j + n := by
    rw [Nat.add_assoc, Nat.mul_add_mod, Nat.mod_eq_of_lt hm]
  have e3 : (5 * nlimb LOGQ * i + 5 * j + n) % 5 = n := by
    rw [Nat.add_assoc, Nat.mul_assoc, Nat.mul_add_mod, Nat.mul_add_mod, Nat.mod_eq_of_lt hn]
  unfold Rng.drop maskStream streamOf
  rw [dif_pos hlt, dif_pos hn]
  simp only [e1, e2, e3]
  have e4 : (5 * j.val + n) / 5 = j := by omega
  simp only [e4]

theorem encMask_stream {R : Nat} (t : Fin N → Fin (nlimb LOGQ) → Fin 5 → Fin (R+1)) (ρ : Rng) (A0 : R_Q LOGQ N) :
    encMask R A0 (maskStream t ρ) =
      (fun i => remove_clutter ⟨fun j => (rand_uint64 R (streamOf (t i j))).1⟩, ρ) := by
  rw [encMask_eq]
  refine congrArg₂ Prod.mk (funext fun i => ?_) (funext fun n => ?_)
  · have h : (fun j : Fin (nlimb LOGQ) => (rand_uint64 R ((maskStream t ρ).drop (5 * nlimb LOGQ * i + 5 * j))).1) =
        fun j => (rand_uint64 R (streamOf (t i j))).1 :=
      funext fun j => (C41_five R _ _ fun n hn => maskStream_block t ρ i j n hn).2
    rw [h]
  · simp only [Rng.drop, maskStream]
    rw [dif_neg (by omega)]
    congr 1; omega

open Classical in
/-- C54: the mask of a ciphertext is uniform. With `RAND_MAX+1 = 2^k` and `k ≥ 13`, of the
`2^(5k·l·N)` possible values of the draws that `enc` makes for it (`l` limbs, five draws each) every
polynomial with canonical coefficients comes from the same number, whatever the ciphertext held
before and whatever follows. -/
theorem C54_mask_uniform (RAND_MAX k : Nat) (hR : RAND_MAX + 1 = 2^k) (hk : 13 ≤ k) (A0 : R_Q LOGQ N) (ρ : Rng)
    (a : R_Q LOGQ N) (ha : ∀ i, (a i).Canonical) :
    (Finset.univ.filter fun t : Fin N → Fin (nlimb LOGQ) → Fin 5 → Fin (RAND_MAX+1) =>
      (encMask RAND_MAX A0 (maskStream t ρ)).1 = a).card =
      (2^((5*k-64) * nlimb LOGQ + (64 * nlimb LOGQ - LOGQ)))^N := by
  -- one coefficient
  have h1 : ∀ b : Z_Q LOGQ, b.Canonical →
      (Finset.univ.filter fun u : Fin (nlimb LOGQ) → Fin 5 → Fin (RAND_MAX+1) =>
        remove_clutter (⟨fun j => (rand_uint64 RAND_MAX (streamOf (u j))).1⟩ : Z_Q LOGQ) = b).card =
      2^((5*k-64) * nlimb LOGQ + (64 * nlimb LOGQ - LOGQ)) := by
    intro b hb
    rw [card_comp_fibre (fun (u : Fin (nlimb LOGQ) → Fin 5 → Fin (RAND_MAX+1)) (j : Fin (nlimb LOGQ)) =>
      (rand_uint64 RAND_MAX (streamOf (u j))).1) ((2^(5*k-64))^nlimb LOGQ) (fun x => by
        have h := card_pi_fibre (ι := Fin (nlimb LOGQ))
          (fun t : Fin 5 → Fin (RAND_MAX+1) => (rand_uint64 RAND_MAX (streamOf t)).1) (2^(5*k-64))
          (fun w => C41_uniform RAND_MAX k hR hk w) x
        rw [Fintype.card_fin] at h
        exact h) (fun x => remove_clutter (⟨x⟩ : Z_Q LOGQ) = b), card_clutter b hb, ← pow_mul, ← pow_add]
  have h2 : (Finset.univ.filter fun t : Fin N → Fin (nlimb LOGQ) → Fin 5 → Fin (RAND_MAX+1) =>
      (encMask RAND_MAX A0 (maskStream t ρ)).1 = a) = Fintype.piFinset fun i => Finset.univ.filter
        fun u : Fin (nlimb LOGQ) → Fin 5 → Fin (RAND_MAX+1) =>
        remove_clutter (⟨fun j => (rand_uint64 RAND_MAX (streamOf (u j))).1⟩ : Z_Q LOGQ) = a i := by
    ext t
    simp only [Finset.mem_filter, Finset.mem_univ, true_and, Fintype.mem_piFinset, encMask_stream]
    exact ⟨fun h i => congrFun h i, fun h => funext h⟩
  rw [h2, Fintype.card_piFinset, Finset.prod_congr rfl (fun i _ => h1 (a i) (ha i)), Finset.prod_const,
    Finset.card_univ, Fintype.card_fin]

/-- C54: every mask together with every noise polynomial with coefficients between -8 and 8 occurs:
for suitable values of `rand()`, and any plaintext and ternary key, `enc` returns a ciphertext with
second component `a` that encrypts `pt + e`. -/
theorem C54_enc_all (RAND_MAX k : Nat) (hR : RAND_MAX + 1 = 2^k) (hk : 13 ≤ k) (hN : N ≤ 2^30)
    (a : R_Q LOGQ N) (ha : ∀ i, (a i).Canonical) (e : Fin N → Int) (he : ∀ i, |e i| ≤ 8) :
    ∃ ω : Rng, (∀ n, ω n ≤ RAND_MAX) ∧ ∀ (pt : R_Q LOGQ N) (s : Fin N → Int), (∀ k, s k = -1 ∨ s k = 0 ∨ s k = 1) →
      ∀ ct0 : R_Q_square LOGQ N, Ok (enc RAND_MAX pt s ct0 ω) fun r => r.1.2 = a ∧
        Ok (dec r.1 s) fun m => ∀ i, (m i).cls = (pt i).cls + (e i : ZMod (2^LOGQ)) := by
  have hk2 : 2^13 ≤ RAND_MAX + 1 := by rw [hR]; exact Nat.pow_le_pow_right (by norm_num) hk
  -- draws for the mask
  have hpos := C54_mask_uniform RAND_MAX k hR hk a (fun _ => 0) a ha
  have hne : 0 < (2^((5*k-64) * nlimb LOGQ + (64 * nlimb LOGQ - LOGQ)))^N := by positivity
  rw [← hpos, Finset.card_pos] at hne
  obtain ⟨t, ht⟩ := hne
  simp only [Finset.mem_filter, Finset.mem_univ, true_and] at ht
  rw [encMask_stream] at ht
  -- draws for the noise
  let ρ : Rng := fun n => if h : n / 2 < N then
    (if n % 2 = 0 then (e ⟨n / 2, h⟩).natAbs else if e ⟨n / 2, h⟩ < 0 then 1 else 0) else 0
  have hρ0 : ∀ i : Fin N, ρ (2 * i) = (e i).natAbs := fun i => by
    have h1 : (2 * i.val) / 2 = i := by omega
    simp only [ρ]
    rw [dif_pos (by omega), if_pos (by omega)]
    congr 2; exact Fin.ext h1
  have hρ1 : ∀ i : Fin N, ρ (2 * i + 1) = if e i < 0 then 1 else 0 := fun i => by
    have h1 : (2 * i.val + 1) / 2 = i := by omega
    simp only [ρ]
    rw [dif_pos (by omega), if_neg (by omega)]
    have h2 : (⟨(2 * i.val + 1) / 2, by omega⟩ : Fin N) = i := Fin.ext h1
    rw [h2]
  have hρ : ∀ n, ρ n ≤ RAND_MAX := fun n => by
    simp only [ρ]
    split
    · split
      · rename_i h _
        have := he ⟨n/2, h⟩
        rw [abs_le] at this
        omega
      · split <;> omega
    · omega
  refine ⟨maskStream t ρ, fun n => ?_, fun pt s hs ct0 => ?_⟩
  · unfold maskStream
    split
    · exact Nat.lt_succ_iff.1 (Fin.isLt _)
    · exact hρ _
  · unfold enc
    rw [encMask_stream]
    refine Ok.bind (convS_spec hN s _) fun p ⟨_, h⟩ => Ok.pure ⟨ht, ?_⟩
    refine Ok.mono (dec_spec hN hs _) fun m hm' i => ?_
    have hm := hm'.2
    rw [Ternary.tern hs] at h
    rw [phase_eq, R_Q.cls_sub, h, R_Q.copy_eq, R_Q.cls_add, sub_add_cancel] at hm
    have hmi := congrFun hm i
    have hn : ((encNoise ρ : R_Q LOGQ N × Rng).1 i).cls = (e i : ZMod (2^LOGQ)) := by
      rw [encNoise_eq]
      have h8 := abs_le.1 (he i)
      have hw : (BitVec.ofNat 64 ((e i).natAbs % 9)).toNat = (e i).natAbs := by
        rw [BitVec.toNat_ofNat]; omega
      simp only [hρ0, hρ1]
      by_cases hneg : e i < 0
      · simp only [hneg, if_true, Nat.one_mod]
        rw [cls_negate, cls_ofW, hw]
        rw [← Int.cast_natCast, ← Int.cast_neg]; congr 1; omega
      · simp only [hneg, if_false, Nat.zero_mod, Nat.zero_ne_one]
        rw [cls_ofW, hw]
        rw [← Int.cast_natCast]; congr 1; omega
    show R_Q.cls m i = _
    rw [hmi, Pi.add_apply]
    show ((encNoise ρ : R_Q LOGQ N × Rng).1 i).cls + (pt i).cls = _
    rw [hn, add_comm]

-- glibc, the ring dimension of the experiments, a modulus of two limbs
example : (2^17 : Nat) ≤ 2147483647 + 1 ∧ (2147483647 : Nat) + 1 = 2^31 ∧ 13 ≤ 31 ∧ 2^17 ≤ 2^30 ∧
    (Z_Q.ofNat 100 (2^99 + 12345)).Canonical ∧ ∀ i : Fin 2, |(fun _ => -8 : Fin 2 → Int) i| ≤ 8 := by
  refine ⟨by norm_num, by norm_num, by norm_num, by norm_num, ?_, by decide⟩
  unfold Z_Q.Canonical; rw [Z_Q.val_ofNat_of_lt (by norm_num)]; norm_num

end EvalRound

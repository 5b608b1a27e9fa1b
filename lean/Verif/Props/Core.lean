import Verif.Proofs.Core
import Verif.Proofs.Keygen

/-! # C19-C24: keys, encryption, key switching, multiplication, rescaling -/

set_option linter.unusedSectionVars false

namespace EvalRound
open Z_Q Finset

section
variable {N : Nat} [NeZero N]

/-- C19: whatever `keygen(h,s)` returns has exactly `h` nonzero entries, each 1 or -1. -/
theorem C19_keygen_weight (h : Int) (ω ω' : Rng) (s : Fin N → Int) (hr : keygen N h ω = pure (s, ω')) :
    (∀ k, s k = -1 ∨ s k = 0 ∨ s k = 1) ∧ (univ.filter fun k => s k ≠ 0).card = h.toNat := by
  unfold keygen forUp at hr
  obtain ⟨h1, h2⟩ := keygen_returns _ _ _ _ (fun _ => Or.inr (Or.inl rfl)) hr
  refine ⟨h1, h2.trans ?_⟩
  simp [weight]

/-- C19: with `h ≤ N` and a generator that keeps producing every residue modulo `N`, `keygen`
returns. -/
theorem C19_keygen_returns (h : Int) (hh : h ≤ N) (ω : Rng)
    (hω : ∀ (j : Fin N) (n : Nat), ∃ m, n ≤ m ∧ ω m % N = j) :
    Ok (keygen N h ω) fun r => (∀ k, r.1 k = -1 ∨ r.1 k = 0 ∨ r.1 k = 1) ∧
      (univ.filter fun k => r.1 k ≠ 0).card = h.toNat := by
  have h1 : Ok (keygen N h ω) fun _ => True :=
    keygen_terminates _ _ _ _ (by simp [weight]; omega) hω
  obtain ⟨r, e, -⟩ := h1
  exact ⟨r, e, C19_keygen_weight h ω r.2 r.1 e⟩

/-- C19: with `h > N` it never returns, whatever the generator does. -/
theorem C19_keygen_diverges (h : Int) (hh : N < h) (ω : Rng) : keygen N h ω = diverge :=
  keygen_diverges _ _ _ _ (by simp [weight]; omega)

-- counting modulo N keeps producing every residue
example : ∀ (j : Fin 8) (n : Nat), ∃ m, n ≤ m ∧ (fun i => i : Rng) m % 8 = j := fun j n =>
  ⟨8 * n + j, by omega, by simp only []; omega⟩

end

variable {LOGQ N : Nat} [NeZero LOGQ]

/-- C20: decrypting an encryption gives the plaintext plus an error of at most 8 per coefficient,
whatever `rand()` returns and whatever `ct` held before. -/
theorem C20_dec_enc (RAND_MAX : Nat) (hN : N ≤ 2^30) (s : Fin N → Int)
    (hs : ∀ k, s k = -1 ∨ s k = 0 ∨ s k = 1) (pt : R_Q LOGQ N) (ct0 : R_Q_square LOGQ N) (ω : Rng) :
    Ok (do let r ← enc RAND_MAX pt s ct0 ω
           dec r.1 s) fun m => ∀ i, (m i).Canonical ∧
      ∃ e : Int, |e| ≤ 8 ∧ (m i).cls = (pt i).cls + (e : ZMod (2^LOGQ)) := by
  refine Ok.bind (enc_spec RAND_MAX hN hs pt ct0 ω) fun r ⟨_, e, he, h⟩ => ?_
  refine Ok.mono (dec_spec hN hs r.1) fun m ⟨hm, h2⟩ i => ⟨hm i, e i, he i, ?_⟩
  exact (congrFun h2 i).trans (congrFun h i)

/-- C20: so the signed coefficients come back within 8 when they are that far from the ends. -/
theorem C20_dec_enc_signed (RAND_MAX : Nat) (hN : N ≤ 2^30) (s : Fin N → Int)
    (hs : ∀ k, s k = -1 ∨ s k = 0 ∨ s k = 1) (pt : R_Q LOGQ N) (ct0 : R_Q_square LOGQ N) (ω : Rng)
    (hpt : ∀ i, |(pt i).sval| + 8 < 2^(LOGQ-1)) :
    Ok (do let r ← enc RAND_MAX pt s ct0 ω
           dec r.1 s) fun m => ∀ i, |(m i).sval - (pt i).sval| ≤ 8 := by
  refine Ok.mono (C20_dec_enc RAND_MAX hN s hs pt ct0 ω) fun m h i => ?_
  obtain ⟨-, e, he, h⟩ := h i
  have h1 := abs_lt.1 (lt_of_le_of_lt (le_add_of_nonneg_right (by norm_num : (0:Int) ≤ 8)) (hpt i))
  have h2 := hpt i
  have h3 := abs_le.1 he
  have h4 := abs_le.1 (le_refl |(pt i).sval|)
  have : (m i).sval = (pt i).sval + e := by
    apply sval_eq_of_cls
    · rw [h]; push_cast; rw [sval_cls]
    · omega
    · omega
  rw [this]; simpa using he

-- a plaintext and a key satisfying the hypotheses
example : ∀ i : Fin 2, |((fun _ => Z_Q.ofNat 10 1000 : R_Q 10 2) i).sval| + 8 < 2^(10-1) := by
  decide

/-- C21: switching from the integer key `s_fr` to the ternary key `s_to` keeps the message up to
`8N + (h+1)/2`, `h` the weight of `s_to`. -/
theorem C21_ks (RAND_MAX : Nat) (k : Nat) (hk1 : 1 ≤ k) (hk : k ≤ 17)
    (hQ : 2 * LOGQ ≤ 60 ∨ 65 ≤ 2 * LOGQ ∧ 2 * LOGQ ≤ 3051) (s_fr s_to : Fin (2^k) → Int)
    (hf : ∀ i, -2^31 < s_fr i ∧ s_fr i < 2^31) (hs : ∀ k, s_to k = -1 ∨ s_to k = 0 ∨ s_to k = 1)
    (swk0 : R_Q_square (2 * LOGQ) (2^k)) (ct : R_Q_square LOGQ (2^k)) (hct : ct.Canonical) (ω : Rng) :
    Ok (do let r ← swkgen RAND_MAX s_fr s_to swk0 ω
           let ct' ← ks r.1 ct
           dec ct' s_to) fun m => ∀ i, (m i).Canonical ∧
      ∃ e : Int, 2 * |e| ≤ 16 * 2^k + ((univ.filter fun k => s_to k ≠ 0).card + 1) ∧
        (m i).cls = (ct.1 i).cls + negconv (fun j => (s_fr j : ZMod (2^LOGQ))) (fun j => (ct.2 j).cls) i + e := by
  have hN : 2^k ≤ 2^30 := Nat.pow_le_pow_right (by norm_num) (by omega)
  refine Ok.bind (swkgen_spec RAND_MAX hN hf hs swk0 ω) fun r ⟨hr, e, he, hph⟩ => ?_
  refine Ok.bind (ks_spec hQ hk1 hk hr he hph hct) fun y ⟨_, E, hE, hyp⟩ => ?_
  refine Ok.mono (dec_spec hN hs y) fun m ⟨hm, h2⟩ i => ⟨hm i, E i, ?_, ?_⟩
  · have h3 := hE i
    have h4 := Ternary.sum_abs hs
    unfold weight at h4
    rw [h4] at h3
    push_cast at h3 ⊢; linarith
  · exact (congrFun h2 i).trans (congrFun hyp i)

/-- C21: for a ternary `s_fr` that is the decryption of `ct` under `s_fr`. -/
theorem C21_ks_dec (RAND_MAX : Nat) (k : Nat) (hk1 : 1 ≤ k) (hk : k ≤ 17)
    (hQ : 2 * LOGQ ≤ 60 ∨ 65 ≤ 2 * LOGQ ∧ 2 * LOGQ ≤ 3051) (s_fr s_to : Fin (2^k) → Int)
    (hf : ∀ k, s_fr k = -1 ∨ s_fr k = 0 ∨ s_fr k = 1) (hs : ∀ k, s_to k = -1 ∨ s_to k = 0 ∨ s_to k = 1)
    (swk0 : R_Q_square (2 * LOGQ) (2^k)) (ct : R_Q_square LOGQ (2^k)) (hct : ct.Canonical) (ω : Rng) :
    Ok (do let r ← swkgen RAND_MAX s_fr s_to swk0 ω
           let ct' ← ks r.1 ct
           let m' ← dec ct' s_to
           let m ← dec ct s_fr
           pure (m', m)) fun p => ∀ i,
      ∃ e : Int, 2 * |e| ≤ 16 * 2^k + ((univ.filter fun k => s_to k ≠ 0).card + 1) ∧
        (p.1 i).cls = (p.2 i).cls + e := by
  have hN : 2^k ≤ 2^30 := Nat.pow_le_pow_right (by norm_num) (by omega)
  have h1 := C21_ks RAND_MAX k hk1 hk hQ s_fr s_to (fun i => by rcases hf i with h | h | h <;> omega) hs
    swk0 ct hct ω
  simp only [← bind_assoc] at h1 ⊢
  refine Ok.bind h1 fun m' hm' => ?_
  refine Ok.bind (dec_spec hN hf ct) fun m ⟨_, h2⟩ => Ok.pure fun i => ?_
  obtain ⟨-, e, he, h3⟩ := hm' i
  exact ⟨e, he, h3.trans (congrArg (· + (e : ZMod (2^LOGQ))) (congrFun h2 i).symm)⟩

-- the moduli and keys used by the repository's tests satisfy the hypotheses
example : 2 * 1200 ≤ 60 ∨ 65 ≤ 2 * 1200 ∧ 2 * 1200 ≤ 3051 := by omega

/-- C22: `Mul` with an evaluation key from `s*s` (computed by the `int` overload of `conv`) to `s`
decrypts to the product of the decryptions up to `4N + (h+1)/2`. -/
theorem C22_Mul (RAND_MAX : Nat) (k : Nat) (hk1 : 1 ≤ k) (hk : k ≤ 17)
    (hQ : LOGQ ≤ 60 ∨ 65 ≤ LOGQ) (hQ2 : 2 * LOGQ ≤ 60 ∨ 65 ≤ 2 * LOGQ ∧ 2 * LOGQ ≤ 3051)
    (s : Fin (2^k) → Int) (hs : ∀ k, s k = -1 ∨ s k = 0 ∨ s k = 1)
    (evk0 : R_Q_square (2 * LOGQ) (2^k)) (ct1 ct2 ct3 : R_Q_square LOGQ (2^k))
    (h1 : ct1.Canonical) (h2 : ct2.Canonical) (ω : Rng) :
    Ok (do let ss ← convI s s
           let r ← swkgen RAND_MAX ss s evk0 ω
           let ct3 ← Mul ct1 ct2 r.1 ct3
           let m3 ← dec ct3 s
           let m1 ← dec ct1 s
           let m2 ← dec ct2 s
           pure (m1, m2, m3)) fun p => ∀ i, (p.2.2 i).Canonical ∧
      ∃ e : Int, 2 * |e| ≤ 8 * 2^k + ((univ.filter fun k => s k ≠ 0).card + 1) ∧
        (p.2.2 i).cls = negconv (fun j => (p.1 j).cls) (fun j => (p.2.1 j).cls) i + e := by
  have hN : 2^k ≤ 2^30 := Nat.pow_le_pow_right (by norm_num) (by omega)
  have hN17 : 2^k ≤ 2^17 := Nat.pow_le_pow_right (by norm_num) (by omega)
  have ht : Ternary s := hs
  rw [convI_spec hN s s ht.abs_le ht.abs_le, pure_bind]
  have hb : ∀ i, -2^31 < negconv s s i ∧ negconv s s i < 2^31 := by
    intro i
    have h3 := negconv_abs_le' s s (A := 1) (B := 1) ht.abs_le (by norm_num) ht.abs_le i
    have h4 : ((2^k : Nat) : Int) ≤ 2^17 := by exact_mod_cast hN17
    have h5 := abs_le.1 h3
    constructor <;> omega
  refine Ok.bind (swkgen_spec RAND_MAX hN hb ht evk0 ω) fun r ⟨hr, e, he, hph⟩ => ?_
  refine Ok.bind (Mul_spec (by unfold ConvLOGQ; omega) hQ2 hk1 hk hr (red_negconv s s) he hph h1 h2 ct3)
    fun y ⟨_, E, hE, hyp⟩ => ?_
  refine Ok.bind (dec_spec hN ht y) fun m3 ⟨hm3, e3⟩ => ?_
  refine Ok.bind (dec_spec hN ht ct1) fun m1 ⟨_, e1⟩ => ?_
  refine Ok.bind (dec_spec hN ht ct2) fun m2 ⟨_, e2⟩ => Ok.pure fun i => ⟨hm3 i, E i, ?_, ?_⟩
  · have h3 := hE i
    have h4 := Ternary.sum_abs ht
    unfold weight at h4
    rw [h4] at h3
    push_cast at h3 ⊢; linarith
  · have := congrFun (e3.trans hyp) i
    rw [← e1, ← e2] at this
    exact this

/-- C23: rescaling rounds: `2^(fr-to) * dec(RS(ct))` is `dec(ct)` up to `2^(fr-to-1) * (h+1)`. -/
theorem C23_RS {LF LT : Nat} [NeZero LF] [NeZero LT] (h : LT ≤ LF) (hN : N ≤ 2^30)
    (s : Fin N → Int) (hs : ∀ k, s k = -1 ∨ s k = 0 ∨ s k = 1)
    (ct : R_Q_square LF N) (hct : ct.Canonical) (ct0 : R_Q_square LT N) :
    Ok (do let ct' ← RS ct ct0
           let m' ← dec ct' s
           let m ← dec ct s
           pure (m', m)) fun p => ∀ i, (p.1 i).Canonical ∧
      ∃ e : Int, 2 * |e| ≤ 2^(LF-LT) * ((univ.filter fun k => s k ≠ 0).card + 1) ∧
        ((2^(LF-LT) * (p.1 i).val : Int) : ZMod (2^LF)) = (p.2 i).cls + e := by
  refine Ok.bind (RS_phase h ct hct ct0 s) fun y ⟨_, hy⟩ => ?_
  refine Ok.bind (dec_spec hN hs y) fun m' ⟨hm', e'⟩ => ?_
  refine Ok.bind (dec_spec hN hs ct) fun m ⟨_, e⟩ => Ok.pure fun i => ?_
  obtain ⟨E, hE, h2⟩ := hy (fun i => ((m' i).val : Int)) (by rw [← R_Q_cls_val, e'])
  refine ⟨hm' i, E i, ?_, ?_⟩
  · have h4 := Ternary.sum_abs hs
    unfold weight at h4
    rw [← h4]; exact hE i
  · have := congrFun h2 i
    rw [← e] at this
    exact this

/-- C23: raising the modulus by `RS` is undefined. -/
theorem C23_RS_up {LF LT : Nat} [NeZero LF] [NeZero LT] [NeZero N] (h : LF < LT)
    (ct : R_Q_square LF N) (ct0 : R_Q_square LT N) : RS ct ct0 = ub := by
  have key : ∀ n, n ≠ 0 → n ≤ N → tabM n (fun i => do
      let x ← rd ct.1 i
      let x0 ← rd ct0.1 i
      let a ← shift_right x x0
      let y ← rd ct.2 i
      let y0 ← rd ct0.2 i
      let b ← shift_right y y0
      pure (a, b)) = ub := by
    intro n hn hle
    induction n with
    | zero => exact absurd rfl hn
    | succ n ih =>
      unfold tabM
      rcases Nat.eq_zero_or_pos n with h0 | h0
      · subst h0
        unfold tabM
        rw [pure_bind]
        simp only []
        rw [rd_of_lt _ (by omega), pure_bind, rd_of_lt _ (by omega), pure_bind]
        unfold shift_right
        rw [if_neg (by omega), if_pos h]; rfl
      · rw [ih (by omega) (by omega)]; rfl
  unfold RS
  rw [key N (NeZero.ne N) le_rfl]; rfl

example : ∃ ct : R_Q_square 10 2, ct.Canonical ∧ (4:Nat) ≤ 10 :=
  ⟨(fun _ => Z_Q.ofNat 10 1000, fun _ => Z_Q.ofNat 10 7), by
    refine ⟨⟨fun i => ?_, fun i => ?_⟩, by norm_num⟩ <;> (unfold Canonical; rw [val_ofNat_of_lt (by norm_num)]; norm_num)⟩

/-- C24: addition of ciphertexts commutes with decryption. -/
theorem C24_add (hN : N ≤ 2^30) (s : Fin N → Int) (hs : ∀ k, s k = -1 ∨ s k = 0 ∨ s k = 1)
    (x y : R_Q_square LOGQ N) :
    dec (R_Q_square.add x y) s = (do
      let a ← dec x s
      let b ← dec y s
      pure (R_Q.add a b)) := by
  refine eq_of_cls (dec_spec hN hs _) (Ok.bind (dec_spec hN hs x) fun a ⟨_, ha⟩ =>
    Ok.bind (dec_spec hN hs y) fun b ⟨_, hb⟩ => Ok.pure ⟨R_Q.canonical_add _ _, ?_⟩)
  rw [R_Q.cls_add, ha, hb, phase_add]

/-- C24: subtraction of ciphertexts commutes with decryption. -/
theorem C24_sub (hN : N ≤ 2^30) (s : Fin N → Int) (hs : ∀ k, s k = -1 ∨ s k = 0 ∨ s k = 1)
    (x y : R_Q_square LOGQ N) :
    dec (R_Q_square.sub x y) s = (do
      let a ← dec x s
      let b ← dec y s
      pure (R_Q.sub a b)) := by
  refine eq_of_cls (dec_spec hN hs _) (Ok.bind (dec_spec hN hs x) fun a ⟨_, ha⟩ =>
    Ok.bind (dec_spec hN hs y) fun b ⟨_, hb⟩ => Ok.pure ⟨R_Q.canonical_sub _ _, ?_⟩)
  rw [R_Q.cls_sub, ha, hb, phase_sub]

/-- C24: multiplication of a ciphertext by a word commutes with decryption. -/
theorem C24_mulW (hN : N ≤ 2^30) (s : Fin N → Int) (hs : ∀ k, s k = -1 ∨ s k = 0 ∨ s k = 1)
    (x : R_Q_square LOGQ N) (a : W) :
    dec (R_Q_square.mulW x a) s = (do
      let m ← dec x s
      pure (R_Q.mulW m a)) := by
  refine eq_of_cls (dec_spec hN hs _) (Ok.bind (dec_spec hN hs x) fun m ⟨_, hm⟩ =>
    Ok.pure ⟨R_Q.canonical_mulW _ _, ?_⟩)
  rw [R_Q.cls_mulW, hm, phase_mulW]

/-- C24: multiplication of a ciphertext by a plaintext commutes with decryption. -/
theorem C24_mulR (k : Nat) (hk1 : 1 ≤ k) (hk : k ≤ 17) (hQ : LOGQ ≤ 60 ∨ 65 ≤ LOGQ ∧ LOGQ ≤ 3051)
    (s : Fin (2^k) → Int) (hs : ∀ k, s k = -1 ∨ s k = 0 ∨ s k = 1)
    (x : R_Q_square LOGQ (2^k)) (hx : x.Canonical) (B : R_Q LOGQ (2^k)) (hB : R_Q.Canonical B) :
    (do let y ← R_Q_square.mulR x B
        dec y s) = (do
      let m ← dec x s
      conv m B) := by
  have hN : 2^k ≤ 2^30 := Nat.pow_le_pow_right (by norm_num) (by omega)
  refine eq_of_cls (c := negconv (R_Q_square.phase s x) (R_Q.cls B))
    (Ok.bind (mulR_phase hQ hk1 hk hx hB s) fun y ⟨_, hy⟩ =>
      Ok.mono (dec_spec hN hs y) fun m ⟨h1, h2⟩ => ⟨h1, h2.trans hy⟩)
    (Ok.bind (dec_spec hN hs x) fun m ⟨hm, h2⟩ => Ok.mono (conv_spec hQ hk1 hk hm hB) fun r ⟨h3, h4⟩ =>
      ⟨h3, by rw [h4, h2]⟩)

end EvalRound

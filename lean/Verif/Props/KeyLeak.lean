import Verif.Props.Parity

/-!
# C111: what one decryption shows of the key

`dec` returns `ct[0] + s·ct[1]` with all its noise. If `ct[1]` is invertible, which is the case for half of all masks, the key
follows from the ciphertext and the polynomial that `dec` returned.
-/

namespace EvalRound
open Finset Z_Q

section
variable {LOGQ j : Nat} [NeZero LOGQ]

theorem red_sval (a : R_Q LOGQ (2^j)) : red LOGQ (fun i => (a i).sval) = R_Q.cls a := funext fun i => sval_cls (a i)

/-- C111: two keys under which a ciphertext decrypts to the same polynomial are equal, if the coefficients of its second component have an odd sum. -/
theorem C111_unique (hL : 2 ≤ LOGQ) (hN : 2^j ≤ 2^30) (ct : R_Q_square LOGQ (2^j)) (hodd : (∑ i, (ct.2 i).sval) % 2 = 1) (s s' : Fin (2^j) → Int)
    (hs : ∀ k, s k = -1 ∨ s k = 0 ∨ s k = 1) (hs' : ∀ k, s' k = -1 ∨ s' k = 0 ∨ s' k = 1) (h : dec ct s = dec ct s') : s = s' := by
  obtain ⟨m, hm, -, h1⟩ := dec_spec hN hs ct
  obtain ⟨m', hm', -, h2⟩ := dec_spec hN hs' ct
  obtain rfl := pure_inj (hm.symm.trans (h.trans hm'))
  rw [phase_eq] at h1 h2
  have h3 := add_left_cancel (h1.symm.trans h2)
  rw [negconv_comm, negconv_comm (red LOGQ s'), ← red_sval] at h3
  have h4 := (negconv_bij (LOGQ := LOGQ) hodd).1 h3
  funext i
  have h5 : ((s i : Int) : ZMod (2^LOGQ)) = ((s' i : Int) : ZMod (2^LOGQ)) := congrFun h4 i
  rw [ZMod.intCast_eq_intCast_iff_dvd_sub] at h5
  have h6 : (4:Int) ∣ s' i - s i := Dvd.dvd.trans (by
    have : (2^2 : Int) ∣ 2^LOGQ := pow_dvd_pow 2 hL
    simpa using this) h5
  rcases hs i with e | e | e <;> rcases hs' i with e' | e' | e' <;> rw [e, e'] at h6 ⊢ <;> revert h6 <;> decide

/-- C111: the key by the functions of the library. There is a polynomial `b`, which depends on `ct[1]` alone, such that for every key `s`
`m -= ct[0]; conv(m,b,k)` turns what `dec` returned into the key. -/
theorem C111_key (hL : 2 ≤ LOGQ) (hQ : LOGQ ≤ 60 ∨ 65 ≤ LOGQ ∧ LOGQ ≤ 3051) (hj1 : 1 ≤ j) (hj : j ≤ 17) (a : R_Q LOGQ (2^j)) (hodd : (∑ i, (a i).sval) % 2 = 1) :
    ∃ b : R_Q LOGQ (2^j), R_Q.Canonical b ∧ ∀ (c : R_Q LOGQ (2^j)) (s : Fin (2^j) → Int), (∀ k, s k = -1 ∨ s k = 0 ∨ s k = 1) →
      Ok (do let m ← dec (c, a) s
             conv (R_Q.sub m c) b) fun k => ∀ i, (k i).sval = s i := by
  have hN : 2^j ≤ 2^30 := Nat.pow_le_pow_right (by norm_num) (by omega)
  obtain ⟨v, hv⟩ := (negconv_bij (LOGQ := LOGQ) hodd).2 (fun i => if i.val = 0 then 1 else 0)
  obtain ⟨b, hb, hbv⟩ := exists_canonical_cls v
  refine ⟨b, hb, fun c s hs => ?_⟩
  refine Ok.bind (dec_spec hN hs (c, a)) fun m ⟨hm, hmp⟩ => ?_
  refine Ok.mono (conv_spec hQ hj1 hj (R_Q.canonical_sub m c) hb) fun k ⟨_, hk⟩ i => ?_
  rw [phase_eq] at hmp
  have e : R_Q.cls (R_Q.sub m c) = negconv (red LOGQ s) (R_Q.cls a) := by
    rw [R_Q.cls_sub, hmp]
    exact add_sub_cancel_left _ _
  simp only [red_sval] at hv
  rw [e, hbv, negconv_assoc, hv] at hk
  have hp : (2:Int)^1 ≤ 2^(LOGQ-1) := pow_le_pow_right₀ (by norm_num) (by omega)
  refine sval_eq_of_cls ((congrFun hk i).trans (negconv_one_right _ i)) ?_ ?_ <;> rcases hs i with h | h | h <;> rw [h] <;> omega

open Classical in
/-- C111: exactly half of all draws of the mask give a ciphertext with an odd sum, whatever the rest. -/
theorem C111_half (RAND_MAX k : Nat) (hR : RAND_MAX + 1 = 2^k) (hk : 13 ≤ k) (hN : 2^j ≤ 2^30) (pt : R_Q LOGQ (2^j)) (s : Fin (2^j) → Int)
    (hs : ∀ k, s k = -1 ∨ s k = 0 ∨ s k = 1) (ct0 : R_Q_square LOGQ (2^j)) (u : Fin (2^j) → Fin 2 → Fin (RAND_MAX+1)) (ρ : Rng) :
    2 * (univ.filter fun t : Fin (2^j) → Fin (nlimb LOGQ) → Fin 5 → Fin (RAND_MAX+1) =>
      Ok (enc RAND_MAX pt s ct0 (maskStream t (noiseStream u ρ))) fun r => (∑ i, (r.1.2 i).sval) % 2 = 1).card =
      (RAND_MAX+1)^(5 * nlimb LOGQ * 2^j) := by
  have : NeZero (2^LOGQ) := ⟨by positivity⟩
  let f : (Fin (2^j) → Fin (nlimb LOGQ) → Fin 5 → Fin (RAND_MAX+1)) → Fin (2^j) → ZMod (2^LOGQ) := fun t =>
    R_Q.cls (encMask RAND_MAX ct0.2 (maskStream t ρ)).1
  let P : (Fin (2^j) → ZMod (2^LOGQ)) → Prop := fun v => mod2 LOGQ (∑ i, v i) = 1
  have hf : ∀ v, (univ.filter fun t => f t = v).card = (2^((5*k-64) * nlimb LOGQ + (64 * nlimb LOGQ - LOGQ)))^(2^j) := fun v => by
    obtain ⟨a, ha, hav⟩ := exists_canonical_cls v
    rw [← C54_mask_uniform RAND_MAX k hR hk ct0.2 ρ a ha]
    congr 1
    refine filter_congr fun t _ => ⟨fun h => R_Q.ext_cls (encMask_canonical _ _ _) ha (h.trans hav.symm), fun h => ?_⟩
    show R_Q.cls _ = v
    rw [h, hav]
  have hcount : ∀ S : Finset (Fin (2^j) → ZMod (2^LOGQ)), (univ.filter fun t => f t ∈ S).card =
      S.card * (2^((5*k-64) * nlimb LOGQ + (64 * nlimb LOGQ - LOGQ)))^(2^j) := fun S => by
    rw [card_eq_sum_card_fiberwise (f := f) (t := S) (fun t ht => by simpa using ht), ← smul_eq_mul, ← sum_const]
    refine sum_congr rfl fun v hv => ?_
    rw [← hf v, filter_filter]
    congr 1
    refine filter_congr fun t _ => ⟨fun h => h.2, fun h => ⟨by rw [h]; exact hv, h⟩⟩
  have hz : 0 < 2^j := by positivity
  have hhalf : (univ.filter fun v => P v).card = (univ.filter fun v => ¬ P v).card := by
    have hs1 : ∀ v : Fin (2^j) → ZMod (2^LOGQ), mod2 LOGQ (∑ i, (v + (Pi.single ⟨0, hz⟩ 1 : Fin (2^j) → ZMod (2^LOGQ))) i) = mod2 LOGQ (∑ i, v i) + 1 := fun v => by
      have h1 : ∑ i, (Pi.single ⟨0, hz⟩ 1 : Fin (2^j) → ZMod (2^LOGQ)) i = 1 := by
        rw [Finset.sum_pi_single', if_pos (mem_univ _)]
      simp only [Pi.add_apply, sum_add_distrib, map_add, h1, map_one]
    have h2 : ∀ x : ZMod 2, x = 1 ↔ ¬ x + 1 = 1 := by decide
    refine card_bij (fun v _ => v + (Pi.single ⟨0, hz⟩ 1 : Fin (2^j) → ZMod (2^LOGQ))) (fun v hv => ?_) (fun v _ w _ h => add_right_cancel h) fun w hw => ?_
    · simp only [mem_filter, mem_univ, true_and, P] at hv ⊢
      rw [hs1]; exact (h2 _).1 hv
    · refine ⟨w - Pi.single ⟨0, hz⟩ 1, ?_, sub_add_cancel _ _⟩
      simp only [mem_filter, mem_univ, true_and, P] at hw ⊢
      rw [← sub_add_cancel w (Pi.single ⟨0, hz⟩ 1), hs1] at hw
      exact (h2 _).2 hw
  have e1 : (univ.filter fun t : Fin (2^j) → Fin (nlimb LOGQ) → Fin 5 → Fin (RAND_MAX+1) =>
      Ok (enc RAND_MAX pt s ct0 (maskStream t (noiseStream u ρ))) fun r => (∑ i, (r.1.2 i).sval) % 2 = 1) =
      univ.filter fun t => f t ∈ univ.filter fun v => P v := by
    refine filter_congr fun t _ => ?_
    obtain ⟨r, hr, h1, h2, h3⟩ := enc_first hN t u ρ pt s hs ct0
    have hP : (∑ i, (r.1.2 i).sval) % 2 = 1 ↔ P (f t) := by
      have : mod2 LOGQ (∑ i, f t i) = ((∑ i, (r.1.2 i).sval : Int) : ZMod 2) := by
        rw [map_sum, Int.cast_sum]
        refine sum_congr rfl fun i _ => ?_
        show mod2 LOGQ (R_Q.cls (encMask RAND_MAX ct0.2 (maskStream t ρ)).1 i) = _
        rw [← h2]
        exact mod2_cls _
      show _ ↔ mod2 LOGQ (∑ i, f t i) = 1
      have h4 := ZMod.intCast_eq_intCast_iff' (∑ i, (r.1.2 i).sval) 1 2
      rw [this, ← Int.cast_one (R := ZMod 2), h4]
      norm_num
    simp only [mem_filter, mem_univ, true_and]
    rw [← hP]
    constructor
    · rintro ⟨r', hr', h'⟩
      obtain rfl := pure_inj (hr.symm.trans hr')
      exact h'
    · exact fun h' => ⟨r, hr, h'⟩
  have hall := hcount univ
  rw [filter_true_of_mem (fun _ _ => mem_univ _)] at hall
  have hc : (univ : Finset (Fin (2^j) → Fin (nlimb LOGQ) → Fin 5 → Fin (RAND_MAX+1))).card = (RAND_MAX+1)^(5 * nlimb LOGQ * 2^j) := by
    rw [card_univ]
    simp only [Fintype.card_pi, Fintype.card_fin, prod_const, card_univ]
    rw [← pow_mul, ← pow_mul, Nat.mul_assoc]
  rw [e1, hcount, ← hc, hall]
  have hsplit := card_filter_add_card_filter_not (s := (univ : Finset (Fin (2^j) → ZMod (2^LOGQ)))) P
  rw [← hsplit, ← hhalf]
  ring

open Classical in
/-- C111: for at least half of all draws of the mask, the ciphertext that `enc` returns and its decryption determine the key. -/
theorem C111_fresh (RAND_MAX k : Nat) (hR : RAND_MAX + 1 = 2^k) (hk : 13 ≤ k) (hL : 2 ≤ LOGQ) (hN : 2^j ≤ 2^30) (pt : R_Q LOGQ (2^j))
    (s : Fin (2^j) → Int) (hs : ∀ k, s k = -1 ∨ s k = 0 ∨ s k = 1) (ct0 : R_Q_square LOGQ (2^j))
    (u : Fin (2^j) → Fin 2 → Fin (RAND_MAX+1)) (ρ : Rng) :
    (RAND_MAX+1)^(5 * nlimb LOGQ * 2^j) ≤ 2 * (univ.filter fun t : Fin (2^j) → Fin (nlimb LOGQ) → Fin 5 → Fin (RAND_MAX+1) =>
      Ok (enc RAND_MAX pt s ct0 (maskStream t (noiseStream u ρ))) fun r =>
        ∀ s' : Fin (2^j) → Int, (∀ k, s' k = -1 ∨ s' k = 0 ∨ s' k = 1) → dec r.1 s' = dec r.1 s → s' = s).card := by
  rw [← C111_half RAND_MAX k hR hk hN pt s hs ct0 u ρ]
  refine Nat.mul_le_mul_left 2 (card_le_card fun t ht => ?_)
  simp only [mem_filter, mem_univ, true_and] at ht ⊢
  exact Ok.mono ht fun r hr s' hs' h => C111_unique hL hN r.1 hr s' s hs' hs h

/-- C111, for contrast: with `ct[1] = 0` the decryption is the same under every key. -/
theorem C111_zero (hN : 2^j ≤ 2^30) (c : R_Q LOGQ (2^j)) (s s' : Fin (2^j) → Int)
    (hs : ∀ k, s k = -1 ∨ s k = 0 ∨ s k = 1) (hs' : ∀ k, s' k = -1 ∨ s' k = 0 ∨ s' k = 1) :
    dec (c, fun _ => setzero) s = dec (c, fun _ => setzero) s' := by
  obtain ⟨m, hm, hc, h1⟩ := dec_spec hN hs (c, fun _ => setzero)
  obtain ⟨m', hm', hc', h2⟩ := dec_spec hN hs' (c, fun _ => setzero)
  rw [hm, hm', R_Q.ext_cls hc hc']
  have hz : R_Q.cls (fun _ => setzero : R_Q LOGQ (2^j)) = red LOGQ (fun _ => 0) := funext fun i => by
    show cls setzero = ((0:Int) : ZMod (2^LOGQ))
    rw [cls_setzero, Int.cast_zero]
  have h0 : ∀ x : Fin (2^j) → ZMod (2^LOGQ), negconv x (red LOGQ fun _ => 0) = 0 := fun x => funext fun i => by
    unfold negconv red
    simp
  rw [h1, h2, phase_eq, phase_eq]
  simp only [hz, h0]

end

/-! ## cases that meet the hypotheses -/

/-- the polynomial 1 as `ct[1]` -/
def oneMask : R_Q 100 (2^2) := fun i => if i.val = 0 then ofNat 100 1 else setzero

/-- it has an odd sum -/
theorem oneMask_odd : (∑ i, (oneMask i).sval) % 2 = 1 := by
  have h1 : (ofNat 100 1).sval = 1 := by
    have hv : (ofNat 100 1).val = 1 := val_ofNat_of_lt (by norm_num)
    rw [sval_canonical (by unfold Z_Q.Canonical; rw [hv]; norm_num), hv]; norm_num
  have h0 : (setzero : Z_Q 100).sval = 0 := sval_eq_of_cls (by rw [Int.cast_zero]; exact cls_setzero) (by norm_num) (by norm_num)
  unfold oneMask
  rw [show (2^2 : Nat) = 4 from rfl, Fin.sum_univ_four]
  simp [h1, h0]

/-- so the decryptions under two different keys differ -/
example (c : R_Q 100 (2^2)) : dec (c, oneMask) ![1, 0, -1, 0] ≠ dec (c, oneMask) ![1, 0, 1, 0] := fun h => by
  have e := C111_unique (by norm_num) (by norm_num) (c, oneMask) oneMask_odd ![1, 0, -1, 0] ![1, 0, 1, 0] (by decide) (by decide) h
  have e2 := congrFun e (2 : Fin 4)
  revert e2
  decide

example := C111_key (LOGQ := 100) (j := 2) (by norm_num) (by norm_num) (by norm_num) (by norm_num) oneMask oneMask_odd

open Classical in
/-- the numbers for `RAND_MAX = 2^15 - 1` and four coefficients of two limbs -/
example (pt : R_Q 100 (2^2)) (ct0 : R_Q_square 100 (2^2)) (u : Fin (2^2) → Fin 2 → Fin (32767+1)) (ρ : Rng) :
    2 * (univ.filter fun t : Fin (2^2) → Fin (nlimb 100) → Fin 5 → Fin (32767+1) =>
      Ok (enc 32767 pt ![1, 0, -1, 0] ct0 (maskStream t (noiseStream u ρ))) fun r => (∑ i, (r.1.2 i).sval) % 2 = 1).card = 32768^40 := by
  rw [C111_half 32767 15 (by norm_num) (by norm_num) (by norm_num) pt ![1, 0, -1, 0] (by decide) ct0 u ρ]
  norm_num [nlimb]

end EvalRound

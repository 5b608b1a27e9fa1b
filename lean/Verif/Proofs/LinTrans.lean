import Verif.Spec.LinTrans
import Verif.Proofs.Slots

/-! # Proofs about linear transforms -/

set_option linter.unusedSectionVars false

namespace EvalRound
open Z_Q Finset

variable {LOGQ k S : Nat} [NeZero LOGQ]

theorem red_zero {N : Nat} : red LOGQ (0 : Fin N → Int) = 0 := by
  funext i; simp [red]

/-- `ct_rot` holds the rotated message up to the key switching error. -/
theorem ltRot_spec (R : Nat) (h2 : ConvLOGQ (2 * LOGQ)) (hk1 : 1 ≤ k) (hk : k ≤ 17) {s : Fin (2^k) → Int}
    (hs : Ternary s) {ct : R_Q_square LOGQ (2^k)} (hct : ct.Canonical) (off : Int) {m : Fin (2^k) → Int}
    (hm : R_Q_square.phase s ct = red LOGQ m) (ω : Rng) :
    Ok (ltRot R ct off s ω) fun r => r.1.Canonical ∧ ∃ E : Fin (2^k) → Int,
      (∀ i, 2 * |E i| ≤ 16 * 2^k + weight s + 1) ∧
      R_Q_square.phase s r.1 = red LOGQ (autom (5^off.toNat) m + E) := by
  unfold ltRot
  have hN : 2^k ≤ 2^30 := Nat.pow_le_pow_right (by norm_num) (by omega)
  have hN17 : 2^k ≤ 2^17 := Nat.pow_le_pow_right (by norm_num) (by omega)
  have hI : INT_MAX = 2147483647 := by decide
  have hg := fun (j j' : Fin (2^k)) e => pos_inj_of_coprime (five_pow_coprime k off.toNat) j j' e
  by_cases ho : off ≠ 0
  · rw [if_pos ho, rotI_spec (by omega) Nat.one_le_two_pow _ hg s _
      (fun i => by rcases hs i with h | h | h <;> omega), pure_bind]
    refine Ok.bind (swkgen_spec R hN (fun i => ?_) hs R_Q_square.setzero ω) fun rk ⟨hr, e, he, hph⟩ => ?_
    · have := abs_le.1 (autom_abs hg hs.abs_le i); omega
    refine Ok.bind (rot_ct_spec h2 hk1 hk _ hr he hph hct _) fun y ⟨hy, E, hE, hyp⟩ => Ok.pure ⟨hy, E, fun i => ?_, ?_⟩
    · have h3 := hE i
      rw [hs.sum_abs] at h3
      push_cast at h3
      linarith
    · simp only []
      rw [hyp, hm, ← red_autom, red_add]
  · rw [if_neg ho]
    have : off = 0 := not_not.1 ho
    subst this
    refine Ok.pure ⟨hct, 0, fun i => ?_, ?_⟩
    · simp only [Pi.zero_apply, abs_zero, mul_zero]; positivity
    · simp only [R_Q_square.copy_eq, Int.toNat_zero, pow_zero, autom_one, add_zero]
      exact hm

/-- what `linear_transform` should hold for the message `m` -/
def ltSum {N H : Nat} (A : SD2 H S) (p : Fin S → Fin N → Int) (m : Fin N → Int) : Fin N → Int :=
  ∑ s, if Act A s then negconv (p s) (autom (5^(A.1.off s).toNat) m) else 0

theorem sum_fin_range {M : Type*} [AddCommMonoid M] (f : Fin S → M) :
    ∑ s, f s = ∑ n ∈ range S, if h : n < S then f ⟨n, h⟩ else 0 := by
  rw [← Fin.sum_univ_eq_sum_range]
  exact sum_congr rfl fun s _ => by rw [dif_pos s.isLt]

/-- the error, one term for every diagonal -/
theorem linTrans_spec' (R LOGDELTA : Nat) (hD : LOGDELTA < 64) (h1 : ConvLOGQ LOGQ) (h2 : ConvLOGQ (2 * LOGQ))
    (hk1 : 1 ≤ k) (hk : k ≤ 17) {s : Fin (2^k) → Int} (hs : Ternary s)
    {A : SD2 (2^(k-1)) S} (hoff : A.1.off = A.2.off) {pt : Fin S → R_Q LOGQ (2^k)}
    (hpt : ∀ t, Act A t → encode LOGQ (LOGN := k) (A.1.vec t, A.2.vec t) (BitVec.ofNat 64 (2^LOGDELTA)) = pure (pt t) ∧
      (pt t).Canonical) {p : Fin S → Fin (2^k) → Int} (hp : ∀ t, Act A t → R_Q.cls (pt t) = red LOGQ (p t))
    {ct : R_Q_square LOGQ (2^k)} (hct : ct.Canonical) {m : Fin (2^k) → Int}
    (hm : R_Q_square.phase s ct = red LOGQ m) (ω : Rng) :
    Ok (linTrans R LOGDELTA A ct s ω) fun r => r.1.Canonical ∧ ∃ F : Fin S → Fin (2^k) → Int,
      (∀ t i, 2 * |F t i| ≤ 16 * 2^k + weight s + 1) ∧
      R_Q_square.phase s r.1 = red LOGQ (ltSum A p m + ∑ t, if Act A t then negconv (p t) (F t) else 0) := by
  unfold linTrans
  have e2 : ltSum A p m = _ := sum_fin_range (S := S) (fun t =>
    if Act A t then negconv (p t) (autom (5^(A.1.off t).toNat) m) else 0)
  rw [e2]
  have key := forUp_inv (P := fun n (st : R_Q_square LOGQ (2^k) × Rng) => st.1.Canonical ∧ ∃ F : Nat → Fin (2^k) → Int,
      (∀ t i, 2 * |F t i| ≤ 16 * 2^k + weight s + 1) ∧
      R_Q_square.phase s st.1 = red LOGQ ((∑ n ∈ range n, if h : n < S then
        (if Act A ⟨n, h⟩ then negconv (p ⟨n, h⟩) (autom (5^(A.1.off ⟨n, h⟩).toNat) m) else 0) else 0) +
        ∑ n ∈ range n, if h : n < S then (if Act A ⟨n, h⟩ then negconv (p ⟨n, h⟩) (F n) else 0) else 0))
    (s := (R_Q_square.setzero, ω)) (body := fun n st => if h : n < S then ltStep R LOGDELTA A ct s ⟨n, h⟩ st else ub)
    (Nat.zero_le S) ?_ ?_
  · refine Ok.mono key fun r ⟨hr, F, hF, hph⟩ => ⟨hr, fun t => F t, fun t => hF t, ?_⟩
    rw [hph, sum_fin_range (S := S) (fun t => if Act A t then negconv (p t) (F t) else 0)]
  · refine ⟨⟨R_Q.canonical_setzero, R_Q.canonical_setzero⟩, fun _ => 0, fun t i => ?_, ?_⟩
    · simp only [Pi.zero_apply, abs_zero, mul_zero]; positivity
    rw [range_zero, sum_empty, sum_empty, add_zero, red_zero, phase_eq]
    show R_Q.cls (R_Q.setzero : R_Q LOGQ (2^k)) + negconv _ (R_Q.cls (R_Q.setzero : R_Q LOGQ (2^k))) = 0
    rw [R_Q.cls_setzero, zero_add]
    funext i
    unfold negconv
    simp
  · rintro n ⟨acc, ω⟩ _ hn ⟨hacc, F, hF, hph⟩
    simp only [] at hacc hph
    rw [dif_pos hn]
    unfold ltStep
    rw [show decide (A.1.off ⟨n, hn⟩ = A.2.off ⟨n, hn⟩) = true by rw [hoff]; simp]
    rw [show assertM true = pure () from rfl, pure_bind]
    simp only [sum_range_succ, dif_pos hn]
    by_cases ha : Act A ⟨n, hn⟩
    · have hz : ¬ (A.1.zero ⟨n, hn⟩ && A.2.zero ⟨n, hn⟩) = true := by
        rw [Bool.and_eq_true]; exact ha
      rw [if_neg hz, if_pos ha]
      simp only [if_pos ha]
      unfold shl1
      rw [if_pos hD, pure_bind, (hpt _ ha).1, pure_bind]
      refine Ok.bind (ltRot_spec R h2 hk1 hk hs hct _ hm ω) fun r ⟨hr, E', hE', hph'⟩ => ?_
      refine Ok.bind (mulR_phase h1 hk1 hk hr (hpt _ ha).2 s) fun y ⟨hy, hyp⟩ => Ok.pure ⟨⟨R_Q.canonical_add _ _, R_Q.canonical_add _ _⟩, ?_⟩
      refine ⟨Function.update F n E', fun t i => ?_, ?_⟩
      · by_cases h : t = n
        · rw [h, Function.update_self]; exact hE' i
        · rw [Function.update_of_ne h]; exact hF t i
      · have e3 : (∑ x ∈ range n, if h : x < S then (if Act A ⟨x, h⟩ then negconv (p ⟨x, h⟩) (Function.update F n E' x) else 0) else 0) =
            ∑ x ∈ range n, if h : x < S then (if Act A ⟨x, h⟩ then negconv (p ⟨x, h⟩) (F x) else 0) else 0 :=
          sum_congr rfl fun x hx => by
            rw [Function.update_of_ne (by have := mem_range.1 hx; omega)]
        rw [e3, Function.update_self]
        simp only []
        rw [phase_add, hph, hyp, hph', hp _ ha, ← red_negconv, negconv_comm, negconv_add, ← red_add]
        congr 1
        abel
    · have hz : (A.1.zero ⟨n, hn⟩ && A.2.zero ⟨n, hn⟩) = true := by
        rw [Bool.and_eq_true]; exact not_not.1 ha
      rw [if_pos hz]
      simp only [if_neg ha, add_zero]
      exact Ok.pure ⟨hacc, F, hF, hph⟩

theorem linTrans_spec (R LOGDELTA : Nat) (hD : LOGDELTA < 64) (h1 : ConvLOGQ LOGQ) (h2 : ConvLOGQ (2 * LOGQ))
    (hk1 : 1 ≤ k) (hk : k ≤ 17) {s : Fin (2^k) → Int} (hs : Ternary s)
    {A : SD2 (2^(k-1)) S} (hoff : A.1.off = A.2.off) {pt : Fin S → R_Q LOGQ (2^k)}
    (hpt : ∀ t, Act A t → encode LOGQ (LOGN := k) (A.1.vec t, A.2.vec t) (BitVec.ofNat 64 (2^LOGDELTA)) = pure (pt t) ∧
      (pt t).Canonical) {p : Fin S → Fin (2^k) → Int} (hp : ∀ t, Act A t → R_Q.cls (pt t) = red LOGQ (p t))
    {ct : R_Q_square LOGQ (2^k)} (hct : ct.Canonical) {m : Fin (2^k) → Int}
    (hm : R_Q_square.phase s ct = red LOGQ m) (ω : Rng) :
    Ok (linTrans R LOGDELTA A ct s ω) fun r => r.1.Canonical ∧ ∃ E : Fin (2^k) → Int,
      (∀ i, 2 * |E i| ≤ (∑ t, if Act A t then ∑ j, |p t j| else 0) * (16 * 2^k + weight s + 1)) ∧
      R_Q_square.phase s r.1 = red LOGQ (ltSum A p m + E) := by
  refine Ok.mono (linTrans_spec' R LOGDELTA hD h1 h2 hk1 hk hs hoff hpt hp hct hm ω) fun r ⟨hr, F, hF, hph⟩ =>
    ⟨hr, _, fun i => ?_, hph⟩
  rw [Finset.sum_apply, sum_mul]
  have h0 := abs_sum_le_sum_abs (fun t => (if Act A t then negconv (p t) (F t) else 0 : Fin (2^k) → Int) i) univ
  refine (mul_le_mul_of_nonneg_left h0 (by norm_num : (0:Int) ≤ 2)).trans ?_
  rw [mul_sum]
  refine sum_le_sum fun t _ => ?_
  split
  · have hb : ∀ j, |2 * F t j| ≤ 16 * 2^k + weight s + 1 := fun j => by
      rw [abs_mul]; exact hF t j
    have h3 := negconv_abs_le (p t) (fun j => 2 * F t j) hb i
    have h4 : negconv (p t) (fun j => 2 * F t j) i = 2 * negconv (p t) (F t) i := by
      have : (fun j => 2 * F t j) = fun j => F t j + F t j := by funext j; ring
      rw [this, negconv_add_right]; ring
    rw [h4, abs_mul] at h3
    exact h3
  · simp

/-! ## The overload with a key array -/

/-- `rot_ct` returns for every canonical key -/
theorem rot_ct_total (h2 : ConvLOGQ (2 * LOGQ)) (hk1 : 1 ≤ k) (hk : k ≤ 17) (r : Nat)
    {rkey : R_Q_square (2 * LOGQ) (2^k)} (hr : rkey.Canonical) {ct : R_Q_square LOGQ (2^k)} (hct : ct.Canonical)
    (ct0 : R_Q_square LOGQ (2^k)) : Ok (rot_ct ct r rkey ct0) R_Q_square.Canonical := by
  obtain ⟨e, he⟩ := red_surj (LOGQ := 2 * LOGQ) (R_Q_square.phase (fun _ => 0) rkey)
  have hz : ((2^LOGQ : Int) • autom (5^r) (fun _ : Fin (2^k) => (0:Int)) + e) = e := by
    have : autom (5^r) (fun _ : Fin (2^k) => (0:Int)) = 0 := by
      funext i; simp [autom]
    rw [this, smul_zero, zero_add]
  refine Ok.mono (rot_ct_spec h2 hk1 hk r hr (s := fun _ => 0) (e := e) (B := ∑ i, |e i|)
    (fun i => single_le_sum (f := fun i => |e i|) (fun _ _ => abs_nonneg _) (mem_univ i)) (by rw [hz, he]) hct ct0)
    fun y h => h.1

theorem ltKeys_act {N : Nat} (A : SD2 N S) (t : Fin S) : (A.1.zero t = false ∨ A.2.zero t = false) ↔ Act A t := by
  unfold Act
  cases A.1.zero t <;> cases A.2.zero t <;> simp

theorem ltKeysStep_ok (LOGDELTA : Nat) (hD : LOGDELTA < 64) (h1 : ConvLOGQ LOGQ)
    (hk1 : 1 ≤ k) (hk : k ≤ 17) {A : SD2 (2^(k-1)) S} {pt : Fin S → R_Q LOGQ (2^k)}
    (hpt : ∀ t, Act A t → encode LOGQ (LOGN := k) (A.1.vec t, A.2.vec t) (BitVec.ofNat 64 (2^LOGDELTA)) = pure (pt t) ∧
      (pt t).Canonical) {ct : R_Q_square LOGQ (2^k)} {rkey : Fin S → R_Q_square (2 * LOGQ) (2^k)}
    {mem : Fin S → Option (R_Q_square LOGQ (2^k))} {src : Fin S → R_Q_square LOGQ (2^k)} (t : Fin S)
    (hsrc : Act A t → (src t).Canonical ∧ if A.1.off t = 0 then mem t = some (src t)
      else rot_ct ct (A.1.off t).toNat (rkey t) R_Q_square.setzero = pure (src t))
    (s : Fin (2^k) → Int) (acc : R_Q_square LOGQ (2^k)) (hacc : acc.Canonical) :
    Ok (ltKeysStep LOGDELTA A ct rkey mem t acc) fun r => r.Canonical ∧
      R_Q_square.phase s r = R_Q_square.phase s acc +
        if Act A t then negconv (R_Q.cls (pt t)) (R_Q_square.phase s (src t)) else 0 := by
  unfold ltKeysStep
  by_cases ha : Act A t
  · rw [if_pos ((ltKeys_act A t).2 ha), if_pos ha]
    unfold shl1
    rw [if_pos hD, pure_bind, (hpt t ha).1, pure_bind]
    obtain ⟨hc, hs⟩ := hsrc ha
    have e : ltKeysRot ct (A.1.off t) (rkey t) (mem t) = pure (some (src t)) := by
      unfold ltKeysRot
      by_cases ho : A.1.off t = 0
      · rw [if_pos ho] at hs
        rw [if_neg (not_not.2 ho), hs]
      · rw [if_neg ho] at hs
        rw [if_pos ho, hs, pure_bind]
    rw [e, pure_bind]
    show Ok ((pure (src t) : M _) >>= _) _
    rw [pure_bind]
    refine Ok.bind (mulR_phase h1 hk1 hk hc (hpt t ha).2 s) fun y ⟨_, hy⟩ =>
      Ok.pure ⟨⟨R_Q.canonical_add _ _, R_Q.canonical_add _ _⟩, ?_⟩
    rw [phase_add, hy, negconv_comm]
  · rw [if_neg (fun h => ha ((ltKeys_act A t).1 h)), if_neg ha]
    exact Ok.pure ⟨hacc, by rw [add_zero]⟩

theorem linTransKeys_spec (LOGDELTA : Nat) (hD : LOGDELTA < 64) (h1 : ConvLOGQ LOGQ)
    (hk1 : 1 ≤ k) (hk : k ≤ 17) {A : SD2 (2^(k-1)) S} {pt : Fin S → R_Q LOGQ (2^k)}
    (hpt : ∀ t, Act A t → encode LOGQ (LOGN := k) (A.1.vec t, A.2.vec t) (BitVec.ofNat 64 (2^LOGDELTA)) = pure (pt t) ∧
      (pt t).Canonical) {ct : R_Q_square LOGQ (2^k)} {rkey : Fin S → R_Q_square (2 * LOGQ) (2^k)}
    {mem : Fin S → Option (R_Q_square LOGQ (2^k))} {src : Fin S → R_Q_square LOGQ (2^k)}
    (hsrc : ∀ t, Act A t → (src t).Canonical ∧ if A.1.off t = 0 then mem t = some (src t)
      else rot_ct ct (A.1.off t).toNat (rkey t) R_Q_square.setzero = pure (src t)) (s : Fin (2^k) → Int) :
    Ok (linTransKeys LOGDELTA A ct rkey mem) fun r => r.Canonical ∧
      R_Q_square.phase s r = ∑ t, if Act A t then negconv (R_Q.cls (pt t)) (R_Q_square.phase s (src t)) else 0 := by
  unfold linTransKeys
  rw [sum_fin_range (S := S)]
  refine forUp_inv (Nat.zero_le S) (P := fun n (acc : R_Q_square LOGQ (2^k)) => acc.Canonical ∧
    R_Q_square.phase s acc = ∑ n ∈ range n, if h : n < S then (if Act A ⟨n, h⟩ then
      negconv (R_Q.cls (pt ⟨n, h⟩)) (R_Q_square.phase s (src ⟨n, h⟩)) else 0) else 0) ?_ ?_
  · refine ⟨⟨R_Q.canonical_setzero, R_Q.canonical_setzero⟩, ?_⟩
    rw [range_zero, sum_empty, phase_eq]
    show R_Q.cls (R_Q.setzero : R_Q LOGQ (2^k)) + negconv _ (R_Q.cls (R_Q.setzero : R_Q LOGQ (2^k))) = 0
    rw [R_Q.cls_setzero, zero_add]
    funext i
    unfold negconv
    simp
  · intro n acc _ hn ⟨hacc, hph⟩
    rw [dif_pos hn]
    refine Ok.mono (ltKeysStep_ok LOGDELTA hD h1 hk1 hk hpt ⟨n, hn⟩ (hsrc _) s acc hacc) fun r ⟨hr, hrp⟩ => ⟨hr, ?_⟩
    rw [hrp, hph, sum_range_succ, dif_pos hn]

/-- an uninitialised `ct_rot` is read -/
theorem linTransKeys_ub (LOGDELTA : Nat) (hD : LOGDELTA < 64) (h1 : ConvLOGQ LOGQ) (h2 : ConvLOGQ (2 * LOGQ))
    (hk1 : 1 ≤ k) (hk : k ≤ 17) {A : SD2 (2^(k-1)) S}
    (hpt : ∀ t, Act A t → Ok (encode LOGQ (LOGN := k) (A.1.vec t, A.2.vec t) (BitVec.ofNat 64 (2^LOGDELTA)))
      R_Q.Canonical) {ct : R_Q_square LOGQ (2^k)} (hct : ct.Canonical)
    {rkey : Fin S → R_Q_square (2 * LOGQ) (2^k)} (hr : ∀ t, (rkey t).Canonical)
    (t0 : Fin S) (ha : Act A t0) (ho : A.1.off t0 = 0) :
    linTransKeys LOGDELTA A ct rkey (fun _ => none) = ub := by
  classical
  -- the first such diagonal
  have hex : ∃ n, ∃ h : n < S, Act A ⟨n, h⟩ ∧ A.1.off ⟨n, h⟩ = 0 := ⟨t0, t0.isLt, ha, ho⟩
  obtain ⟨hn, hn1, hn2⟩ := Nat.find_spec hex
  have hmin := fun m (hm : m < Nat.find hex) => Nat.find_min hex hm
  generalize Nat.find hex = n at hn hn1 hn2 hmin
  have hpt' : ∀ t, ∃ p : R_Q LOGQ (2^k), Act A t →
      encode LOGQ (LOGN := k) (A.1.vec t, A.2.vec t) (BitVec.ofNat 64 (2^LOGDELTA)) = pure p ∧ R_Q.Canonical p := by
    intro t
    by_cases h : Act A t
    · obtain ⟨p, e, hp⟩ := hpt t h
      exact ⟨p, fun _ => ⟨e, hp⟩⟩
    · exact ⟨R_Q.setzero, fun h' => absurd h' h⟩
  choose pt hpt' using hpt'
  have hy : ∀ t : Fin S, ∃ y, rot_ct ct (A.1.off t).toNat (rkey t) R_Q_square.setzero = pure y ∧ y.Canonical :=
    fun t => rot_ct_total h2 hk1 hk _ (hr t) hct _
  choose y hy using hy
  unfold linTransKeys
  refine forUp_fault (k := n) (Nat.zero_le n) hn (P := fun _ (acc : R_Q_square LOGQ (2^k)) => acc.Canonical)
    ⟨R_Q.canonical_setzero, R_Q.canonical_setzero⟩ ?_ ?_
  · intro i acc _ hi hacc
    rw [dif_pos (by omega : i < S)]
    refine Ok.mono (ltKeysStep_ok LOGDELTA hD h1 hk1 hk hpt' (src := y) ⟨i, by omega⟩ (fun h => ⟨(hy _).2, ?_⟩)
      (fun _ => 0) acc hacc) fun r h => h.1
    have : A.1.off ⟨i, by omega⟩ ≠ 0 := fun h0 => hmin i hi ⟨by omega, h, h0⟩
    rw [if_neg this]
    exact (hy _).1
  · intro acc _
    rw [dif_pos hn]
    unfold ltKeysStep
    rw [if_pos ((ltKeys_act A _).2 hn1)]
    unfold shl1
    rw [if_pos hD, pure_bind, (hpt' _ hn1).1, pure_bind]
    unfold ltKeysRot
    rw [if_neg (not_not.2 hn2), pure_bind]
    exact ub_bind _

end EvalRound

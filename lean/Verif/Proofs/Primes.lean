import Verif.Model.Primes
import Verif.Proofs.PrattCerts
import Verif.Proofs.Word
import Mathlib.NumberTheory.LucasPrimality
import Mathlib.Algebra.BigOperators.Group.List.Basic
import Mathlib.Algebra.BigOperators.Fin

/-! # Primality of the table by Pratt certificates -/

namespace EvalRound

/-- `b^e mod m` by repeated squaring, with `fuel` bits of the exponent -/
def powModN : Nat → Nat → Nat → Nat → Nat
  | 0, _, _, m => 1 % m
  | fuel+1, b, e, m =>
    if e % 2 = 1 then b * powModN fuel (b * b % m) (e / 2) m % m
    else powModN fuel (b * b % m) (e / 2) m

theorem powModN_spec (fuel b e m : Nat) (he : e < 2^fuel) : powModN fuel b e m = b^e % m := by
  induction fuel generalizing b e with
  | zero =>
    have : e = 0 := by simpa using he
    subst this; simp [powModN]
  | succ n ih =>
    have h2 : e / 2 < 2^n := by rw [pow_succ] at he; omega
    have key : (b * b % m)^(e/2) % m = b^(2*(e/2)) % m := by
      rw [← Nat.pow_mod, pow_mul, pow_two]
    unfold powModN
    split
    · rename_i h
      rw [ih _ _ h2, key, Nat.mul_mod_mod, ← pow_succ']
      congr 2; omega
    · rename_i h
      rw [ih _ _ h2, key]
      congr 2; omega

/-- the product `∏ f^e` of a factorisation -/
def facProd : List (Nat × Nat) → Nat
  | [] => 1
  | (f, e) :: l => f^e * facProd l

theorem prime_dvd_facProd {q : Nat} (hq : q.Prime) {l : List (Nat × Nat)}
    (hl : ∀ x ∈ l, x.1.Prime) (h : q ∣ facProd l) : ∃ x ∈ l, x.1 = q := by
  induction l with
  | nil => exact absurd (Nat.dvd_one.1 h) hq.ne_one
  | cons x l ih =>
    rcases (Nat.Prime.dvd_mul hq).1 h with h | h
    · exact ⟨x, List.mem_cons_self, ((Nat.prime_dvd_prime_iff_eq hq (hl x List.mem_cons_self)).1
        (hq.dvd_of_dvd_pow h)).symm⟩
    · obtain ⟨y, hy, e⟩ := ih (fun y hy => hl y (List.mem_cons_of_mem _ hy)) h
      exact ⟨y, List.mem_cons_of_mem _ hy, e⟩

/-- check one certificate against the primes already known -/
def checkCert (known : List Nat) (p a : Nat) (fs : List (Nat × Nat)) : Bool :=
  decide (2 < p) && decide (p < 2^64) && fs.all (fun x => known.any fun y => Nat.beq y x.1) && facProd fs == p - 1 &&
    powModN 64 a (p-1) p == 1 && fs.all (fun x => powModN 64 a ((p-1)/x.1) p != 1)

theorem checkCert_sound {known : List Nat} (hk : ∀ x ∈ known, x.Prime) {p a : Nat}
    {fs : List (Nat × Nat)} (h : checkCert known p a fs = true) : p.Prime := by
  unfold checkCert at h
  simp only [Bool.and_eq_true, decide_eq_true_eq, beq_iff_eq, List.all_eq_true,
    List.any_eq_true, Nat.beq_eq, bne_iff_ne] at h
  obtain ⟨⟨⟨⟨⟨h2, h64⟩, hf⟩, hp⟩, h1⟩, hne⟩ := h
  have cast : ∀ e, e < 2^64 → (((a : ZMod p)^e = 1) ↔ powModN 64 a e p = 1) := by
    intro e he
    rw [powModN_spec 64 a e p he]
    have h1 : 1 % p = 1 := Nat.mod_eq_of_lt (by omega)
    constructor
    · intro h
      have : ((a^e : Nat) : ZMod p) = ((1 : Nat) : ZMod p) := by push_cast; exact h
      rw [ZMod.natCast_eq_natCast_iff'] at this
      rw [this, h1]
    · intro h
      have : ((a^e : Nat) : ZMod p) = ((1 : Nat) : ZMod p) := by
        rw [ZMod.natCast_eq_natCast_iff', h, h1]
      push_cast at this; exact this
  refine lucas_primality p (a : ZMod p) ((cast _ (by omega)).2 h1) fun q hq hd => ?_
  rw [← hp] at hd
  obtain ⟨x, hx, e⟩ := prime_dvd_facProd hq (fun x hx => by
    obtain ⟨y, hy, e⟩ := hf x hx
    rw [← e]; exact hk y hy) hd
  intro hc
  refine hne x hx ((cast _ ?_).1 ?_)
  · have := Nat.div_le_self (p-1) x.1; omega
  · rw [e]; exact hc

/-- check a list of certificates, each relying on the previous ones -/
def checkCerts : List Nat → List (Nat × Nat × List (Nat × Nat)) → Bool
  | _, [] => true
  | known, (p, a, fs) :: l => checkCert known p a fs && checkCerts (p :: known) l

theorem checkCerts_sound {known : List Nat} (hk : ∀ x ∈ known, x.Prime)
    {l : List (Nat × Nat × List (Nat × Nat))} (h : checkCerts known l = true) :
    ∀ c ∈ l, c.1.Prime := by
  induction l generalizing known with
  | nil => intro c hc; simp at hc
  | cons x l ih =>
    obtain ⟨p, a, fs⟩ := x
    simp only [checkCerts, Bool.and_eq_true] at h
    have hp := checkCert_sound hk h.1
    intro c hc
    rcases List.mem_cons.1 hc with rfl | hc
    · exact hp
    · refine ih (known := p :: known) ?_ h.2 c hc
      intro x hx
      rcases List.mem_cons.1 hx with rfl | hx
      · exact hp
      · exact hk x hx

theorem prattCerts_ok : checkCerts [2] prattCerts = true := by decide +kernel

theorem prattCerts_prime : ∀ c ∈ prattCerts, c.1.Prime :=
  checkCerts_sound (fun x hx => by rw [List.mem_singleton.1 hx]; exact Nat.prime_two) prattCerts_ok

theorem Q_primes_in : (Q_primesList.all fun w => prattCerts.any fun c => Nat.beq c.1 w.toNat) = true := by
  decide +kernel

theorem Q_primes_mem (i : Fin 102) : Q_primes i ∈ Q_primesList := List.getElem_mem _

theorem Q_primes_prime (i : Fin 102) : (Q_primes i).toNat.Prime := by
  have h := List.all_eq_true.1 Q_primes_in _ (Q_primes_mem i)
  obtain ⟨c, hc, e⟩ := List.any_eq_true.1 h
  rw [← Nat.eq_of_beq_eq_true e]; exact prattCerts_prime c hc

theorem Q_primes_nodup : Q_primesList.Nodup := by decide +kernel

theorem Q_primes_inj {i j : Fin 102} (h : Q_primes i = Q_primes j) : i = j :=
  Fin.ext ((List.Nodup.getElem_inj_iff Q_primes_nodup).1 h)

theorem Q_primes_residue (i : Fin 102) :
    (Q_primes i).toNat % 2^18 = 1 ∧ 2^59 ≤ (Q_primes i).toNat ∧ (Q_primes i).toNat < 2^61 := by
  have h : (Q_primesList.all fun w => Nat.beq (w.toNat % 262144) 1 &&
      Nat.ble 576460752303423488 w.toNat && Nat.ble (w.toNat + 1) 2305843009213693952) = true := by
    decide +kernel
  have h2 := List.all_eq_true.1 h _ (Q_primes_mem i)
  simp only [Bool.and_eq_true, Nat.beq_eq, Nat.ble_eq] at h2
  omega

/-- product of the first `L` entries -/
def firstProd (L : Nat) : Nat := (Q_primesList.take L).foldr (fun w p => w.toNat * p) 1

/-- every partial product is above `2^(60 L - 1)` -/
def checkProd : Nat → Nat → List W → Bool
  | _, _, [] => true
  | L, acc, w :: l => Nat.ble (2^(60 * (L+1) - 1) + 1) (acc * w.toNat) && checkProd (L+1) (acc * w.toNat) l

theorem checkProd_sound {L acc : Nat} {l : List W} (h : checkProd L acc l = true) {m : Nat}
    (h1 : 1 ≤ m) (hm : m ≤ l.length) :
    2^(60 * (L+m) - 1) < acc * (l.take m).foldr (fun w p => w.toNat * p) 1 := by
  induction l generalizing L acc m with
  | nil => simp at hm; omega
  | cons w l ih =>
    simp only [checkProd, Bool.and_eq_true, Nat.ble_eq] at h
    obtain ⟨m, rfl⟩ : ∃ k, m = k + 1 := ⟨m-1, by omega⟩
    rw [List.take_succ_cons, List.foldr_cons, ← Nat.mul_assoc]
    rcases Nat.eq_zero_or_pos m with rfl | hm0
    · simpa using h.1
    · have := ih h.2 hm0 (by simpa using hm)
      rwa [show L + (m+1) = L + 1 + m by omega]

theorem checkProd_ok : checkProd 0 1 Q_primesList = true := by decide +kernel

theorem firstProd_big {L : Nat} (h1 : 1 ≤ L) (hL : L ≤ 102) : 2^(60 * L - 1) < firstProd L := by
  have := checkProd_sound checkProd_ok h1 (by rw [Q_primesList_length]; exact hL)
  rwa [Nat.zero_add, Nat.one_mul] at this

theorem firstProd_eq (L : Nat) (hL : L ≤ 102) :
    firstProd L = ∏ i : Fin L, (Q_primes ⟨i.val, by omega⟩).toNat := by
  have h : ∀ l : List W, l.foldr (fun w p => w.toNat * p) 1 = (l.map BitVec.toNat).prod := by
    intro l; induction l with
    | nil => rfl
    | cons x l ih => simp [ih]
  unfold firstProd
  rw [h]
  have : Q_primesList.take L = List.ofFn (fun i : Fin L => Q_primes ⟨i.val, by omega⟩) := by
    apply List.ext_getElem
    · simp [Q_primesList_length, hL]
    · intro n h1 h2
      simp [Q_primes]
  rw [this, List.map_ofFn, List.prod_ofFn]
  rfl

end EvalRound

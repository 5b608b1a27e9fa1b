import Verif.Proofs.Sign
import Mathlib.Data.Rat.Floor
import Mathlib.Tactic.FieldSimp
import Mathlib.Algebra.Order.Field.Basic

/-! # C04 - C09: the ring `Z_Q<LOGQ>` -/

set_option linter.unusedSectionVars false

namespace EvalRound
open Z_Q

variable {L : Nat} [NeZero L]

/-- C04: `+=` of distinct objects adds modulo `2^LOGQ`. -/
theorem C04_add (x y : Z_Q L) : (add x y).cls = x.cls + y.cls ∧ (add x y).Canonical :=
  ⟨cls_add x y, canonical_add x y⟩

/-- C04: `-=` subtracts modulo `2^LOGQ`. -/
theorem C04_sub (x y : Z_Q L) : (sub x y).cls = x.cls - y.cls ∧ (sub x y).Canonical :=
  ⟨cls_sub x y, canonical_sub x y⟩

/-- C04: `*=` multiplies modulo `2^LOGQ`. -/
theorem C04_mul (x y : Z_Q L) : (mulZ x y).cls = x.cls * y.cls ∧ (mulZ x y).Canonical :=
  mulZ_spec x y

/-- C04: `*=` by a word multiplies modulo `2^LOGQ`, whatever the local `Hi` held before. -/
theorem C04_mulW (junk x : Z_Q L) (a : W) :
    (mulWFrom junk x a).cls = x.cls * (a.toNat : ZMod (2^L)) ∧ (mulWFrom junk x a).Canonical := by
  rw [mulWFrom_junk junk setzero]
  exact ⟨cls_mulW x a, canonical_mulW x a⟩

/-- C04: `negate` negates modulo `2^LOGQ`. -/
theorem C04_negate (x : Z_Q L) : (negate x).cls = - x.cls ∧ (negate x).Canonical :=
  ⟨cls_negate x, canonical_negate x⟩

/-- C04: `setzero` and `remove_clutter`. -/
theorem C04_zero_clutter (x : Z_Q L) :
    (setzero : Z_Q L).val = 0 ∧ (remove_clutter x).val = x.val % 2^L :=
  ⟨val_setzero, val_remove_clutter x⟩

/-- C04: the canonical objects are in bijection with the residue ring. -/
theorem C04_bijective :
    Function.Bijective (fun x : {x : Z_Q L // x.Canonical} => x.1.cls) := by
  constructor
  · intro x y h; exact Subtype.ext (canonical_ext x.2 y.2 h)
  · intro z
    have hz : NeZero (2^L) := ⟨by positivity⟩
    have hlt : z.val < 2^L := ZMod.val_lt z
    refine ⟨⟨ofNat L z.val, ?_⟩, ?_⟩
    · unfold Canonical; rw [val_ofNat_of_lt hlt]; exact hlt
    · show cls _ = z
      unfold cls; rw [val_ofNat_of_lt hlt]; exact ZMod.natCast_zmod_val z

-- `LOGQ` may be any positive number, for instance one that is not a multiple of 64, and the
-- operands may have stray bits: here limb 1 of `Z_Q<70>` exceeds 6 bits
example : ∃ x : Z_Q 70, ¬ x.Canonical := by
  refine ⟨⟨fun _ => -1⟩, ?_⟩
  unfold Canonical val
  decide

/-- C05: `A += A` doubles `A` exactly when no limb below the top one has its top bit set: the
carries between limbs are lost. -/
theorem C05_addSelf (x : Z_Q L) :
    (addSelf x).cls = 2 * x.cls ↔ ∀ i, i + 1 < nlimb L → dig x.data i < 2^63 := addSelf_iff x

/-- C05: a canonical value that `A += A` does not double. -/
theorem C05_addSelf_wrong : ∃ x : Z_Q 128, x.Canonical ∧ (addSelf x).cls ≠ 2 * x.cls := by
  refine ⟨⟨fun i => if i.val = 0 then 0x8000000000000000 else 0⟩, ?_, ?_⟩
  · unfold Canonical val; decide
  · rw [Ne, addSelf_iff]
    intro h
    exact absurd (h 0 (by decide)) (by decide)

/-- C05: `A -= A` is zero for every content. -/
theorem C05_subSelf (x : Z_Q L) : (sub x x).val = 0 := by
  have h := cls_sub x x
  rw [sub_self, ← cls_setzero (L := L)] at h
  rw [canonical_ext (canonical_sub x x) canonical_setzero h, val_setzero]

variable {LF LT : Nat} [NeZero LF] [NeZero LT]

/-- C06: `shift_right` is division by a power of two rounded to nearest (halves up). -/
theorem C06_shift_right (A : Z_Q LF) (B0 : Z_Q LT) (hA : A.Canonical) (h : LT ≤ LF) :
    Ok (shift_right A B0) fun B =>
      B.Canonical ∧ (B.val : Int) = (⌊(A.val : ℚ) / 2^(LF-LT) + 1/2⌋) % 2^LT := by
  refine Ok.mono (shift_right_spec hA B0 h) fun B hB => ⟨canonical_of_mod hB, ?_⟩
  rw [hB]
  push_cast
  congr 1
  generalize LF - LT = k
  symm
  rw [Int.floor_eq_iff]
  rcases Nat.eq_zero_or_pos k with rfl | hk
  · norm_num
  · obtain ⟨j, rfl⟩ : ∃ j, k = j + 1 := ⟨k-1, by omega⟩
    have e : ((2:Int)^(j+1)) / 2 = 2^j := by rw [pow_succ]; simp
    rw [e]
    have h1 := Int.emod_add_mul_ediv ((A.val : Int) + 2^j) (2^(j+1))
    have h2 := Int.emod_nonneg ((A.val : Int) + 2^j) (show (2:Int)^(j+1) ≠ 0 by positivity)
    have h3 := Int.emod_lt_of_pos ((A.val : Int) + 2^j) (show (0:Int) < 2^(j+1) by positivity)
    generalize ((A.val : Int) + 2^j) % 2^(j+1) = r at *
    generalize ((A.val : Int) + 2^j) / 2^(j+1) = t at *
    have h1' : (r : ℚ) + 2^(j+1) * t = A.val + 2^j := by exact_mod_cast h1
    have h2' : (0 : ℚ) ≤ r := by exact_mod_cast h2
    have h3' : (r : ℚ) < 2^(j+1) := by exact_mod_cast h3
    have hp : (0 : ℚ) < 2^(j+1) := by positivity
    have e2 : (A.val : ℚ) / 2^(j+1) + 1/2 = t + r / 2^(j+1) := by
      field_simp
      rw [pow_succ] at *
      linarith
    rw [e2]
    constructor
    · have : 0 ≤ (r:ℚ) / 2^(j+1) := by positivity
      linarith
    · have : (r:ℚ) / 2^(j+1) < 1 := (div_lt_one hp).2 h3'
      linarith

/-- C06: on signed representatives the rounding error is at most half a unit. -/
theorem C06_shift_right_signed (A : Z_Q LF) (B0 : Z_Q LT) (hA : A.Canonical) (h : LT ≤ LF) :
    Ok (shift_right A B0) fun B => ∃ t : Int,
      B.cls = (t : ZMod (2^LT)) ∧ 2 * |t * 2^(LF-LT) - A.sval| ≤ 2^(LF-LT) := by
  refine Ok.mono (shift_right_spec hA B0 h) fun B hB => ?_
  have hc := cls_of_val hB
  set k := LF - LT with hk
  set u := (A.val + 2^k / 2) / 2^k with hu
  have hbound : 2 * |(u : Int) * 2^k - A.val| ≤ 2^k := by
    rcases Nat.eq_zero_or_pos k with h0 | hk0
    · simp [hu, h0]
    · obtain ⟨j, hj⟩ : ∃ j, k = j + 1 := ⟨k-1, by omega⟩
      have e : (2:Nat)^k / 2 = 2^j := by rw [hj, pow_succ]; simp
      have h1 := Nat.mod_add_div (A.val + 2^j) (2^k)
      have h2 := Nat.mod_lt (A.val + 2^j) (show 0 < 2^k by positivity)
      rw [e] at hu
      rw [← hu] at h1
      generalize (A.val + 2^j) % 2^k = r at *
      have h1' : (r : Int) + 2^k * u = A.val + 2^j := by exact_mod_cast h1
      have h2' : (r : Int) < 2^k := by exact_mod_cast h2
      have e3 : (2:Int)^k = 2 * 2^j := by rw [hj, pow_succ]; ring
      have : (u : Int) * 2^k - A.val = 2^j - r := by linarith
      rw [this]
      have : |(2:Int)^j - r| ≤ 2^j := by
        rw [abs_le]; constructor <;> [skip; have := Int.natCast_nonneg r] <;> linarith
      linarith
  rw [sval_canonical hA]
  split
  · refine ⟨(u : Int) - 2^LT, ?_, ?_⟩
    · rw [hc]; push_cast
      have := pow_cast_zero LT
      push_cast at this
      rw [this]; ring
    · have e : ((u : Int) - 2^LT) * 2^k - (A.val - 2^LF) = u * 2^k - A.val := by
        have : (2:Int)^LF = 2^LT * 2^k := by rw [← pow_add]; congr 1; omega
        rw [this]; ring
      rw [e]; exact hbound
  · exact ⟨u, by rw [hc]; push_cast; rfl, hbound⟩

/-- C06: widening with `shift_right` is undefined behaviour. -/
theorem C06_shift_right_ub (A : Z_Q LF) (B0 : Z_Q LT) (h : LF < LT) : shift_right A B0 = ub := by
  unfold shift_right
  simp [h, h.ne]

-- a canonical value, with bit difference 75 crossing a limb
example : (ofNat 200 (2^199 + 2^74)).Canonical ∧ 125 ≤ 200 := by
  refine ⟨?_, by norm_num⟩
  unfold Canonical; rw [val_ofNat]; norm_num [nlimb]

/-- C07: `shift_left` multiplies exactly, whatever the destination held. -/
theorem C07_shift_left (A : Z_Q LF) (B0 : Z_Q LT) (hA : A.Canonical) (h : LF ≤ LT) :
    Ok (shift_left A B0) fun B => B.val = A.val * 2^(LT-LF) ∧ B.Canonical := by
  refine Ok.mono (shift_left_spec hA B0 h) fun B hB => ⟨hB, ?_⟩
  unfold Canonical at *
  rw [hB]
  have e : 2^LT = 2^LF * 2^(LT-LF) := by rw [← pow_add]; congr 1; omega
  rw [e]
  exact Nat.mul_lt_mul_of_pos_right hA (by positivity)

/-- C07: narrowing with `shift_left` is undefined behaviour. -/
theorem C07_shift_left_ub (A : Z_Q LF) (B0 : Z_Q LT) (h : LT < LF) : shift_left A B0 = ub := by
  unfold shift_left
  simp [h]

example : (ofNat 70 (2^70 - 1)).Canonical ∧ 70 ≤ 145 := by
  refine ⟨?_, by norm_num⟩
  unfold Canonical; rw [val_ofNat]; norm_num [nlimb]

/-- C08: `resize` stores the residue of the signed representative. -/
theorem C08_resize (A : Z_Q LF) (hA : A.Canonical) :
    (resize LT A).cls = ((A.sval : Int) : ZMod (2^LT)) ∧ (resize LT A).Canonical :=
  ⟨cls_resize hA, canonical_resize A⟩

/-- C08: widening keeps the signed value. -/
theorem C08_widen (A : Z_Q LF) (hA : A.Canonical) (h : LF ≤ LT) :
    (resize LT A).sval = A.sval := by
  have hb := sval_bounds A
  have hp : (2:Int)^(LF-1) ≤ 2^(LT-1) := pow_le_pow_right₀ (by norm_num) (by omega)
  exact sval_eq_of_cls (cls_resize hA) (by linarith) (by linarith)

/-- C08: narrowing is reduction modulo `2^to`. -/
theorem C08_narrow (A : Z_Q LF) (hA : A.Canonical) (h : LT ≤ LF) :
    (resize LT A).val = A.val % 2^LT := by
  have h1 : (resize LT A).cls = (A.val : ZMod (2^LT)) := by
    rw [cls_resize hA, sval_canonical hA]
    split
    · push_cast
      have : ((2^LF : Nat) : ZMod (2^LT)) = 0 :=
        (ZMod.natCast_eq_zero_iff _ _).2 (pow_dvd_pow 2 h)
      push_cast at this
      rw [this]; ring
    · push_cast; rfl
  have h2 := (ZMod.natCast_eq_natCast_iff' _ _ _).1 h1
  rwa [Nat.mod_eq_of_lt (canonical_resize A)] at h2

-- a canonical negative value
example : (ofNat 70 (2^70 - 1)).Canonical ∧ (ofNat 70 (2^70 - 1)).sval = -1 := by
  have h : (ofNat 70 (2^70 - 1)).val = 2^70 - 1 := val_ofNat_of_lt (by norm_num)
  have hc : (ofNat 70 (2^70 - 1)).Canonical := by unfold Canonical; rw [h]; norm_num
  refine ⟨hc, ?_⟩
  rw [sval_canonical hc, h]; norm_num

/-- C09: the sign test. -/
theorem C09_sign (x : Z_Q L) (hx : x.Canonical) :
    x.is_bigger_than_halfQ = true ↔ 2^(L-1) ≤ x.val := by
  rw [is_bigger_canonical hx, decide_eq_true_iff]

/-- C09: on canonical values the test says that the signed representative is negative. -/
theorem C09_sign_neg (x : Z_Q L) (hx : x.Canonical) :
    x.is_bigger_than_halfQ = true ↔ x.sval < 0 := by
  rw [C09_sign x hx, sval_canonical hx]
  have : (x.val : Int) < 2^L := by exact_mod_cast hx
  split
  · constructor
    · intro; omega
    · intro; assumption
  · constructor
    · intro; contradiction
    · intro h; omega

/-- C09: the conversion to double starts from the signed value when that has magnitude below
`2^64`. -/
theorem C09_double (x : Z_Q L) (hx : x.Canonical) (h : x.sval.natAbs < 2^64) :
    x.toDoubleInt = x.sval := by
  rw [toDoubleInt_spec hx, Nat.mod_eq_of_lt h, Int.sign_mul_natAbs]

/-- C09: in general only the low limb of the magnitude survives. -/
theorem C09_double_low (x : Z_Q L) (hx : x.Canonical) :
    x.toDoubleInt = x.sval.sign * (x.sval.natAbs % 2^64 : Nat) := toDoubleInt_spec hx

/-- C09: so a value of magnitude `2^64` or more is converted to something else. -/
theorem C09_double_wrong (x : Z_Q L) (hx : x.Canonical) (h : 2^64 ≤ x.sval.natAbs) :
    x.toDoubleInt ≠ x.sval := by
  rw [toDoubleInt_spec hx]
  intro h2
  have h3 := congrArg Int.natAbs h2
  rw [Int.natAbs_mul, Int.natAbs_sign_of_ne_zero (by intro h0; rw [h0] at h; simp at h),
    Int.natAbs_natCast, Nat.one_mul] at h3
  have := Nat.mod_lt x.sval.natAbs (show 0 < 2^64 by positivity)
  omega

/-- C09: `max_valid_digit` of a value in `[0, 2^(LOGQ-1))` is its highest nonzero limb. -/
theorem C09_max_valid_digit (x : Z_Q L) (hx : x.Canonical) (h : 0 ≤ x.sval) :
    (x.max_valid_digit = -1 ∧ x.val = 0) ∨
    ∃ k : Nat, x.max_valid_digit = k ∧ 2^(64*k) ≤ x.val ∧ x.val < 2^(64*(k+1)) := by
  have hb : x.is_bigger_than_halfQ = false := by
    by_contra hne
    have := (C09_sign_neg x hx).1 (by simpa using hne)
    omega
  have hl := mvd_loop x.data 0
  unfold max_valid_digit
  rw [hb]
  simp only [Bool.false_eq_true, if_false]
  have hz : ∀ k : Nat, (∀ i : Fin (nlimb L), k ≤ i.val → x.data i = 0) → ∀ i, k ≤ i → dig x.data i = 0 := by
    intro k hk i hi
    by_cases e : i < nlimb L
    · rw [dig_of_lt _ e, hk ⟨i, e⟩ hi]; rfl
    · exact dig_of_ge _ (by omega)
  rcases hl with ⟨h1, h2⟩ | ⟨k, h1, h2, h3⟩
  · left
    refine ⟨h1, ?_⟩
    show lv _ _ = 0
    rw [lv_eq_of_zero_above x.data (hz 0 (fun i _ => h2 i))]; simp
  · right
    refine ⟨k.val, h1, ?_, ?_⟩
    · show _ ≤ lv _ _
      rw [lv_eq_of_zero_above x.data (hz (k.val+1) (fun i hi => h3 i hi)),
        show min (k.val+1) (nlimb L) = k.val+1 by omega, lv_succ, dig_fin]
      have : 1 ≤ (x.data k).toNat := Nat.pos_of_ne_zero fun h =>
        h2 (BitVec.eq_of_toNat_eq (by simpa using h))
      have := Nat.mul_le_mul_right (2^(64*k.val)) this
      omega
    · show lv _ _ < _
      rw [lv_eq_of_zero_above x.data (hz (k.val+1) (fun i hi => h3 i hi)),
        show min (k.val+1) (nlimb L) = k.val+1 by omega]
      exact lv_lt _ _

/-- C09: for a negative value whose top limb does not have exactly 32 bits the function returns
the top index whatever the value, because the constant is 32 bits wide. -/
theorem C09_max_valid_digit_neg (x : Z_Q L) (hx : x.Canonical) (h : x.sval < 0)
    (hL : L % 64 ≠ 32) : x.max_valid_digit = (nlimb L : Int) - 1 := by
  have hb := (C09_sign_neg x hx).2 h
  have hs := (C09_sign x hx).1 hb
  obtain ⟨b1, b2, b3⟩ := lim_bounds L
  have ht := top_val (L := L)
  have hl := mvd_loop x.data 0xFFFFFFFF
  unfold max_valid_digit
  rw [hb]
  simp only [if_true]
  have hdig : (x.data (top L)).toNat = x.val / 2^(64*(top L).val) := by
    rw [← dig_fin]
    have hv : x.val = lv x.data (top L).val + dig x.data (top L).val * 2^(64*(top L).val) := by
      rw [← lv_succ]; exact (lv_of_le _ ht.ge).symm
    rw [hv, Nat.add_mul_div_right _ _ (by positivity), Nat.div_eq_of_lt (lv_lt _ _), Nat.zero_add]
  have htop : x.data (top L) ≠ 0xFFFFFFFF := by
    intro he
    rw [he] at hdig
    have hF : (0xFFFFFFFF : W).toNat = 2^32 - 1 := by decide
    rw [hF] at hdig
    obtain ⟨r, hr⟩ : ∃ r, L = 64 * (top L).val + r := ⟨L - 64 * (top L).val, by omega⟩
    have hp : 0 < 2^(64*(top L).val) := by positivity
    have u1 : x.val / 2^(64*(top L).val) < 2^r := by
      rw [Nat.div_lt_iff_lt_mul hp, ← pow_add, Nat.add_comm, ← hr]; exact hx
    have u2 : 2^(r-1) ≤ x.val / 2^(64*(top L).val) := by
      rw [Nat.le_div_iff_mul_le hp, ← pow_add]
      have : r - 1 + 64 * (top L).val = L - 1 := by omega
      rw [this]; exact hs
    rw [← hdig] at u1 u2
    have v1 : 32 ≤ r := by
      by_contra hlt
      have : 2^r ≤ 2^31 := Nat.pow_le_pow_right (by norm_num) (by omega)
      omega
    have v2 : r - 1 ≤ 31 := by
      by_contra hlt
      have : 2^32 ≤ 2^(r-1) := Nat.pow_le_pow_right (by norm_num) (by omega)
      omega
    omega
  rcases hl with ⟨h1, h2⟩ | ⟨k, h1, h2, h3⟩
  · exact absurd (h2 _) htop
  · have : k = top L := by
      by_contra hne
      have : k.val ≠ (top L).val := fun h => hne (Fin.ext h)
      exact htop (h3 _ (by show k.val < (top L).val; omega))
    rw [this] at h1
    exact h1.trans (by omega)

-- canonical values with 2^64 <= |v|, and a small negative one
example : (ofNat 128 (2^100)).Canonical ∧ 2^64 ≤ (ofNat 128 (2^100)).sval.natAbs := by
  have h : (ofNat 128 (2^100)).val = 2^100 := val_ofNat_of_lt (by norm_num)
  have hc : (ofNat 128 (2^100)).Canonical := by unfold Canonical; rw [h]; norm_num
  refine ⟨hc, ?_⟩
  rw [sval_canonical hc, h]; norm_num
example : (ofNat 128 (2^128 - 5)).Canonical ∧ (ofNat 128 (2^128 - 5)).sval.natAbs < 2^64
    ∧ (ofNat 128 (2^128 - 5)).sval < 0 := by
  have h : (ofNat 128 (2^128 - 5)).val = 2^128 - 5 := val_ofNat_of_lt (by norm_num)
  have hc : (ofNat 128 (2^128 - 5)).Canonical := by unfold Canonical; rw [h]; norm_num
  refine ⟨hc, ?_⟩
  rw [sval_canonical hc, h]; norm_num

end EvalRound

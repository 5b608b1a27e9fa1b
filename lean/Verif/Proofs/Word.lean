import Verif.Model.Word
import Mathlib.Tactic.Ring
import Mathlib.Tactic.Linarith
import Mathlib.Data.Nat.ModEq
import Mathlib.Data.ZMod.Basic
import Mathlib.FieldTheory.Finite.Basic

namespace EvalRound

theorem W_lt (a : W) : a.toNat < 2^64 := a.isLt

theorem low32_toNat (a : W) : ((a <<< 32) >>> 32).toNat = a.toNat % 2^32 := by
  simp only [BitVec.toNat_ushiftRight, BitVec.toNat_shiftLeft, Nat.shiftLeft_eq,
    Nat.shiftRight_eq_div_pow]
  omega

theorem high32_toNat (a : W) : (a >>> 32).toNat = a.toNat / 2^32 := by
  simp only [BitVec.toNat_ushiftRight, Nat.shiftRight_eq_div_pow]

theorem mul_nat (a b : Nat) (ha : a < 2^64) (hb : b < 2^64) :
    let ah := a / 2^32; let al := a % 2^32; let bh := b / 2^32; let bl := b % 2^32
    let cll := al * bl % 2^64
    let clh := al * bh % 2^64
    let chl := ah * bl % 2^64
    let chh := ah * bh % 2^64
    let chl' := (chl + (cll / 2^32 + clh % 2^32) % 2^64) % 2^64
    let hi := (chh + (chl' / 2^32 + clh / 2^32) % 2^64) % 2^64
    let lo := (cll % 2^32 + chl' * 2^32 % 2^64) % 2^64
    lo + 2^64 * hi = a * b := by
  intro ah al bh bl cll clh chl chh chl' hi lo
  have h1 : al ≤ 2^32 - 1 := by omega
  have h2 : bl ≤ 2^32 - 1 := by omega
  have h3 : ah ≤ 2^32 - 1 := by omega
  have h4 : bh ≤ 2^32 - 1 := by omega
  have e1 : al * bl ≤ (2^32-1)*(2^32-1) := Nat.mul_le_mul h1 h2
  have e2 : al * bh ≤ (2^32-1)*(2^32-1) := Nat.mul_le_mul h1 h4
  have e3 : ah * bl ≤ (2^32-1)*(2^32-1) := Nat.mul_le_mul h3 h2
  have e4 : ah * bh ≤ (2^32-1)*(2^32-1) := Nat.mul_le_mul h3 h4
  have ea : a = ah * 2^32 + al := by omega
  have eb : b = bh * 2^32 + bl := by omega
  have eab : a * b = ah * bh * 2^64 + (ah * bl + al * bh) * 2^32 + al * bl := by
    rw [ea, eb]; ring
  rw [eab]
  clear_value ah al bh bl
  have p1 : cll = al * bl := Nat.mod_eq_of_lt (by omega)
  have p2 : clh = al * bh := Nat.mod_eq_of_lt (by omega)
  have p3 : chl = ah * bl := Nat.mod_eq_of_lt (by omega)
  have p4 : chh = ah * bh := Nat.mod_eq_of_lt (by omega)
  simp only [← p1, ← p2, ← p3, ← p4] at *
  clear_value cll clh chl chh
  clear p1 p2 p3 p4 ea eb eab ha hb
  have q1 : chl' = chl + (cll / 2^32 + clh % 2^32) := by omega
  clear_value chl'
  have bnd : chh + (chl' / 2^32 + clh / 2^32) < 2^64 := by
    omega
  omega

theorem mul_spec (a b : W) :
    (mul a b).1.toNat + 2^64 * (mul a b).2.toNat = a.toNat * b.toNat := by
  have := mul_nat a.toNat b.toNat (W_lt a) (W_lt b)
  simp only [] at this
  rw [← this]
  clear this
  have hm : ∀ x : Nat, x * 2^32 % 2^64 / 2^32 = x % 2^32 := by intro x; omega
  unfold mul
  simp only [BitVec.toNat_add, BitVec.toNat_mul, high32_toNat, BitVec.toNat_shiftLeft,
    Nat.shiftLeft_eq, hm, Nat.mod_mod_of_dvd _ (show 2^32 ∣ 2^64 by decide)]

theorem mod_spec (al ah q : W) (hq : q ≠ 0) :
    mod al ah q = pure (BitVec.ofNat 64 ((ah.toNat * 2^64 + al.toNat) % q.toNat)) := by
  have hq0 : q.toNat ≠ 0 := fun h => hq (BitVec.eq_of_toNat_eq (by simpa using h))
  have hq' : (q.setWidth 128 : BitVec 128) ≠ 0 := by
    intro h
    have := congrArg BitVec.toNat h
    simp only [BitVec.toNat_setWidth] at this
    have h2 := W_lt q
    rw [Nat.mod_eq_of_lt (by omega)] at this
    exact hq0 (by simpa using this)
  unfold mod
  simp only [hq', if_false]
  congr 1
  apply BitVec.eq_of_toNat_eq
  have h1 := W_lt al
  have h2 := W_lt ah
  have h3 := W_lt q
  simp only [BitVec.toNat_setWidth, BitVec.toNat_umod, BitVec.toNat_add, BitVec.toNat_shiftLeft,
    Nat.shiftLeft_eq, BitVec.toNat_ofNat]
  rw [Nat.mod_eq_of_lt (a := ah.toNat) (by omega), Nat.mod_eq_of_lt (a := al.toNat) (by omega),
    Nat.mod_eq_of_lt (a := q.toNat) (by omega),
    Nat.mod_eq_of_lt (a := ah.toNat * 2^64) (by omega), Nat.mod_eq_of_lt (b := 2^128) (by omega)]

theorem mod_zero (al ah : W) : mod al ah 0 = ub := by
  unfold mod; simp

theorem mulu_spec (a b : W) :
    (mul_ a b).1.toNat + 2^64 * (mul_ a b).2.toNat = a.toNat * b.toNat := by
  have h1 := W_lt a
  have h2 := W_lt b
  have h3 : a.toNat * b.toNat < 2^64 * 2^64 := Nat.mul_lt_mul'' h1 h2
  simp only [mul_, BitVec.toNat_setWidth, BitVec.toNat_mul, BitVec.toNat_ushiftRight,
    Nat.shiftRight_eq_div_pow]
  rw [Nat.mod_eq_of_lt (a := a.toNat) (by omega), Nat.mod_eq_of_lt (a := b.toNat) (by omega)]
  omega

theorem divInstr_spec (rdx rax d : W) (h : rdx.toNat < d.toNat) :
    divInstr rdx rax d = pure (BitVec.ofNat 64 ((rdx.toNat * 2^64 + rax.toNat) / d.toNat),
      BitVec.ofNat 64 ((rdx.toNat * 2^64 + rax.toNat) % d.toNat)) := by
  have hd : d ≠ 0 := by rintro rfl; simp at h
  have hlt : (rdx.toNat * 2^64 + rax.toNat) / d.toNat < 2^64 := by
    rw [Nat.div_lt_iff_lt_mul (by omega)]
    have h1 := W_lt rax
    have : (rdx.toNat + 1) * 2^64 ≤ d.toNat * 2^64 := Nat.mul_le_mul_right _ h
    rw [Nat.mul_comm]; omega
  simp only [divInstr, hd, hlt, if_true, if_false]

theorem mod_asm_eq (al ah q : W) (hq : q ≠ 0) : mod_asm al ah q = mod al ah q := by
  have hq0 : 0 < q.toNat := Nat.pos_of_ne_zero
    fun h => hq (BitVec.eq_of_toNat_eq (by simpa using h))
  have h3 := W_lt q
  have ml : ah.toNat % q.toNat < q.toNat := Nat.mod_lt _ hq0
  have ml' : al.toNat % q.toNat < q.toNat := Nat.mod_lt _ hq0
  rw [mod_spec _ _ _ hq]
  unfold mod_asm
  rw [divInstr_spec _ _ _ (by simpa using hq0)]
  simp only [pure_bind]
  rw [divInstr_spec _ _ _ (by simpa using hq0)]
  simp only [pure_bind]
  have e1 : (BitVec.ofNat 64 (((0 : W).toNat * 2^64 + ah.toNat) % q.toNat)).toNat
      = ah.toNat % q.toNat := by
    simp only [BitVec.toNat_ofNat, BitVec.ofNat_eq_ofNat, Nat.zero_mod, Nat.zero_mul, Nat.zero_add]
    exact Nat.mod_eq_of_lt (by omega)
  have e2 : (BitVec.ofNat 64 (((0 : W).toNat * 2^64 + al.toNat) % q.toNat)).toNat
      = al.toNat % q.toNat := by
    simp only [BitVec.toNat_ofNat, BitVec.ofNat_eq_ofNat, Nat.zero_mod, Nat.zero_mul, Nat.zero_add]
    exact Nat.mod_eq_of_lt (by omega)
  rw [divInstr_spec _ _ _ (by rw [e1]; exact ml)]
  simp only [pure_bind, e1, e2]
  refine congrArg (fun x => (pure (BitVec.ofNat 64 x) : M W)) ?_
  rw [Nat.add_mod, Nat.mod_mod, Nat.mul_mod, Nat.mod_mod, ← Nat.mul_mod, ← Nat.add_mod]

theorem ofNat_mod_toNat (x : Nat) (q : W) (hq : q ≠ 0) :
    (BitVec.ofNat 64 (x % q.toNat)).toNat = x % q.toNat := by
  have hq0 : 0 < q.toNat := Nat.pos_of_ne_zero
    fun h => hq (BitVec.eq_of_toNat_eq (by simpa using h))
  have := Nat.mod_lt x hq0
  have h3 := W_lt q
  simp only [BitVec.toNat_ofNat]
  exact Nat.mod_eq_of_lt (by omega)

theorem add_mod_spec (a b q : W) (hq : q ≠ 0) :
    add_mod a b q = pure (BitVec.ofNat 64 ((a.toNat + b.toNat) % q.toNat)) := by
  unfold add_mod
  rw [mod_spec _ _ _ hq]
  congr 3
  have h1 := W_lt a
  have h2 := W_lt b
  by_cases h : a + b < a
  · rw [BitVec.lt_def, BitVec.toNat_add] at h
    have : (a + b < a) := by rw [BitVec.lt_def, BitVec.toNat_add]; exact h
    simp only [this, if_true, BitVec.toNat_add]
    have : (1 : W).toNat = 1 := rfl
    omega
  · simp only [h, if_false, BitVec.toNat_add]
    rw [BitVec.lt_def, BitVec.toNat_add] at h
    have : (0 : W).toNat = 0 := rfl
    omega

theorem mul_mod_spec (a b q : W) (hq : q ≠ 0) :
    mul_mod a b q = pure (BitVec.ofNat 64 ((a.toNat * b.toNat) % q.toNat)) := by
  unfold mul_mod
  simp only []
  rw [mod_spec _ _ _ hq, ← mulu_spec a b]
  congr 3; ring

theorem sub_mod_spec (a b q : W) (hq : q ≠ 0) :
    sub_mod a b q = pure (BitVec.ofNat 64 ((a.toNat + (q.toNat - b.toNat % q.toNat)) % q.toNat)) := by
  have hq0 : 0 < q.toNat := Nat.pos_of_ne_zero
    fun h => hq (BitVec.eq_of_toNat_eq (by simpa using h))
  unfold sub_mod
  simp only [hq, if_false]
  rw [add_mod_spec _ _ _ hq]
  have : (q - b % q).toNat = q.toNat - b.toNat % q.toNat := by
    have h3 := W_lt q
    have := Nat.mod_lt b.toNat hq0
    rw [BitVec.toNat_sub, BitVec.toNat_umod]
    omega
  rw [this]

theorem pow_mod_spec (a n q : W) (hq : 1 < q.toNat) :
    pow_mod a n q = pure (BitVec.ofNat 64 ((a.toNat ^ n.toNat) % q.toNat)) := by
  have hq' : q ≠ 0 := by rintro rfl; simp at hq
  induction n using pow_mod.induct with
  | case1 =>
    unfold pow_mod
    simp [Nat.mod_eq_of_lt hq]
  | case2 n hn ih =>
    unfold pow_mod
    simp only [hn, dif_neg, not_false_iff]
    rw [ih]
    simp only [pure_bind]
    rw [mul_mod_spec _ _ _ hq']
    simp only [pure_bind, ofNat_mod_toNat _ _ hq']
    have hdiv : (n / 2).toNat = n.toNat / 2 := by simp
    have hmod : (n % 2).toNat = n.toNat % 2 := by simp
    rw [hdiv]
    have key : (a.toNat ^ (n.toNat / 2) % q.toNat * (a.toNat ^ (n.toNat / 2) % q.toNat)) % q.toNat
        = a.toNat ^ (2 * (n.toNat / 2)) % q.toNat := by
      rw [← Nat.mul_mod, ← pow_add]; congr 2; omega
    rw [key]
    by_cases h : n % 2 = 1
    · rw [if_pos h, mul_mod_spec _ _ _ hq', ofNat_mod_toNat _ _ hq']
      have h1 : n.toNat % 2 = 1 := by rw [← hmod, h]; rfl
      congr 2
      rw [Nat.mul_mod, Nat.mod_mod, ← Nat.mul_mod, ← pow_succ']
      congr 2; omega
    · rw [if_neg h]
      have h1 : n.toNat % 2 ≠ 1 := by
        intro h1; exact h (BitVec.eq_of_toNat_eq (by rw [hmod, h1]; rfl))
      have e : 2 * (n.toNat / 2) = n.toNat := by omega
      rw [e]

theorem pow_mod_zero (a q : W) : pow_mod a 0 q = pure 1 := by
  unfold pow_mod; simp

theorem inv_mod_spec (a q : W) (hp : q.toNat.Prime) (ha : ¬ q.toNat ∣ a.toNat) :
    ∃ r : W, inv_mod a q = pure r ∧ r.toNat < q.toNat ∧ a.toNat * r.toNat % q.toNat = 1 := by
  have hq : 1 < q.toNat := hp.one_lt
  have hq' : q ≠ 0 := by rintro rfl; simp at hq
  refine ⟨_, pow_mod_spec a (q - 2) q hq, ?_, ?_⟩
  · rw [ofNat_mod_toNat _ _ hq']; exact Nat.mod_lt _ (by omega)
  · rw [ofNat_mod_toNat _ _ hq']
    have h2 : (q - 2).toNat = q.toNat - 2 := by
      have h3 := W_lt q
      rw [BitVec.toNat_sub]
      have : (2 : W).toNat = 2 := rfl
      omega
    rw [h2, Nat.mul_mod, Nat.mod_mod, ← Nat.mul_mod, ← pow_succ']
    have e : q.toNat - 2 + 1 = q.toNat - 1 := by omega
    rw [e]
    have := Fact.mk hp
    have hne : (a.toNat : ZMod q.toNat) ≠ 0 := by
      rwa [Ne, ZMod.natCast_eq_zero_iff]
    have := ZMod.pow_card_sub_one_eq_one hne
    have h4 : ((a.toNat ^ (q.toNat - 1) : Nat) : ZMod q.toNat) = ((1 : Nat) : ZMod q.toNat) := by
      push_cast; exact this
    have h5 := (ZMod.natCast_eq_natCast_iff' _ _ _).1 h4
    rw [h5, Nat.mod_eq_of_lt hq]

end EvalRound

import Verif.Proofs.Str

/-! # C10: decimal text -/

namespace EvalRound
open Z_Q

variable {L : Nat}

/-- C10: `to_str` terminates and leaves the decimal digits of the value, NUL-terminated, in any
buffer of at least 520 characters, using less than 520 of them. -/
theorem C10_to_str (x : Z_Q L) (hL : L ≤ 1300) {cap : Nat} (hcap : 520 ≤ cap)
    (str : Fin cap → BitVec 8) :
    Ok (to_str x str) fun s => cstr s = decText x.val ∧ (decText x.val).length < 520 :=
  Ok.mono (to_str_spec x hL hcap str) fun _ h => ⟨h.1, by have := h.2; omega⟩

/-- C10: a wider modulus makes `to_str` stop at its assertion. -/
theorem C10_to_str_assert (x : Z_Q L) (hL : 1300 < L) {cap : Nat} (str : Fin cap → BitVec 8) :
    to_str x str = throw Fault.assertFail := by
  unfold to_str
  have : assertM (decide (L ≤ 1300)) = throw Fault.assertFail := by
    simp [assertM, Nat.not_le.2 hL]
  simp only [this]
  rfl

/-- C10: `fr_str` reads any digit string of at most 520 digits whose number fits the limbs. -/
theorem C10_fr_str [NeZero L] (ds : List Nat) (hd : ∀ d ∈ ds, d < 10) (hlen : ds.length ≤ 520)
    (hlt : readDigits ds < 2^(64 * nlimb L)) :
    Ok (fr_str L (ds.map chr)) fun x => x.val = readDigits ds := fr_str_spec L ds hd hlen hlt

/-- C10: a longer text overruns the digit buffer. -/
theorem C10_fr_str_long (str : List (BitVec 8)) (h : 520 < str.length) : fr_str L str = ub := by
  unfold fr_str; rw [if_pos h]

/-- C10: writing and reading back gives the same object. -/
theorem C10_round_trip [NeZero L] (x : Z_Q L) (hL : L ≤ 1300) (str : Fin 520 → BitVec 8) :
    (to_str x str >>= fun s => fr_str L (cstr s)) = pure x := by
  obtain ⟨s, hs, h1, h2⟩ := to_str_spec x hL le_rfl str
  rw [hs, pure_bind, h1]
  have hl : (decDigits x.val).length ≤ 520 := by
    have : (decText x.val).length = (decDigits x.val).length := List.length_map _
    omega
  obtain ⟨y, hy, hv⟩ := fr_str_spec L (decDigits x.val) (decDigits_lt _) hl
    (by rw [decDigits_read]; exact x.val_lt)
  show fr_str L ((decDigits x.val).map chr) = _
  rw [hy]
  rw [val_inj (x := y) (y := x) (by rw [hv, decDigits_read])]

-- the hypotheses hold for a 1270-bit modulus and for the text "18446744073709551616" = 2^64
example : (1270 : Nat) ≤ 1300 ∧ decText 1000 = [49, 48, 48, 48] := by
  constructor
  · norm_num
  · norm_num [decText, decDigits, chr]; decide
example : readDigits [1,8,4,4,6,7,4,4,0,7,3,7,0,9,5,5,1,6,1,6] = 2^64 ∧ 2^64 < 2^(64 * nlimb 100) := by
  constructor
  · norm_num [readDigits, Nat.ofDigits]
  · norm_num [nlimb]

end EvalRound

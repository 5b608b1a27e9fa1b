import Verif.Base.Sem

/-!
# Word-level arithmetic: `mul` of Z_Q.h and all of arith/conv/mod.h
-/

namespace EvalRound

/-- `mul(a,b,lo,hi)`, include/HEAAN/arith/Z_Q.h:238-250. Returns `(lo, hi)`. -/
def mul (a b : W) : W × W :=
  let ah := a >>> 32
  let al := (a <<< 32) >>> 32
  let bh := b >>> 32
  let bl := (b <<< 32) >>> 32
  let cll := al * bl
  let clh := al * bh
  let chl := ah * bl
  let chh := ah * bh
  let chl := chl + ((cll >>> 32) + ((clh <<< 32) >>> 32))
  let chh := chh + ((chl >>> 32) + (clh >>> 32))
  let hi := chh
  let lo := ((cll <<< 32) >>> 32) + (chl <<< 32)
  (lo, hi)

/-- `mod(al,ah,q)`, the `__int128` branch, include/HEAAN/arith/conv/mod.h:28-34.
`%` by zero is undefined. -/
def mod (al ah q : W) : M W :=
  let a : BitVec 128 := ah.setWidth 128
  let b := a <<< 64
  let c := b + al.setWidth 128
  let q' : BitVec 128 := q.setWidth 128
  if q' = 0 then ub else
  let d := c % q'
  pure (d.setWidth 64)

/-- `mul_(a,b,lo,hi)`, the `__int128` branch, include/HEAAN/arith/conv/mod.h:36-42.
Returns `(lo, hi)`. -/
def mul_ (a b : W) : W × W :=
  let a128 : BitVec 128 := a.setWidth 128
  let b128 : BitVec 128 := b.setWidth 128
  let c := a128 * b128
  (c.setWidth 64, (c >>> 64).setWidth 64)

/-- The x86 instruction `div r8`: divides `rdx:rax` by `d`, giving `(rax, rdx)` =
(quotient, remainder); it traps when `d = 0` or the quotient does not fit 64 bits. Used in assembly/mod.asm:19-38,
called from mod.h:14-21. -/
def divInstr (rdx rax d : W) : M (W × W) :=
  let n := rdx.toNat * 2^64 + rax.toNat
  if d = 0 then ub
  else if n / d.toNat < 2^64 then pure (BitVec.ofNat 64 (n / d.toNat), BitVec.ofNat 64 (n % d.toNat))
  else ub

/-- `mod_asm`, the MSVC branch, include/HEAAN/arith/conv/assembly/mod.asm:19-38
(arguments in `rcx, rdx, r8`, result in `rax`). -/
def mod_asm (al ah q : W) : M W := do
  let (_, rdx) ← divInstr 0 al q      -- mov rax,rcx; mov rcx,rdx; xor rdx,rdx; div r8
  let r9 := rdx                       -- mov r9,rdx
  let (_, rdx) ← divInstr 0 ah q      -- mov rax,rcx; xor rdx,rdx; div r8
  let (_, rdx) ← divInstr rdx r9 q    -- mov rax,r9; div r8
  pure rdx                            -- mov rax,rdx

/-- The x86 instruction `mul r`: `rdx:rax := rax * r`. Returns `(rax, rdx)`. Used in assembly/mul_lo.asm:12-13 and
assembly/mul_hi.asm:12-14, called from mod.h:14-21. -/
def mulInstr (rax r : W) : W × W :=
  let n := rax.toNat * r.toNat
  (BitVec.ofNat 64 n, BitVec.ofNat 64 (n / 2^64))

/-- `mul_lo_asm`, include/HEAAN/arith/conv/assembly/mul_lo.asm:12-13. -/
def mul_lo_asm (a b : W) : W := (mulInstr a b).1

/-- `mul_hi_asm`, include/HEAAN/arith/conv/assembly/mul_hi.asm:12-14. -/
def mul_hi_asm (a b : W) : W := (mulInstr a b).2

/-- `add_mod(a,b,q)`, include/HEAAN/arith/conv/mod.h:46-51. -/
def add_mod (a b q : W) : M W :=
  let tempL := a + b
  let tempH : W := if tempL < a then 1 else 0
  mod tempL tempH q

/-- `sub_mod(a,b,q)`, include/HEAAN/arith/conv/mod.h:54-56. -/
def sub_mod (a b q : W) : M W :=
  if q = 0 then ub else
  add_mod a (q - (b % q)) q

/-- `mul_mod(a,b,q)`, include/HEAAN/arith/conv/mod.h:59-63. -/
def mul_mod (a b q : W) : M W :=
  let (tempL, tempH) := mul_ a b
  mod tempL tempH q

/-- `pow_mod(a,n,q)`, include/HEAAN/arith/conv/mod.h:66-74. -/
def pow_mod (a n q : W) : M W :=
  if h : n = 0 then pure 1
  else do
    let res ← pow_mod a (n / 2) q
    let res ← mul_mod res res q
    if n % 2 = 1 then mul_mod a res q else pure res
termination_by n.toNat
decreasing_by
  have h0 : n.toNat ≠ 0 := fun h' => h (BitVec.eq_of_toNat_eq (by simpa using h'))
  have : (n / 2).toNat = n.toNat / 2 := by simp
  omega

/-- `inv_mod(a,q)`, include/HEAAN/arith/conv/mod.h:77-79. -/
def inv_mod (a q : W) : M W := pow_mod a (q - 2) q

end EvalRound

import Verif.Model.Word
import Verif.Model.Util

/-!
# include/HEAAN/arith/conv/ntt.h

`int` index arithmetic inside `ntt` and `intt` stays below `2*N`; the only step that can overflow
(`m *= 2`) is checked.
-/

namespace EvalRound

/-- `std::set<uint64_t>::insert`: an ordered list without repetitions, called in ntt.h:12, 18, 24. -/
def setInsert (x : W) : List W → List W
  | [] => [x]
  | y :: s => if x = y then y :: s else if x < y then x :: y :: s else y :: setInsert x s

/-- The loops `while(n % d == 0) { s.insert(d); n /= d; }`, ntt.h:11-14 and 17-20.
`%` by zero is undefined. -/
def divOut (d : W) (s : List W) (n : W) : M (List W × W) :=
  if d = 0 then ub else
  whileM (fun st : List W × W => st.2 % d == 0) (fun st => pure (setInsert d st.1, st.2 / d)) (s, n)

/-- `findPrimeFactors(s,n)`, ntt.h:8-25. Loop state `((s, n), i)`; `i*i` wraps modulo 2^64. -/
def findPrimeFactors (n : W) : M (List W) := do
  let st ← divOut 2 [] n
  let st ← whileM (fun st : (List W × W) × W => decide (st.2 * st.2 ≤ st.1.2)) (fun st => do
    let r ← divOut st.2 st.1.1 st.1.2
    pure (r, st.2 + 2)) (st, 3)
  let s := st.1.1
  let n := st.1.2
  pure (if 2 < n then setInsert n s else s)

/-- The inner loop of `findPrimitiveRoot`, ntt.h:33-39: the value of `passed`. -/
def rootPasses (r phi prime : W) : List W → M Bool
  | [] => pure true
  | it :: s =>
    if it = 0 then ub else do
    let t ← pow_mod r (phi / it) prime
    if t = 1 then pure false else rootPasses r phi prime s

/-- `findPrimitiveRoot(prime)`, ntt.h:28-46. Loop state `(r, returned value)`. -/
def findPrimitiveRoot (prime : W) : M W := do
  let phi := prime - 1
  let s ← findPrimeFactors phi
  let st ← whileM (fun st : W × Option W => decide (st.1 ≤ phi) && st.2.isNone) (fun st => do
    let passed ← rootPasses st.1 phi prime s
    pure (if passed then (st.1, some st.1) else (st.1 + 1, none))) (2, none)
  pure (st.2.getD 0)

/-- `struct NTT<N>`, ntt.h:49-60. -/
structure NTT (N : Nat) where
  q : W
  psi_rev : Fin N → W
  inv_psi_rev : Fin N → W
  inv_N : W

/-- The loops that fill `psi_orig` and `inv_psi_orig`, ntt.h:74-78 and 88-91. The local array is
indeterminate at first. -/
def powTable (N : Nat) (psi q : W) : M (Mem N W) := do
  let a ← wrM (fun _ => none) 0 1
  forUp 1 N (fun i a => do
    let p ← rdM a (i - 1)
    let v ← mul_mod psi p q
    wrM a i v) a

/-- The constructor `NTT<N>::NTT(q)`, ntt.h:62-99. `2*N` is an `int` product; the division by it is
unsigned 64-bit. -/
def NTT.new (N : Nat) (q : W) : M (NTT N) := do
  let LOGN ← logInt N
  let psi ← findPrimitiveRoot q
  if 2 * N > INT_MAX ∨ 2 * N = 0 then ub else
  let psi ← pow_mod psi ((q - 1) / BitVec.ofNat 64 (2 * N)) q
  let psi_orig ← powTable N psi q
  let psi_rev ← tabM N (fun i => do
    let b ← bitReverse (BitVec.ofNat 32 i) LOGN
    rdM psi_orig b.toNat)
  let inv_psi ← inv_mod psi q
  let inv_psi_orig ← powTable N inv_psi q
  let inv_psi_rev ← tabM N (fun i => do
    let b ← bitReverse (BitVec.ofNat 32 i) LOGN
    rdM inv_psi_orig b.toNat)
  let inv_N ← inv_mod (BitVec.ofNat 64 N) q
  pure ⟨q, psi_rev, inv_psi_rev, inv_N⟩

variable {N : Nat}

/-- The innermost loop of `ntt`, ntt.h:108-113. -/
def nttInner (q S : W) (j1 t : Nat) (a : Fin N → W) : M (Fin N → W) :=
  forUp j1 (j1 + t) (fun j a => do
    let U ← rd a j
    let x ← rd a (j + t)
    let V ← mul_mod x S q
    let u ← add_mod U V q
    let a ← wr a j u
    let v ← sub_mod U V q
    wr a (j + t) v) a

/-- One round of the outer loop of `ntt`, ntt.h:104-114. -/
def nttStage (T : NTT N) (m t : Nat) (a : Fin N → W) : M (Fin N → W) :=
  forUp 0 m (fun i a => do
    let j1 := 2 * i * t
    let S ← rd T.psi_rev (m + i)
    nttInner T.q S j1 t a) a

/-- `NTT<N>::ntt`, ntt.h:101-116. Loop state `(a, m, t)`. -/
def NTT.ntt (T : NTT N) (a : Fin N → W) : M (Fin N → W) := do
  let s ← whileM (fun s : (Fin N → W) × Nat × Nat => decide (s.2.1 < N)) (fun s => do
    let a ← nttStage T s.2.1 s.2.2 s.1
    if s.2.1 * 2 ≤ INT_MAX then pure (a, s.2.1 * 2, s.2.2 / 2) else ub) (a, 1, N / 2)
  pure s.1

/-- The innermost loop of `intt`, ntt.h:126-131. -/
def inttInner (q S : W) (j1 t : Nat) (a : Fin N → W) : M (Fin N → W) :=
  forUp j1 (j1 + t) (fun j a => do
    let U ← rd a j
    let V ← rd a (j + t)
    let u ← add_mod U V q
    let a ← wr a j u
    let d ← sub_mod U V q
    let v ← mul_mod d S q
    wr a (j + t) v) a

/-- One round of the outer loop of `intt`, ntt.h:121-133; state `(a, j1)`. -/
def inttStage (T : NTT N) (m t : Nat) (a : Fin N → W) : M (Fin N → W) := do
  let h := m / 2
  let s ← forUp 0 h (fun i (s : (Fin N → W) × Nat) => do
    let S ← rd T.inv_psi_rev (h + i)
    let a ← inttInner T.q S s.2 t s.1
    pure (a, s.2 + 2 * t)) (a, 0)
  pure s.1

/-- `NTT<N>::intt`, ntt.h:118-138. Loop state `(a, t, m)`. -/
def NTT.intt (T : NTT N) (a : Fin N → W) : M (Fin N → W) := do
  let s ← whileM (fun s : (Fin N → W) × Nat × Nat => decide (1 < s.2.2)) (fun s => do
    let a ← inttStage T s.2.2 s.2.1 s.1
    if s.2.1 * 2 ≤ INT_MAX then pure (a, s.2.1 * 2, s.2.2 / 2) else ub) (a, 1, N)
  forUp 0 N (fun j a => do
    let x ← rd a j
    let v ← mul_mod x T.inv_N T.q
    wr a j v) s.1

end EvalRound

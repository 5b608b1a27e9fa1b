# Formal model of CryptoLabInc/EvalRound in Lean 4

## Shape of the development

* `lean/Verif/Base/` – semantics of the C++ fragment: 64-bit words (`BitVec 64`), arrays
  (`Fin n → α`, so an access through a typed index is in bounds), loops, and a monad `M` whose
  outcomes are *value*, *undefined behaviour* (`Fault.ub`: out-of-bounds access, division by zero,
  over-wide shift, signed overflow, use of an uninitialised object), *assertion failure* and
  *divergence*.
* `lean/Verif/Model/` – the model, function by function; every definition cites file and lines.
* `lean/Verif/Spec/` – the small specification the properties are stated with (integers modulo
  2^k, negacyclic product, signed representative, matrices, canonical embedding...). It does not
  mention the model.
* `lean/Verif/Proofs/` – helper lemmas.
* `lean/Verif/Props/` – the property theorems `C01_...`, each with a non-vacuity `example`.

Template integers (`LOGQ`, `N`, `L`...) are natural-number parameters. `Z_Q<0>` would declare a
zero-length array, which C++ rejects, so `LOGQ ≥ 1` is a compile-time fact (`[NeZero LOGQ]`).

## Trusted base

* Lean's kernel. Every property theorem depends on at most `propext`, `Classical.choice` and `Quot.sound`; the development adds no
  axiom and uses neither `sorry` nor `native_decide` nor `bv_decide`. `tools/axioms.py` prints the axioms used by the theorems named
  in MANIFEST.json (at C119: 480 of 497 use all three, 15 `propext` and `Quot.sound`, two only `propext`).
* The reading of the C++ source into the definitions of `Verif/Model`. The code is never compiled or run; each definition cites
  the lines it was written from.
* The statements in `Verif/Props` and the definitions they use from `Verif/Spec`.

## Simplifications

* `double` is exact real arithmetic, and `PI`, `cos`, `sin`, `sqrt`, `log2`, `pow`, `round` have their exact meanings, except in
  `Verif/Model/Float.lean`, which models DFT.h, the matrix-vector product and endecode.h again with every operation rounded to
  binary64 (nearest, ties to even, subnormals; overflow counts as undefined), and `Verif/Model/FloatBoot.lean`, `Verif/Model/FloatDriver.lean`, `Verif/Model/FloatMessage.lean` and `Verif/Model/FloatSection3.lean`, which do the
  same for the sparse products, linear_transform.h, `EvalMod`, the bootstrapping pipelines and their drivers, and the experiments of section 3. There `cos`, `sin` and `pow` are parameters
  and the theorems assume that `cos` and `sin` are within 2^-52 on [-7,7] and `pow` within a relative error of 2^-52. Multiplications and additions are not fused. Conversions from `double` to integers are checked: out of range is undefined.
* The unqualified `abs` of endecode.h:15 is read as the overload for `double`: DFT.h:6, included before it, brings in `<math.h>`, which
  declares that overload in the global namespace. A library that offered only `abs(int)` there would truncate the coefficients of `encode`.
* `rand()` is an arbitrary stream `Nat → Nat` (reduced to `[0, RAND_MAX]` where the code relies on it); `dist(gen)` an arbitrary
  stream of reals. Theorems quantify over all streams; where one only holds for some (keygen returns, range of the numbers
  drawn), that is a hypothesis.
* Local objects which the code leaves uninitialised are parameters of the model where their contents can matter (`ct0` of `enc`,
  the accumulator of `linear_transform` with a key array) and start as zero where every element is written before it is read.
* Stack size, `Timer`, and writing to stdout are left out. Drivers return the numbers they would print.
* `#pragma omp parallel for` loops are modelled in source order in `Verif/Model`; `Verif/Model/Par.lean` models the same loops
  as threads of atomic reads and writes, and C38 shows that all interleavings give the result of the source order.
* Function-level `static` tables are recomputed by the model at each call; `Verif/Model/Static.lean` models the caching and C39
  shows that after any history of calls the result is the same.
* Template integers are natural numbers; products of template integers that occur as array sizes are not checked for overflow,
  run-time `int` arithmetic is.
* The range of the raised message (`|I|` within the range of EvalMod) is a hypothesis of C51, C52, C55, C57, C78, C79 and C80 for key weight
  above 45; C53 shows that it can fail for the shipped weight 128, so it cannot be dropped. It is proved for all keys of weight
  at most 45 (29 for C57).

## What is modelled

| source | model | properties |
|--------|-------|------------|
| util/util.h: `bitReverse32`, `bitReverse`, `rand_uint64`, `log`, `print_array` | Util, MatrixOut | C18, C41, C81 |
| arith/Z_Q.h: all members and `mul`, `resize`, `shift_left`, `shift_right`, `to_str`, `fr_str`, `operator double` | Word, ZQ, Str, Print, InPlace | C01, C04-C10, C43, C81, C109 |
| arith/R_Q.h, arith/R_Q_square.h | Ring, Print, InPlace | C08, C24, C43, C81, C109 |
| arith/conv/mod.h and the three .asm files | Word | C01-C03 |
| arith/conv/ntt.h | NTT | C11-C13 |
| arith/conv/crt.h | CRT | C14 |
| arith/conv/conv.h, arith/conv.h | Conv, Primes, Par, Static, InPlace, InPlaceInt | C15-C17, C38, C39, C44, C109, C119 |
| matrix/DFT.h | DFT, Static, Float, FloatDft | C28, C30, C39, C72, C74, C89 |
| matrix/matrix.h: all functions | Matrix, Float, FloatBoot, MatrixOut, InPlaceMvp, InPlaceMat | C31, C32, C45, C72, C75, C81, C82, C116, C117 |
| endecode.h | Endecode, Float | C29, C30, C73, C101 |
| core.h | Core, InPlace, InPlaceEnc | C19-C23, C27, C43, C54, C85, C86, C98-C101, C103, C105, C107, C108, C110, C111, C118 |
| linear_transform.h: `rot`, `conj`, `rot_ct`, `conj`, `linear_transform` (both), `serial_...`, `grouped_serial_...` | Rot, InPlace, InPlaceLT, LinTrans, FloatBoot | C25, C26, C33, C34, C42, C75, C76, C108, C112 |
| poly.h | Poly, Print | C36, C37 |
| bootstrap.h: `mod_raise`, `CoeffToSlot`, `SlotToCoeff`, `EvalMod` | Rot, LinTrans, EvalMod, Static, FloatBoot | C27, C35, C39, C46, C48-C50, C53, C75-C77, C102 |
| impl/message.h, impl/plaintext.h, impl/simple_plaintext.h | Endecode, LinTrans, Section3, MatrixOut, FloatSection3, FloatMessage, FloatMatmul, InPlaceSimple, InPlaceMvp | C29, C40, C45, C47, C67, C81, C83, C84, C93, C94, C113, C114, C115, C116 |
| experiment/setup.h: `set_test_message`, `set_random_message`, `set_evalmod_message`, `set_test_U0_matrix`, `print_max_error`, `set_test_rounded_message`, `set_test_matrix`, `set_random_matrix` | Driver, Measure, HomTests, Section3, FloatTests, FloatDft | C55-C59, C64, C66-C70, C87-C89 |
| test/bootstrap_test.cpp, test/evalqI_test.cpp, section4/proposal.cpp | Boot, Driver, FloatBoot, FloatDriver | C51, C52, C55, C56, C78, C79, C80, C85, C102 |
| test/mod_test.cpp, mul_test.cpp, crt_test.cpp, ntt_test.cpp | Tests | C62 |
| test/conv_test.cpp, ctxt_conv_test.cpp | HomTests, FloatTests | C63, C87, C103 |
| test/matmul_test.cpp | HomTests, Section3, FloatTests, FloatMatTest | C64, C70, C88, C96 |
| test/dft_test.cpp | Section3, FloatDft | C70, C89 |
| test/coeffToSlot_test.cpp, test/evalMod_test.cpp | HomTests, FloatTests | C65, C66, C87 |
| test/end_to_end_test.cpp | Measure, FloatMeasure | C57, C91, C104-C106 |
| section3/lemma_conv_error.cpp, lemma_conv_sum_error.cpp, theorem_single_matmul_error.cpp, theorem_serial_matmul_error.cpp | Section3, FloatSection3, FloatMatmul | C67-C69, C83, C93, C94 |
| section3/theorem_cts_error.cpp, section4/example_sup_norm.cpp | Measure, Design, FloatSup, FloatCtsErr | C58, C59, C61, C95, C97 |
| section4/measure_b_evalmod.cpp | BEvalmod, FloatBEvalmod | C71, C90 |
| section4/design_delta_tilde.cpp, design_delta_tilde_lattigo.cpp | Design, FloatDesign | C60, C61, C92 |

Not modelled: the text that `printf` and `std::cout` make from a `double` (a parameter `fmt`, or left out) and the fixed words
around it in the drivers; the dense `linear_transform` of linear_transform.h,
which does not compile when instantiated; `Timer`.

## Plan per property

| id | model | proof |
|----|-------|-------|
| C01 | `mul`, `mul_` on `BitVec 64` | value equation on `toNat`, no-overflow bounds |
| C02 | `mod`, `add_mod`, `sub_mod`, `mul_mod` in `M` (q = 0 is UB) | arithmetic |
| C03 | `pow_mod` recursion, `inv_mod` | strong induction; Fermat |
| C04 | limb loops of Z_Q.h | loop invariant on partial sums, for all LOGQ |
| C05 | aliased version of `+=` | counterexample theorem + exact characterisation |
| C06-C08 | `shift_right`, `shift_left`, `resize` limb loops | value equations |
| C09 | sign test, top digit, `operator double` with its rounding | value equations, witness for the dropped limbs |
| C10 | `to_str`/`fr_str` base conversion loops | invariants, termination measure |
| C11 | trial division, generator search with word arithmetic | loop invariants; the wrapping square reaches 2^64-7 at the latest; cyclicity of (Z/p)* |
| C12, C13 | in-place butterflies with checked indices | loop invariants; block = residue modulo X^n - r |
| C14 | CRT constructor, `crt`, `icrt` | congruences, uniqueness modulo the product |
| C15, C16 | prime table, CONV pipeline | composition; Pratt certificates checked in the kernel |
| C17, C44 | key convolutions | loop invariant; checked `int` arithmetic |
| C18 | SWAR bit reversal on `BitVec 32` | bitwise |
| C19 | `keygen` over a random stream | invariant; partial/total correctness; divergence for h>N |
| C20-C24, C26, C27 | `enc`, `dec`, `swkgen`, `ks`, `Mul`, `RS`, ... over arbitrary random streams | ring algebra in Z[X]/(X^N+1), explicit sup-norm bounds |
| C25 | `rot` with scattered writes | arithmetic of 5^r mod 2N |
| C28-C30, C35 | DFT.h, endecode.h over exact reals | DIT induction |
| C31, C32, C34 | SparseDiagonal | finite sums; invariant over histories |
| C33 | `linear_transform` | composition |
| C36, C37 | `convert_frc_tou`, `eval_poly_*` | Chebyshev identities; noise calculus |
| C38 | interleaving semantics of the parallel loops | commutation / invariant |
| C39 | static-cache state machine | invariant over histories |
| C40, C42 | checked indices / indeterminate object | negative theorems |
| C41 | `rand_uint64` | counting |
| C43 | all | invariant over histories |
| C45 | message.h | finite sums; aliasing counterexample |
| C46, C47 | `CoeffToSlot`, `SlotToCoeff` on ciphertexts, `matrix_vector_product` of plaintexts | composition of C33, C34 with explicit error terms |
| C48-C50 | `EvalMod` | noise calculus along the tree; Taylor bounds for the cosine; rational interval arithmetic |
| C51-C53 | the bootstrapping pipelines | composition; concrete key and ciphertext for the negative part |
| C54 | `keygen`, `enc` | explicit random streams reaching each value |
| C55-C57 | drivers from key generation to the numbers printed | composition; the checks of the test as norms |
| C58 | drivers that call `aggregate` | every step returns until the call, which is undefined |
| C59 | `check_sup_norm_bound` | loop invariants; Cauchy-Schwarz; constant message as witness |
| C60, C61 | design formulas | real powers; interval bounds on the eighth root of 2 |
| C62 | unit tests | C13, C14 at the moduli of the tests, with Pratt certificates |
| C63-C66 | tests on ciphertexts | noise calculus on freshly encrypted messages (Proofs/Fresh) |
| C67-C69 | section 3 drivers | exact identities for the measured number; integrals over the cube of rounding errors (Proofs/Uniform) |
| C70 | tests that print messages | C28, C31 |
| C71 | EvalMod a little outside its range | bounds of T_k by cosh; errors as multiples of one unit |
| C72 | transforms in binary64 | error of one butterfly level in the Euclidean norm, where the exact level is an isometry up to sqrt 2 |
| C73 | encoding and decoding in binary64 | C72; Horner's rule with a nonzero top limb; noise of C20 |
| C74 | rounding | the nearest multiple of the unit in the last place, against every other number of the format |
| C75 | sparse products in binary64 | invariant of the exact `MatMul` with an error per row; telescoping over the factors of a group |
| C76 | CtS, StC in binary64 | the exact proof with diagonals off by `matUlp G` per row and the encoding error of C73 |
| C77 | EvalMod in binary64 | rounded constants enter the exact error recursion as an extra input error at two places |
| C78 | bootstrapping in binary64 | the composition of C51 and C52 with C76 and C77; numbers by exact rational evaluation of the bounds |
| C79 | the drivers in binary64 | C55 with C73 and C80; the maxima differ from the exact ones by the rounding of one entry |
| C80 | L2 bounds in binary64 | the factors of the transforms multiply the L2 norm by √2 or √2/2 exactly, so errors add up without the factor `2^(n/2)` that a bound per slot loses; numbers by exact rational evaluation |
| C81 | output | loop invariants over the text; a text without commas is found again between commas |
| C82 | dense product | each triple loop changes one entry; in binary64 a sum of rounded terms |
| C83 | convolution experiments in binary64 | a double minus its nearest integer is exact; sums of rounded terms against Cauchy-Schwarz; the square root of a sum of squares |
| C84 | message.h in binary64 | induction over the sums with a bound relative to the sum of absolute values |
| C85 | probability of the range | moment generating function of a centred uniform coefficient (sinh), Chernoff and union bound as a count of the draws; equidistribution of the mask (C54); locality of keygen |
| C86 | uniform keys | one draw at a time: the number of draws that lead from a partial key to a key depends on the weights only (induction on the number of draws); mean number of draws and Markov's inequality for the draws that are not enough; number of keys |
| C87, C88 | test programs in binary64 | encoding, decoding and the homomorphic steps of C74-C80 composed; the bound on the slots is carried in the Euclidean norm through the two transforms |
| C89 | dft, idft and dft_test in binary64 | the rounding errors of a sum of N products, each twiddle factor with its own error; the round trips from the norm bounds of C74 |
| C90 | measure_b_evalmod in binary64 | the bounds of C71 outside of [-1, 1] for the coefficients rounded to binary64; the entries of the message from the half-ulp errors; norms of Message by C84 |
| C91 | end_to_end_test in binary64 | the coefficient bounds of C80 for the four steps; a lemma on one check: decoding, conversion, division, difference and norm in binary64 together cost at most 2^-20; the end of the driver shared with C79 |
| C92 | the design programs in binary64 | intervals around every rounded operation; `pow` and `log2` are parameters |
| C93 | theorem_single_matmul_error in binary64 | L2 bounds of `ifft`, `fft` and the products; the rounded message is a fixed point up to rounding errors |
| C94 | theorem_serial_matmul_error in binary64 | invariants of both loops in the L2 norm; operator norms of the computed factors; no coefficient wraps modulo 2^LOGQ |
| C95 | check_sup_norm_bound in binary64 | integers below 2^53 are exact; relative errors through sum, root and two divisions; not-a-number as a separate outcome |
| C96 | element_test and vector_test in binary64 | supports of the first two butterflies meet in one index; an accumulator gets one product and otherwise zeros; row sums for the messages |
| C97 | measure_cts_error and measure_sup_norm in binary64 | error budget of CoeffToSlot at scaling 2^50 (C87), low word of the raised message (C09), norms (C84), C40 for the out-of-bounds read |
| C98 | distribution of `enc` | locality of the draws (C41, C54) and a product decomposition; moments of `x%9` bounded by Gaussian moments termwise (the second by an exact count modulo 9, the higher ones by induction), Chernoff, squares of the cosines of a slot sum to N/2 |
| C99 | key switching with high probability | the exact error in terms of the product of the key's noise with the ciphertext (C21, C22, C26), the sub-Gaussian tail of C98 for each coefficient of the product, union bound |
| C100 | rescaling with high probability | the exact error of RS in terms of the residues of the mask modulo 2^(LF-LT), each uniform (C54), the sub-Gaussian tail of C85 for their product with the key, union bound |
| C101 | round trip in binary64 with high probability | the noise of one encryption is absorbed into the message through its slots, then the round trip of C73; the sub-Gaussian tail of C98 bounds the slots of the noise |
| C102 | the drivers return on every run | canonical ciphertexts are kept by every step of EvalMod, CoeffToSlot and SlotToCoeff whatever they hold; a decryption below 2^900 decodes without overflow |
| C103 | ctxt_conv_test over the draws | the key's draws and the encryption's draws are two independent blocks: for a fixed encryption the key noise enters through a product with a fixed polynomial (C99), the noise of the encryption through its slots (C98); union bound |
| C104 | end_to_end_test over the draws of the mask | the counting of C85 with the threshold 15.5 q, where the low limb determines the raised message, and `C91_errors` |
| C105 | the failures are reachable for every key | the mask that is the reversed key times a constant has a product with the key of weight times constant in the last coefficient and at most that elsewhere; C54 gives draws for every mask; `C91_errors` |
| C106 | end_to_end_test returns on every run | the accuracy of CoeffToSlot does not need the range of EvalMod and its check sees the missing multiples of 2^64; after EvalMod the modulus has 490 bits, so the squares in `sup_norm` stay below the largest `double`; when the check after CoeffToSlot is small the raised message fits 64 bits and C91 applies |
| C107 | parity of the sum of the coefficients | evaluation at 1 is a ring map from Z/2^Q[X]/(X^N+1) to Z/2; the difference of the counts is the product over the coefficients of the sum of (-1)^noise; for N = 2^j the 2^j-th power of a polynomial of odd sum is 1 plus a multiple of the nilpotent 2, so it is a unit and multiplies the uniform mask to a uniform polynomial |
| C108 | `Mul`, `conj`, `rot` in place | the same statements with the operand read from the object that is written (`Model/InPlace`); `mulSwitch` depends on the second components only; loop invariants for the partly overwritten polynomial |
| C109 | `conv` with an `int` array, `*=`, `resize` in place (`Model/InPlace`) | loop invariant that the finished coefficients are zero; `conv_spec` twice; the copy loop of `resize` reads what it has just cleared |
| C110 | `enc` twice on one stream; the beginning of the drivers | the mask does not depend on the previous content (`encMask_eq`), so mask, noise and product with the key cancel; the model leaves out `srand`, which no program calls |
| C111 | `dec` read for the key; `enc` over all draws of the mask | a polynomial with odd sum is invertible modulo `X^N+1` and `2^LOGQ` (`negconv_bij`), so `m - ct[0]` gives the key; the parity of the sum is balanced because the mask is uniform (C54) |
| C112 | `linear_transform` (both), `rot_ct`, `conj` with the result as operand | the accumulator stays zero through rotation, key switching and product (`ks_zero`, `rot_ct_zero`); `rot_ct` by C108 on ciphertexts with second component zero |
| C113 | `SimplePlaintext` `add`, `sub`, `conv`, `norm`, `encode`, `encode_raw`, `decode`; `Message` `add`, `sub`, `mul`, `norm` | C28 and linearity of the slots; Parseval (`slots_l2`); rounding is nearest coefficient by coefficient |
| C114 | `encode`, `decode`, `add`, `sub`, `conv`, `rot` of `R_Q` against those of `SimplePlaintext` | `encodeCoeff_spec`, `decodeCoeff_spec`, C22 and C25 lifted from classes to signed values by `sval_eq_of_cls` |
| C115 | `SimplePlaintext` `conv`, `rotate_once`, `rotate` with the result as operand | loop invariant with results and old entries mixed; the first nonzero coefficient of the factor shows the difference; coefficient 1 is carried on to position 25 mod N |
| C116 | `matrix_vector_product` on plaintexts and messages with the result as operand | the accumulator stays zero; loop invariant with results and old entries mixed |
| C117 | `MatMul` with the result as a factor | entries stay zero (real); all flags are set before the loop (complex) |
| C118 | `enc`, `dec` with a component of the ciphertext as plaintext | the mask depends on the draws only; `enc_spec`, `convS_spec`, `A += A` of C05, C109 |
| C119 | `conv` on `int` arrays with the result as operand | loop invariants on the finished entries (zero, or `-s[N-1]` for the factor X) and the current one |

## Checking the theorems

`seeded/LOG.jsonl` lists edits to the model, each like a realistic bug, with the theorems that stopped compiling. An edit that
leaves every theorem standing although a claim became false leads to a stronger theorem, named in the field `tightened`.

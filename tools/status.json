{
 "C01": {
  "status": "proved",
  "note": "All word pairs; the assembly branch is modelled too."
 },
 "C02": {
  "status": "proved",
  "note": "All words and moduli; q = 0 is shown to be undefined behaviour; assembly branch included."
 },
 "C03": {
  "status": "proved",
  "note": "pow_mod needs q > 1: for q = 1 and exponent 0 the code returns 1 (C03_pow_mod_one)."
 },
 "C04": {
  "status": "proved",
  "note": "Every LOGQ >= 1 and every limb content; operands of += are distinct objects (aliasing is C05)."
 },
 "C05": {
  "status": "proved",
  "note": "Exact characterisation of when A += A doubles, with a failing canonical value; A -= A is zero."
 },
 "C06": {
  "status": "proved",
  "note": "Includes the undefined case fr < to."
 },
 "C07": {
  "status": "proved",
  "note": "Includes the undefined case fr > to."
 },
 "C08": {
  "status": "proved",
  "note": "Argument below 2^from (canonical)."
 },
 "C09": {
  "status": "proved",
  "note": "All LOGQ; the conversion to double with its rounding to binary64 (C09_double_rounded, C09_double_exact, C09_double_inexact)."
 },
 "C10": {
  "status": "proved",
  "note": "char is 8 bits; the digit buffers have the lengths of the source."
 },
 "C100": {
  "status": "proved",
  "note": "C100_RS, C100_slots. Probability is counting over the draws of the mask; the noise is arbitrary. The residues of the mask modulo 2^(LF-LT) are uniform because RAND_MAX+1 is a power of two."
 },
 "C101": {
  "status": "proved",
  "note": "C101_fresh. Probability is counting over the draws of the mask and of the noise; every floating-point operation is rounded; libm is any cos and sin within 2^-52 on [-7,7]."
 },
 "C102": {
  "status": "proved",
  "note": "Nothing is assumed of the raised message. Says that the runs return and what the printed numbers mean, not that the bootstrapping is accurate: that is C78 to C80, in range and for LOGDELTA_cts = 60."
 },
 "C103": {
  "status": "proved",
  "note": "C103_ctxt_conv_test for every T and U, C103_seventeen for the largest ring. Probability is counting over the draws of swkgen and enc; every floating-point operation is rounded; libm is any within an ulp."
 },
 "C104": {
  "status": "proved",
  "note": "The range is bounded over the draws with the exponential moments of C85, at a general threshold; the errors follow from C91_errors, which has no bound on the entries. C104_test is the call <9,60,60,2> with the parameters of rns.h."
 },
 "C105": {
  "status": "proved",
  "note": "The mask aligned with the key makes the product with the key large in one coefficient and not larger elsewhere; by C54 every mask is drawn. C105_test is the call <9,60,60,2> with the parameters of rns.h."
 },
 "C106": {
  "status": "proved",
  "note": "C106_returns for the general moduli, C106_main for the six calls of main with LOGDELTA_cts = 60. The six calls with 22, 25 and 29 are not covered: they leave up to 642 bits after EvalMod, and the model takes an overflow of a double in sup_norm for a fault."
 },
 "C107": {
  "status": "proved",
  "note": "probabilities are counts over the draws of one enc; keys are any ternary vectors; the parity theorems need no assumption on RAND_MAX"
 },
 "C108": {
  "status": "proved",
  "note": "The in-place forms are modelled apart (Model/InPlace), statement by statement, with reads from the object being written; C22, C25 and C26 are about distinct objects."
 },
 "C109": {
  "status": "proved",
  "note": "In-place forms modelled in Model/InPlace; conv with an int array in place on one thread (for a constant array each round touches its own coefficient only)."
 },
 "C11": {
  "status": "proved",
  "note": "findPrimeFactors for every word except 0, where the code is shown to diverge; findPrimitiveRoot for every odd prime below 2^64, and p = 2."
 },
 "C110": {
  "status": "proved",
  "note": "That rand() without srand repeats its numbers is the C standard (7.22.2.2), read from the source by the absence of srand; the theorems are about two computations on one stream."
 },
 "C111": {
  "status": "proved",
  "note": "Keys are ternary arrays as keygen writes them; the recovery by conv needs the LOGQ and N for which conv is exact (C16)."
 },
 "C112": {
  "status": "proved",
  "note": "In exact real arithmetic for the diagonals, as C33; the object being both result and operand is modelled by letting the loop read the accumulator."
 },
 "C113": {
  "status": "proved",
  "note": "Exact reals. The rounded encoding is compared with every plaintext with integer coefficients."
 },
 "C114": {
  "status": "proved",
  "note": "Exact reals; `asSimple` reads off the signed values."
 },
 "C115": {
  "status": "proved",
  "note": "Exact reals."
 },
 "C116": {
  "status": "proved",
  "note": "Exact reals for messages and matrices."
 },
 "C117": {
  "status": "proved",
  "note": "Exact reals."
 },
 "C118": {
  "status": "proved",
  "note": "Bit-exact words; dec into ct[1] only for constant keys."
 },
 "C119": {
  "status": "proved",
  "note": "int overflow is undefined behaviour in the model; it does not occur in these calls except possibly in conv(s,s,s) with a non-constant s."
 },
 "C12": {
  "status": "proved",
  "note": "N = 2^k with 1 <= k <= 29 and every prime q below 2^64 with 2N | q-1; N = 1 is treated apart."
 },
 "C13": {
  "status": "proved",
  "note": "Same ranges as C12."
 },
 "C14": {
  "status": "proved",
  "note": "Distinct primes, L < 2^63. The wrap-around of icrt for LOGQ <= 64 is characterised by C14_icrt_wrap."
 },
 "C15": {
  "status": "proved",
  "note": "Counterexample for every LOGQ in 61..64 (C15_wrap) and undefined behaviour for LOGQ >= 3052 (C15_ub)."
 },
 "C16": {
  "status": "proved",
  "note": "Primality by Pratt certificates checked in the kernel."
 },
 "C17": {
  "status": "proved",
  "note": "N <= 2^30 (above, the index N+i-k overflows int)."
 },
 "C18": {
  "status": "proved",
  "note": "Includes the undefined shift for n = 1."
 },
 "C19": {
  "status": "proved",
  "note": "every stream of rand(), every h and N; returns for h<=N when every residue keeps occurring; never returns for h>N"
 },
 "C20": {
  "status": "proved",
  "note": "every LOGQ, N up to 2^30, every ternary key, plaintext and stream"
 },
 "C21": {
  "status": "proved",
  "note": "N=2^k, 1<=k<=17, 2*LOGQ at most 60 or from 65 to 3051 (outside of it conv is wrong, C15)"
 },
 "C22": {
  "status": "proved",
  "note": "N=2^k, 1<=k<=17, LOGQ and 2*LOGQ in the range of conv (C15), ct3 a different object (aliasing: C45)"
 },
 "C23": {
  "status": "proved",
  "note": "every LT<=LF; LT>LF is undefined behaviour (C23_RS_up)"
 },
 "C24": {
  "status": "proved",
  "note": "exact equations of the decryptions for sums, differences, word and plaintext products"
 },
 "C25": {
  "status": "proved",
  "note": "Coefficients, ciphertexts and keys; multiplicativity through conv."
 },
 "C26": {
  "status": "proved",
  "note": "N=2^k, 1<=k<=17, 2*LOGQ in the range of conv (C15)"
 },
 "C27": {
  "status": "proved",
  "note": "Exact integers; the bound is attained up to 1, see C53."
 },
 "C28": {
  "status": "proved",
  "note": "exact real arithmetic; 2 <= LOGN <= 27; overflow at LOGN = 28 proved as C28_overflow"
 },
 "C29": {
  "status": "proved",
  "note": "exact real arithmetic; range conditions explicit; outside the word range encode is undefined (C29_encode_ub)"
 },
 "C30": {
  "status": "proved",
  "note": "SimplePlaintext and R_Q versions; for R_Q the coefficient -2^(LOGQ-1) is excluded, for products no wrap-around"
 },
 "C31": {
  "status": "proved",
  "note": "Every member function, MatMul (both), RemoveClutter and both matrix_vector_products against the dense meaning; N <= 2^30, offsets in [0,N). transpose with an offset above N is UB (C31_transpose_ub)."
 },
 "C32": {
  "status": "proved",
  "note": "Made: any sequence of member calls and products other than +=/-= keeps flags sound; += and -= do not (C32_add_breaks)."
 },
 "C33": {
  "status": "proved",
  "note": "Exact phase equation with explicit error, the slot version, and the failing assertion. Doubles are exact reals; moduli for which LOGQ and 2*LOGQ are supported by conv (C15); N up to 2^17."
 },
 "C34": {
  "status": "proved",
  "note": "Exact products and sequence for groups of 2, 3 and 4, the failing assertions, and the homomorphic result of the grouped transform. Doubles are exact reals."
 },
 "C35": {
  "status": "proved",
  "note": "Doubles are exact reals; LOGN from 2 to 27 (int indices)."
 },
 "C36": {
  "status": "proved",
  "note": "Exact real arithmetic for double. C36_convert: correct for every N=2^k, k>=2. C36_diverges: exact non-termination range. C36_wrong: every other length for which the call returns gives the same result for two different series; C36_nine: the smallest."
 },
 "C37": {
  "status": "proved",
  "note": "All six degrees, keys produced by conv and swkgen from any random values, x in [-1,1]; explicit error lErr from rescaling, key switching and truncation; hypothesis that the last modulus does not wrap. Real arithmetic for double. Degrees 3, 7, 15: undefined for negative leaves (C37_negative_deg*)."
 },
 "C38": {
  "status": "proved",
  "note": "Interleaving semantics at the level of single words in Base/Par; the iterations in Model/Par. Every schedule of each of the four loops (and of the whole CONV::conv) ends with the sequential result; C38_alias shows that an aliased destination makes the result depend on the schedule. Reads and writes of an iteration's own or never-written words inside icrt, crt, ntt and intt are grouped (stated at the definitions); C38_schedule covers any finer granularity with the same footprint."
 },
 "C39": {
  "status": "proved",
  "note": "Static variables of all instances as explicit state; every history of returning calls. Calls nested inside CoeffToSlot and SlotToCoeff use the stateless models, which C39_model justifies."
 },
 "C40": {
  "status": "proved",
  "note": "every call with LOGN >= 1 has undefined behaviour"
 },
 "C41": {
  "status": "proved",
  "note": "RAND_MAX is a parameter; rand() is an arbitrary stream."
 },
 "C42": {
  "status": "proved",
  "note": "The expectation is false: C42_uninitialised (undefined behaviour when a diagonal with offset 0 is used) and C42_memory (the result uses whatever memory held). C42_linear_transform_keys_partial is the expected behaviour for matrices without such a diagonal."
 },
 "C43": {
  "status": "proved",
  "note": "Held is the closure of in-range data under every call that returns (ring operations, conv, enc, dec, swkgen, ks, Mul, RS, rot, conj, linear transforms, CoeffToSlot, SlotToCoeff, eval_poly, encode for LOGQ >= 64), at all moduli and degrees. rot into an arbitrary destination needs N a power of two; for other N the destination must be in range too. C43_encode_small: below 64 bits encode can leave a coefficient out of range."
 },
 "C44": {
  "status": "proved",
  "note": "N <= 2^30 (above, the index i+N-k overflows int)."
 },
 "C45": {
  "status": "proved",
  "note": "mul, in-place mul, norm, sup_norm, dense matrix_vector_product"
 },
 "C46": {
  "status": "proved",
  "note": "Doubles are exact reals."
 },
 "C47": {
  "status": "proved",
  "note": "Doubles are exact reals."
 },
 "C48": {
  "status": "proved",
  "note": "Doubles are exact reals, PI is pi."
 },
 "C49": {
  "status": "proved",
  "note": "Doubles are exact reals, PI is pi."
 },
 "C50": {
  "status": "proved",
  "note": "Doubles are exact reals, PI is pi."
 },
 "C51": {
  "status": "proved",
  "note": "exact reals for double, PI as \u03c0; range of the raised message is a hypothesis except for keys of weight at most 45"
 },
 "C52": {
  "status": "proved",
  "note": "exact reals for double, PI as \u03c0; range of the raised message is a hypothesis except for keys of weight at most 45"
 },
 "C53": {
  "status": "proved",
  "note": "Exact integers; key and ciphertext are constructed for every even weight."
 },
 "C54": {
  "status": "proved",
  "note": "rand() is any stream with values up to RAND_MAX; uniformity counts draws"
 },
 "C55": {
  "status": "proved",
  "note": "exact reals for double, PI as \u03c0; range of the raised message is a hypothesis except for keys of weight at most 45"
 },
 "C56": {
  "status": "proved",
  "note": "exact reals for double"
 },
 "C57": {
  "status": "proved",
  "note": "exact reals for double; LOGDELTA_cts = LOGDELTA_stc = 60; the range of the raised message is a hypothesis of C57_errors, discharged in C57_driver for weight at most 29"
 },
 "C58": {
  "status": "proved",
  "note": "exact reals for double"
 },
 "C59": {
  "status": "proved",
  "note": "exact reals for double"
 },
 "C60": {
  "status": "proved",
  "note": "exact reals for double, log2 as the real logarithm"
 },
 "C61": {
  "status": "proved",
  "note": "exact reals for double"
 },
 "C62": {
  "status": "proved",
  "note": "The numbers printed by the four programs, computed by the model: the CRT and NTT ones from C14 and C13 with Pratt certificates for the moduli."
 },
 "C63": {
  "status": "proved",
  "note": "Exact real arithmetic for double. keygen must return, which C19 shows for streams that hit every index again and again."
 },
 "C64": {
  "status": "proved",
  "note": "Exact real arithmetic for double. keygen must return, which C19 shows for streams that hit every index again and again."
 },
 "C65": {
  "status": "proved",
  "note": "Exact real arithmetic for double. keygen must return, which C19 shows for streams that hit every index again and again."
 },
 "C66": {
  "status": "proved",
  "note": "Exact real arithmetic for double. keygen must return, which C19 shows for streams that hit every index again and again."
 },
 "C67": {
  "status": "proved",
  "note": "Exact real arithmetic for double; cos, sin, sqrt and pi exact."
 },
 "C68": {
  "status": "proved",
  "note": "Exact real arithmetic for double; cos, sin, sqrt and pi exact."
 },
 "C69": {
  "status": "proved",
  "note": "Exact real arithmetic for double; cos, sin, sqrt and pi exact."
 },
 "C70": {
  "status": "proved",
  "note": "Exact real arithmetic for double; cos, sin, sqrt and pi exact."
 },
 "C71": {
  "status": "proved",
  "note": "exact real arithmetic for double; the constants of rns.h are the witnesses; C71_outside states that the driver leaves the range of EvalMod, C71_small the division by zero"
 },
 "C72": {
  "status": "proved",
  "note": "binary64 rounding, overflow as undefined behaviour; cos and sin are parameters with an accuracy of 2^-52 on [-7,7]; products and sums not fused"
 },
 "C73": {
  "status": "proved",
  "note": "as C72; a division by zero and an infinity count as undefined"
 },
 "C74": {
  "status": "proved",
  "note": "Rounding to nearest, ties to even, with the exact overflow threshold."
 },
 "C75": {
  "status": "proved",
  "note": "MatMulCF, the tables and the groups of 2, 3, 4 factors of Model/FloatBoot.lean against the exact models"
 },
 "C76": {
  "status": "proved",
  "note": "CoeffToSlot and SlotToCoeff, all doubles in binary64, for every n up to 16 and every grouping; with accurate C libraries as a hypothesis"
 },
 "C77": {
  "status": "proved",
  "note": "EvalMod, all constants in binary64; general form and the parameters of the drivers"
 },
 "C78": {
  "status": "proved",
  "note": "both pipelines with all doubles in binary64; accuracy of the C library and, above key weight 45, the range of the raised message are hypotheses (see C53)"
 },
 "C79": {
  "status": "proved",
  "note": "Binary64 model of set_test_message, print_max_error, operator double, the sup norm and both drivers. The range of the raised message is a hypothesis for key weights 46 to 128 (it can fail, C53) and proved for weights up to 45."
 },
 "C80": {
  "status": "proved",
  "note": "L2 form of C76 and C78; the same hypotheses on the C library and on the range of the raised message"
 },
 "C81": {
  "status": "proved",
  "note": "texts of numbers, polynomials, ciphertexts; injectivity; assertion above 2^1300; sparse and dense matrices; arrays. The conversion of a double to text is a parameter."
 },
 "C82": {
  "status": "proved",
  "note": "exact product, the exact first column with the result over the left factor, binary64 error bound"
 },
 "C83": {
  "status": "proved",
  "note": "For every libm within the stated accuracy. The numbers e are the rounding errors of the computed coefficients: the worst-case bound of the transform at scale 2^50 is comparable with 1/2, so nothing is claimed on the rounding errors of the exact coefficients. uniform_real_distribution is a parameter with values in [-1,1]; the source draws from [-1/sqrt 2, 1/sqrt 2]."
 },
 "C84": {
  "status": "proved",
  "note": "add, sub and mul for a result object different from the operands (C45 shows what aliasing does). Products and sums are not fused; sqrt is correctly rounded."
 },
 "C85": {
  "status": "proved",
  "note": "A count over the values of the draws, which is what a statement on probabilities amounts to if rand() is uniform and independent; rand() itself is not modelled beyond its range. The drivers are the ones of C79 (LOGDELTA_cts = 60)."
 },
 "C86": {
  "status": "proved",
  "note": "keygen of core.h:18-27 as modelled in Model/Core.lean, an ideal rand() as a count over all sequences of L draws; C86_uniform equal counts, C86_returns and C86_probability the probability of each key up to the draws that are not enough, C86_mean the mean number of draws, C86_biased shows that the divisibility is needed"
 },
 "C87": {
  "status": "proved",
  "note": "General theorems for the five programs with every double rounded to binary64 and an accurate libm; C87_parameters gives the numbers at the parameters of test.h. The random message is an arbitrary real vector of the unit square over sqrt 2, which includes every vector of doubles."
 },
 "C88": {
  "status": "proved",
  "note": "C88_linear_transform_test for general scale and modulus at LOGN = 9 (the matrix count is fixed by the program), C88_parameters at test.h."
 },
 "C89": {
  "status": "proved",
  "note": "C89_dft and C89_idft for the direct transforms (the idft bound needs N at most 2^20), C89_fft_ifft and C89_ifft_fft for the round trips, C89_run_test and C89_ifft_test for the program, C89_parameters at test.h."
 },
 "C90": {
  "status": "proved",
  "note": "Model: Model/FloatBEvalmod.lean (measure_b_evalmod.cpp:6-56 in binary64; pow(2,10) may be off by an ulp). The exact counterpart is C71."
 },
 "C91": {
  "status": "proved",
  "note": "end_to_end_test in binary64, LOGDELTA_cts = 60 and LOGDELTA_stc 50 or 60; C91_errors is the run on any ciphertext, C91_driver the whole program for keys of at most 29 entries, C91_wrong the witness for a wrong printed error; printing itself is not modelled"
 },
 "C92": {
  "status": "proved",
  "note": "Model/FloatDesign.lean; every operation of double rounded to binary64, sqrt correctly rounded, pow and log2 parameters with the errors of LibmD.Loose"
 },
 "C93": {
  "status": "proved",
  "note": "binary64 version of C68, for the scale 2^50 of the program: the printed numbers up to explicit bounds, with the rounding errors of the encoded diagonals as the error that is measured"
 },
 "C94": {
  "status": "proved",
  "note": "binary64 version of C69, for the scale 2^50 of the program: the printed numbers up to explicit bounds, with the rounding errors of the encoded diagonals as the error that is measured"
 },
 "C95": {
  "status": "proved",
  "note": "binary64 version of C59, with the not-a-number of 0/0 as a separate outcome; C95_exceeds shows that the constant 5 of the source is no bound"
 },
 "C96": {
  "status": "proved",
  "note": "element_test: the exact doubles; vector_test: distance to the exact program of C70. Every operation rounded, libm a parameter with error at most 2^-52; printing left out"
 },
 "C97": {
  "status": "proved",
  "note": "every operation rounded, libm a parameter with error at most 2^-52, the drawn numbers a parameter; LOGN, grouping and scaling as in the drivers; printing left out"
 },
 "C98": {
  "status": "proved",
  "note": "rand() is any stream with values up to RAND_MAX; probabilities are counts over the draws of one enc"
 },
 "C99": {
  "status": "proved",
  "note": "probabilities are counts over the draws of one swkgen; the ciphertext is fixed before the key is drawn"
 }
}
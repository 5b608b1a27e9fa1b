{"id": "C01", "title": "Full 64x64->128 bit product", "statement": "mul(a,b,lo,hi) and mul_(a,b,lo,hi) both leave lo + 2^64*hi equal to the exact integer product a*b; no internal partial sum loses a carry.", "quantifier": "every pair of 64-bit words", "why_tests_cant": "2^128 input pairs; carry bugs sit on isolated operands", "anchors": ["include/HEAAN/arith/Z_Q.h:mul", "include/HEAAN/arith/conv/mod.h:mul_"]}
{"id": "C02", "title": "Word-level modular arithmetic is exact", "statement": "add_mod, sub_mod, mul_mod and mod return the exact residue in [0,q) of a+b, a-b, a*b and ah*2^64+al for every 64-bit a,b (reduced or not) and every q != 0; with q = 0 the call is a division by zero.", "quantifier": "every pair of words and every nonzero modulus", "why_tests_cant": "the domain is 2^192; overflow of a+b only shows for unreduced operands", "anchors": ["include/HEAAN/arith/conv/mod.h:mod,add_mod,sub_mod,mul_mod"]}
{"id": "C03", "title": "Modular power and inverse", "statement": "pow_mod(a,n,q) is congruent to a^n mod q and is below q for q>1; for prime q and a not divisible by q, inv_mod(a,q) is the inverse of a modulo q.", "quantifier": "every base, every 64-bit exponent, every modulus (prime for the inverse)", "why_tests_cant": "unbounded recursion over 2^64 exponents", "anchors": ["include/HEAAN/arith/conv/mod.h:pow_mod,inv_mod"]}
{"id": "C04", "title": "Z_Q is the ring of integers modulo 2^LOGQ", "statement": "For Z_Q<LOGQ> objects, +=, -=, *= (by Z_Q and by a word), negate and setzero compute addition, subtraction, multiplication, negation and zero modulo 2^LOGQ, and leave a value below 2^LOGQ.", "quantifier": "every LOGQ >= 1 and every limb content, including contents with stray high bits", "why_tests_cant": "carry chains depend on all limbs; LOGQ is arbitrary", "anchors": ["include/HEAAN/arith/Z_Q.h:operator+=,operator-=,operator*=,negate,remove_clutter,setzero"]}
{"id": "C05", "title": "Adding a Z_Q object to itself", "statement": "A += A is expected to double A modulo 2^LOGQ (operands may be the same object). It does not: the carry test reads the operand after it was overwritten. A -= A is zero.", "quantifier": "every LOGQ and every value, operands aliased", "why_tests_cant": "aliasing is a calling pattern no value-based test enumerates", "anchors": ["include/HEAAN/arith/Z_Q.h:operator+=,operator-="]}
{"id": "C06", "title": "Rescaling a Z_Q value rounds to nearest", "statement": "shift_right<fr,to> with fr>=to stores floor(A/2^(fr-to)+1/2) mod 2^to for every A below 2^fr; on signed representatives the error is at most half a unit; with fr<to the call has undefined behaviour.", "quantifier": "every fr >= to >= 1 and every value below 2^fr", "why_tests_cant": "limb/bit boundary cases depend on fr, to modulo 64", "anchors": ["include/HEAAN/arith/Z_Q.h:shift_right"]}
{"id": "C07", "title": "Scaling a Z_Q value up is exact", "statement": "shift_left<fr,to> with fr<=to stores exactly A*2^(to-fr), below 2^to, and writes every limb of the destination.", "quantifier": "every fr <= to and every value below 2^fr", "why_tests_cant": "limb/bit boundary cases depend on fr, to modulo 64", "anchors": ["include/HEAAN/arith/Z_Q.h:shift_left"]}
{"id": "C08", "title": "Resizing preserves the signed value", "statement": "resize<from,to> stores the residue modulo 2^to of the signed representative (in [-2^(from-1),2^(from-1))) of its argument; in particular widening preserves the signed value and narrowing is reduction modulo 2^to.", "quantifier": "every pair of widths and every value below 2^from", "why_tests_cant": "two independent width parameters and all values", "anchors": ["include/HEAAN/arith/Z_Q.h:resize", "include/HEAAN/arith/R_Q.h:resize", "include/HEAAN/arith/R_Q_square.h:resize"]}
{"id": "C09", "title": "Sign test, top digit and conversion to double", "statement": "is_bigger_than_halfQ is true exactly for values >= 2^(LOGQ-1); max_valid_digit of a non-negative value is the index of its highest nonzero limb (or -1); the conversion to double is the signed value rounded once to binary64 when its magnitude is below 2^64, without error up to 2^53 (2^53+1 becomes 2^53), and silently drops the higher limbs otherwise.", "quantifier": "every LOGQ and every value below 2^LOGQ", "why_tests_cant": "all values; the failing values have magnitude >= 2^64", "anchors": ["include/HEAAN/arith/Z_Q.h:is_bigger_than_halfQ,max_valid_digit,operator double"]}
{"id": "C10", "title": "Decimal text round trip", "statement": "For LOGQ<=1300, to_str writes the decimal digits of the value, without leading zeros, in less than 520 characters, terminates, and fr_str on that text restores the value; fr_str of any digit string below 2^(64*limbs) stores that number.", "quantifier": "every value and every digit string of at most 520 digits", "why_tests_cant": "infinitely many values; termination of a while loop", "anchors": ["include/HEAAN/arith/Z_Q.h:to_str,fr_str"]}
{"id": "C11", "title": "Prime factors and primitive roots", "statement": "findPrimeFactors(n) returns exactly the set of prime divisors of n and findPrimitiveRoot(p) returns a generator of the multiplicative group modulo an odd prime p; both terminate, although i*i wraps modulo 2^64 for n from (2^32-1)^2 on. findPrimeFactors(0) does not terminate and findPrimitiveRoot(2) returns 0.", "quantifier": "every 64-bit word n and every odd prime p below 2^64", "why_tests_cant": "trial division over 2^32 candidates; all primes", "anchors": ["include/HEAAN/arith/conv/ntt.h:findPrimeFactors,findPrimitiveRoot"]}
{"id": "C12", "title": "The forward NTT evaluates the polynomial", "statement": "For N a power of two and prime q with 2N | q-1, NTT<N>(q).ntt(a) leaves in a[i] the value of the input polynomial at psi^(2*bitrev(i)+1), where psi is a primitive 2N-th root of unity; no index leaves its array.", "quantifier": "every N = 2^k with 1 <= k <= 29, every prime q below 2^64 with 2N | q-1, every input array of words", "why_tests_cant": "all inputs, sizes and moduli", "anchors": ["include/HEAAN/arith/conv/ntt.h:NTT,ntt"]}
{"id": "C13", "title": "The inverse NTT undoes the forward NTT", "statement": "ntt followed by intt returns every a[j] reduced modulo q.", "quantifier": "every N = 2^k with 1 <= k <= 29, every prime q below 2^64 with 2N | q-1, every input array of words", "why_tests_cant": "all inputs, sizes and moduli", "anchors": ["include/HEAAN/arith/conv/ntt.h:ntt,intt"]}
{"id": "C14", "title": "CRT lifts to the centred representative", "statement": "CRT<L,LOGQ>(q).crt(r) terminates and stores, modulo 2^LOGQ, the integer of least magnitude congruent to r[i] modulo every q[i]; crt after icrt restores the value whenever |signed value| < (product of q)/2 and the residues were formed without word wrap-around.", "quantifier": "every list of distinct primes, every residue vector, every value", "why_tests_cant": "all moduli lists and all residue vectors", "anchors": ["include/HEAAN/arith/conv/crt.h:CRT,crt,icrt"]}
{"id": "C15", "title": "Polynomial product modulo (2^LOGQ, X^N+1)", "statement": "conv(A,B,C) stores the negacyclic product of A and B modulo 2^LOGQ, using only the shipped prime table, for N a power of two with 2<=N<=2^17 and LOGQ<=60 or 65<=LOGQ<=3051.", "quantifier": "every such LOGQ and N and every pair of polynomials with coefficients below 2^LOGQ", "why_tests_cant": "exact big-integer product over all inputs; wrap of the RNS base only shows on extreme coefficients", "anchors": ["include/HEAAN/arith/conv.h:conv", "include/HEAAN/arith/conv/conv.h:CONV"]}
{"id": "C16", "title": "The shipped prime table is sound", "statement": "All 102 table entries are pairwise distinct primes congruent to 1 modulo 2^18, and for every admissible LOGQ the first L of them have a product above 2^(2*LOGQ+16), so no product of polynomials with N<=2^17 wraps.", "quantifier": "every entry of the table and every LOGQ with L<=102", "why_tests_cant": "primality of 60-bit numbers and a bound for every L", "anchors": ["include/HEAAN/arith/conv.h:Q_primes,L"]}
{"id": "C17", "title": "Product by a ternary key", "statement": "conv(s,A,C) stores the negacyclic product s*A modulo 2^LOGQ whenever every s[k] is -1, 0 or 1; any other nonzero entry is treated as -1.", "quantifier": "every N <= 2^30, LOGQ, key and polynomial", "why_tests_cant": "all keys; non-ternary keys silently give another product", "anchors": ["include/HEAAN/arith/conv.h:conv(int,R_Q)"]}
{"id": "C18", "title": "Bit reversal", "statement": "bitReverse32 reverses all 32 bits; bitReverse(x,d) for 1<=d<=32 and x<2^d reverses the d low bits, is an involution and a permutation of [0,2^d); d=0 is an undefined shift.", "quantifier": "every 32-bit word and every digit count", "why_tests_cant": "2^32 words times all digit counts", "anchors": ["include/util/util.h:bitReverse32,bitReverse"]}
{"id": "C19", "title": "Key generation yields a ternary key of the requested weight", "statement": "If keygen(h,s) returns, exactly h entries of s are nonzero and each is 1 or -1; for h<=N and a generator that keeps producing every residue it returns; for h>N it never returns.", "quantifier": "every h, N and every sequence of rand() results", "why_tests_cant": "depends on an infinite random stream; non-termination is not testable", "anchors": ["include/HEAAN/core.h:keygen"]}
{"id": "C20", "title": "Decryption recovers the plaintext up to the encryption noise", "statement": "dec(enc(pt,s),s) equals pt + e modulo 2^LOGQ with every |e_i| <= 8, whatever rand() returns, for every ternary key.", "quantifier": "every LOGQ >= 1, N <= 2^30, ternary key, plaintext and random stream", "why_tests_cant": "all random streams and keys", "anchors": ["include/HEAAN/core.h:enc,dec"]}
{"id": "C21", "title": "Key switching preserves the message", "statement": "With swk produced by swkgen(s_fr,s_to), ks turns ct into a ciphertext whose decryption under s_to equals the decryption of ct under s_fr plus an error of sup-norm at most 8N + (h+1)/2, h the weight of s_to.", "quantifier": "every LOGQ with 2*LOGQ <= 60 or 65 <= 2*LOGQ <= 3051 (where conv is right, see C15), every N = 2^k with 1 <= k <= 17, ternary s_to, s_fr with entries in (-2^31,2^31), canonical ciphertext and random stream", "why_tests_cant": "noise bounds must hold for all inputs and randomness", "anchors": ["include/HEAAN/core.h:swkgen,ks"]}
{"id": "C22", "title": "Homomorphic multiplication", "statement": "Mul(ct1,ct2,evk,ct3) with evk a switching key from s*s to s decrypts to dec(ct1)*dec(ct2) plus an error of sup-norm at most 4N + (h+1)/2 modulo 2^LOGQ.", "quantifier": "every LOGQ with LOGQ and 2*LOGQ supported by conv (C15), every N = 2^k with 1 <= k <= 17, ternary key, pair of canonical ciphertexts, ct3 a different object, and random stream", "why_tests_cant": "noise bounds must hold for all inputs and randomness", "anchors": ["include/HEAAN/core.h:Mul"]}
{"id": "C23", "title": "Rescaling a ciphertext", "statement": "RS<fr,to> decrypts to the rounded quotient: 2^(fr-to)*dec(RS(ct)) differs from dec(ct) modulo 2^fr by at most 2^(fr-to-1)*(h+1) in every coefficient.", "quantifier": "every fr >= to >= 1, N <= 2^30, ternary key and canonical ciphertext; fr < to is undefined behaviour", "why_tests_cant": "all ciphertexts", "anchors": ["include/HEAAN/core.h:RS"]}
{"id": "C24", "title": "Linear operations on ciphertexts are exact", "statement": "Addition, subtraction, word multiplication and plaintext multiplication of ciphertexts commute with decryption exactly.", "quantifier": "every modulus (for plaintext products those supported by conv), N <= 2^30, ternary key and operands", "why_tests_cant": "all ciphertexts and plaintexts", "anchors": ["include/HEAAN/arith/R_Q_square.h", "include/HEAAN/core.h:dec"]}
{"id": "C25", "title": "Rotation is the automorphism X -> X^(5^r)", "statement": "For N a power of two, rot writes every destination coefficient exactly once and computes the automorphism X->X^(5^r) of Z_Q[X]/(X^N+1): it is multiplicative, rot by r then r' is rot by r+r', rot by N/2 is the identity, the one-step overload equals r=1 and key and polynomial overloads agree.", "quantifier": "every power of two N up to 2^27, every r >= 0, every polynomial; for multiplicativity N up to 2^17 and the moduli for which conv is exact", "why_tests_cant": "all sizes and rotation counts", "anchors": ["include/HEAAN/linear_transform.h:rot"]}
{"id": "C26", "title": "Rotated and conjugated ciphertexts", "statement": "rot_ct with a key switching key from rot(s) to s decrypts to the rotated plaintext, and conj with a key from conj(s) to s to the conjugated plaintext, with error at most 8N+(h+1)/2.", "quantifier": "every LOGQ with 2*LOGQ supported by conv (C15), every N = 2^k with 1 <= k <= 17, ternary key, canonical ciphertext, rotation and random stream", "why_tests_cant": "noise bounds for all inputs and randomness", "anchors": ["include/HEAAN/linear_transform.h:rot_ct,conj"]}
{"id": "C27", "title": "Modulus raising adds a bounded multiple of q", "statement": "Decrypting mod_raise(ct) gives, over the integers modulo 2^LOGQto, dec(ct) plus 2^LOGQfr times an integer polynomial with coefficients of magnitude at most (h+2)/2.", "quantifier": "every fr <= to, every N up to 2^30, every ternary key and ciphertext", "why_tests_cant": "bound must hold for all ciphertexts", "anchors": ["include/HEAAN/bootstrap.h:mod_raise"]}
{"id": "C28", "title": "fft and ifft are the canonical embedding and its inverse", "statement": "In exact arithmetic fft<LOGN>(m)[i] = sum_k m_k exp(i*pi*5^i*k/N), equal to dft, and ifft and idft are its two-sided inverses; no index leaves its array.", "quantifier": "every LOGN from 2 to 27 and every real vector; at LOGN = 28 int overflows", "why_tests_cant": "all sizes and inputs", "anchors": ["include/HEAAN/matrix/DFT.h:splitU0NR,fftNR,ifftNR,fft,ifft,dft,idft"]}
{"id": "C29", "title": "Encode/decode round trip", "statement": "In exact arithmetic, decode(encode(z,Delta),Delta) and decode_log differ from z by at most N/(2*Delta) in every slot whenever the scaled coefficients fit the word and the modulus.", "quantifier": "every LOGN from 2 to 27, LOGQ, Delta and message within range", "why_tests_cant": "all messages; range conditions sit at extreme magnitudes", "anchors": ["include/HEAAN/endecode.h:encode,decode,decode_log"]}
{"id": "C30", "title": "Slot semantics of polynomial operations", "statement": "In exact arithmetic the embedding turns negacyclic product into slotwise product, rot by r into a cyclic left shift of the slots by r, and conj into complex conjugation.", "quantifier": "every LOGN from 2 to 27 (to 17 for products), all polynomials and rotations", "why_tests_cant": "all inputs", "anchors": ["include/HEAAN/matrix/DFT.h:fft", "include/HEAAN/linear_transform.h:rot,conj", "include/impl/message.h:mul"]}
{"id": "C31", "title": "Sparse diagonal matrices denote matrices", "statement": "get_element after set_element, transpose, negate, scalar multiplication, and MatMul (real and complex) agree with the dense matrix operations for offsets in [0,N).", "quantifier": "every N, numbers of diagonals, offsets and entries meeting the offset conditions", "why_tests_cant": "all matrices", "anchors": ["include/HEAAN/matrix/matrix.h:SparseDiagonal,MatMul"]}
{"id": "C32", "title": "Zero flags are sound", "statement": "A diagonal flagged zero holds only zeros after any sequence of setzero, set_element, negate, transpose, scalar multiplication, copy, MatMul and RemoveClutter; += and -= break this.", "quantifier": "every sequence of operations", "why_tests_cant": "all histories of operations", "anchors": ["include/HEAAN/matrix/matrix.h:SparseDiagonal::zero,operator+="]}
{"id": "C33", "title": "Homomorphic linear transform", "statement": "linear_transform(Ar,Ai,ct,skey,Act) decrypts to the sum over diagonals of encode(diagonal)*rot(dec(ct),offset) plus an error bounded in terms of N, h and the encoded diagonals.", "quantifier": "every modulus, N, matrix, key, ciphertext and random stream", "why_tests_cant": "noise bound for all inputs", "anchors": ["include/HEAAN/linear_transform.h:linear_transform"]}
{"id": "C34", "title": "Grouping does not change the transform", "statement": "In exact arithmetic the product matrices formed by grouped2/3/4_serial_linear_transform act on vectors exactly as the serial sequence of factors; D not divisible by the group size fails the assertion.", "quantifier": "every N up to 2^30, all S, D and matrices, G in 1..4; LOGN from 2 to 17 for the homomorphic form", "why_tests_cant": "all matrices", "anchors": ["include/HEAAN/linear_transform.h:grouped_serial_linear_transform"]}
{"id": "C35", "title": "CoeffToSlot and SlotToCoeff are inverse coefficient/slot exchanges", "statement": "In exact arithmetic, the factors used by CoeffToSlot map slots z=fft(m) to slots m[bitrev(i)] (first output) and m[bitrev(i)+N/2] (second output), and SlotToCoeff maps them back.", "quantifier": "every LOGN from 2 to 27 and every real vector", "why_tests_cant": "all sizes and inputs", "anchors": ["include/HEAAN/bootstrap.h:CoeffToSlot,SlotToCoeff"]}
{"id": "C36", "title": "Chebyshev to evaluation-tree conversion", "statement": "convert_frc_tou(c,u,N) terminates for N=2^k>=4 and produces u such that the evaluation tree used by eval_poly_deg(N-1) equals sum c_i T_i(x); it does not terminate unless 4*2^j <= N < 5*2^j for some j, and for N in such a range that is no power of two it returns a wrong result (N=9 ignores c[8]).", "quantifier": "every power of two N >= 4, every coefficient vector and point", "why_tests_cant": "all degrees and coefficients", "anchors": ["include/HEAAN/poly.h:convert_frc_tou"]}
{"id": "C37", "title": "Homomorphic polynomial evaluation follows the tree with bounded error", "statement": "At each level of eval_poly_deg3/7/15/31/63/127 the decrypted ciphertexts satisfy the rescaled recurrence T_{2n}=2T_n^2-1 and L'=T*L1+L0 up to an explicit additive error. eval_poly_deg7 also prints intermediate ciphertexts, so it succeeds only while the modulus after two levels is at most 2^1300; above that it fails an assertion.", "quantifier": "every modulus for which conv is exact, LOGN from 2 to 17, all coefficients, ciphertexts and keys", "why_tests_cant": "noise bounds for all inputs", "anchors": ["include/HEAAN/poly.h:eval_poly_deg3,eval_poly_deg7,eval_poly_deg15,eval_poly_deg31,eval_poly_deg63,eval_poly_deg127"]}
{"id": "C38", "title": "Parallel loops are schedule independent", "statement": "Every omp parallel loop (conv by key, residue conversion, per-prime convolution) yields the sequential result under every interleaving of its iterations' memory accesses, provided the destination is a different object from the sources.", "quantifier": "every interleaving, thread count, size and input", "why_tests_cant": "exponentially many interleavings", "anchors": ["include/HEAAN/arith/conv.h:conv", "include/HEAAN/arith/conv/conv.h:conv,icrt_polynomial,crt_polynomial"]}
{"id": "C39", "title": "Cached tables do not leak history", "statement": "The function-local static tables (convolution engine, FFT and CoeffToSlot/SlotToCoeff factors) make every call return what a first call would return, for every history of calls.", "quantifier": "every sequence of previous calls", "why_tests_cant": "all histories", "anchors": ["include/HEAAN/arith/conv.h:theConv", "include/HEAAN/bootstrap.h:is_init", "include/HEAAN/matrix/DFT.h:is_init"]}
{"id": "C40", "title": "Aggregating two messages reads out of bounds", "statement": "aggregate(z1,z2,z3) is meant to concatenate two messages; it reads z2 beyond its end for every LOGN, so every call has undefined behaviour.", "quantifier": "every LOGN and both messages", "why_tests_cant": "undefined behaviour may appear to work", "anchors": ["include/impl/message.h:aggregate"]}
{"id": "C41", "title": "rand_uint64 covers all 64-bit words evenly", "statement": "If RAND_MAX+1 is a power of two of at least 13 bits, every 64-bit word is the result of equally many 5-tuples of rand() outputs.", "quantifier": "every generator width of at least 13 bits and every word", "why_tests_cant": "counting over 2^155 tuples", "anchors": ["include/util/util.h:rand_uint64"]}
{"id": "C42", "title": "linear_transform with a key array uses an uninitialised ciphertext", "statement": "The overload taking rkey[S] is expected to depend only on its arguments; for an unrotated diagonal it multiplies an uninitialised ciphertext instead of ct.", "quantifier": "every memory content of the uninitialised object", "why_tests_cant": "depends on indeterminate memory", "anchors": ["include/HEAAN/linear_transform.h:linear_transform(rkey)"]}
{"id": "C43", "title": "Coefficients stay canonical", "statement": "Every polynomial produced by enc, dec, ks, Mul, RS, rot, conj, resize and the ring operations has all coefficients below 2^LOGQ, in any sequence of calls.", "quantifier": "every sequence of public operations", "why_tests_cant": "all histories of operations", "anchors": ["include/HEAAN/arith/Z_Q.h:remove_clutter", "include/HEAAN/core.h"]}
{"id": "C44", "title": "The squared key fits an int and is the ring square", "statement": "conv<N>(s,s,s_sq) computes the negacyclic square of s without signed overflow for every ternary key, and every |entry| is at most the weight of s.", "quantifier": "every N <= 2^30 and ternary key", "why_tests_cant": "all keys", "anchors": ["include/HEAAN/arith/conv.h:conv(int,int)"]}
{"id": "C45", "title": "Message arithmetic", "statement": "In exact arithmetic mul on messages is the slotwise complex product when the result is a third object; called in place, mul(z1,z2,z1) is right exactly in the slots where Im z2 = 0 or the real part does not change; norm and sup_norm are the Euclidean norm and the largest modulus, and the dense matrix_vector_product is the sum over k of diagonal k times the message shifted by k.", "quantifier": "every dimension and message", "why_tests_cant": "the aliasing error needs a particular call and is exact for all real z2", "anchors": ["include/impl/message.h:mul,norm,sup_norm,matrix_vector_product"]}
{"id": "C46", "title": "CoeffToSlot and SlotToCoeff on ciphertexts", "statement": "CoeffToSlot<LOGQ,LOGN,LOGDELTA,G>(ct,s,ct_) returns two ciphertexts whose slots decrypt to 2^(LOGDELTA*(LOGN-1)/G) times the coefficients m[bitrev(i)] and m[bitrev(i)+N/2] of dec(ct), and SlotToCoeff takes two such ciphertexts back to one with those coefficients, up to an explicit error from key switching and rounding, as long as nothing wraps around.", "quantifier": "every supported modulus, LOGN in 2..17, G in 1..4 dividing LOGN-1, key, ciphertext and random stream", "why_tests_cant": "noise bound for all inputs and all random streams", "anchors": ["include/HEAAN/bootstrap.h:CoeffToSlot,SlotToCoeff"]}
{"id": "C47", "title": "Plaintext matrix-vector product", "statement": "matrix_vector_product(pt,A,Delta,pt_Az) returns a polynomial with slots Delta*A*z up to the rounding of the encoded diagonals, for K dense diagonals and for a sparse matrix of three diagonals; mat_to_vecs lists the diagonals A[j][(i+j) mod N].", "quantifier": "every supported modulus, LOGN, K, matrix and polynomial without wraparound", "why_tests_cant": "all matrices and polynomials", "anchors": ["include/impl/plaintext.h:matrix_vector_product", "include/HEAAN/linear_transform.h:mat_to_vecs"]}
{"id": "C48", "title": "EvalMod computes a cubic in a cosine", "statement": "The 32 constants of EvalMod are the leaves of an evaluation tree of a polynomial that is within 2.33e-14 of cos(3*pi*x) on [-1,1]. EvalMod<LOGQ,N,LOGDELTA,K>(ct,s,p), on a ciphertext that decrypts to 2^LOGDELTA*y up to eps with |(4y-1)/(4K)| <= 1, returns a ciphertext that decrypts to 2^LOGDELTA*(v+v^3/6)/(2*pi) with v = cos(12*pi*(4y-1)/K), up to an explicit error.", "quantifier": "every scale below 62 bits, supported moduli, LOGN in 2..17, K, key, ciphertext and random stream", "why_tests_cant": "noise bound over a continuum of inputs and all random streams", "anchors": ["include/HEAAN/bootstrap.h:EvalMod"]}
{"id": "C49", "title": "EvalMod removes the multiples of q", "statement": "With K = 24, EvalMod takes a ciphertext of 2^LOGDELTA*(I+e), I integer, -23.75 <= I+e <= 24.25, to a ciphertext of 2^LOGDELTA*e up to the error of C48 plus 2^LOGDELTA*(3/40)*(2*pi)^4*|e|^5. With LOGDELTA = 60, N <= 2^17 and at most 192 non-zero key coefficients an input error of 2^20 gives an output error below 2^41 besides the last term.", "quantifier": "every key, ciphertext, I, e and random stream", "why_tests_cant": "all integer parts in every slot, all noise", "anchors": ["include/HEAAN/bootstrap.h:EvalMod", "include/experiment/test.h:K"]}
{"id": "C50", "title": "EvalMod needs K = 24", "statement": "K is a template parameter of EvalMod, but the constants and the number of double angles are fixed: the function computed is the reduction modulo 1 near 0 only for K = 24. With K = 12 a ciphertext of zero goes to one of about -0.186*2^LOGDELTA.", "quantifier": "every positive K", "why_tests_cant": "the drivers only use K = 24", "anchors": ["include/HEAAN/bootstrap.h:EvalMod"]}
{"id": "C51", "title": "Conventional bootstrapping keeps the message", "statement": "ModRaise, CoeffToSlot, RS, EvalMod, SlotToCoeff and RS take a ciphertext with modulus 2^LOGq of m to a ciphertext with modulus 2^LOGQ_after_stc of a message within an explicit error of m, if the raised message is in the range of EvalMod. With the parameters <9,60,50,2>, <13,60,50,3>, <17,60,50,4> of the drivers, at most 128 non-zero key coefficients and |m| <= 2^51 the error is at most 2^34, 2^44, 2^57 per coefficient. With at most 45 non-zero key coefficients the range condition always holds.", "quantifier": "every key, ciphertext and random stream (all keys generated inside), all supported moduli and scales for the general bound", "why_tests_cant": "composition of all noise terms over all ciphertexts and random streams", "anchors": ["src/test/bootstrap_test.cpp:bootstrap_test", "src/experiment/section4/proposal.cpp:conventional_bootstrap_test"]}
{"id": "C52", "title": "Proposed bootstrapping keeps the message", "statement": "ModRaise, CoeffToSlot, RS, EvalMod, EvalqI, SlotToCoeff, RS and the final subtraction take a ciphertext with modulus 2^LOGq of m to a ciphertext with modulus 2^LOGQ_after_stc of a message within an explicit error of m, in which the error of CoeffToSlot enters only through its fifth power. With the parameters <9,60,60,2>, <13,60,60,3>, <17,60,60,4> of the drivers, at most 128 non-zero key coefficients and |m| <= 2^51 the error is at most 2^34, 2^44, 2^57 per coefficient.", "quantifier": "every key, ciphertext and random stream (all keys generated inside), all supported moduli and scales for the general bound", "why_tests_cant": "composition of all noise terms over all ciphertexts and random streams", "anchors": ["src/test/evalqI_test.cpp:evalqI_test", "src/test/end_to_end_test.cpp:end_to_end_test", "src/experiment/section4/proposal.cpp:proposed_bootstrap_test"]}
{"id": "C53", "title": "The raised message can leave the range of EvalMod", "statement": "The bound of C27 is attained up to 1: for every even weight h there are a key of weight h and a ciphertext whose last coefficient, 0 as a message, becomes -(h/2)*2^LOGq when the modulus is raised. With H = 128 that is -64*2^60, out of the range [-23.75,24.25]*2^60 of EvalMod with K = 24, so the drivers rely on such ciphertexts being improbable.", "quantifier": "every number of coefficients, even weight and modulus", "why_tests_cant": "random ciphertexts practically never reach it", "anchors": ["include/HEAAN/bootstrap.h:mod_raise", "include/experiment/test.h:K", "include/experiment/test.h:H"]}
{"id": "C54", "title": "Keys, masks and noise take all their values", "statement": "keygen can return every ternary key of the weight asked for. With RAND_MAX+1 a power of two, at least 2^13, the second component of a fresh ciphertext is exactly uniform over the canonical polynomials, and every mask together with every noise polynomial with coefficients in [-8,8] occurs for some stream of rand().", "quantifier": "every number of coefficients, modulus, key, mask and noise", "why_tests_cant": "a test sees one stream; no srand is called, so even the same one each run", "anchors": ["include/HEAAN/core.h:keygen", "include/HEAAN/core.h:enc", "include/util/util.h:rand_uint64"]}
{"id": "C55", "title": "The bootstrapping drivers recover the message", "statement": "From key generation to decoding, both drivers return slots within 2^LOGN*(2^b+9)/2^50 of the message, b = 34, 44, 57 for LOGN = 9, 13, 17 with LOGDELTA_cts = 60, for every message with slots of absolute value at most 1 and every key weight up to 128, provided the raised message is in the range of EvalMod; with at most 45 key entries that proviso always holds. The maxima printed obey the same bound, and the printed sup norm is at most (2^b+8)/2^50.", "quantifier": "every message, random stream on which keygen returns, and uninitialised memory", "why_tests_cant": "one run checks one message and one stream", "anchors": ["src/experiment/section4/proposal.cpp:conventional_bootstrap_test", "src/experiment/section4/proposal.cpp:proposed_bootstrap_test", "src/test/bootstrap_test.cpp:bootstrap_test", "include/experiment/setup.h:set_test_message"]}
{"id": "C56", "title": "What the drivers print", "statement": "print_max_error finds the largest differences. The two sup norm loops print the same number, the largest |e_k| mod 2^64 divided by Delta: this is the sup norm when all |e_k| < 2^64, but an error of 2^64 in every coefficient prints as 0.", "quantifier": "every pair of plaintexts and every Delta", "why_tests_cant": "the number printed is itself the test oracle", "anchors": ["include/experiment/setup.h:print_max_error", "src/test/bootstrap_test.cpp:bootstrap_test", "src/experiment/section4/proposal.cpp:conventional_bootstrap_test", "include/HEAAN/arith/Z_Q.h:operator double"]}
{"id": "C57", "title": "The intermediate checks of end_to_end_test", "statement": "With LOGDELTA_cts = LOGDELTA_stc = 60 every error that end_to_end_test prints is below a bound: CoeffToSlot and EvalMod 2^b/2^50, EvalqI 2^(LOGN+24)/2^50, SlotToCoeff 2^(b+1)/2^50, final (2^b+8)/2^50, b = 34, 44, 57 for LOGN = 9, 13, 17, and the output is close to the message; for the checks that convert raised coefficients to double this needs them below 2^64, which always holds for keys of weight at most 29. If a raised coefficient reaches 2^64 the CoeffToSlot and EvalqI checks print at least 16000 although the bootstrapping is right.", "quantifier": "every key, ciphertext, message of absolute value at most 1 and random stream", "why_tests_cant": "the checks print numbers without comparing them, and one run uses one key and one message", "anchors": ["src/test/end_to_end_test.cpp:end_to_end_test", "include/HEAAN/arith/Z_Q.h:operator double"]}
{"id": "C58", "title": "theorem_cts_error and example_sup_norm run into undefined behaviour", "statement": "measure_cts_error and measure_sup_norm call aggregate on two Message<LOGN> into a Message<LOGN+1>, which reads outside of its arguments: no run reaches the printed result.", "quantifier": "every key keygen returns, every message drawn and all other random numbers", "why_tests_cant": "out-of-bounds reads of a stack object usually go unnoticed", "anchors": ["src/experiment/section3/theorem_cts_error.cpp:measure_cts_error", "src/experiment/section4/example_sup_norm.cpp:measure_sup_norm", "include/impl/message.h:aggregate"]}
{"id": "C59", "title": "The ratio of sup norm and norm", "statement": "check_sup_norm_bound computes for each message the true norm and sup norm of its encoding; the ratio of sup norm and root mean square is between 1 and sqrt(N) for a non-zero plaintext, and the largest ratio of all rounds is reported. The constant C2 = 5 is not a bound: there are messages in the range of set_random_message for which the ratio is sqrt(N).", "quantifier": "every stream of numbers in [-1/sqrt 2, 1/sqrt 2] and every number of rounds", "why_tests_cant": "100 random messages never come near the extreme", "anchors": ["src/experiment/section4/example_sup_norm.cpp:check_sup_norm_bound", "include/experiment/setup.h:set_random_message"]}
{"id": "C60", "title": "The choice of Delta_tilde", "statement": "design_delta_tilde computes 24, 30, 35 and 22, 25, 29 for (LOGN,G) = (9,2), (13,3), (17,4), with no conversion out of range; the second are the LOGDELTA_cts used by the drivers. In general the logarithms returned are the least for which the expected error is at most the message, and for which message and error together stay under epsilon = 1 (up to one unit of the truncation). For LOGN at most 4 the conversion to int is undefined.", "quantifier": "every LOGN, G and H for which the function returns", "why_tests_cant": "the function prints numbers that nothing checks", "anchors": ["src/experiment/section4/design_delta_tilde.cpp:design_delta_tilde"]}
{"id": "C61", "title": "The expected norms", "statement": "The two formulas for the expected error of CoeffToSlot in theorem_cts_error agree for all parameters with G dividing LOGN-1. The expected norm of the message printed first is too small by sqrt(10/10.75), because (H+1)/12 is an integer division. For the parameters of Lattigo the expected error is under its goal at scale 2^34 and above it at 2^33.", "quantifier": "every LOGN, G, H and scale", "why_tests_cant": "equality of real formulas cannot be established by evaluating them", "anchors": ["src/experiment/section3/theorem_cts_error.cpp:measure_cts_error", "src/experiment/section4/design_delta_tilde_lattigo.cpp:main"]}
{"id": "C62", "title": "The unit tests pass", "statement": "mod_test prints 0, whichever branch of mod.h is compiled; mul_test prints two zeros; crt_test prints ten zeros; ntt_test prints the numbers 0 to 1023 in order. None of the four runs into undefined behaviour or a failed assertion.", "quantifier": "the four programs have no input", "why_tests_cant": "each program is compiled with one branch of mod.h, and its output is read by eye", "anchors": ["src/test/mod_test.cpp:main", "src/test/mul_test.cpp:main", "src/test/crt_test.cpp:main", "src/test/ntt_test.cpp:main"]}
{"id": "C63", "title": "conv_test and ctxt_conv_test print equal products", "statement": "conv_test prints the slotwise product of its two random messages twice, once computed on the messages and once by encoding, conv and decoding: the two differ by at most (2*Delta*N/2+(N/2)^2)/Delta^2 in every slot. ctxt_conv_test prints the square of the random message twice, once exact and once after encryption, Mul and decryption: the two differ by at most the error of encoding, encryption and key switching divided by Delta^2. Neither runs into undefined behaviour or a failed assertion.", "quantifier": "every LOGQ for which conv is exact, every LOGN from 2 to 17, every Delta with Delta^2 well under Q, every key weight up to N, every random message in the unit disc, every rand() stream on which keygen ends", "why_tests_cant": "the programs print one run and leave the comparison to the reader", "anchors": ["src/test/conv_test.cpp:main", "src/test/ctxt_conv_test.cpp:main"]}
{"id": "C64", "title": "linear_transform_test prints the same vector three times", "statement": "linear_transform_test applies the eight factors of the CoeffToSlot matrix to an encrypted random message one at a time, in groups of two and in groups of four. Each of the three printed vectors is 2^8 times the coefficients of the message in bit-reversed order, packed as complex numbers, up to the stated error; at the parameters of test.h the second and third vectors agree with the first to 2^-16 and 2^-14. The program runs into no undefined behaviour or failed assertion.", "quantifier": "every random message in the unit disc, every rand() stream on which keygen ends, every modulus for which conv is exact, every LOGDELTA below 59, every key weight up to N, with LOGN = 9 as in test.h", "why_tests_cant": "the program prints three vectors and leaves the comparison to the reader", "anchors": ["src/test/matmul_test.cpp:linear_transform_test", "include/experiment/setup.h:set_test_U0_matrix"]}
{"id": "C65", "title": "CoeffToSlot_test and CoeffToSlot_SlotToCoeff_test print what they should", "statement": "CoeffToSlot_test prints the decrypted result of CoeffToSlot beside the coefficients of the encoded message in bit-reversed order, and the two agree up to the stated error. CoeffToSlot_SlotToCoeff_test prints the message and its image under CoeffToSlot followed by SlotToCoeff, and the two agree up to the stated error. At the parameters of test.h the errors are at most 2^-24 and 2^-14. Neither runs into undefined behaviour or a failed assertion.", "quantifier": "every random message in the unit disc, every rand() stream on which keygen ends, every modulus for which conv is exact, every LOGN from 2 to 17, every group size up to 4 dividing LOGN-1, every scale small enough that the result does not wrap", "why_tests_cant": "the programs print one run and leave the comparison to the reader", "anchors": ["src/test/coeffToSlot_test.cpp:CoeffToSlot_test", "src/test/coeffToSlot_test.cpp:CoeffToSlot_SlotToCoeff_test"]}
{"id": "C66", "title": "EvalMod_test prints 0.0001 in every slot", "statement": "EvalMod_test encrypts the message whose slots are 0.0001 + (i mod 24), applies EvalMod and decrypts. It returns without undefined behaviour, and every printed slot is within 130276*135*N/2/2^60 + 117*0.0001^5 of 0.0001; at the parameters of test.h this is below 4e-9. The message can be encoded at scale 2^60 although slots as large as 23 would not fit as coefficients: the coefficients are bounded by the mean of the slots.", "quantifier": "every rand() stream on which keygen ends, every LOGN from 4 to 17, every key weight up to 128, every chain of moduli from at most 1525+60 bits down to at least 65", "why_tests_cant": "the program prints one run and leaves the comparison to the reader", "anchors": ["src/test/evalMod_test.cpp:EvalMod_test", "include/experiment/setup.h:set_evalmod_message"]}
{"id": "C67", "title": "The convolution drivers of section 3 measure what the lemmas predict", "statement": "measure_conv_error prints N/12 times the square sum of the encoded test message and then, per round, the square sum of the negacyclic product of that polynomial with the rounding error of a fresh random message. The first number is the exact mean of such a square sum when the rounding errors are independent and uniform on [-1/2, 1/2], and no round can exceed 3N times it. measure_conv_sum_error does the same for a sum of Diag products, with factor Diag*N/12 and bound 3*Diag*N. Although it rotates pt, it convolves with the unrotated pt.", "quantifier": "every LOGN from 2 to 27, every number of rounds and of diagonals, every random stream", "why_tests_cant": "the programs print a hundred samples beside a prediction and decide nothing", "anchors": ["src/experiment/section3/lemma_conv_error.cpp:measure_conv_error", "src/experiment/section3/lemma_conv_sum_error.cpp:measure_conv_sum_error", "include/impl/simple_plaintext.h:square_sum"]}
{"id": "C68", "title": "measure_single_matmul_error measures the rounding of the diagonals", "statement": "Each round prints the Euclidean norm of the difference between a matrix with Diag random diagonals times the rounded test message and the same product computed on plaintexts. That number is exactly the norm of the product of the slots of the rounding errors of the diagonals with the rotated message, over Delta, because message and plaintext product are otherwise exact. The square of the predicted number is the exact mean of the square of the printed one when the rounding errors are independent and uniform, and no round exceeds the stated bound. There is no undefined behaviour.", "quantifier": "every LOGN from 2 to 17, every LOGQ for which conv is exact, every LOGDELTA below 64, every number of diagonals with the products below Q/2, every random stream in the range of dist", "why_tests_cant": "the program prints a hundred samples beside a prediction and decides nothing", "anchors": ["src/experiment/section3/theorem_single_matmul_error.cpp:measure_single_matmul_error", "include/impl/plaintext.h:matrix_vector_product", "include/experiment/setup.h:set_random_matrix"]}
{"id": "C69", "title": "measure_serial_matmul_error measures the accumulated rounding of the factors", "statement": "The program prints a prediction, sqrt(D) times the prediction, and the norm of the difference between the product of the D factors with the rounded test message and the same product computed on plaintexts. The measured number is exactly the norm of the difference between the exact product and the product with rounded diagonals, and is at most ((sqrt 2 + 3*2^n/Delta)^n - (sqrt 2)^n) times the norm of the message. Every factor multiplies norms by exactly sqrt 2, as the driver assumes. The measured error is a first order term over Delta up to the stated second order remainder, and the square of the prediction is the exact mean of the square of the first order term over independent uniform rounding errors.", "quantifier": "every LOGN from 2 to 17, every LOGQ for which conv is exact with the product below Q/2, every LOGDELTA below 63, all previous contents of the matrices", "why_tests_cant": "the program prints one number beside a prediction and decides nothing", "anchors": ["src/experiment/section3/theorem_serial_matmul_error.cpp:measure_serial_matmul_error", "include/experiment/setup.h:set_test_U0_matrix"]}
{"id": "C70", "title": "The tests of the transforms and of the matrix product print matching results", "statement": "ifft_test prints the same array twice: idft and ifft agree on the rounded test message, whose coefficients are multiples of 1/Delta and whose slots are within 2^(LOGN-1)/Delta of the test message. run_test prints the random message twice: fft undoes ifft. element_test, whose comparison accepts exactly two zeros or a relative difference below 1/1000, prints nothing: every element of the sparse product of two factors equals the sum of products of elements. vector_test prints the same message twice: the second factor times the first factor times the message. set_test_matrix stores the sine in the real parts and leaves the imaginary parts as they were, because the second assignment also goes to r.", "quantifier": "every LOGN from 2 (3 for the matrix tests) to 27, every random message, all previous contents of the matrices and of the output arrays", "why_tests_cant": "the programs print one run and leave the comparison to the reader", "anchors": ["src/test/dft_test.cpp:ifft_test", "src/test/dft_test.cpp:run_test", "src/test/matmul_test.cpp:element_test", "src/test/matmul_test.cpp:vector_test", "include/experiment/setup.h:set_test_matrix"]}
{"id": "C71", "title": "measure_b_evalmod stays within a proved bound although it samples outside the range of EvalMod", "statement": "The driver encrypts messages i*2^10 + j/eps_num with |i| <= 24 and |j| <= eps_num at scale 2^50, runs EvalMod at scale 2^60 with K = 24, and prints the largest error of the real parts against j/eps_num. It returns without undefined behaviour and prints at most 637100*130*2^(LOGN-1)/2^50 + 2e-10, although its first slots are -24-1/1024 in units of q, below the -23.75 at which the argument (4y-1)/96 of the Chebyshev polynomial leaves [-1,1]. For LOGN at most 8 the driver divides by eps_num = 0.", "quantifier": "every LOGN from 9 to 17, every chain of moduli with steps of 60 bits that ends at 65 bits or more and begins at 1585 bits or less, every weight at most 128, every stream of random numbers for which keygen returns, all previous contents of the ciphertexts", "why_tests_cant": "the driver prints the error of one random key and one random encryption; nothing compares it with a bound, and the slots outside the documented range are not noticed because the polynomial happens to be accurate a little beyond it", "anchors": ["src/experiment/section4/measure_b_evalmod.cpp:measure_b_evalmod", "include/HEAAN/bootstrap.h:EvalMod"]}
{"id": "C72", "title": "The transforms in binary64 are accurate to 28 (LOGN-1) units of rounding", "statement": "fft and ifft of DFT.h with every operation of double rounded to binary64 and the twiddle factors taken from the C library. When cos and sin are within 2^-52 on [-7,7], the Euclidean norm of the error of fft is at most 28(LOGN-1)/2^53 times the norm of the slots, that of ifft at most (28(LOGN-1)+3)/2^53 times the norm of the coefficients, each plus 2^-1000 for underflow; no operation overflows when the entries are at most 2^900. Every coefficient of ifft is within (28(LOGN-1)+3)/2^53*B for slots of modulus at most B, and fft of ifft returns the slots with relative error at most (56(LOGN-1)+4)/2^53.", "quantifier": "every LOGN from 2 to 27, every input vector with entries up to 2^900 (2^800 for the round trip), every library whose cos and sin meet the accuracy", "why_tests_cant": "test_dft prints the error of one random vector; a bound over all inputs of 2^17 doubles, including those that line up the rounding errors of 16 levels, and the absence of overflow cannot be sampled", "anchors": ["include/HEAAN/matrix/DFT.h:splitU0NR", "include/HEAAN/matrix/DFT.h:fftNR", "include/HEAAN/matrix/DFT.h:ifftNR", "include/HEAAN/matrix/DFT.h:fft", "include/HEAAN/matrix/DFT.h:ifft", "include/HEAAN/matrix/matrix.h:matrix_vector_product"]}
{"id": "C73", "title": "Encoding and decoding in binary64, with and without encryption", "statement": "encode, decode and decode_log of endecode.h with every operation of double rounded to binary64. encode returns the integers nearest to numbers that differ from Delta times the exact coefficients by at most (28(LOGN-1)+6)/2^53*B*Delta in the Euclidean norm, for slots of modulus at most B; decode and decode_log are accurate to (28(LOGN-1)+8)/2^53 of the norm of the slots. encode, enc, dec and decode_log together return every slot within 17*2^(LOGN-1)/2^LOGDELTA*(1+2^-40) + 2^((LOGN-1)/2)*(56(LOGN-1)+15)/2^53*B. No conversion to uint64_t and no operation is out of range under the stated bounds. The 1/2 of exact arithmetic does not hold: a Delta of more than 53 bits is rounded before the product. decode overflows on every coefficient of 2^1024 or more, because power is an infinity by then; decode_log does not.", "quantifier": "every LOGN from 2 to 27, every LOGQ up to 2^29, every message with B*Delta*(1+2^-40)+2 at most 2^64 and 2^(LOGQ-1), every Delta, ternary key and random stream, every C library with cos and sin within 2^-52", "why_tests_cant": "the tests look at a few random messages; that the rounding errors of the transform, the product with Delta, Horner's rule over the limbs and ldexp stay below a bound for all messages and all moduli, and that the cast to uint64_t is never out of range, is a statement about all inputs", "anchors": ["include/HEAAN/endecode.h:encode", "include/HEAAN/endecode.h:decode", "include/HEAAN/endecode.h:decode_log", "include/HEAAN/core.h:enc", "include/HEAAN/core.h:dec"]}
{"id": "C74", "title": "The rounding of the binary64 model is that of IEEE 754", "statement": "fl, the operation by which the model rounds every sum, product and quotient of doubles, returns a binary64 number, and no binary64 number is nearer to the exact result; when another one is as near, the one returned has an even significand. Binary64 numbers are returned unchanged, among them every integer up to 2^53. fl reports overflow exactly when the exact result is at least 2^1024 - 2^970 in absolute value, the midpoint above the largest finite double. Rounding is monotone and commutes with the sign. PI64, the value of the macro PI of util.h, is the binary64 number nearest to pi.", "quantifier": "every real number as exact result, every binary64 number as rival, subnormal numbers included", "why_tests_cant": "the range of inputs is the real line; ties, subnormal results and the overflow threshold are single points among 2^64 values that random testing does not hit", "anchors": ["include/util/util.h:PI", "include/HEAAN/matrix/DFT.h:splitU0NR", "include/HEAAN/matrix/matrix.h:matrix_vector_product", "include/HEAAN/endecode.h:encode"]}
{"id": "C75", "title": "Sparse products and the matrices of the transforms in binary64", "statement": "MatMul for pairs of SparseDiagonal with every product and sum of double rounded to binary64. For factors with entries up to 1.001 and row sums up to 2.001 no operation overflows, no assertion fails, the result has the shape the linear transform needs, and in each row the moduli of the differences to the exact product sum up to at most 25*S1*S2/2^53. The factors of CoeffToSlot (adjoint butterflies times 1/pow(N,1/(LOGN-1))) and of SlotToCoeff built in binary64 are within 36/2^53 of the exact ones in each row, and the groups of 2, 3 and 4 of them within 400/2^53, 1600/2^53 and 6400/2^53 of the groups of exact factors.", "quantifier": "all sparse matrices of size up to 2^30 with at most 1000 pairs of diagonals under the stated bounds; LOGN from 2 to 27; every C library with cos and sin within 2^-52 and pow within a relative error of 2^-52", "why_tests_cant": "the tests never compare the tables with exact values; the bound is over all rows of matrices of size 2^16, all libraries of the stated accuracy and all ways in which the rounding errors of 81 diagonals add up", "anchors": ["include/HEAAN/matrix/matrix.h:MatMul", "include/HEAAN/matrix/matrix.h:SparseDiagonal", "include/HEAAN/matrix/DFT.h:splitU0NR", "include/HEAAN/linear_transform.h:grouped2_serial_linear_transform", "include/HEAAN/linear_transform.h:grouped3_serial_linear_transform", "include/HEAAN/linear_transform.h:grouped4_serial_linear_transform", "include/HEAAN/bootstrap.h:CoeffToSlot", "include/HEAAN/bootstrap.h:SlotToCoeff"]}
{"id": "C76", "title": "CoeffToSlot and SlotToCoeff on ciphertexts in binary64", "statement": "CoeffToSlot and SlotToCoeff with every table entry, sparse product and encoded diagonal computed in binary64. CoeffToSlot returns two ciphertexts whose slots hold the lower and the upper half of the plaintext's coefficients in bit reversed order, times 2^LOGDELTA per group, and SlotToCoeff undoes this. The error is bounded by an explicit function of the ring size, the weight of the key, the grouping, 2^LOGDELTA and the size of the input: grpErrF, which replaces the rounding of exact diagonals in C46 by the rounding of diagonals that are themselves off by matUlp(G) per row and by the error of a binary64 encoding. No undefined behaviour, no failed assertion, no overflow.", "quantifier": "all n from 1 to 16, all groupings 1 to 4 that divide n, LOGDELTA below 63 and two below LOGQ, all canonical ciphertexts, all ternary keys, all random streams, every C library with cos and sin within 2^-52 and pow within a relative error of 2^-52", "why_tests_cant": "the error depends on the C library, the key and the random streams; a test sees one library and a handful of ciphertexts, and does not separate rounding of doubles from rounding of scaled integers", "anchors": ["include/HEAAN/bootstrap.h:CoeffToSlot", "include/HEAAN/bootstrap.h:SlotToCoeff", "include/HEAAN/linear_transform.h:grouped2_serial_linear_transform", "include/HEAAN/linear_transform.h:grouped3_serial_linear_transform", "include/HEAAN/linear_transform.h:grouped4_serial_linear_transform", "include/HEAAN/endecode.h:encode"]}
{"id": "C77", "title": "EvalMod in binary64", "statement": "EvalMod with its 32 literals, 1/(2*pi) and the constants 1/(4K) and 1/6 rounded to binary64 and multiplied by 2^LOGDELTA in binary64. The rounded literals are the leaves of an evaluation tree within 2.43e-14 of cos(3 pi x) on [-1,1]. On a ciphertext of 2^LOGDELTA*(I+e), I integer and |I+e-1/4| at most 24, EvalMod with K=24 returns a ciphertext of 2^LOGDELTA*e up to evalModErrF and the term of degree five of the arcsine. With the parameters of the drivers an input error of 2^20 gives at most 2^41.", "quantifier": "all n from 1 to 16, all moduli chains with steps of LOGDELTA below 62, all canonical ciphertexts, ternary keys and random streams; all K with 4K below 2^31 for the general form", "why_tests_cant": "the tests evaluate a few points; the claim bounds the effect of rounding every constant on all slots, keys and random streams", "anchors": ["include/HEAAN/bootstrap.h:EvalMod"]}
{"id": "C78", "title": "Bootstrapping in binary64", "statement": "The conventional and the proposed bootstrapping, with every operation on doubles in CoeffToSlot, EvalMod and SlotToCoeff rounded to binary64, run without undefined behaviour, overflow or failed assertion and return a ciphertext of the same message under the larger modulus. The coefficients are off by at most convErrF or propErrF, explicit functions of the parameters. With the parameters of the drivers that have LOGDELTA_cts = 60 and messages up to 2^51 the error is at most 2^37, 2^45 and 2^57 for LOGN 9, 13 and 17.", "quantifier": "all canonical ciphertexts whose raised message is in the range of EvalMod, all ternary keys, all random streams, all n up to 16 and groupings 1 to 4; keys with at most 128 non-zero coefficients for the numbers, at most 45 for the form without hypothesis on the raised message; every C library with cos and sin within 2^-52 and pow within a relative error of 2^-52", "why_tests_cant": "the drivers print the error of one run with one library; the bound holds for all keys, random streams, messages and libraries, and counts the rounding of doubles, of scaled integers and of the approximation", "anchors": ["src/test/evalqI_test.cpp:evalqI_test", "src/test/end_to_end_test.cpp:end_to_end_test", "src/experiment/section4/proposal.cpp:proposed_bootstrap_test"]}
{"id": "C79", "title": "The bootstrapping drivers in binary64", "statement": "The drivers from key generation to the printed numbers, with every operation on doubles rounded to binary64 (the test message, encoding, bootstrapping, decoding, the maxima), run without undefined behaviour, overflow or failed assertion. Every slot of the output is within 2^LOGN * 2^b / 2^50 * (1 + 2^-20) of the message with b = 35, 41, 47 (conventional) or 35, 40, 45 (proposed) for LOGN 9, 13, 17, the two maximal errors are within the same bound, and the printed sup norm is at most 2^b / 2^50 * (1 + 2^-20). The maximal error in binary64 is the exact maximum up to a relative error of 2^-53, the sup norm the exact one up to 2^-51, and the two ways in which the drivers compute it give the same double. The test message is within 12 units of 2^-53 of the exact one and of modulus at most 1. A sup norm of 2^53 + 1 is reported as 2^53.", "quantifier": "all messages of modulus at most 1 per slot, all random streams (keys of weight at most 128 with the raised message in the range of EvalMod, or at most 45 without that hypothesis), all contents of uninitialised memory, every C library with cos and sin within 2^-52 and pow within a relative error of 2^-52", "why_tests_cant": "a run of a driver prints the numbers of one key, one random stream and one library; whether a printed number is itself distorted by rounding cannot be seen from the output", "anchors": ["src/test/bootstrap_test.cpp:bootstrap_test", "src/experiment/section4/proposal.cpp:conventional_bootstrap_test", "src/experiment/section4/proposal.cpp:proposed_bootstrap_test", "include/experiment/setup.h:set_test_message", "include/experiment/setup.h:print_max_error"]}
{"id": "C80", "title": "The L2 bounds of the transforms and of bootstrapping in binary64", "statement": "The errors of CoeffToSlot, SlotToCoeff and both bootstrappings in binary64, bounded through the sum of the squares of the slots instead of slot by slot: if the squares of the slots of the raised message sum to at most Z^2, the coefficients after the conventional or proposed bootstrapping are off by at most convErr2 or propErr2. With the parameters of the drivers that have LOGDELTA_cts = 60 and messages up to 2^51 the error is at most 2^35, 2^41, 2^47 (conventional) and 2^35, 2^40, 2^45 (proposed) for LOGN 9, 13, 17, so for LOGN = 17 too it is smaller than the message.", "quantifier": "as in C78: all canonical ciphertexts whose raised message is in the range of EvalMod, all ternary keys, all random streams, all n up to 16 and groupings 1 to 4; keys with at most 128 non-zero coefficients for the numbers, at most 45 for the form without hypothesis on the raised message; every C library with cos and sin within 2^-52 and pow within a relative error of 2^-52", "why_tests_cant": "the drivers print the error of one run; no run shows a bound that holds for all keys, random streams, messages and libraries, and the ring degree 2^17 takes the longest", "anchors": ["src/test/bootstrap_test.cpp:bootstrap_test", "src/experiment/section4/proposal.cpp:conventional_bootstrap_test", "src/experiment/section4/proposal.cpp:proposed_bootstrap_test", "include/HEAAN/bootstrap.h:CoeffToSlot", "include/HEAAN/bootstrap.h:SlotToCoeff"]}
{"id": "C81", "title": "What the output functions print", "statement": "Z_Q::print_unsigned prints the decimal digits, R_Q::print_unsigned, R_Q::print_signed and R_Q_square::print the lists of the unsigned or signed coefficients; different polynomials are printed differently; with a modulus above 2^1300 they fail an assertion. SparseDiagonal::print prints exactly the nonzero stored entries at their row and column, and the printed assignments give the matrix that get_element reads if no offset is repeated; with a repeated offset the printed matrix can differ from get_element. print_max prints the largest absolute value, the dense print the rows and columns in order, print_array and the print functions on messages and simple plaintexts the first ten entries and no read outside the arrays.", "quantifier": "all moduli, polynomials, matrices with offsets that do not overflow int, arrays of every length", "why_tests_cant": "injectivity and the absence of reads outside a buffer are statements about all inputs; the failing moduli and repeated offsets are not used by the drivers", "anchors": ["include/HEAAN/arith/Z_Q.h:print_unsigned", "include/HEAAN/arith/R_Q.h:print_unsigned,print_signed", "include/HEAAN/arith/R_Q_square.h:print", "include/HEAAN/matrix/matrix.h:print,print_max", "include/util/util.h:print_array", "include/impl/message.h:print", "include/impl/simple_plaintext.h:print"]}
{"id": "C82", "title": "The dense matrix product", "statement": "matrix_product writes the product of two complex matrices whatever the result held before; with the result in place of the left factor every entry of the first column lacks the first term of its sum, so the product of (1) and (1) is (0). In binary64 each entry is off by at most (2N+5)/2^53 of the sum of the absolute values of its terms, plus N/2^1071, and nothing overflows while that sum is at most 2^1000.", "quantifier": "all N (up to 2^20 in binary64), all matrices", "why_tests_cant": "no driver calls the function; rounding errors depend on all entries", "anchors": ["include/HEAAN/matrix/matrix.h:matrix_product"]}
{"id": "C83", "title": "The convolution experiments of section 3 in binary64", "statement": "With every double operation rounded to binary64 and cos and sin within 2^-52, measure_conv_error and measure_conv_sum_error return without overflow for LOGN from 2 to 20 and at most 1024 diagonals. The plaintext they use is the rounding to integers of numbers within (28 LOGN - 10)/8 in L2 norm of 2^50 times the coefficients of the exact test message. What they print first is N/12 (times the number of diagonals) times the square sum of that plaintext, up to a relative error of (1.1N+6)/2^53. The rounding errors e = pt_raw - pt are computed without any error and lie in [-1/2,1/2]. In each round the square root of the printed number differs from the norm of the exact product of the plaintext with those e (their sum over the diagonals) by at most N(1.1N+4)/2^53 (D N(1.1N+D+4)/2^53) times the norm of the plaintext, which for LOGN = 16 is 10^-8 of the expected norm.", "quantifier": "all LOGN from 2 to 20, all numbers of rounds and of diagonals up to 1024, all streams of random numbers in [-1,1], all cos and sin with the stated accuracy", "why_tests_cant": "the exact product is not available at run time; the bound is over all random messages", "anchors": ["src/experiment/section3/lemma_conv_error.cpp:measure_conv_error", "src/experiment/section3/lemma_conv_sum_error.cpp:measure_conv_sum_error", "include/impl/simple_plaintext.h:encode,encode_raw,conv,add,sub,square_sum"]}
{"id": "C84", "title": "The functions on messages in binary64", "statement": "With every double operation rounded to binary64, the functions of message.h neither overflow nor leave their arrays while the exact values they compute stay below 2^1000, and: add and sub round every slot once (relative error 2^-53); mul is accurate to 3/2^53 of the product of the absolute values; norm is the Euclidean norm up to a relative error of (1.1n+5)/2^53 and sup_norm the largest absolute value up to 4/2^53; every slot of the dense product with K diagonals, and of the sparse product with S stored diagonals, where diagonals marked zero are skipped, is off by at most (2K+5)/2^53, (2S+5)/2^53 of the sum of the absolute values of its terms. Absolute terms for subnormal results are at most 2^-519.", "quantifier": "all numbers of slots and of diagonals (up to 2^20 for norm, K and S), all messages and matrices whose exact sums are at most 2^1000 (slots at most 2^500 for sup_norm)", "why_tests_cant": "the exact values are not available at run time; the bounds hold for all inputs", "anchors": ["include/impl/message.h:add,sub,mul,square_sum,norm,sup_norm,matrix_vector_product"]}
{"id": "C85", "title": "Almost every ciphertext is in the range of EvalMod", "statement": "C53 shows that for keys of weight above 46 some ciphertexts leave the range [-23.7, 24.2] * 2^60 that EvalMod can handle. They are rare: for every ternary key with at most h nonzero entries, every message up to 2^51 - 8, every previous content of the ciphertext and every choice of the other random numbers, of all values of the 5N draws that enc makes for the mask at most a fraction 2N exp(-3310/h) gives a ciphertext whose raised message leaves the range: at most N/2^36 for the weight 128 of rns.h and test.h, at most N/2^23 for the weight 192 of lattigo.h. Consequently the drivers with LOGDELTA_cts = 60 and a key of weight 128, in binary64, give an output within the bounds of C79 for all but a fraction N/2^36 of the draws for the mask, whatever keygen drew before and whatever is drawn afterwards; keygen depends on finitely many draws only.", "quantifier": "all N up to 2^30, all ternary keys, all messages, RAND_MAX + 1 = 2^k with k at least 13; the drivers for LOGN 9, 13, 17 with the moduli of C79", "why_tests_cant": "a test runs a handful of the 2^(155 N) draws", "anchors": ["include/HEAAN/core.h:enc,keygen", "include/HEAAN/bootstrap.h:mod_raise", "include/util/util.h:rand_uint64", "src/experiment/section4/proposal.cpp:conventional_bootstrap_test,proposed_bootstrap_test", "src/test/bootstrap_test.cpp:bootstrap_test"]}
{"id": "C86", "title": "keygen samples the sparse keys uniformly", "statement": "Over all sequences of L values of rand(), each from 0 to RAND_MAX, every ternary key of weight h is returned by keygen within these L draws for the same number of sequences: the rejection loop introduces no bias between positions, signs or keys. Each key has probability 1/(C(N,h) 2^h), up to the relative share of sequences for which keygen has not returned after L draws; that share is at most (1/L) sum_{i<h} (N/(N-i) + 1), where the sum is the mean number of draws and is at most 3h if h <= N/2. The divisibility of RAND_MAX + 1 by N and 2 is needed: with RAND_MAX = 2 two keys of weight 1 have probabilities 4/9 and 2/9.", "quantifier": "all N and RAND_MAX with N and 2 dividing RAND_MAX+1, all h, all numbers of draws L, all pairs of ternary keys of weight h", "why_tests_cant": "there are C(N,h) 2^h keys, far more than any number of runs, and a small bias of a rejection loop is invisible in samples", "anchors": ["include/HEAAN/core.h:keygen"]}
{"id": "C87", "title": "conv_test, ctxt_conv_test, coeffToSlot_test and evalMod_test in binary64", "statement": "With every operation on a double rounded to binary64 and a libm accurate to an ulp, conv_test and ctxt_conv_test print two messages that are both within a stated error of the product (the square) of the random message; CoeffToSlot_test prints the coefficients of the message in bit-reversed order, once from the double computation and once decrypted; CoeffToSlot_SlotToCoeff_test prints the message and its image, which differ by the stated error; EvalMod_test prints 0.0001 in every slot up to the stated error. None of them runs into undefined behaviour or a failed assertion. At the parameters of test.h the printed pairs agree to 2^-30 (conv_test, ctxt_conv_test), 2^-20 per coefficient (CoeffToSlot_test), 2^-10 (CoeffToSlot_SlotToCoeff_test), and EvalMod_test gives 0.0001 to 2^-23.", "quantifier": "every random message in the unit disc, every rand() stream on which keygen ends, every accurate libm, every LOGN from 2 to 17, every modulus for which conv is exact, every group size up to 4 dividing LOGN-1, every scale small enough that the result does not wrap", "why_tests_cant": "the programs print one run and leave the comparison to the reader; the rounding errors depend on the message and on the libm", "anchors": ["src/test/conv_test.cpp:main", "src/test/ctxt_conv_test.cpp:main", "src/test/coeffToSlot_test.cpp:CoeffToSlot_test", "src/test/coeffToSlot_test.cpp:CoeffToSlot_SlotToCoeff_test", "src/test/evalMod_test.cpp:EvalMod_test"]}
{"id": "C88", "title": "matmul_test prints three equal messages in binary64", "statement": "linear_transform_test encrypts a random message and multiplies it homomorphically by the 8 adjoint butterfly matrices of set_test_U0_matrix, one by one, grouped in pairs and grouped by four. With every operation on a double rounded to binary64 it returns without undefined behaviour, and each of the three printed messages is, slot by slot, within a stated error of 2^8 times the coefficients of the message in bit-reversed order. At the parameters of test.h the three messages agree to 2^-13.", "quantifier": "every random message in the unit disc, every rand() stream on which keygen ends, every accurate libm, every scale and modulus for which conv is exact and the result does not wrap", "why_tests_cant": "the program prints one run and leaves the comparison to the reader", "anchors": ["src/test/matmul_test.cpp:linear_transform_test", "include/experiment/setup.h:set_test_U0_matrix", "include/HEAAN/linear_transform.h:grouped_serial_linear_transform"]}
{"id": "C89", "title": "The direct transforms and dft_test in binary64", "statement": "With every operation on a double rounded to binary64, dft evaluates the polynomial at the roots with an error of at most (2N+18)/2^53 times the sum of the absolute values of its coefficients, and idft recovers the coefficients with an error of at most (N+20)/2^53 times the mean absolute slot, up to underflow terms; ifft followed by fft, and fft followed by ifft, give the input back with a relative Euclidean error of at most (56n+4)/2^53 with N = 2^(n+1). The program dft_test therefore prints two arrays of coefficients that agree and are multiples of 2^-50 up to these errors, and two messages that agree.", "quantifier": "every message and polynomial up to the stated sizes, every accurate libm, every N from 4 to 2^20 for the direct transforms and to 2^27 for the fast ones, every content of the uninitialised arrays", "why_tests_cant": "the program prints one run at N = 512 without comparing, and the quadratic transforms are too slow to run at the larger sizes", "anchors": ["include/HEAAN/matrix/DFT.h:dft", "include/HEAAN/matrix/DFT.h:idft", "include/experiment/setup.h:set_test_rounded_message", "src/test/dft_test.cpp:ifft_test", "src/test/dft_test.cpp:run_test"]}
{"id": "C90", "title": "measure_b_evalmod in binary64", "statement": "The program measure_b_evalmod encrypts a message that runs through all multiples of 2^10 from -24 to 24 plus a fraction, applies the homomorphic reduction with K = 24, and prints the largest difference to the fraction. With every operation on a double rounded to binary64 it returns without undefined behaviour and prints at most 637100*(130*2^n + 130*(28n+6)*2^(n/2) + 1000)/2^50 + 2e-10 for LOGN = n+1, although the first slots lie outside of the interval on which the Chebyshev polynomials are bounded by 1. The message it encrypts is the exact one up to 2^-36, the expected result up to 2^-52. For LOGN up to 8 the program computes 0.0/0.0.", "quantifier": "every LOGN from 9 to 17, every rand() stream on which keygen ends, every accurate libm, every chain of moduli that drops at least LOGDELTA_boot bits per level, H up to 128", "why_tests_cant": "the program prints a maximum over one key and one stream of errors, from doubles that carry their own rounding errors", "anchors": ["src/experiment/section4/measure_b_evalmod.cpp:measure_b_evalmod", "include/HEAAN/bootstrap.h:EvalMod"]}
{"id": "C91", "title": "end_to_end_test in binary64", "statement": "The program end_to_end_test bootstraps an encrypted message step by step, and after each step decrypts, decodes and prints the largest difference to the expected coefficients. With every operation on a double rounded to binary64 it returns without undefined behaviour. For LOGN = n+1 = 9, 13, 17 and b = 35, 41, 47 it prints a cts and an evalmod error of at most 2^b/2^50, an evalqI error of at most 2^(n+25)/2^50, an stc error of at most 2^(b+1)/2^50, an e_norm of at most 2^b/2^50*(1+2^-20) and largest differences of the real and imaginary parts of at most 2^(n+1)*2^b/2^50*(1+2^-20), for keys of at most 29 entries. Without the bound on the entries: the cts and evalqI bounds hold when every coefficient of the raised message is below 2^64, and both numbers printed are at least 16000 when one is not, because the conversion to double reads only the low limb; there are a key and a ciphertext for which this happens although the bootstrapped plaintext is right up to 2^-14.", "quantifier": "LOGN 9, 13 and 17, LOGDELTA_stc 50 and 60, every message of slots of modulus at most 1, every rand() stream that reaches every index, every accurate libm, every chain of moduli of the drivers", "why_tests_cant": "a run prints a maximum over one key and one stream; that the check itself is wrong depends on coefficients that the test never looks at, and its doubles carry their own rounding errors", "anchors": ["src/test/end_to_end_test.cpp:end_to_end_test", "include/HEAAN/arith/Z_Q.h:operator double"]}
{"id": "C92", "title": "The design programs in binary64", "statement": "With every operation on a double rounded to binary64, and for every pow with a relative error of at most 1/1000 and every log2 with an error of at most 1/1000, design_delta_tilde prints the logarithms (24, 22) for LOGN = 9, (30, 25) for LOGN = 13 and (35, 29) for LOGN = 17, as in exact arithmetic, also when the conversion int Diag = pow(3, G) truncates to one less than the power. design_delta_tilde_lattigo prints an expected error that is below the goal it prints; with the scale 2^33 instead of 2^34 it would be above.", "quantifier": "every pow and log2 within 1/1000 of the functions on the arguments used", "why_tests_cant": "a run checks one libm; whether the ceilings and the truncation of pow(3, G) come out the same with another libm is a question about all of them", "anchors": ["src/experiment/section4/design_delta_tilde.cpp:design_delta_tilde", "src/experiment/section4/design_delta_tilde_lattigo.cpp:main"]}
{"id": "C93", "title": "theorem_single_matmul_error in binary64", "statement": "With every operation on a double rounded to binary64, every accurate libm and every sequence of random values of absolute value at most 1/sqrt(2), measure_single_matmul_error returns. The expected value that it prints is sqrt(Diag*N/12)*||z||/Delta up to a relative error of (1.1*2^(LOGN-1)+10)/2^53 and 2^-490. What each round prints is the norm of the error that the rounding errors e of the encoded diagonals cause, divided by Delta, up to Diag*sqrt(N/2)*(172(LOGN-1)+2Diag+40)/2^53; e is what rounding to integers leaves of the scaled coefficients of the diagonals, which ifft computes up to (28(LOGN-1)+7)/8 in the L2 norm.", "quantifier": "every LOGN from 2 to 17, every number of diagonals up to 2^20, every number of rounds and every random values in range, every accurate libm", "why_tests_cant": "the program prints one number per round and cannot tell the rounding errors of the encoding, which it wants to measure, from those of double", "anchors": ["src/experiment/section3/theorem_single_matmul_error.cpp:measure_single_matmul_error", "include/impl/plaintext.h:matrix_vector_product"]}
{"id": "C94", "title": "theorem_serial_matmul_error in binary64", "statement": "With every operation on a double rounded to binary64 and every accurate libm (pow included), measure_serial_matmul_error returns. The two expected values that it prints are sqrt(3N/12)*||z||/Delta*sqrt(D)*sqrt(2)^(D-1) and sqrt(D) times that, up to a relative error of (1.1*2^D+2D+20)/2^53 and 2^-380, where D=LOGN-1 and z is the rounded test message. The measured value is the norm of the difference of U_(D-1)...U_0 z and the same product with the rounding errors e of all encoded diagonals, up to 2^D*(196D+40)/2^53; U_d are the matrices that the program computes, each row within 36/2^53 of the exact adjoint factor, and e is what rounding to integers leaves of the scaled coefficients of their diagonals, which ifft computes up to (28D+7)/8 in the L2 norm. The measured value is at most ((s+3c)^D-s^D)*||z|| plus that tolerance, with s=sqrt(2)+2^-39 and c=(2^D+sqrt(2)^D*(28D+7)/8)/Delta.", "quantifier": "every LOGN from 2 to 17, every admissible LOGQ above 51*LOGN, every initial content of the matrix arrays, every accurate libm", "why_tests_cant": "the program prints one number and cannot tell the rounding errors of the diagonals, multiplied through 15 products modulo 2^1450, from those of double or from a wrapped coefficient", "anchors": ["src/experiment/section3/theorem_serial_matmul_error.cpp:measure_serial_matmul_error", "include/impl/plaintext.h:matrix_vector_product"]}
{"id": "C95", "title": "check_sup_norm_bound in binary64", "statement": "With every operation on a double rounded to binary64, every accurate libm and every sequence of random values of absolute value at most 1/sqrt(2), check_sup_norm_bound returns. In each round the sup norm of the encoded coefficients is exact, their Euclidean norm is off by at most (1.1N+5)/2^53 of itself, the ratio of sup norm to root mean square by at most (1.1N+8)/2^53 of itself, and the ratio is not a number exactly when all coefficients are zero, where the comparison skips it. The reported maximum lies within (1.1N+8)/2^53 of the largest ratio of all rounds and C2_empirical is it rounded up. The constant C2=5 is no bound: for some random values in range the program reports a maximum of at least sqrt(N)(1-2^-30) and C2_empirical at least 6, for every LOGN from 5 to 17.", "quantifier": "every LOGN from 2 to 17, every LOGQ from 53 on, every number of rounds, every random values in range, every accurate libm", "why_tests_cant": "the program draws 100 random messages and never meets the messages with a large ratio or the division of zero by zero", "anchors": ["src/experiment/section4/example_sup_norm.cpp:check_sup_norm_bound"]}
{"id": "C96", "title": "element_test and vector_test in binary64", "statement": "With every operation on a double rounded to binary64 and every accurate libm, element_test prints nothing: every element of the product of the first two factors has at most one nonzero term, so that MatMul and the sum over all k round it in the same way and give the same double, including zero. vector_test prints two messages within 250 and 500 units of 2^-53 of the one message that exact arithmetic prints twice, hence within 10^-13 of each other in every slot.", "quantifier": "every LOGN from 3 to 27, every accurate libm, every contents of the uninitialised matrices, for vector_test every random values of absolute value at most 1/sqrt(2)", "why_tests_cant": "the tests run for one LOGN, one libm and one random message, accept a relative difference of 1/1000, and leave it to the reader to compare the printed messages", "anchors": ["src/test/matmul_test.cpp:isEqual", "src/test/matmul_test.cpp:element_test", "src/test/matmul_test.cpp:vector_test", "include/HEAAN/matrix/matrix.h:MatMul"]}
{"id": "C97", "title": "measure_cts_error and measure_sup_norm in binary64", "statement": "With every operation on a double rounded to binary64 and every accurate libm, measure_cts_error and measure_sup_norm never return: aggregate reads outside of an array. Before that, the raised plaintext is the encoded one plus at most 8 plus 2^60 I with |I| at most 65 in every coefficient; the printed norm of z_amb is off by at most 2^-36 of itself plus 2^-500; the printed norm of pt/Delta is off by at most (1.1N+5)/2^53 of itself plus 2^-519 and its sup norm is exact. If every coefficient of the raised plaintext is below 2^64, every slot of the two error messages is at most 2^-13, 2^-5 or 4 for LOGN 9, 13 and 17. If one is not, the conversion to double loses its high word and some slot of an error message is at least 16000, which is not the error of CoeffToSlot.", "quantifier": "LOGN 9, 13, 17 with grouping 2, 3, 4 and CoeffToSlot scaling 2^50 as in the drivers, every modulus QT from 512 to 1525 bits, every key of weight at most 128 that keygen returns, every message in range, every random stream, every accurate libm", "why_tests_cant": "each driver makes one run with one key and one message, whose raised plaintext may or may not exceed a word, and an out-of-bounds read may go unnoticed", "anchors": ["src/experiment/section3/theorem_cts_error.cpp:measure_cts_error", "src/experiment/section4/example_sup_norm.cpp:measure_sup_norm", "include/impl/message.h:aggregate", "include/HEAAN/arith/Z_Q.h:operator double"]}
{"id": "C98", "title": "Distribution of a fresh ciphertext", "statement": "enc consumes exactly five draws per limb of the mask and two per coefficient of the noise. Over all values of these draws, with RAND_MAX+1 a power of two, the number that gives a chosen mask and a chosen noise polynomial is a constant times a product of one factor per noise coefficient: the mask is uniform and independent of the noise, the noise coefficients are independent of each other, and a coefficient is 0 twice as often as it is any other value (up to the rounding of 2^k/9), which is what rand()%9 followed by a random sign gives. In the slots, all but a fraction 2N exp(-3T^2/(136N)) of the draws give a ciphertext whose decryption differs from the plaintext by less than T in every slot, for every T.", "quantifier": "every LOGQ of at least 5 (the slots: every LOGQ), every N up to 2^30 (the slots: even), every plaintext, ternary key, previous content of the ciphertext and rest of the random stream, every canonical mask, every noise with coefficients in -8..8, every T", "why_tests_cant": "a distribution over 2^(31(5l+2)N) values of the draws cannot be seen from samples; the drivers print one sample of the error", "anchors": ["include/HEAAN/core.h:enc", "include/HEAAN/core.h:dec", "include/util/util.h:rand_uint64"]}
{"id": "C99", "title": "Error of key switching over the draws of the key", "statement": "Fix a ciphertext (for Mul two) and let swkgen draw the key afterwards. For every T, all but a fraction 2N exp(-3T^2/(136N)) of the draws of swkgen give a key with which ks, rot_ct and conj return a ciphertext whose decryption is the exact one up to an error below T + (h+1)/2 in every coefficient; for Mul the fraction is 2N exp(-3T^2/(34N)). At N = 2^17 the error is thus below 2^15 + (h+1)/2 but for a fraction 2^-200 of the keys, where the worst case is 2^20.", "quantifier": "every T >= 0, every LOGQ for which conv is right, every N = 2^k with 1 <= k <= 17, every key, canonical ciphertext, rotation, previous content of the outputs and rest of the random stream, RAND_MAX odd", "why_tests_cant": "the number of keys is astronomically large; a test sees the error of one key", "anchors": ["include/HEAAN/core.h:swkgen,ks,Mul", "include/HEAAN/linear_transform.h:rot_ct,conj"]}
{"id": "C100", "title": "Error of rescaling a fresh ciphertext over the draws of its mask", "statement": "Encrypt a plaintext, rescale from LF to LT < LF bits with RS, decrypt. For every T, all but a fraction 2N exp(-6T^2/h) of the draws of the mask give the plaintext divided by 2^(LF-LT) with an error below T + 1/2 + (h+16)/2^(LF-LT+1) in every coefficient, and all but a fraction 2N exp(-6T^2/N) an error of at most hT + N/2 + N(h+16)/2^(LF-LT+1) in every slot, where h is the weight of the key. At N = 2^17, h = 128 the error of the coefficients is below 33 but for a fraction 2^-50 of the masks, where the worst case is 64.5.", "quantifier": "every T >= 0, every 0 < LT < LF, every N <= 2^30 (even for the slots), every ternary key of weight at most h, every plaintext that the errors cannot carry over the modulus, every noise, previous content of the outputs and rest of the random stream, RAND_MAX + 1 = 2^k with k >= 13", "why_tests_cant": "the number of masks is astronomically large; a test sees the error of one mask", "anchors": ["include/HEAAN/core.h:enc,RS,dec", "include/HEAAN/arith/Z_Q.h:shift_right"]}
{"id": "C101", "title": "Round trip through encryption in binary64 over the draws of the encryption", "statement": "Encode a message in binary64, encrypt, decrypt, decode in binary64 (encode, enc, dec, decode_log). For every T, all but a fraction 2N exp(-3T^2/(136N)) of the draws of the encryption return every slot up to (N/2 (1+2^-40) + T)/Delta plus sqrt(N/2) (56(LOGN-1)+15) 2^-53 (B + T/Delta) + 2^-900, where B bounds the slots. In the shape of the drivers (N = 2^17, Delta = 2^50, B = 1) every slot comes back within 2^-33 but for a fraction 2^-200 of the draws; the worst case (C73) is 2^-29.", "quantifier": "every T >= 0, every LOGN from 2 to 27, LOGQ <= 2^29, LOGDELTA < 64, every message with slots of modulus at most B that fits into 64 bits and into the modulus, every ternary key, previous content of the ciphertext and rest of the random stream, every accurate libm, RAND_MAX odd", "why_tests_cant": "a test sees the noise of one draw and the rounding errors of one message", "anchors": ["include/HEAAN/endecode.h:encode,decode_log", "include/HEAAN/core.h:enc,dec"]}
{"id": "C102", "title": "The bootstrapping drivers return on every run, inside the range of EvalMod or not", "statement": "Every call of conventional_bootstrap_test and proposed_bootstrap_test, with any LOGDELTA_cts and LOGDELTA_stc below 63 and any number of levels G that divides LOGN-1, returns: no array is read out of range, no conversion from double leaves its target type, no double overflows, no assertion fails, no loop diverges. Nothing is assumed of the raised message, which for the key weight 128 may leave the range of EvalMod. In particular the twelve calls of main in proposal.cpp return, among them those with LOGDELTA_cts = 22, 25 and 29. The two greatest errors that are printed are those of the slots returned up to 2^-52, and e_per_Delta_sup_norm is at most 2^14 (1+2^-50) whatever happened, because only the low limb of the difference is read. EvalMod returns a canonical ciphertext on every ciphertext, in its range or not.", "quantifier": "every LOGN from 2 to 17, G from 1 to 4 dividing LOGN-1, scales below 63, moduli QT <= 1525 that leave at least 65 bits after EvalMod, every key weight H <= N, every message with slots of modulus at most 1, every previous content of the ciphertext, every stream of random numbers that reaches every index (else keygen diverges, C19), every accurate libm, every RAND_MAX", "why_tests_cant": "whether the raised message leaves the range depends on the key and the mask; a run sees one of them, and a run that leaves the range shows nothing about the others", "anchors": ["src/experiment/section4/proposal.cpp:conventional_bootstrap_test,proposed_bootstrap_test,main", "src/test/bootstrap_test.cpp", "include/HEAAN/bootstrap.h:EvalMod,CoeffToSlot,SlotToCoeff", "include/experiment/setup.h:print_max_error"]}
{"id": "C103", "title": "ctxt_conv_test over the draws of the evaluation key and of the encryption", "statement": "ctxt_conv_test encrypts a random message, multiplies the ciphertext by itself with Mul, decrypts and prints the result beside the square of the message. Whatever key keygen returns and whatever is drawn afterwards, for every T and U all but a fraction 2N exp(-3T^2/(136N)) + 2N exp(-3U^2/(34N)) of the draws of swkgen and of enc make the program return, in binary64, and print a square within E/Delta^2 + decTol of the exact one in every slot, where E = 2 Delta A + A^2 + N (U + (h+1)/2), A is the encoding error plus T and decTol the rounding error of decoding. For LOGN = 17, Delta = 2^50 and keys of weight at most 128 every slot is within 2^-32 but for a fraction 2^-199 of the draws; the worst case of C87 has 8N in place of T and 4N in place of U.", "quantifier": "every T, U >= 0, every LOGN from 2 to 17, LOGQ from 65 to 1525, scale below 2^63 for which the result does not wrap, every key that keygen returns, every message in the unit disc, every previous content of the outputs, every rest of the random stream, every accurate libm, RAND_MAX odd", "why_tests_cant": "a fraction of 2^-199 of the draws is never seen, and the mean over some runs gives no bound on the tail", "anchors": ["src/test/ctxt_conv_test.cpp:5-26", "include/HEAAN/core.h:enc,swkgen,Mul,dec", "include/HEAAN/endecode.h:encode,decode_log"]}
{"id": "C104", "title": "end_to_end_test with its key of 128 entries, over the draws of the mask", "statement": "C91 bounds what end_to_end_test prints for keys of at most 29 entries; the program uses 128. Then some ciphertexts make it print wrong errors or leave the range of EvalMod. Of all values of the draws that enc makes for the mask, whatever keygen drew before and whatever is drawn afterwards: for a ternary key with at most h nonzero entries all but a fraction 2N exp(-1441/h) give a raised message of at most 15*2^60 + 2^51, which its low 64 bits and its sign determine. For h up to 128 every error that the program prints, in binary64, is within the bounds of C91 on all but this fraction; on all but a fraction N/2^36 it returns, the errors of the bootstrapped message and the error after EvalMod are within the bounds of C91, and the errors printed after CoeffToSlot and EvalqI are either both within them or both at least 16000. In the call end_to_end_test<9,60,60,2> with the parameters of rns.h and the test message, at most one draw in 73 prints an error beyond the bounds and at most one in 2^27 gives a bootstrapped message beyond them.", "quantifier": "LOGN 9, 13 and 17, LOGDELTA_stc 50 and 60, every message of slots of modulus at most 1, every key that keygen returns, every previous content of the ciphertext, every rest of the random stream, every accurate libm, RAND_MAX + 1 = 2^k with k at least 13", "why_tests_cant": "a run sees one draw of the mask; how rare the wrong ones are cannot be read off a handful of runs", "anchors": ["src/test/end_to_end_test.cpp:end_to_end_test", "include/HEAAN/core.h:enc,keygen", "include/HEAAN/bootstrap.h:mod_raise", "include/HEAAN/arith/Z_Q.h:operator double"]}
{"id": "C105", "title": "The failures of the range and of the checks are reachable for every key", "statement": "C53 and C91 show for one key and one ciphertext that a raised message can leave the range of EvalMod and that end_to_end_test can print wrong errors. The programs reach this for every key: for every ternary key with 49 to 128 nonzero entries, every message of coefficients up to 2^51 - 8, every previous content of the ciphertext and every rest of the random stream there are draws of the mask for which enc gives a ciphertext whose raised message has a coefficient below -23.7 * 2^60. Whatever key of 37 to 128 entries keygen returns in end_to_end_test, and whatever is drawn after the mask, there are draws of the mask for which the program, in binary64, prints errors of at least 16000 after CoeffToSlot and EvalqI, although the error after EvalMod and the errors of the bootstrapped message are within the bounds of C91. In particular there is a stream of random numbers with which the call end_to_end_test<9,60,60,2> as it stands, with the parameters of rns.h and a key of 128 entries, does so.", "quantifier": "every ternary key of the given weight, N up to 2^30 and the raised modulus of at least 68 bits; for the program LOGN 9, 13 and 17, LOGDELTA_stc 50 and 60, every message of slots of modulus at most 1, every key that keygen returns, every rest of the random stream, every accurate libm, RAND_MAX + 1 = 2^k with k at least 13", "why_tests_cant": "by C85 and C104 such draws are rare, so runs do not show that they exist for every key", "anchors": ["src/test/end_to_end_test.cpp:end_to_end_test", "include/HEAAN/core.h:enc,keygen", "include/HEAAN/bootstrap.h:mod_raise", "include/HEAAN/arith/Z_Q.h:operator double", "include/util/util.h:rand_uint64"]}
{"id": "C106", "title": "end_to_end_test returns on every run, and its first check tells whether the rest is right", "statement": "C91 and C104 need the raised message to be in the range of EvalMod, which with a key of 128 entries not every mask gives (C105). The six calls of end_to_end_test with LOGDELTA_cts = 60 return on every run whose random numbers let keygen return: whatever the key, the mask and the noise, no array is read out of range, no double overflows and no conversion is undefined, also when EvalMod is applied outside its range. Either the error printed after CoeffToSlot is at least 16000, or the errors printed after CoeffToSlot, EvalMod and EvalqI and those of the bootstrapped message are all within the bounds of C91. So no run prints a small error after CoeffToSlot and then a wrong result.", "quantifier": "LOGN 9, 13 and 17 with G = 2, 3 and 4, LOGDELTA_stc 50 and 60, every message of slots of modulus at most 1, every key weight up to 128, every stream of random numbers that reaches every index, every previous content of the ciphertext, every accurate libm, raised modulus up to 1450 bits", "why_tests_cant": "The masks that leave the range are a fraction below 2^-27 of all masks, so no test meets them; that the checks do not overflow on what EvalMod makes of them depends on the modulus left after EvalMod.", "anchors": ["src/test/end_to_end_test.cpp:6-202", "include/experiment/rns.h", "include/impl/message.h", "include/HEAAN/bootstrap.h"]}
{"id": "C107", "title": "What a ciphertext shows without the key", "statement": "The parity of the sum of the coefficients of what a ciphertext decrypts to depends on the key only through the parity of its weight: it is the parity of the sum of the first component, plus that of the second if the weight is odd. With keys of even weight, as all programs of the repository use, the first component of a fresh ciphertext alone therefore shows the parity of plaintext plus noise, and only the noise hides that of the plaintext: over all draws of one encryption, those in which the first component has the parity of the plaintext exceed the others by exactly M*(b*(b/9 + b%9%2))^N, with b = RAND_MAX+1 and M the number of draws of the mask, a fraction of about 9^-N. With a key of odd weight the first component is exactly uniform over the draws of the mask, for every plaintext and noise. Decryption with a key whose weight has the other parity gives an exactly uniform polynomial, and with one of the same parity always one with the right parity of the sum.", "quantifier": "every LOGQ, every N up to 2^30 (uniformity: powers of two), every ciphertext, plaintext, pair of ternary keys, previous content of the ciphertext, noise and rest of the random stream; uniformity with RAND_MAX+1 a power of two of at least 2^13", "why_tests_cant": "An advantage of 9^-N cannot be measured, and uniformity is a statement about all masks; tests look at what the right key decrypts.", "anchors": ["include/HEAAN/core.h:19-57", "include/HEAAN/arith/conv.h", "include/util/util.h"]}
{"id": "C108", "title": "Calls of Mul, conj and rot whose result is also an operand", "statement": "Mul writes the switched part of the product into its result before it reads the first components of its operands. When the result is the same object as the first operand, the second, or both, the call still returns a reduced ciphertext, but the result does not depend on the first component of the overwritten operand, the one that holds the message; for an operand with second component zero Mul into a third object is the exact product with both components and in place gives zero, whatever the other operand and the key. conj(pt,pt) conjugates the coefficients up to N/2 and leaves the others as they were, so it is right exactly when the upper coefficients already were the negated mirror image of the lower. rot(pt,pt,r) is right for all polynomials exactly when 5^r is 1 modulo N; otherwise, with q = 5^r mod N, it puts coefficient 1 up to sign where coefficient q belongs up to sign, so it is wrong for every polynomial whose coefficient q is neither coefficient 1 nor its negation. No program of the repository makes such a call.", "quantifier": "Mul: every LOGQ with conv proved (2*LOGQ up to 3051, not 31, 32 or 61 to 64), N = 2^1 to 2^17, every canonical operands and key; conj: every LOGQ and N; rot: every r, N = 2^1 to 2^27, every canonical polynomial", "why_tests_cant": "The parameters are references and nothing in the types or the tests rules the calls out; a test shows one wrong result, not that the message is lost for all operands or exactly when the result is right.", "anchors": ["include/HEAAN/core.h:108-125", "include/HEAAN/linear_transform.h:31-47", "include/HEAAN/linear_transform.h:67-75"]}
{"id": "C109", "title": "Products and resize whose result is also an operand", "statement": "conv(s,A,A) with an int array s that is constant, for instance 1, returns zero for every polynomial A, because each coefficient is cleared before it is read; into another object it is the product. ct *= ct[0] multiplies the second component by the square of the first component instead of the first component, because conv has already overwritten it. resize of a Z_Q into itself at the same size keeps negative values and turns all others into zero. No program of the repository makes such a call; x -= x and x *= x read their argument before writing and are covered by the theorems on distinct objects.", "quantifier": "conv with int array: every LOGQ, N and A, every s that is zero outside index 0 (correct product: N up to 2^30); *=: every LOGQ up to 3051 except 61 to 64, N = 2^1 to 2^17, every canonical pair; resize: every LOGQ and canonical value", "why_tests_cant": "The signatures take references and no test passes the same object twice; a test of resize with negative numbers would even pass.", "anchors": ["include/HEAAN/arith/conv.h:15-32", "include/HEAAN/arith/R_Q_square.h:49-54", "include/HEAAN/arith/Z_Q.h:293-309"]}
{"id": "C110", "title": "Runs that read the same random numbers", "statement": "No program of the repository calls srand, so rand() yields the same numbers in every run. Two encryptions under one key with the same numbers have the same mask, leave the stream in the same state, and their first components differ by exactly the difference of the plaintexts, without noise, whatever the ciphertexts held before. With the plaintext of one run, d = ct'[0]; d -= ct[0]; d += pt; therefore gives the plaintext of the other exactly, without the key. Two runs of the beginning of the drivers (keygen, encode in binary64, enc) with different messages have the same key, mask and rest of the stream, and decoding d gives what decoding the other plaintext gives, without the noise of the encryption.", "quantifier": "every RAND_MAX, stream, key array, LOGQ, N up to 2^30, pair of plaintexts (the recovered one canonical) and previous contents; runs: LOGN 2 to 27, every accurate library, messages in the range of encode, every stream on which keygen returns", "why_tests_cant": "Every single run looks right; the defect is a relation between two runs, for all messages.", "anchors": ["include/HEAAN/core.h:19-49", "include/util/util.h:34-40", "include/experiment/setup.h:9-22", "src/test/bootstrap_test.cpp:6-17"]}
{"id": "C111", "title": "What one decryption shows of the key", "statement": "dec returns ct[0] + s·ct[1] with all its noise. If the coefficients of ct[1] have an odd sum, two ternary keys under which the ciphertext decrypts to the same polynomial are equal; moreover there is a polynomial b, depending on ct[1] alone, such that for every ternary key m -= ct[0]; conv(m,b,k) turns the result m of dec into the key, with the functions of the library. Exactly half of all draws of the mask in enc give such a ciphertext, so for at least half of the draws the ciphertext and its decryption determine the key. With ct[1] = 0 the decryption is the same under every key.", "quantifier": "every N = 2^j up to 2^30, LOGQ from 2, ciphertext, pair of ternary keys; recovery by conv: LOGQ up to 60 or 65 to 3051, j from 1 to 17; counts: RAND_MAX + 1 = 2^k with k ≥ 13, every plaintext, noise draw, previous contents and rest of the stream", "why_tests_cant": "A test compares a decryption with the message; that it also fixes the key is a statement about all keys and about the number of masks.", "anchors": ["include/HEAAN/core.h:29-57", "include/HEAAN/arith/conv.h:15-151"]}
{"id": "C112", "title": "Linear transforms, rotations and conjugation in place", "statement": "linear_transform(Ar,Ai,ct,skey,ct) returns with every coefficient of ct zero, whatever matrix, key, random numbers and ciphertext, because Act is cleared before ct is read; so does the overload with an array of keys if no diagonal that is used has offset 0. rot_ct(ct,r,rkey,ct) equals the call into another object for all ciphertexts and keys exactly when 5^r is 1 modulo N. conj(ct,ckey,ct) of a ciphertext with second component zero conjugates the coefficients of index 1 to N/2 and leaves those above N/2 unchanged.", "quantifier": "every GoodQ LOGQ (both LOGQ and 2 LOGQ in the range of conv), N = 2 to 2^17, ternary key, matrix whose used diagonals encode and whose offsets agree, canonical keys, stream", "why_tests_cant": "Tests call these functions with distinct objects; the claim is about every operand of the calls nobody tests, and about all rotation amounts.", "anchors": ["include/HEAAN/linear_transform.h:52-84", "include/HEAAN/linear_transform.h:124-173"]}
{"id": "C113", "title": "Simple plaintexts decode linearly, keep norms, and encoding is nearest", "statement": "For SimplePlaintext over the reals: decode of add and sub is add and sub of the decoded messages; decode of conv at scale D1*D2 is the slotwise mul of the messages decoded at D1 and D2; norm of the decoded message is sqrt(N/2)/Delta times norm of the plaintext; encode_raw followed by decode is the identity and scales the norm by Delta/sqrt(N/2); encode followed by decode moves the message by at most N/(2 sqrt(2) Delta) in norm, and no plaintext with integer coefficients decodes to a message nearer to it.", "quantifier": "every LOGN from 2 to 27, message, real plaintexts, and nonzero scale (D1*D2 below 2^64)", "why_tests_cant": "The experiments print norms of a few sampled messages; the claim is an identity for every plaintext and compares one encoding with infinitely many others.", "anchors": ["include/impl/simple_plaintext.h:18-86", "include/impl/message.h:30-66"]}
{"id": "C114", "title": "Plaintexts of doubles and of R_Q agree until something wraps around", "statement": "Over the reals: encode into R_Q gives the integers of encode into SimplePlaintext modulo 2^LOGQ, canonical and with the same signed values if these are below Q/2, and is undefined exactly when one of them is 2^64 or more in absolute value. decode of a canonical R_Q polynomial equals decode of its signed values, and decode_log with LOGDELTA below 64 equals decode with scale 2^LOGDELTA. add, sub, conv and rot of canonical polynomials are add, sub, conv and rotate of the signed values whenever the result does not wrap around modulo 2^LOGQ.", "quantifier": "every LOGQ >= 1 (for conv the LOGQ of the CRT tables), LOGN 2 to 27 (conv: up to 17), message, scale, canonical polynomials within the stated bounds, rotation amount", "why_tests_cant": "Section 3 measures errors on SimplePlaintext in place of the real plaintexts; that the two agree is needed for all messages and moduli, and the boundary cases are not sampled.", "anchors": ["include/impl/simple_plaintext.h:18-72", "include/impl/simple_plaintext.h:88-113", "include/HEAAN/endecode.h:8-63"]}
{"id": "C115", "title": "Products and rotations of simple plaintexts in place", "statement": "conv(pt1,pt2,pt1) of SimplePlaintext returns with coefficient i taken from the product of pt2 with an array whose first i entries are already results; it equals the product for every pt1 exactly when pt2 is constant, and for pt2 = X every coefficient becomes the negated last one. conv(pt1,pt2,pt2) equals conv(pt2,pt1,pt2). rotate_once(pt,pt) is right for every pt exactly when N is at most 4. rotate(pt,pt,r) is right for every pt and r.", "quantifier": "every N (conv), N = 2^k with k up to 27 (rotations), real plaintexts, rotation amount", "why_tests_cant": "The drivers pass distinct objects; the claim is about all operands of the calls that pass one object twice.", "anchors": ["include/impl/simple_plaintext.h:49-58", "include/impl/simple_plaintext.h:88-113"]}
{"id": "C116", "title": "Matrix-vector products in place", "statement": "matrix_vector_product on plaintexts with the result as the operand, dense and with three sparse diagonals, gives the zero plaintext whatever the operand and the matrix (equal offsets in range), because the operand is cleared before it is read. On messages the dense product computes row i with the rows before i already replaced: rows with i + K <= N/2 are right, one diagonal is always right, and the cyclic shift by one puts old slot 1 instead of old slot 0 into the last slot. The products with sparse diagonals of message.h and matrix.h likewise, with matrix D whose part below the diagonal is L: it applies D to every message exactly when L D = L, in particular when L = 0.", "quantifier": "every plaintext, message, number of diagonals, matrix whose encoding fits, N = 2^2..2^17 and LOGQ for which conv is defined (plaintexts), every N/2 + K up to INT_MAX (messages)", "why_tests_cant": "The drivers pass distinct objects; the claim is about all operands and matrices of the calls that pass one object twice.", "anchors": ["include/impl/plaintext.h:24-54", "include/impl/message.h:88-126", "include/HEAAN/matrix/matrix.h:142-160"]}
{"id": "C117", "title": "Products of sparse diagonal matrices in place", "statement": "MatMul can take its result as the first factor when the second has one diagonal, and as the second factor when the first has one. In all four calls, real and complex, the result is the zero matrix whatever the factors, because it is cleared before it is read. In the complex calls every pair of diagonals is skipped, so the assertions on the offsets are never reached and every diagonal is left flagged zero.", "quantifier": "every N up to 2^30, number of diagonals, entries; offsets in range for the real product, any for the complex one", "why_tests_cant": "The drivers pass distinct objects; the claim is about all factors of the calls that pass one object twice.", "anchors": ["include/HEAAN/matrix/matrix.h:166-225"]}
{"id": "C118", "title": "Encryption and decryption in place", "statement": "enc(ct[1],s,ct) leaves a ciphertext that does not depend on the plaintext ct[1]: it decrypts to its own second component up to an error of at most 8. dec(ct,s,ct[0]) does not depend on ct[0]; for a modulus of one limb it is twice the product of s and ct[1], so a coefficient is right exactly when that of ct[0] equals that of the product; for larger moduli a coefficient is doubled exactly when no limb of the product but the last has its top bit set. dec(ct,s,ct[1]) with a constant key gives ct[0].", "quantifier": "every key with entries -1, 0, 1, ciphertext, random stream, LOGQ (at most 64 where said), N up to 2^30", "why_tests_cant": "The drivers pass distinct objects; the claim is about all ciphertexts, keys and random numbers of the calls that pass a component of the ciphertext.", "anchors": ["include/HEAAN/core.h:29-57"]}
{"id": "C119", "title": "Products of int arrays in place", "statement": "conv on int arrays with the result as the first or the second operand returns zero when the other operand is constant, for instance 1, whatever the overwritten operand, because each entry is cleared before it is read. It also returns zero when the overwritten operand is constant, whatever the other one, so for a given other operand t it is the product for every overwritten operand exactly when t is zero. With t = X every entry becomes -s[N-1], and the call overflows when s[N-1] is the least int. conv(s,s,s) does not depend on s[0], so it returns zero for a constant s; a concrete s with a wrong non-zero result is given.", "quantifier": "every N up to 2^30, every int array", "why_tests_cant": "The drivers pass distinct arrays; the claim is about all operands of the calls that pass one array twice.", "anchors": ["include/HEAAN/arith/conv.h:5-13"]}

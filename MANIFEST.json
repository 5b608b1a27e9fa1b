{
 "claims": [
  {
   "property": "C01",
   "status": "proved",
   "theorems": [
    "EvalRound.C01_mul",
    "EvalRound.C01_mul_",
    "EvalRound.C01_mul_asm"
   ],
   "note": "All word pairs; the assembly branch is modelled too."
  },
  {
   "property": "C02",
   "status": "proved",
   "theorems": [
    "EvalRound.C02_mod",
    "EvalRound.C02_add_mod",
    "EvalRound.C02_sub_mod",
    "EvalRound.C02_mul_mod",
    "EvalRound.C02_zero_modulus",
    "EvalRound.C02_mod_asm"
   ],
   "note": "All words and moduli; q = 0 is shown to be undefined behaviour; assembly branch included."
  },
  {
   "property": "C03",
   "status": "proved",
   "theorems": [
    "EvalRound.C03_pow_mod",
    "EvalRound.C03_pow_mod_one",
    "EvalRound.C03_inv_mod"
   ],
   "note": "pow_mod needs q > 1: for q = 1 and exponent 0 the code returns 1 (C03_pow_mod_one)."
  },
  {
   "property": "C04",
   "status": "proved",
   "theorems": [
    "EvalRound.C04_add",
    "EvalRound.C04_sub",
    "EvalRound.C04_mul",
    "EvalRound.C04_mulW",
    "EvalRound.C04_negate",
    "EvalRound.C04_zero_clutter",
    "EvalRound.C04_bijective"
   ],
   "note": "Every LOGQ >= 1 and every limb content; operands of += are distinct objects (aliasing is C05)."
  },
  {
   "property": "C05",
   "status": "proved",
   "theorems": [
    "EvalRound.C05_addSelf",
    "EvalRound.C05_addSelf_wrong",
    "EvalRound.C05_subSelf"
   ],
   "note": "Exact characterisation of when A += A doubles, with a failing canonical value; A -= A is zero."
  },
  {
   "property": "C06",
   "status": "proved",
   "theorems": [
    "EvalRound.C06_shift_right",
    "EvalRound.C06_shift_right_signed",
    "EvalRound.C06_shift_right_ub"
   ],
   "note": "Includes the undefined case fr < to."
  },
  {
   "property": "C07",
   "status": "proved",
   "theorems": [
    "EvalRound.C07_shift_left",
    "EvalRound.C07_shift_left_ub"
   ],
   "note": "Includes the undefined case fr > to."
  },
  {
   "property": "C08",
   "status": "proved",
   "theorems": [
    "EvalRound.C08_resize",
    "EvalRound.C08_widen",
    "EvalRound.C08_narrow"
   ],
   "note": "Argument below 2^from (canonical)."
  },
  {
   "property": "C09",
   "status": "proved",
   "theorems": [
    "EvalRound.C09_double_rounded",
    "EvalRound.C09_double_exact",
    "EvalRound.C09_double_inexact",
    "EvalRound.C09_sign",
    "EvalRound.C09_sign_neg",
    "EvalRound.C09_double",
    "EvalRound.C09_double_low",
    "EvalRound.C09_double_wrong",
    "EvalRound.C09_max_valid_digit",
    "EvalRound.C09_max_valid_digit_neg"
   ],
   "note": "All LOGQ; the conversion to double with its rounding to binary64 (C09_double_rounded, C09_double_exact, C09_double_inexact)."
  },
  {
   "property": "C10",
   "status": "proved",
   "theorems": [
    "EvalRound.C10_to_str",
    "EvalRound.C10_to_str_assert",
    "EvalRound.C10_fr_str",
    "EvalRound.C10_fr_str_long",
    "EvalRound.C10_round_trip"
   ],
   "note": "char is 8 bits; the digit buffers have the lengths of the source."
  },
  {
   "property": "C11",
   "status": "proved",
   "theorems": [
    "EvalRound.C11_findPrimeFactors",
    "EvalRound.C11_findPrimeFactors_zero",
    "EvalRound.C11_findPrimitiveRoot",
    "EvalRound.C11_findPrimitiveRoot_two"
   ],
   "note": "findPrimeFactors for every word except 0, where the code is shown to diverge; findPrimitiveRoot for every odd prime below 2^64, and p = 2."
  },
  {
   "property": "C12",
   "status": "proved",
   "theorems": [
    "EvalRound.C12_ntt",
    "EvalRound.C12_N1"
   ],
   "note": "N = 2^k with 1 <= k <= 29 and every prime q below 2^64 with 2N | q-1; N = 1 is treated apart."
  },
  {
   "property": "C13",
   "status": "proved",
   "theorems": [
    "EvalRound.C13_intt_ntt"
   ],
   "note": "Same ranges as C12."
  },
  {
   "property": "C14",
   "status": "proved",
   "theorems": [
    "EvalRound.C14_crt",
    "EvalRound.C14_icrt",
    "EvalRound.C14_icrt_wrap",
    "EvalRound.C14_roundtrip"
   ],
   "note": "Distinct primes, L < 2^63. The wrap-around of icrt for LOGQ <= 64 is characterised by C14_icrt_wrap."
  },
  {
   "property": "C15",
   "status": "proved",
   "theorems": [
    "EvalRound.C15_conv",
    "EvalRound.C15_ub",
    "EvalRound.C15_wrap"
   ],
   "note": "Counterexample for every LOGQ in 61..64 (C15_wrap) and undefined behaviour for LOGQ >= 3052 (C15_ub)."
  },
  {
   "property": "C16",
   "status": "proved",
   "theorems": [
    "EvalRound.C16_primes",
    "EvalRound.C16_product"
   ],
   "note": "Primality by Pratt certificates checked in the kernel."
  },
  {
   "property": "C17",
   "status": "proved",
   "theorems": [
    "EvalRound.C17_convS",
    "EvalRound.C17_nonternary",
    "EvalRound.C17_counterexample"
   ],
   "note": "N <= 2^30 (above, the index N+i-k overflows int)."
  },
  {
   "property": "C18",
   "status": "proved",
   "theorems": [
    "EvalRound.C18_bitReverse32",
    "EvalRound.C18_bitReverse",
    "EvalRound.C18_involution",
    "EvalRound.C18_range",
    "EvalRound.C18_ub"
   ],
   "note": "Includes the undefined shift for n = 1."
  },
  {
   "property": "C19",
   "status": "proved",
   "theorems": [
    "EvalRound.C19_keygen_weight",
    "EvalRound.C19_keygen_returns",
    "EvalRound.C19_keygen_diverges"
   ],
   "note": "every stream of rand(), every h and N; returns for h<=N when every residue keeps occurring; never returns for h>N"
  },
  {
   "property": "C20",
   "status": "proved",
   "theorems": [
    "EvalRound.C20_dec_enc",
    "EvalRound.C20_dec_enc_signed"
   ],
   "note": "every LOGQ, N up to 2^30, every ternary key, plaintext and stream"
  },
  {
   "property": "C21",
   "status": "proved",
   "theorems": [
    "EvalRound.C21_ks",
    "EvalRound.C21_ks_dec"
   ],
   "note": "N=2^k, 1<=k<=17, 2*LOGQ at most 60 or from 65 to 3051 (outside of it conv is wrong, C15)"
  },
  {
   "property": "C22",
   "status": "proved",
   "theorems": [
    "EvalRound.C22_Mul"
   ],
   "note": "N=2^k, 1<=k<=17, LOGQ and 2*LOGQ in the range of conv (C15), ct3 a different object (aliasing: C45)"
  },
  {
   "property": "C23",
   "status": "proved",
   "theorems": [
    "EvalRound.C23_RS",
    "EvalRound.C23_RS_up"
   ],
   "note": "every LT<=LF; LT>LF is undefined behaviour (C23_RS_up)"
  },
  {
   "property": "C24",
   "status": "proved",
   "theorems": [
    "EvalRound.C24_add",
    "EvalRound.C24_sub",
    "EvalRound.C24_mulW",
    "EvalRound.C24_mulR"
   ],
   "note": "exact equations of the decryptions for sums, differences, word and plaintext products"
  },
  {
   "property": "C25",
   "status": "proved",
   "theorems": [
    "EvalRound.C25_rot_key",
    "EvalRound.C25_rot_poly",
    "EvalRound.C25_rot_onto",
    "EvalRound.C25_rot_one",
    "EvalRound.C25_rot_agree",
    "EvalRound.C25_rot_mul",
    "EvalRound.C25_rot_rot",
    "EvalRound.C25_rot_half",
    "EvalRound.C25_rot_period",
    "EvalRound.C25_conj",
    "EvalRound.C25_autom_meaning"
   ],
   "note": "Coefficients, ciphertexts and keys; multiplicativity through conv."
  },
  {
   "property": "C26",
   "status": "proved",
   "theorems": [
    "EvalRound.C26_rot_ct",
    "EvalRound.C26_conj_ct"
   ],
   "note": "N=2^k, 1<=k<=17, 2*LOGQ in the range of conv (C15)"
  },
  {
   "property": "C27",
   "status": "proved",
   "theorems": [
    "EvalRound.C27_mod_raise"
   ],
   "note": "Exact integers; the bound is attained up to 1, see C53."
  },
  {
   "property": "C28",
   "status": "proved",
   "theorems": [
    "EvalRound.C28_dft",
    "EvalRound.C28_fft",
    "EvalRound.C28_ifft_fft",
    "EvalRound.C28_fft_ifft",
    "EvalRound.C28_ifft_idft",
    "EvalRound.C28_overflow"
   ],
   "note": "exact real arithmetic; 2 <= LOGN <= 27; overflow at LOGN = 28 proved as C28_overflow"
  },
  {
   "property": "C29",
   "status": "proved",
   "theorems": [
    "EvalRound.C29_encode",
    "EvalRound.C29_roundtrip",
    "EvalRound.C29_roundtrip_log",
    "EvalRound.C29_encode_ub"
   ],
   "note": "exact real arithmetic; range conditions explicit; outside the word range encode is undefined (C29_encode_ub)"
  },
  {
   "property": "C30",
   "status": "proved",
   "theorems": [
    "EvalRound.C30_mul",
    "EvalRound.C30_rotate",
    "EvalRound.C30_rot",
    "EvalRound.C30_conj",
    "EvalRound.C30_conv"
   ],
   "note": "SimplePlaintext and R_Q versions; for R_Q the coefficient -2^(LOGQ-1) is excluded, for products no wrap-around"
  },
  {
   "property": "C31",
   "status": "proved",
   "theorems": [
    "EvalRound.C31_get",
    "EvalRound.C31_get_set",
    "EvalRound.C31_set_rejected",
    "EvalRound.C31_setzero",
    "EvalRound.C31_copy",
    "EvalRound.C31_transpose",
    "EvalRound.C31_transpose_ub",
    "EvalRound.C31_negate",
    "EvalRound.C31_scale",
    "EvalRound.C31_add",
    "EvalRound.C31_sub",
    "EvalRound.C31_add_rejected",
    "EvalRound.C31_MatMul",
    "EvalRound.C31_MatMulC",
    "EvalRound.C31_mulVec",
    "EvalRound.C31_mulVec_msg",
    "EvalRound.C31_RemoveClutter"
   ],
   "note": "Every member function, MatMul (both), RemoveClutter and both matrix_vector_products against the dense meaning; N <= 2^30, offsets in [0,N). transpose with an offset above N is UB (C31_transpose_ub)."
  },
  {
   "property": "C32",
   "status": "proved",
   "theorems": [
    "EvalRound.C32_flags",
    "EvalRound.C32_add_breaks"
   ],
   "note": "Made: any sequence of member calls and products other than +=/-= keeps flags sound; += and -= do not (C32_add_breaks)."
  },
  {
   "property": "C33",
   "status": "proved",
   "theorems": [
    "EvalRound.C33_linear_transform",
    "EvalRound.C33_slots",
    "EvalRound.C33_offsets_rejected"
   ],
   "note": "Exact phase equation with explicit error, the slot version, and the failing assertion. Doubles are exact reals; moduli for which LOGQ and 2*LOGQ are supported by conv (C15); N up to 2^17."
  },
  {
   "property": "C34",
   "status": "proved",
   "theorems": [
    "EvalRound.C34_group2",
    "EvalRound.C34_group3",
    "EvalRound.C34_group4",
    "EvalRound.C34_not_divisible",
    "EvalRound.C34_group_size",
    "EvalRound.C34_grouped"
   ],
   "note": "Exact products and sequence for groups of 2, 3 and 4, the failing assertions, and the homomorphic result of the grouped transform. Doubles are exact reals."
  },
  {
   "property": "C35",
   "status": "proved",
   "theorems": [
    "EvalRound.C35_CoeffToSlot",
    "EvalRound.C35_pti",
    "EvalRound.C35_SlotToCoeff"
   ],
   "note": "Doubles are exact reals; LOGN from 2 to 27 (int indices)."
  },
  {
   "property": "C36",
   "status": "proved",
   "theorems": [
    "EvalRound.C36_convert",
    "EvalRound.C36_frame",
    "EvalRound.C36_diverges",
    "EvalRound.C36_diverges_small",
    "EvalRound.C36_wrong",
    "EvalRound.C36_nine"
   ],
   "note": "Exact real arithmetic for double. C36_convert: correct for every N=2^k, k>=2. C36_diverges: exact non-termination range. C36_wrong: every other length for which the call returns gives the same result for two different series; C36_nine: the smallest."
  },
  {
   "property": "C37",
   "status": "proved",
   "theorems": [
    "EvalRound.C37_double",
    "EvalRound.C37_node",
    "EvalRound.C37_deg3",
    "EvalRound.C37_deg7",
    "EvalRound.C37_deg7_never",
    "EvalRound.C37_deg7_assert",
    "EvalRound.C37_deg15",
    "EvalRound.C37_deg31",
    "EvalRound.C37_deg63",
    "EvalRound.C37_deg127",
    "EvalRound.C37_negative_deg3",
    "EvalRound.C37_negative_deg7",
    "EvalRound.C37_negative_deg15"
   ],
   "note": "All six degrees, keys produced by conv and swkgen from any random values, x in [-1,1]; explicit error lErr from rescaling, key switching and truncation; hypothesis that the last modulus does not wrap. Real arithmetic for double. Degrees 3, 7, 15: undefined for negative leaves (C37_negative_deg*)."
  },
  {
   "property": "C38",
   "status": "proved",
   "theorems": [
    "EvalRound.C38_schedule",
    "EvalRound.C38_conv_key",
    "EvalRound.C38_residues",
    "EvalRound.C38_reconstruct",
    "EvalRound.C38_primes",
    "EvalRound.C38_conv",
    "EvalRound.C38_alias"
   ],
   "note": "Interleaving semantics at the level of single words in Base/Par; the iterations in Model/Par. Every schedule of each of the four loops (and of the whole CONV::conv) ends with the sequential result; C38_alias shows that an aliased destination makes the result depend on the schedule. Reads and writes of an iteration's own or never-written words inside icrt, crt, ntt and intt are grouped (stated at the definitions); C38_schedule covers any finer granularity with the same footprint."
  },
  {
   "property": "C39",
   "status": "proved",
   "theorems": [
    "EvalRound.C39_history",
    "EvalRound.C39_model"
   ],
   "note": "Static variables of all instances as explicit state; every history of returning calls. Calls nested inside CoeffToSlot and SlotToCoeff use the stateless models, which C39_model justifies."
  },
  {
   "property": "C40",
   "status": "proved",
   "theorems": [
    "EvalRound.C40_aggregate"
   ],
   "note": "every call with LOGN >= 1 has undefined behaviour"
  },
  {
   "property": "C41",
   "status": "proved",
   "theorems": [
    "EvalRound.C41_five",
    "EvalRound.C41_uniform"
   ],
   "note": "RAND_MAX is a parameter; rand() is an arbitrary stream."
  },
  {
   "property": "C42",
   "status": "proved",
   "theorems": [
    "EvalRound.C42_uninitialised",
    "EvalRound.C42_memory",
    "EvalRound.C42_linear_transform_keys_partial"
   ],
   "note": "The expectation is false: C42_uninitialised (undefined behaviour when a diagonal with offset 0 is used) and C42_memory (the result uses whatever memory held). C42_linear_transform_keys_partial is the expected behaviour for matrices without such a diagonal."
  },
  {
   "property": "C43",
   "status": "proved",
   "theorems": [
    "EvalRound.C43_canonical",
    "EvalRound.C43_encode_small"
   ],
   "note": "Held is the closure of in-range data under every call that returns (ring operations, conv, enc, dec, swkgen, ks, Mul, RS, rot, conj, linear transforms, CoeffToSlot, SlotToCoeff, eval_poly, encode for LOGQ >= 64), at all moduli and degrees. rot into an arbitrary destination needs N a power of two; for other N the destination must be in range too. C43_encode_small: below 64 bits encode can leave a coefficient out of range."
  },
  {
   "property": "C44",
   "status": "proved",
   "theorems": [
    "EvalRound.C44_convI"
   ],
   "note": "N <= 2^30 (above, the index i+N-k overflows int)."
  },
  {
   "property": "C45",
   "status": "proved",
   "theorems": [
    "EvalRound.C45_mul",
    "EvalRound.C45_mul_alias_value",
    "EvalRound.C45_mul_alias",
    "EvalRound.C45_norm",
    "EvalRound.C45_sup_norm",
    "EvalRound.C45_mvp"
   ],
   "note": "mul, in-place mul, norm, sup_norm, dense matrix_vector_product"
  },
  {
   "property": "C46",
   "status": "proved",
   "theorems": [
    "EvalRound.C46_CoeffToSlot",
    "EvalRound.C46_SlotToCoeff"
   ],
   "note": "Doubles are exact reals."
  },
  {
   "property": "C47",
   "status": "proved",
   "theorems": [
    "EvalRound.C47_matrix_vector_product",
    "EvalRound.C47_matrix_vector_product_sparse",
    "EvalRound.C47_mat_to_vecs"
   ],
   "note": "Doubles are exact reals."
  },
  {
   "property": "C48",
   "status": "proved",
   "theorems": [
    "EvalRound.C48_constants",
    "EvalRound.C48_EvalMod"
   ],
   "note": "Doubles are exact reals, PI is pi."
  },
  {
   "property": "C49",
   "status": "proved",
   "theorems": [
    "EvalRound.C49_mod",
    "EvalRound.C49_drivers"
   ],
   "note": "Doubles are exact reals, PI is pi."
  },
  {
   "property": "C50",
   "status": "proved",
   "theorems": [
    "EvalRound.C50_twelve",
    "EvalRound.C50_only",
    "EvalRound.C50_exists"
   ],
   "note": "Doubles are exact reals, PI is pi."
  },
  {
   "property": "C51",
   "status": "proved",
   "theorems": [
    "EvalRound.C51_conventional",
    "EvalRound.C51_drivers",
    "EvalRound.C51_sparse"
   ],
   "note": "exact reals for double, PI as \u03c0; range of the raised message is a hypothesis except for keys of weight at most 45"
  },
  {
   "property": "C52",
   "status": "proved",
   "theorems": [
    "EvalRound.C52_proposed",
    "EvalRound.C52_drivers",
    "EvalRound.C52_sparse"
   ],
   "note": "exact reals for double, PI as \u03c0; range of the raised message is a hypothesis except for keys of weight at most 45"
  },
  {
   "property": "C53",
   "status": "proved",
   "theorems": [
    "EvalRound.C53_attained",
    "EvalRound.C53_drivers"
   ],
   "note": "Exact integers; key and ciphertext are constructed for every even weight."
  },
  {
   "property": "C54",
   "status": "proved",
   "theorems": [
    "EvalRound.C54_keygen_all",
    "EvalRound.C54_mask_uniform",
    "EvalRound.C54_enc_all"
   ],
   "note": "rand() is any stream with values up to RAND_MAX; uniformity counts draws"
  },
  {
   "property": "C55",
   "status": "proved",
   "theorems": [
    "EvalRound.C55_conventional",
    "EvalRound.C55_proposed",
    "EvalRound.C55_sparse",
    "EvalRound.C55_sparse_proposed"
   ],
   "note": "exact reals for double, PI as \u03c0; range of the raised message is a hypothesis except for keys of weight at most 45"
  },
  {
   "property": "C56",
   "status": "proved",
   "theorems": [
    "EvalRound.C56_max_err",
    "EvalRound.C56_norm",
    "EvalRound.C56_norm_true",
    "EvalRound.C56_norm_wrong"
   ],
   "note": "exact reals for double"
  },
  {
   "property": "C57",
   "status": "proved",
   "theorems": [
    "EvalRound.C57_errors",
    "EvalRound.C57_driver",
    "EvalRound.C57_wrong"
   ],
   "note": "exact reals for double; LOGDELTA_cts = LOGDELTA_stc = 60; the range of the raised message is a hypothesis of C57_errors, discharged in C57_driver for weight at most 29"
  },
  {
   "property": "C58",
   "status": "proved",
   "theorems": [
    "EvalRound.C58_ub"
   ],
   "note": "exact reals for double"
  },
  {
   "property": "C59",
   "status": "proved",
   "theorems": [
    "EvalRound.C59_round",
    "EvalRound.C59_check",
    "EvalRound.C59_exceeds"
   ],
   "note": "exact reals for double"
  },
  {
   "property": "C60",
   "status": "proved",
   "theorems": [
    "EvalRound.C60_design",
    "EvalRound.C60_goal",
    "EvalRound.C60_small",
    "EvalRound.C60_large"
   ],
   "note": "exact reals for double, log2 as the real logarithm"
  },
  {
   "property": "C61",
   "status": "proved",
   "theorems": [
    "EvalRound.C61_expected",
    "EvalRound.C61_integer_division",
    "EvalRound.C61_lattigo"
   ],
   "note": "exact reals for double"
  },
  {
   "property": "C62",
   "status": "proved",
   "theorems": [
    "EvalRound.C62_mod_mul",
    "EvalRound.C62_crt",
    "EvalRound.C62_ntt"
   ],
   "note": "The numbers printed by the four programs, computed by the model: the CRT and NTT ones from C14 and C13 with Pratt certificates for the moduli."
  },
  {
   "property": "C63",
   "status": "proved",
   "theorems": [
    "EvalRound.C63_conv_test",
    "EvalRound.C63_ctxt_conv_test"
   ],
   "note": "Exact real arithmetic for double. keygen must return, which C19 shows for streams that hit every index again and again."
  },
  {
   "property": "C64",
   "status": "proved",
   "theorems": [
    "EvalRound.C64_linear_transform_test",
    "EvalRound.C64_parameters"
   ],
   "note": "Exact real arithmetic for double. keygen must return, which C19 shows for streams that hit every index again and again."
  },
  {
   "property": "C65",
   "status": "proved",
   "theorems": [
    "EvalRound.C65_CoeffToSlot_test",
    "EvalRound.C65_CoeffToSlot_SlotToCoeff_test",
    "EvalRound.C65_parameters"
   ],
   "note": "Exact real arithmetic for double. keygen must return, which C19 shows for streams that hit every index again and again."
  },
  {
   "property": "C66",
   "status": "proved",
   "theorems": [
    "EvalRound.C66_EvalMod_test"
   ],
   "note": "Exact real arithmetic for double. keygen must return, which C19 shows for streams that hit every index again and again."
  },
  {
   "property": "C67",
   "status": "proved",
   "theorems": [
    "EvalRound.C67_mean",
    "EvalRound.C67_sum_mean",
    "EvalRound.C67_conv_error",
    "EvalRound.C67_conv_sum_error"
   ],
   "note": "Exact real arithmetic for double; cos, sin, sqrt and pi exact."
  },
  {
   "property": "C68",
   "status": "proved",
   "theorems": [
    "EvalRound.C68_mean",
    "EvalRound.C68_single_matmul"
   ],
   "note": "Exact real arithmetic for double; cos, sin, sqrt and pi exact."
  },
  {
   "property": "C69",
   "status": "proved",
   "theorems": [
    "EvalRound.C69_serial_matmul",
    "EvalRound.C69_norm",
    "EvalRound.C69_first_order",
    "EvalRound.C69_mean"
   ],
   "note": "Exact real arithmetic for double; cos, sin, sqrt and pi exact."
  },
  {
   "property": "C70",
   "status": "proved",
   "theorems": [
    "EvalRound.C70_ifft_test",
    "EvalRound.C70_run_test",
    "EvalRound.C70_isEqual",
    "EvalRound.C70_element_test",
    "EvalRound.C70_vector_test",
    "EvalRound.C70_set_test_matrix"
   ],
   "note": "Exact real arithmetic for double; cos, sin, sqrt and pi exact."
  },
  {
   "property": "C71",
   "status": "proved",
   "theorems": [
    "EvalRound.C71_message",
    "EvalRound.C71_small",
    "EvalRound.C71_measure_b_evalmod",
    "EvalRound.C71_outside"
   ],
   "note": "exact real arithmetic for double; the constants of rns.h are the witnesses; C71_outside states that the driver leaves the range of EvalMod, C71_small the division by zero"
  },
  {
   "property": "C72",
   "status": "proved",
   "theorems": [
    "EvalRound.C72_fft",
    "EvalRound.C72_ifft",
    "EvalRound.C72_coeff",
    "EvalRound.C72_round_trip"
   ],
   "note": "binary64 rounding, overflow as undefined behaviour; cos and sin are parameters with an accuracy of 2^-52 on [-7,7]; products and sums not fused"
  },
  {
   "property": "C73",
   "status": "proved",
   "theorems": [
    "EvalRound.C73_encode",
    "EvalRound.C73_encode_coeff",
    "EvalRound.C73_decode",
    "EvalRound.C73_decode_plain",
    "EvalRound.C73_decode_overflow",
    "EvalRound.C73_round_trip",
    "EvalRound.C73_fresh",
    "EvalRound.C73_delta_rounded"
   ],
   "note": "as C72; a division by zero and an infinity count as undefined"
  },
  {
   "property": "C74",
   "status": "proved",
   "theorems": [
    "EvalRound.C74_representable",
    "EvalRound.C74_nearest",
    "EvalRound.C74_even",
    "EvalRound.C74_exact",
    "EvalRound.C74_overflow",
    "EvalRound.C74_mono",
    "EvalRound.C74_neg",
    "EvalRound.C74_word",
    "EvalRound.C74_pi"
   ],
   "note": "Rounding to nearest, ties to even, with the exact overflow threshold."
  },
  {
   "property": "C75",
   "status": "proved",
   "theorems": [
    "EvalRound.C75_product",
    "EvalRound.C75_cts_factors",
    "EvalRound.C75_stc_factors",
    "EvalRound.C75_cts2",
    "EvalRound.C75_cts3",
    "EvalRound.C75_cts4",
    "EvalRound.C75_stc2",
    "EvalRound.C75_stc3",
    "EvalRound.C75_stc4"
   ],
   "note": "MatMulCF, the tables and the groups of 2, 3, 4 factors of Model/FloatBoot.lean against the exact models"
  },
  {
   "property": "C76",
   "status": "proved",
   "theorems": [
    "EvalRound.C76_CoeffToSlot",
    "EvalRound.C76_SlotToCoeff"
   ],
   "note": "CoeffToSlot and SlotToCoeff, all doubles in binary64, for every n up to 16 and every grouping; with accurate C libraries as a hypothesis"
  },
  {
   "property": "C77",
   "status": "proved",
   "theorems": [
    "EvalRound.C77_constants",
    "EvalRound.C77_EvalMod",
    "EvalRound.C77_mod",
    "EvalRound.C77_drivers"
   ],
   "note": "EvalMod, all constants in binary64; general form and the parameters of the drivers"
  },
  {
   "property": "C78",
   "status": "proved",
   "theorems": [
    "EvalRound.C78_conventional",
    "EvalRound.C78_proposed",
    "EvalRound.C78_conventional_drivers",
    "EvalRound.C78_proposed_drivers",
    "EvalRound.C78_conventional_sparse",
    "EvalRound.C78_proposed_sparse"
   ],
   "note": "both pipelines with all doubles in binary64; accuracy of the C library and, above key weight 45, the range of the raised message are hypotheses (see C53)"
  },
  {
   "property": "C79",
   "status": "proved",
   "theorems": [
    "EvalRound.C79_max_err",
    "EvalRound.C79_norm_low",
    "EvalRound.C79_norm",
    "EvalRound.C79_norm_rounded",
    "EvalRound.C79_test_message",
    "EvalRound.C79_conventional",
    "EvalRound.C79_proposed",
    "EvalRound.C79_sparse",
    "EvalRound.C79_sparse_proposed"
   ],
   "note": "Binary64 model of set_test_message, print_max_error, operator double, the sup norm and both drivers. The range of the raised message is a hypothesis for key weights 46 to 128 (it can fail, C53) and proved for weights up to 45."
  },
  {
   "property": "C80",
   "status": "proved",
   "theorems": [
    "EvalRound.C80_CoeffToSlot",
    "EvalRound.C80_SlotToCoeff",
    "EvalRound.C80_conventional",
    "EvalRound.C80_proposed",
    "EvalRound.C80_conventional_drivers",
    "EvalRound.C80_proposed_drivers",
    "EvalRound.C80_conventional_sparse",
    "EvalRound.C80_proposed_sparse"
   ],
   "note": "L2 form of C76 and C78; the same hypotheses on the C library and on the range of the raised message"
  },
  {
   "property": "C81",
   "status": "proved",
   "theorems": [
    "EvalRound.C81_number",
    "EvalRound.C81_poly",
    "EvalRound.C81_pair",
    "EvalRound.C81_unsigned_injective",
    "EvalRound.C81_signed_injective",
    "EvalRound.C81_poly_assert",
    "EvalRound.C81_sparse",
    "EvalRound.C81_sparse_matrix",
    "EvalRound.C81_sparse_repeated",
    "EvalRound.C81_print_max",
    "EvalRound.C81_dense",
    "EvalRound.C81_arrays"
   ],
   "note": "texts of numbers, polynomials, ciphertexts; injectivity; assertion above 2^1300; sparse and dense matrices; arrays. The conversion of a double to text is a parameter."
  },
  {
   "property": "C82",
   "status": "proved",
   "theorems": [
    "EvalRound.C82_product",
    "EvalRound.C82_alias",
    "EvalRound.C82_alias_column",
    "EvalRound.C82_float"
   ],
   "note": "exact product, the exact first column with the result over the left factor, binary64 error bound"
  },
  {
   "property": "C83",
   "status": "proved",
   "theorems": [
    "EvalRound.C83_conv_error",
    "EvalRound.C83_conv_sum_error",
    "EvalRound.C83_sixteen"
   ],
   "note": "For every libm within the stated accuracy. The numbers e are the rounding errors of the computed coefficients: the worst-case bound of the transform at scale 2^50 is comparable with 1/2, so nothing is claimed on the rounding errors of the exact coefficients. uniform_real_distribution is a parameter with values in [-1,1]; the source draws from [-1/sqrt 2, 1/sqrt 2]."
  },
  {
   "property": "C84",
   "status": "proved",
   "theorems": [
    "EvalRound.C84_add",
    "EvalRound.C84_sub",
    "EvalRound.C84_mul",
    "EvalRound.C84_norm",
    "EvalRound.C84_sup_norm",
    "EvalRound.C84_mvp",
    "EvalRound.C84_sparse"
   ],
   "note": "add, sub and mul for a result object different from the operands (C45 shows what aliasing does). Products and sums are not fused; sqrt is correctly rounded."
  },
  {
   "property": "C85",
   "status": "proved",
   "theorems": [
    "EvalRound.C85_range",
    "EvalRound.C85_range_128",
    "EvalRound.C85_range_192",
    "EvalRound.C85_conventional",
    "EvalRound.C85_proposed"
   ],
   "note": "A count over the values of the draws, which is what a statement on probabilities amounts to if rand() is uniform and independent; rand() itself is not modelled beyond its range. The drivers are the ones of C79 (LOGDELTA_cts = 60)."
  },
  {
   "property": "C86",
   "status": "proved",
   "theorems": [
    "EvalRound.C86_uniform",
    "EvalRound.C86_returns",
    "EvalRound.C86_probability",
    "EvalRound.C86_mean",
    "EvalRound.C86_biased"
   ],
   "note": "keygen of core.h:18-27 as modelled in Model/Core.lean, an ideal rand() as a count over all sequences of L draws; C86_uniform equal counts, C86_returns and C86_probability the probability of each key up to the draws that are not enough, C86_mean the mean number of draws, C86_biased shows that the divisibility is needed"
  },
  {
   "property": "C87",
   "status": "proved",
   "theorems": [
    "EvalRound.C87_conv_test",
    "EvalRound.C87_ctxt_conv_test",
    "EvalRound.C87_CoeffToSlot_test",
    "EvalRound.C87_CoeffToSlot_SlotToCoeff_test",
    "EvalRound.C87_EvalMod_test",
    "EvalRound.C87_parameters"
   ],
   "note": "General theorems for the five programs with every double rounded to binary64 and an accurate libm; C87_parameters gives the numbers at the parameters of test.h. The random message is an arbitrary real vector of the unit square over sqrt 2, which includes every vector of doubles."
  },
  {
   "property": "C88",
   "status": "proved",
   "theorems": [
    "EvalRound.C88_linear_transform_test",
    "EvalRound.C88_parameters"
   ],
   "note": "C88_linear_transform_test for general scale and modulus at LOGN = 9 (the matrix count is fixed by the program), C88_parameters at test.h."
  },
  {
   "property": "C89",
   "status": "proved",
   "theorems": [
    "EvalRound.C89_dft",
    "EvalRound.C89_idft",
    "EvalRound.C89_fft_ifft",
    "EvalRound.C89_ifft_fft",
    "EvalRound.C89_run_test",
    "EvalRound.C89_ifft_test",
    "EvalRound.C89_parameters"
   ],
   "note": "C89_dft and C89_idft for the direct transforms (the idft bound needs N at most 2^20), C89_fft_ifft and C89_ifft_fft for the round trips, C89_run_test and C89_ifft_test for the program, C89_parameters at test.h."
  },
  {
   "property": "C90",
   "status": "proved",
   "theorems": [
    "EvalRound.C90_message",
    "EvalRound.C90_measure_b_evalmod",
    "EvalRound.C90_outside",
    "EvalRound.C90_small"
   ],
   "note": "Model: Model/FloatBEvalmod.lean (measure_b_evalmod.cpp:6-56 in binary64; pow(2,10) may be off by an ulp). The exact counterpart is C71."
  },
  {
   "property": "C91",
   "status": "proved",
   "theorems": [
    "EvalRound.C91_errors",
    "EvalRound.C91_driver",
    "EvalRound.C91_wrong"
   ],
   "note": "end_to_end_test in binary64, LOGDELTA_cts = 60 and LOGDELTA_stc 50 or 60; C91_errors is the run on any ciphertext, C91_driver the whole program for keys of at most 29 entries, C91_wrong the witness for a wrong printed error; printing itself is not modelled"
  },
  {
   "property": "C92",
   "status": "proved",
   "theorems": [
    "EvalRound.C92_design",
    "EvalRound.C92_lattigo"
   ],
   "note": "Model/FloatDesign.lean; every operation of double rounded to binary64, sqrt correctly rounded, pow and log2 parameters with the errors of LibmD.Loose"
  },
  {
   "property": "C93",
   "status": "proved",
   "theorems": [
    "EvalRound.C93_single_matmul"
   ],
   "note": "binary64 version of C68, for the scale 2^50 of the program: the printed numbers up to explicit bounds, with the rounding errors of the encoded diagonals as the error that is measured"
  },
  {
   "property": "C94",
   "status": "proved",
   "theorems": [
    "EvalRound.C94_serial_matmul"
   ],
   "note": "binary64 version of C69, for the scale 2^50 of the program: the printed numbers up to explicit bounds, with the rounding errors of the encoded diagonals as the error that is measured"
  },
  {
   "property": "C95",
   "status": "proved",
   "theorems": [
    "EvalRound.C95_round",
    "EvalRound.C95_check",
    "EvalRound.C95_exceeds"
   ],
   "note": "binary64 version of C59, with the not-a-number of 0/0 as a separate outcome; C95_exceeds shows that the constant 5 of the source is no bound"
  },
  {
   "property": "C96",
   "status": "proved",
   "theorems": [
    "EvalRound.C96_element_test",
    "EvalRound.C96_vector_test",
    "EvalRound.C96_vector_close"
   ],
   "note": "element_test: the exact doubles; vector_test: distance to the exact program of C70. Every operation rounded, libm a parameter with error at most 2^-52; printing left out"
  },
  {
   "property": "C97",
   "status": "proved",
   "theorems": [
    "EvalRound.C97_measured",
    "EvalRound.C97_ub"
   ],
   "note": "every operation rounded, libm a parameter with error at most 2^-52, the drawn numbers a parameter; LOGN, grouping and scaling as in the drivers; printing left out"
  },
  {
   "property": "C98",
   "status": "proved",
   "theorems": [
    "EvalRound.C98_enc",
    "EvalRound.C98_distribution",
    "EvalRound.C98_slots",
    "EvalRound.C98_zero_twice"
   ],
   "note": "rand() is any stream with values up to RAND_MAX; probabilities are counts over the draws of one enc"
  },
  {
   "property": "C99",
   "status": "proved",
   "theorems": [
    "EvalRound.C99_ks",
    "EvalRound.C99_Mul",
    "EvalRound.C99_rot_ct",
    "EvalRound.C99_conj_ct"
   ],
   "note": "probabilities are counts over the draws of one swkgen; the ciphertext is fixed before the key is drawn"
  },
  {
   "property": "C100",
   "status": "proved",
   "theorems": [
    "EvalRound.C100_RS",
    "EvalRound.C100_slots"
   ],
   "note": "C100_RS, C100_slots. Probability is counting over the draws of the mask; the noise is arbitrary. The residues of the mask modulo 2^(LF-LT) are uniform because RAND_MAX+1 is a power of two."
  },
  {
   "property": "C101",
   "status": "proved",
   "theorems": [
    "EvalRound.C101_fresh"
   ],
   "note": "C101_fresh. Probability is counting over the draws of the mask and of the noise; every floating-point operation is rounded; libm is any cos and sin within 2^-52 on [-7,7]."
  },
  {
   "property": "C102",
   "status": "proved",
   "theorems": [
    "EvalRound.C102_evalmod",
    "EvalRound.C102_conventional",
    "EvalRound.C102_proposed",
    "EvalRound.C102_main"
   ],
   "note": "Nothing is assumed of the raised message. Says that the runs return and what the printed numbers mean, not that the bootstrapping is accurate: that is C78 to C80, in range and for LOGDELTA_cts = 60."
  },
  {
   "property": "C103",
   "status": "proved",
   "theorems": [
    "EvalRound.C103_ctxt_conv_test",
    "EvalRound.C103_seventeen"
   ],
   "note": "C103_ctxt_conv_test for every T and U, C103_seventeen for the largest ring. Probability is counting over the draws of swkgen and enc; every floating-point operation is rounded; libm is any within an ulp."
  },
  {
   "property": "C104",
   "status": "proved",
   "theorems": [
    "EvalRound.C104_small",
    "EvalRound.C104_result",
    "EvalRound.C104_printed",
    "EvalRound.C104_test"
   ],
   "note": "The range is bounded over the draws with the exponential moments of C85, at a general threshold; the errors follow from C91_errors, which has no bound on the entries. C104_test is the call <9,60,60,2> with the parameters of rns.h."
  },
  {
   "property": "C105",
   "status": "proved",
   "theorems": [
    "EvalRound.C105_leaves",
    "EvalRound.C105_wrong_print",
    "EvalRound.C105_test"
   ],
   "note": "The mask aligned with the key makes the product with the key large in one coefficient and not larger elsewhere; by C54 every mask is drawn. C105_test is the call <9,60,60,2> with the parameters of rns.h."
  },
  {
   "property": "C106",
   "status": "proved",
   "theorems": [
    "EvalRound.C106_returns",
    "EvalRound.C106_main"
   ],
   "note": "C106_returns for the general moduli, C106_main for the six calls of main with LOGDELTA_cts = 60. The six calls with 22, 25 and 29 are not covered: they leave up to 642 bits after EvalMod, and the model takes an overflow of a double in sup_norm for a fault."
  },
  {
   "property": "C107",
   "status": "proved",
   "theorems": [
    "EvalRound.C107_parity",
    "EvalRound.C107_advantage",
    "EvalRound.C107_odd",
    "EvalRound.C107_wrong_key"
   ],
   "note": "probabilities are counts over the draws of one enc; keys are any ternary vectors; the parity theorems need no assumption on RAND_MAX"
  },
  {
   "property": "C108",
   "status": "proved",
   "theorems": [
    "EvalRound.C108_mul_first",
    "EvalRound.C108_mul_second",
    "EvalRound.C108_square",
    "EvalRound.C108_plain",
    "EvalRound.C108_conj",
    "EvalRound.C108_conj_iff",
    "EvalRound.C108_rot",
    "EvalRound.C108_rot_wrong",
    "EvalRound.C108_rot_iff"
   ],
   "note": "The in-place forms are modelled apart (Model/InPlace), statement by statement, with reads from the object being written; C22, C25 and C26 are about distinct objects."
  },
  {
   "property": "C109",
   "status": "proved",
   "theorems": [
    "EvalRound.C109_conv_const",
    "EvalRound.C109_conv_const_right",
    "EvalRound.C109_resize",
    "EvalRound.C109_mul_first"
   ],
   "note": "In-place forms modelled in Model/InPlace; conv with an int array in place on one thread (for a constant array each round touches its own coefficient only)."
  },
  {
   "property": "C110",
   "status": "proved",
   "theorems": [
    "EvalRound.C110_enc",
    "EvalRound.C110_recover",
    "EvalRound.C110_run"
   ],
   "note": "That rand() without srand repeats its numbers is the C standard (7.22.2.2), read from the source by the absence of srand; the theorems are about two computations on one stream."
  },
  {
   "property": "C111",
   "status": "proved",
   "theorems": [
    "EvalRound.C111_unique",
    "EvalRound.C111_key",
    "EvalRound.C111_half",
    "EvalRound.C111_fresh",
    "EvalRound.C111_zero"
   ],
   "note": "Keys are ternary arrays as keygen writes them; the recovery by conv needs the LOGQ and N for which conv is exact (C16)."
  },
  {
   "property": "C112",
   "status": "proved",
   "theorems": [
    "EvalRound.C112_linear_transform",
    "EvalRound.C112_linear_transform_keys",
    "EvalRound.C112_rot_ct_iff",
    "EvalRound.C112_conj_ct"
   ],
   "note": "In exact real arithmetic for the diagonals, as C33; the object being both result and operand is modelled by letting the loop read the accumulator."
  },
  {
   "property": "C113",
   "status": "proved",
   "theorems": [
    "EvalRound.C113_add_sub",
    "EvalRound.C113_conv",
    "EvalRound.C113_norm",
    "EvalRound.C113_raw",
    "EvalRound.C113_nearest"
   ],
   "note": "Exact reals. The rounded encoding is compared with every plaintext with integer coefficients."
  },
  {
   "property": "C114",
   "status": "proved",
   "theorems": [
    "EvalRound.C114_encode",
    "EvalRound.C114_decode",
    "EvalRound.C114_decode_log",
    "EvalRound.C114_add_sub",
    "EvalRound.C114_conv",
    "EvalRound.C114_rotate"
   ],
   "note": "Exact reals; `asSimple` reads off the signed values."
  },
  {
   "property": "C115",
   "status": "proved",
   "theorems": [
    "EvalRound.C115_conv",
    "EvalRound.C115_conv_second",
    "EvalRound.C115_conv_iff",
    "EvalRound.C115_conv_X",
    "EvalRound.C115_rotate_once_iff",
    "EvalRound.C115_rotate"
   ],
   "note": "Exact reals."
  },
  {
   "property": "C116",
   "status": "proved",
   "theorems": [
    "EvalRound.C116_plain",
    "EvalRound.C116_plain_sparse",
    "EvalRound.C116_message",
    "EvalRound.C116_message_rows",
    "EvalRound.C116_message_diagonal",
    "EvalRound.C116_message_shift",
    "EvalRound.C116_message_sparse",
    "EvalRound.C116_message_sparse_iff",
    "EvalRound.C116_array",
    "EvalRound.C116_array_iff",
    "EvalRound.C116_message_sparse_upper"
   ],
   "note": "Exact reals for messages and matrices."
  },
  {
   "property": "C117",
   "status": "proved",
   "theorems": [
    "EvalRound.C117_first",
    "EvalRound.C117_second",
    "EvalRound.C117_complex_first",
    "EvalRound.C117_complex_second"
   ],
   "note": "Exact reals."
  },
  {
   "property": "C118",
   "status": "proved",
   "theorems": [
    "EvalRound.C118_enc_same",
    "EvalRound.C118_enc",
    "EvalRound.C118_dec_first_same",
    "EvalRound.C118_dec_first",
    "EvalRound.C118_dec_first_limbs",
    "EvalRound.C118_dec_second"
   ],
   "note": "Bit-exact words; dec into ct[1] only for constant keys."
  },
  {
   "property": "C119",
   "status": "proved",
   "theorems": [
    "EvalRound.C119_first",
    "EvalRound.C119_second",
    "EvalRound.C119_first_unit",
    "EvalRound.C119_second_unit",
    "EvalRound.C119_first_iff",
    "EvalRound.C119_second_iff",
    "EvalRound.C119_first_shift",
    "EvalRound.C119_second_shift",
    "EvalRound.C119_first_overflow",
    "EvalRound.C119_second_overflow",
    "EvalRound.C119_square_same",
    "EvalRound.C119_square_const",
    "EvalRound.C119_square_witness"
   ],
   "note": "int overflow is undefined behaviour in the model; it does not occur in these calls except possibly in conv(s,s,s) with a non-constant s."
  }
 ]
}
{
 "claims": [
  {
   "property": "C01",
   "status": "proved",
   "theorems": [
    "OTFFT.Props.C01_fwd0"
   ],
   "note": "all ValidLen n (>=2, prime factors <= 46341), all thresholds, all schedules and allocation outcomes, exact arithmetic"
  },
  {
   "property": "C02",
   "status": "proved",
   "theorems": [
    "OTFFT.Props.C02_fwd",
    "OTFFT.Props.C02_fwdn"
   ],
   "note": ""
  },
  {
   "property": "C03",
   "status": "proved",
   "theorems": [
    "OTFFT.Props.C03_fwdu"
   ],
   "note": ""
  },
  {
   "property": "C04",
   "status": "proved",
   "theorems": [
    "OTFFT.Props.C04_inv",
    "OTFFT.Props.C04_inv0"
   ],
   "note": ""
  },
  {
   "property": "C05",
   "status": "proved",
   "theorems": [
    "OTFFT.Props.C05_invu",
    "OTFFT.Props.C05_invn"
   ],
   "note": ""
  },
  {
   "property": "C06",
   "status": "proved",
   "theorems": [
    "OTFFT.Props.C06_forward_inverse",
    "OTFFT.Props.C06_inverse_forward"
   ],
   "note": ""
  },
  {
   "property": "C07",
   "status": "proved",
   "theorems": [
    "OTFFT.Props.C07_complex",
    "OTFFT.Props.C07_real",
    "OTFFT.Props.C07_dct",
    "OTFFT.Props.C07_bluestein"
   ],
   "note": "whole-lifetime programs are equal, any arithmetic"
  },
  {
   "property": "C08",
   "status": "proved",
   "theorems": [
    "OTFFT.Props.C08_linear",
    "OTFFT.Props.C08_real_forward",
    "OTFFT.Props.C08_real_inverse",
    "OTFFT.Props.C08_dct",
    "OTFFT.Props.C08_bluestein"
   ],
   "note": "exact arithmetic; C50 has what remains of linearity in double precision (negation and scaling by powers of two are exact)"
  },
  {
   "property": "C09",
   "status": "proved",
   "theorems": [
    "OTFFT.Props.C09_parseval",
    "OTFFT.Props.C09_real",
    "OTFFT.Props.C09_dct",
    "OTFFT.Props.C09_bluestein"
   ],
   "note": "exact arithmetic"
  },
  {
   "property": "C10",
   "status": "proved",
   "theorems": [
    "OTFFT.Props.C10_complex",
    "OTFFT.Props.C10_real",
    "OTFFT.Props.C10_dct",
    "OTFFT.Props.C10_bluestein"
   ],
   "note": "every schedule; after any history of the object; any arithmetic"
  },
  {
   "property": "C11",
   "status": "proved",
   "theorems": [
    "OTFFT.Props.C11_complex",
    "OTFFT.Props.C11_real",
    "OTFFT.Props.C11_dct",
    "OTFFT.Props.C11_bluestein"
   ],
   "note": "every schedule, after any history, any arithmetic"
  },
  {
   "property": "C12",
   "status": "proved",
   "theorems": [
    "OTFFT.Props.C12_complex",
    "OTFFT.Props.C12_real",
    "OTFFT.Props.C12_dct"
   ],
   "note": "any two threshold settings give the same output function, any arithmetic, lengths whose path is the mixed-radix algorithm"
  },
  {
   "property": "C13",
   "status": "proved",
   "theorems": [
    "OTFFT.Props.C13_algorithms_agree"
   ],
   "note": ""
  },
  {
   "property": "C14",
   "status": "proved",
   "theorems": [
    "OTFFT.Props.C14_lengthOne",
    "OTFFT.Props.C14_real"
   ],
   "note": "every execution of a length-1 complex transform is UB; fresh_complex shows such objects exist"
  },
  {
   "property": "C15",
   "status": "proved",
   "theorems": [
    "OTFFT.Props.C15_fwd0",
    "OTFFT.Props.C15_symmetry"
   ],
   "note": "exact arithmetic; n = 1 or n = 2m with m a valid complex length (m>=2, prime factors <= 46341)"
  },
  {
   "property": "C16",
   "status": "proved",
   "theorems": [
    "OTFFT.Props.C16_forward",
    "OTFFT.Props.C16_inverse"
   ],
   "note": "all eight entry points; inverse reads x[0..n/2] and uses x as work area"
  },
  {
   "property": "C17",
   "status": "proved",
   "theorems": [
    "OTFFT.Props.C17_round_trip"
   ],
   "note": ""
  },
  {
   "property": "C18",
   "status": "proved",
   "theorems": [
    "OTFFT.Props.C18_real",
    "OTFFT.Props.C18_dct"
   ],
   "note": "every execution of a length-2 real or cosine transform is UB; fresh_real, fresh_dct show such objects exist"
  },
  {
   "property": "C19",
   "status": "proved",
   "theorems": [
    "OTFFT.Props.C19_input_unmodified"
   ],
   "note": "any arithmetic"
  },
  {
   "property": "C20",
   "status": "proved",
   "theorems": [
    "OTFFT.Props.C20_forward",
    "OTFFT.Props.C20_inverse"
   ],
   "note": "n < 2^30 (C45: setup overflows above)"
  },
  {
   "property": "C21",
   "status": "proved",
   "theorems": [
    "OTFFT.Props.C21_round_trip"
   ],
   "note": "both orders; n < 2^30 (C45: setup overflows above)"
  },
  {
   "property": "C22",
   "status": "proved",
   "theorems": [
    "OTFFT.Props.C22_forward",
    "OTFFT.Props.C22_inverse"
   ],
   "note": "all 1 <= n <= 2^29"
  },
  {
   "property": "C23",
   "status": "proved",
   "theorems": [
    "OTFFT.Props.C23_round_trip",
    "OTFFT.Props.C23_agrees_with_fft"
   ],
   "note": ""
  },
  {
   "property": "C24",
   "status": "proved",
   "theorems": [
    "OTFFT.Props.C24_padded_length",
    "OTFFT.Props.C24_overflow_above"
   ],
   "note": "stronger: n <= 2^29, and sharp: above that setup overflows"
  },
  {
   "property": "C25",
   "status": "proved",
   "theorems": [
    "OTFFT.Props.C25_odd"
   ],
   "note": ""
  },
  {
   "property": "C26",
   "status": "proved",
   "theorems": [
    "OTFFT.Props.C26_complex",
    "OTFFT.Props.C26_real",
    "OTFFT.Props.C26_dct",
    "OTFFT.Props.C26_overflow_92698"
   ],
   "note": "exact characterisation of the lengths whose transforms are defined; which lengths setup accepts is C45; fresh_* show the hypotheses are met for every length"
  },
  {
   "property": "C27",
   "status": "proved",
   "theorems": [
    "OTFFT.Props.C27_create_sound",
    "OTFFT.Props.C27_create_throws_iff"
   ],
   "note": "for every CPUID/XCR0 value, build configuration, kind, length and request"
  },
  {
   "property": "C28",
   "status": "proved",
   "theorems": [
    "OTFFT.Props.C28_create_faults_iff",
    "OTFFT.Props.C28_chosen_runs_iff",
    "OTFFT.Props.C28_avx2_without_avx",
    "OTFFT.Props.C28_xgetbv_faults"
   ],
   "note": "exact characterisation over all CPUID/XCR0 words; the two exceptions are shown reachable"
  },
  {
   "property": "C29",
   "status": "proved",
   "theorems": [
    "OTFFT.Props.C29_delete_ok",
    "OTFFT.Props.C29_deleter_detected"
   ],
   "note": ""
  },
  {
   "property": "C30",
   "status": "proved",
   "theorems": [
    "OTFFT.Props.C30_complex",
    "OTFFT.Props.C30_real",
    "OTFFT.Props.C30_dct",
    "OTFFT.Props.C30_bluestein",
    "OTFFT.Props.C30_complex_exact",
    "OTFFT.Props.C30_bluestein_exact",
    "OTFFT.Props.C30_real_forward_exact",
    "OTFFT.Props.C30_real_inverse_exact",
    "OTFFT.Props.C30_dct_exact"
   ],
   "note": "the output function is fixed before the history is chosen; exact versions give the DFT"
  },
  {
   "property": "C31",
   "status": "proved",
   "theorems": [
    "OTFFT.Props.C31_complex",
    "OTFFT.Props.C31_real",
    "OTFFT.Props.C31_dct",
    "OTFFT.Props.C31_bluestein"
   ],
   "note": "all lifetimes, all allocation outcomes"
  },
  {
   "property": "C32",
   "status": "proved",
   "theorems": [
    "OTFFT.Props.C32_complex",
    "OTFFT.Props.C32_real",
    "OTFFT.Props.C32_dct",
    "OTFFT.Props.C32_bluestein",
    "OTFFT.Props.C31_complex",
    "OTFFT.Props.C31_real",
    "OTFFT.Props.C31_dct",
    "OTFFT.Props.C31_bluestein"
   ],
   "note": "C31 covers destruction after a failed setup; fresh_complex etc. show histories exist"
  },
  {
   "property": "C33",
   "status": "proved",
   "theorems": [
    "OTFFT.Props.C33_threads",
    "OTFFT.Props.C33_race"
   ],
   "note": "C33_threads: every interleaving of the forked threads is free of UB, ends, and gives each thread its solo results. C33_race: sharing an object with a work area can race."
  },
  {
   "property": "C34",
   "status": "proved",
   "theorems": [
    "OTFFT.Props.C34_exact",
    "OTFFT.Props.C34_lanes",
    "OTFFT.Props.C34_lanes_exact",
    "OTFFT.Props.C34_moves",
    "OTFFT.Props.C34_moves_emulated",
    "OTFFT.Props.C34_complex_t",
    "OTFFT.Props.C34_constants",
    "OTFFT.Props.C34_division",
    "OTFFT.Props.C34_division_exact",
    "OTFFT.Props.C34_modq"
   ],
   "note": "All primitives of all instruction sets; the intrinsics' semantics (Model/Simd) are trusted. The exact part treats the constants as exact; C34_constants says the literals round to the same double."
  },
  {
   "property": "C35",
   "status": "proved",
   "theorems": [
    "OTFFT.Props.C35_complex",
    "OTFFT.Props.C35_real",
    "OTFFT.Props.C35_dct",
    "OTFFT.Props.C35_bluestein",
    "OTFFT.Props.C35_mixedTable",
    "OTFFT.Props.C35_realTable",
    "OTFFT.Props.C35_dctTable",
    "OTFFT.Props.C35_bluesteinTable"
   ],
   "note": "tables of the power-of-two algorithms: initialisation is C35_complex; their values are used in the proofs of C01 (not restated)"
  },
  {
   "property": "C36",
   "status": "proved",
   "theorems": [
    "OTFFT.Props.C36_factorSearch",
    "OTFFT.Props.C36_passes",
    "OTFFT.Props.C36_complex",
    "OTFFT.Props.C36_terminates"
   ],
   "note": ""
  },
  {
   "property": "C37",
   "status": "proved",
   "theorems": [
    "OTFFT.Props.C37_complex",
    "OTFFT.Props.C37_real",
    "OTFFT.Props.C37_dct",
    "OTFFT.Props.C37_bluestein",
    "OTFFT.Props.C37_bluestein_setup"
   ],
   "note": ""
  },
  {
   "property": "C38",
   "status": "proved",
   "theorems": [
    "OTFFT.Props.C38_setup_zero",
    "OTFFT.Props.C38_setup_zero_lifetime"
   ],
   "note": "all int n < 1"
  },
  {
   "property": "C39",
   "status": "proved",
   "theorems": [
    "OTFFT.Props.C39_convolution"
   ],
   "note": ""
  },
  {
   "property": "C40",
   "status": "proved",
   "theorems": [
    "OTFFT.Props.C40_indexTable"
   ],
   "note": ""
  },
  {
   "property": "C41",
   "status": "proved",
   "theorems": [
    "OTFFT.Props.C41_safe",
    "OTFFT.Props.C41_separate",
    "OTFFT.Props.C41_values",
    "OTFFT.Props.C41_misuse",
    "OTFFT.Props.C41_deleted"
   ],
   "note": "client programs as trees over six classes; sampleClient shows the hypotheses are met"
  },
  {
   "property": "C42",
   "status": "proved",
   "theorems": [
    "OTFFT.Props.C42_fft0_same",
    "OTFFT.Props.C42_dct0_same",
    "OTFFT.Props.C42_fft0_footprint",
    "OTFFT.Props.C42_dct0_footprint",
    "OTFFT.Props.C42_fft0_lifetime",
    "OTFFT.Props.C42_dct0_lifetime",
    "OTFFT.Props.C42_fft0_values",
    "OTFFT.Props.C42_dct0_values"
   ],
   "note": "results equal those of the classes with their own work area for any arithmetic; documented values over the exact reals"
  },
  {
   "property": "C43",
   "status": "proved",
   "theorems": [
    "OTFFT.Props.C43_same",
    "OTFFT.Props.C43_exact",
    "OTFFT.Props.C43_dft"
   ],
   "note": "NaN payloads and directed rounding modes are outside SignLaws."
  },
  {
   "property": "C44",
   "status": "proved",
   "theorems": [
    "OTFFT.Props.C44_complex",
    "OTFFT.Props.C44_dct",
    "OTFFT.Props.C44_real",
    "OTFFT.Props.C44_real_minus_one",
    "OTFFT.Props.C44_fft0",
    "OTFFT.Props.C44_dct0"
   ],
   "note": "length arguments are Lean integers in the model; malloc of a negative (huge size_t) request always fails in the model"
  },
  {
   "property": "C45",
   "status": "proved",
   "theorems": [
    "OTFFT.Props.C45_complex",
    "OTFFT.Props.C45_real",
    "OTFFT.Props.C45_dct",
    "OTFFT.Props.C45_bluestein",
    "OTFFT.Props.C45_fft0",
    "OTFFT.Props.C45_dct0"
   ],
   "note": "iff for every int; the client memory is finite (needed only to exhibit an execution in which no allocation fails)"
  },
  {
   "property": "C46",
   "status": "proved",
   "theorems": [
    "OTFFT.Props.C46_accuracy",
    "OTFFT.Props.C46_roundtrip",
    "OTFFT.Props.C46_weight"
   ],
   "note": "Assumes FloatLaws (Spec/Float): the standard model of rounding with gradual underflow; sin/cos within 2u absolute. R53 (round to nearest 53 bits) and Dbl64 (IEEE 754 binary64, C60) are concrete instances. Compiler contraction other than the written FMAs and fast-math are not modelled."
  },
  {
   "property": "C47",
   "status": "proved",
   "theorems": [
    "OTFFT.Props.C47_real_forward",
    "OTFFT.Props.C47_real_inverse",
    "OTFFT.Props.C47_dct",
    "OTFFT.Props.C47_real_roundtrip",
    "OTFFT.Props.C47_dct_roundtrip"
   ],
   "note": "Rounded arithmetic satisfying the standard model (Spec/Float.Binary64), any of the modelled instruction sets; bounds are for the maximum norm. Non-vacuity: R53 (rounding to 53 bits) examples in the file."
  },
  {
   "property": "C48",
   "status": "proved",
   "theorems": [
    "OTFFT.Props.C48_bluestein",
    "OTFFT.Props.C48_roundtrip"
   ],
   "note": "Rounded arithmetic satisfying the standard model (Spec/Float.Binary64), any of the modelled instruction sets; maximum norm; the n^2 (instead of n) is what the maximum norm gives for a convolution through three transforms. Non-vacuity: R53 example in the file."
  },
  {
   "property": "C49",
   "status": "proved",
   "theorems": [
    "OTFFT.Props.C49_unavailable",
    "OTFFT.Props.C49_dft",
    "OTFFT.Props.C49_complex",
    "OTFFT.Props.C49_roundtrip",
    "OTFFT.Props.C49_real_forward",
    "OTFFT.Props.C49_real_inverse",
    "OTFFT.Props.C49_dct",
    "OTFFT.Props.C49_bluestein",
    "OTFFT.Props.C49_life_complex",
    "OTFFT.Props.C49_life_real",
    "OTFFT.Props.C49_life_dct",
    "OTFFT.Props.C49_life_bluestein"
   ],
   "note": "composition of C27-C29 (selection), C31 (life), C43 and C46-C48 (values); the object itself is a heap block that may fail to be allocated and must be freed; each back end may be compiled with different flags; examples on an ordinary desktop processor"
  },
  {
   "property": "C50",
   "status": "proved",
   "theorems": [
    "OTFFT.Props.C50_preserved",
    "OTFFT.Props.C50_negate",
    "OTFFT.Props.C50_zero_sign",
    "OTFFT.Props.C50_nan",
    "OTFFT.Props.C50_scale"
   ],
   "note": "C50_preserved holds for any double arithmetic (FArith) and any preserved relation; the others instantiate it for IEEE arithmetic with a rounding function (no gradual underflow is assumed nor excluded: it is a property of the rounding function) and, for scaling, for rounded reals with unbounded exponent."
  },
  {
   "property": "C51",
   "status": "proved",
   "theorems": [
    "OTFFT.Props.C51_complex",
    "OTFFT.Props.C51_bluestein",
    "OTFFT.Props.C51_real_forward",
    "OTFFT.Props.C51_real_inverse",
    "OTFFT.Props.C51_dct",
    "OTFFT.Props.C51_ieee"
   ],
   "note": "For any absorbing predicate of any double arithmetic; C51_ieee shows that 'NaN' and 'NaN or infinite' are absorbing in IEEE arithmetic. Uses the exact transform (C01-C24) to say on what an output depends."
  },
  {
   "property": "C52",
   "status": "proved",
   "theorems": [
    "OTFFT.Props.C52_assign",
    "OTFFT.Props.C52_scale",
    "OTFFT.Props.C52_scale_self",
    "OTFFT.Props.C52_exact",
    "OTFFT.Props.C52_proj",
    "OTFFT.Props.C52_polar",
    "OTFFT.Props.C52_times_double"
   ],
   "note": "Finding: z *= z.Re and z /= z.Re read the operand after the real part was overwritten (C52_scale_self, C52_exact)."
  },
  {
   "property": "C53",
   "status": "proved",
   "theorems": [
    "OTFFT.Props.C53_clean",
    "OTFFT.Props.C53_copy",
    "OTFFT.Props.C53_assign"
   ],
   "note": "Finding: simd_array has the implicit copy constructor and assignment, which share the memory (C53_copy, C53_assign)."
  },
  {
   "property": "C54",
   "status": "proved",
   "theorems": [
    "OTFFT.Props.C54_complex",
    "OTFFT.Props.C54_complex_pow",
    "OTFFT.Props.C54_complex_smooth",
    "OTFFT.Props.C54_complex_prime",
    "OTFFT.Props.C54_real",
    "OTFFT.Props.C54_dct",
    "OTFFT.Props.C54_bluestein",
    "OTFFT.Props.C54_fft0",
    "OTFFT.Props.C54_dct0",
    "OTFFT.Props.C54_blue_beats_prime",
    "OTFFT.Props.C54_setup_complex",
    "OTFFT.Props.C54_setup_real",
    "OTFFT.Props.C54_setup_dct",
    "OTFFT.Props.C54_setup_bluestein",
    "OTFFT.Props.C54_lifetime_complex",
    "OTFFT.Props.C54_lifetime_real",
    "OTFFT.Props.C54_lifetime_dct",
    "OTFFT.Props.C54_lifetime_bluestein"
   ],
   "note": "An access is a load or store of one array element in the model; where the C++ keeps a loop-invariant table entry in a register the model loads it again, so for the fixed-radix stages the count is an upper bound. The stages of general radix, on which the lower bound rests, load exactly as written."
  },
  {
   "property": "C55",
   "status": "proved",
   "theorems": [
    "OTFFT.Props.C55_complex",
    "OTFFT.Props.C55_bluestein",
    "OTFFT.Props.C55_real",
    "OTFFT.Props.C55_dct",
    "OTFFT.Props.C55_real_both"
   ],
   "note": "exact arithmetic; Spec/Identities states the nine identities as a structure over the relation 'e takes u to U' C55_real_both: all identities for both directions of RealFFT."
  },
  {
   "property": "C56",
   "status": "proved",
   "theorems": [
    "OTFFT.Props.C56_complex",
    "OTFFT.Props.C56_bluestein",
    "OTFFT.Props.C56_real",
    "OTFFT.Props.C56_double",
    "OTFFT.Props.C56_real_double",
    "OTFFT.Props.C56_bluestein_double"
   ],
   "note": "C56_complex, _bluestein and _real in exact arithmetic for fractional frequencies; _double, _bluestein_double and _real_double in IEEE double arithmetic for integer frequencies with noise"
  },
  {
   "property": "C57",
   "status": "proved",
   "theorems": [
    "OTFFT.Props.C57_real_forward",
    "OTFFT.Props.C57_real_bin0",
    "OTFFT.Props.C57_real_inverse",
    "OTFFT.Props.C57_real_bad",
    "OTFFT.Props.C57_dct",
    "OTFFT.Props.C57_dct0_overrun"
   ],
   "note": "C57_real_bin0 in exact arithmetic, the others for any arithmetic; builds with assert enabled abort in setup instead (not modelled)"
  },
  {
   "property": "C58",
   "status": "proved",
   "theorems": [
    "OTFFT.Props.C58_weight",
    "OTFFT.Props.C58_rms",
    "OTFFT.Props.C58_relative",
    "OTFFT.Props.C58_energy",
    "OTFFT.Props.C58_roundtrip"
   ],
   "note": "relative to the same assumptions on double arithmetic as C46 (Spec/Float: Binary64); witness: rounding to 53 bits"
  },
  {
   "property": "C59",
   "status": "proved",
   "theorems": [
    "OTFFT.Props.C59_bound",
    "OTFFT.Props.C59_constant",
    "OTFFT.Props.C59_even",
    "OTFFT.Props.C59_odd",
    "OTFFT.Props.C59_scale",
    "OTFFT.Props.C59_library"
   ],
   "note": "the values are for IEEE 754 binary64 (Dbl64); the 31 runs of the recursion are evaluated by the kernel and cover the whole domain, every power of two that fits an int"
  },
  {
   "property": "C60",
   "status": "proved",
   "theorems": [
    "OTFFT.Props.C60_laws",
    "OTFFT.Props.C60_signs",
    "OTFFT.Props.C60_complex",
    "OTFFT.Props.C60_real_forward",
    "OTFFT.Props.C60_real_inverse",
    "OTFFT.Props.C60_dct",
    "OTFFT.Props.C60_bluestein",
    "OTFFT.Props.C60_overflow"
   ],
   "note": "binary64 is defined from scratch in Spec/Binary64 and shown to satisfy the hypotheses (Binary64, SignLaws) of C43, C46-C48 and C58; sqrt is correctly rounded as IEEE 754 demands; cos and sin of the C library are any functions that return doubles within 2^-52 of the exact values and are exact at 0 (class Libm)"
  },
  {
   "property": "C61",
   "status": "proved",
   "theorems": [
    "OTFFT.Props.C61_mirror"
   ],
   "note": "any FArith (unspecified rounding), any Target"
  },
  {
   "property": "C62",
   "status": "proved",
   "theorems": [
    "OTFFT.Props.C62_real_forward",
    "OTFFT.Props.C62_real_inverse",
    "OTFFT.Props.C62_real_relative",
    "OTFFT.Props.C62_real_roundtrip",
    "OTFFT.Props.C62_dct",
    "OTFFT.Props.C62_dct_roundtrip"
   ],
   "note": "any arithmetic with FloatLaws (IEEE binary64 proved an instance in C60); any Target"
  },
  {
   "property": "C63",
   "status": "proved",
   "theorems": [
    "OTFFT.Props.C63_convolution",
    "OTFFT.Props.C63_integers"
   ],
   "note": "any arithmetic with FloatLaws (IEEE binary64 proved an instance in C60); any Target; example: two numbers of 2^20 decimal digits at n = 2^21"
  },
  {
   "property": "C64",
   "status": "proved",
   "theorems": [
    "OTFFT.Props.C64_conjugate",
    "OTFFT.Props.C64_doubles"
   ],
   "note": "any FArith with the laws Signed; IEEE binary64 with infinities and NaN proved an instance. Not claimed for lengths that use the mixed radix kernels: their inverse reads another entry of the table of roots"
  },
  {
   "property": "C65",
   "status": "proved",
   "theorems": [
    "OTFFT.Props.C65_complex",
    "OTFFT.Props.C65_fft0",
    "OTFFT.Props.C65_bluestein",
    "OTFFT.Props.C65_doubles"
   ],
   "note": "not claimed with FMA when a radix-3/5/generic stage is used: there the data is the left operand of mulpz, where FMA rounds the other product"
  },
  {
   "property": "C66",
   "status": "proved",
   "theorems": [
    "OTFFT.Props.C66_power_of_two",
    "OTFFT.Props.C66_other",
    "OTFFT.Props.rnd53_scalesBy"
   ],
   "note": "powers of two: reals with rounding to 53 bits (no overflow or underflow); other lengths: any arithmetic"
  },
  {
   "property": "C67",
   "status": "proved",
   "theorems": [
    "OTFFT.Props.C67_impulse",
    "OTFFT.Props.C67_constant",
    "OTFFT.Props.C67_mean",
    "OTFFT.Props.rnd53_keeps",
    "OTFFT.Props.rnd64_keeps",
    "OTFFT.Props.C67_inverse_ten"
   ],
   "note": "reals with a rounding that keeps 0, 1, its results and their doubles; proved for 53 bits and for IEEE doubles with subnormals. Not claimed for the inverse of lengths that use the mixed radix kernels: they read table entry n, the rounded exp(-2 pi i), where 1 is meant"
  },
  {
   "property": "C68",
   "status": "proved",
   "theorems": [
    "OTFFT.Props.C68_real",
    "OTFFT.Props.C68_bluestein",
    "OTFFT.Props.C68_accuracy",
    "OTFFT.Props.C68_integers",
    "OTFFT.Props.C68_polynomials"
   ],
   "note": "accuracy under the assumptions Binary64 of Spec/Float, and that a product with a factor zero is zero"
  },
  {
   "property": "C69",
   "status": "proved",
   "theorems": [
    "OTFFT.Props.C69_rms",
    "OTFFT.Props.C69_relative",
    "OTFFT.Props.C69_roundtrip"
   ],
   "note": "under the assumptions Binary64 of Spec/Float"
  },
  {
   "property": "C70",
   "status": "proved",
   "theorems": [
    "OTFFT.Props.C70_silence"
   ],
   "note": "IEEE binary64 of Spec/Binary64 and Spec/Hom (no assumption about the arithmetic beyond that definition)"
  },
  {
   "property": "C71",
   "status": "proved",
   "theorems": [
    "OTFFT.Props.C71_table_deterministic",
    "OTFFT.Props.C71_table",
    "OTFFT.Props.C71_table_wrong",
    "OTFFT.Props.C71_lookup",
    "OTFFT.Props.C71_swap",
    "OTFFT.Props.C71_pair",
    "OTFFT.Props.C71_setup"
   ],
   "note": "C71_table, C71_lookup, C71_setup over exact arithmetic; the others over any arithmetic"
  },
  {
   "property": "C72",
   "status": "proved",
   "theorems": [
    "OTFFT.Props.C72_impulse",
    "OTFFT.Props.C72_constant",
    "OTFFT.Props.C72_inverse",
    "OTFFT.Props.C72_round_trip"
   ],
   "note": "over Rounded rho for every rounding with KeepsDoubles; rnd64_keeps shows that IEEE round-to-nearest-even is one"
  },
  {
   "property": "C73",
   "status": "proved",
   "theorems": [
    "OTFFT.Props.C73_constant",
    "OTFFT.Props.C73_inverse",
    "OTFFT.Props.C73_round_trip"
   ],
   "note": "over Rounded rho for every rounding with KeepsDoubles; rnd64_keeps shows that IEEE round-to-nearest-even is one"
  },
  {
   "property": "C74",
   "status": "proved",
   "theorems": [
    "OTFFT.Props.C74_forward",
    "OTFFT.Props.C74_real",
    "OTFFT.Props.C74_dct"
   ],
   "note": "C74_forward over any arithmetic; the others over Rounded rho for every rounding with ScalesBy (rnd53_scalesBy)"
  },
  {
   "property": "C75",
   "status": "proved",
   "theorems": [
    "OTFFT.Props.C75_accuracy",
    "OTFFT.Props.C75_rms",
    "OTFFT.Props.C75_agree"
   ],
   "note": "same assumptions on double arithmetic as C46 (Binary64; Dbl64 is an instance)"
  },
  {
   "property": "C76",
   "status": "proved",
   "theorems": [
    "OTFFT.Props.C76_preserved",
    "OTFFT.Props.C76_poison",
    "OTFFT.Props.C76_conjugate",
    "OTFFT.Props.C76_impulse",
    "OTFFT.Props.C76_constant"
   ],
   "note": "impulses and constants over Rounded rho as C67; the others over any arithmetic with the stated laws"
  },
  {
   "property": "C77",
   "status": "proved",
   "theorems": [
    "OTFFT.Props.C77_complex",
    "OTFFT.Props.C77_bluestein",
    "OTFFT.Props.C77_real",
    "OTFFT.Props.C77_dct",
    "OTFFT.Props.C77_runs",
    "OTFFT.Props.C77_runs_bluestein",
    "OTFFT.Props.C77_runs_real"
   ],
   "note": "same assumptions on double arithmetic as C46 (Binary64; Dbl64 is an instance); C77_runs*: every input in range has a run in the relation; cosine transform: forward entry points, reversal only"
  },
  {
   "property": "C78",
   "status": "proved",
   "theorems": [
    "OTFFT.Props.C78_builds",
    "OTFFT.Props.C78_bluestein",
    "OTFFT.Props.C78_real_forward",
    "OTFFT.Props.C78_real_inverse"
   ],
   "note": "same assumptions on double arithmetic as C46 (Binary64; Dbl64 is an instance)"
  },
  {
   "property": "C79",
   "status": "proved",
   "theorems": [
    "OTFFT.Props.C79_transfer",
    "OTFFT.Props.C79_flags"
   ],
   "note": "flags are attached to values (a flag of a value implies the sticky flag of the processor); underflow as on x86: tiny after rounding and inexact; Flagged is IEEE 754 arithmetic (Spec/Flags), its doubles are proved to be those of the plain IEEE run"
  },
  {
   "property": "C80",
   "status": "proved",
   "theorems": [
    "OTFFT.Props.C80_complex",
    "OTFFT.Props.C80_bluestein",
    "OTFFT.Props.C80_real_forward",
    "OTFFT.Props.C80_real_inverse",
    "OTFFT.Props.C80_dct"
   ],
   "note": "for Dbl64: binary64 with any cos and sin that satisfy class Libm (as in C60)"
  },
  {
   "property": "C81",
   "status": "proved",
   "theorems": [
    "OTFFT.Props.C81_scale",
    "OTFFT.Props.C81_complex",
    "OTFFT.Props.C81_real",
    "OTFFT.Props.C81_dct"
   ],
   "note": "the doubles of the flagged run are those of the plain IEEE run (C79_flags)"
  },
  {
   "property": "C82",
   "status": "proved",
   "theorems": [
    "OTFFT.Props.C82_complex",
    "OTFFT.Props.C82_bluestein",
    "OTFFT.Props.C82_real_forward",
    "OTFFT.Props.C82_real_inverse",
    "OTFFT.Props.C82_dct"
   ],
   "note": "so every value theorem about Rounded rnd64 (C50, C66-C68, C72-C74) holds for IEEE doubles in range"
  },
  {
   "property": "C83",
   "status": "proved",
   "theorems": [
    "OTFFT.Props.C83_impulse",
    "OTFFT.Props.C83_constant",
    "OTFFT.Props.C83_real_impulse",
    "OTFFT.Props.C83_real_constant",
    "OTFFT.Props.C83_real_inverse",
    "OTFFT.Props.C83_dct_constant",
    "OTFFT.Props.C83_dct_inverse"
   ],
   "note": "C67, C72 and C73 carried over to IEEE doubles by C82; values, not signs of zeros; the inverses need c/2 to be a double (false only for odd multiples of the smallest subnormal)"
  },
  {
   "property": "C84",
   "status": "proved",
   "theorems": [
    "OTFFT.Props.C84_sum",
    "OTFFT.Props.C84_exact",
    "OTFFT.Props.C84_ieee",
    "OTFFT.Props.C84_relative",
    "OTFFT.Props.C84_relative_ieee"
   ],
   "note": "the inverse mixed-radix transform multiplies by table entry n (the rounded exp(-2 pi i) instead of 1) at prime factors above 5, so it is not claimed there; C84_sum is about rounded reals, of which IEEE doubles in range have the values (C82)"
  },
  {
   "property": "C85",
   "status": "proved",
   "theorems": [
    "OTFFT.Props.C85_real",
    "OTFFT.Props.C85_real_ieee",
    "OTFFT.Props.C85_dct",
    "OTFFT.Props.C85_dct_ieee"
   ],
   "note": "values, not signs of zeros"
  },
  {
   "property": "C86",
   "status": "proved",
   "theorems": [
    "OTFFT.Props.C86_complex",
    "OTFFT.Props.C86_real",
    "OTFFT.Props.C86_dct",
    "OTFFT.Props.C86_bluestein"
   ],
   "note": "for every arithmetic with the accuracy of binary64 (Binary64), of which IEEE doubles with any Libm are an instance (C60_laws)"
  },
  {
   "property": "C87",
   "status": "proved",
   "theorems": [
    "OTFFT.Props.C87_complex",
    "OTFFT.Props.C87_real",
    "OTFFT.Props.C87_dct",
    "OTFFT.Props.C87_bluestein"
   ],
   "note": "the examples instantiate it with IEEE doubles"
  },
  {
   "property": "C88",
   "status": "proved",
   "theorems": [
    "OTFFT.Props.C88_exact",
    "OTFFT.Props.C88_ieee",
    "OTFFT.Props.C88_real",
    "OTFFT.Props.C88_real_ieee",
    "OTFFT.Props.C88_dct",
    "OTFFT.Props.C88_dct_ieee",
    "OTFFT.Props.C88_other",
    "OTFFT.Props.C88_other_ieee",
    "OTFFT.Props.C88_ones"
   ],
   "note": "for doubles without a largest one (rnd64) and for IEEE doubles with any Libm"
  },
  {
   "property": "C89",
   "status": "proved",
   "theorems": [
    "OTFFT.Props.C89_complex",
    "OTFFT.Props.C89_bluestein",
    "OTFFT.Props.C89_real_forward",
    "OTFFT.Props.C89_real_inverse",
    "OTFFT.Props.C89_dct"
   ],
   "note": "the flags of an element are those of the operations that led to it (C79); the hypothesis is about flags only, no bound on the input is assumed"
  },
  {
   "property": "C90",
   "status": "proved",
   "theorems": [
    "OTFFT.Props.C90_difference",
    "OTFFT.Props.C90_exact",
    "OTFFT.Props.C90_ieee",
    "OTFFT.Props.C90_relative"
   ],
   "note": "C90_difference holds in every arithmetic that keeps doubles; SumOf and pairSub are in Spec/SumTree"
  },
  {
   "property": "C91",
   "status": "proved",
   "theorems": [
    "OTFFT.Props.C91_two",
    "OTFFT.Props.C91_four",
    "OTFFT.Props.C91_exact",
    "OTFFT.Props.C91_ieee",
    "OTFFT.Props.C91_real",
    "OTFFT.Props.C91_real_ieee"
   ],
   "note": "C91_two and C91_four hold in every arithmetic; the operations pairAdd, pairSub, pairJ are in Spec/SumTree"
  },
  {
   "property": "C92",
   "status": "proved",
   "theorems": [
    "OTFFT.Props.C92_complex_exact",
    "OTFFT.Props.C92_bluestein_exact",
    "OTFFT.Props.C92_complex",
    "OTFFT.Props.C92_bluestein",
    "OTFFT.Props.C92_mixed",
    "OTFFT.Props.C92_real",
    "OTFFT.Props.C92_real_exact"
   ],
   "note": "the six identities are the structure Resample in Spec/Resample, stated on relations 'input u gave output U'; tolerance 0 in exact arithmetic C92_real_exact: RealFFT, exact arithmetic."
  },
  {
   "property": "C93",
   "status": "proved",
   "theorems": [
    "OTFFT.Props.C93_shift",
    "OTFFT.Props.C93_shift_neg",
    "OTFFT.Props.C93_zeros"
   ],
   "note": "for every class k the statement HalfDelay/HalfLen in Spec/Half says which lengths; proved for every pair of relations that sums keep and differences exchange"
  },
  {
   "property": "C94",
   "status": "proved",
   "theorems": [
    "OTFFT.Props.C94_alternate",
    "OTFFT.Props.C94_sparse",
    "OTFFT.Props.C94_real_inverse",
    "OTFFT.Props.C94_real_sparse"
   ],
   "note": "dual of C93; not claimed for lengths with an odd factor, where the two transforms use different twiddle factors"
  },
  {
   "property": "C95",
   "status": "proved",
   "theorems": [
    "OTFFT.Props.C95_quarter",
    "OTFFT.Props.C95_zeros"
   ],
   "note": "with fused multiply-add, lengths with factors 3, 5, ... are excluded because multiplication by i does not commute with their kernels (C65)"
  },
  {
   "property": "C96",
   "status": "proved",
   "theorems": [
    "OTFFT.Props.C96_reverse",
    "OTFFT.Props.C96_inverse",
    "OTFFT.Props.C96_zeros",
    "OTFFT.Props.C96_inverse_symmetric"
   ],
   "note": "the inverse is claimed for powers of two only: with an odd factor the half-length transform uses different twiddle factors for the two inputs (as in C94)"
  },
  {
   "property": "C97",
   "status": "proved",
   "theorems": [
    "OTFFT.Props.C97_real_exact",
    "OTFFT.Props.C97_complex_exact",
    "OTFFT.Props.C97_real",
    "OTFFT.Props.C97_complex"
   ],
   "note": ""
  },
  {
   "property": "C98",
   "status": "proved",
   "theorems": [
    "OTFFT.Props.C98_exact",
    "OTFFT.Props.C98_bluestein_exact",
    "OTFFT.Props.C98_complex",
    "OTFFT.Props.C98_bluestein"
   ],
   "note": ""
  },
  {
   "property": "C99",
   "status": "proved",
   "theorems": [
    "OTFFT.Props.C99_rows_complex",
    "OTFFT.Props.C99_rows_bluestein",
    "OTFFT.Props.C99_rows_dct",
    "OTFFT.Props.C99_plane_exact",
    "OTFFT.Props.C99_plane",
    "OTFFT.Props.C99_plane_bluestein",
    "OTFFT.Props.C99_plane_bluestein_exact"
   ],
   "note": ""
  },
  {
   "property": "C100",
   "status": "proved",
   "theorems": [
    "OTFFT.Props.C100_exact",
    "OTFFT.Props.C100_bluestein_exact",
    "OTFFT.Props.C100_complex",
    "OTFFT.Props.C100_bluestein"
   ],
   "note": ""
  },
  {
   "property": "C101",
   "status": "proved",
   "theorems": [
    "OTFFT.Props.C101_exact",
    "OTFFT.Props.C101_bluestein_exact",
    "OTFFT.Props.C101_real_exact",
    "OTFFT.Props.C101_complex",
    "OTFFT.Props.C101_bluestein",
    "OTFFT.Props.C101_real"
   ],
   "note": ""
  }
 ]
}
{
 "claims": [
  {
   "property": "C01",
   "status": "proved",
   "theorems": [
    "Trng.C01_lcg64_discard",
    "Trng.C01_lcg64_jump",
    "Trng.C01_lcg64_shift_discard",
    "Trng.C01_lcg64_shift_jump"
   ],
   "note": ""
  },
  {
   "property": "C02",
   "status": "proved",
   "theorems": [
    "Trng.C02_lcg64_jump2",
    "Trng.C02_lcg64_jump2_ub"
   ],
   "note": ""
  },
  {
   "property": "C03",
   "status": "proved",
   "theorems": [
    "Trng.C03_lcg64_split_leapfrog",
    "Trng.C03_lcg64_shift_split_leapfrog"
   ],
   "note": ""
  },
  {
   "property": "C04",
   "status": "proved",
   "theorems": [
    "Trng.C04_even_multiplier_breaks_split"
   ],
   "note": ""
  },
  {
   "property": "C05",
   "status": "proved",
   "theorems": [
    "Trng.C05_count128_partition",
    "Trng.C05_lcg64_partition",
    "Trng.C05_count_shift_partition",
    "Trng.C05_mrg_partition"
   ],
   "note": ""
  },
  {
   "property": "C06",
   "status": "proved",
   "theorems": [
    "Trng.C06_count128_split_throws_iff",
    "Trng.C06_count128_split_throws_unchanged",
    "Trng.C06_count128_split_one",
    "Trng.C06_lcg64_split_throws_iff",
    "Trng.C06_lcg64_split_throws_unchanged",
    "Trng.C06_lcg64_split_one",
    "Trng.C06_lcg64_split_no_ub",
    "Trng.C06_count_shift_split_throws_iff",
    "Trng.C06_count_shift_split_throws_unchanged",
    "Trng.C06_count_shift_split_one",
    "Trng.C06_mrg_split_throws_iff",
    "Trng.C06_mrg_split_throws_unchanged",
    "Trng.C06_mrg_split_one"
   ],
   "note": ""
  },
  {
   "property": "C07",
   "status": "proved",
   "theorems": [
    "Trng.C07_count128_split_split",
    "Trng.C07_lcg64_split_split",
    "Trng.C07_mrg_split_split"
   ],
   "note": ""
  },
  {
   "property": "C08",
   "status": "proved",
   "theorems": [
    "Trng.C08_lcg64_period",
    "Trng.C08_lcg64_each_value_once",
    "Trng.C08_lcg64_shift_each_value_once",
    "Trng.C08_lcg64_builtin_period"
   ],
   "note": ""
  },
  {
   "property": "C09",
   "status": "partial",
   "theorems": [
    "Trng.C09_count_shift_discard_partial",
    "Trng.C09_count_shift_jump_partial",
    "Trng.C09_count_shift_discard_wrong"
   ],
   "note": "Proved for n < 2^61. False above (C09_count_shift_discard_wrong: discard(2^62) on a default engine; the multiplication modulo 2^61-1 gets an unreduced operand)."
  },
  {
   "property": "C10",
   "status": "proved",
   "theorems": [
    "Trng.C10_count_shift_jump2",
    "Trng.C10_count_shift_jump2_ub"
   ],
   "note": ""
  },
  {
   "property": "C100",
   "status": "partial",
   "theorems": [
    "Trng.Props.C100_machine",
    "Trng.Props.C100_inv_Phi",
    "Trng.Props.C100_inv_Phi_ends",
    "Trng.Props.C100_exact",
    "Trng.Props.C100_exact_normal",
    "Trng.Props.C100_normal",
    "Trng.Props.C100_inv_Phi_small_wrong"
   ],
   "note": "double with a C library of relative error at most 2^-50, all normal numbers in (0,1); NaN from 2^-1032 on down (F84), the subnormal numbers above that are not covered. Other number types, inv_erf and inv_erfc are not covered. Monotony is not claimed."
  },
  {
   "property": "C101",
   "status": "proved",
   "theorems": [
    "Trng.Props.C101_lcg64",
    "Trng.Props.C101_lcg64_count_shift",
    "Trng.Props.C101_count128",
    "Trng.Props.C101_xoshiro",
    "Trng.Props.C101_minstd",
    "Trng.Props.C101_mrg_yarn",
    "Trng.Props.C101_mt19937",
    "Trng.Props.C101_mt19937_64",
    "Trng.Props.C101_ranges",
    "Trng.Props.C101_exponential",
    "Trng.Props.C101_twosided",
    "Trng.Props.C101_logistic",
    "Trng.Props.C101_extreme_value",
    "Trng.Props.C101_rayleigh",
    "Trng.Props.C101_normal",
    "Trng.Props.C101_uniform01",
    "Trng.Props.C101_uniform",
    "Trng.Props.C101_tent",
    "Trng.Props.C101_cauchy",
    "Trng.Props.C101_pareto",
    "Trng.Props.C101_powerlaw",
    "Trng.Props.C101_weibull",
    "Trng.Props.C101_lognormal",
    "Trng.Props.C101_functions",
    "Trng.Props.C101_exact"
   ],
   "note": "The whole chain from the engine over the rounded deviates to the rounded sampling function. Of the lagged Fibonacci engines those with ^ are covered by C111, those with + not: their values are not known to be equally frequent. The other continuous distributions of the library (maxwell, truncated normal, gamma, beta, chi-square, Student t, Snedecor F) are not in the claim."
  },
  {
   "property": "C102",
   "status": "proved",
   "theorems": [
    "Trng.Props.C102_uniform_int",
    "Trng.Props.C102_bounded_int",
    "Trng.Props.C102_bernoulli",
    "Trng.Props.C102_discrete",
    "Trng.Props.C102_geometric",
    "Trng.Props.C102_binomial",
    "Trng.Props.C102_hypergeometric"
   ],
   "note": "The chain from the engine over the rounded deviate to the integer. The weights of C102_discrete are those for which the tree of discrete_dist has no rounding error (C72). hypergeometric_dist is right only if d = m (C55)."
  },
  {
   "property": "C103",
   "status": "proved",
   "theorems": [
    "Trng.Props.C103_lcg64",
    "Trng.Props.C103_lcg64_wrong",
    "Trng.Props.C103_lcg64_period",
    "Trng.Props.C103_lcg64_count_shift",
    "Trng.Props.C103_count128",
    "Trng.Props.C103_mrg_yarn",
    "Trng.Props.C103_lcg64_pooled",
    "Trng.Props.C103_lcg64_count_shift_pooled",
    "Trng.Props.C103_count128_pooled",
    "Trng.Props.C103_mrg_yarn_pooled"
   ],
   "note": "Engines with a proved full period. For mrg and yarn engines and an s with a common divisor only the streams together are claimed here; C110 has each of them; C103_lcg64_wrong: even s (F85)."
  },
  {
   "property": "C104",
   "status": "proved",
   "theorems": [
    "Trng.Props.C104_xoshiro",
    "Trng.Props.C104_mrg_yarn",
    "Trng.Props.C104_mt19937",
    "Trng.Props.C104_mt19937_64",
    "Trng.Props.C104_single",
    "Trng.Props.C104_lcg64_wrong",
    "Trng.Props.C104_exponential",
    "Trng.Props.C104_twosided",
    "Trng.Props.C104_logistic",
    "Trng.Props.C104_extreme_value",
    "Trng.Props.C104_rayleigh",
    "Trng.Props.C104_normal",
    "Trng.Props.C104_uniform01",
    "Trng.Props.C104_uniform",
    "Trng.Props.C104_tent",
    "Trng.Props.C104_cauchy",
    "Trng.Props.C104_pareto",
    "Trng.Props.C104_powerlaw",
    "Trng.Props.C104_weibull",
    "Trng.Props.C104_lognormal",
    "Trng.Props.C104_uniform_int",
    "Trng.Props.C104_bounded_int",
    "Trng.Props.C104_discrete",
    "Trng.Props.C104_geometric",
    "Trng.Props.C104_binomial",
    "Trng.Props.C104_hypergeometric",
    "Trng.Props.C104_bernoulli"
   ],
   "note": "Distributions and parameters of C101 and C102. C104_lcg64_wrong: 2^64 calls are too few for equally frequent pairs. count128_lcg_shift, lcg64_count_shift and the lagged Fibonacci engines with +: not claimed for n > 1; those with ^: C111."
  },
  {
   "property": "C105",
   "status": "proved",
   "theorems": [
    "Trng.Props.C105_mrg",
    "Trng.Props.C105_yarn",
    "Trng.Props.C105_pair",
    "Trng.Props.C105_seed",
    "Trng.Props.C105_seed_relation",
    "Trng.Props.C105_seed_wrong",
    "Trng.Props.C105_jump",
    "Trng.Props.C105_jump2",
    "Trng.Props.C105_jump_any",
    "Trng.Props.C105_jump_wrong",
    "Trng.Props.C105_jump2_wrong",
    "Trng.Props.C105_split",
    "Trng.Props.C105_split_neighbours",
    "Trng.Props.C105_exponential",
    "Trng.Props.C105_twosided",
    "Trng.Props.C105_logistic",
    "Trng.Props.C105_extreme_value",
    "Trng.Props.C105_rayleigh",
    "Trng.Props.C105_normal",
    "Trng.Props.C105_uniform01",
    "Trng.Props.C105_uniform",
    "Trng.Props.C105_tent",
    "Trng.Props.C105_cauchy",
    "Trng.Props.C105_pareto",
    "Trng.Props.C105_powerlaw",
    "Trng.Props.C105_weibull",
    "Trng.Props.C105_lognormal",
    "Trng.Props.C105_uniform_int",
    "Trng.Props.C105_bounded_int",
    "Trng.Props.C105_discrete",
    "Trng.Props.C105_geometric",
    "Trng.Props.C105_binomial",
    "Trng.Props.C105_hypergeometric",
    "Trng.Props.C105_bernoulli"
   ],
   "note": "Parameter sets of full period only. C105_seed_wrong, C105_jump_wrong and C105_jump2_wrong: three seeded engines are never independent (F86), mrg2 and yarn2 after jump2(31) are proportional (F87). Streams of split with a number of streams that has a divisor in common with the period (every even number): C110."
  },
  {
   "property": "C106",
   "status": "proved",
   "theorems": [
    "Trng.Props.C106_frequency",
    "Trng.Props.C106_mrg",
    "Trng.Props.C106_yarn",
    "Trng.Props.C106_successive",
    "Trng.Props.C106_pair",
    "Trng.Props.C106_jump",
    "Trng.Props.C106_seed",
    "Trng.Props.C106_split",
    "Trng.Props.C106_exponential",
    "Trng.Props.C106_twosided",
    "Trng.Props.C106_logistic",
    "Trng.Props.C106_extreme_value",
    "Trng.Props.C106_rayleigh",
    "Trng.Props.C106_normal",
    "Trng.Props.C106_uniform01",
    "Trng.Props.C106_uniform",
    "Trng.Props.C106_tent",
    "Trng.Props.C106_cauchy",
    "Trng.Props.C106_pareto",
    "Trng.Props.C106_powerlaw",
    "Trng.Props.C106_weibull",
    "Trng.Props.C106_lognormal",
    "Trng.Props.C106_uniform_int",
    "Trng.Props.C106_bounded_int",
    "Trng.Props.C106_discrete",
    "Trng.Props.C106_geometric",
    "Trng.Props.C106_binomial",
    "Trng.Props.C106_hypergeometric",
    "Trng.Props.C106_bernoulli",
    "Trng.Props.C106_yarn3s_default"
   ],
   "note": "Which of the squares and the non-squares are the more frequent depends on the state and is not determined. That 1/sqrt(m^(n-d)) is the true order is shown for d = 1 only (C106_frequency)."
  },
  {
   "property": "C107",
   "status": "partial",
   "theorems": [
    "Trng.C107_discrete",
    "Trng.C107_bernoulli",
    "Trng.C107_covariance",
    "Trng.C107_covariance_symmetric",
    "Trng.C107_variance_nonneg",
    "Trng.C107_covariance_undefined",
    "Trng.C107_stl_container",
    "Trng.C107_time_plain_partial",
    "Trng.C107_time_plain_wrong"
   ],
   "note": "Proved for all programs but time_plain, whose int sum overflows for all mrg and yarn engines (C107_time_plain_wrong; C107_time_plain_partial says when it is right). std::shuffle and the clock are not modelled."
  },
  {
   "property": "C108",
   "status": "partial",
   "theorems": [
    "Trng.Props.C108_successive",
    "Trng.Props.C108_streams",
    "Trng.Props.C108_nearly",
    "Trng.Props.C108_draw",
    "Trng.Props.C108_power_of_two",
    "Trng.Props.C108_law",
    "Trng.Props.C108_pdf_cdf",
    "Trng.Props.C108_cdf_monotone_partial",
    "Trng.Props.C108_cdf_wrong",
    "Trng.Props.C108_history"
   ],
   "note": "Stated with the out-of-range samples that rounding permits for deviates within 2^-43 of 1 (C72_discrete_rounding_wrong); exponent range of double unbounded, as everywhere. cdf does not decrease between indices (C108_cdf_monotone_partial) but can exceed 1 at the last one and be 1 afterwards (C108_cdf_wrong)."
  },
  {
   "property": "C109",
   "status": "partial",
   "theorems": [
    "Trng.Props.C109_options",
    "Trng.Props.C109_numbers",
    "Trng.Props.C109_run",
    "Trng.Props.C109_size",
    "Trng.Props.C109_split_wrong",
    "Trng.Props.C109_generator_wrong",
    "Trng.Props.C109_report",
    "Trng.Props.C109_report_zero"
   ],
   "note": "Without --split the program always ends with an uncaught exception (C109_split_wrong), an unknown generator is not reported (C109_generator_wrong). The report in exact arithmetic; the text of messages and report is not modelled."
  },
  {
   "property": "C11",
   "status": "proved",
   "theorems": [
    "Trng.C11_count_shift_split_leapfrog"
   ],
   "note": ""
  },
  {
   "property": "C110",
   "status": "proved",
   "theorems": [
    "Trng.Props.C110_period",
    "Trng.Props.C110_split",
    "Trng.Props.C110_neighbours",
    "Trng.Props.C110_pair",
    "Trng.Props.C110_successive",
    "Trng.Props.C110_successive_all"
   ],
   "note": "The bound says something if g < sqrt(m^(n-d)); with mrg2 and yarn2 only for single values. Parameter sets of half the period: C106. More than two successive numbers of one stream need s < m."
  },
  {
   "property": "C111",
   "status": "proved",
   "theorems": [
    "Trng.C111_words",
    "Trng.C111_needed",
    "Trng.C111_tuples",
    "Trng.C111_default"
   ],
   "note": "The condition on the state is shown for all default constructed engines and n = 1 (C111_default), and for an explicit state and n = 3; not for other seeds. Engines with + are not covered, but for the lowest bit (C92)."
  },
  {
   "property": "C12",
   "status": "proved",
   "theorems": [
    "Trng.C12_count_shift_invariant"
   ],
   "note": "Histories with discard arguments below 2^61 (the range in which C09 holds) and jump2 exponents below 64."
  },
  {
   "property": "C13",
   "status": "proved",
   "theorems": [
    "Trng.C13_count128_discard",
    "Trng.C13_count128_jump2",
    "Trng.C13_count128_split_leapfrog"
   ],
   "note": ""
  },
  {
   "property": "C14",
   "status": "proved",
   "theorems": [
    "Trng.C14_count128_period",
    "Trng.C14_count128_output_period",
    "Trng.C14_count128_builtin_period"
   ],
   "note": ""
  },
  {
   "property": "C15",
   "status": "partial",
   "theorems": [
    "Trng.C15_portable_constant",
    "Trng.C15_implementations_differ",
    "Trng.C15_portable_state_partial"
   ],
   "note": "The internal state agrees (C15_portable_state_partial); the output does not: portable hi() returns the low word, so the portable engine's output is constant (C15_portable_constant, C15_implementations_differ)."
  },
  {
   "property": "C16",
   "status": "proved",
   "theorems": [
    "Trng.C16_minstd_recurrence",
    "Trng.C16_minstd_seed_valid",
    "Trng.C16_minstd_seedGen_terminates",
    "Trng.C16_minstd_range"
   ],
   "note": ""
  },
  {
   "property": "C17",
   "status": "partial",
   "theorems": [
    "Trng.C17_minstd_discard_partial",
    "Trng.C17_minstd_discard_iff",
    "Trng.C17_minstd_discard_wrong"
   ],
   "note": "True exactly when the discarded count and its reduction modulo 2^31-3 agree modulo the period (C17_minstd_discard_iff); the code reduces modulo max-min, one less than the period (C17_minstd_discard_wrong)."
  },
  {
   "property": "C18",
   "status": "proved",
   "theorems": [
    "Trng.C18_minstd_period",
    "Trng.C18_minstd_all_values"
   ],
   "note": ""
  },
  {
   "property": "C19",
   "status": "proved",
   "theorems": [
    "Trng.C19_modulo",
    "Trng.C19_modulo_bound_needed"
   ],
   "note": ""
  },
  {
   "property": "C20",
   "status": "proved",
   "theorems": [
    "Trng.C20_modulo_inverse",
    "Trng.C20_modulo_inverse_invalid"
   ],
   "note": ""
  },
  {
   "property": "C21",
   "status": "proved",
   "theorems": [
    "Trng.C21_gauss_sound"
   ],
   "note": ""
  },
  {
   "property": "C22",
   "status": "proved",
   "theorems": [
    "Trng.C22_gauss_complete",
    "Trng.C22_gauss_complete_rank",
    "Trng.C22_gauss_spurious_throw"
   ],
   "note": ""
  },
  {
   "property": "C23",
   "status": "proved",
   "theorems": [
    "Trng.C23_matrix_vec_mult",
    "Trng.C23_matrix_mult"
   ],
   "note": ""
  },
  {
   "property": "C24",
   "status": "proved",
   "theorems": [
    "Trng.C24_log2_floor",
    "Trng.C24_log2_ceil",
    "Trng.C24_ceil2",
    "Trng.C24_ceil2_wraps",
    "Trng.C24_mask"
   ],
   "note": ""
  },
  {
   "property": "C25",
   "status": "proved",
   "theorems": [
    "Trng.C25_power",
    "Trng.C25_power_negative"
   ],
   "note": ""
  },
  {
   "property": "C26",
   "status": "proved",
   "theorems": [
    "Trng.C26_mrg_recurrence",
    "Trng.C26_mrg_range"
   ],
   "note": ""
  },
  {
   "property": "C27",
   "status": "proved",
   "theorems": [
    "Trng.C27_mrg_discard",
    "Trng.C27_mrg_jump2"
   ],
   "note": ""
  },
  {
   "property": "C28",
   "status": "proved",
   "theorems": [
    "Trng.C28_mrg_split_leapfrog",
    "Trng.C28_mrg5_split_wrong"
   ],
   "note": "All parameter vectors for 2-4 terms, built-in sets for the five-term engines. With other parameters the five-term engines fail (C28_mrg5_split_wrong)."
  },
  {
   "property": "C29",
   "status": "proved",
   "theorems": [
    "Trng.C29_mrg_backward",
    "Trng.C29_mrg_backward_fallback",
    "Trng.C29_mrg5_backward_wrong",
    "Trng.C29_mrg_backward_total"
   ],
   "note": "Fallbacks proved for 2-4 terms; refuted for the five-term engines (C29_mrg5_backward_wrong)."
  },
  {
   "property": "C30",
   "status": "proved",
   "theorems": [
    "Trng.C30_yarn_output",
    "Trng.C30_yarn_range",
    "Trng.C30_yarn_permutation"
   ],
   "note": ""
  },
  {
   "property": "C31",
   "status": "partial",
   "theorems": [
    "Trng.C31_mrg_seed_range",
    "Trng.C31_mrg_seed_residue",
    "Trng.C31_yarn5s_seedGen_wrong"
   ],
   "note": "False for yarn5s seeded from a generator (C31_yarn5s_seedGen_wrong); proved for everything else."
  },
  {
   "property": "C32",
   "status": "partial",
   "theorems": [
    "Trng.C32_mrg_period_partial",
    "Trng.C32_mrg_period_wrong",
    "Trng.C32_mrg4_LEcuyer2_wrong",
    "Trng.C32_mrg_all_builtin"
   ],
   "note": "Proved for all sets that have the documented period (C32_mrg_period_partial); for the other built-in sets the actual period is proved (C32_mrg_period_wrong) or a much smaller recurrence time (C32_mrg4_LEcuyer2_wrong)."
  },
  {
   "property": "C33",
   "status": "proved",
   "theorems": [
    "Trng.C33_lagfib_recurrence",
    "Trng.C33_lagfib2",
    "Trng.C33_lagfib4",
    "Trng.C33_lagfib_builtin",
    "Trng.C33_lagfib_power_of_two_undefined"
   ],
   "note": "Holds for every set of lags whose largest is not a power of two; otherwise the first call is undefined (C33_lagfib_power_of_two_undefined)."
  },
  {
   "property": "C34",
   "status": "partial",
   "theorems": [
    "Trng.C34_lagfib_discard_partial",
    "Trng.C34_lagfib_discard_one",
    "Trng.C34_lagfib_discard_one_wrong"
   ],
   "note": "Proved for every n except 1; discard(1) makes 2^64+1 steps (C34_lagfib_discard_one), which is wrong in every state with a non-zero (for plus: odd) word (C34_lagfib_discard_one_wrong)."
  },
  {
   "property": "C35",
   "status": "proved",
   "theorems": [
    "Trng.C35_lagfib_seed",
    "Trng.C35_lagfib_seed_forgets",
    "Trng.C35_lagfib_seed_words"
   ],
   "note": "The sequence depends on the seeding generator only; operator== still distinguishes re-seeded engines (C38_lagfib_reseeded_differs)."
  },
  {
   "property": "C36",
   "status": "proved",
   "theorems": [
    "Trng.C36_mt19937",
    "Trng.C36_mt19937_64",
    "Trng.C36_mt19937_standard",
    "Trng.C36_mt19937_64_standard",
    "Trng.C36_mt_position",
    "Trng.C36_mt_negative_undefined"
   ],
   "note": "Also proved equal to the sequence the C++ standard prescribes for std::mt19937 and std::mt19937_64 with the same seed. Negative positions, which only operator>> can produce, make the next call undefined (C36_mt_negative_undefined)."
  },
  {
   "property": "C37",
   "status": "proved",
   "theorems": [
    "Trng.C37_mt_discard",
    "Trng.C37_mt19937_temper",
    "Trng.C37_mt19937_64_temper"
   ],
   "note": ""
  },
  {
   "property": "C38",
   "status": "partial",
   "theorems": [
    "Trng.C38_count128_eq_wrong",
    "Trng.C38_lcg64_eq",
    "Trng.C38_lcg64_count_shift_eq",
    "Trng.C38_minstd_eq",
    "Trng.C38_mrg_eq",
    "Trng.C38_count128_eq_partial",
    "Trng.C38_lagfib_eq",
    "Trng.C38_lagfib_reseeded_differs",
    "Trng.C38_mt19937_eq_wrong",
    "Trng.C38_mt19937_64_eq_wrong",
    "Trng.C38_mt_eq_partial",
    "Trng.C38_xoshiro_eq",
    "Trng.C38_xoshiro_distinguishes"
   ],
   "note": "Proved for lcg64, lcg64_shift, lcg64_count_shift, minstd, all mrg, yarn and lagged Fibonacci engines and xoshiro256plus. Refuted for mt19937 and mt19937_64, whose comparison ignores the position (C38_mt19937_eq_wrong, for every seed), and for count128_lcg_shift, whose comparison ignores the increment (C38_count128_eq_wrong)."
  },
  {
   "property": "C39",
   "status": "proved",
   "theorems": [
    "Trng.C39_xoshiro_linear",
    "Trng.C39_xoshiro_bijective",
    "Trng.C39_xoshiro_nonzero",
    "Trng.C39_xoshiro_seeds",
    "Trng.C39_xoshiro_seed_words"
   ],
   "note": ""
  },
  {
   "property": "C40",
   "status": "proved",
   "theorems": [
    "Trng.C40_xoshiro_discard",
    "Trng.C40_xoshiro_jump",
    "Trng.C40_xoshiro_jump2"
   ],
   "note": ""
  },
  {
   "property": "C41",
   "status": "proved",
   "theorems": [
    "Trng.C41_period",
    "Trng.C41_returns",
    "Trng.C41_visits_all",
    "Trng.C41_output_period",
    "Trng.C41_uniform",
    "Trng.C41_zero_stays"
   ],
   "note": "State period, output period, single cycle through all non-zero states, and the number of occurrences of every 64-bit output per period."
  },
  {
   "property": "C42",
   "status": "proved",
   "theorems": [
    "Trng.C42_mat_mul",
    "Trng.C42_mat_vec",
    "Trng.C42_power",
    "Trng.C42_element",
    "Trng.C42_elementwise",
    "Trng.C42_equal",
    "Trng.C42_GF2",
    "Trng.C42_GF2_act",
    "Trng.C42_scalars"
   ],
   "note": ""
  },
  {
   "property": "C43",
   "status": "partial",
   "theorems": [
    "Trng.C43_add",
    "Trng.C43_sub",
    "Trng.C43_mul",
    "Trng.C43_div",
    "Trng.C43_mod",
    "Trng.C43_inc",
    "Trng.C43_dec",
    "Trng.C43_not",
    "Trng.C43_neg",
    "Trng.C43_and",
    "Trng.C43_or",
    "Trng.C43_xor",
    "Trng.C43_compare",
    "Trng.C43_shr",
    "Trng.C43_shl",
    "Trng.C43_shift_ub",
    "Trng.C43_lo",
    "Trng.C43_hi_wrong"
   ],
   "note": "Every operation is proved correct except the accessor hi(), which returns the low word (C43_hi_wrong)."
  },
  {
   "property": "C44",
   "status": "proved",
   "theorems": [
    "Trng.C44_print_read",
    "Trng.C44_print_read_padded",
    "Trng.C44_read_numeral",
    "Trng.C44_read_no_digit",
    "Trng.C44_print_numeral"
   ],
   "note": ""
  },
  {
   "property": "C45",
   "status": "proved",
   "theorems": [
    "Trng.C45_round_trip",
    "Trng.C45_fits_mrg",
    "Trng.C45_format",
    "Trng.C45_names",
    "Trng.C45_width_wrong"
   ],
   "note": "All engine types, all objects, any leading blanks, any continuation, field width 0 or 1. With a larger field width the text is not readable (C45_width_wrong)."
  },
  {
   "property": "C46",
   "status": "proved",
   "theorems": [
    "Trng.C46_read",
    "Trng.C46_accepts",
    "Trng.C46_unchanged",
    "Trng.C46_truncated",
    "Trng.C46_other_engine",
    "Trng.C46_bad_stream",
    "Trng.C46_mt_wrong",
    "Trng.C46_minstd_wrong",
    "Trng.C46_xoshiro_wrong",
    "Trng.C46_sign_wrong"
   ],
   "note": "For every stream: failure and unchanged object, or a complete text (Spec/Stream.lean). Beyond the property: values are not checked (_wrong)."
  },
  {
   "property": "C47",
   "status": "partial",
   "theorems": [
    "Trng.C47_uniformcc",
    "Trng.C47_uniformcc_ends",
    "Trng.C47_uniformco",
    "Trng.C47_canonical_bits",
    "Trng.C47_uniformoc",
    "Trng.C47_uniformoo_partial",
    "Trng.C47_uniformoo_library",
    "Trng.C47_uniformoo_wrong"
   ],
   "note": "Proved for uniformcc, uniformco, uniformoc, generate_canonical with any number of bits, and for uniformoo with every range max-min that has its three leading bits set or fits into p-2 bits, which covers all engines of the library (C47_uniformoo_library). For other ranges uniformoo can return 1 (C47_uniformoo_wrong)."
  },
  {
   "property": "C48",
   "status": "proved",
   "theorems": [
    "Trng.C48_bounded_int",
    "Trng.C48_bounded_int_calls"
   ],
   "note": "Bounds up to 2^63-1."
  },
  {
   "property": "C49",
   "status": "proved",
   "theorems": [
    "Trng.C49_uniform_int_range",
    "Trng.C49_uniform_int_limits",
    "Trng.C49_uniform_int_overflow",
    "Trng.C49_uniform_int_setters",
    "Trng.C49_uniform_int_all",
    "Trng.C49_uniform_int_law"
   ],
   "note": "Coverage (every value of [a,b) is returned) for engines that return every value of their range and ranges at least 32 times b-a. b-a beyond INT_MAX is undefined behaviour (C49_uniform_int_overflow)."
  },
  {
   "property": "C50",
   "status": "proved",
   "theorems": [
    "Trng.C50_bernoulli_extremes",
    "Trng.C50_bernoulli_law",
    "Trng.C50_bernoulli_threshold",
    "Trng.C50_bernoulli_pdf_cdf",
    "Trng.C50_bernoulli_same_wrong"
   ],
   "note": "pdf/cdf for head different from tail; for head == tail pdf is wrong (C50_bernoulli_same_wrong)."
  },
  {
   "property": "C51",
   "status": "proved",
   "theorems": [
    "Trng.C51_search",
    "Trng.C51_search_sorted"
   ],
   "note": "Also without sortedness. At x = table[0] the result is 1."
  },
  {
   "property": "C52",
   "status": "proved",
   "theorems": [
    "Trng.C52_discrete_exact",
    "Trng.C52_discrete_law",
    "Trng.C52_discrete_pdf_cdf"
   ],
   "note": "Exact arithmetic, as stated; the probability statement over the reals with Lebesgue measure. For rounding see C72."
  },
  {
   "property": "C53",
   "status": "partial",
   "theorems": [
    "Trng.C53_update_partial",
    "Trng.C53_history_partial",
    "Trng.C53_update_wrong"
   ],
   "note": "Proved, for every rounding, except for the last of an odd number (above 1) of weights, where the code reads past the end of the vector (C53_update_wrong)."
  },
  {
   "property": "C54",
   "status": "partial",
   "theorems": [
    "Trng.C54_fast_discrete_wrong",
    "Trng.C54_alias_partial"
   ],
   "note": "Refuted for the class as written (C54_fast_discrete_wrong: every sample is undefined); the alias construction and sampling are proved correct for the intended sizes (C54_alias_partial)."
  },
  {
   "property": "C55",
   "status": "partial",
   "theorems": [
    "Trng.C55_hypergeometric_actual",
    "Trng.C55_hypergeometric_partial",
    "Trng.C55_hypergeometric_wrong"
   ],
   "note": "Proved for d = m; what the code computes for other d is proved too (C55_hypergeometric_actual) and is wrong (C55_hypergeometric_wrong)."
  },
  {
   "property": "C56",
   "status": "partial",
   "theorems": [
    "Trng.C56_binomial_partial",
    "Trng.C56_binomial_ends_wrong"
   ],
   "note": "Proved for 0 < p < 1; false for p = 0 and p = 1 (C56_binomial_ends_wrong)."
  },
  {
   "property": "C57",
   "status": "proved",
   "theorems": [
    "Trng.C57_poisson",
    "Trng.C57_poisson_mean_zero_wrong",
    "Trng.C57_zero_truncated_poisson",
    "Trng.C57_negative_binomial"
   ],
   "note": "Poisson and zero-truncated Poisson for 0 < mu <= 2^30 - 1/2, negative binomial for 0 < p < 1, r > 0 if the table ends within int. The pdf of poisson_dist(0) at 0 is NaN (C57_poisson_mean_zero_wrong)."
  },
  {
   "property": "C58",
   "status": "partial",
   "theorems": [
    "Trng.C58_geometric_draw_partial",
    "Trng.C58_geometric_law",
    "Trng.C58_geometric_overflow_wrong"
   ],
   "note": "Proved for deviates whose k fits into int; otherwise the conversion is undefined (C58_geometric_overflow_wrong)."
  },
  {
   "property": "C59",
   "status": "proved",
   "theorems": [
    "Trng.C59_exponential",
    "Trng.C59_twosided_exponential",
    "Trng.C59_uniform01",
    "Trng.C59_uniform",
    "Trng.C59_tent",
    "Trng.C59_pareto",
    "Trng.C59_weibull",
    "Trng.C59_logistic",
    "Trng.C59_extreme_value",
    "Trng.C59_cauchy",
    "Trng.C59_rayleigh",
    "Trng.C59_powerlaw"
   ],
   "note": "All twelve distributions, uniform01 included."
  },
  {
   "property": "C60",
   "status": "partial",
   "theorems": [
    "Trng.C60_exponential",
    "Trng.C60_twosided_exponential",
    "Trng.C60_uniform01",
    "Trng.C60_uniform",
    "Trng.C60_tent",
    "Trng.C60_pareto",
    "Trng.C60_weibull",
    "Trng.C60_logistic",
    "Trng.C60_extreme_value",
    "Trng.C60_cauchy",
    "Trng.C60_rayleigh",
    "Trng.C60_powerlaw_partial",
    "Trng.C60_powerlaw_wrong",
    "Trng.C60_normal",
    "Trng.C60_lognormal",
    "Trng.C60_truncated_normal_partial",
    "Trng.C60_maxwell_partial",
    "Trng.C60_truncated_normal_wrong",
    "Trng.C60_maxwell_wrong"
   ],
   "note": "Derivative and integral form for eleven distributions; powerlaw_dist on its support only (C60_powerlaw_partial), below it pdf and cdf disagree (C60_powerlaw_wrong). normal and lognormal everywhere; truncated_normal and maxwell on the support (_partial), outside it false (_wrong)."
  },
  {
   "property": "C61",
   "status": "partial",
   "theorems": [
    "Trng.C61_exponential",
    "Trng.C61_twosided_exponential",
    "Trng.C61_uniform01",
    "Trng.C61_uniform",
    "Trng.C61_tent",
    "Trng.C61_pareto",
    "Trng.C61_weibull",
    "Trng.C61_logistic",
    "Trng.C61_extreme_value",
    "Trng.C61_cauchy",
    "Trng.C61_rayleigh",
    "Trng.C61_powerlaw_wrong",
    "Trng.C61_powerlaw_partial",
    "Trng.C61_normal",
    "Trng.C61_lognormal",
    "Trng.C61_truncated_normal_partial",
    "Trng.C61_maxwell_partial",
    "Trng.C61_truncated_normal_wrong",
    "Trng.C61_maxwell_wrong"
   ],
   "note": "Proved for eleven distributions, with the limits and the values at the infinities; and for normal and lognormal; false outside the support for powerlaw_dist, truncated_normal_dist and maxwell_dist (_wrong), which are right on the support (_partial)."
  },
  {
   "property": "C62",
   "status": "partial",
   "theorems": [
    "Trng.C62_exponential",
    "Trng.C62_twosided_exponential",
    "Trng.C62_uniform01",
    "Trng.C62_uniform",
    "Trng.C62_tent",
    "Trng.C62_pareto",
    "Trng.C62_weibull",
    "Trng.C62_logistic",
    "Trng.C62_extreme_value",
    "Trng.C62_cauchy",
    "Trng.C62_rayleigh",
    "Trng.C62_powerlaw_partial"
   ],
   "note": "Proved for eleven distributions; powerlaw_dist outside (0,theta), where its cdf is wrong."
  },
  {
   "property": "C63",
   "status": "partial",
   "theorems": [
    "Trng.C63_exponential",
    "Trng.C63_twosided_exponential",
    "Trng.C63_uniform01",
    "Trng.C63_uniform",
    "Trng.C63_tent",
    "Trng.C63_logistic",
    "Trng.C63_rayleigh",
    "Trng.C63_pareto_partial",
    "Trng.C63_powerlaw_partial",
    "Trng.C63_extreme_value_partial",
    "Trng.C63_cauchy_partial",
    "Trng.C63_weibull_partial",
    "Trng.C63_ends_wrong",
    "Trng.C63_normal",
    "Trng.C63_lognormal",
    "Trng.C63_maxwell",
    "Trng.C63_truncated_normal_wrong"
   ],
   "note": "NaN outside [0,1] and for NaN proved for all; at 0 and 1 proved for ten distributions (normal, lognormal, maxwell included), truncated_normal_dist does not check its argument (C63_truncated_normal_wrong), false for pareto, powerlaw, extreme value, Cauchy and (at 1) Weibull (C63_ends_wrong)."
  },
  {
   "property": "C64",
   "status": "proved",
   "theorems": [
    "Trng.Correlated.C64_factorisation",
    "Trng.Correlated.C64_vectors",
    "Trng.Correlated.C64_law",
    "Trng.Correlated.C64_param_call_wrong",
    "Trng.Correlated.C64_param_wrong",
    "Trng.Correlated.C64_default_wrong",
    "Trng.Correlated.C64_semidefinite_wrong"
   ],
   "note": "Factorisation, vectors of d calls, buffer length and the law (multivariate normal with covariance V) for every dimension and every positive definite matrix, exact arithmetic and an exact inverse normal distribution function.  Beyond the property: param(P) inside a vector, a default parameter object, the call with a parameter object and singular matrices misbehave (the _wrong theorems)."
  },
  {
   "property": "C65",
   "status": "partial",
   "theorems": [
    "Trng.C65_lcg64_shift_block_splitting",
    "Trng.C65_count_shift_block_splitting_partial",
    "Trng.C65_count_shift_block_splitting_wrong",
    "Trng.C65_count128_block_splitting",
    "Trng.C65_minstd_block_splitting_partial",
    "Trng.C65_minstd_block_splitting_wrong",
    "Trng.C65_mt_block_splitting",
    "Trng.C65_lcg64_leapfrog",
    "Trng.C65_lcg64_shift_leapfrog",
    "Trng.C65_count_shift_leapfrog",
    "Trng.C65_count128_leapfrog",
    "Trng.C65_mrg_leapfrog",
    "Trng.C65_yarn_leapfrog",
    "Trng.C65_lcg64_block_splitting",
    "Trng.C65_lagfib_block_splitting_partial",
    "Trng.C65_mrg_block_splitting",
    "Trng.C65_xoshiro_block_splitting"
   ],
   "note": "Block splitting and leapfrog proved for every engine; limits: lagged Fibonacci blocks of at least two values (discard(1) is wrong, C34), lcg64_count_shift up to 2^61 values, minstd up to 2^31-3, beyond which the _wrong theorems show blocks with wrong values."
  },
  {
   "property": "C66",
   "status": "proved",
   "theorems": [
    "Trng.C66_mt19937_seed",
    "Trng.C66_mt19937_64_seed",
    "Trng.C66_lcg64_seed_forgets",
    "Trng.C66_lcg64_seed_distinct",
    "Trng.C66_lcg64_seedGen_state",
    "Trng.C66_lcg64_seedGen_distinct",
    "Trng.C66_count128_states_distinct",
    "Trng.C66_count128_seed_distinct",
    "Trng.C66_xoshiro_seed_forgets"
   ],
   "note": "Also for mt19937 (seeds count modulo 2^32) and mt19937_64; xoshiro256plus: history forgotten."
  },
  {
   "property": "C67",
   "status": "proved",
   "theorems": [
    "Trng.C67_mrg_tuples"
   ],
   "note": ""
  },
  {
   "property": "C68",
   "status": "proved",
   "theorems": [
    "Trng.C68_lagfib_xor_period",
    "Trng.C68_lagfib_xor_zero"
   ],
   "note": ""
  },
  {
   "property": "C69",
   "status": "proved",
   "theorems": [
    "Trng.C69_lagfib_plus_period",
    "Trng.C69_lagfib_plus_low_bit"
   ],
   "note": ""
  },
  {
   "property": "C70",
   "status": "proved",
   "theorems": [
    "Trng.C70_uniformco_monotone",
    "Trng.C70_uniformco_accuracy"
   ],
   "note": ""
  },
  {
   "property": "C71",
   "status": "partial",
   "theorems": [
    "Trng.C71_uniform_dist_partial",
    "Trng.C71_uniform_dist_zero",
    "Trng.C71_uniform_dist_upper_wrong"
   ],
   "note": "Proved: samples lie in [a,b], below b if a = 0. False: b itself can be returned (C71_uniform_dist_upper_wrong)."
  },
  {
   "property": "C72",
   "status": "partial",
   "theorems": [
    "Trng.C72_discrete_float_partial",
    "Trng.C72_discrete_rounding_wrong"
   ],
   "note": "Proved for weights that are integer multiples of a power of two with a sum of at most 2^p of them; false in general (C72_discrete_rounding_wrong)."
  },
  {
   "property": "C73",
   "status": "proved",
   "theorems": [
    "Trng.C73_maxwell",
    "Trng.C73_maxwell_relative_wrong",
    "Trng.C73_normal",
    "Trng.C73_lognormal",
    "Trng.C73_truncated_normal",
    "Trng.C73_normal_code",
    "Trng.C73_lognormal_code",
    "Trng.C73_truncated_normal_code"
   ],
   "note": "Exact real arithmetic; the error d of inv_Phi is a parameter in the general theorems; the theorems named _code have the inv_Phi of the library, d = 1e-15 for float and double, 1e-45 for long double. maxwell_dist: absolute error; the relative error for tiny arguments is unbounded (F44, C73_maxwell_relative_wrong)."
  },
  {
   "property": "C74",
   "status": "proved",
   "theorems": [
    "Trng.C74_Phi",
    "Trng.C74_inv_Phi_domain",
    "Trng.C74_inv_erf_domain",
    "Trng.C74_inv_erfc_domain",
    "Trng.C74_inv_Phi_step",
    "Trng.C74_inv_erf_step",
    "Trng.C74_inv_erfc_step",
    "Trng.C74_inv_Phi",
    "Trng.C74_approximation",
    "Trng.C74_inv_Phi_accuracy",
    "Trng.C74_inv_Phi_inverts",
    "Trng.C74_inv_erf_accuracy",
    "Trng.C74_inv_erfc_accuracy"
   ],
   "note": "Exact real arithmetic: rounding of the polynomials and of exp and erf is not modelled. Accuracy of inv_Phi, inv_erf and inv_erfc with the coefficients of the code: relative to the nearer end down to 2^-1074 (2^-1073), absolute on the whole interval."
  },
  {
   "property": "C75",
   "status": "proved",
   "theorems": [
    "Trng.C75_mt19937_period",
    "Trng.C75_mt19937_64_period",
    "Trng.C75_mt19937_seeded",
    "Trng.C75_mt19937_64_seeded",
    "Trng.C75_mt19937_equidistributed",
    "Trng.C75_mt19937_64_equidistributed",
    "Trng.C75_mt19937_object",
    "Trng.C75_mt19937_64_object"
   ],
   "note": ""
  },
  {
   "property": "C76",
   "status": "partial",
   "theorems": [
    "Trng.Props.C76_beta",
    "Trng.Props.C76_beta_domain",
    "Trng.Props.C76_pochhammer_partial",
    "Trng.Props.C76_pochhammer_wrong",
    "Trng.Props.C76_log_wrong",
    "Trng.Props.C76_root",
    "Trng.Props.C76_mln1p"
   ],
   "note": "Beta, mln1p, sqrt(r,x) proved; Pochhammer for positive arguments, false for negative ones (C76_pochhammer_wrong); log(b,x) is wrong (C76_log_wrong)."
  },
  {
   "property": "C77",
   "status": "partial",
   "theorems": [
    "Trng.Props.C77_accuracy_partial",
    "Trng.Props.C77_ends",
    "Trng.Props.C77_domain",
    "Trng.Props.C77_nan_wrong"
   ],
   "note": "Proved for p, q below 2^30 with a ratio below 2^24, relative to the tail that is summed; NaN arguments are undefined behaviour (C77_nan_wrong). Exact arithmetic."
  },
  {
   "property": "C78",
   "status": "partial",
   "theorems": [
    "Trng.Props.C78_range",
    "Trng.Props.C78_inverse_partial",
    "Trng.Props.C78_symmetric",
    "Trng.Props.C78_hang_wrong"
   ],
   "note": "Range and termination without rounding for all parameters (C78_range); the inverse property for p = q >= 1 (C78_symmetric) and on one side for all p, q >= 1, with an exact Beta_I; with rounding the inner loop can run forever (C78_hang_wrong)."
  },
  {
   "property": "C79",
   "status": "partial",
   "theorems": [
    "Trng.Props.C79_beta",
    "Trng.Props.C79_student",
    "Trng.Props.C79_snedecor",
    "Trng.Props.C79_inverse_partial",
    "Trng.Props.C79_student_inverse",
    "Trng.Props.C79_symmetric_partial",
    "Trng.Props.C79_set",
    "Trng.Props.C79_eq_wrong",
    "Trng.Props.C79_tails_wrong",
    "Trng.Props.C79_infinity_wrong",
    "Trng.Props.C79_snedecor_wrong",
    "Trng.Props.C79_ends_wrong",
    "Trng.Props.C79_hang_wrong"
   ],
   "note": "Density and distribution function for all parameters with an exact Beta_I; inverse and law of the samples from the inverse property of inv_Beta_I, which C78 gives for student_t_dist with nu >= 2 and for equal parameters; the _wrong theorems list what fails."
  },
  {
   "property": "C80",
   "status": "partial",
   "theorems": [
    "Trng.Props.C80_domain",
    "Trng.Props.C80_series_partial",
    "Trng.Props.C80_fraction_partial",
    "Trng.Props.C80_near_partial",
    "Trng.Props.C80_incomplete_partial",
    "Trng.Props.C80_zero",
    "Trng.Props.C80_small_wrong",
    "Trng.Props.C80_many_wrong",
    "Trng.Props.C80_fraction_wrong",
    "Trng.Props.C80_infinity_wrong"
   ],
   "note": "Exact arithmetic; asymptotic expansion (a > digits10 with x near a): C93; series for 4 eps <= x < a+1, fraction for x >= a+2 to a few eps, between to 1e-10 (double). The _wrong theorems: x < 4 eps, large a without regularisation, truncation near a+1, infinity."
  },
  {
   "property": "C81",
   "status": "partial",
   "theorems": [
    "Trng.Props.C81_range",
    "Trng.Props.C81_monotone_partial",
    "Trng.Props.C81_accuracy_partial",
    "Trng.Props.C81_tiny_wrong",
    "Trng.Props.C81_zero_wrong"
   ],
   "note": "Range for all a > 0 and any GammaP with values; for a >= 1 and an exact GammaP the iteration is monotone and, given enough turns, accurate to 2 eps^(3/2) a (a+y)^2. The _wrong theorems: p = 0, tiny p."
  },
  {
   "property": "C82",
   "status": "partial",
   "theorems": [
    "Trng.Props.C82_gamma",
    "Trng.Props.C82_chi_square",
    "Trng.Props.C82_same",
    "Trng.Props.C82_inverse_partial",
    "Trng.Props.C82_samples_partial",
    "Trng.Props.C82_zero_wrong",
    "Trng.Props.C82_ends_wrong",
    "Trng.Props.C82_pdf_wrong",
    "Trng.Props.C82_infinity_wrong"
   ],
   "note": "Density and distribution function for all parameters with an exact GammaP; inverse and law of the samples from the inverse property of inv_GammaP; samples are positive numbers with the functions of the library for kappa <= digits10. The _wrong theorems list what fails."
  },
  {
   "property": "C83",
   "status": "partial",
   "theorems": [
    "Trng.C83_pi_sequential",
    "Trng.C83_pi_block",
    "Trng.C83_pi_tbb",
    "Trng.C83_pi_leap",
    "Trng.C83_pi_leap_cuda_actual",
    "Trng.C83_pi_leap_cuda_partial",
    "Trng.C83_pi_leap_cuda_wrong",
    "Trng.C83_percolation_partial",
    "Trng.C83_percolation_wrong",
    "Trng.C83_percolation_fine",
    "Trng.C83_sections"
   ],
   "note": "All eleven programs, any number of processes; pi_leap_cuda only if the number of threads divides the number of points, otherwise it looks at other points (C83_pi_leap_cuda_actual, C83_pi_leap_cuda_wrong); site_percolation_embarrassing needs size * Nx * Ny < 2^31, beyond which an int overflows (C83_percolation_wrong). The parallel runtimes are represented by what they promise."
  },
  {
   "property": "C84",
   "status": "partial",
   "theorems": [
    "Trng.C84_format_partial",
    "Trng.C84_round_trip_partial",
    "Trng.C84_near_partial",
    "Trng.C84_param_round_trip_partial",
    "Trng.C84_literals",
    "Trng.C84_rounding",
    "Trng.C84_twosided_exponential_wrong",
    "Trng.C84_fast_discrete_wrong",
    "Trng.C84_small_wrong",
    "Trng.C84_digits_wrong",
    "Trng.C84_infinite_wrong",
    "Trng.C84_precision_wrong",
    "Trng.C84_width_wrong"
   ],
   "note": "All 32 distributions except twosided_exponential_dist and fast_discrete_dist, finite parameters: equality iff the parameters are decimal literals of the printed length (all values >= 1 are), otherwise an error of at most one unit of the last decimal. The rest is false of the code (_wrong)."
  },
  {
   "property": "C85",
   "status": "partial",
   "theorems": [
    "Trng.C85_read_partial",
    "Trng.C85_defined_partial",
    "Trng.C85_param_partial",
    "Trng.C85_accepts",
    "Trng.C85_truncated",
    "Trng.C85_other",
    "Trng.C85_bad_stream",
    "Trng.C85_undefined_wrong",
    "Trng.C85_dimension_wrong",
    "Trng.C85_unchecked_wrong"
   ],
   "note": "Complete for the 29 distributions with a fixed number of parameters; for the other three the code reads uninitialized variables (C85_undefined_wrong), and the statement is proved wherever the behaviour is defined."
  },
  {
   "property": "C86",
   "status": "partial",
   "theorems": [
    "Trng.DistObjects.C86_setters_partial",
    "Trng.DistObjects.C86_getters",
    "Trng.DistObjects.C86_history_partial",
    "Trng.DistObjects.C86_order_partial",
    "Trng.DistObjects.C86_history_default_partial",
    "Trng.DistObjects.C86_defined_partial",
    "Trng.DistObjects.C86_defined_poisson",
    "Trng.DistObjects.C86_default_partial",
    "Trng.DistObjects.C86_default_wrong",
    "Trng.DistObjects.C86_uniform_int_wrong",
    "Trng.DistObjects.C86_negative_binomial_wrong"
   ],
   "note": "Every setter and every history that ends leaves the object the constructor makes of the last values (28 classes; discrete_dist: C53). Partial because the code has undefined behaviour or endless loops on some histories: default constructors of five distributions (C86_default_wrong), uniform_int_dist (C86_uniform_int_wrong), negative_binomial_dist (C86_negative_binomial_wrong)."
  },
  {
   "property": "C87",
   "status": "partial",
   "theorems": [
    "Trng.DistObjects.C87_equal_partial",
    "Trng.DistObjects.C87_same",
    "Trng.DistObjects.C87_iff_partial",
    "Trng.DistObjects.C87_beta_wrong",
    "Trng.DistObjects.C87_discrete",
    "Trng.DistObjects.C87_fast_discrete",
    "Trng.DistObjects.C87_correlated_param",
    "Trng.DistObjects.C87_correlated_wrong"
   ],
   "note": "Proved for all classes but beta_dist (C87_beta_wrong) and the distribution objects of correlated_normal_dist, whose kept variates are not compared (C87_correlated_wrong). The model has a single zero; uniform_dist with equal infinite ends does not compare equal to itself (NaN difference)."
  },
  {
   "property": "C88",
   "status": "proved",
   "theorems": [
    "Trng.MRGWritten.C88_call",
    "Trng.MRGWritten.C88_jump",
    "Trng.MRGWritten.C88_split",
    "Trng.MRGWritten.C88_split_throws",
    "Trng.MRGWritten.C88_yarn",
    "Trng.MRGWritten.C88_backward",
    "Trng.MRGWritten.C88_seed",
    "Trng.MRGWritten.C88_seed_generator"
   ],
   "note": "All functions of the twelve engines as written (seeding by a generator for yarn5s, whose code differs: F10). Model/MRGWritten is generated from the text of the sources and equals the generic model."
  },
  {
   "property": "C89",
   "status": "proved",
   "theorems": [
    "Trng.C89_lcg64_split",
    "Trng.C89_lcg64_split_unchecked",
    "Trng.C89_count_shift_split",
    "Trng.C89_count_shift_split_unchecked",
    "Trng.C89_count128_split",
    "Trng.C89_count128_split_unchecked",
    "Trng.MRGWritten.C89_yarn",
    "Trng.MRGWritten.C89_split",
    "Trng.MRGWritten.C89_backward",
    "Trng.MRGWritten.C89_split_unchecked"
   ],
   "note": "Host and device builds agree for all valid arguments; what split does with invalid arguments on the device is stated in C89_split_unchecked."
  },
  {
   "property": "C90",
   "status": "proved",
   "theorems": [
    "Trng.Ising.C90_fill",
    "Trng.Ising.C90_get_set",
    "Trng.Ising.C90_wolffstep",
    "Trng.Ising.C90_source",
    "Trng.Ising.C90_energy",
    "Trng.Ising.C90_unfilled_wrong",
    "Trng.Ising.C90_main"
   ],
   "note": "The lattice, wolffstep and the loops of wolff_main of examples/Ising_model.cc. Without fill the step may not end (C90_unfilled_wrong)."
  },
  {
   "property": "C91",
   "status": "proved",
   "theorems": [
    "Trng.Ising.C91_probability",
    "Trng.Ising.C91_detailed_balance",
    "Trng.Ising.C91_stationary",
    "Trng.Ising.C91_irreducible",
    "Trng.Ising.C91_unique"
   ],
   "note": "All lattices and temperatures; exact arithmetic for the acceptance probability and ideal independent draws (C47-C51 say how far the draws of the library are from that)."
  },
  {
   "property": "C92",
   "status": "proved",
   "theorems": [
    "Trng.C92_count_shift_period",
    "Trng.C92_count_shift_uniform",
    "Trng.C92_count128_uniform",
    "Trng.C92_minstd_once",
    "Trng.C92_yarn_tuples",
    "Trng.C92_mrg_uniform",
    "Trng.C92_yarn_uniform",
    "Trng.C92_lagfib_bits",
    "Trng.C92_xoshiro_triples"
   ],
   "note": "lcg64 and lcg64_shift: C08; xoshiro256plus, single values: C41; Mersenne twister: C75. The mrg and yarn sets of half the maximal period (F-notes of C32) are not covered."
  },
  {
   "property": "C93",
   "status": "partial",
   "theorems": [
    "Trng.Props.C93_absolute",
    "Trng.Props.C93_sharp_partial",
    "Trng.Props.C93_relative_partial",
    "Trng.Props.C93_exceptions",
    "Trng.Props.C93_exception_wrong",
    "Trng.Props.C93_literals"
   ],
   "note": "Exact arithmetic with the literals of the code. Absolute error 1024 eps in the whole region; 2 eps, and 4096 eps relative for |x-a| >= a/32, unless a is one of finitely many exceptions (none for float, below 40 for double, below 55 for long double), where the sum ends early (C93_exception_wrong)."
  },
  {
   "property": "C94",
   "status": "partial",
   "theorems": [
    "Trng.Props.C94_total",
    "Trng.Props.C94_absolute_partial",
    "Trng.Props.C94_cdf_partial",
    "Trng.Props.C94_chi_square_cdf_partial",
    "Trng.Props.C94_samples_partial"
   ],
   "note": "Exact arithmetic, all regions together with the library's own asymptotic functions. Missing: a < 1 with 0 < x < 4 eps, where the result 0 is wrong (C80_small_wrong), the deviate 0 (C82_zero_wrong), infinity (C82_infinity_wrong)."
  },
  {
   "property": "C95",
   "status": "partial",
   "theorems": [
    "Trng.Props.C95_poisson_partial",
    "Trng.Props.C95_zero_truncated_poisson_partial",
    "Trng.Props.C95_negative_binomial_partial"
   ],
   "note": "Exact arithmetic, but with the truncated series, fractions and expansions of the library. Missing: that sampling ends for the deviates within the error of 1 when the mean exceeds 7 (and always for negative_binomial_dist); negative binomial distributions whose table is longer than about 2^20 or whose r is tiny."
  },
  {
   "property": "C96",
   "status": "partial",
   "theorems": [
    "Trng.Props.C96_machines",
    "Trng.Props.C96_exact",
    "Trng.Props.C96_exponential",
    "Trng.Props.C96_twosided",
    "Trng.Props.C96_tent",
    "Trng.Props.C96_pareto",
    "Trng.Props.C96_powerlaw",
    "Trng.Props.C96_weibull",
    "Trng.Props.C96_logistic",
    "Trng.Props.C96_extreme_value",
    "Trng.Props.C96_rayleigh",
    "Trng.Props.C96_cauchy_partial",
    "Trng.Props.C96_cauchy_increases",
    "Trng.Props.C96_cauchy_double",
    "Trng.Props.C96_truncated_normal_wrong"
   ],
   "note": "Rounded arithmetic with overflow and underflow, any monotone library. Samples of cauchy_dist are monotone for libraries with monotone sine and cosine (C96_cauchy_increases; double: C96_cauchy_double). Missing: truncated_normal_dist is wrong in the upper tail; uniform distributions are C71; normal_dist is C100; lognormal_dist and the distributions that iterate (gamma, beta, ...) are not covered."
  },
  {
   "property": "C97",
   "status": "partial",
   "theorems": [
    "Trng.Props.C97_exponential",
    "Trng.Props.C97_twosided",
    "Trng.Props.C97_pareto",
    "Trng.Props.C97_powerlaw_partial",
    "Trng.Props.C97_weibull",
    "Trng.Props.C97_weibull_wrong",
    "Trng.Props.C97_extreme_value",
    "Trng.Props.C97_lognormal",
    "Trng.Props.C97_logistic_partial",
    "Trng.Props.C97_logistic_wrong",
    "Trng.Props.C97_normal_partial",
    "Trng.Props.C97_normal_increases",
    "Trng.Props.C97_normal_double",
    "Trng.Props.C97_cauchy",
    "Trng.Props.C97_cauchy_double",
    "Trng.Props.C97_rayleigh_partial",
    "Trng.Props.C97_rayleigh_wrong",
    "Trng.Props.C97_tent_partial",
    "Trng.Props.C97_tent_increases",
    "Trng.Props.C97_moderate_double",
    "Trng.Props.C97_tent_wrong",
    "Trng.Props.C97_maxwell_wrong",
    "Trng.Props.C97_chi_square_wrong",
    "Trng.Props.C97_student_t_wrong"
   ],
   "note": "As C96. Monotony of cdf: proved for normal_dist<double>, and for tent_dist and rayleigh_dist with scales from 2^-500 to 2^500; it fails for logistic_dist (F81). Missing: normal_dist for other types without a condition at the joints; densities of the others; several functions give NaN after overflow or underflow (findings F75-F77)."
  },
  {
   "property": "C98",
   "status": "partial",
   "theorems": [
    "Trng.Props.C98_exact",
    "Trng.Props.C98_table_range",
    "Trng.Props.C98_geometric_partial",
    "Trng.Props.C98_geometric_wrong",
    "Trng.Props.C98_hypergeometric_wrong",
    "Trng.Props.C98_zero_truncated_poisson_large_wrong",
    "Trng.Props.C98_zero_truncated_poisson_small_wrong",
    "Trng.Props.C98_binomial",
    "Trng.Props.C98_hypergeometric_partial",
    "Trng.Props.C98_machine",
    "Trng.Props.C98_geometric_law"
   ],
   "note": "The range of samples is proved without assumptions on the arithmetic. The law does not survive rounding: hypergeometric_dist and zero_truncated_poisson_dist give constants for large parameters, zero_truncated_poisson_dist runs into overflow of int for small means, geometric_dist for small p (findings F78-F80). For moderate parameters the law is proved up to a bound on the error, except for zero_truncated_poisson_dist."
  },
  {
   "property": "C99",
   "status": "partial",
   "theorems": [
    "Trng.Dieharder.C99_file_partial",
    "Trng.Dieharder.C99_usage",
    "Trng.Dieharder.C99_seed_wrong",
    "Trng.Dieharder.C99_negative_wrong"
   ],
   "note": "Format, number and width of the values, and rejection of other command lines are proved. Wrong: the seed is printed but never given to the engine (F82); a negative number is accepted modulo 2^64 (F83). The text of the error message is not modelled."
  }
 ]
}
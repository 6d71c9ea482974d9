# property -> status (default "proved") and note
STATUS = {"C109": "partial", "C108": "partial", "C107": "partial", "C100": "partial", "C99": "partial", "C98": "partial", "C96": "partial", "C97": "partial", "C95": "partial", "C94": "partial", "C93": "partial", "C86": "partial", "C87": "partial", "C84": "partial", "C85": "partial", "C83": "partial", "C80": "partial", "C81": "partial", "C82": "partial", "C09": "partial", "C65": "partial", "C15": "partial", "C17": "partial", "C38": "partial",
          "C43": "partial", "C53": "partial", "C54": "partial", "C72": "partial", "C47": "partial", "C71": "partial",
          "C31": "partial", "C32": "partial", "C33": "proved", "C34": "partial",
          "C55": "partial", "C56": "partial", "C58": "partial",
          "C60": "partial", "C61": "partial", "C62": "partial", "C63": "partial",
          "C76": "partial", "C77": "partial", "C78": "partial", "C79": "partial"}
NOTE = {
"C88": "All functions of the twelve engines as written (seeding by a generator for yarn5s, whose code differs: F10). Model/MRGWritten is generated from the text of the sources and equals the generic model.",
"C89": "Host and device builds agree for all valid arguments; what split does with invalid arguments on the device is stated in C89_split_unchecked.",
"C86": "Every setter and every history that ends leaves the object the constructor makes of the last values (28 classes; discrete_dist: C53). Partial because the code has undefined behaviour or endless loops on some histories: default constructors of five distributions (C86_default_wrong), uniform_int_dist (C86_uniform_int_wrong), negative_binomial_dist (C86_negative_binomial_wrong).",
"C87": "Proved for all classes but beta_dist (C87_beta_wrong) and the distribution objects of correlated_normal_dist, whose kept variates are not compared (C87_correlated_wrong). The model has a single zero; uniform_dist with equal infinite ends does not compare equal to itself (NaN difference).",
"C41": "State period, output period, single cycle through all non-zero states, and the number of occurrences of every 64-bit output per period.",
"C09": "Proved for n < 2^61. False above (C09_count_shift_discard_wrong: discard(2^62) on a default engine; the multiplication modulo 2^61-1 gets an unreduced operand).",
"C12": "Histories with discard arguments below 2^61 (the range in which C09 holds) and jump2 exponents below 64.",
"C15": "The internal state agrees (C15_portable_state_partial); the output does not: portable hi() returns the low word, so the portable engine's output is constant (C15_portable_constant, C15_implementations_differ).",
"C17": "True exactly when the discarded count and its reduction modulo 2^31-3 agree modulo the period (C17_minstd_discard_iff); the code reduces modulo max-min, one less than the period (C17_minstd_discard_wrong).",
"C38": "Proved for lcg64, lcg64_shift, lcg64_count_shift, minstd, all mrg, yarn and lagged Fibonacci engines and xoshiro256plus. Refuted for mt19937 and mt19937_64, whose comparison ignores the position (C38_mt19937_eq_wrong, for every seed), and for count128_lcg_shift, whose comparison ignores the increment (C38_count128_eq_wrong).",
"C43": "Every operation is proved correct except the accessor hi(), which returns the low word (C43_hi_wrong).",
"C28": "All parameter vectors for 2-4 terms, built-in sets for the five-term engines. With other parameters the five-term engines fail (C28_mrg5_split_wrong).",
"C29": "Fallbacks proved for 2-4 terms; refuted for the five-term engines (C29_mrg5_backward_wrong).",
"C31": "False for yarn5s seeded from a generator (C31_yarn5s_seedGen_wrong); proved for everything else.",
"C32": "Proved for all sets that have the documented period (C32_mrg_period_partial); for the other built-in sets the actual period is proved (C32_mrg_period_wrong) or a much smaller recurrence time (C32_mrg4_LEcuyer2_wrong).",
"C33": "Holds for every set of lags whose largest is not a power of two; otherwise the first call is undefined (C33_lagfib_power_of_two_undefined).",
"C34": "Proved for every n except 1; discard(1) makes 2^64+1 steps (C34_lagfib_discard_one), which is wrong in every state with a non-zero (for plus: odd) word (C34_lagfib_discard_one_wrong).",
"C35": "The sequence depends on the seeding generator only; operator== still distinguishes re-seeded engines (C38_lagfib_reseeded_differs).",
"C36": "Also proved equal to the sequence the C++ standard prescribes for std::mt19937 and std::mt19937_64 with the same seed. Negative positions, which only operator>> can produce, make the next call undefined (C36_mt_negative_undefined).",
"C47": "Proved for uniformcc, uniformco, uniformoc, generate_canonical with any number of bits, and for uniformoo with every range max-min that has its three leading bits set or fits into p-2 bits, which covers all engines of the library (C47_uniformoo_library). For other ranges uniformoo can return 1 (C47_uniformoo_wrong).",
"C48": "Bounds up to 2^63-1.",
"C49": "Coverage (every value of [a,b) is returned) for engines that return every value of their range and ranges at least 32 times b-a. b-a beyond INT_MAX is undefined behaviour (C49_uniform_int_overflow).",
"C50": "pdf/cdf for head different from tail; for head == tail pdf is wrong (C50_bernoulli_same_wrong).",
"C51": "Also without sortedness. At x = table[0] the result is 1.",
"C45": "All engine types, all objects, any leading blanks, any continuation, field width 0 or 1. With a larger field width the text is not readable (C45_width_wrong).",
"C46": "For every stream: failure and unchanged object, or a complete text (Spec/Stream.lean). Beyond the property: values are not checked (_wrong).",
"C52": "Exact arithmetic, as stated; the probability statement over the reals with Lebesgue measure. For rounding see C72.",
"C53": "Proved, for every rounding, except for the last of an odd number (above 1) of weights, where the code reads past the end of the vector (C53_update_wrong).",
"C54": "Refuted for the class as written (C54_fast_discrete_wrong: every sample is undefined); the alias construction and sampling are proved correct for the intended sizes (C54_alias_partial).",
"C72": "Proved for weights that are integer multiples of a power of two with a sum of at most 2^p of them; false in general (C72_discrete_rounding_wrong).",
"C55": "Proved for d = m; what the code computes for other d is proved too (C55_hypergeometric_actual) and is wrong (C55_hypergeometric_wrong).",
"C56": "Proved for 0 < p < 1; false for p = 0 and p = 1 (C56_binomial_ends_wrong).",
"C57": "Poisson and zero-truncated Poisson for 0 < mu <= 2^30 - 1/2, negative binomial for 0 < p < 1, r > 0 if the table ends within int. The pdf of poisson_dist(0) at 0 is NaN (C57_poisson_mean_zero_wrong).",
"C58": "Proved for deviates whose k fits into int; otherwise the conversion is undefined (C58_geometric_overflow_wrong).",
"C59": "All twelve distributions, uniform01 included.",
"C60": "Derivative and integral form for eleven distributions; powerlaw_dist on its support only (C60_powerlaw_partial), below it pdf and cdf disagree (C60_powerlaw_wrong). normal and lognormal everywhere; truncated_normal and maxwell on the support (_partial), outside it false (_wrong).",
"C61": "Proved for eleven distributions, with the limits and the values at the infinities; and for normal and lognormal; false outside the support for powerlaw_dist, truncated_normal_dist and maxwell_dist (_wrong), which are right on the support (_partial).",
"C62": "Proved for eleven distributions; powerlaw_dist outside (0,theta), where its cdf is wrong.",
"C64": "Factorisation, vectors of d calls, buffer length and the law (multivariate normal with covariance V) for every dimension and every positive definite matrix, exact arithmetic and an exact inverse normal distribution function.  Beyond the property: param(P) inside a vector, a default parameter object, the call with a parameter object and singular matrices misbehave (the _wrong theorems).",
"C63": "NaN outside [0,1] and for NaN proved for all; at 0 and 1 proved for ten distributions (normal, lognormal, maxwell included), truncated_normal_dist does not check its argument (C63_truncated_normal_wrong), false for pareto, powerlaw, extreme value, Cauchy and (at 1) Weibull (C63_ends_wrong).",
"C73": "Exact real arithmetic; the error d of inv_Phi is a parameter in the general theorems; the theorems named _code have the inv_Phi of the library, d = 1e-15 for float and double, 1e-45 for long double. maxwell_dist: absolute error; the relative error for tiny arguments is unbounded (F44, C73_maxwell_relative_wrong).",
"C74": "Exact real arithmetic: rounding of the polynomials and of exp and erf is not modelled. Accuracy of inv_Phi, inv_erf and inv_erfc with the coefficients of the code: relative to the nearer end down to 2^-1074 (2^-1073), absolute on the whole interval.",
"C71": "Proved: samples lie in [a,b], below b if a = 0. False: b itself can be returned (C71_uniform_dist_upper_wrong).",
"C66": "Also for mt19937 (seeds count modulo 2^32) and mt19937_64; xoshiro256plus: history forgotten.",
"C65": "Block splitting and leapfrog proved for every engine; limits: lagged Fibonacci blocks of at least two values (discard(1) is wrong, C34), lcg64_count_shift up to 2^61 values, minstd up to 2^31-3, beyond which the _wrong theorems show blocks with wrong values.",
"C76": "Beta, mln1p, sqrt(r,x) proved; Pochhammer for positive arguments, false for negative ones (C76_pochhammer_wrong); log(b,x) is wrong (C76_log_wrong).",
"C77": "Proved for p, q below 2^30 with a ratio below 2^24, relative to the tail that is summed; NaN arguments are undefined behaviour (C77_nan_wrong). Exact arithmetic.",
"C78": "Range and termination without rounding for all parameters (C78_range); the inverse property for p = q >= 1 (C78_symmetric) and on one side for all p, q >= 1, with an exact Beta_I; with rounding the inner loop can run forever (C78_hang_wrong).",
"C79": "Density and distribution function for all parameters with an exact Beta_I; inverse and law of the samples from the inverse property of inv_Beta_I, which C78 gives for student_t_dist with nu >= 2 and for equal parameters; the _wrong theorems list what fails.",
"C80": "Exact arithmetic; asymptotic expansion (a > digits10 with x near a): C93; series for 4 eps <= x < a+1, fraction for x >= a+2 to a few eps, between to 1e-10 (double). The _wrong theorems: x < 4 eps, large a without regularisation, truncation near a+1, infinity.",
"C81": "Range for all a > 0 and any GammaP with values; for a >= 1 and an exact GammaP the iteration is monotone and, given enough turns, accurate to 2 eps^(3/2) a (a+y)^2. The _wrong theorems: p = 0, tiny p.",
"C82": "Density and distribution function for all parameters with an exact GammaP; inverse and law of the samples from the inverse property of inv_GammaP; samples are positive numbers with the functions of the library for kappa <= digits10. The _wrong theorems list what fails.",
"C84": "All 32 distributions except twosided_exponential_dist and fast_discrete_dist, finite parameters: equality iff the parameters are decimal literals of the printed length (all values >= 1 are), otherwise an error of at most one unit of the last decimal. The rest is false of the code (_wrong).",
"C85": "Complete for the 29 distributions with a fixed number of parameters; for the other three the code reads uninitialized variables (C85_undefined_wrong), and the statement is proved wherever the behaviour is defined.",
"C83": "All eleven programs, any number of processes; pi_leap_cuda only if the number of threads divides the number of points, otherwise it looks at other points (C83_pi_leap_cuda_actual, C83_pi_leap_cuda_wrong); site_percolation_embarrassing needs size * Nx * Ny < 2^31, beyond which an int overflows (C83_percolation_wrong). The parallel runtimes are represented by what they promise.",
"C90": "The lattice, wolffstep and the loops of wolff_main of examples/Ising_model.cc. Without fill the step may not end (C90_unfilled_wrong).",
"C92": "lcg64 and lcg64_shift: C08; xoshiro256plus, single values: C41; Mersenne twister: C75. The mrg and yarn sets of half the maximal period (F-notes of C32) are not covered.",
"C91": "All lattices and temperatures; exact arithmetic for the acceptance probability and ideal independent draws (C47-C51 say how far the draws of the library are from that).",
"C94": "Exact arithmetic, all regions together with the library's own asymptotic functions. Missing: a < 1 with 0 < x < 4 eps, where the result 0 is wrong (C80_small_wrong), the deviate 0 (C82_zero_wrong), infinity (C82_infinity_wrong).",
"C96": "Rounded arithmetic with overflow and underflow, any monotone library. Samples of cauchy_dist are monotone for libraries with monotone sine and cosine (C96_cauchy_increases; double: C96_cauchy_double). Missing: truncated_normal_dist is wrong in the upper tail; uniform distributions are C71; normal_dist is C100; lognormal_dist and the distributions that iterate (gamma, beta, ...) are not covered.",
"C98": "The range of samples is proved without assumptions on the arithmetic. The law does not survive rounding: hypergeometric_dist and zero_truncated_poisson_dist give constants for large parameters, zero_truncated_poisson_dist runs into overflow of int for small means, geometric_dist for small p (findings F78-F80). For moderate parameters the law is proved up to a bound on the error, except for zero_truncated_poisson_dist.",
"C99": "Format, number and width of the values, and rejection of other command lines are proved. Wrong: the seed is printed but never given to the engine (F82); a negative number is accepted modulo 2^64 (F83). The text of the error message is not modelled.",
"C101": "The whole chain from the engine over the rounded deviates to the rounded sampling function. Of the lagged Fibonacci engines those with ^ are covered by C111, those with + not: their values are not known to be equally frequent. The other continuous distributions of the library (maxwell, truncated normal, gamma, beta, chi-square, Student t, Snedecor F) are not in the claim.",
"C102": "The chain from the engine over the rounded deviate to the integer. The weights of C102_discrete are those for which the tree of discrete_dist has no rounding error (C72). hypergeometric_dist is right only if d = m (C55).",
"C103": "Engines with a proved full period. For mrg and yarn engines and an s with a common divisor only the streams together are claimed here; C110 has each of them; C103_lcg64_wrong: even s (F85).",
"C111": "The condition on the state is shown for all default constructed engines and n = 1 (C111_default), and for an explicit state and n = 3; not for other seeds. Engines with + are not covered, but for the lowest bit (C92).",
"C110": "The bound says something if g < sqrt(m^(n-d)); with mrg2 and yarn2 only for single values. Parameter sets of half the period: C106. More than two successive numbers of one stream need s < m.",
"C109": "Without --split the program always ends with an uncaught exception (C109_split_wrong), an unknown generator is not reported (C109_generator_wrong). The report in exact arithmetic; the text of messages and report is not modelled.",
"C108": "Stated with the out-of-range samples that rounding permits for deviates within 2^-43 of 1 (C72_discrete_rounding_wrong); exponent range of double unbounded, as everywhere. cdf does not decrease between indices (C108_cdf_monotone_partial) but can exceed 1 at the last one and be 1 afterwards (C108_cdf_wrong).",
"C107": "Proved for all programs but time_plain, whose int sum overflows for all mrg and yarn engines (C107_time_plain_wrong; C107_time_plain_partial says when it is right). std::shuffle and the clock are not modelled.",
"C106": "Which of the squares and the non-squares are the more frequent depends on the state and is not determined. That 1/sqrt(m^(n-d)) is the true order is shown for d = 1 only (C106_frequency).",
"C105": "Parameter sets of full period only. C105_seed_wrong, C105_jump_wrong and C105_jump2_wrong: three seeded engines are never independent (F86), mrg2 and yarn2 after jump2(31) are proportional (F87). Streams of split with a number of streams that has a divisor in common with the period (every even number): C110.",
"C104": "Distributions and parameters of C101 and C102. C104_lcg64_wrong: 2^64 calls are too few for equally frequent pairs. count128_lcg_shift, lcg64_count_shift and the lagged Fibonacci engines with +: not claimed for n > 1; those with ^: C111.",
"C100": "double with a C library of relative error at most 2^-50, all normal numbers in (0,1); NaN from 2^-1032 on down (F84), the subnormal numbers above that are not covered. Other number types, inv_erf and inv_erfc are not covered. Monotony is not claimed.",
"C97": "As C96. Monotony of cdf: proved for normal_dist<double>, and for tent_dist and rayleigh_dist with scales from 2^-500 to 2^500; it fails for logistic_dist (F81). Missing: normal_dist for other types without a condition at the joints; densities of the others; several functions give NaN after overflow or underflow (findings F75-F77).",
"C95": "Exact arithmetic, but with the truncated series, fractions and expansions of the library. Missing: that sampling ends for the deviates within the error of 1 when the mean exceeds 7 (and always for negative_binomial_dist); negative binomial distributions whose table is longer than about 2^20 or whose r is tiny.",
"C93": "Exact arithmetic with the literals of the code. Absolute error 1024 eps in the whole region; 2 eps, and 4096 eps relative for |x-a| >= a/32, unless a is one of finitely many exceptions (none for float, below 40 for double, below 55 for long double), where the sum ends early (C93_exception_wrong).",
}

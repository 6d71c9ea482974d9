{"id": "C01", "title": "lcg64/lcg64_shift: discard(n) is n calls", "statement": "For lcg64 and lcg64_shift, e.discard(n) (and e.jump(n)) leaves the engine in exactly the state that n calls of operator() would leave it in, so all later outputs agree.", "quantifier": "every multiplier a, every addend b, every 64-bit state, every n in [0, 2^64)", "why_tests_cant": "2^64 step counts times 2^192 parameter/state combinations; the test-suite compares two values of n for the default parameters.", "anchors": [{"file": "trng/lcg64.hpp", "symbols": ["lcg64::jump", "lcg64::jump2", "lcg64::pow", "lcg64::f", "lcg64::g", "lcg64::discard"]}, {"file": "trng/lcg64_shift.hpp", "symbols": ["lcg64_shift::jump", "lcg64_shift::jump2", "lcg64_shift::discard"]}]}
{"id": "C02", "title": "lcg64/lcg64_shift: jump2(s) is 2^s calls", "statement": "e.jump2(s) advances the engine by exactly 2^s calls of operator() for every s < 64; for s >= 64 the shift 1ull<<s is undefined behaviour.", "quantifier": "every a, b, state and every s", "why_tests_cant": "2^s calls cannot be executed for large s, so a test can never compare against the definition.", "anchors": [{"file": "trng/lcg64.hpp", "symbols": ["lcg64::jump2"]}, {"file": "trng/lcg64_shift.hpp", "symbols": ["lcg64_shift::jump2"]}, {"file": "trng/lcg64_count_shift.hpp", "symbols": ["lcg64_count_shift::jump2"]}]}
{"id": "C03", "title": "lcg64/lcg64_shift: split is leapfrog", "statement": "After e.split(s,n) with 0 <= n < s, the k-th call of e() returns what the (k*s+n)-th call on the unsplit engine would have returned, for every k >= 0.", "quantifier": "every odd multiplier, every addend, every state, every s >= 1, n < s, every k (no bound)", "why_tests_cant": "All outputs for all stream counts; tests check s <= 20 with default parameters.", "anchors": [{"file": "trng/lcg64.hpp", "symbols": ["lcg64::split", "lcg64::backward"]}, {"file": "trng/lcg64_shift.hpp", "symbols": ["lcg64_shift::split", "lcg64_shift::backward"]}]}
{"id": "C04", "title": "lcg64/lcg64_shift: leapfrog needs an odd multiplier", "statement": "If the user supplies an even multiplier, split(s,n) with s >= 2 does not produce the leapfrog subsequence (the internal one-step-back cannot invert the recurrence); the requirement 'a odd' in C03 is sharp.", "quantifier": "existence of an even multiplier and a state for which the first output after split differs", "why_tests_cant": "Tests only use the built-in odd multipliers.", "anchors": [{"file": "trng/lcg64.hpp", "symbols": ["lcg64::backward", "lcg64::split"]}]}
{"id": "C05", "title": "leapfrog streams partition the sequence", "statement": "The s engines obtained from copies of e by split(s,0),...,split(s,s-1) deliver every element of e's output sequence exactly once: for every index i there is exactly one stream j and one position k with stream_j[k] = the i-th call, namely j = i mod s, k = i / s, whatever the order in which the streams are consumed.", "quantifier": "every s >= 1, every index, every schedule (interleaving) of calls on the s streams", "why_tests_cant": "Schedules and indices are unbounded.", "anchors": [{"file": "trng/lcg64.hpp", "symbols": ["lcg64::split"]}, {"file": "trng/lcg64_shift.hpp", "symbols": ["lcg64_shift::split"]}, {"file": "trng/lcg64_count_shift.hpp", "symbols": ["lcg64_count_shift::split"]}, {"file": "trng/count128_lcg_shift.hpp", "symbols": ["count128_lcg_shift::split"]}, {"file": "trng/mrg3.hpp", "symbols": ["mrg3::split"]}]}
{"id": "C06", "title": "split validates its arguments", "statement": "split(s,n) throws std::invalid_argument exactly when s < 1 or n >= s, and in that case leaves the engine unchanged; split(1,0) leaves the engine unchanged.", "quantifier": "every engine family that has split, every s, n, every state", "why_tests_cant": "The whole 32x32-bit argument space.", "anchors": [{"file": "trng/lcg64.hpp", "symbols": ["lcg64::split"]}, {"file": "trng/lcg64_count_shift.hpp", "symbols": ["lcg64_count_shift::split"]}, {"file": "trng/count128_lcg_shift.hpp", "symbols": ["count128_lcg_shift::split"]}, {"file": "trng/mrg3.hpp", "symbols": ["mrg3::split"]}, {"file": "trng/yarn3.hpp", "symbols": ["yarn3::split"]}]}
{"id": "C07", "title": "nested splits compose", "statement": "Splitting twice, split(s1,n1) followed by split(s2,n2), gives the same output sequence as the single split(s1*s2, n1 + n2*s1).", "quantifier": "every s1,n1,s2,n2, every state; every odd multiplier (lcg64), every parameter set for which split is leapfrog (mrg, yarn)", "why_tests_cant": "unbounded sequences, all parameters", "anchors": [{"file": "trng/lcg64.hpp", "symbols": ["lcg64::split"]}, {"file": "trng/lcg64_shift.hpp", "symbols": ["lcg64_shift::split"]}, {"file": "trng/mrg3.hpp", "symbols": ["mrg3::split"]}]}
{"id": "C08", "title": "lcg64_shift family: default parameter sets have full period", "statement": "With an odd addend and a multiplier congruent 1 mod 4 (all four built-in parameter sets), the lcg64 and lcg64_shift sequences have period exactly 2^64 from every state, and within one period every 64-bit value is produced exactly once.", "quantifier": "every state, every parameter set with a = 1 mod 4 and b odd", "why_tests_cant": "2^64 calls cannot be run.", "anchors": [{"file": "trng/lcg64.hpp", "symbols": ["lcg64::step", "lcg64::Default"]}, {"file": "trng/lcg64_shift.hpp", "symbols": ["lcg64_shift::operator()"]}, {"file": "trng/lcg64.cc", "symbols": ["lcg64::Default", "lcg64::LEcuyer1", "lcg64::LEcuyer2", "lcg64::LEcuyer3"]}]}
{"id": "C09", "title": "lcg64_count_shift: discard(n) is n calls", "statement": "For lcg64_count_shift, discard(n)/jump(n) leaves the engine in the state that n calls would leave it in.", "quantifier": "every multiplier, addend, increment < 2^61-1, every valid state, every n in [0,2^64); false for some n beyond 2^61 (counter-example recorded), proved for n < 2^61-1", "why_tests_cant": "n ranges over 2^64 values; the failing ones are far above anything a test can step through.", "anchors": [{"file": "trng/lcg64_count_shift.hpp", "symbols": ["lcg64_count_shift::jump", "lcg64_count_shift::mult_modulo", "lcg64_count_shift::jump2"]}]}
{"id": "C10", "title": "lcg64_count_shift: jump2(s) is 2^s calls", "statement": "For lcg64_count_shift, jump2(s) equals 2^s calls for every s < 64.", "quantifier": "every parameter set with increment < 2^61-1, every valid state, every s < 64", "why_tests_cant": "2^63 calls cannot be run.", "anchors": [{"file": "trng/lcg64_count_shift.hpp", "symbols": ["lcg64_count_shift::jump2", "lcg64_count_shift::mult_modulo"]}]}
{"id": "C11", "title": "lcg64_count_shift: split is leapfrog", "statement": "After split(s,n), 0 <= n < s, the k-th call returns the (k*s+n)-th output of the unsplit engine, and the internal counter stays below 2^61-1.", "quantifier": "every odd multiplier, addend, increment < 2^61-1, valid state, s, n < s, k", "why_tests_cant": "unbounded outputs, all parameters", "anchors": [{"file": "trng/lcg64_count_shift.hpp", "symbols": ["lcg64_count_shift::split", "lcg64_count_shift::backward"]}]}
{"id": "C12", "title": "lcg64_count_shift: counter invariant", "statement": "From any constructor or seed, every sequence of operations (calls, discard in its valid range, jump2, split, backward) keeps the counter in [0, 2^61-1) so that no addition in the counter update overflows 64 bits.", "quantifier": "every history of operations", "why_tests_cant": "histories are unbounded", "anchors": [{"file": "trng/lcg64_count_shift.hpp", "symbols": ["lcg64_count_shift::step", "lcg64_count_shift::jump", "lcg64_count_shift::jump2", "lcg64_count_shift::split", "lcg64_count_shift::backward"]}, {"file": "trng/lcg64_count_shift.cc", "symbols": ["lcg64_count_shift::seed"]}]}
{"id": "C13", "title": "count128_lcg_shift: discard, jump2 and split", "statement": "For count128_lcg_shift, discard(n) equals n calls for every n, jump2(s) equals 2^s calls for every s < 128, and after split(s,n) the k-th call returns the (k*s+n)-th output of the unsplit engine.", "quantifier": "every increment, a, b, every 128-bit state, every n, s, k", "why_tests_cant": "2^128 states, unbounded outputs", "anchors": [{"file": "trng/count128_lcg_shift.hpp", "symbols": ["count128_lcg_shift::jump", "count128_lcg_shift::jump2", "count128_lcg_shift::split", "count128_lcg_shift::backward"]}]}
{"id": "C14", "title": "count128_lcg_shift: full period 2^128", "statement": "With an odd increment and an odd multiplier (the built-in sets) the state sequence and the output sequence both have period exactly 2^128, from every state.", "quantifier": "every state, every odd increment", "why_tests_cant": "2^128 calls", "anchors": [{"file": "trng/count128_lcg_shift.hpp", "symbols": ["count128_lcg_shift::step"]}, {"file": "trng/count128_lcg_shift.cc", "symbols": ["count128_lcg_shift::Default"]}]}
{"id": "C15", "title": "count128_lcg_shift does not depend on the 128-bit integer implementation", "statement": "The output sequence is the same whether the library is built with the native or with its own portable 128-bit integers. (False: the portable hi() returns the low word, which makes every output equal to the same constant.)", "quantifier": "every state and parameter set", "why_tests_cant": "CI platforms have native 128-bit integers so the portable build is never exercised.", "anchors": [{"file": "trng/uint128.hpp", "symbols": ["portable_impl::hi", "portable_impl::lo"]}, {"file": "trng/count128_lcg_shift.hpp", "symbols": ["count128_lcg_shift::operator()"]}]}
{"id": "C16", "title": "minstd: recurrence and range", "statement": "minstd's call computes r <- 16807*r mod (2^31-1) by shift/add/one conditional subtraction; starting from any seed value the state is in [1, 2^31-2], stays there forever and the output is never outside [min(), max()].", "quantifier": "every seed, every number of calls", "why_tests_cant": "2^31 states and unbounded histories", "anchors": [{"file": "trng/minstd.hpp", "symbols": ["minstd::step", "minstd::operator()"]}, {"file": "trng/minstd.cc", "symbols": ["minstd::seed"]}]}
{"id": "C17", "title": "minstd: discard(n) is n calls", "statement": "minstd::discard(n) equals n calls. (False for n >= 2147483645: n is reduced modulo max()-min(), one less than the period.)", "quantifier": "every state, every n in [0,2^64)", "why_tests_cant": "large n cannot be stepped in a test for all n; the off-by-one only shows for n >= 2^31-3.", "anchors": [{"file": "trng/minstd.hpp", "symbols": ["minstd::discard"]}]}
{"id": "C18", "title": "minstd: period is exactly 2^31-2", "statement": "From every seed, minstd visits all 2147483646 admissible states before repeating.", "quantifier": "every valid state", "why_tests_cant": "needs number theory, or 2^31 steps for each state", "anchors": [{"file": "trng/minstd.hpp", "symbols": ["minstd::step"]}]}
{"id": "C19", "title": "modular reduction without division", "statement": "int_math::modulo<m,r>(x) returns x mod m for each modulus and term count used by the engines, for every 64-bit x that the engines can pass to it.", "quantifier": "m in {2147483647, 2147462579, 2147461007}, r in 1..5, every admissible x < 2^64", "why_tests_cant": "up to 2^64 values of x", "anchors": [{"file": "trng/int_math.hpp", "symbols": ["int_math::modulo", "int_math::modulo_helper", "int_math::mask"]}]}
{"id": "C20", "title": "modulo_inverse", "statement": "modulo_inverse(a,m) for a >= 1, m >= 2: if it returns x then 0 <= x < m and a*x = 1 mod m, it returns whenever gcd(a,m)=1 and throws whenever gcd(a,m) != 1; it throws on a <= 0 or m <= 1. It always terminates.", "quantifier": "every a and m in the 31-bit range", "why_tests_cant": "2^62 argument pairs", "anchors": [{"file": "trng/int_math.hpp", "symbols": ["int_math::modulo_inverse"]}]}
{"id": "C21", "title": "Gaussian elimination modulo a prime is sound", "statement": "If int_math::gauss<n>(a,b,m) returns, the returned vector x has entries in [0,m) and satisfies A x = b modulo m.", "quantifier": "every n, every n x n matrix and right hand side with entries in [0,m), every prime m", "why_tests_cant": "unbounded matrix space", "anchors": [{"file": "trng/int_math.hpp", "symbols": ["int_math::gauss"]}]}
{"id": "C22", "title": "Gaussian elimination modulo a prime is complete for invertible systems", "statement": "gauss<n> never throws when A is invertible modulo the prime m; it may throw for singular systems although they are solvable (witness recorded).", "quantifier": "every n, every invertible matrix, every prime m", "why_tests_cant": "unbounded matrix space", "anchors": [{"file": "trng/int_math.hpp", "symbols": ["int_math::gauss"]}]}
{"id": "C23", "title": "modular matrix products", "statement": "matrix_mult<n> and matrix_vec_mult<n> return the product modulo m with entries in [0,m), without intermediate overflow.", "quantifier": "every n, m <= 2^31, entries in [0,m)", "why_tests_cant": "unbounded", "anchors": [{"file": "trng/int_math.hpp", "symbols": ["int_math::matrix_mult", "int_math::matrix_vec_mult"]}]}
{"id": "C24", "title": "integer logarithms", "statement": "log2_floor(x) = floor(log2 x) for x >= 1, log2_ceil(x) = ceil(log2 x), ceil2(x) is the smallest power of two >= x and mask(x) = 2^(floor(log2 x)+1) - 1.", "quantifier": "every positive x", "why_tests_cant": "all 64-bit x", "anchors": [{"file": "trng/int_math.hpp", "symbols": ["int_math::log2_floor", "int_math::log2_ceil", "int_math::ceil2", "int_math::mask", "int_math::pow2"]}]}
{"id": "C25", "title": "table-driven powers", "statement": "int_math::power<m,b>()(n) = b^n mod m for every n in [0, 2^31) and both table look-ups are in bounds.", "quantifier": "m, b as used by the yarn engines, every n < 2^31", "why_tests_cant": "2^31 exponents times 6 engines", "anchors": [{"file": "trng/int_math.hpp", "symbols": ["int_math::power"]}]}
{"id": "C26", "title": "mrg engines: recurrence and range", "statement": "Each call of mrg2..mrg5, mrg3s, mrg5s returns (a1 x_{i-1} + ... + an x_{i-n}) mod m, is in [0, m), and the computation does not overflow.", "quantifier": "every parameter vector and state with entries in [0,m), every number of calls", "why_tests_cant": "m^n states", "anchors": [{"file": "trng/mrg2.hpp", "symbols": ["mrg2::step"]}, {"file": "trng/mrg3.hpp", "symbols": ["mrg3::step"]}, {"file": "trng/mrg3s.hpp", "symbols": ["mrg3s::step"]}, {"file": "trng/mrg4.hpp", "symbols": ["mrg4::step"]}, {"file": "trng/mrg5.hpp", "symbols": ["mrg5::step"]}, {"file": "trng/mrg5s.hpp", "symbols": ["mrg5s::step"]}]}
{"id": "C27", "title": "mrg/yarn engines: discard(n) and jump2(s)", "statement": "For every mrg and yarn engine discard(n) equals n calls and jump2(s) equals 2^s calls.", "quantifier": "every parameter vector and state in range, every n in [0,2^64), every s", "why_tests_cant": "2^64 step counts, m^n states", "anchors": [{"file": "trng/mrg3.hpp", "symbols": ["mrg3::jump", "mrg3::jump2"]}, {"file": "trng/mrg5.hpp", "symbols": ["mrg5::jump", "mrg5::jump2"]}, {"file": "trng/yarn3.hpp", "symbols": ["yarn3::jump", "yarn3::jump2"]}]}
{"id": "C28", "title": "mrg/yarn engines: split is leapfrog", "statement": "After split(s,n), 0 <= n < s, the k-th call of an mrg or yarn engine returns the (k*s+n)-th output of the unsplit engine.", "quantifier": "every s, n, k and every state; for the engines with two to four terms every parameter vector in [0,m), for the five-term engines every built-in parameter set (false for other parameters of the five-term engines, counter-example recorded)", "why_tests_cant": "unbounded; the linear system solved inside split can be singular for special states", "anchors": [{"file": "trng/mrg3.hpp", "symbols": ["mrg3::split", "mrg3::backward"]}, {"file": "trng/mrg5.hpp", "symbols": ["mrg5::split", "mrg5::backward"]}, {"file": "trng/yarn3.hpp", "symbols": ["yarn3::split"]}]}
{"id": "C29", "title": "mrg/yarn engines: one step back", "statement": "The step back used by split inverts one call: for a non-zero last coefficient stepping back after a call restores the engine, and calling after a step back restores the engine; for vanishing trailing coefficients it extends the sequence backwards according to the recurrence (the latter in the engines with two to four terms; all fallbacks of the five-term engines use a window that is off by one, counter-example recorded). It never throws or has undefined behaviour.", "quantifier": "every parameter vector and state in range", "why_tests_cant": "m^n states; fallbacks need degenerate parameters", "anchors": [{"file": "trng/mrg3.hpp", "symbols": ["mrg3::backward"]}, {"file": "trng/mrg5.hpp", "symbols": ["mrg5::backward"]}, {"file": "trng/mrg5s.hpp", "symbols": ["mrg5s::backward"]}, {"file": "trng/yarn5.hpp", "symbols": ["yarn5::backward"]}, {"file": "trng/yarn5s.hpp", "symbols": ["yarn5s::backward"]}]}
{"id": "C30", "title": "yarn output function", "statement": "A yarn engine returns 0 when the underlying linear sequence is 0 and g^x mod m otherwise, always in [0,m), and because g generates the multiplicative group the output map is a permutation of [0,m).", "quantifier": "every state; six engines", "why_tests_cant": "2^31 values per engine", "anchors": [{"file": "trng/yarn2.hpp", "symbols": ["yarn2::operator()", "yarn2::gen"]}, {"file": "trng/yarn3s.hpp", "symbols": ["yarn3s::operator()"]}, {"file": "trng/yarn5s.hpp", "symbols": ["yarn5s::operator()"]}]}
{"id": "C31", "title": "seeding yields valid states", "statement": "Every seed overload of the mrg and yarn engines produces a state with all entries in [0,m), namely the residues of the seeds. (False for yarn5s seeded from a generator.)", "quantifier": "every seed value, every behaviour of the seeding generator", "why_tests_cant": "2^64 seeds, arbitrary generators", "anchors": [{"file": "trng/mrg3.hpp", "symbols": ["mrg3::seed"]}, {"file": "trng/mrg3.cc", "symbols": ["mrg3::seed"]}, {"file": "trng/yarn5s.hpp", "symbols": ["yarn5s::seed"]}, {"file": "trng/yarn5s.cc", "symbols": ["yarn5s::seed"]}]}
{"id": "C32", "title": "mrg/yarn parameter sets have maximal period", "statement": "Every built-in parameter set of the mrg and yarn engines gives the documented period m^n - 1 from every non-zero state.", "quantifier": "every built-in parameter set, every non-zero state (false for the defaults of mrg3s, yarn3s, mrg5s, yarn5s, whose period is (m^n-1)/2, and for LEcuyer2 of mrg4/yarn4, whose states recur after m^2-1 calls)", "why_tests_cant": "periods up to 2^155", "anchors": [{"file": "trng/mrg2.cc", "symbols": ["mrg2::LEcuyer1"]}, {"file": "trng/mrg3s.cc", "symbols": ["mrg3s::trng0"]}, {"file": "trng/mrg5s.cc", "symbols": ["mrg5s::trng0"]}]}
{"id": "C33", "title": "lagged Fibonacci engines: recurrence and memory safety", "statement": "Each call of lagfib2plus/2xor/4plus/4xor returns the lag combination of the values returned 'lag' calls earlier (x_i = x_{i-A} op x_{i-B} [op ...]); all ring accesses stay in bounds when the largest lag is not a power of two. (For a power-of-two largest lag the ring is too small.)", "quantifier": "every element type width, every lags A < B, every seed, every number of calls", "why_tests_cant": "template parameters and histories are unbounded", "anchors": [{"file": "trng/lagfib2plus.hpp", "symbols": ["lagfib2plus::step"]}, {"file": "trng/lagfib2xor.hpp", "symbols": ["lagfib2xor::step"]}, {"file": "trng/lagfib4plus.hpp", "symbols": ["lagfib4plus::step"]}, {"file": "trng/lagfib4xor.hpp", "symbols": ["lagfib4xor::step"]}, {"file": "trng/int_math.hpp", "symbols": ["int_math::ceil2", "int_math::mask"]}]}
{"id": "C34", "title": "lagged Fibonacci engines: discard(n) is n calls", "statement": "discard(n) leaves the engine producing the same outputs as after n calls. (False for n = 1: the pivot 0 sends it into the matrix branch with a wrapped-around exponent.)", "quantifier": "every lag set, every state, every n in [0,2^64)", "why_tests_cant": "the matrix branch is entered only for n beyond the values tests use", "anchors": [{"file": "trng/lagfib2plus.hpp", "symbols": ["lagfib2plus::discard"]}, {"file": "trng/lagfib2xor.hpp", "symbols": ["lagfib2xor::discard"]}, {"file": "trng/lagfib4plus.hpp", "symbols": ["lagfib4plus::discard"]}, {"file": "trng/lagfib4xor.hpp", "symbols": ["lagfib4xor::discard"]}]}
{"id": "C35", "title": "lagged Fibonacci engines: seeding determines the sequence", "statement": "After seed(g) the output sequence depends only on the seeding generator, not on the engine's earlier history.", "quantifier": "every earlier history, every seeding generator", "why_tests_cant": "histories unbounded", "anchors": [{"file": "trng/lagfib2plus.hpp", "symbols": ["lagfib2plus::seed"]}, {"file": "trng/lagfib2xor.hpp", "symbols": ["lagfib2xor::seed"]}]}
{"id": "C36", "title": "Mersenne twister: recurrence and memory safety", "statement": "mt19937 and mt19937_64 return the tempered terms of the defining linear recurrence x_{k+N} = x_{k+M} xor twist(x_k, x_{k+1}), for every seed and any number of calls; no array access leaves the state array.", "quantifier": "every seed, every number of calls", "why_tests_cant": "2^19937 states", "anchors": [{"file": "trng/mt19937.hpp", "symbols": ["mt19937::operator()"]}, {"file": "trng/mt19937_64.hpp", "symbols": ["mt19937_64::operator()"]}]}
{"id": "C37", "title": "Mersenne twister: discard and tempering", "statement": "discard(n) equals n calls; the tempering transform is a bijection of the word, so no output value is unreachable.", "quantifier": "every n, every word", "why_tests_cant": "2^64 words", "anchors": [{"file": "trng/mt19937.hpp", "symbols": ["mt19937::discard", "mt19937::operator()"]}, {"file": "trng/mt19937_64.hpp", "symbols": ["mt19937_64::discard"]}]}
{"id": "C38", "title": "engine equality implies equal futures", "statement": "If a == b for two engines of the same type, then a and b produce the same outputs forever. (False for mt19937, mt19937_64, whose comparison ignores the position, and for count128_lcg_shift, whose comparison ignores the increment.)", "quantifier": "every engine type, every pair of engines", "why_tests_cant": "all pairs of states, infinite futures", "anchors": [{"file": "trng/mt19937.hpp", "symbols": ["operator=="]}, {"file": "trng/mt19937_64.hpp", "symbols": ["operator=="]}, {"file": "trng/count128_lcg_shift.hpp", "symbols": ["operator=="]}, {"file": "trng/lcg64.hpp", "symbols": ["operator=="]}, {"file": "trng/mrg3.hpp", "symbols": ["operator=="]}]}
{"id": "C39", "title": "xoshiro256plus: transition is an invertible linear map that never reaches zero", "statement": "The state transition is linear over GF(2) and bijective; the all-zero state is never reached from a non-zero one, and no seed leads to the zero state.", "quantifier": "every 256-bit state, every seed, every number of calls", "why_tests_cant": "2^256 states", "anchors": [{"file": "trng/xoshiro256plus.hpp", "symbols": ["xoshiro256plus::step", "xoshiro256plus::seed"]}, {"file": "trng/xoshiro256plus.cc", "symbols": ["xoshiro256plus::seed"]}]}
{"id": "C40", "title": "xoshiro256plus: discard(n) and jump2(s)", "statement": "discard(n) equals n calls and jump2(s) equals 2^s calls, through the 256x256 GF(2) matrix power.", "quantifier": "every state, every n in [0,2^64), every s", "why_tests_cant": "2^256 states", "anchors": [{"file": "trng/xoshiro256plus.hpp", "symbols": ["xoshiro256plus::jump", "xoshiro256plus::jump2", "xoshiro256plus::discard"]}, {"file": "trng/linear_algebra.hpp", "symbols": ["power", "operator*"]}]}
{"id": "C41", "title": "xoshiro256plus: period 2^256-1", "statement": "From every non-zero state the period is exactly 2^256-1.", "quantifier": "every non-zero state", "why_tests_cant": "2^256 steps", "anchors": [{"file": "trng/xoshiro256plus.hpp", "symbols": ["xoshiro256plus::step"]}]}
{"id": "C42", "title": "linear algebra", "statement": "The blocked matrix product equals the mathematical product, matrix-vector product likewise, and power(a,m) equals a multiplied m times, for every scalar ring used (integers mod 2^w and GF(2)).", "quantifier": "every dimension, every matrix, every exponent", "why_tests_cant": "unbounded dimensions", "anchors": [{"file": "trng/linear_algebra.hpp", "symbols": ["matrix", "vector", "power", "GF2"]}]}
{"id": "C43", "title": "portable 128-bit integers: arithmetic", "statement": "The portable uint128 computes +, -, *, /, %, ++, --, comparisons, &, |, ^, ~, << and >> exactly as unsigned integers modulo 2^128 (shift counts in (-128,128), divisor non-zero).", "quantifier": "every pair of 128-bit operands and every shift count", "why_tests_cant": "2^256 operand pairs", "anchors": [{"file": "trng/uint128.hpp", "symbols": ["portable_impl"]}]}
{"id": "C44", "title": "128-bit integers: text round trip", "statement": "Writing a uint128 in decimal, octal or hexadecimal (with or without showbase) and reading it back with the same base yields the same value; digits that would exceed 2^128-1 set failbit instead of wrapping.", "quantifier": "every 128-bit value, base", "why_tests_cant": "2^128 values", "anchors": [{"file": "trng/uint128.hpp", "symbols": ["impl::operator<<", "impl::operator>>"]}]}
{"id": "C45", "title": "engine text round trip", "statement": "For every engine, writing an engine to a stream and reading it back into any engine object of that type yields an engine equal to the original with the same future outputs, and consumes exactly the written characters.", "quantifier": "every engine type, every parameter set and state, every continuation of the stream", "why_tests_cant": "state spaces are astronomically large", "anchors": [{"file": "trng/lcg64.hpp", "symbols": ["operator<<", "operator>>"]}, {"file": "trng/mrg3.hpp", "symbols": ["operator<<", "operator>>"]}, {"file": "trng/mt19937.hpp", "symbols": ["operator<<", "operator>>"]}, {"file": "trng/utility.hpp", "symbols": ["utility::delim_str", "utility::delim_c", "utility::ignore_spaces_cl"]}]}
{"id": "C46", "title": "failed reads leave the engine unchanged", "statement": "Reading an engine from text that is not a complete serialisation of that engine type sets failbit and leaves the target engine unmodified.", "quantifier": "every input text", "why_tests_cant": "all strings", "anchors": [{"file": "trng/lcg64.hpp", "symbols": ["operator>>"]}, {"file": "trng/mrg_parameter.hpp", "symbols": ["operator>>"]}, {"file": "trng/mrg_status.hpp", "symbols": ["operator>>"]}, {"file": "trng/mt19937.hpp", "symbols": ["operator>>"]}]}
{"id": "C47", "title": "uniform deviates stay in their interval", "statement": "uniformcc returns values in [0,1], uniformco in [0,1), uniformoc in (0,1], uniformoo in (0,1), for every output of every engine, under floating-point rounding.", "quantifier": "every engine output value; float, double, long double; any monotone rounding that is exact on representable values", "why_tests_cant": "up to 2^64 outputs per engine and type; rounding at the borders", "anchors": [{"file": "trng/uniformxx.hpp", "symbols": ["u01xx_traits", "uniformcc", "uniformco", "uniformoc", "uniformoo"]}]}
{"id": "C48", "title": "bounded integers from an engine", "statement": "r(x) for a bound x > 0 returns an integer in [0,x) for every engine output, in spite of floating-point rounding.", "quantifier": "every bound in the representable range, every engine output", "why_tests_cant": "2^64 outputs times 2^63 bounds", "anchors": [{"file": "trng/lcg64.hpp", "symbols": ["lcg64::operator()(long)"]}, {"file": "trng/uniformxx.hpp", "symbols": ["uniformco"]}]}
{"id": "C49", "title": "uniform_int_dist range and coverage", "statement": "uniform_int_dist(a,b) returns integers in [a,b) and pdf/cdf are those of the uniform law on [a,b); for b-a beyond INT_MAX the constructor overflows.", "quantifier": "every a < b, every engine output", "why_tests_cant": "2^64 parameter pairs", "anchors": [{"file": "trng/uniform_int_dist.hpp", "symbols": ["uniform_int_dist::operator()", "uniform_int_dist::pdf", "uniform_int_dist::cdf"]}]}
{"id": "C50", "title": "bernoulli_dist", "statement": "bernoulli_dist(p) returns head exactly when the uniform deviate is below p; p = 0 never gives head, p = 1 never gives tail; pdf and cdf agree with that law.", "quantifier": "every p in [0,1], every deviate in [0,1)", "why_tests_cant": "continuum of parameters", "anchors": [{"file": "trng/bernoulli_dist.hpp", "symbols": ["bernoulli_dist::operator()", "bernoulli_dist::pdf", "bernoulli_dist::cdf"]}]}
{"id": "C51", "title": "cumulative table search", "statement": "utility::discrete(x, first, last) on a non-empty non-decreasing table returns 0 for x < table[0] and otherwise the least index i >= 1 with x <= table[i] (so table[i-1] < x <= table[i] for i >= 2), or the last index if there is none; it never leaves the table and terminates.", "quantifier": "every table length, every table, every x", "why_tests_cant": "unbounded table sizes", "anchors": [{"file": "trng/utility.hpp", "symbols": ["utility::discrete"]}]}
{"id": "C52", "title": "discrete_dist: sampling follows the weights", "statement": "For weights p_0..p_{N-1} >= 0 with positive sum, discrete_dist maps a deviate u in [0, sum) to the unique k with p_0+..+p_{k-1} <= u < p_0+..+p_k (so 0 <= k < N and p_k > 0), hence each k has a set of deviates of length exactly p_k.", "quantifier": "every N, every weight vector, every deviate (exact arithmetic)", "why_tests_cant": "unbounded N, continuum of weights", "anchors": [{"file": "trng/discrete_dist.hpp", "symbols": ["discrete_dist::operator()", "discrete_dist::param_type"]}]}
{"id": "C53", "title": "discrete_dist: weight update", "statement": "param(x,p) followed by sampling behaves as a distribution freshly constructed from the updated weights. (Reads past the end of the tree for odd N > 1 and the last index.)", "quantifier": "every N, weights, index, sequence of updates", "why_tests_cant": "unbounded histories", "anchors": [{"file": "trng/discrete_dist.hpp", "symbols": ["discrete_dist::param", "discrete_dist::param_type::update_all_layers"]}]}
{"id": "C54", "title": "fast_discrete_dist: alias method", "statement": "fast_discrete_dist gives each k probability p_k / sum. (False as written: the constructor sizes its tables from a moved-from vector and every sample indexes an empty table; the alias construction itself, fed with the intended sizes, is correct.)", "quantifier": "every N, every weight vector (exact arithmetic)", "why_tests_cant": "unbounded N; the class is not covered by the test-suite at all", "anchors": [{"file": "trng/fast_discrete_dist.hpp", "symbols": ["fast_discrete_dist::param_type", "fast_discrete_dist::operator()"]}]}
{"id": "C55", "title": "hypergeometric_dist: probabilities", "statement": "hypergeometric_dist(n,m,d) gives x the probability C(m,x) C(n-m,d-x) / C(n,d). (False unless d = m: the code uses C(n-m, m-x).)", "quantifier": "every n, m, d, x", "why_tests_cant": "the only tested instance has d = m", "anchors": [{"file": "trng/hypergeometric_dist.hpp", "symbols": ["hypergeometric_dist::param_type::calc_probabilities", "hypergeometric_dist::pdf"]}]}
{"id": "C56", "title": "binomial_dist: probabilities", "statement": "binomial_dist(p,n) gives x the probability C(n,x) p^x (1-p)^(n-x) and its samples lie in [0,n]. (With p = 0 every table entry is NaN and the sample is n.)", "quantifier": "every n, every p in [0,1]", "why_tests_cant": "continuum of parameters", "anchors": [{"file": "trng/binomial_dist.hpp", "symbols": ["binomial_dist::param_type::calc_probabilities", "binomial_dist::operator()"]}]}
{"id": "C57", "title": "poisson-type samplers", "statement": "poisson_dist, zero_truncated_poisson_dist and negative_binomial_dist map a deviate p to the least k with p <= cdf(k) (up to ties at table entries), independent of where the precomputed table ends; the tail loop terminates in exact arithmetic; the result has the probabilities of the distribution, which pdf and cdf report, as long as it fits into an int; zero_truncated_poisson_dist never returns 0.", "quantifier": "every cdf, every table length, every deviate in [0,1)", "why_tests_cant": "continuum of parameters and unbounded tails", "anchors": [{"file": "trng/poisson_dist.hpp", "symbols": ["poisson_dist::operator()"]}, {"file": "trng/zero_truncated_poisson_dist.hpp", "symbols": ["zero_truncated_poisson_dist::operator()"]}, {"file": "trng/negative_binomial_dist.hpp", "symbols": ["negative_binomial_dist::operator()"]}]}
{"id": "C58", "title": "geometric_dist", "statement": "geometric_dist(p) maps a deviate u in (0,1) to the unique k >= 0 with q^(k+1) < u <= q^k, q = 1-p, hence P(k) = p q^k, and cdf is the sum of pdf. (False if k is beyond INT_MAX: the conversion is undefined.)", "quantifier": "every p in (0,1), every deviate (exact arithmetic)", "why_tests_cant": "continuum of parameters", "anchors": [{"file": "trng/geometric_dist.hpp", "symbols": ["geometric_dist::operator()", "geometric_dist::pdf", "geometric_dist::cdf"]}]}
{"id": "C59", "title": "continuous distributions: icdf is the inverse of cdf", "statement": "For exponential, two-sided exponential, uniform, tent, pareto, powerlaw, weibull, logistic, extreme value, Cauchy and Rayleigh distributions, icdf(u) is a point of the support with cdf(icdf(u)) = u for u in (0,1) and icdf(cdf(x)) = x on the interior of the support.", "quantifier": "every admissible parameter, every u (exact real arithmetic)", "why_tests_cant": "continuum of parameters and arguments", "anchors": [{"file": "trng/exponential_dist.hpp", "symbols": ["exponential_dist::cdf", "exponential_dist::icdf"]}, {"file": "trng/weibull_dist.hpp", "symbols": ["weibull_dist::icdf"]}, {"file": "trng/tent_dist.hpp", "symbols": ["tent_dist::icdf"]}, {"file": "trng/cauchy_dist.hpp", "symbols": ["cauchy_dist::icdf"]}]}
{"id": "C60", "title": "continuous distributions: pdf is the derivative of cdf", "statement": "For the closed-form distributions and the normal, lognormal, truncated normal and Maxwell distributions pdf is non-negative and the derivative of cdf at every point except the ends of the support, and cdf(x) is the integral of pdf up to x. (False outside the support for powerlaw_dist, truncated_normal_dist and maxwell_dist.)", "quantifier": "every admissible parameter, every x (exact real arithmetic)", "why_tests_cant": "continuum", "anchors": [{"file": "trng/exponential_dist.hpp", "symbols": ["exponential_dist::pdf"]}, {"file": "trng/logistic_dist.hpp", "symbols": ["logistic_dist::pdf"]}, {"file": "trng/extreme_value_dist.hpp", "symbols": ["extreme_value_dist::pdf"]}, {"file": "trng/rayleigh_dist.hpp", "symbols": ["rayleigh_dist::pdf"]}]}
{"id": "C61", "title": "continuous distributions: cdf is a probability", "statement": "cdf(x) is non-decreasing, lies in [0,1] for every real x, is 0 below and 1 above the support and has the limits 0 and 1. (False for powerlaw_dist, negative between 0 and theta, and for maxwell_dist and truncated_normal_dist, which do not clip.)", "quantifier": "every admissible parameter, every x", "why_tests_cant": "continuum", "anchors": [{"file": "trng/powerlaw_dist.hpp", "symbols": ["powerlaw_dist::cdf"]}, {"file": "trng/maxwell_dist.hpp", "symbols": ["maxwell_dist::cdf"]}, {"file": "trng/truncated_normal_dist.hpp", "symbols": ["truncated_normal_dist::cdf"]}]}
{"id": "C62", "title": "continuous distributions: samples follow the cdf", "statement": "The sampling transform T of each closed-form distribution, applied to a uniform deviate, satisfies P(T(u) <= x) = cdf(x): {u : T(u) <= x} is an interval of length cdf(x) for every x; samples lie in [min(), max()].", "quantifier": "every admissible parameter, every x (exact real arithmetic)", "why_tests_cant": "continuum", "anchors": [{"file": "trng/exponential_dist.hpp", "symbols": ["exponential_dist::operator()"]}, {"file": "trng/pareto_dist.hpp", "symbols": ["pareto_dist::operator()"]}, {"file": "trng/powerlaw_dist.hpp", "symbols": ["powerlaw_dist::operator()"]}, {"file": "trng/weibull_dist.hpp", "symbols": ["weibull_dist::operator()"]}, {"file": "trng/extreme_value_dist.hpp", "symbols": ["extreme_value_dist::operator()"]}]}
{"id": "C63", "title": "icdf domain checks", "statement": "icdf returns NaN outside [0,1] and for NaN, and the ends of the support at 0 and 1. (False at the end points for several distributions, which reject them although they contain code to handle them, and outside [0,1] for truncated_normal_dist.)", "quantifier": "every distribution, every argument", "why_tests_cant": "continuum", "anchors": [{"file": "trng/exponential_dist.hpp", "symbols": ["exponential_dist::icdf"]}, {"file": "trng/pareto_dist.hpp", "symbols": ["pareto_dist::icdf"]}, {"file": "trng/cauchy_dist.hpp", "symbols": ["cauchy_dist::icdf"]}]}
{"id": "C64", "title": "correlated_normal_dist: covariance", "statement": "For a symmetric positive definite matrix V the in-place factorisation yields a lower triangular H with H H^T = V, so d consecutive outputs are H times a vector of independent standard normals; exactly d calls form one vector and the internal buffer never exceeds d.", "quantifier": "every dimension, every symmetric positive definite matrix (exact arithmetic), every number of calls", "why_tests_cant": "unbounded dimension", "anchors": [{"file": "trng/correlated_normal_dist.hpp", "symbols": ["correlated_normal_dist::param_type::Cholesky_factorization", "correlated_normal_dist::operator()"]}]}
{"id": "C65", "title": "Ising/percolation-style block splitting", "statement": "Block splitting with jump and leapfrog with split agree: the concatenation, over ranks, of blocks taken after jump(rank*blocksize) is the sequential sequence, so results of a parallel program are independent of the number of processes.", "quantifier": "every number of processes, every block size, every engine with jump", "why_tests_cant": "all process counts and lengths", "anchors": [{"file": "trng/lcg64.hpp", "symbols": ["lcg64::jump"]}, {"file": "trng/mrg3.hpp", "symbols": ["mrg3::jump"]}, {"file": "trng/lcg64_count_shift.hpp", "symbols": ["lcg64_count_shift::jump"]}]}
{"id": "C66", "title": "seeding forgets the history and separates seeds", "statement": "Seeding an lcg64-type or count128 engine gives a state that depends on the seed only, never on what the engine did before; two different seeds give engines whose output sequences differ.", "quantifier": "every engine history, every pair of seed values, every seeding generator", "why_tests_cant": "2^64 seed values and all pairs of them", "anchors": [{"file": "trng/lcg64.hpp", "symbols": ["lcg64", "seed"]}, {"file": "trng/lcg64.cc", "symbols": ["lcg64", "seed"]}, {"file": "trng/lcg64_shift.hpp", "symbols": ["lcg64_shift", "seed"]}, {"file": "trng/count128_lcg_shift.cc", "symbols": ["count128_lcg_shift", "seed"]}]}
{"id": "C67", "title": "mrg engines: equidistribution of n-tuples", "statement": "In the sequence of an mrg engine with n terms and a parameter set of maximal period, every n-tuple of numbers in [0,m), except the zero tuple, occurs exactly once per period as n consecutive outputs.", "quantifier": "every non-zero state, every non-zero n-tuple, every parameter set of maximal period", "why_tests_cant": "m^n - 1 tuples, up to 2^155", "anchors": [{"file": "trng/mrg2.hpp", "symbols": ["mrg2::operator()"]}, {"file": "trng/mrg3.hpp", "symbols": ["mrg3::operator()"]}, {"file": "trng/mrg5s.hpp", "symbols": ["mrg5s::operator()"]}]}
{"id": "C68", "title": "lagged Fibonacci engines with xor: period", "statement": "A predefined lagged Fibonacci engine with ^ and largest lag L that holds a non-zero word among its last L words repeats its outputs with period exactly 2^L-1; with only zero words it returns 0 for ever.", "quantifier": "every predefined lag set, every word size, every state", "why_tests_cant": "periods from 2^250 to 2^19937", "anchors": [{"file": "trng/lagfib2xor.hpp", "symbols": ["lagfib2xor::operator()", "lagfib2xor::step"]}, {"file": "trng/lagfib4xor.hpp", "symbols": ["lagfib4xor::operator()", "lagfib4xor::step"]}]}
{"id": "C69", "title": "lagged Fibonacci engines with plus: period", "statement": "A predefined lagged Fibonacci engine with + on w-bit words and largest lag L that holds an odd word among its last L words repeats its outputs with period exactly 2^(w-1)(2^L-1); the lowest bit of the outputs alone has period 2^L-1.", "quantifier": "every predefined lag set, every word size, every state", "why_tests_cant": "periods from 2^552 to 2^20000", "anchors": [{"file": "trng/lagfib2plus.hpp", "symbols": ["lagfib2plus::operator()", "lagfib2plus::step"]}, {"file": "trng/lagfib4plus.hpp", "symbols": ["lagfib4plus::operator()", "lagfib4plus::step"]}]}
{"id": "C70", "title": "uniform deviates follow the engine's output", "statement": "uniformco of an engine result x is within 8/(max-min)+16*2^-p of (x-min)/(max-min), where p is the number of significant binary digits of the floating-point type, and is a non-decreasing function of x.", "quantifier": "every engine range, every result, every floating-point precision, any rounding to nearest", "why_tests_cant": "2^64 engine results, rounding errors", "anchors": [{"file": "trng/uniformxx.hpp", "symbols": ["u01xx_traits", "uniformco"]}]}
{"id": "C71", "title": "uniform_dist range", "statement": "uniform_dist(a,b) returns values x with a <= x < b. (b itself can be returned because of rounding.)", "quantifier": "every a < b, every engine output, every floating-point precision", "why_tests_cant": "continuum of parameters; rounding at the upper limit", "anchors": [{"file": "trng/uniform_dist.hpp", "symbols": ["uniform_dist::operator()", "uniform_dist::param_type"]}]}
{"id": "C72", "title": "discrete_dist under rounding", "statement": "In floating-point arithmetic discrete_dist returns an index of a weight (0 <= k < N) for every engine output. (False in general: rounding errors can lead to N or out of the tree.)", "quantifier": "every weight vector with positive sum, every engine output, every floating-point precision", "why_tests_cant": "rounding errors of rare weight combinations, 2^64 outputs", "anchors": [{"file": "trng/discrete_dist.hpp", "symbols": ["discrete_dist::operator()"]}]}
{"id": "C73", "title": "normal family: icdf inverts cdf and the samples have the distribution", "statement": "If inv_Phi inverts the normal distribution function up to an error d of the probability (by C74 it does, d = 1e-15), then for normal_dist and lognormal_dist cdf(icdf(u)) = u up to d, and the probability that a sample is at most x is cdf(x) up to d for every x; for truncated_normal_dist up to d divided by the probability of the interval. With an exact inverse the samples of truncated_normal_dist lie between its ends; the samples of lognormal_dist are positive. For maxwell_dist, whose icdf is a Newton iteration, the same holds with an error of at most twice the machine epsilon, and the samples are positive.", "quantifier": "every mu, sigma > 0, every pair of finite or infinite ends, every u in (0,1), every x (exact real arithmetic)", "why_tests_cant": "continuum of parameters and arguments; a probability statement", "anchors": [{"file": "trng/normal_dist.hpp", "symbols": ["normal_dist::icdf", "normal_dist::operator()"]}, {"file": "trng/lognormal_dist.hpp", "symbols": ["lognormal_dist::icdf"]}, {"file": "trng/truncated_normal_dist.hpp", "symbols": ["truncated_normal_dist::icdf"]}, {"file": "trng/maxwell_dist.hpp", "symbols": ["maxwell_dist::icdf", "maxwell_dist::operator()"]}]}
{"id": "C74", "title": "normal distribution function and its inverse", "statement": "Phi(x) is the integral of the standard normal density up to x, whichever branch computes it. inv_Phi inverts it: Phi(inv_Phi(u)) differs from u by at most 1e-15 (1e-45 for long double), and by that factor of min(u, 1-u) for every u that is at least 2^-1074 away from 0 and 1; inv_erf and inv_erfc invert erf and erfc alike. All three return NaN outside their domain and the right infinities at its ends, and each refinement step reduces an error e of the guess to at most a constant times e^3. (Before rounding.)", "quantifier": "every real x, every probability u, every guess near the solution", "why_tests_cant": "continuum; convergence order is a limit statement", "anchors": [{"file": "trng/special_functions.hpp", "symbols": ["Phi", "inv_Phi", "inv_erf", "inv_erfc", "inv_Phi_approx"]}]}
{"id": "C75", "title": "period and equidistribution of the Mersenne twisters", "statement": "The values of mt19937 and mt19937_64 have the exact period 2^19937-1, for every seed and from every state that is not all zero; within a period every block of 623 (resp. 311) successive 32 (64) bit values occurs equally often, the zero block once less; the engine object itself first recurs after 624 (312) times that number of calls.", "quantifier": "every seed, every non-zero state, every block of values", "why_tests_cant": "2^19937 values", "anchors": [{"file": "trng/mt19937.hpp", "symbols": ["operator()"]}, {"file": "trng/mt19937.cc", "symbols": ["seed"]}, {"file": "trng/mt19937_64.hpp", "symbols": ["operator()"]}, {"file": "trng/mt19937_64.cc", "symbols": ["seed"]}]}
{"id": "C76", "title": "small special functions", "statement": "Beta(p,q) is the integral of t^(p-1)(1-t)^(q-1) over (0,1) for all positive p and q, whichever of its two formulas is used, and NaN outside its domain; Pochhammer(x,n) is the product x(x+1)...(x+n-1) for a natural number n; log(b,x) is the logarithm of x to the base b; sqrt(r,x) is the r-th root; mln1p(x) is x-ln(1+x) with a relative error of at most the machine epsilon. (Before rounding.)", "quantifier": "every real argument of the domain", "why_tests_cant": "continuum of arguments; equality with an integral", "anchors": [{"file": "trng/special_functions.hpp", "symbols": ["Beta", "Pochhammer", "mln1p"]}, {"file": "trng/math.hpp", "symbols": ["log", "sqrt"]}]}
{"id": "C77", "title": "incomplete Beta function", "statement": "Beta_I(x,p,q) ends and returns the regularised incomplete Beta function of x, p, q with an error of a small multiple of the machine epsilon, exactly 0 and 1 at x = 0 and x = 1, and NaN for arguments outside the domain, without undefined behaviour. (Before rounding.)", "quantifier": "every x, p, q", "why_tests_cant": "continuum of arguments; termination of a series with a data dependent stopping rule; an int variable that must not overflow", "anchors": [{"file": "trng/special_functions.hpp", "symbols": ["Beta_I"]}]}
{"id": "C78", "title": "inverse of the incomplete Beta function", "statement": "inv_Beta_I(u,p,q) ends for every probability u and all positive parameters, with a value in [0,1] at which Beta_I is u up to a few units of the machine epsilon.", "quantifier": "every u in (0,1), every p, q > 0", "why_tests_cant": "convergence of a damped Newton iteration on a continuum; an unbounded inner loop", "anchors": [{"file": "trng/special_functions.hpp", "symbols": ["inv_Beta_I"]}]}
{"id": "C79", "title": "beta, Student t and Snedecor F distributions", "statement": "For beta_dist, student_t_dist and snedecor_f_dist cdf is the integral of pdf and a distribution function (0 below and 1 above the support, also at the infinities); icdf inverts cdf, with the ends of the support at 0 and 1; the samples are numbers of the support with this distribution, operator() returns; parameter objects compare equal only if they describe the same distribution, and setting a parameter is like constructing the object anew. (Exact real arithmetic.)", "quantifier": "every parameter, every x, every probability", "why_tests_cant": "continuum of parameters and arguments; a probability statement", "anchors": [{"file": "trng/beta_dist.hpp", "symbols": ["beta_dist", "pdf", "cdf", "icdf", "operator=="]}, {"file": "trng/student_t_dist.hpp", "symbols": ["student_t_dist", "pdf", "cdf", "icdf"]}, {"file": "trng/snedecor_f_dist.hpp", "symbols": ["snedecor_f_dist", "pdf", "cdf", "icdf"]}]}
{"id": "C80", "title": "incomplete Gamma functions", "statement": "GammaP(a,x) and GammaQ(a,x) are the lower and upper regularised incomplete Gamma functions with a relative error of a small multiple of the machine epsilon of the one that is computed, the other being its complement; inc_gamma and inc_Gamma are the same without the division by Gamma(a); the values at 0 and infinity are exact and arguments outside the domain give NaN. (Before rounding.)", "quantifier": "every a > 0 and x >= 0", "why_tests_cant": "continuum of arguments; a series and a continued fraction with data dependent stopping rules", "anchors": [{"file": "trng/special_functions.hpp", "symbols": ["GammaP", "GammaQ", "GammaP_ser", "GammaQ_cf", "inc_gamma", "inc_Gamma"]}]}
{"id": "C81", "title": "inverse of the incomplete Gamma function", "statement": "inv_GammaP(a,p) is a positive number for every 0 < p < 1 and a > 0, at which GammaP is p up to a few units of the machine epsilon; it is 0 for p = 0. (Before rounding.)", "quantifier": "every a > 0 and probability p", "why_tests_cant": "convergence of a damped Halley iteration on a continuum", "anchors": [{"file": "trng/special_functions.hpp", "symbols": ["inv_GammaP"]}]}
{"id": "C82", "title": "gamma and chi-square distributions", "statement": "For gamma_dist and chi_square_dist cdf is the integral of pdf and a distribution function (0 below the support, with the limits as values at the infinities); icdf inverts cdf, with the ends of the support at 0 and 1; the samples are numbers of the support with this distribution; chi_square_dist(nu) is gamma_dist(nu/2, 2). (Exact real arithmetic.)", "quantifier": "every parameter, every x, every probability", "why_tests_cant": "continuum of parameters and arguments; a probability statement", "anchors": [{"file": "trng/gamma_dist.hpp", "symbols": ["gamma_dist", "pdf", "cdf", "icdf"]}, {"file": "trng/chi_square_dist.hpp", "symbols": ["chi_square_dist", "pdf", "cdf", "icdf"]}]}
{"id": "C83", "title": "parallel example programs do not depend on the number of processes", "statement": "The Monte Carlo programs built on the engines' jump and split (pi by block splitting with OpenMP, MPI, TBB, CUDA, HIP and by leapfrog with OpenMP, MPI, CUDA; site percolation, embarrassingly parallel and fine-grained) produce the result of the sequential program: the same count, or the same lattice for every realisation, whatever the number of processes, the division of the work and the order of the reduction.", "quantifier": "every number of processes, every process grid, every way TBB divides the range, every order of the reduction, every number of samples, every lattice size and valid engine state", "why_tests_cant": "unbounded number of processes, schedules and sample sizes", "anchors": [{"file": "examples/pi.cc", "symbols": ["main"]}, {"file": "examples/pi_block_openmp.cc", "symbols": ["main"]}, {"file": "examples/pi_block_mpi.cc", "symbols": ["main"]}, {"file": "examples/pi_block_tbb.cc", "symbols": ["parallel_pi"]}, {"file": "examples/pi_block_cuda.cu", "symbols": ["parallel_pi"]}, {"file": "examples/pi_leap_openmp.cc", "symbols": ["main"]}, {"file": "examples/pi_leap_mpi.cc", "symbols": ["main"]}, {"file": "examples/site_percolation_embarrassing.cc", "symbols": ["main"]}, {"file": "examples/site_percolation_fine-grained.cc", "symbols": ["main"]}, {"file": "examples/pi_block_hip.hip", "symbols": ["main", "parallel_pi"]}, {"file": "examples/pi_leap_cuda.cu", "symbols": ["main", "parallel_pi"]}]}
{"id": "C84", "title": "text of a distribution is read back", "statement": "Writing a distribution to a stream with operator<< and reading that text with operator>> into any object of the same type gives a distribution equal to the original one, and leaves what follows in the stream.", "quantifier": "every distribution type, every parameter value of its C++ type, every object read into, every text that follows, every format state of the output stream", "why_tests_cant": "the set of floating-point parameters is not searchable; losses show only for particular digits", "anchors": [{"file": "trng/bernoulli_dist.hpp", "symbols": ["bernoulli_dist", "param_type", "operator<<"]}, {"file": "trng/beta_dist.hpp", "symbols": ["beta_dist", "param_type", "operator<<"]}, {"file": "trng/binomial_dist.hpp", "symbols": ["binomial_dist", "param_type", "operator<<"]}, {"file": "trng/cauchy_dist.hpp", "symbols": ["cauchy_dist", "param_type", "operator<<"]}, {"file": "trng/chi_square_dist.hpp", "symbols": ["chi_square_dist", "param_type", "operator<<"]}, {"file": "trng/correlated_normal_dist.hpp", "symbols": ["correlated_normal_dist", "param_type", "operator<<"]}, {"file": "trng/discrete_dist.hpp", "symbols": ["discrete_dist", "param_type", "operator<<"]}, {"file": "trng/exponential_dist.hpp", "symbols": ["exponential_dist", "param_type", "operator<<"]}, {"file": "trng/extreme_value_dist.hpp", "symbols": ["extreme_value_dist", "param_type", "operator<<"]}, {"file": "trng/fast_discrete_dist.hpp", "symbols": ["fast_discrete_dist", "param_type", "operator<<"]}, {"file": "trng/gamma_dist.hpp", "symbols": ["gamma_dist", "param_type", "operator<<"]}, {"file": "trng/geometric_dist.hpp", "symbols": ["geometric_dist", "param_type", "operator<<"]}, {"file": "trng/hypergeometric_dist.hpp", "symbols": ["hypergeometric_dist", "param_type", "operator<<"]}, {"file": "trng/logistic_dist.hpp", "symbols": ["logistic_dist", "param_type", "operator<<"]}, {"file": "trng/lognormal_dist.hpp", "symbols": ["lognormal_dist", "param_type", "operator<<"]}, {"file": "trng/maxwell_dist.hpp", "symbols": ["maxwell_dist", "param_type", "operator<<"]}, {"file": "trng/negative_binomial_dist.hpp", "symbols": ["negative_binomial_dist", "param_type", "operator<<"]}, {"file": "trng/normal_dist.hpp", "symbols": ["normal_dist", "param_type", "operator<<"]}, {"file": "trng/pareto_dist.hpp", "symbols": ["pareto_dist", "param_type", "operator<<"]}, {"file": "trng/poisson_dist.hpp", "symbols": ["poisson_dist", "param_type", "operator<<"]}, {"file": "trng/powerlaw_dist.hpp", "symbols": ["powerlaw_dist", "param_type", "operator<<"]}, {"file": "trng/rayleigh_dist.hpp", "symbols": ["rayleigh_dist", "param_type", "operator<<"]}, {"file": "trng/snedecor_f_dist.hpp", "symbols": ["snedecor_f_dist", "param_type", "operator<<"]}, {"file": "trng/student_t_dist.hpp", "symbols": ["student_t_dist", "param_type", "operator<<"]}, {"file": "trng/tent_dist.hpp", "symbols": ["tent_dist", "param_type", "operator<<"]}, {"file": "trng/truncated_normal_dist.hpp", "symbols": ["truncated_normal_dist", "param_type", "operator<<"]}, {"file": "trng/twosided_exponential_dist.hpp", "symbols": ["twosided_exponential_dist", "param_type", "operator<<"]}, {"file": "trng/uniform01_dist.hpp", "symbols": ["uniform01_dist", "param_type", "operator<<"]}, {"file": "trng/uniform_dist.hpp", "symbols": ["uniform_dist", "param_type", "operator<<"]}, {"file": "trng/uniform_int_dist.hpp", "symbols": ["uniform_int_dist", "param_type", "operator<<"]}, {"file": "trng/weibull_dist.hpp", "symbols": ["weibull_dist", "param_type", "operator<<"]}, {"file": "trng/zero_truncated_poisson_dist.hpp", "symbols": ["zero_truncated_poisson_dist", "param_type", "operator<<"]}]}
{"id": "C85", "title": "reading a distribution from arbitrary text", "statement": "operator>> of a distribution on any stream either sets failbit and leaves the object unchanged, or consumes exactly one well-formed text of that distribution, whose parameters the object then has; it never has undefined behaviour.", "quantifier": "every distribution type, every input text, every stream state, every object read into", "why_tests_cant": "unbounded set of malformed, truncated and foreign inputs", "anchors": [{"file": "trng/bernoulli_dist.hpp", "symbols": ["bernoulli_dist", "param_type", "operator>>"]}, {"file": "trng/beta_dist.hpp", "symbols": ["beta_dist", "param_type", "operator>>"]}, {"file": "trng/binomial_dist.hpp", "symbols": ["binomial_dist", "param_type", "operator>>"]}, {"file": "trng/cauchy_dist.hpp", "symbols": ["cauchy_dist", "param_type", "operator>>"]}, {"file": "trng/chi_square_dist.hpp", "symbols": ["chi_square_dist", "param_type", "operator>>"]}, {"file": "trng/correlated_normal_dist.hpp", "symbols": ["correlated_normal_dist", "param_type", "operator>>"]}, {"file": "trng/discrete_dist.hpp", "symbols": ["discrete_dist", "param_type", "operator>>"]}, {"file": "trng/exponential_dist.hpp", "symbols": ["exponential_dist", "param_type", "operator>>"]}, {"file": "trng/extreme_value_dist.hpp", "symbols": ["extreme_value_dist", "param_type", "operator>>"]}, {"file": "trng/fast_discrete_dist.hpp", "symbols": ["fast_discrete_dist", "param_type", "operator>>"]}, {"file": "trng/gamma_dist.hpp", "symbols": ["gamma_dist", "param_type", "operator>>"]}, {"file": "trng/geometric_dist.hpp", "symbols": ["geometric_dist", "param_type", "operator>>"]}, {"file": "trng/hypergeometric_dist.hpp", "symbols": ["hypergeometric_dist", "param_type", "operator>>"]}, {"file": "trng/logistic_dist.hpp", "symbols": ["logistic_dist", "param_type", "operator>>"]}, {"file": "trng/lognormal_dist.hpp", "symbols": ["lognormal_dist", "param_type", "operator>>"]}, {"file": "trng/maxwell_dist.hpp", "symbols": ["maxwell_dist", "param_type", "operator>>"]}, {"file": "trng/negative_binomial_dist.hpp", "symbols": ["negative_binomial_dist", "param_type", "operator>>"]}, {"file": "trng/normal_dist.hpp", "symbols": ["normal_dist", "param_type", "operator>>"]}, {"file": "trng/pareto_dist.hpp", "symbols": ["pareto_dist", "param_type", "operator>>"]}, {"file": "trng/poisson_dist.hpp", "symbols": ["poisson_dist", "param_type", "operator>>"]}, {"file": "trng/powerlaw_dist.hpp", "symbols": ["powerlaw_dist", "param_type", "operator>>"]}, {"file": "trng/rayleigh_dist.hpp", "symbols": ["rayleigh_dist", "param_type", "operator>>"]}, {"file": "trng/snedecor_f_dist.hpp", "symbols": ["snedecor_f_dist", "param_type", "operator>>"]}, {"file": "trng/student_t_dist.hpp", "symbols": ["student_t_dist", "param_type", "operator>>"]}, {"file": "trng/tent_dist.hpp", "symbols": ["tent_dist", "param_type", "operator>>"]}, {"file": "trng/truncated_normal_dist.hpp", "symbols": ["truncated_normal_dist", "param_type", "operator>>"]}, {"file": "trng/twosided_exponential_dist.hpp", "symbols": ["twosided_exponential_dist", "param_type", "operator>>"]}, {"file": "trng/uniform01_dist.hpp", "symbols": ["uniform01_dist", "param_type", "operator>>"]}, {"file": "trng/uniform_dist.hpp", "symbols": ["uniform_dist", "param_type", "operator>>"]}, {"file": "trng/uniform_int_dist.hpp", "symbols": ["uniform_int_dist", "param_type", "operator>>"]}, {"file": "trng/weibull_dist.hpp", "symbols": ["weibull_dist", "param_type", "operator>>"]}, {"file": "trng/zero_truncated_poisson_dist.hpp", "symbols": ["zero_truncated_poisson_dist", "param_type", "operator>>"]}]}
{"id": "C86", "title": "distribution objects are determined by the last values given", "statement": "However the parameters of a distribution or of its param_type have been set - by the constructor, by any sequence of setter calls, by param(P) - the object behaves as one constructed with the current values, which its getters report; none of these operations has undefined behaviour for valid values; a default-constructed object is as if constructed with the values it reports.", "quantifier": "every distribution type, every sequence of setter calls and assignments, every parameter value", "why_tests_cant": "unbounded histories; stale cached members show only for particular sequences", "anchors": [{"file": "trng/bernoulli_dist.hpp", "symbols": ["bernoulli_dist", "param_type"]}, {"file": "trng/beta_dist.hpp", "symbols": ["beta_dist", "param_type"]}, {"file": "trng/binomial_dist.hpp", "symbols": ["binomial_dist", "param_type"]}, {"file": "trng/cauchy_dist.hpp", "symbols": ["cauchy_dist", "param_type"]}, {"file": "trng/chi_square_dist.hpp", "symbols": ["chi_square_dist", "param_type"]}, {"file": "trng/correlated_normal_dist.hpp", "symbols": ["correlated_normal_dist", "param_type"]}, {"file": "trng/discrete_dist.hpp", "symbols": ["discrete_dist", "param_type"]}, {"file": "trng/exponential_dist.hpp", "symbols": ["exponential_dist", "param_type"]}, {"file": "trng/extreme_value_dist.hpp", "symbols": ["extreme_value_dist", "param_type"]}, {"file": "trng/fast_discrete_dist.hpp", "symbols": ["fast_discrete_dist", "param_type"]}, {"file": "trng/gamma_dist.hpp", "symbols": ["gamma_dist", "param_type"]}, {"file": "trng/geometric_dist.hpp", "symbols": ["geometric_dist", "param_type"]}, {"file": "trng/hypergeometric_dist.hpp", "symbols": ["hypergeometric_dist", "param_type"]}, {"file": "trng/logistic_dist.hpp", "symbols": ["logistic_dist", "param_type"]}, {"file": "trng/lognormal_dist.hpp", "symbols": ["lognormal_dist", "param_type"]}, {"file": "trng/maxwell_dist.hpp", "symbols": ["maxwell_dist", "param_type"]}, {"file": "trng/negative_binomial_dist.hpp", "symbols": ["negative_binomial_dist", "param_type"]}, {"file": "trng/normal_dist.hpp", "symbols": ["normal_dist", "param_type"]}, {"file": "trng/pareto_dist.hpp", "symbols": ["pareto_dist", "param_type"]}, {"file": "trng/poisson_dist.hpp", "symbols": ["poisson_dist", "param_type"]}, {"file": "trng/powerlaw_dist.hpp", "symbols": ["powerlaw_dist", "param_type"]}, {"file": "trng/rayleigh_dist.hpp", "symbols": ["rayleigh_dist", "param_type"]}, {"file": "trng/snedecor_f_dist.hpp", "symbols": ["snedecor_f_dist", "param_type"]}, {"file": "trng/student_t_dist.hpp", "symbols": ["student_t_dist", "param_type"]}, {"file": "trng/tent_dist.hpp", "symbols": ["tent_dist", "param_type"]}, {"file": "trng/truncated_normal_dist.hpp", "symbols": ["truncated_normal_dist", "param_type"]}, {"file": "trng/twosided_exponential_dist.hpp", "symbols": ["twosided_exponential_dist", "param_type"]}, {"file": "trng/uniform01_dist.hpp", "symbols": ["uniform01_dist", "param_type"]}, {"file": "trng/uniform_dist.hpp", "symbols": ["uniform_dist", "param_type"]}, {"file": "trng/uniform_int_dist.hpp", "symbols": ["uniform_int_dist", "param_type"]}, {"file": "trng/weibull_dist.hpp", "symbols": ["weibull_dist", "param_type"]}, {"file": "trng/zero_truncated_poisson_dist.hpp", "symbols": ["zero_truncated_poisson_dist", "param_type"]}]}
{"id": "C87", "title": "distributions that compare equal are interchangeable", "statement": "Two distribution or parameter objects for which operator== is true give the same random numbers and function values from then on; two objects with the same parameters (none of them NaN) compare equal.", "quantifier": "every distribution type, every two reachable objects", "why_tests_cant": "quantifies over all pairs of objects and histories", "anchors": [{"file": "trng/bernoulli_dist.hpp", "symbols": ["bernoulli_dist", "param_type", "operator=="]}, {"file": "trng/beta_dist.hpp", "symbols": ["beta_dist", "param_type", "operator=="]}, {"file": "trng/binomial_dist.hpp", "symbols": ["binomial_dist", "param_type", "operator=="]}, {"file": "trng/cauchy_dist.hpp", "symbols": ["cauchy_dist", "param_type", "operator=="]}, {"file": "trng/chi_square_dist.hpp", "symbols": ["chi_square_dist", "param_type", "operator=="]}, {"file": "trng/correlated_normal_dist.hpp", "symbols": ["correlated_normal_dist", "param_type", "operator=="]}, {"file": "trng/discrete_dist.hpp", "symbols": ["discrete_dist", "param_type", "operator=="]}, {"file": "trng/exponential_dist.hpp", "symbols": ["exponential_dist", "param_type", "operator=="]}, {"file": "trng/extreme_value_dist.hpp", "symbols": ["extreme_value_dist", "param_type", "operator=="]}, {"file": "trng/fast_discrete_dist.hpp", "symbols": ["fast_discrete_dist", "param_type", "operator=="]}, {"file": "trng/gamma_dist.hpp", "symbols": ["gamma_dist", "param_type", "operator=="]}, {"file": "trng/geometric_dist.hpp", "symbols": ["geometric_dist", "param_type", "operator=="]}, {"file": "trng/hypergeometric_dist.hpp", "symbols": ["hypergeometric_dist", "param_type", "operator=="]}, {"file": "trng/logistic_dist.hpp", "symbols": ["logistic_dist", "param_type", "operator=="]}, {"file": "trng/lognormal_dist.hpp", "symbols": ["lognormal_dist", "param_type", "operator=="]}, {"file": "trng/maxwell_dist.hpp", "symbols": ["maxwell_dist", "param_type", "operator=="]}, {"file": "trng/negative_binomial_dist.hpp", "symbols": ["negative_binomial_dist", "param_type", "operator=="]}, {"file": "trng/normal_dist.hpp", "symbols": ["normal_dist", "param_type", "operator=="]}, {"file": "trng/pareto_dist.hpp", "symbols": ["pareto_dist", "param_type", "operator=="]}, {"file": "trng/poisson_dist.hpp", "symbols": ["poisson_dist", "param_type", "operator=="]}, {"file": "trng/powerlaw_dist.hpp", "symbols": ["powerlaw_dist", "param_type", "operator=="]}, {"file": "trng/rayleigh_dist.hpp", "symbols": ["rayleigh_dist", "param_type", "operator=="]}, {"file": "trng/snedecor_f_dist.hpp", "symbols": ["snedecor_f_dist", "param_type", "operator=="]}, {"file": "trng/student_t_dist.hpp", "symbols": ["student_t_dist", "param_type", "operator=="]}, {"file": "trng/tent_dist.hpp", "symbols": ["tent_dist", "param_type", "operator=="]}, {"file": "trng/truncated_normal_dist.hpp", "symbols": ["truncated_normal_dist", "param_type", "operator=="]}, {"file": "trng/twosided_exponential_dist.hpp", "symbols": ["twosided_exponential_dist", "param_type", "operator=="]}, {"file": "trng/uniform01_dist.hpp", "symbols": ["uniform01_dist", "param_type", "operator=="]}, {"file": "trng/uniform_dist.hpp", "symbols": ["uniform_dist", "param_type", "operator=="]}, {"file": "trng/uniform_int_dist.hpp", "symbols": ["uniform_int_dist", "param_type", "operator=="]}, {"file": "trng/weibull_dist.hpp", "symbols": ["weibull_dist", "param_type", "operator=="]}, {"file": "trng/zero_truncated_poisson_dist.hpp", "symbols": ["zero_truncated_poisson_dist", "param_type", "operator=="]}]}
{"id": "C88", "title": "the twelve mrg and yarn engines as written follow their recurrence", "statement": "Each of the twelve mrg and yarn engines, whose functions are written out separately for every number of terms, returns the documented linear recurrence (yarn: the documented power of it), jump, jump2 and discard advance by exactly that many calls, split leaves the leapfrog sequence, backward undoes a call and the seeding functions store the reduced seeds.", "quantifier": "every engine, every reachable state and parameter set, every argument", "why_tests_cant": "states, jump distances and split arguments are unbounded in practice; a wrong index in one of the copies shows only for some coefficients", "anchors": [{"file": "trng/mrg2.hpp", "symbols": ["operator()", "jump", "jump2", "split", "backward", "discard"]}, {"file": "trng/mrg2.cc", "symbols": ["seed"]}, {"file": "trng/mrg3.hpp", "symbols": ["operator()", "jump", "jump2", "split", "backward", "discard"]}, {"file": "trng/mrg3.cc", "symbols": ["seed"]}, {"file": "trng/mrg3s.hpp", "symbols": ["operator()", "jump", "jump2", "split", "backward", "discard"]}, {"file": "trng/mrg3s.cc", "symbols": ["seed"]}, {"file": "trng/mrg4.hpp", "symbols": ["operator()", "jump", "jump2", "split", "backward", "discard"]}, {"file": "trng/mrg4.cc", "symbols": ["seed"]}, {"file": "trng/mrg5.hpp", "symbols": ["operator()", "jump", "jump2", "split", "backward", "discard"]}, {"file": "trng/mrg5.cc", "symbols": ["seed"]}, {"file": "trng/mrg5s.hpp", "symbols": ["operator()", "jump", "jump2", "split", "backward", "discard"]}, {"file": "trng/mrg5s.cc", "symbols": ["seed"]}, {"file": "trng/yarn2.hpp", "symbols": ["operator()", "jump", "jump2", "split", "backward", "discard"]}, {"file": "trng/yarn2.cc", "symbols": ["seed"]}, {"file": "trng/yarn3.hpp", "symbols": ["operator()", "jump", "jump2", "split", "backward", "discard"]}, {"file": "trng/yarn3.cc", "symbols": ["seed"]}, {"file": "trng/yarn3s.hpp", "symbols": ["operator()", "jump", "jump2", "split", "backward", "discard"]}, {"file": "trng/yarn3s.cc", "symbols": ["seed"]}, {"file": "trng/yarn4.hpp", "symbols": ["operator()", "jump", "jump2", "split", "backward", "discard"]}, {"file": "trng/yarn4.cc", "symbols": ["seed"]}, {"file": "trng/yarn5.hpp", "symbols": ["operator()", "jump", "jump2", "split", "backward", "discard"]}, {"file": "trng/yarn5.cc", "symbols": ["seed"]}, {"file": "trng/yarn5s.hpp", "symbols": ["operator()", "jump", "jump2", "split", "backward", "discard"]}, {"file": "trng/yarn5s.cc", "symbols": ["seed"]}]}
{"id": "C89", "title": "device and host builds give the same random numbers", "statement": "Code compiled with TRNG_CUDA gives, for every engine that supports it, the same numbers, the same split engines for valid arguments and the same states as the host build; for invalid arguments split does not throw, but gives every s-th number beginning with number n, and leaves the engine as it is for s = 0.", "quantifier": "every engine, state and arguments of split", "why_tests_cant": "the device code is a different program; equality is needed for all states and arguments", "anchors": [{"file": "trng/mrg2.hpp", "symbols": ["operator()", "split", "backward"]}, {"file": "trng/mrg3.hpp", "symbols": ["operator()", "split", "backward"]}, {"file": "trng/mrg3s.hpp", "symbols": ["operator()", "split", "backward"]}, {"file": "trng/mrg4.hpp", "symbols": ["operator()", "split", "backward"]}, {"file": "trng/mrg5.hpp", "symbols": ["operator()", "split", "backward"]}, {"file": "trng/mrg5s.hpp", "symbols": ["operator()", "split", "backward"]}, {"file": "trng/yarn2.hpp", "symbols": ["operator()", "split", "backward"]}, {"file": "trng/yarn3.hpp", "symbols": ["operator()", "split", "backward"]}, {"file": "trng/yarn3s.hpp", "symbols": ["operator()", "split", "backward"]}, {"file": "trng/yarn4.hpp", "symbols": ["operator()", "split", "backward"]}, {"file": "trng/yarn5.hpp", "symbols": ["operator()", "split", "backward"]}, {"file": "trng/yarn5s.hpp", "symbols": ["operator()", "split", "backward"]}, {"file": "trng/int_math.hpp", "symbols": ["modulo_inverse", "gauss", "power"]}, {"file": "trng/lcg64.hpp", "symbols": ["split"]}, {"file": "trng/lcg64_shift.hpp", "symbols": ["split"]}, {"file": "trng/lcg64_count_shift.hpp", "symbols": ["split"]}, {"file": "trng/count128_lcg_shift.hpp", "symbols": ["split"]}]}
{"id": "C90", "title": "the Ising example is memory-safe, ends, and flips connected clusters of equal spins", "statement": "For every lattice size, every state of the engine and every filled lattice, the Wolff step of the Ising example stays within the lattice, ends after at most L*L turns and changes exactly a connected set of sites with the spin of the first site, which contains that site; get and set address the sites of a torus; energy() is minus the sum over all bonds divided by the number of sites; the whole simulation ends with mean energies between -2 and 2 and non-negative heat capacities.", "quantifier": "every lattice size for which L*L is an int, every configuration of the spins, all outcomes of the random draws, any number of steps", "why_tests_cant": "2^(L*L) configurations and all sequences of draws; termination for all of them", "anchors": [{"file": "examples/Ising_model.cc", "symbols": ["lattice", "wolffstep", "wolff_main"]}, {"file": "trng/uniform_int_dist.hpp", "symbols": ["operator()"]}, {"file": "trng/bernoulli_dist.hpp", "symbols": ["operator()"]}]}
{"id": "C91", "title": "the Ising example samples Boltzmann's distribution", "statement": "With uniform first sites and independent draws with the probability 1 - exp(-2/T), the step of the Ising example satisfies detailed balance with respect to Boltzmann's distribution for the energy that the example computes, so that distribution is stationary; every configuration is reachable from every other, and the stationary distribution is unique.", "quantifier": "every lattice size, every positive temperature, every pair of configurations", "why_tests_cant": "a statement about the probabilities of all outcomes for all configurations; a wrong acceptance probability or neighbour gives plausible numbers", "anchors": [{"file": "examples/Ising_model.cc", "symbols": ["wolffstep", "energy"]}]}
{"id": "C92", "title": "over a full period all values occur equally often", "statement": "Over its period lcg64_count_shift returns every 64-bit value 2^61-1 times (the period is exactly 2^64(2^61-1)), count128_lcg_shift returns every 64-bit value 2^64 times, minstd every value from min() to max() once; an mrg or yarn engine with n terms and a parameter set of maximal period returns every tuple of d <= n consecutive values m^(n-d) times, the zero tuple once less; in every bit of a lagged Fibonacci engine with ^, and in the lowest bit of one with +, every sequence of L bits that are not all zero (L the largest lag) occurs exactly once per period 2^L-1. For xoshiro256plus every triple of successive values occurs 2^64 times over the period, the zero triple once less.", "quantifier": "every valid state, every value or tuple of values, every built-in parameter set of maximal period", "why_tests_cant": "the periods range from 2^31 to 2^19937 calls; a frequency test sees a vanishing part of them", "anchors": [{"file": "trng/lcg64_count_shift.hpp", "symbols": ["operator()", "step"]}, {"file": "trng/count128_lcg_shift.hpp", "symbols": ["operator()"]}, {"file": "trng/minstd.hpp", "symbols": ["operator()"]}, {"file": "trng/mrg3.hpp", "symbols": ["operator()"]}, {"file": "trng/yarn3.hpp", "symbols": ["operator()"]}, {"file": "trng/lagfib2xor.hpp", "symbols": ["operator()"]}, {"file": "trng/xoshiro256plus.hpp", "symbols": ["operator()", "step"]}]}
{"id": "C93", "title": "the incomplete Gamma functions are accurate in their centre", "statement": "For a > digits10 and 0.3a < x < 2.35a, where the asymptotic expansion is used, GammaP(a, x) and GammaQ(a, x) are finite, add up to one and have an absolute error of at most 1024 machine epsilons, for all but finitely many a of at most 2; where x differs from a by at least a/32, the smaller of the two has a relative error of at most 4096 machine epsilons, however small it is. The table of literals holds the exact coefficients of the expansion to 36 digits.", "quantifier": "every a and x of the region, unbounded above, for float, double and long double", "why_tests_cant": "the region is unbounded, the values reach far below the smallest test tolerance, and the places where the sum ends early are tiny neighbourhoods of a few parameters", "anchors": [{"file": "trng/special_functions.hpp", "symbols": ["GammaPQ_asympt_coefficients", "GammaPQ_asympt_R", "GammaP_asympt", "GammaQ_asympt", "GammaP", "GammaQ"]}]}
{"id": "C94", "title": "the incomplete Gamma functions are accurate over their whole domain, and so is the cdf of gamma_dist and chi_square_dist", "statement": "For all a > 0 and x >= 0 GammaP(a, x) and GammaQ(a, x) return numbers that add up to one. For a >= 1, and for a < 1 if x is 0 or at least four machine epsilons, both differ from the regularised incomplete Gamma functions by at most 1024 machine epsilons in float, 1e-10 in double and 1e-11 in long double. With these functions the cdf of gamma_dist and chi_square_dist has the same error, and for every shape and every deviate strictly between 0 and 1 a sample is a positive number and equals icdf.", "quantifier": "every a > 0 and x >= 0, every shape, scale and degrees of freedom, every deviate, for float, double and long double", "why_tests_cant": "the plane of arguments is cut into four regions with different methods; tests sample points of it and cannot bound the error in between or for large arguments", "anchors": [{"file": "trng/special_functions.hpp", "symbols": ["GammaP", "GammaQ"]}, {"file": "trng/gamma_dist.hpp", "symbols": ["cdf", "icdf", "operator()"]}, {"file": "trng/chi_square_dist.hpp", "symbols": ["cdf", "icdf", "operator()"]}]}
{"id": "C95", "title": "the discrete distributions keep their law with the library's numerical functions", "statement": "With the library's GammaQ and Beta_I in place of exact functions, the cdf of poisson_dist is Poisson's distribution function up to 1e-10, that of zero_truncated_poisson_dist its conditional version up to 2e-10 even for tiny means, and that of negative_binomial_dist the negative binomial one up to 8 M machine epsilons, M bounding the parameter, the length of the table and their quotient. A sample k from the deviate u satisfies F(k-1) - d <= u <= F(k) + d, the probability of a sample of at most k is F(k) up to d, and sampling ends for all deviates up to d below the probability of all ints.", "quantifier": "every mean up to 2^30, every success probability and parameter within the bound M, every deviate in [0,1), every result", "why_tests_cant": "the tables differ for every parameter and are not exactly monotone; goodness-of-fit tests see neither errors of 1e-10 nor the last deviates below 1", "anchors": [{"file": "trng/poisson_dist.hpp", "symbols": ["calc_probabilities", "operator()", "cdf"]}, {"file": "trng/zero_truncated_poisson_dist.hpp", "symbols": ["calc_probabilities", "operator()", "cdf"]}, {"file": "trng/negative_binomial_dist.hpp", "symbols": ["calc_probabilities", "operator()", "cdf"]}]}
{"id": "C96", "title": "in floating-point arithmetic samples are never NaN, stay between min and max and depend monotonically on the deviate", "statement": "With every operation rounded (any rounding mode, with overflow and underflow) and with any C library whose functions are monotone where the true functions are, each sample of exponential_dist, twosided_exponential_dist, tent_dist, pareto_dist, powerlaw_dist, weibull_dist, logistic_dist, extreme_value_dist and rayleigh_dist is not NaN and lies between min() and max(); a larger deviate never leads to a sample on the wrong side; and icdf of a number in (0,1) lies in the same range and does not decrease. Samples of cauchy_dist are not NaN.", "quantifier": "every floating-point type, rounding and library meeting the assumptions (float, double and long double with correct rounding do), every finite positive parameter, every deviate of the type, every argument of icdf in (0,1)", "why_tests_cant": "a NaN or a value outside the range may come up for a handful of the 2^53 deviates or for extreme parameters only", "anchors": [{"file": "trng/exponential_dist.hpp", "symbols": ["operator()", "icdf", "min", "max"]}, {"file": "trng/twosided_exponential_dist.hpp", "symbols": ["operator()", "icdf", "min", "max"]}, {"file": "trng/tent_dist.hpp", "symbols": ["operator()", "icdf", "min", "max"]}, {"file": "trng/pareto_dist.hpp", "symbols": ["operator()", "icdf", "min", "max"]}, {"file": "trng/powerlaw_dist.hpp", "symbols": ["operator()", "icdf", "min", "max"]}, {"file": "trng/weibull_dist.hpp", "symbols": ["operator()", "icdf", "min", "max"]}, {"file": "trng/logistic_dist.hpp", "symbols": ["operator()", "icdf", "min", "max"]}, {"file": "trng/extreme_value_dist.hpp", "symbols": ["operator()", "icdf", "min", "max"]}, {"file": "trng/rayleigh_dist.hpp", "symbols": ["operator()", "icdf", "min", "max"]}, {"file": "trng/cauchy_dist.hpp", "symbols": ["operator()", "icdf", "min", "max"]}, {"file": "trng/truncated_normal_dist.hpp", "symbols": ["operator()", "icdf", "min", "max"]}]}
{"id": "C97", "title": "in floating-point arithmetic cdf is a probability and does not decrease, and pdf is never NaN", "statement": "In the same arithmetic cdf(x) of any number x, infinities included, is in [0,1] and not NaN, and cdf does not decrease; pdf(x) is not NaN and not negative.", "quantifier": "every floating-point type, rounding and library meeting the assumptions, every finite positive parameter, every argument", "why_tests_cant": "overflow, underflow and cancellation happen at single arguments far from the usual ones", "anchors": [{"file": "trng/exponential_dist.hpp", "symbols": ["cdf", "pdf"]}, {"file": "trng/twosided_exponential_dist.hpp", "symbols": ["cdf", "pdf"]}, {"file": "trng/tent_dist.hpp", "symbols": ["cdf", "pdf"]}, {"file": "trng/pareto_dist.hpp", "symbols": ["cdf", "pdf"]}, {"file": "trng/powerlaw_dist.hpp", "symbols": ["cdf", "pdf"]}, {"file": "trng/weibull_dist.hpp", "symbols": ["cdf", "pdf"]}, {"file": "trng/logistic_dist.hpp", "symbols": ["cdf", "pdf"]}, {"file": "trng/extreme_value_dist.hpp", "symbols": ["cdf", "pdf"]}, {"file": "trng/rayleigh_dist.hpp", "symbols": ["cdf", "pdf"]}, {"file": "trng/cauchy_dist.hpp", "symbols": ["cdf", "pdf"]}, {"file": "trng/lognormal_dist.hpp", "symbols": ["cdf", "pdf"]}, {"file": "trng/normal_dist.hpp", "symbols": ["cdf", "pdf"]}, {"file": "trng/maxwell_dist.hpp", "symbols": ["cdf", "pdf"]}, {"file": "trng/chi_square_dist.hpp", "symbols": ["cdf", "pdf"]}, {"file": "trng/student_t_dist.hpp", "symbols": ["cdf", "pdf"]}, {"file": "trng/special_functions.hpp", "symbols": ["Phi"]}]}
{"id": "C98", "title": "in floating-point arithmetic the discrete distributions give samples in range and with the right law for all parameters", "statement": "With every operation rounded: samples of hypergeometric_dist and binomial_dist exist for every deviate and lie between min() and max(); samples of geometric_dist are not negative and its cdf is in [0,1]; for moderate parameters in double the sample of binomial_dist, hypergeometric_dist and geometric_dist is the inverse of the distribution function at the deviate, up to a stated error in the deviate (6e-16 n^2 + 3e-13 n for binomial_dist with n up to 10^6); zero_truncated_poisson_dist, hypergeometric_dist and geometric_dist give samples of their law, not a constant and no undefined behaviour, for all parameters in their domain.", "quantifier": "every floating-point type, rounding and library (for the range of samples even without assumptions), all parameters, all deviates", "why_tests_cant": "overflow and cancellation in the tables depend on the parameters; tests use a few moderate ones", "anchors": [{"file": "trng/hypergeometric_dist.hpp", "symbols": ["calc_probabilities", "operator()"]}, {"file": "trng/binomial_dist.hpp", "symbols": ["calc_probabilities", "operator()"]}, {"file": "trng/zero_truncated_poisson_dist.hpp", "symbols": ["calc_probabilities", "operator()", "cdf", "pdf"]}, {"file": "trng/geometric_dist.hpp", "symbols": ["operator()", "cdf"]}]}
{"id": "C99", "title": "files for Dieharder have as many values as announced, each of the announced width, from the chosen engine and seed", "statement": "examples/dieharder_file with the name of one of its 18 engines, a number n of samples and a seed writes a well-formed Dieharder file: the header announces n values of b bits, exactly n values follow, each is below 2^b, b is as small as the range of the engine allows, and the values are the outputs of the engine with that seed. Every other command line is rejected with a message; no command line leads to undefined behaviour.", "quantifier": "every command line, every number of samples, every seed, all 18 engines", "why_tests_cant": "files are unbounded and the texts of command lines arbitrary", "anchors": [{"file": "examples/dieharder_file.cc", "symbols": ["main", "generate", "try_parse", "add_generator"]}, {"file": "trng/int_math.hpp", "symbols": ["log2_ceil"]}]}
{"id": "C100", "title": "inv_Phi and samples of normal_dist are accurate in double arithmetic", "statement": "With every operation rounded to double and a C library with small relative errors, inv_Phi(x) is a finite number y whose probability Phi(y) differs from x by at most 3e-12 times the smaller of x and 1 - x, up to the resolution of x near 1; inv_Phi(0) and inv_Phi(1) are the infinities and arguments outside [0,1] give NaN. Samples of normal_dist<double> are mu + sigma y for such a y, up to two roundings.", "quantifier": "every double in (0,1), every C library within the error bound, all mu and sigma up to 1e290", "why_tests_cant": "there are 2^62 doubles in (0,1), and cancellation in Phi(y) - x, overflow of exp and the joints of the three approximations matter at few of them; the C library differs between platforms", "anchors": [{"file": "trng/special_functions.hpp", "symbols": ["inv_Phi", "inv_Phi_approx", "Phi"]}, {"file": "trng/normal_dist.hpp", "symbols": ["operator()", "icdf"]}]}
{"id": "C101", "title": "over a full period of an engine the samples of continuous distributions of type double follow their law", "statement": "Draw as many samples of a continuous distribution of type double as the period of the engine is long. All of them are finite numbers, and for every real t the fraction of samples that are at most t equals the probability of the distribution function at t, up to a bound that consists of the rounding error (about 1e-13; 5e-12 for normal_dist and lognormal_dist; plus 3e-16 times the ratio of location and scale; 3e-15 times the exponent for pareto, powerlaw and weibull; 2e-15/sigma for lognormal_dist), 13 divided by the length of the engine's range, and the reciprocal of the period. Holds for uniform01_dist, uniform_dist, tent_dist, exponential_dist, twosided_exponential_dist, logistic_dist, extreme_value_dist, rayleigh_dist, normal_dist, lognormal_dist, cauchy_dist, pareto_dist, powerlaw_dist and weibull_dist, and for every engine whose values are equally frequent over the period: lcg64, lcg64_shift, lcg64_count_shift, count128_lcg_shift, xoshiro256plus, minstd, the mrg and yarn engines with full period and both Mersenne Twisters.", "quantifier": "all parameters with scales from 1e-200 to 1e200 (1e-100 to 1e100 for cauchy, pareto, powerlaw and weibull; exponents from 0.1 to 1e15; |mu|+39 sigma <= 680 for lognormal), all thresholds t, all these engines and all their states on the full cycle, every C library with relative error at most 2^-50", "why_tests_cant": "a period has between 2^31 and 2^19937 values; a statistical test sees a vanishing part of it and can only reject", "anchors": [{"file": "trng/uniformxx.hpp", "symbols": ["uniformoo", "uniformoc", "uniformcc", "uniformco"]}, {"file": "trng/exponential_dist.hpp", "symbols": ["operator()"]}, {"file": "trng/normal_dist.hpp", "symbols": ["operator()", "icdf"]}, {"file": "trng/logistic_dist.hpp", "symbols": ["operator()"]}, {"file": "trng/xoshiro256plus.hpp", "symbols": ["operator()"]}]}
{"id": "C102", "title": "over a full period of an engine the samples of discrete distributions follow their law", "statement": "Draw as many samples of a discrete distribution as the period of the engine is long. All of them are defined and in range, for every integer t the fraction of samples that are at most t is the probability of at most t, and for every value v the fraction of samples equal to v is its probability (up to twice as much), up to a bound that consists of the rounding error (5e-15; 1e-13+1.1e-14/p for geometric_dist, 6e-16 n^2+3e-13 n for binomial_dist, 9e-14 n for hypergeometric_dist), 13 divided by the length of the engine's range, and the reciprocal of the period. Holds for uniform_int_dist, the engines' operator()(long), bernoulli_dist, discrete_dist with weights that are multiples of a common power of two, geometric_dist, binomial_dist and hypergeometric_dist, and for every engine whose values are equally frequent over the period.", "quantifier": "all a < b with b - a an int, all bounds x of type long, all p in [0,1] for bernoulli_dist, all weights with a sum of at most 2^53 units, all p from 1e-6 to the largest double below 1 for geometric_dist, n up to 10^6 and p from 2^-53 to 1-2^-53 for binomial_dist, up to 900 balls and as many drawn as there are white ones for hypergeometric_dist; all engines with a full period and all their states on the cycle; all values and thresholds; every C library with relative error at most 2^-50", "why_tests_cant": "a period has between 2^31 and 2^19937 values; a chi-square test sees a vanishing part of it and can only reject", "anchors": [{"file": "trng/uniform_int_dist.hpp", "symbols": ["operator()"]}, {"file": "trng/bernoulli_dist.hpp", "symbols": ["operator()"]}, {"file": "trng/discrete_dist.hpp", "symbols": ["operator()"]}, {"file": "trng/geometric_dist.hpp", "symbols": ["operator()"]}, {"file": "trng/uniformxx.hpp", "symbols": ["uniformco", "uniformoo"]}, {"file": "trng/binomial_dist.hpp", "symbols": ["calc_probabilities", "operator()"]}, {"file": "trng/hypergeometric_dist.hpp", "symbols": ["calc_probabilities", "operator()"]}]}
{"id": "C103", "title": "the streams that split makes are uniform over a period", "statement": "Split an engine into s streams. If s has no divisor in common with the period of the engine, each stream returns every number of the engine's range equally often over a period (up to one call). Whatever s is, all s streams together do so. For lcg64 and lcg64_shift, whose period is a power of two, the first part applies to odd s only: for even s no stream returns all numbers equally often, over any number of calls, and its values recur after exactly 2^64 divided by the largest power of two in s.", "quantifier": "all numbers of streams below 2^32 and all stream numbers, all states on the full cycle, all parameters with full period; lcg64, lcg64_shift, lcg64_count_shift, count128_lcg_shift and the mrg and yarn engines", "why_tests_cant": "the periods are 2^61 and longer, and the number of streams ranges over all 32-bit numbers", "anchors": [{"file": "trng/lcg64.hpp", "symbols": ["split", "operator()"]}, {"file": "trng/lcg64_shift.hpp", "symbols": ["split", "operator()"]}, {"file": "trng/lcg64_count_shift.hpp", "symbols": ["split", "operator()"]}, {"file": "trng/count128_lcg_shift.hpp", "symbols": ["split", "operator()"]}, {"file": "trng/mrg3.hpp", "symbols": ["split"]}, {"file": "trng/yarn3.hpp", "symbols": ["split"]}]}
{"id": "C104", "title": "successive samples are independent over a period", "statement": "If over a period of an engine all tuples of n successive numbers are equally frequent (up to one position), n successive samples of a distribution are jointly distributed like n independent samples: the fraction of positions from which on the samples are at most t_0, ..., t_(n-1) is the product of the values of the distribution function at t_0, ..., t_(n-1), for integers also the fraction of positions at which v_0, ..., v_(n-1) begins is the product of the probabilities. The bound on the difference is n times that of C101 and C102. The condition holds for up to 3 numbers of xoshiro256plus, up to 2, ..., 5 numbers of the mrg and yarn engines of order 2, ..., 5 with full period, up to 623 numbers of mt19937 and up to 311 numbers of mt19937_64. It fails for pairs of lcg64 and lcg64_shift.", "quantifier": "all tuple lengths up to the stated dimension, all bounds and values, all states on the full cycle, all parameters in the ranges of C101 and C102, all floating-point arithmetics and C libraries within the stated error", "why_tests_cant": "the periods are 2^62 and longer and the claim is about all of their positions and all bounds", "anchors": [{"file": "trng/uniformxx.hpp", "symbols": ["uniformoo", "uniformco", "uniformoc", "uniformcc"]}, {"file": "trng/exponential_dist.hpp", "symbols": ["operator()"]}, {"file": "trng/normal_dist.hpp", "symbols": ["operator()"]}, {"file": "trng/uniform_int_dist.hpp", "symbols": ["operator()"]}, {"file": "trng/discrete_dist.hpp", "symbols": ["operator()"]}, {"file": "trng/xoshiro256plus.hpp", "symbols": ["operator()"]}, {"file": "trng/mt19937.hpp", "symbols": ["operator()"]}, {"file": "trng/yarn3.hpp", "symbols": ["operator()"]}]}
{"id": "C105", "title": "streams of the mrg and yarn engines are independent of each other", "statement": "Engines mrg2, ..., mrg5s of one kind with the same full-period parameter set are independent of each other (over a period every tuple of numbers returned in the same call is equally frequent, up to one call) if and only if no nontrivial linear combination of their numbers vanishes modulo m in all calls; yarn engines are independent if and only if mrg engines with the same states are. Two engines are independent unless the state of one is a multiple of the other's: engines seeded with two numbers that differ modulo m are; an engine and the same engine after jump(s) are unless s is a multiple of (m^n-1)/(m-1), which no s > 0 is for n >= 4; after jump2(s) always, except with mrg2 and yarn2 for s >= 31; two streams of split(s, .) are if s is coprime to the period, n streams with successive numbers all together. Samples of the distributions of C101 and C102 drawn with independent engines have the product of the probabilities as joint law. Where independence fails the theorem gives the relation: three engines seeded with s0, s1, s2 satisfy (s1-s2) x + (s2-s0) y + (s0-s1) z = 0 modulo m in all calls.", "quantifier": "all states, all numbers of engines, all jump distances, all seeds, all numbers of streams coprime to the period, all parameters in the ranges of C101 and C102", "why_tests_cant": "the periods are 2^62 and longer, and the claim is about all calls of a period, all seeds and all distances", "anchors": [{"file": "trng/mrg2.hpp", "symbols": ["operator()", "jump", "jump2", "split", "seed"]}, {"file": "trng/mrg3.hpp", "symbols": ["operator()", "jump", "jump2", "split", "seed"]}, {"file": "trng/mrg3s.hpp", "symbols": ["operator()", "jump", "jump2", "split", "seed"]}, {"file": "trng/mrg4.hpp", "symbols": ["operator()", "jump", "jump2", "split", "seed"]}, {"file": "trng/mrg5.hpp", "symbols": ["operator()", "jump", "jump2", "split", "seed"]}, {"file": "trng/mrg5s.hpp", "symbols": ["operator()", "jump", "jump2", "split", "seed"]}, {"file": "trng/yarn2.hpp", "symbols": ["operator()", "jump", "jump2", "split", "seed"]}, {"file": "trng/yarn3.hpp", "symbols": ["operator()", "jump", "jump2", "split", "seed"]}, {"file": "trng/yarn3s.hpp", "symbols": ["operator()", "jump", "jump2", "split", "seed"]}, {"file": "trng/yarn4.hpp", "symbols": ["operator()", "jump", "jump2", "split", "seed"]}, {"file": "trng/yarn5.hpp", "symbols": ["operator()", "jump", "jump2", "split", "seed"]}, {"file": "trng/yarn5s.hpp", "symbols": ["operator()", "jump", "jump2", "split", "seed"]}]}
{"id": "C106", "title": "mrg3s, mrg5s, yarn3s and yarn5s with their default parameters over their period", "statement": "With the default parameters mrg3s, mrg5s, yarn3s and yarn5s have a period of only (m^n-1)/2 calls. Over it mrg3s and mrg5s return 0 exactly (m^(n-1)-1)/2 times; the nonzero squares modulo m all equally often and the non-squares all equally often, the one kind (m^(n-1)+m^((n-1)/2))/2 times and the other (m^(n-1)-m^((n-1)/2))/2 times. The numbers that d engines return in the same calls lie in every set of tuples as often as if all tuples were equally frequent, up to the fraction 1/sqrt(m^(n-d)) of the calls, if no nontrivial linear combination of the numbers vanishes modulo m in all calls. This holds for d successive numbers of one engine (d <= n), for two engines with seeds that differ modulo m, for an engine and the same engine after jump(s) unless s is a multiple of (m^n-1)/(m-1), and for d streams with successive numbers of split(s, .) for every s up to 10^9, even or odd; it holds for the yarn engines when it holds for the mrg engines with the same states. Samples of the distributions of C101 and C102 drawn with such engines have the product of the probabilities as joint law up to this fraction and the error of C101 and C102; with a single engine they follow their law.", "quantifier": "all nonzero states, all values, all sets of tuples, all numbers of engines, all seeds, all jump distances, all numbers of streams up to 10^9, all parameters in the ranges of C101 and C102", "why_tests_cant": "the periods are about 2^92 and 2^154 calls; the deviation from uniformity is of relative size 1/m or 1/m^2", "anchors": [{"file": "trng/mrg3s.hpp", "symbols": ["operator()", "step", "jump", "split", "seed"]}, {"file": "trng/mrg5s.hpp", "symbols": ["operator()", "step", "jump", "split", "seed"]}, {"file": "trng/yarn3s.hpp", "symbols": ["operator()", "step", "jump", "split", "seed"]}, {"file": "trng/yarn5s.hpp", "symbols": ["operator()", "step", "jump", "split", "seed"]}, {"file": "trng/mrg3s.cc", "symbols": ["trng0"]}, {"file": "trng/mrg5s.cc", "symbols": ["trng0"]}, {"file": "trng/yarn3s.cc", "symbols": ["trng0"]}, {"file": "trng/yarn5s.cc", "symbols": ["trng0"]}]}
{"id": "C107", "title": "sequential example programs", "statement": "The sequential example programs have defined behaviour and compute what they announce: discrete_dist and discrete_dist_c_style never access their vectors out of range, count[i] is the number of samples equal to i and the counts add up to the number of samples; bernoulli_dist counts heads and tails; covariance in correlated_normal_dist is the mean product of the deviations from the means, is symmetric and gives non-negative variances whatever the rounding; stl_container fills its vectors with consecutive samples in [a,b), the second std::generate going on where the first one stopped; the sums in time do not overflow.", "quantifier": "all engines and engine states, all numbers of samples below 2^31, all weights that are integer multiples of a power of two with a sum of at most 2^53 of them, all probabilities, all vectors, all limits", "why_tests_cant": "all engine states, vectors and rounding errors; undefined behaviour may look like success", "anchors": [{"file": "examples/discrete_dist.cc", "symbols": ["main"]}, {"file": "examples/discrete_dist_c_style.cc", "symbols": ["main"]}, {"file": "examples/bernoulli_dist.cc", "symbols": ["main"]}, {"file": "examples/correlated_normal_dist.cc", "symbols": ["covariance"]}, {"file": "examples/stl_container.cc", "symbols": ["main"]}, {"file": "examples/time.cc", "symbols": ["time_plain"]}]}
{"id": "C108", "title": "discrete_dist with arbitrary weights in double arithmetic", "statement": "discrete_dist with at most 2^30 non-negative weights, not all zero, follows its weights although all sums and differences are rounded: a deviate below 1 - 2^-43 yields the index of a weight, a sample k is returned only if the deviate lies between the relative cumulative weights of k up to 2^-43, and over a full period of the engine the frequencies of the samples are the relative weights up to such errors, the frequency of invalid samples included. If the number of weights is a power of two, every sample is a valid index. The same holds after any history of param(x, p). pdf has a relative error of at most 2^-46, cdf one of at most (x + 32) 2^-51; cdf does not decrease. Successive samples are independent if successive outputs of the engine are, and samples of several engines with independent streams are independent: the frequency of each combination of indices is the product of the relative weights up to such errors.", "quantifier": "all lists of non-negative weights of length at most 2^30, all deviates, all engines with an equidistributed period; all rounding functions and weights for the last statement; all indices and histories of weight updates", "why_tests_cant": "all weights and deviates; rounding errors of 2^-43 do not show in samples", "anchors": [{"file": "trng/discrete_dist.hpp", "symbols": ["discrete_dist::operator()", "param_type::update_all_layers", "param_type::update_layer", "discrete_dist::pdf", "discrete_dist::cdf", "discrete_dist::param"]}]}
{"id": "C109", "title": "command line and report of the Ising example", "statement": "Ising_model accepts exactly the command lines that consist of options with values, in any order and with the last value of each option counting; numbers are read as written; with a known generator, an admissible lattice size and a positive splitting level it makes exactly one simulation with that engine and these numbers, and nothing is simulated for another lattice size. The report adds the mean and the standard error of the mean to the results without accesses out of range.", "quantifier": "all command lines, all numbers that fit into int, all lists of results", "why_tests_cant": "all argument lists and all vectors of results", "anchors": [{"file": "examples/Ising_model.cc", "symbols": ["main", "output", "wolff_main"]}]}
{"id": "C110", "title": "leapfrogging mrg and yarn engines into any number of streams", "statement": "Let an mrg or yarn engine with n terms, modulus m and a parameter set of full period be split into s streams, s not necessarily coprime to the period. Every stream repeats itself after (m^n-1)/g calls, g = gcd(s, m^n-1). Over these calls the numbers of one stream, of any two streams, of at most n neighbouring streams, any two successive numbers of one stream and, if s < m, at most n successive numbers of one stream are independent and uniform up to g/sqrt(m^(n-d)), where d is the number of values considered together: the fraction of the calls in which they lie in a set of tuples differs from the proportion of that set in all tuples by at most this. So do those of any d streams for which no linear combination of the numbers of the engine that far apart vanishes modulo m.", "quantifier": "all mrg and yarn engines, all built-in parameter sets of full period, all nonzero states, all s and stream numbers below s, all sets of tuples", "why_tests_cant": "periods up to 2^155, all numbers of streams, all states and all sets of tuples", "anchors": [{"file": "trng/mrg5.hpp", "symbols": ["mrg5::split", "mrg5::operator()"]}, {"file": "trng/yarn5.hpp", "symbols": ["yarn5::split", "yarn5::operator()"]}, {"file": "trng/mrg_parameter.hpp", "symbols": ["mrg_parameter"]}]}
{"id": "C111", "title": "words of the lagged Fibonacci engines with exclusive or", "statement": "Take a predefined lagged Fibonacci engine with ^ with largest lag L and words of w bits, in a state from which no parity of bits of n successive numbers is constantly even. Over a period of 2^L-1 calls every n words appear in n successive calls equally often, 2^L/2^(n w) times, and n words 0 once less. So n successive samples of the distributions are distributed as C101, C102 and C104 say. The condition is also needed: if all words that are not 0 appear, no parity is constantly even. Default constructed engines with words of 32 or 64 bits meet it for n = 1.", "quantifier": "all predefined lagfib2xor and lagfib4xor engines, all word sizes, all n, all states without such a parity, all words", "why_tests_cant": "periods from 2^250 to 2^19937, all states and all tuples of words", "anchors": [{"file": "trng/lagfib2xor.hpp", "symbols": ["lagfib2xor::operator()", "lagfib2xor::step", "lagfib2xor::min", "lagfib2xor::max"]}, {"file": "trng/lagfib4xor.hpp", "symbols": ["lagfib4xor::operator()", "lagfib4xor::step"]}]}

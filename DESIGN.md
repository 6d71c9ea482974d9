# Formal model of rabauke/trng4 — design

## 1. Approach and trusted base

The Lean 4 project in `lean/` contains an executable model of the TRNG sources (`/repo/trng`)
and machine-checked theorems about it.  Layout:

* `Verif/Model/*`  – the model: one Lean definition per C++ function, each with a comment
  citing file and lines and naming every simplification.
* `Verif/Spec/*`   – small independent specifications (what "n calls", "leapfrog", "a stream
  position" mean), with no reference to the model's helper functions.
* `Verif/Proofs/*` – helper lemmas.
* `Verif/Props/*`  – the property theorems, one section per property of `properties.jsonl`,
  each followed by an `example` showing that a concrete non-trivial case meets its hypotheses.

Trusted: Lean's kernel; the three standard axioms `propext`, `Classical.choice`,
`Quot.sound` (every property theorem depends on a subset of these); the reading of the C++
source that led to the model.  No own axioms, no `sorry`/`admit`, no `native_decide`,
no `bv_decide`, no `implemented_by`, no `unsafe`.

Conventions of the model

* `uint64_t`/`uint32_t` arithmetic is `BitVec 64`/`BitVec 32` (wrap-around is the C++
  semantics).  Where a function works on "mathematical" integers below a bound
  (`int_math`, `mrg*`), `Nat`/`Int` are used together with explicit no-overflow theorems.
* Undefined behaviour (shift count too large, out-of-bounds access, signed overflow,
  conversion of an out-of-range double) is a distinct outcome: `none` of an `Option`, or
  `.ub` of a result type, never silently totalised; theorems state when it cannot occur.
* Exceptions are `Except`-style results; the state before a throw is visible.
* A method that mutates `*this` is a function returning the new object.
* Loops are structural recursion or explicit fuel with a proof that the fuel suffices.
* A seeding generator `gen &g` is an arbitrary stream `Nat → UInt32-value` (the model
  quantifies over every such stream).
* Floating point, uniform deviates and what is built directly on them (C47–C50, C70, C71): a binary format
  of p significant digits (`FP.Fmt`, 24, 53 and 64 for the three C++ types; theorems hold for every p from
  2 or 5 on) and any rounding function that returns a nearest representable number (`FP.Nearest`, ties
  arbitrary); every arithmetic operation of the source is the exact rational operation followed by this
  rounding.  Round-half-even is given as a computable instance and proved to be nearest.  Simplifications:
  the exponent range is unbounded (no overflow to infinity, no subnormal numbers; the values in question
  lie between 2^-64 and 2^64), there are no NaNs, and no extended-precision evaluation or contraction to
  fused multiply-add.
* Floating point elsewhere (distributions): `Trng.XR`, exact real arithmetic extended by NaN and the two
  infinities with the IEEE rules for them (one zero instead of two), stated in each theorem's comment.
  The library functions are the real functions they approximate (the incomplete Gamma and Beta functions
  and erf by their integrals); C55–C58 take them
  as exact; the series of Beta_I, GammaP and GammaQ and the iterations of inv_Beta_I and inv_GammaP are modelled and proved
  separately (C77, C78, C80, C81), and so are the asymptotic expansion of the incomplete Gamma functions (C93), Phi, inv_Phi_approx and
  the iterations of inv_Phi, inv_erf and inv_erfc.
* Floating point with rounding in the distributions with closed forms (C96, C97): `Machine`, any monotone rounding of the exact result
  to the type, infinities included, and library functions that are only assumed to be monotone where the true functions are and exact
  at a few points (`Spec.Sound`).  `ieee` models the IEEE 754 formats with their ranges; `float`, `double` and x86's `long double` with
  correctly rounded functions are proved to meet the assumptions.  For C100 and C101 the library has a bound on its relative error instead
  (`Spec.DoubleWithin`), met by `double` with correctly rounded functions.  That the library of a given system meets them is not proved.
* The CUDA branches of the engines and of int_math.hpp are modelled (C89); those of the distributions and of
  special_functions.hpp leave out errno and the `long double` overloads and are not. HIP, thread safety of the C++ runtime, allocation failure and iostream
  internals (locale, width, wide characters) are not modelled.

## 2. Plan per property

| id | model | proof idea |
|----|-------|-----------|
| C01,C02 | `Model/LCG64`: `pow f g jump2 jump step` over `BitVec 64` | bits of the exponent; geometric sums; `jump = step^[n]` |
| C03,C04,C07 | `split`, `backward` | `T^(2^64) = id` for odd a; affine maps commute with their powers; counterexample for even a |
| C05 | product of all streams + schedule as list of stream numbers | corollary of the leapfrog theorems |
| C06 | `split` returns `Except` | case analysis |
| C08 | affine map on ZMod 2^64 | Hull–Dobell by 2-adic induction; xorshift bijective |
| C09–C12 | `Model/LCG64CountShift` with `mult_modulo` loop | loop invariant modulo 2^61-1; counterexample above 2^61 by kernel computation |
| C13–C15 | `Model/Count128`, `Model/UInt128` | arithmetic mod 2^128; negation for portable `hi()` |
| C16–C18 | `Model/Minstd` on `Nat` | 2^31 = 1 mod 2^31-1; primitive root certificate |
| C19–C25 | `Model/IntMath` | arithmetic on `Nat`; extended Euclid invariant; row-operation invariant over ZMod p |
| C26–C32 | `Model/MRG` for each order n | linear recurrences, companion matrix powers, Hankel systems |
| C33–C35 | `Model/LagFib` generic in lags/op | ring buffer refinement to infinite sequence |
| C36,C37 | `Model/MT` | refinement to infinite sequence |
| C38 | per engine | equality decides the full state, or explicit counterexample |
| C39, C40 | `Model/Xoshiro`, `Model/LinAlg` | linearity, matrix powers |
| C41 | `Model/Xoshiro` | characteristic polynomial f: f(A)v = 0 for the default state, X^(2^256) = X mod f and X^((2^256-1)/q) ≠ 1 for the prime factors q, all evaluated by the kernel; then every non-zero state is a power of A applied to v. Output period and value counts follow |
| C42 | `Model/LinAlg` blocked loops over lists | loop = sum |
| C43,C44 | `Model/UInt128` | limb arithmetic; digit strings |
| C45,C46 | `Model/Stream`: stream = remaining characters, eofbit, failbit; all operators << and >> of engines, parameters and statuses; number conversion as in the C++ standard, "C" locale | for each operation: it accepts the texts of its grammar, and only these; composed for all engines; failing reads keep the target |
| C47–C50 | `Model/Float`, `Model/Uniform`: formats of p digits with any rounding to nearest | error bounds of each rounding step; the borders 0 and 1 by the spacing of representable numbers; counterexamples by kernel computation |
| C70 | the same | monotone rounding; sum of the error bounds |
| C71 | `RealParam` | as C48; counterexample by kernel computation |
| C51 | `Model/Discrete` | binary search invariant |
| C72 | the same with rounding after each operation | integer weights: all sums and differences are exact; counterexample by kernel computation |
| C52–C54 | `Model/Discrete` heap over ordered field | tree invariant, alias-method mass conservation |
| C55–C58 | `Model/XReal` (exact reals with NaN and infinities), `Model/DiscreteLaws`: the constructors' tables, the search, the tail loops, pdf, cdf | Vandermonde and binomial identities, the incomplete Gamma and Beta functions as integrals with their derivatives, telescoping; laws by Lebesgue measure |
| C59–C63 | `Model/Continuous` over `XR`: pdf, cdf, icdf, operator(), min, max of twelve distributions | per distribution: F∘G = id, G∘F = id, derivative; from these generically (`CdfData`): monotonicity, continuity, limits, ∫pdf = cdf, the law of the samples |
| C75 | `Model/MT` (nothing new) | the characteristic polynomial of the recurrence is computed in the kernel from the parameters of the engines; it is primitive because X^(2^19937) = X modulo it, its degree is 19937 and 2^19937−1 is prime (Lucas–Lehmer, `Proofs/Mersenne`). The 19937 squarings are checked with Kronecker substitution (`Proofs/Gf2Kron`) in certificates written by `tools/mtprim.py` (`Proofs/MTPrim32`, `MTPrim64`): the kernel checks every step, the script is not trusted. Equidistribution: the powers of the shift visit every non-zero window |
| C60–C63, C73, C74 | `Model/Normal`: erf as an integral, Phi with its branches, inv_Phi_approx with its coefficients, the Halley steps, normal, lognormal, truncated normal, Maxwell (Newton iteration included) | `CdfData` with the exact inverse (intermediate value theorem); truncated normal and Maxwell through copies clipped to the support; Halley: the derivative of the step is h²(c+c²y²)/(1+cyh)², mean value theorem; accuracy of the rational approximation (`Proofs/PolyBound`, `AcklamCert`, `Acklam`, `AcklamInv`, `InvPhi`): the logarithm of the derivative of Phi∘approximation is followed over a chain of intervals, on each of which its derivative is bounded by Bernstein coefficients (computed in the kernel on packed integers; `tools/acklam.py` finds the intervals and is not trusted), tails by bounds of Mills' ratio; Maxwell (`Proofs/Maxwell`): each Newton step at least halves |cdf - u|, by cases: in the tail the distribution has an increasing hazard rate, left of the mode the distribution function is convex, near the solution the density varies little |
| C64 | `Model/Correlated`: the in-place factorisation on the flat vector, H_times, the buffer, over `XR` with out-of-range access undefined | row by row invariant; the pivot is positive because it is the value of the quadratic form at a solution of a triangular system; law: characteristic functions |
| C76–C78 | `Model/Special`: Beta, Pochhammer, log, sqrt, mln1p, Beta_I with its loop (the `int` s included), inv_Beta_I with damping; rounding only where 1 - small is formed in the start value | Beta_I: integration by parts gives each term of the sum and an exact remainder, which the stopping rule bounds; inv_Beta_I: F is log-concave and convex left of the mode, so that Newton halves the error at least |
| C79 | `Model/BetaDists` with Beta_I and inv_Beta_I as arguments | `CdfData` with the exact inverse; change of variables, Legendre's duplication formula for Student's density |
| C80, C81 | `Model/Special`: GammaP_ser, GammaQ_cf, GammaP, GammaQ, inv_GammaP with their loops; the asymptotic expansion is an arbitrary function here, for it see C93 | series: integration by parts with exact remainder; continued fraction: the integrals ∫((t-x)/t)^n … satisfy its recurrence, growth of the denominators bounds the truncation error; inverse: Halley's method is Newton's method for (P-p)/√P', which is convex above and concave below the solution for a ≥ 1 |
| C82 | `Model/GammaDists` with GammaP and inv_GammaP as arguments | `CdfData` with the exact inverse |
| C83 | `Model/Examples`: the programs of /repo/examples over an engine with `u(r)`, `jump`, `split`; signed overflow is undefined; TBB executions as trees, reductions as lists of ranks | one deviate is one call; sums over sections, residue classes and trees |
| C84,C85 | `Model/DistText`: << and >> of the 32 distributions and their `param_type`s over the streams of `Model/Stream`, in addition the precision of the output stream; floating-point numbers are exact rationals of a format, printed in `fixed` notation and read with correct rounding | the printed decimal is within half a unit; rounding it gives the number back iff that is a literal of this length; grammar accepted exactly, as for C46 |
| C86,C87 | `Model/DistObjects`: the parameter classes of 28 distributions with their cached members, constructors, setters, getters, `operator==`; for discrete_dist, fast_discrete_dist and correlated_normal_dist the objects of C53, C54, C64 | every setter is the constructor on the new values; induction over the history; vector lengths determine the sizes |
| C88,C89 | `Model/MRGWritten`: the functions of mrg2 … yarn5s statement by statement, as they are written out for two to five terms, each with a flag for TRNG_CUDA; `Model/CudaSplit`: `split` of the LCG and count128 engines with TRNG_CUDA | every function equals the generic one of `Model/MRG`, so C26–C31 carry over; the device code differs in the missing argument checks, the loop for the power of yarn and the missing exceptions of modulo_inverse and gauss |
| C90,C91 | `Model/Ising`: class `lattice`, `wolffstep` and the loops of `wolff_main` of examples/Ising_model.cc, `int` with overflow, vector indices checked; the engine and the distributions enter as functions that give `U(R)` and `B(R)` (`source` builds them from an engine) | `Proofs/Ising`: the loop refines an abstract growth of a set of sites of `ZMod L × ZMod L` (`Proofs/Wolff`), with a measure for termination; the probability of a cluster is defined by recursion along the same loop and shown equal to the sum over all sequences of draws; comparing the draws at the boundary of the cluster for the two directions gives detailed balance; uniqueness by the maximum principle |
| C67 | orbit of the state under the companion matrix | counting: the m^n-1 states of a period are all non-zero states |
| C92 | the models of the engines (no new definitions) | counter and LCG of lcg64_count_shift have coprime periods (Chinese remainder theorem); for the others the tuples of one period are a bijection onto the non-zero tuples (cardinalities) and shorter tuples are counted by their extensions; the bits of lagged Fibonacci engines solve a recurrence over GF(2) with primitive polynomial (`Proofs/LagFibPeriod`) |
| C93 | `Model/GammaAsympt`: GammaPQ_asympt_coefficients (the literals), max_index, GammaPQ_asympt_R, GammaP_asympt, GammaQ_asympt | the computed value as a function of x solves the differential equation of the incomplete Gamma function with a residual that is a polynomial of high order in s, Stirling's series with bounds on the remainder fixes the factor, integration from infinity gives the error (`Proofs/Temme*`, `Proofs/GammaAsympt*`); rational bounds are decided by computation in the kernel; the exceptions are zeros of polynomials in 1/a |
| C94 | no new definitions: `Special.gammaP`, `gammaQ` with `gammaPAsympt`, `gammaQAsympt`, and `Model/GammaDists` with them | C80, C81 and C93 put together; below 4ε the true value is at most x^a / Γ(a+1) |
| C95 | `Model/DiscreteNumeric`: poisson_dist, zero_truncated_poisson_dist, negative_binomial_dist with `GammaQ` and `Beta_I` as the library computes them | the search brackets the deviate in any table, monotone or not; the tail loop sees the deviate shifted by the error of the last entry (`Proofs/TailApprox`); errors by C94 and C77; for small means the relative error of the series |
| C96,C97 | `Model/Rounded`: the distributions with closed forms once more, with a rounding after each operation and with library functions as parameters (`Machine`); IEEE 754 formats with subnormal numbers and overflow | monotony of each operation, from the monotony of rounding; the formats are proved to meet the assumptions of `Spec/Rounded`; counterexamples by powers of two; the tail of erf by a differential inequality; the joints of `Phi` by Taylor sums of erf; the logistic counterexample by Taylor sums of exp |
| C98 | `Model/RoundedDiscrete`: hypergeometric_dist, binomial_dist, zero_truncated_poisson_dist and geometric_dist with the same rounded arithmetic | the binary search ends at an index of any table; NaN and infinities followed through the cumulative table; bounds on factorials evaluated by the kernel; forward error analysis of the entries, the cumulated sums and the division, and the comparisons the binary search makes (`RoundedTable`, `RoundedBinomial`, `RoundedHyper`) |
| C100 | `Model/RoundedInverse`: inv_Phi_approx, inv_Phi and normal_dist with a rounding after each operation; a C library with a bound on its relative error (`Spec/RoundedInverse`) | forward error analysis of the Horner schemes, the logarithm and the square root (`RoundedHorner`, `RoundedTail`, `RoundedCentre`), of `Phi` (`RoundedPhi`) and of the Halley step (`RoundedStep`), on top of the analysis for exact reals of C73 with the guess perturbed |
| C101 | `Model/PeriodLaw`: `operator()(R &)` as the composition of the uniformxx model with the rounded sampling functions; engines as generators with a range | counting (`Proofs/PeriodLaw`): if every value is equally frequent and the distribution function at the sample is the position of the engine's value up to δ, then empirical and true distribution functions differ by δ plus the resolution; the position of deviates (`PeriodDeviate`); forward error analysis of each sampling function with a Lipschitz bound of its distribution function (`PeriodSample`, `PeriodPower`, `PeriodTrig`); equal frequency of values from C08, C41, C75, C92 (`PeriodEngines`) |
| C102 | `Model/PeriodDiscrete`, with the models of uniform_int_dist, bernoulli_dist, discrete_dist (`Model/Discrete`) and geometric_dist (`Model/RoundedDiscrete`) | counting as for C101 (`Proofs/PeriodDiscrete`): if the deviate lies between the cumulated probabilities below and up to the sample, up to δ, then the frequencies are right up to δ and 2 δ; that each sampling function is such an inversion: `Proofs/PeriodInteger`, C72 |
| C103 | `split` and the calls of the engines as in C03, C11, C13, C28 | k ↦ (s k + n) mod T permutes the calls of a period if s and T are coprime; the calls of all streams are s periods (`Proofs/LeapfrogUniform`); even s: the indices of a stream have one parity, so it has at most half of the values |
| C104 | engines and sampling functions as in C101, C102 | the positions of a period are counted by tuples of numbers (`Proofs/Independence`), a sampling function with one call is a function of the number, its law over the range follows from C101, C102 applied to an engine that counts; products of probabilities differ by at most the sum of the differences |
| C105 | engines and sampling functions as in C101, C102; `jump`, `jump2`, `split`, `seed` as in C27, C28, C31 | the state moves by powers of a companion matrix of order m^n - 1 that reaches every nonzero state; without a relation the map from the state to the numbers of the streams is onto and its fibres have equal size, with a relation the numbers lie in a hyperplane (`Proofs/Streams`); two streams are related when the power of the matrix is a multiple of the identity, i.e. at the multiples of (m^n-1)/(m-1); leapfrogging by s coprime to the period permutes the calls; the laws as in C104 |
| C106 | as C105, with the parameter sets of half the period | minus the companion matrix has order m^n - 1 and reaches every nonzero vector; the orbit of half the period is the set of vectors with value 1 of the quadratic character (-1)^t of D^t v0; the character has correlation -1 with each of its shifts, since the group moves every shift into every other and the character sums to 0; so the squares of its sums over the fibres of a linear map onto d components sum to m^n - m^(n-d), and the sum over any set of fibres is at most the root of m^(n+d) (Cauchy-Schwarz); for one component all squares are equal, as a scalar is a power of D (`Proofs/HalfPeriod`, `Proofs/HalfPeriodEngines`); the laws as in C105 with this error instead of 1/T |
| C107 | `Model/Programs`: the loops of the sequential programs, with their constants as parameters; accesses outside a vector and overflow of int are undefined | induction on the number of turns; the range of the samples is C49, C72 |
| C108 | `Model/Discrete` with the rounding of double | `Proofs/DiscreteRounded`: each node is the exact sum of its leaves up to a factor (1 + 2^-53)^height; descending loses one such error per layer; the frequencies by counting as for C102; several samples (`Props/DiscreteJoint`) by the product argument of C104 and C106 |
| C109 | `Model/IsingMain`: `main` as a function of the argument list, `std::atoi` included; `output` on vectors whose accesses are checked | induction on the argument list and on the loops |
| C110 | engines and `split` as in C105 | the states of every s-th call are a coset of a subgroup of the nonzero vectors; a sum of an additive character over it has modulus at most the root of m^n, because it takes the same value for as many characters as the coset has elements and the squares of all of them sum to m^n times that number (`Proofs/Cosets`); the number of states with d components in a given set is a sum of such sums (Cauchy-Schwarz); no relation between neighbours or two streams as in C104, C105, between successive numbers of a stream because otherwise the matrix of s steps would have at most m^(n-1) powers |
| C111 | engines as in C33 | the bits of n successive words are sequences with the same linear recurrence; every combination of them that is not constantly 0 takes each nonzero window once in a period (C92), so its signs sum to -1 (`Proofs/LagFibWords`); counting words by orthogonality of signs; default construction (`Proofs/LagFibSeeded`): the first numbers in closed form, and for every bit a selection of them whose exclusive or is that bit, computed in the kernel (generated by `tools/lagfib_seeded.py`) |
| C99 | `Model/Dieharder`: the whole program as a function of the command line, with the engines and the text conversions of the other models | parsing by the theorems on `readU`; the values by induction on the loop; ranges from C26, C30, C36 |
| C65 | sequences; the values of all ranks as a list, and up to the order (`List.Perm`) for leapfrog | corollary of C01, C03, C09, C11, C13, C17, C27, C28, C34, C37, C40 |
| C68 | `LagFib.step` with `^` on the predefined lags | the characteristic trinomial/pentanomial is primitive: X^(2^L) = X computed in the kernel (Frobenius chunks), 2^L-1 prime by Lucas-Lehmer in the kernel (L = 250: by its factors); the orbit of a non-zero solution has the order of X |
| C69 | `LagFib.step` with `+` | lift of C68 from bits to words: order of X modulo 2^w is 2^(w-1)(2^L-1) when X^(2^L-1) is not 1 modulo 4, checked in the kernel |
| C66 | `seed` functions | the new state is a function of the seed; injectivity of the output map on the reached states |

Not expressible: nothing in the list is excluded outright; what the model cannot exhibit
(rounding inside libm, performance, real thread interleavings inside one engine object,
which is documented as not thread safe) is named in the notes of `MANIFEST.json`.

## 3. Disagreements between the code and the properties (findings)

Found while reading; each is (to be) backed by a theorem with a concrete witness.

* F1 `portable_impl::hi()` returns `m_lo` → `count128_lcg_shift` is constant on platforms
  without native 128-bit integers.
* F2 `count128_lcg_shift::parameter_type::operator==` ignores `increment`.
* F3 `minstd::discard` reduces modulo `max-min = period-1`.
* F4 `lcg64_count_shift::jump(s)` wrong for large `s` (operand of `mult_modulo` not reduced).
* F5 `lagfib*::discard(1)` enters the matrix branch with exponent `1-B` wrapped: it makes 2^64+1
  steps, and is very slow.
* F6 `lagfib*` with largest lag a power of two: ring of size `B` indexed with mask `2B-1`.
* F7 re-seeding a used `lagfib*` leaves stale ring entries: `==` with a fresh engine is false.
* F8 `mt19937*::operator==` ignores the position `mti`.
* F9 `mrg5/mrg5s/yarn5/yarn5s::backward`: if `a[k]`, `k < 4`, is the last non-zero coefficient, the
  window starts at `r[3-k]` instead of `r[4-k]`.  All fallbacks are off by one
  (`C29_mrg5_backward_wrong`), so `split` of a five-term engine is wrong whenever the subsequence has
  a shorter recurrence (`C28_mrg5_split_wrong`); this never happens with the built-in parameters
  (proved: the characteristic polynomial is irreducible of prime degree 5).
* F10 `yarn5s::seed(gen)` can produce negative state entries.
* F11 `mrg*/yarn*::seed(unsigned long)` reduces the value as *signed* 64-bit.
* F12 `gauss` throws for some solvable singular systems.
* F13 `fast_discrete_dist` sizes all tables from a moved-from vector.
* F14 `discrete_dist::param(N-1,p)` for odd `N>1` reads out of bounds.
* F15 `powerlaw_dist::cdf` negative on `(0,theta)`; `maxwell_dist`, `truncated_normal_dist`
  pdf/cdf not clipped to the support.
* F16 `hypergeometric_dist` uses `C(n-m,m-x)` instead of `C(n-m,d-x)`.
* F17 `binomial_dist(0,n)` has an all-NaN table and always returns `n`.
* F18 `uniform_int_dist(a,b)`, `b-a` overflows for wide ranges.
* F19 `count128_lcg_shift::seed(gen &)` cannot be instantiated (it calls a constructor that does
  not exist), so it has no behaviour to model.
* F20 `uint128` `operator<<` honours the stream width but does not reset it to 0.
* F21 default-constructed `poisson_dist`/`binomial_dist` parameter tables are empty; sampling from
  them reads outside the table.
* F22 `correlated_normal_dist::param(P)` in the middle of a vector keeps the old buffer; with a smaller dimension the next call
  reads outside the matrix (C64_param_wrong).  A default constructed parameter object has dimension 0 and the first call
  with it is undefined (C64_default_wrong).
* F23 the documentation (Table 4.2) gives period m^n-1 for all mrg/yarn engines.  The default
  parameter sets of mrg3s, yarn3s, mrg5s, yarn5s have period (m^n-1)/2 (`C32_mrg_period_wrong`);
  `LEcuyer2` of mrg4 and yarn4 has states recurring after m^2-1 calls (`C32_mrg4_LEcuyer2_wrong`).
* F24 `seed(gen &)` of the mrg and yarn engines initialises `result_type` (signed) with braces from an
  unsigned expression: narrowing, which the standard calls ill-formed.  The model gives it the
  value every compiler that accepts it gives.
* F25 `geometric_dist` converts a possibly huge double to `int`.
* F27 `uniformoo` returns exactly 1 for engine ranges max-min of more than p-2 bits whose leading bits are about
  1.1001…1.1010 (e.g. 0..1725198086 for float), and 0 and 1 for an engine with two results
  (C47_uniformoo_wrong).  No engine of the library is concerned.
* F28 the integer overload of `generate_canonical` (uniformxx.hpp) uses `R::max`, `R::min` without calling
  them and cannot be instantiated.
* F29 `bernoulli_dist` with head == tail: `pdf(head)` is p, not 1 (C50_bernoulli_same_wrong).
* F30 `uniform_dist(a, b)` can return b (C71_uniform_dist_upper_wrong).
* F31 `discrete_dist` in floating point: the rounding errors of the tree sums and of the subtractions on the way down can
  lead to a missing leaf; a sample can be N or the code reads past the end of the tree (C72_discrete_rounding_wrong).
* F32 `fast_discrete_dist::param_type` (beside F13) normalises its argument, not the member used by `pdf` and `cdf`.
* F26 reading a `uint128` in hexadecimal accepts an `x` after any first digit.
* F33 `binomial_dist` with p = 0 or p = 1: `0 * ln(0)` makes every table entry NaN; pdf and cdf are NaN and every sample is n
  (C56_binomial_ends_wrong).
* F34 `poisson_dist(0).pdf(0)` is NaN for the same reason (C57_poisson_mean_zero_wrong).
* F35 `geometric_dist` converts a floating-point number that may be beyond INT_MAX to int (C58_geometric_overflow_wrong).
* F36 `powerlaw_dist::cdf` is not 0 between 0 and theta but negative (C61_powerlaw_wrong), so that it also disagrees with pdf
  there (C60_powerlaw_wrong).
* F37 `icdf` of pareto_dist, powerlaw_dist, extreme_value_dist and cauchy_dist rejects 0 and 1, which the lines after the check
  would handle; weibull_dist rejects 1 (C63_ends_wrong).
* F38 `truncated_normal_dist::pdf` and `cdf` are not clipped: outside [a,b] pdf is positive and cdf negative or greater than 1
  (C60_truncated_normal_wrong, C61_truncated_normal_wrong); `icdf` does not check its argument (C63_truncated_normal_wrong).
* F39 `maxwell_dist::pdf` is positive and `cdf` negative below 0 (C60_maxwell_wrong, C61_maxwell_wrong).
* F40 `correlated_normal_dist` with a singular covariance matrix can divide 0 by 0 and give NaN (C64_semidefinite_wrong).
* F41 `correlated_normal_dist::operator()(r, P)` makes a new object for each call, so that it always gives the first component and
  never a correlated vector (C64_param_call_wrong).
* F42 A field width set on the output stream pads the opening bracket of an engine's text; the text is then not readable
  (C45_width_wrong).
* F43 Reading an engine checks the form of the text but no values: a negative position of a Mersenne twister (undefined
  behaviour, C46_mt_wrong) and the stuck states of minstd and xoshiro256plus (C46_minstd_wrong, C46_xoshiro_wrong) are accepted,
  and `-1` for an unsigned number (C46_sign_wrong).
* F44 `maxwell_dist::icdf` makes at most digits + 2 Newton steps, each of which at best divides the guess by 3: for arguments far below
  the machine epsilon the result has no correct digit, although the absolute error is small (C73_maxwell_relative_wrong).
* F45 `math::log(b, x)` multiplies the logarithms of x and b instead of dividing them (C76_log_wrong).
* F46 `Pochhammer(x, a)` loses the sign for negative x (C76_pochhammer_wrong).
* F47 `Beta_I(NaN, p, q)` converts NaN to `int`, which is undefined (C77_nan_wrong); `student_t_dist::cdf(±∞)` and
  `snedecor_f_dist::cdf(∞)` do this (C79_infinity_wrong).
* F48 `inv_Beta_I` does not end if its start value is rounded to 1: `beta_dist(0.25, 0.25)` hangs with a probability above 2^-16 per
  sample (C78_hang_wrong, C79_hang_wrong).
* F49 `inv_Beta_I` returns 0 and 1 for probabilities closer than the machine epsilon to 0 and 1: the samples of student_t_dist and
  snedecor_f_dist are then infinite (C79_tails_wrong).
* F50 `snedecor_f_dist::cdf` and `pdf` are NaN below 0, and `pdf(0)` is NaN for n = 2 (C79_snedecor_wrong).
* F51 `icdf` of student_t_dist and snedecor_f_dist rejects 0 and 1, which the lines after the check would handle (C79_ends_wrong).
* F52 `operator==` of the parameters of beta_dist compares `alpha` only (C79_eq_wrong).
* F53 `GammaP(a, x)` is 0 for x < 4ε, although for small a the true value can be close to 1 (C80_small_wrong).
* F54 The series of `inc_gamma` ends after `digits` terms, which is too early for large a (C80_many_wrong); the continued fraction
  of `GammaQ` ends after `digits` steps, too early for x close to a + 1 (C80_fraction_wrong).
* F55 `GammaP(a, ∞)` and `GammaQ(a, ∞)` are NaN (C80_infinity_wrong), hence `cdf(∞)` of gamma_dist and chi_square_dist
  (C82_infinity_wrong).
* F56 `inv_GammaP(a, 0)` is NaN for a > 1 (C81_zero_wrong): gamma_dist with kappa > 1 and chi_square_dist with nu > 2 return NaN for
  the uniform deviate 0 (C82_zero_wrong).
* F57 `inv_GammaP(a, p)` starts at 1/1000 or above for a > 1 and makes at most `digits` steps: for tiny p the result has no correct digit
  (C81_tiny_wrong).
* F58 `icdf` of gamma_dist and chi_square_dist rejects 0 and 1, which the lines after the check would handle (C82_ends_wrong).
* F59 `gamma_dist(1, theta).pdf(0)` is NaN (C82_pdf_wrong).
* F60 site_percolation_embarrassing.cc computes `(size - 1) * number_of_PRNs_per_sweep` in `int`: with more than 42950 processes this
  overflows (C83_percolation_wrong).
* F61 twosided_exponential_dist is written with the name of exponential_dist but read with its own: its text is never accepted by it,
  and is accepted by exponential_dist (C84_twosided_exponential_wrong).
* F62 The number of weights written by fast_discrete_dist is 0 (it is taken from a vector that was moved from): its text is not
  accepted (C84_fast_discrete_wrong).
* F63 Floating-point parameters are written with digits10 + 1 decimals after the point: small ones come back as 0, others with a
  different value (C84_small_wrong, C84_digits_wrong).
* F64 Infinite parameters, for which truncated_normal_dist provides, are written but not accepted (C84_infinite_wrong).
* F65 Writing a distribution changes the precision of the stream permanently, and bernoulli_dist does not set it: its text depends on
  what was written before; by default p < 5e-7 is written as 0 (C84_precision_wrong).
* F66 Reading discrete_dist, fast_discrete_dist or correlated_normal_dist uses an uninitialized variable if the name or the
  parenthesis is missing (C85_undefined_wrong); the dimension 65536 is accepted without elements (C85_dimension_wrong).
* F67 Reading a distribution does not check the values of the parameters (C85_unchecked_wrong).
* F68 The default constructors of the parameters of binomial_dist, hypergeometric_dist, poisson_dist, zero_truncated_poisson_dist and
  negative_binomial_dist leave the table empty: drawing from them is undefined (C86_default_wrong).
* F69 Changing the range of uniform_int_dist with the setters can overflow in either order (C86_uniform_int_wrong).
* F70 Setting `r` of a default-constructed parameter object of negative_binomial_dist does not terminate, because the table is built
  with p = 0 (C86_negative_binomial_wrong).
* F71 `operator==` of correlated_normal_dist ignores the variates kept since the last complete vector: equal objects give different
  numbers (C87_correlated_wrong).
* F72 Compiled with TRNG_CUDA, `split` accepts invalid arguments: split(0, n) leaves the engine as it is, and a stream number that is
  too large gives an overlapping stream (C89_split_unchecked, C89_lcg64_split_unchecked).
* F73 Ising_model.cc: `lattice(L)` has spins 0, and for these `flipp` does nothing, so `wolffstep` need not end on a lattice that has
  not been filled (C90_unfilled_wrong); `wolff_main` fills it.  Without `--split`, `main` calls split(0, 0), which throws.
* F74 special_functions.hpp:369-377: the sum of the correction of the asymptotic expansion is left when a term changes nothing, also
  when this is so because a single coefficient vanishes; for a in a small neighbourhood of about 16.178 (double) the following terms,
  of about 9ε at x = a/e, are missing (C93_exception_wrong).  The literal of d[35] has no suffix `l`, so it is rounded to double
  (harmless: `float`, `double` and the 80-bit `long double` use 12, 27 and 32 coefficients).
* F75 truncated_normal_dist computes with Phi, which is 1 in the upper tail: for ends from about 8.3 standard deviations above the mean
  on (proved from 12 on) every sample of the `double` version is infinite, although max() is finite, and cdf is NaN
  (C96_truncated_normal_wrong).  The lower tail is not affected; the code could reflect the interval.
* F76 chi_square_dist::pdf forms a power and an exponential that overflow separately: `chi_square_dist<double>(1000).pdf(1000)` is NaN
  (C97_chi_square_wrong).
* F77 Products of arguments or parameters overflow or underflow before they are divided: tent_dist::cdf, rayleigh_dist::cdf and pdf are
  NaN for large or small scales, weibull_dist::pdf and maxwell_dist::pdf for large arguments (where the density is 0), and so is the
  argument of the incomplete Beta function in student_t_dist::cdf, where the value is 1 (C97_tent_wrong, C97_rayleigh_wrong,
  C97_weibull_wrong, C97_maxwell_wrong, C97_student_t_wrong).
* F78 hypergeometric_dist multiplies binomial coefficients without dividing by C(n,d): an entry of the table overflows for large
  parameters, the normalization makes zeros and NaN of all entries, and every sample is max(); hypergeometric_dist(2000,1000,1000) in
  `double` always gives 1000 (C98_hypergeometric_wrong).
* F79 zero_truncated_poisson_dist computes `(exp(mu) Q(x+1,mu) - 1) / expm1(mu)`: for a mean of 710 or more (`double`) both are infinite, cdf
  is NaN and every sample is the same number; for a tiny mean the numerator cancels to 0, cdf of small numbers is 0 instead of
  nearly 1, and the loop for the tail does not end before `x` overflows (C98_zero_truncated_poisson_large_wrong,
  C98_zero_truncated_poisson_small_wrong).
* F80 geometric_dist computes `ln(1 - p)` instead of `ln1p(-p)`: for p so small that `1 - p` rounds to 1 each draw converts an infinity to
  `int` (C98_geometric_wrong).
* F81 logistic_dist<double>::cdf is not monotone: with a correctly rounded `exp`, `1 / (1 + exp(-x))` gets smaller from one number near
  -0.8 to the next (C97_logistic_wrong).
* F82 examples/dieharder_file prints the seed but does not give it to the engine: the values are always those of the default engine
  (C99_seed_wrong).
* F83 examples/dieharder_file accepts a negative number of samples or seed and takes it modulo 2^64 (C99_negative_wrong).
* F84 inv_Phi(double), and with it normal_dist<double>::icdf, gives NaN for positive arguments up to 2^-1032: `exp(y * y / 2)` overflows in
  the Halley step (C100_inv_Phi_small_wrong).
* F85 lcg64 and lcg64_shift split into an even number of streams: each stream has at most half of the numbers of the range, and a period of 2^64
  divided by the largest power of two in the number of streams (C103_lcg64_wrong, C103_lcg64_period); with 2^20 streams 2^44 calls are left.  split
  accepts every number of streams.
* F86 `seed(s)` of the mrg and yarn engines sets the state to (s mod m, 1, ..., 1).  The states of any three seeded engines are linearly dependent, so
  in every call the numbers of engines mrg seeded with 0, 1, 2 satisfy z = 2 y - x modulo m.  A parallel program that seeds its processes with their
  ranks gets pairwise independent streams, but no three of them are independent (C105_seed_relation, C105_seed_wrong).
* F87 mrg2 and yarn2: `jump2(s)` with s >= 31, and `jump(s)` for multiples of 2^31, give an engine whose hidden numbers are those of the old engine times
  a constant modulo m, so block splitting into blocks of 2^31 numbers gives dependent streams (C105_jump2_wrong).
* F88 mrg3s, mrg5s, yarn3s and yarn5s with their default parameters are not exactly uniform over their period: squares and non-squares modulo m differ in
  frequency by m^((n-1)/2) (C106_frequency).  The relative difference is 1/m for n = 3 and 1/m^2 for n = 5, too small to be observed.
* F89 examples/pi_leap_cuda.cu gives each thread as many points as block splitting would, but takes them from leapfrogged streams.
  Unless the number of threads divides the number of points (its 128 threads do not divide its 1000000 points) the points are not those of
  the sequential program, so the result depends on the number of threads (C83_pi_leap_cuda_wrong; C83_pi_leap_cuda_actual says which points it uses).
* F90 examples/time.cc: `time_plain` adds 2^24 values in a variable of the engine's result type.  For the mrg and yarn engines this is a signed 32-bit
  integer, and the sum overflows (undefined behaviour) after at most 14 values of the default engines (C107_time_plain_wrong).
* F91 discrete_dist: `cdf` divides a sum taken from left to right by the sum of the tree, which is rounded differently.  With fifteen weights 0.1
  cdf(14) is 1 + 2^-52 and cdf(15) is 1 (C108_cdf_wrong).
* F92 examples/Ising_model.cc: if `--split` is not given, or is 0, `split(0, 0)` of the first engine throws std::invalid_argument, which is not
  caught, whatever generator is asked for (C109_split_wrong).  A generator that is not known ends the program without output and with
  EXIT_SUCCESS (C109_generator_wrong); the lagged Fibonacci generators must be given by names such as lagfib2xor_32_103_250, and ignore the
  splitting level that is printed.

# Formal model of Tomev-CTP/theboss in Lean 4

## Layout

* `lean/Verif/Py.lean` – Python semantics used by the model: exceptions as values, list indexing (negative indices
  included), checked natural subtraction, `while` with fuel.
* `lean/Verif/Prog.lean` – programs with random draws (a free monad over `random()`, `randint`, `choice`, permutations),
  with two semantics: `wp` (expectation / probability, Lebesgue integral for `random()`) and `Runs` (every possible run).
* `lean/Verif/Model/*.lean` – the model, function by function; every definition cites file and lines of `/repo`.
* `lean/Verif/Spec/*.lean` – small specifications written without the model's helpers.
* `lean/Verif/Proofs/*.lean` – helper lemmas.
* `lean/Verif/Props/*.lean` – the property theorems (`Cnn_…`), with non-vacuity examples next to them.
* `properties.jsonl`, `MANIFEST.json` – the properties and the theorems proving them.
* `seeded/LOG.jsonl` – the theorems tested against wrong programs (one line per edit of the model).

## How to read `seeded/LOG.jsonl`

Each edit was made in a scratch copy and rebuilt. Every proof that broke was replaced by `sorry` until the build went through;
`theorems_failed` lists the property theorems that then depend on a `sorry`. This shows that the existing *proof* no longer
goes through. It does not show that the *statement* became false: a proof can break in a helper lemma that merely mirrors the
edited definition, and the theorem might be provable in another way. The log therefore separates

* `proofs_broken` – the declarations whose own proof broke, helper lemmas included;
* `failed_in_own_proof` – property theorems among these (the stronger evidence);
* `failed_only_through_lemmas` – property theorems that failed only because a lemma they use did (the weaker evidence: no
  refutation of the statement was checked unless the line says so).

Lines with `reviewed_by_hand` were corrected after looking at whether the statement really becomes false. One such review
found a gap: C109 had no theorem about returning too many states (now `C109_no_more`), although the log had listed the
edit as caught. The edits that failed only through lemmas
were then read through once, by their one-line descriptions. That found a dozen edits that probably do not break the claim they
were meant to break (`doubt`); their `theorems_failed` are left as recorded and should not be counted as evidence. After that
the statements of C01–C110 were read once against their English claims, looking for statements that hold in one direction only
or speak about a helper instead of the method. For C01–C77, C106 and C107 this was done from a printout that cut long lines
and long statements, so it was not a complete reading. It found four gaps, each closed by a theorem: the samples of a thread
(`C43_threads`; before, only the helper that splits the number was covered), outcomes of probability zero (`C61_zero`), the
accuracy reached by the unweighted distribution (`C33_unweighted`, which now includes it) and the value of the distance
between matrices (`C73_value`; twice the distance would have met the other theorems). It also found English claims that left
out size limits the theorems assume (C87, C89, C95, C97, C98, C110); these are now in `properties.jsonl`. A fifth gap
passed that reading and only showed when the effect of single edits was thought through: `C62_terminates` assumed that `k`
states can occur, so no statement ruled out dropping the limit on `k` although the log had listed six theorems as failed; it
now assumes this of `min(k, number of states)`. The 335 edits
that had failed theorems only through lemmas were then gone through again, asking of each whether at least one theorem of the
claim becomes false. This was quick: the edits of the floating-point models (C86–C95 and later) were mostly judged together,
by the argument that they change a value by more than the tolerance in small cases, the statements were looked up only where
this seemed doubtful, and the arguments are not written out in the log. A first pass over the list had accepted an edit that a
second look showed to be ruled out by no theorem: with the phases after the Fourier matrix (`approxMatrix`) the returned
numbers no longer depend on them, which `C68_probabilities_partial` allows because it only says that some phases exist. This
sixth gap is closed by `C68_law_partial`. Two edits carry a `doubt` since then: putting the particles always into the first
approximated mode (`bobsSample`), which leaves the law unchanged (`C58_mode`), and a branch of `floorDivR` that the theorems do not
seem to reach. Theorems noticed to survive were moved to `still_proved`; other listed theorems of the same edits were not all
examined. All of this is reading, not proof, and gaps of the same kind may remain. Only the edit "maximum instead of minimum" of
`rFindRandomR` was checked by repairing the lemmas.

Most edits are of the second kind only, so the log is not a proof that every listed theorem rules out the edit. Lines with a
`note` starting "no result" are attempts where the edited model did not compile or the run did not finish. Reasons under
`still_proved` were judged by hand or, for "does not speak about …", computed from the dependencies of the theorem.

## Trusted base

* Lean 4.33.0 kernel, and the Mathlib definitions used in statements (`Matrix.permanent`, `Matrix.unitaryGroup`,
  `MeasureTheory.volume`, `Nat.choose`, …).
* Axioms: at most `propext`, `Classical.choice`, `Quot.sound`; the table at the end lists them per theorem. No axiom of our
  own, no `sorry`, no `native_decide`, no `bv_decide`.
* The reading of the Python source. The code is not executed here; the model is tied to it only by the citations.
* External code is a parameter or an assumption of the model, never proved. See the next section.

## What is modelled, and what is assumed

Modelled: every function of `theboss/` that computes something, i.e. all of `boson_sampling_utilities.py`, the permanent and
submatrix-permanent calculators with their factory, the distribution calculators (also the unfinished one from separable
states), `quantum_computations_utilities.py`, the network strategies, all simulation strategies, their factory and
`boson_sampling_simulator.py`.

Not modelled: abstract interfaces (`*_interface.py`, `network_simulation_strategy.py`) and getters/setters that only copy a
field, unless a history theorem needs them (C18, C19, C54 and the object theorems below do); `__init__.py` re-exports; type
annotations; the tests.

Assumptions, all visible as parameters or hypotheses unless marked (convention):

* Arithmetic is exact, except in C86 to C95, C97 to C100, C102 to C104, C106 to C110 and C119 to C123: `complex128`/`float64` are a field of characteristic 0, or ℂ/ℝ; `scipy.special.binom`,
  `factorial`, `numpy.log` are exact (convention). So rounding is out of scope elsewhere, including `int(x / threads)` for huge `x`, and the
  tolerance of about 1.5e-8 with which `numpy.random.choice` checks that weights sum to 1 (here: exactly 1).
  `isclose` keeps its documented default tolerances.
* C86 and C87 (`Model/Rounded.lean`, `Spec/Floats.lean`) use binary64 numbers with gradual underflow and every rounding to nearest; no
  overflow, infinities or NaN (so C87 asks for at most 170 particles, 171! overflows). `+ - * /` and int-to-float conversions are
  correctly rounded (IEEE 754, CPython); that `pow` and `scipy.special.binom` are correctly rounded is an assumption on libm and scipy.
  For `binom` it is proved up to 30 (`C100_binomial`); from 31 on scipy's result can differ in the last bits, so the bounds of C86, C87, C89 to C95,
  C97 and C98 for more than 30 particles rest on this assumption.
  `sum` adds from left to right (as in Python before 3.12, and for `numpy.float64` later). `random()` is `k / 2^53`. The values
  `abs(permanent) ** 2` of the permanent calculator are a parameter; C87 assumes a relative and an absolute error of them (`SqNear`).
  In the rounded version of GCC-B only the number of particles left is rounded.
* C88 and C89 (`Model/RoundedPermanents.lean`, `Spec/ComplexFloats.lean`): complex operations are any functions with a relative error of
  at most 2^-50 and an absolute error of at most 2^-1070; `complex ** int` has the error of repeated multiplication (numpy and CPython
  multiply repeatedly for exponents below 100; beyond, this is an assumption on `cpow`); no overflow. `textbookArith` shows that
  the assumptions can be met. The calculators are new objects; the samplers call them as in C87.
* C93 (`Model/RoundedSubmatrix.lean`): the calculators of all submatrices, new objects, with the conventions of C88.
* C94 and C95 (`Model/RoundedCliffordsB.lean`): `numpy.random.choice(range(m), p=p)` is modelled after `numpy/random/mtrand.pyx`:
  the check of the Kahan sum of `p` against 1 with tolerance `2^-26`, `cumsum`, the division by its last entry, and a right search
  of a value `k / 2^53`. The product of an occupation number and a permanent goes through the complex product even where Python
  multiplies by the integer `1` returned for no particles. A vanishing total makes the quotients `nan`, which `choice` rejects: the
  model raises `ValueError` before the draw. The bound of C94 counts such failures. In C95 the singular value decomposition and the
  products that make the expanded matrix are not modelled in floating-point arithmetic: the stored expanded matrix is any matrix
  within `e` roundings of the exact one.
* C97 and C98 (`Model/RoundedCliffordsU.lean`): products with the factorial of a number of particles are rounded like any
  other product; above 170 particles Python raises `OverflowError`, which is not modelled, so both are stated for at most 170.
* C99 and C100 (`Model/RoundedCounting.lean`): `scipy.special.factorial` multiplies n, n - 1, ..., 2 in floats up to 32 and is an arbitrary
  function beyond; `scipy.special.binom` is its product formula when fewer than 20 factors are needed and an arbitrary function beyond
  (with float values in the failing cases); `//` of `float64` is numpy's `npy_divmod`. This is scipy's and numpy's source as of 2024.
* C102 and C103 (`Model/RoundedFixed.lean`): numpy's `exp(1j * 2 * pi * u)` has an absolute error of at most 2^-48; the real part of `conjugate(z) * z`
  is a nonnegative float with a relative error of at most 2^-50 and an absolute one of 2^-1070, its imaginary part is 0; `sqrt` is correctly rounded; the
  network strategy (BLAS, and LAPACK for the lossy one) is any function whose entries have an error of at most eps on vectors of norm at most sqrt(2).
* C104 (`Model/RoundedUniformBobs.lean`): besides, `exp(2j * pi / n)` has the error of the phases, integer powers of complex numbers that of C86, and `A @ B` sums
  its terms one after the other (BLAS may use another order; then the number of operations per entry still bounds the error, but this is not proved).
* C119 (`Model/RoundedBobs.lean`): everything after the constructor of the sampler for non-uniform losses is rounded. The computed embedding into 2m modes (LAPACK's
  singular value decomposition and four matrix products) is a parameter with an accuracy hypothesis (`Spec/RoundedBobs.lean`): it is near *some* dilation of the exact matrix of the
  sample. So is the matrix stored by the constructor: it is near a contraction. Whether LAPACK meets this is not proved; `halfFloat` shows an embedding that does.
* C120 (`Model/RoundedExtraction.lean`): the constructor, from the computed factors of LAPACK's singular value decomposition on. Their accuracy is a hypothesis (`Spec/RoundedExtraction.lean`);
  squares and square roots of floats are correctly rounded. An array with `inf` or NaN entries is `none`.
* C122 (`Model/RoundedExpansion.lean`): the expanded interferometer, from the computed factors of the singular value decomposition on. That LAPACK is backward stable is a hypothesis
  (`Spec/RoundedExpansion.lean`). It replaces the hypotheses on the embedding in C95 and C119 to C121.
* C123 (`Model/RoundedTransmissivities.lean`): numpy's `dot` adds the products from left to right in the model; BLAS may add in another order. Backward stability as in C122.
* C106 (`Model/RoundedPrimes.lean`): Python's integers of any size beside floats; `int / int` is the correctly rounded quotient, `float % int` is exact
  after conversion of the integer, numpy's `sqrt` converts integers below `2 ^ 64` and raises `TypeError` for larger ones (array of objects).
* C107 (`Model/RoundedTvd.lean`): subtractions, additions and halving are rounded; Python's `sum` adds the `numpy.float64` summands one after the other.
* C108 (`Model/RoundedSamples.lean`): `log` and `pow(., 2)` are arbitrary functions with a given relative error, `sqrt` is correctly rounded, integers are
  converted to floats by rounding.
* C109 (`Model/RoundedCliffordsR.lean`): `int(binom(…))` with the floats of scipy, `isclose` with rounded tolerances, the sum of the dictionary entries in order
  of insertion; the probabilities reported by R are floats with a given relative error.
* C110 (`Model/RoundedSampleBased.lean`): counts are floats incremented by a rounded `+= 1`, the number of samples is converted to a float, every
  frequency is one rounded division; samplers, calculators, distance and bounds are those of C89 to C91, C94, C95, C97, C107 and C108.
* C90 and C91 (`Model/RoundedDistributions.lean`): the exact calculators on top of C88, with the conventions of C86: `pow` of floats,
  `scipy.special.binom` and int-to-float conversions are rounded exact values; `int()` of a float is its floor (the floats are
  nonnegative); no overflow (a squared permanent of more than about 85 particles in one mode would overflow).
* C92 (`Model/RoundedLosses.lean`): only the draws of the losses and of the photons are in floating-point arithmetic; the extracted
  `losses`, the scaled network, its decomposition and the samplers of the lossless part are those of the exact model. `Prog.Close p q e`
  (`Spec/Closeness.lean`) says that the probabilities of every set of results differ by at most `e`.
* `numpy.linalg.svd` is a parameter with numpy's documented contract `IsSvd` (`svd_exists` proves that every square matrix has
  such a decomposition, so the hypothesis can be met).
* `guancodes.GrayCode` is a parameter with the contract `IsGrayCode` (visits every sign pattern once, changing one sign).
* Python's `hash` of tuples is a parameter; where de-duplication relies on it, injectivity on the tuples at hand is a
  hypothesis (`HashOk`). Iteration order of sets and of hash-keyed dictionaries: nothing proved depends on it (results are
  stated up to permutation, or probabilities are summed).
* Random sources: `random()` uniform on [0,1), `randint(0,n)` uniform on n values, `numpy.random.choice(p=…)` categorical and
  raising on vectors that do not sum to 1, `shuffle` a uniform permutation; all draws independent. Expectations are lower
  Lebesgue integrals (convention); they agree with the usual integral on the measurable functions that occur, and no result
  needs measurability.
* Loops with a run-time condition carry fuel. Theorems show that fuel suffices (an explicit bound, or "for all fuel ≥ F"), or
  that no fuel suffices when the claim is non-termination.
* Process pools return the results of the tasks in order; the workers draw independently. (The code asks for the `spawn` context, so every
  worker seeds its generators afresh; under `fork` they would share a seed.)
* `cpu_count() ≥ 1`. Threads in the models are at least 1 because of it.
* Division by zero: Lean's `x / 0 = 0` is never relied on; models that divide flag the zero divisor or the theorem excludes it.
  numpy's `0/0 = nan` is modelled explicitly where the code can produce it (vacuum input of the fixed-loss sampler, C37_vacuum).
  One exception: on an input without particles `compute_unweighted_distribution_up_to_accuracy` divides by the number of particles.
  With an array as input the quotient is `nan` or `-inf` and the loop never ends; the model raises `ZeroDivisionError`, as with a list.
  The theorems on it (C33, C76, C98) are about returned values, or ask for at least one particle.
* `hstack` of an empty tuple produces a float array (numpy behaviour, used in C45).
* The R package is an arbitrary program with the sampling law as a hypothesis (C55, C61, C62).
* The strategy factory is modelled over a heap of calculators and configurations; matrices are values there, so in-place writes
  into an array shared with the caller are out of scope.
* Histories contain completed calls only (no exception thrown half-way through a call).
* Uniform-loss BOBS: C43-C46, C60 and C70 for hierarchy levels `0 ≤ h ≤ m` and a calculator whose input state has `m` modes; C77 for
  every integer level and every number of modes of that state.
* Separable-state calculator: the number of modes is the size of the matrix; attributes that nothing sets are optional values.

## Properties: what is modelled and how it is proved

| id | model | proof |
|----|-------|-------|
| C01–C02 | the two conversions, Python indexing | induction over the lists, counting |
| C03–C05 | the successor loop with fuel, `sorted(reverse=True)`, dimension formula | the loop follows a chain of successors through a recursively specified list; stars and bars |
| C06–C07 | combinations, hash de-duplication | combinations of a sorted list enumerate sub-multisets; Vandermonde |
| C08–C10 | partition generator, recurrence, multinomial | bijection with bounded partitions; induction; counting of rearrangements |
| C11 | list-of-rows transposition and repetition | list reasoning |
| C12 | `_update_guan_code` with its inner loop | reflected mixed-radix code: induction on the number of modes, trace is a permutation of the box |
| C13–C14 | object state, initialisation, incremental sums, binomials, multiplier | loop invariant along the trace, then finite-difference polarisation identity = permanent |
| C15–C16 | Glynn with Gray updates (parameter), Laplace recursion | same polarisation identity; Laplace expansion |
| C17–C19 | factory, guard, re-use of one object | corollaries; independence of scratch fields; induction over histories |
| C20–C21 | submatrix calculators | the trace invariant applied to every reduced input |
| C22–C25 | exact distribution calculators | algebra; norm preservation by the symmetric power of an isometry |
| C26–C33 | samplers as random programs | weakest pre-expectations; chain rule; averaging over particle orders; `Runs` for all-run claims |
| C34–C36 | block matrices, SVD as parameter | matrix algebra; negation witness for the unitarity claim |
| C37–C38, C57 | per-photon scan, binomial mixture | interval lengths; multinomial induction |
| C39–C42, C58, C59 | BOBS as an object with a history; loss channel | arithmetic; induction over histories; the law by `wp`; dilation independence (`lossyProb_indep`) |
| C43–C46, C60 | uniform-loss BOBS | arithmetic, Vandermonde; law by `wp`; negations with witnesses |
| C47–C48 | QFT and phase matrices over ℂ | roots of unity |
| C49–C52 | distances, bounds, prime factors | real analysis, number theory |
| C53 | sample-based calculator over an arbitrary strategy | list reasoning, all runs |
| C54 | strategy factory, constructors, setters over a heap | invariants over arbitrary histories of operations |
| C55, C61, C62 | R wrapper and its two search loops | decoding; almost-sure termination via geometric bounds on unfinished runs |
| C56 | transmissivities | SVD equations |
| C63–C65 | sampler → sample-based calculator → distance, composed | Hoeffding-type bound over all events (union bound over `2^K` events), linearity of expectation |
| C66 | four samplers against the exact calculator | both sides reduced to one law; binomial thinning of a dilation |
| C67–C69 | the separable-state calculator with optional attributes | branch analysis, counting; negations with witnesses |
| C70 | all samplers as repeated draws | joint law of repeated programs by induction |
| C71 | the four permanent calculators | finite differences as sums over maps between particles (induction on the number of columns), expansion over injections |
| C72 | permanent factory and calculators as objects on a heap of arrays | invariant over all histories |
| C73 | `count_distance_between_matrices` | isometry with a Euclidean space, traces |
| C74 | both exact calculators on outcomes with any particle number | C71, cardinalities; negation with witnesses |
| C75 | both exact calculators acting on a permanent calculator object with state | refinement of the functional model, induction over histories |
| C76 | the two accuracy loops of the uniform-loss sampler | invariant on filled entries, lower bound for recording a state, waiting-time bound; invariant for non-termination |
| C77 | uniform-loss BOBS for every integer level and any size of the calculator's input state | case analysis, agreement with the narrower model, C44, C45 |
| C78 | calculators and samplers under phases / conjugation | permanent identities, equality of output laws |
| C79 | calculators and samplers under mode permutations | permanent of a permuted matrix, bijection of outcomes |
| C80 | fixed-loss calculator and exact samplers, reversed | permanent of the transpose |
| C81 | calculators and samplers, losses of the outcomes | marginals of the sampling sequences, composition of binomials |
| C82 | factory, strategies and simulator composed | invariant of the heap over histories, joint laws of C70 |
| C83 | all samplers, both exact calculators | thinning to one particle, averages over random phases, binomial means |
| C84 | six samplers, both exact calculators on a heap of permanent calculators | simulation relation between draws on objects and functional models; irrelevance of caches |
| C85 | the same | frame property of the heap; violations by three kinds of writes |
| C86 | the draws of both Clifford samplers, of version B with losses, BOBS, fixed losses, in binary64 arithmetic | monotone rounding; binades for `u * s < s`; explicit floats for the violations |
| C87 | whole simulate of version A and the mode-assignment version in binary64 arithmetic | relative and absolute errors through every operation; counting of the multiples of 2^-53; total variation by induction over particles and samples |
| C88 | the four permanent calculators and the factory in floating-point arithmetic | errors relative to a bound (`Close`), by induction over the loops of the Guan code, the Gray code and the recursion |
| C89 | whole simulate of version A and the mode-assignment version with stored matrix and computed permanents | C87 with the hypothesis on permanents discharged by C88 |
| C90 | fixed-loss calculator with stored matrix and computed permanents in floating-point arithmetic | `Near` through the sum over lossy inputs; products of rounded binomials are integers |
| C91 | uniform-loss calculator in floating-point arithmetic, `set_weightless` histories | error of a rounded product of `Near` values; induction over the history |
| C92 | law of the losses drawn in floating-point arithmetic: version B, approximation, fixed losses | total variation distance of a rounded draw; distances add up under `bind` |
| C93 | submatrix permanent calculators in floating-point arithmetic | induction along the Gray code: every sum, binomial and permanent is close to its exact value |
| C94 | version B of the Clifford sampler in floating-point arithmetic | the mass of the exact law over an outcome weighs the error of each draw; induction over the particles; distances add up over the samples |
| C95 | version B with uniform losses and for lossy networks in floating-point arithmetic | C94 for every number of particles left; the expanded interferometer of C35 |
| C96 | correlations between the modes of a sample | factorial moments of the thinned law; generalises the means of C83 from single particles to sets of particles |
| C97 | version A with uniform losses in floating-point arithmetic | induction over the photons, each of which adds the error of one draw of C87 and at most 2^-53 for the choice to lose it |
| C98 | distributions up to an accuracy in floating-point arithmetic | invariant of the runs: every entry is a placeholder or meets the bound; the bound follows from that of one pmf entry |
| C99 | counting the states of a type in floating-point arithmetic | the divisors of 22! are floats, so all steps are exact; beyond, a computed counterexample |
| C100 | the dimension of the bosonic space in floating-point arithmetic | loop invariant of the product formula with a relative error; a float rounded to an integer is a float |
| C101 | exact calculators and changes of configurations | invariant of the objects over histories; specification by the latest call |
| C102 | the fixed-loss sampler in floating-point arithmetic | coupling of uniform numbers with multiples of 2^-53 (integrals over cells), error propagation through a contraction, distance of the laws |
| C103 | the uniform-loss approximate sampler in floating-point arithmetic | numpy's choice with the computed binomial weights, then C102 |
| C104 | the uniform-loss BOBS sampler in floating-point arithmetic | error propagation through powers of the root of unity and two matrix products, numpy's choice with weights near a probability vector, then C94 |
| C105 | calculators and samplers, two interferometers side by side | permanents of block-diagonal matrices, products of sampling laws, a common dilation of two networks |
| C106 | prime factors with Python's numbers | simulation of the exact loops after the first division; the rounded root of a rounded square is exact |
| C107 | total variation distances in floating-point arithmetic | relative errors of sums of nonnegative floats; differences of floats are exact in the subnormal range |
| C108 | error bounds and sample numbers in floating-point arithmetic | propagation of relative errors; floor of numbers without an integer between them |
| C109 | probabilities of random states found with R, in floating-point arithmetic | loop invariant; chain of rounded products for the binomial; a run through a given list of draws |
| C110 | distributions estimated from samples, entirely in floating-point arithmetic | exact counts below 2^53; transfer of events between close laws; composition of error bounds |
| C111 | coincidences in the approximate samplers | induction over the phases (fourth moments), over the particles (second factorial moment) and over the number of particles left |
| C112 | the separable samplers are exact samplers with a random input | Parseval over the phases by induction, expansion of a product of sums over words, grouping by occupation |
| C113 | accuracy of the separable samplers | C112, split of the placements into injective and other ones, birthday bound by induction, binomial second moment |
| C114 | the sampler for non-uniform losses is an exact sampler with a partly random input | C58 and Parseval over the phases, expansion of the bunched particles into words, binomial loss as a loss of single particles |
| C115 | accuracy of the sampler for non-uniform losses | C114, split of the placements into injective and other ones, birthday bound, binomial second moment |
| C116 | distributions estimated from the approximate samplers | independence of the samples from the program, tail bound of C63 around the law of the sampler, triangle inequality with C113 and C115 |
| C117 | the sampler for uniform losses with approximated modes as an exact sampler that measures its input on the way | law of C60, expansion of the permanent of a product over the states between the factors, Parseval for the random phases, relabelling of the input modes |
| C118 | the error bounds of the separable samplers are attained | laws of C112 for the identity matrix, support of the exact law, sums over injective placements |
| C119 | the sampler for non-uniform losses in floating-point arithmetic | C92 for the lossy input, error of the matrix of a sample as in C104 for contractions, version B with any dilation of the network has the same law, then C94 |
| C120 | extraction of the uniform losses in floating-point arithmetic | absolute error of 1 - s², relative error of the quotient, of the root and of the matrix product; failures from the spacing of the floats below 1 |
| C121 | neglected and rounded losses change the law by little | Pascal's rule for one particle at a time, then C58, C115, C119 and C120 |
| C122 | the expanded interferometer in floating-point arithmetic | stability of the square root of positive matrices (Frobenius norm), so that exact and computed decompositions have nearby dilations; errors of the products; then C35, C94, C119 to C121 |
| C123 | transmissivities of nearby networks; transmissivities and distances in floats | Weyl's inequality from a vector outside the last rows of one and the first rows of the other unitary factor; errors of sums and roots as in C86 |
| C124 | a small error in the network changes the distributions by little | amplitudes over words of output modes; induction on the particles gives an error `(k d)² k!` of the squared amplitudes; Cauchy-Schwarz |
| C125 | distributions of nearly unitary matrices | the induction of C124 with one factor of norm at most `1 + d` |
| C126 | distributions estimated from samples of a nearby interferometer | C63, C64, C124 and the triangle inequality |
| C127 | nearby lossy networks have nearby laws | particles leave one by one, a lost one through any of the further modes; induction over the particles with Young's inequality; C35 |
| C128 | samplers that work with a nearby lossy network | C64, C66, C114, C116, C127 and the triangle inequality |
| C129 | separable samplers that work with a nearby network | C112, C116, C127 averaged over the modes the particles are put into |

Where the code violates the property as stated, the negation is proved with a concrete witness (`…_fails`, `…_false`), and the
true part is kept in a theorem with suffix `_partial`.

## Findings (proved)

* C18: an output state with more particles than the input does not give amplitude 0 (`C18_more_particles_false`).
* C34: the expanded matrix is not unitary as documented (`[[S,L],[L,S]]` has a sign missing) unless all singular values are 0 or 1
  (`C34_unitary_iff`); its first m columns are orthonormal and the top-left block is right, which is what sampling needs.
* C37: on a vacuum input the mode probabilities are `nan` and all photons land in mode 0 (`C37_vacuum`).
* C39: BOBS returns `threads*(N // threads + 1)` samples, always more than requested.
* C40: the particle counter of the approximated modes is never reset between `simulate` calls.
* C44: for bunched inputs the mixed-state weights do not sum to 1 and every call raises.
* C45: at full hierarchy level every call raises `TypeError` (float array from `hstack`); otherwise columns of the interferometer
  are shuffled, which changes the input modes (`C60_permuted`).
* C46: the QFT acts on the first m-h modes, the approximated particles sit in modes h..m-1.
* C52: a trailing 1 is appended in many cases; 0 never terminates.
* C53: `calculate_distribution` always draws 5000 samples whatever `samples_number` says; asking for the probabilities of outcomes
  replaces the configured outcomes of the object.
* C54: for `UNIFORM_LOSSES_BOBS` the strategy shares the factory's permanent calculator; `LOSSLESS_MODES` has no entry in the
  mapping and yields the fixed-loss strategy; the R strategy raises `ImportError` when rpy2 is missing.
* C55: the R wrapper always uses the first n columns of the matrix, whatever modes the input occupies.
* C61: repeated or impossible outcomes make `find_probabilities` run forever.
* C62: `find_probabilities_of_n_random_states` returns more states than requested.
* C67: the constructor of the separable-state calculator always raises `AttributeError`.
* C68: the probabilities for 100 random matrices are concatenated instead of averaged, and the Fourier transform acts on the output
  side of the network.
* C69: particles in the last approximated mode are dropped.
* C71: for unequal particle numbers the four calculators disagree: e.g. one particle in, two out gives 9, 0, `IndexError` and 6
  (`C71_disagree`); Glynn's ignores surplus input particles and returns a non-zero amplitude (`C71_glynn_nonzero`), and returns 1
  when only one of the states is the vacuum (`C71_glynn_vacuum`).
* C74: `calculate_probabilities_of_outcomes` does not check the particle number of an outcome. One particle through the identity
  gets probability 1/2 for two particles in its mode (`C74_fails`), with Glynn's calculator probability 1 for the vacuum
  (`C74_glynn_fails`); the uniform-loss calculator raises for outcomes with more particles than the input (`C74_uniform_raises`).
* C76: with `missing_values_in_distribution` set, `compute_unweighted_distribution_up_to_accuracy` with the default accuracy never
  returns (`C76_unweighted_marked`: the vacuum keeps its -1), and `compute_distribution_up_to_accuracy` does not return when a state
  is unreachable (`C76_marked_witness`). With the constructor's default transmissivity 0 the unweighted loop never ends
  (`C76_unweighted_dark`).
* C77: the comment "Assume exact simulation if hierarchy level is not specified" in `lossy_state_approximated_simulation_strategy.py`
  does not hold for any level. Levels below 0 or above m make the constructor raise `ValueError` (`C77_constructor`), level m makes
  sampling raise (`C77_fails`). The constructor takes the size of the Fourier matrix from the calculator's input state instead of its
  matrix, so a calculator without input state fails too (`C77_calculator_state`).
* C82: the matrix in the experiment configuration has no influence on the strategies GCC, LOSSY_NET_GCC, UNIFORM_LOSSES_GCC, BOBS and
  UNIFORM_LOSSES_BOBS, which use the matrix of the permanent calculator: with the identity in the configuration and a rotation in the
  calculator the samples follow the rotation (`C82_configuration`).
* C83: the exact samplers and calculators and the lossy-network sampler have the right mean numbers of particles. The samplers with
  independent particles have the means of an input with one particle in each of the first n modes (so a particle of mode 1 sent through the
  identity always appears in mode 0). BOBS spreads the particles of the approximated modes evenly over them, and UNIFORM_LOSSES_BOBS has the
  mean eta n / m in every mode, whatever the interferometer and the input (`C83_fails`, `C83_uniform_bobs_partial`).
* C85: permanent calculators are shared by reference and everybody writes into them. A fixed-loss exact calculator puts the matrix of its
  configuration into the permanent calculator (`C85_overwritten`), `set_new_matrix` of one sampler changes all samplers with the same
  calculator (`C85_set_by_other`), and building a lossy-network sampler replaces the caller's matrix by the expanded one
  (`C85_constructor`). With the identity given to the sampler and a rotation given to the other object, two particles entering different
  modes come out the same way with probability 49/625 instead of 1 (`C85_fails`). The uniform-loss calculators work on copies in a process
  pool and change nothing. A sampler is safe as long as nobody else writes to its calculator (`C85_isolated_partial`).
* C86: only `_sample_from_latest_pmf` multiplies the random number by the computed sum, so only it is safe from rounding (as long as the sum
  is a normal float, `C86_draw_partial`; for subnormal sums it can run past the end, `C86_draw_fails`). The other scans compare with the
  bare random number. With two particles kept with probability 0.27, the computed probabilities of the numbers of particles sum up to
  `1 - 2^-53`, so GCC-B with uniform losses asks for three of two particles with probability `2^-53` and raises `ValueError`
  (`C86_losses_fails`); with losses 0.73, `choice` of BOBS returns `None` (`C86_bobs_fails`); behind a balanced beam splitter, where
  `(1 / math.sqrt(2)) ** 2 = 1/2 - 2^-53`, the fixed-loss sampler drops a particle with probability `2^-53` (`C86_fixed_fails`). The
  probabilities of these events are at most `(4 n + 13) / 2^53`, resp. what is missing in the computed sum per particle (`C86_*_partial`).
* C99: `compute_number_of_states_of_given_type` uses `scipy.special.factorial`, which returns floats, and floor divisions. Beyond 22 modes
  results can be too small by one (`[1] * 7 + [0] * 22`: 1560779 instead of 1560780, `C99_fails`); up to 22 modes they are right.
  `math.factorial` would be exact.
* C100: `round(scipy.special.binom(...))` cannot return a number of states that is not a float (e.g. 12 particles in 116 modes, `C100_fails`).
  `math.comb` would be exact.
* C101: `BSDistributionCalculatorWithUniformLosses` computes its weights in the constructor and in `set_weightless(False)` only. After a change
  of `configuration.uniform_transmissivity` or `configuration.initial_number_of_particles` its probabilities are wrong or raise `IndexError`
  (`C101_fails`). The fixed-loss calculator follows such changes.
* C106: `get_prime_factors` uses true division. For a number whose first quotient is not a float the returned values have another product
  (`2 ^ 55 + 2`, `C106_fails`) and may contain composite "factors" (`C106_composite`); odd numbers from `2 ^ 64` on raise `TypeError` (`C106_raises`).
* C107: computed total variation distances can exceed one (`C107_exceeds`), and the dictionary version depends on the iteration order of a set (`C107_order`);
  both effects are of the size of the rounding unit.
* C109: `int(binom(n + m - 1, m - 1))` truncates a float that can lie just below the integer: 1855967519 instead of 1855967520 states for 15 particles in 20
  modes (`C109_count_fails`), so a call that asks for all states may miss one (`C109_fails`). `bosonic_space_dimension` rounds instead of truncating (C100).
* C110: the counts of the sample-based calculator are floats, so more than 2^53 equal samples are not counted (`C110_many_samples`: frequency 1/2 for 2^54 equal
  samples). Below that there is no error in the counts.
* C111: without losses the approximate samplers are not exact: two particles in two uncoupled modes leave in different modes in half of the samples only.
* C113: the separable samplers use only the number of input particles and put them into the first modes: for one particle in the second of two uncoupled modes every sample shows it in the first (`C113_other_inputs`).
* C115: the sampler for uniform losses puts the bunched particles into mode h but applies the Fourier transform to the first m - h modes, so for 2h >= m they leave together: for four uncoupled modes, h = 2 and no losses the only possible outcome for [0, 0, 1, 1] is never sampled (`C115_uniform_bobs`).
* C116: the sample-based calculator divides the counts by the number of samples it asked for, but the sampler for non-uniform losses returns more (C39), so its estimates always add up to more than 1, to 2 when one sample is asked for (`C116_total`).
* C117: the Fourier transform of the sampler for uniform losses mixes the exactly treated particles with the approximated ones. With three modes that are not coupled, h = 1, no losses and one particle in each of the first two modes, the two particles bunch in the Fourier transform: all samples show both in one mode, each mode with probability 1/3, and the only possible outcome never occurs (`C117_identity`).
* C120: the uniform losses are computed as 1 - s² and the transmissivities divided by 1 - (1 - s²), not by s². The cancellation loses all digits when the largest singular value is below about 2^-27: the losses become exactly 1 and the stored matrix consists of inf or NaN (`C120_fails`); for 5 * 2^-28 it has a singular value above 1 (`C120_gain`).
* C122: the expanded interferometer contains square roots of `1 - s²`. For a singular value near 1 they lose half of the digits: for the float below 1 instead of 1 the entry is 2^-26 instead of 0, at least 2^-27 from every embedding of the network (`C122_attained`). The top left block is not affected.
* C123: the computed transmissivities of a network without losses may be larger than 1 (`C123_exceeds`). `count_distance_between_matrices` squares the differences, so it returns 0 for different matrices whose entries differ by at most 2^-600 (`C123_different`).
* C125: the exact calculators neither check that the matrix is unitary nor normalise; the returned numbers sum up to `(1+δ)^(2n)` if the entries are too large by the factor `1+δ` (`C125_scaled`).

## Theorems and the axioms they depend on

Output of `#print axioms`, abbreviated: P = `propext`, C = `Classical.choice`, Q = `Quot.sound`.

| id | status | theorems (axioms) |
|----|--------|-------------------|
| C01 | proved | `C01_roundtrip` (PCQ) |
| C02 | proved | `C02_counts_and_sorts`, `C02_default` (PCQ); `C02_out_of_range` (PQ); `C02_default_empty` (P) |
| C03 | proved | `C03_exact` (PCQ); `C03_degenerate` (PQ) |
| C04 | proved | `C04_exact` (PCQ) |
| C05 | proved | `C05_dimension` (PCQ) |
| C06 | proved | `C06_exact`, `C06_any_hash`, `C06_complete_iff`, `C06_too_many` (PCQ); `C06_vacuum` (PQ) |
| C07 | proved | `C07_multiplicity`, `C07_total` (PCQ) |
| C08 | proved | `C08_exact` (PCQ) |
| C09 | proved | `C09_count`, `C09_k_partitions` (PCQ) |
| C10 | proved | `C10_count`, `C10_exact_divisions`, `C10_total` (PCQ) |
| C11 | proved | `C11_entries`, `C11_particles` (PCQ); `C11_vacuum` (P) |
| C12 | proved | `C12_trace`, `C12_addends` (PCQ) |
| C13 | proved | `C13_ryser`, `C13_scattering`, `C13_vacuum` (PCQ) |
| C14 | proved | `C14_chinHuh` (PCQ) |
| C15 | proved | `C15_glynn`, `C15_reflected` (PCQ) |
| C16 | proved | `C16_classic` (PCQ) |
| C17 | proved | `C17_interchangeable` (PCQ); `C17_unknown` (PQ) |
| C18 | partial | `C18_shape`, `C18_mismatch_partial`, `C18_more_particles_false` (PCQ); `C18_degenerate` (PQ) |
| C19 | proved | `C19_no_state` (PQ) |
| C20 | proved | `C20_ryser` (PCQ) |
| C21 | proved | `C21_chinHuh`, `C21_agree` (PCQ) |
| C22 | proved | `C22_probability` (PCQ) |
| C23 | proved | `C23_distribution` (PCQ) |
| C24 | proved | `C24_probability`, `C24_distribution` (PCQ) |
| C25 | proved | `C25_weighted` (PQ); `C25_weightless` (PCQ) |
| C26 | proved | `C26_sample` (PCQ) |
| C27 | proved | `C27_sample` (PCQ) |
| C28 | proved | `C28_sample` (PCQ) |
| C29 | proved | `C29_gcc`, `C29_gccAssignment`, `C29_gcc_total`, `C29_gccb`, `C29_gccb_total` (PCQ) |
| C30 | proved | `C30_joint`, `C30_memory` (PCQ) |
| C31 | proved | `C31_sample`, `C31_shape` (PCQ) |
| C32 | proved | `C32_sample`, `C32_shape` (PCQ) |
| C33 | proved | `C33_distribution`, `C33_unweighted` (PCQ) |
| C34 | partial | `C34_embeds_partial`, `C34_unitary_iff`, `C34_fails` (PCQ) |
| C35 | proved | `C35_sample`, `C35_shape`, `C35_dilation` (PCQ) |
| C36 | proved | `C36_lossy`, `C36_length` (PCQ) |
| C37 | proved | `C37_shape`, `C37_exact`, `C37_unitary`, `C37_vacuum`, `C37_modes` (PCQ) |
| C38 | proved | `C38_outcome`, `C38_norm`, `C38_sample` (PCQ) |
| C39 | partial | `C39_count_partial`, `C39_fails`, `C39_empty` (PCQ) |
| C40 | partial | `C40_law_partial`, `C40_fails` (PCQ) |
| C41 | proved | `C41_split`, `C41_zero` (PCQ) |
| C42 | proved | `C42_shape`, `C42_law`, `C42_in_use` (PCQ) |
| C43 | proved | `C43_split`, `C43_threads`, `C43_count`, `C43_empty`, `C43_total` (PCQ) |
| C44 | partial | `C44_parts`, `C44_iff`, `C44_law_partial`, `C44_fails` (PCQ) |
| C45 | partial | `C45_raises`, `C45_fails`, `C45_law_partial` (PCQ) |
| C46 | partial | `C46_matrix_partial`, `C46_fails`, `C46_unsmeared` (PCQ) |
| C47 | proved | `C47_qft`, `C47_block` (PCQ) |
| C48 | proved | `C48_phases` (PCQ) |
| C49 | proved | `C49_assertion` (PQ); `C49_value`, `C49_metric` (PCQ) |
| C50 | proved | `C50_tabulated`, `C50_symmetric` (PCQ) |
| C51 | proved | `C51_sufficient` (PCQ) |
| C52 | partial | `C52_fails`, `C52_factors_partial`, `C52_product_partial`, `C52_zero` (PCQ) |
| C53 | partial | `C53_approximate`, `C53_all_states`, `C53_sum`, `C53_distribution_partial`, `C53_outcomes_replaced`, `C53_fails` (PCQ); `C53_order_none` (none) |
| C54 | proved | `C54_generate`, `C54_generate_raises`, `C54_current`, `C54_isolated`, `C54_simulate`, `C54_caller`, `C54_copy`, `C54_shared` (PCQ) |
| C55 | partial | `C55_matrix`, `C55_decode`, `C55_too_many`, `C55_no_samples`, `C55_columns_iff`, `C55_law_partial`, `C55_fails` (PCQ) |
| C56 | proved | `C56_transmissivities`, `C56_unitary` (PCQ) |
| C57 | proved | `C57_shape`, `C57_sample` (PCQ) |
| C58 | proved | `C58_sample`, `C58_mode` (PCQ) |
| C59 | proved | `C59_exact`, `C59_tolerance`, `C59_one_mode` (PCQ) |
| C60 | proved | `C60_sample`, `C60_permuted` (PCQ) |
| C61 | partial | `C61_result`, `C61_duplicates`, `C61_impossible`, `C61_zero`, `C61_exact_partial` (PCQ) |
| C62 | partial | `C62_result_partial`, `C62_no_more`, `C62_contains`, `C62_terminates`, `C62_never`, `C62_fails` (PCQ) |
| C63 | proved | `C63_error_bound`, `C63_enough_samples` (PCQ) |
| C64 | proved | `C64_network`, `C64_network_enough`, `C64_network_uniform`, `C64_error_bound`, `C64_enough_samples` (PCQ) |
| C65 | proved | `C65_network`, `C65_unbiased`, `C65_unbiased_losses` (PCQ) |
| C66 | proved | `C66_lossy_network`, `C66_bobs`, `C66_agree` (PCQ) |
| C67 | partial | `C67_fails`, `C67_configuration`, `C67_no_configuration`, `C67_init_partial` (PCQ) |
| C68 | partial | `C68_outcomes`, `C68_probabilities_partial`, `C68_law_partial`, `C68_count` (PCQ) |
| C69 | partial | `C69_state_partial`, `C69_iff`, `C69_fails` (PCQ) |
| C70 | proved | `C70_version_b`, `C70_uniform_b`, `C70_uniform`, `C70_network`, `C70_fixed`, `C70_separable`, `C70_bobs`, `C70_uniform_bobs` (PCQ) |
| C71 | proved | `C71_ryser`, `C71_chinHuh`, `C71_glynn_surplus`, `C71_glynn_deficit`, `C71_classic`, `C71_classic_surplus`, `C71_disagree`, `C71_glynn_nonzero` (PCQ); `C71_glynn_vacuum`, `C71_classic_vacuum` (PQ) |
| C72 | proved | `C72_isolated`, `C72_permanent` (PCQ) |
| C73 | proved | `C73_metric`, `C73_entries`, `C73_value`, `C73_unitary` (PCQ) |
| C74 | partial | `C74_fewer_partial`, `C74_any`, `C74_uniform_raises`, `C74_fails`, `C74_glynn_fails` (PCQ) |
| C75 | proved | `C75_shared` (PQ); `C75_probabilities` (PCQ) |
| C76 | proved | `C76_returns`, `C76_never`, `C76_unweighted_returns`, `C76_unweighted_never`, `C76_unweighted_marked`, `C76_unweighted_dark`, `C76_marked_witness` (PCQ) |
| C77 | partial | `C77_constructor`, `C77_fails`, `C77_levels_partial`, `C77_calculator_state` (PCQ) |
| C78 | proved | `C78_network`, `C78_calculators`, `C78_samplers` (PCQ) |
| C79 | proved | `C79_network`, `C79_calculators`, `C79_samplers` (PCQ) |
| C80 | proved | `C80_network`, `C80_calculator`, `C80_samplers` (PCQ) |
| C81 | proved | `C81_network`, `C81_fixed`, `C81_uniform`, `C81_samplers` (PCQ) |
| C82 | proved | `C82_exact`, `C82_uniform`, `C82_lossy_network`, `C82_fixed_loss`, `C82_uniform_loss`, `C82_bobs`, `C82_uniform_bobs`, `C82_configuration` (PCQ) |
| C83 | partial | `C83_calculators`, `C83_exact`, `C83_uniform`, `C83_network`, `C83_fixed_partial`, `C83_separable_partial`, `C83_bobs_partial`, `C83_bobs_even`, `C83_uniform_bobs_partial`, `C83_fails` (PCQ) |
| C84 | proved | `C84_history`, `C84_last`, `C84_simulate`, `C84_samples` (PCQ) |
| C85 | partial | `C85_isolated_partial`, `C85_given_partial`, `C85_network_partial`, `C85_exact_partial`, `C85_overwritten`, `C85_set_by_other`, `C85_constructor`, `C85_fails` (PCQ) |
| C86 | partial | `C86_draw_partial`, `C86_draw_fails`, `C86_gcc_partial`, `C86_gcc_one`, `C86_losses_partial`, `C86_losses_rare_partial`, `C86_losses_fails`, `C86_bobs_partial`, `C86_bobs_fails`, `C86_fixed_partial`, `C86_fixed_rare_partial`, `C86_fixed_fails` (PCQ) |
| C87 | proved | `C87_draw`, `C87_law`, `C87_raises`, `C87_sample` (PCQ) |
| C88 | proved | `C88_permanent`, `C88_number`, `C88_square` (PCQ) |
| C89 | proved | `C89_law`, `C89_raises`, `C89_sample` (PCQ) |
| C90 | proved | `C90_probability`, `C90_distribution` (PCQ) |
| C91 | proved | `C91_probability`, `C91_distribution`, `C91_weighted`, `C91_weightless` (PCQ) |
| C92 | proved | `C92_left`, `C92_version_b`, `C92_version_b_sample`, `C92_version_b_rare`, `C92_bobs_input`, `C92_bobs`, `C92_bobs_exact`, `C92_fixed` (PCQ) |
| C93 | proved | `C93_ryser`, `C93_chinHuh`, `C93_number` (PCQ) |
| C94 | proved | `C94_law`, `C94_sample`, `C94_rare` (PCQ) |
| C95 | proved | `C95_uniform`, `C95_uniform_sample`, `C95_uniform_rare`, `C95_network`, `C95_network_sample`, `C95_network_rare` (PCQ) |
| C96 | proved | `C96_calculators`, `C96_exact`, `C96_uniform`, `C96_network`, `C96_pairs` (PCQ) |
| C97 | proved | `C97_law`, `C97_sample`, `C97_rare` (PCQ) |
| C98 | proved | `C98_distribution`, `C98_unweighted` (PCQ) |
| C99 | partial | `C99_small_partial`, `C99_fails` (PCQ) |
| C100 | partial | `C100_moderate_partial`, `C100_relative`, `C100_float`, `C100_fails`, `C100_binomial` (PCQ) |
| C101 | partial | `C101_copied`, `C101_fixed`, `C101_uniform`, `C101_uniform_partial`, `C101_fails` (PCQ) |
| C102 | proved | `C102_shape`, `C102_fixed`, `C102_sample`, `C102_network` (PCQ) |
| C103 | proved | `C103_left`, `C103_shape`, `C103_uniform`, `C103_sample` (PCQ) |
| C104 | proved | `C104_qft`, `C104_input`, `C104_refused`, `C104_law`, `C104_sample`, `C104_rare` (PCQ) |
| C105 | proved | `C105_permanent`, `C105_calculators`, `C105_samplers`, `C105_networks`, `C105_marginal` (PCQ) |
| C106 | partial | `C106_exact_partial`, `C106_product`, `C106_product_iff`, `C106_fails`, `C106_composite`, `C106_raises` (PCQ) |
| C107 | partial | `C107_list`, `C107_zero`, `C107_symmetric`, `C107_bound_partial`, `C107_dicts`, `C107_exceeds`, `C107_order` (PCQ) |
| C108 | proved | `C108_bound`, `C108_samples`, `C108_sufficient`, `C108_guarantee` (PCQ) |
| C109 | partial | `C109_count`, `C109_count_fails`, `C109_result_partial`, `C109_coverage`, `C109_no_more`, `C109_fails` (PCQ) |
| C110 | proved | `C110_network`, `C110_frequencies`, `C110_many_samples`, `C110_error_bound`, `C110_enough_samples`, `C110_lossy_error_bound`, `C110_lossy_enough_samples` (PCQ) |
| C111 | proved | `C111_fixed`, `C111_uniform`, `C111_exact`, `C111_network`, `C111_difference` (PCQ) |
| C112 | proved | `C112_fixed`, `C112_uniform`, `C112_sampler`, `C112_unitary` (PCQ) |
| C113 | proved | `C113_fixed`, `C113_one`, `C113_uniform`, `C113_calculator`, `C113_sampler`, `C113_tight`, `C113_other_inputs` (PCQ) |
| C114 | proved | `C114_sample`, `C114_tolerance` (PCQ) |
| C115 | proved | `C115_distance`, `C115_sampler`, `C115_tight`, `C115_uniform_bobs` (PCQ) |
| C116 | proved | `C116_fixed`, `C116_uniform`, `C116_calculator`, `C116_bobs`, `C116_total` (PCQ) |
| C117 | proved | `C117_sample`, `C117_pair`, `C117_identity` (PCQ) |
| C118 | proved | `C118_fixed`, `C118_uniform`, `C118_order` (PCQ) |
| C119 | proved | `C119_law`, `C119_sample`, `C119_rare` (PCQ) |
| C120 | proved | `C120_split`, `C120_object`, `C120_fails`, `C120_gain` (PCQ) |
| C121 | proved | `C121_losses`, `C121_law`, `C121_point`, `C121_tolerance`, `C121_distance`, `C121_floats`, `C121_attained` (PCQ) |
| C122 | proved | `C122_embeds`, `C122_block`, `C122_network`, `C122_sample`, `C122_expands`, `C122_approximate`, `C122_attained` (PCQ) |
| C123 | proved | `C123_stable`, `C123_subunitary`, `C123_unique`, `C123_ordered`, `C123_floats`, `C123_exceeds`, `C123_distance`, `C123_vanishes`, `C123_different` (PCQ) |
| C124 | proved | `C124_law`, `C124_survivors`, `C124_uniform`, `C124_calculator`, `C124_uniform_calculator`, `C124_sampler`, `C124_sampler_b`, `C124_sharp` (PCQ) |
| C125 | proved | `C125_law`, `C125_survivors`, `C125_uniform`, `C125_calculator`, `C125_uniform_calculator`, `C125_entries`, `C125_singular`, `C125_scaled` (PCQ) |
| C126 | proved | `C126_error_bound`, `C126_enough_samples`, `C126_uniform` (PCQ) |
| C127 | proved | `C127_law`, `C127_sampler`, `C127_lossless`, `C127_sharp`, `C127_optimal` (PCQ) |
| C128 | proved | `C128_network`, `C128_network_enough`, `C128_uniform`, `C128_bobs`, `C128_bobs_estimate` (PCQ) |
| C129 | proved | `C129_fixed`, `C129_uniform`, `C129_fixed_estimate`, `C129_uniform_estimate`, `C129_sharp` (PCQ) |

# Design of the formal model of rwnobrega/komm

## Technique
A shallow Lean 4 model (namespace `Komm`, sources in `lean/Verif`) of the pure core of komm.
* `Verif/Model/*.lean`  – definitions only, each citing the file and lines of `/repo/src/komm` it models.
* `Verif/Lemmas/*.lean` – helper lemmas.
* `Verif/Spec/*.lean`   – small independent specifications (what the English property says).
* `Verif/Props/*.lean`  – the property theorems `Cnn_…` and, beside each, a non-vacuity `example`.

Python exceptions are values (`Except`/`Option`), loops are structural recursion or fuelled recursion whose
fuel is proved sufficient, arrays are lists or functions from `Fin n`, GF(2) arrays with `% 2` after
each operation are arrays over `ZMod 2`, floats are exact reals/rationals (recorded below), random
draws are parameters.

`MANIFEST.json` lists, for every property, the theorems that establish it. A property is `partial` only when the code
violates part of it; in that case the proved part carries the suffix `_partial` or covers a stated subclass, and a separate
theorem proves the violation on a concrete input (see Findings).

## Trusted base
* Lean 4.33.0's kernel, plus the axioms `propext`, `Classical.choice`, `Quot.sound` (through Mathlib);
  nothing else (no compiled evaluation, no own axioms).
* The reading of the Python code into the model: the code is not executed here. Where the repository's tests or
  docstrings give a concrete value, an `example` beside the model often reproduces it by kernel evaluation.
* numpy / scipy primitives are modelled by their documented behaviour:
  `packbits`, `argmin`/`argmax` (first minimiser/maximiser), `digitize`, `searchsorted`, `lexsort`, `unique`, `reshape`,
  slicing and slice assignment, `linspace`, `trapezoid`, `around` (half to even), `clip`, `angle`, `cumsum`,
  `linalg.inv` / `linalg.lstsq` (contract: the unique solution when there is one), `allclose` (as an arbitrary stopping rule),
  `Generator.choice` (as `searchsorted` of the cumulative sums), `heapq` (smallest first; the order among equal keys is a
  parameter where it could matter, e.g. Tunstall).
* Exact arithmetic (except C134–C139, C141–C143, C145–C149, which model double precision): floating-point numbers are reals or rationals, `log`, `exp`, `log2` are exact, rounding to 15 decimals
  in PSK is ignored (C139 models it). The float-computed bit widths of the Lempel–Ziv codes are parameters of which only
  sufficiency (`n ≤ calY ^ width n`) is assumed (C136 models their computation and proves it).

### Not modelled
`__str__`/`__repr__` (except the printing and equality of the algebraic objects, C132 and C140), docs/format utilities, plotting, type annotations and the numpy dtype of results, caches
(`cache`, `cached_property` are transparent because the modelled functions are pure), performance,
input validation through `numpy.typing` coercions unless stated. `CyclicRedundancyCheck`, `GoldSequence` and
`KasamiSequence` are empty stubs in this commit.

## Plan per property (see properties.jsonl for the statements)
| id | what is modelled / how it is proved |
|---|---|
| C01 | lists of bits; induction on width / list |
| C02–C05 | polynomials as `Nat`; map `toPoly : Nat → (ZMod 2)[X]`; loops shown to commute with it; lcm with ≥ 3 arguments refuted by witness |
| C06–C08 | Rabin test vs `Irreducible`; order of X modulo p; whole default table by kernel computation lifted through the theorem |
| C09–C12 | element operations on `Nat` modulo the modulus; quotient ring is a field; conjugates/minpoly; root search |
| C13–C16 | normalised fractions; Horner/reciprocal; Laplace determinant; trial division |
| C17–C19 | Gaussian elimination over `ZMod 2`, loop invariants "row equivalent" and "echelon so far" |
| C20–C23 | Sardinas–Patterson both directions; sorted-adjacent prefix test; trie covering; canonical code |
| C24–C25 | parsers over lists with error values; round trips |
| C26–C30 | Huffman/Fano/Shannon/Tunstall constructions over exact probabilities (ordered field) |
| C31–C34 | LZ encoders/decoders with token layer and bit layer; the float-computed widths are parameters constrained to be sufficient |
| C35–C36 | encoder/decoder state machines; induction over the bit list; Zeckendorf |
| C37–C40 | labelings as functions on lists |
| C41–C48 | matrices over `ZMod 2`; encoders/check/coset leaders/decoders |
| C49–C58 | the named families; BCH bound and Berlekamp–Massey over the modelled field; Reed decoding by majority logic; standard array |
| C59–C66 | finite state machines, convolutional encoders (state space vs power series), terminations, trellis dynamic programming, posteriors as sums over all paths, free distance by best-first search |
| C67–C70 | LFSR/Walsh/Barker sequences, autocorrelation |
| C71, C81 | quantizers: nearest level, monotone; Lloyd–Max as an iteration with arbitrary density and stopping rule, order invariant |
| C72–C73, C82–C84 | Markov chains over ℝ/ℚ: reachability, period, fundamental matrix as the limit of partial sums, stationary vector, draws as measurable preimages |
| C74 | resampling as slice operations on lists |
| C75–C76, C88 | constellations over ℝ/ℂ: decisions vs nearest point, closed formulas, Bayes posteriors |
| C77–C78, C85–C87 | channels and information measures over ℝ; Arimoto–Blahut by the alternating-maximisation inequality; capacities as suprema |
| C79 | rate vs expectation |
| C80 | streaming Viterbi: state carried across chunks |
| C89 | `ViterbiDecoder` on terminated codes: composition of C62/C63 with the bit packing; nearest codeword / maximum likelihood; corrects up to half the free distance |
| C90 | `BCJRDecoder`: composition of C62/C65 with `marginalize`; posterior log-ratios of the message bits |
| C91 | `boxplus`/`logcosh` over ℝ against the XOR of independent bits and the tanh rule |
| C92 | `SCDecoder`: the recursion over halves refined to the exact successive-cancellation log-ratio (sums over all undecided inputs), by induction on μ |
| C93 | Zadoff–Chu values as additive characters of ZMod L; correlations by orthogonality and completing the square |
| C94 | `Labeling.marginalize` over ℝ with exact logarithms; sums over the labels with a given bit |
| C95 | Pulse objects as records of exact real/complex functions; finite-support pulses and the Gaussian by direct Fourier integrals; Parseval and Wiener–Khinchin through Mathlib's Plancherel theorem |
| C96 | Band-limited pulses: inverse Fourier integral of the spectrum in closed form, piece by piece, at every time including removable singularities; folding |
| C97 | Same for the Beaulieu pulse; the Gauss–Legendre quadrature in its root is modelled as the exact integral (substitution f = f₂ − v²) |
| C98 | `taps` as samples of the waveform |
| C99 | `invariant_factors` operation by operation on polynomial matrices over GF(2); unimodular row/column maps; infinite inputs as power series |
| C100 | `kraft_parameter` and `rate` over ℚ, `entropy` over ℝ (C82); McMillan's inequality from Mathlib, Gibbs' inequality; leaf entropy of trees of words |
| C101 | Parsing trees of words by induction on the tree; greedy invariant of the Tunstall loop (internal nodes at least as probable as leaves) for every tie-breaking |
| C102 | `mean_squared_error` with `np.linspace`/`np.trapezoid` in exact arithmetic; the rule as a positive linear functional; convergence by uniform continuity |
| C103 | `GaussianChannel` as a function of the standard normal samples; push-forward of the product measure, densities, Bayes' rule for densities, optimality of maximum a posteriori rules |
| C104 | `erfc` as its integral, `inv_cdf` as the quantile of the normal law (library functions, trusted); change of variables, intermediate value theorem; PAM decision regions up to null sets |
| C105 | the loop with its early exit; integral = Poisson mixture (monotone term-by-term integration, Erlang tails) = the series of the code (double sum); geometric bound of the remainder. Partial: the accuracy needs that no term of index below x^2/2 is under the tolerance; `C105_early_exit` shows it fails otherwise |
| C106 | `np.convolve` with numpy's correlation, swap of the inputs and the three windows; coefficients of a product of polynomials |
| C107 | `np.fft.fft` as its defining sum, `fftshift` as list rotation, `fftfreq`; orthogonality of exponentials; Riemann sums |
| C108 | arrays as shape and row-major entries, `reshape` with one `-1`; the decorators row by row against the one-dimensional model |
| C109 | the array methods of the constellations through C108; nearest points from C75 |
| C110 | the Gaussian channel of C104 composed with the detectors of C75/C76: a linear form of the noise is Gaussian, a rotation keeps its law; union bound, and product of the two PAM decisions for QAM |
| C111 | the channel as independent uniform draws; a set of error patterns has the sum of their probabilities, grouped by weight; optimality by summing over received words; soft decisions through C110 |
| C112 | character sums over the messages; product form of `y^w x^(n-w)` |
| C113 | Griesmer by induction with residual codes, Singleton and Plotkin from it; counting for the sphere bounds; a leader heavier than the redundancy could be shortened |
| C114 | Ziv's inequality: the phrases are distinct (LZ78) or repeated at most q times (LZW); Gibbs against the mixture over the states with a geometric length; the number of phrases is o(n); the converse from prefix-freeness and McMillan |
| C115 | the difference of survivor and transmitted path is a walk of the linear encoder: a closed stretch has weight at least d or is weightless (excluded), a long stretch has weight proportional to its length by pigeonhole on the states; exchange argument on the best path to the state read |
| C116 | the ideal of maximal minors is invariant under changes of bases (multilinearity of the determinant), one stage of invariant_factors multiplies it by the corner; Massey-Sain: adjugate one way, a dependence of the rows modulo an irreducible factor other than D the other way |
| C117 | characterisation of `max` over words, position of a word in `product(range(q), repeat=n)` is its value in base q (induction on n), round trips from C24/C25 |
| C118 | invariants of the Euclidean loops: gcd and sign preserved, absolute value decreases |
| C119 | composition of the labeling round trips (C40) with the array decisions (C109) and the half-distance lemma (C75); Gray distance by induction from adjacent labels |
| C120 | achievability by Feinstein's lemma (greedy code, induction on M), strong converse by change of measure to the optimal output law; both with Chebyshev for the information density; KKT conditions at the maximiser by perturbation; maximiser by compactness; product law of the draws from `Measure.pi` |
| C121 | first-step induction on the number of draws (the first draw is independent of the rest, `Measure.pi`); almost sure equality of the loops with the state after the draws; limits from C82 |
| C122 | contraction of the l1 norm on vectors with sum zero by a positive power of P (Doeblin); Cesaro averages by solving w - wP = delta_i - pi and telescoping |
| C123 | union of the pairwise events, Bhattacharyya sum as a product over positions (`Finset.prod_univ_sum`); the Viterbi decoders are minimum-distance / maximum-correlation decoders by C89; a minimum-weight closed path (C66) padded with zeros is a codeword |
| C124 | infinite product of the uniform law of `rng.random()`; the words parsed by a complete prefix-free dictionary are independent with the product law; strong law of large numbers (Mathlib); renewal inversion for variable-to-fixed codes; Barron's lemma (Kraft, Borel-Cantelli) below and C114 above for Lempel-Ziv |
| C125 | infinite product of the uniform law; martingale-difference averages (`adapted_average`) give the transition frequencies; limit points of the occupation frequencies are invariant, hence the stationary distribution (C83); AEP by the logarithm of the path probability; Barron's lemma below and C114 above for Lempel-Ziv |
| C126 | strong law of large numbers (Mathlib) along the subsequence of the times where a symbol is sent; cutting endless draws into blocks preserves the product law; exact probabilities from C77, C84, C111, C104 |
| C127 | success probabilities written as sums over outputs (`realised_event`, from the block law of C120) or integrals of the densities of C103; the sum is maximal when every term is (C89, C47, C56: maximum correlation = maximum likelihood; C90: bitwise posteriors); for the Gaussian channel ties are null sets (proper subspaces), so no measurability of the decoder is needed |
| C128 | redundancy of a Fano code = sum over its splits of S(1 - h(x)), S the mass split and x the fraction of the first part; concavity of the binary entropy bounds each by the absolute difference of the two parts; the balancing rule makes each difference at most the last probability of the first part, and these are distinct for different splits (a potential argument over the loop), so they sum to at most 1 - (least probability); Huffman by optimality (C27) |
| C129 | `Model/Session`: state = global generator, objects with the generator they keep, number of requests to each generator; the event of a transcript depends on a finite set of answers determined by the transcript, with disjoint sets for different calls, so probabilities multiply (induction over the transcript); the laws of single calls from C77/C84/C103/C120; completion from C121 (absorption is certain) |
| C130 | the transcript law of C129 factors over the repetitions, so the blocks of responses are independent and identically distributed; strong law of large numbers and Hoeffding's inequality from Mathlib; the mean of the number of steps by summing tails (C121) |
| C131 | `Model/Tolerance`: the validators with the tolerance of `np.isclose`, and the functions that use them; scaling lemmas (draws, tree of the Huffman loop, splits of the Fano loop are invariant; entropies pick up s log s) |
| C132 | `Model/CodeObject`: heap of arrays, objects with caches and flags, programs in a state monad, sessions; invariant "every stored reference holds the right rows and is not writable by the user", one Hoare triple per method, induction over sessions |
| C133 | the k-th bit of the Gray label of j is floor((j + h)/2h) mod 2 with h = 2^(m-1-k); the decision exceeds i + e exactly when the noise exceeds (2e+1) delta/2 (outside a null set); telescoping gives the mean of any function of the decision; the double sum counts thresholds. QAM: the two coordinates are independent (rotation invariance). QPSK: parallelogram law and pairwise errors |
| C134 | `Model/Double`: doubles as reals of 53 significant bits (subnormals included, no upper exponent bound), rounding to nearest even; lemmas: rounding is a nearest double, monotone, relative error 2^-53 of a sum of doubles, integers up to 2^53 exact. The Viterbi model is polymorphic in the arithmetic; over any arithmetic with monotone addition it minimises the left-to-right rounded cost; that cost is a sum of N doubles in some order, whose error is bounded by induction on the summation tree. Exactness: simulation relation (same integer, bounded) between the two arithmetics |
| C135 | `Model/DoublePam`: the operations of lines 58-60 (with those of np.linspace) and 153-157 with `rnd` after each; forward error analysis with a uniform bound per rounding; monotonicity of rounding |
| C136 | `Model/DoubleLog`: `math.log(n, b)` as the rounded quotient of two approximate logarithms; forward error analysis against the gap 1/n between logarithms of integers; the codecs with computed widths agree with those of a width function that is sufficient everywhere (they consult only widths up to 2^44: congruence lemmas by induction), then C31-C34 and C114 apply; Shannon lengths by the distance of log2(1/p) from the integers |
| C137 | the polymorphic Huffman model at the type of doubles; weights of nodes within (1 +- 2^-53)^leaves of exact (sums of doubles have a relative error even when subnormal), so merged pairs are lightest up to a factor r; merging induction with slightly smaller weights for which the pair is lightest (the exchange lemma of C27); products of block probabilities by induction over the block size |
| C138 | rounded versions of the four decoders; `SumOf` (any summation order) error bounds of C134; boxplus is 1-Lipschitz in the max norm and its rounded version is within (min + 8)/2^50; induction over the polar recursion; a Reed decision is right when the votes of wrong rows cannot outweigh the others (a wrong position spoils at most one row of each partition; exact version C53_soft_corrects).  Nothing is claimed about the sign of a boxplus of two small values: with a = b = 10^-9 the result is rounding noise |
| C139 | every operation of the level, threshold and decision formulas rounded (`rnd`); first-order error bounds carried through, then "nearest up to twice the error" of round-and-clip (`coord_near`); PSK: a relative change r of a complex number moves its angle by at most pi r (Jordan's inequality), `np.angle`, `np.exp`, `np.abs` and `np.pi` are parameters with stated accuracies; generic detector: `SumOf` errors of C134.  `C139_psk_collapse` shows the effect of `matrix.round(15)` at small amplitudes |
| C140 | Python values as an inductive type, `==` with reflected methods, CPython's integer hash and `slot_tp_hash`, dictionaries as lists of (hash, key, value); invariant: keys pairwise unequal and stored with their hash; induction over the history.  `C140_hash_broken` is the counterexample X^61 versus 2^61 |
| C141 | the whole decoder with rounded operations; `np.logaddexp` as numpy computes it; `np.exp`, `np.log`, `np.log1p` are any functions within relative error 2^-50 (`Libm.Accurate`); sums are any summation tree (`SumOf`).  Error propagation in the log domain by induction over the trellis (`alphas_near`, `betas_near`), then multiplicatively through the normalisation; underflow is covered (log-ratios beyond 600).  With C90, the output is compared with the posterior of the message bits |
| C142 | `posteriors` with rounded operations on top of the distances of C139 and the normalisation of C141; `marginalize` as in C141.  `C142_demap_decode` composes the demapper with `DoubleBcjrAccurate` of C141: the decoder tolerates the errors of its inputs |
| C143 | `DoubleInfo.lean`: rounded operations, libm logarithms as any functions of bounded relative error, `np.dot` as any combination of fused or separate multiply-adds (`DotOf`).  Error of a dot product by induction on `DotOf`; logarithm of a rounded quotient; bisection with exact dyadic end points and the intermediate value theorem; for small tolerances the invariant that the two ends remain distinct doubles |
| C144 | `PulsesIsclose.lean`: the two methods with the tolerance of `np.isclose`.  Both quantities are Fourier integrals over a band (C96), hence Lipschitz |
| C145 | `DoubleChannels.lean`: the six methods with every operation rounded.  The doubles above 1 start at `1 + 2^-52`, so a value below `1 + 2^-53` rounds to at most 1; modulus of continuity of `-x log x`; `p^(p/(1-p))` by the Lipschitz property of `exp` and `|p log p/(1-p)| <= 1` |
| C146 | `DoubleChannels.lean` (`mutualInformationD`): matrix product by any summations, validators with rounded sums and the rounded tolerance.  The products have a small relative error (no underflow for the assumed entries), a relative perturbation changes the entropy by a bounded amount, and `sum p log(1/p) <= log m + ...` bounds the scale |
| C147 | `DoubleLossless.lean`: cumulative sums, the halved `np.sum`, differences and products all rounded.  The split is never at the last position: the first cumulative sum is at least as near to half of the (differently rounded) total as the last one, because the largest probability exceeds the rounding errors and doubles are multiples of 2^-1074; the rest follows the exact proof. Tunstall: the quotient is at distance at least 1/b from the integers it is not equal to, so the rounded one has the same ceiling; near-optimality from the relative accuracy of the computed probabilities of all nodes that can be popped and a factor version of the exchange argument |
| C148 | `DoubleRates.lean`: the three functions with rounded products (any order, `ProdOf`), any dot product (`DotOf`), any sum (`SumOf`) and `np.float_power` exact where the result is a double and within a unit in the last place elsewhere.  Error analysis by induction over the product and the dot product; the Kraft sum of dyadic numbers at most 1 consists of multiples of 2^-53, so every partial sum is a double |
| C149 | `DoubleDraws.lean`: rounded `cumsum`, rounded division by the last entry, numpy's binary search, draws that are multiples of 2^-53.  The binary search counts the entries not above the draw; rounding up the rounded cdf to multiples of 2^-53 gives a pmf from which exact drawing makes the same choices for every draw, so the theorems about exact drawing (C84, C121) carry over; error of the running sums from C134; a concrete absorbing chain on which the loop never ends |
| C150 | a competitor that correlates at least as well differs from the sent word in a set D with A^2 \|D\| at most the squared length of the noise (Cauchy-Schwarz); combined with the optimality theorems C47, C56, C89 and with the free distance (C66); sharpness by noise along a minimum-weight codeword |
| C151 | compositions `transmitter` / `receiver` of the models of C24, C41, C119 and the decoders; a disturbed symbol spoils at most `num_bits` bits of one word, the rest is C119; instances from C45, C47, C53, C57, C89 |
| C152 | `demap` is the composition of the models of C94 and C109; its value by logarithms of the two posteriors (C72, C94); the L-values are `received (delta/noise_power) (delta/2)` of C150, whose radius theorems finish |
| C153 | compositions `pcmBits` / `pcmSamples` of the models of C40 and C71; zero padding (`padTo`) reduces any bits to whole messages (C151); LZ output symbols are below the target cardinality; wrong bits by induction on the label, most significant bit first |
| C154 | the chain of C151 with the Hamming distance of the labels as cost; per-symbol cost from the Gray property (C38, C39, C119) and the clipping decision (C75); sums over the symbols of a word |
| C155 | argument of a positive multiple of `exp(i theta)` as `toIocMod`, rounding of the turn, cyclic Gray distance by induction on the steps; additive noise by `arcsin`; the chain of C154 |
| C156 | definitions of C75, C76 and C88 on `T` of the points; `inf` commutes with monotone maps; sum of all squared distances as `2 M^2 (E - norm(mean)^2)` |
| C157 | measures of C78 in nats; the log-sum inequality for data processing and convexity, nonnegativity of mutual information for concavity |
| C158 | codeword lists as permutations of each other; coset leaders counted through the words at each distance from the code |
| C159 | the state-space matrices of the reordered encoder as reorderings of the original ones; then run, outputs, returning weights |
| C160 | optimality (C27) applied to the reordered code and to the concatenations of two codes |
| C161 | optimality (C101) applied to the relabelled parse tree and to the parse tree of the smaller code |
| C162 | the length max(1, ceil(log2(1/p))) is subadditive in products, and exact on powers of 1/2; Huffman optimality |
| C163 | cross entropy of blocks of pairs (true, assumed probability), additive in the block size; bounds on the lengths |
| C164 | powers of the transition matrix of the renumbered chain; the characterisations C72, C73 of the methods by these powers |
| C165 | the submatrices Q and R are reindexed by the renumbering of the transient and absorbing states (C164), and so are the inverse and the products |

## Findings: where the code disagrees with the expected property
Each item that names a theorem is proved in the model; the others were found while reading and are outside a property.
* `BinaryPolynomial.lcm` returns product // gcd for three or more arguments; one argument gives 1, all zeros raises (C05).
* `BinaryPolynomial.from_exponents` loses an exponent listed a multiple of 256 times (`C14_from_exponents_overflow`).
* `TunstallCode` stops one expansion early when the last expansion would fit exactly (`C30_exact_fit_is_missed`).
* `CyclicCode(systematic=False)`: the syndrome table is indexed by `v Hᵀ` but looked up with the remainder modulo g (`C46_single_error_not_corrected`).
* Parallel transitions: `input_edges` keeps the last parallel input, Viterbi and BCJR are wrong then (`C64_parallel_not_ml`, `C65_parallel_wrong`).
* `FixedToVariableCode.rate` pairs lengths in insertion order with probabilities in lexicographic order (`C79_order_matters`).
* `viterbi_streaming` selects a stored path with the best state after the observation, although the paths are those before it (`C80_noiseless_wrong`); with `state ≠ 0` the stream decoder records initial state 0 in the paths.
* `BCJRDecoder` reverses the bits within each block for `k ≥ 2`: labels are most-significant-first, the state machine is least-significant-first (`C90_bits_swapped`).
* Zero-termination with unequal constraint lengths: `ViterbiDecoder` searches all closed paths, a proper supercode of the code (`C89_unequal_not_nearest`).
* Zero-termination of a memoryless code raises (`C62_memoryless_raises`); tail-biting is silently wrong when `A^h + I` is singular (`C62_tail_biting_singular_wrong`).
* `ConvolutionalCode` accepts feedback polynomials without constant term (`C61_feedback_without_constant_term`); `HighRate` with σ = 0 raises.
* `BlockCode` keeps its argument by reference and returns its cached arrays by reference: a later write by the user makes the object inconsistent (`C132_aliasing`).
* `coset_leaders` does not terminate when the redundancy is 0 (`C44_redundancy_zero_hangs`).
* `FixedToVariableCode` accepts empty codewords (witness beside C24).
* Labelings: `bits_to_indices([])` raises (`C37_empty_is_rejected`); natural/reflected `indices_to_bits` do not check the range; `Labeling` accepts a 1 × 0 matrix.
* Orthogonal/simplex/biorthogonal decisions are right only for non-negative amplitude (`C75_negative_amplitude`).
* QAM with an order equal to 1: `minimum_distance` is not the minimum distance (`C76_qam_degenerate`); PSK of order 1 and APSK with an order-1 ring: mean ≠ 0 (`C76_psk_one`).
* Logarithm base below 1 is accepted by the information measures (`C78_base_below_one`); BSC/BEC/Z `mutual_information` do not check the length of the pmf.
* `SystematicBlockCode` checks `max(information_set) > n` (should be ≥) and accepts duplicates; `CyclicCode` given both polynomials sets neither; g = 1 gives 1-bit syndromes; `SingleParityCheckCode(1).minimum_distance()` is 2 though the code is {0}.
* `rref` mutates an integer array argument in place.
* `invariant_factors` does not ensure divisibility of consecutive factors, so `is_catastrophic()` returns `False` for the catastrophic encoder diag(1+D, D) (`C99_wrong_false`); it looks at the last factor only.
* `field(value)` does not reduce modulo the modulus; `from_exponents` with repeated exponents does not cancel; `coefficients(width=0)` means the default.
* `ZadoffChuSequence` accepts root indices not coprime to the length, whose autocorrelation is not ideal (`C93_not_coprime`).
* `RectangularPulse` does not check its width: a negative width gives a negative energy (`C95_negative_width`); the default tap span is [0, 1] even when the pulse is wider.
* `TunstallCode` stops one expansion early when the last one fits exactly (always for binary sources, n >= 2) and is then not optimal (`C101_tunstall_not_optimal`: rate 4/3 instead of 1).
* `FixedToVariableCode` accepts an empty codeword; `is_uniquely_decodable()` ignores it and may answer `True` with `kraft_parameter()` > 1 (`C100_empty_codeword`).
* `mean_squared_error` does not check that the range contains the thresholds and can return a negative number (`C102_negative`).
* `marcum_q` stops at the first term below `1e-16`, also when the terms still grow: `marcum_q(1, 20, 10)` returns about `1e-20`, the true value is `1 - 1e-22` (`C105_early_exit`). It happens for every `m = 1` and `x` above about 9 with large `a`.
* An empty message is accepted by the block methods written with array operations (`BlockCode.encode([])` is `[]`) and rejected by those
  that use `@vectorize` (`CyclicCode.encode([])` raises) (C108_empty).
* LZ77/LZSS use `bytes()`, so symbols above 255 raise; bit widths come from floating-point logarithms.
* LFSR feedback polynomials without constant term are accepted; feedback 1 raises `IndexError`; dyadic Walsh ordering is not implemented.
* The validators of komm accept sums within 1.001e-5 of one, other checks are stricter: `emit`, `transmit` and `simulate` raise when the sum is off by more than 2^-26
  (`C131_accepted_but_raises`), `ShannonCode` can raise (`C131_shannon_raises`), `mutual_information` can raise (`C131_mutual_information_raises`, `C131_bsc_raises`), and an entropy or
  relative entropy can be negative (`C131_negative_entropy`, `C131_negative_relative_entropy`).
* The thresholds returned by Lloyd–Max are midpoints of the previous iteration's levels.
* `PAMConstellation.closest_indices` converts to `int64` before clipping: a received value of `2^64 δ` or more gives index 0 instead of `M - 1` on x86-64 (`C135_huge_wrong`); the
  same order is used by `ASKConstellation`; `QAMConstellation` clips first.  `ViterbiStreamDecoder` never subtracts a common term from its metrics, so that a long soft stream loses precision
  (absolute error of the order of the accumulated metric times `2^-53`; C134 bounds the block decoders).
* `ShannonCode` raises for some probability vectors that add up to exactly one, because `log2` rounds to an integer just below the logarithm (`C136_shannon_raises`: 16 times the double just
  below 1/16 and once 2^-53).  The Lempel–Ziv widths can be one symbol too large when the number of values is a power of the target cardinality (`C136_slack`; in CPython
  `math.log(125, 5)` is 3.0000000000000004): wasteful, but still decodable.
* `PSKConstellation.matrix` rounds the points to 15 decimals whatever the amplitude (PSKConstellation.py:71-73): for amplitudes of at most 2·10⁻¹⁶ every stored point is 0
  (`C139_psk_collapse`) while `minimum_distance()` still returns `2 A sin(π/M) > 0` and `mean_energy()` `A²`; for somewhat larger amplitudes the points are distorted by up to 10⁻¹⁵ / A.
* `BinaryPolynomial.__hash__` returns the value itself while `__eq__` accepts `int`: for `2^61 - 1 ≤ v < 2^63` (degrees 60–62) `BinaryPolynomial(v) == v` but their hashes differ, so that sets and
  dictionaries that mix them miss keys (`C140_hash_mixed`, `C140_hash_broken`).  `FiniteBifield`, `BinaryPolynomialFraction` and `Integer` define `__eq__` without `__hash__` and are unhashable
  (`C140_unhashable`).  `repr(FiniteBifield(degree, modulus))` raises for degrees above 24, for which no default polynomial is stored (`C140_repr_field`).
* `entropy` computes `1/p`: a positive probability of at most `2^-1025` makes it infinite (`C143_entropy_overflow`; `entropy([1.0, 5e-324])` is `inf` instead of about 0).  `binary_entropy_inv`
  with a tolerance below the spacing of the doubles (for instance 0) never returns (`C143_inverse_hangs`).
* `simulate_until_absorption` can run forever on a chain that `is_absorbing()` accepts and whose rows add up to exactly 1: a transition of probability `2^-55` disappears in the rounding of the
  cumulative sums of `Generator.choice` (`C149_until_hangs`).  The binary channels simulate an error rate of at least `2^-53` for every positive probability (`C149_floor`).

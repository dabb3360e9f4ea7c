{"id": "C01", "title": "Integer/bit conversions are mutually inverse", "statement": "For each bit order ('LSB-first' or 'MSB-first') int_to_bits(n, width) has exactly `width` entries, all 0/1; bits_to_int(int_to_bits(n, width)) == n whenever 0 <= n < 2**width (and n mod 2**width in general); int_to_bits(bits_to_int(b), len(b)) == b for every 0/1 list b.", "quantifier": "every natural number n, every width, every finite 0/1 list, both bit orders", "why_tests_cant": "width and value are unbounded; a test only samples widths, and wrong bit order or truncation is invisible on palindromes and small values", "anchors": ["src/komm/_util/bit_operations.py:bits_to_int", "src/komm/_util/bit_operations.py:int_to_bits"]}
{"id": "C02", "title": "BinaryPolynomial arithmetic is GF(2)[X]", "statement": "Reading an integer as the polynomial of its bits is a bijection between non-negative integers and GF(2)[X], and +, -, *, ** , <<, degree of BinaryPolynomial agree with addition, subtraction, multiplication, power, multiplication by X^n and degree in GF(2)[X].", "quantifier": "every pair of polynomials of any degree, every exponent", "why_tests_cant": "ring laws over an infinite domain", "anchors": ["src/komm/_algebra/BinaryPolynomial.py:BinaryPolynomial.__add__", "src/komm/_algebra/BinaryPolynomial.py:BinaryPolynomial.__mul__", "src/komm/_algebra/ring.py:power"]}
{"id": "C03", "title": "Polynomial division is Euclidean division", "statement": "divmod(a, b) terminates for every b != 0 and returns the unique (q, r) with a == q*b + r and deg r < deg b; for b == 0 it raises ZeroDivisionError.", "quantifier": "every dividend and divisor", "why_tests_cant": "termination and exactness of a data-dependent loop", "anchors": ["src/komm/_algebra/BinaryPolynomial.py:BinaryPolynomial.__divmod__"]}
{"id": "C04", "title": "gcd and xgcd", "statement": "BinaryPolynomial.gcd(a, b, ...) divides every argument and is divided by every common divisor; xgcd(a, b) returns (d, s, t) with d a greatest common divisor and d == s*a + t*b.", "quantifier": "every non-empty list of polynomials / every pair", "why_tests_cant": "recursion depth is unbounded and cofactors are only wrong on particular quotient sequences", "anchors": ["src/komm/_algebra/domain.py:gcd", "src/komm/_algebra/domain.py:xgcd", "src/komm/_algebra/BinaryPolynomial.py:BinaryPolynomial.gcd"]}
{"id": "C05", "title": "lcm is the least common multiple", "statement": "BinaryPolynomial.lcm(a, b, ...) of non-zero polynomials is a multiple of every argument and divides every common multiple.", "quantifier": "every non-empty list of non-zero polynomials", "why_tests_cant": "tests use two coprime arguments; the implementation divides the product of all arguments by their overall gcd, which is only right for two arguments", "anchors": ["src/komm/_algebra/BinaryPolynomial.py:BinaryPolynomial.lcm", "src/komm/_algebra/domain.py:lcm"]}
{"id": "C06", "title": "is_irreducible decides irreducibility", "statement": "p.is_irreducible() is True exactly when p is an irreducible element of GF(2)[X].", "quantifier": "every polynomial of every degree", "why_tests_cant": "correctness of Rabin's test is a theorem; sampling cannot reach all degrees", "anchors": ["src/komm/_algebra/BinaryPolynomial.py:BinaryPolynomial.is_irreducible", "src/komm/_algebra/BinaryPolynomial.py:power_mod", "src/komm/_algebra/Integers.py:prime_factors"]}
{"id": "C07", "title": "is_primitive decides primitivity", "statement": "p.is_primitive() is True exactly when p is irreducible and X has multiplicative order 2**deg(p) - 1 modulo p (so X generates the multiplicative group of GF(2)[X]/(p)).", "quantifier": "every polynomial of every degree", "why_tests_cant": "same as is_irreducible: an order statement about an exponentially large group", "anchors": ["src/komm/_algebra/BinaryPolynomial.py:BinaryPolynomial.is_primitive"]}
{"id": "C08", "title": "The default primitive polynomials are primitive", "statement": "default_primitive_polynomial(m) is a primitive polynomial of degree m for every m it accepts (1..24) and raises ValueError for every other m.", "quantifier": "every integer m", "why_tests_cant": "primitivity of degree 24 means order 16777215, checked by the same routine under test", "anchors": ["src/komm/_algebra/BinaryPolynomial.py:default_primitive_polynomial"]}
{"id": "C09", "title": "FiniteBifield is a field", "statement": "For every accepted FiniteBifield, reduced elements (value < 2**degree) are closed under +, -, *, and satisfy the field axioms (the arithmetic is that of GF(2)[X] modulo the modulus); x.inverse() is a reduced element with x * x.inverse() == one for every reduced x != zero and raises ZeroDivisionError for x == zero; x / y and x ** n (n of any sign) agree with it. The constructor rejects reducible moduli and wrong degrees.", "quantifier": "every degree, every irreducible modulus, all elements and exponents", "why_tests_cant": "field axioms quantify over triples in fields of unbounded size", "anchors": ["src/komm/_algebra/FiniteBifield.py:FiniteBifieldElement", "src/komm/_algebra/FiniteBifield.py:FiniteBifield.__init__", "src/komm/_algebra/field.py:power"]}
{"id": "C10", "title": "Discrete logarithm", "statement": "x.logarithm(base) returns the least i in [0, order) with base**i == x and raises ValueError exactly when x is not a power of base (with non-negative exponent).", "quantifier": "every field, every pair of elements", "why_tests_cant": "an exhaustive statement about cyclic subgroups", "anchors": ["src/komm/_algebra/FiniteBifield.py:FiniteBifieldElement.logarithm"]}
{"id": "C11", "title": "Conjugates and minimal polynomial", "statement": "x.conjugates() terminates and lists, without repetition, exactly the elements x**(2**i); x.minimal_polynomial() is the minimal polynomial of x over GF(2): it vanishes at x and divides every polynomial over GF(2) vanishing at x.", "quantifier": "every field and every element", "why_tests_cant": "termination of an open-ended loop and minimality over all polynomials", "anchors": ["src/komm/_algebra/FiniteBifield.py:FiniteBifieldElement.conjugates", "src/komm/_algebra/FiniteBifield.py:FiniteBifieldElement.minimal_polynomial"]}
{"id": "C12", "title": "find_roots returns exactly the roots", "statement": "For a polynomial with coefficients in the field that is not identically zero, find_roots returns, in increasing integer order and without repetition, exactly the field elements at which it vanishes (the early stop never loses a root).", "quantifier": "every field and every coefficient list", "why_tests_cant": "the early exit relies on the root-count theorem", "anchors": ["src/komm/_algebra/FiniteBifield.py:find_roots"]}
{"id": "C13", "title": "BinaryPolynomialFraction is the fraction field in canonical form", "statement": "Constructing n/d with d != 0 always stores a coprime pair; two fractions compare equal exactly when n1*d2 == n2*d1; +, -, *, /, inverse, ** agree with the field of rational functions over GF(2); zero denominators and division by zero raise ZeroDivisionError.", "quantifier": "all numerators and non-zero denominators", "why_tests_cant": "canonicity is a global invariant over every operation sequence", "anchors": ["src/komm/_algebra/BinaryPolynomialFraction.py:BinaryPolynomialFraction"]}
{"id": "C14", "title": "Coefficients, exponents, reciprocal and evaluation", "statement": "from_coefficients and coefficients are inverse; exponents() lists the degrees of non-zero terms; reciprocal() of p is X^deg(p) p(1/X); evaluate(x) equals the value of the polynomial at x in the ring of x.", "quantifier": "every polynomial, every ring element", "why_tests_cant": "unbounded degrees and arbitrary target rings", "anchors": ["src/komm/_algebra/BinaryPolynomial.py:BinaryPolynomial.coefficients", "src/komm/_algebra/BinaryPolynomial.py:BinaryPolynomial.reciprocal", "src/komm/_algebra/BinaryPolynomial.py:BinaryPolynomial.evaluate", "src/komm/_algebra/ring.py:binary_horner"]}
{"id": "C15", "title": "Generic ring algorithms", "statement": "Over every commutative ring, power(x, n) is x^n, horner(c, x) is the polynomial value, and determinant(M) is the determinant of the square matrix M (order >= 1).", "quantifier": "every commutative ring, matrix size, exponent", "why_tests_cant": "Laplace expansion must be related to the determinant for all sizes", "anchors": ["src/komm/_algebra/ring.py:power", "src/komm/_algebra/ring.py:horner", "src/komm/_algebra/ring.py:determinant"]}
{"id": "C16", "title": "prime_factors", "statement": "prime_factors(n) for n >= 1 terminates and is the non-decreasing list of primes with product n.", "quantifier": "every n >= 1", "why_tests_cant": "number-theoretic statement for all n", "anchors": ["src/komm/_algebra/Integers.py:prime_factors"]}
{"id": "C17", "title": "rref / xrref / rank over GF(2)", "statement": "rref(M) is in reduced row echelon form and has the same row space as M; xrref(M) returns (P, R, pivots) with P invertible, P M == R == rref(M), and pivots the pivot columns of R; rank(M) is the dimension of the row space of M.", "quantifier": "every binary matrix of every shape", "why_tests_cant": "Gaussian elimination invariants for every shape", "anchors": ["src/komm/_util/matrices.py:rref", "src/komm/_util/matrices.py:xrref", "src/komm/_util/matrices.py:rank"]}
{"id": "C18", "title": "pseudo_inverse is a right inverse", "statement": "For every k x n binary matrix M of rank k, pseudo_inverse(M) is an n x k binary matrix P with M P == I.", "quantifier": "every full-row-rank binary matrix", "why_tests_cant": "all shapes and pivot patterns", "anchors": ["src/komm/_util/matrices.py:pseudo_inverse"]}
{"id": "C19", "title": "null_matrix is a basis of the null space", "statement": "For every k x n binary matrix M of rank k, null_matrix(M) has n-k linearly independent rows, and v is in their span exactly when M v^T == 0; rank-deficient matrices are rejected.", "quantifier": "every binary matrix", "why_tests_cant": "all shapes and pivot patterns", "anchors": ["src/komm/_util/matrices.py:null_matrix"]}
{"id": "C20", "title": "Sardinas-Patterson: is_uniquely_parsable decides unique parsability", "statement": "is_uniquely_parsable(words) terminates for every finite list of words and, for non-empty distinct words, returns True exactly when no finite sequence of symbols has two different factorisations into words.", "quantifier": "every finite list of words over every alphabet", "why_tests_cant": "the claim is about all concatenations of words", "anchors": ["src/komm/_lossless_coding/util.py:is_uniquely_parsable"]}
{"id": "C21", "title": "is_prefix_free decides prefix-freeness", "statement": "is_prefix_free(words) is True exactly when no word is a prefix of a word at another position (up to the documented treatment of empty words).", "quantifier": "every finite list of words", "why_tests_cant": "adjacent comparison after sorting is only right because of the order's structure", "anchors": ["src/komm/_lossless_coding/util.py:is_prefix_free", "src/komm/_lossless_coding/util.py:is_prefix_of"]}
{"id": "C22", "title": "is_fully_covering decides covering", "statement": "is_fully_covering(words, alphabet size) is True exactly when every sufficiently long (equivalently infinite) sequence over the alphabet has a prefix among the words.", "quantifier": "every finite list of words, every alphabet size", "why_tests_cant": "claim over infinite sequences", "anchors": ["src/komm/_lossless_coding/util.py:is_fully_covering"]}
{"id": "C23", "title": "Canonical codes from lengths", "statement": "FixedToVariableCode.from_lengths(lengths) (canonical_code) succeeds exactly when the lengths satisfy the Kraft inequality, and then the codeword of each symbol has the requested length and the code is prefix-free.", "quantifier": "every list of lengths and every target cardinality", "why_tests_cant": "Kraft inequality for all length lists", "anchors": ["src/komm/_lossless_coding/util.py:canonical_code", "src/komm/_lossless_coding/FixedToVariableCode.py:FixedToVariableCode.from_lengths"]}
{"id": "C24", "title": "FixedToVariableCode round trip", "statement": "If a FixedToVariableCode is prefix-free and has no empty codeword, decode(encode(x)) == x for every source sequence whose length is a multiple of the source block size; encode raises ValueError on other lengths; decode raises ValueError when the input does not split into codewords.", "quantifier": "every code, every source sequence, every target sequence", "why_tests_cant": "arbitrary length and codebooks", "anchors": ["src/komm/_lossless_coding/FixedToVariableCode.py:FixedToVariableCode.encode", "src/komm/_lossless_coding/FixedToVariableCode.py:FixedToVariableCode.decode", "src/komm/_lossless_coding/util.py:parse_prefix_free", "src/komm/_lossless_coding/util.py:parse_fixed_length"]}
{"id": "C25", "title": "VariableToFixedCode round trip", "statement": "If a VariableToFixedCode is prefix-free and fully covering then encode never fails, its output length is a multiple of the target block size, and decode(encode(x)) has x as a prefix, and equals x followed by the padding that completed the last sourceword.", "quantifier": "every dictionary, every source sequence", "why_tests_cant": "arbitrary length and dictionaries; the last incomplete word is a boundary case", "anchors": ["src/komm/_lossless_coding/VariableToFixedCode.py:VariableToFixedCode.encode", "src/komm/_lossless_coding/VariableToFixedCode.py:VariableToFixedCode.decode", "src/komm/_lossless_coding/util.py:parse_prefix_free"]}
{"id": "C26", "title": "Huffman codes are complete prefix codes", "statement": "HuffmanCode(pmf) for any pmf with at least two blocks yields a prefix-free, fully covering code with one codeword per source block, for both policies, whatever the probabilities (including ties and zeros).", "quantifier": "every pmf, block size and policy", "why_tests_cant": "tree shape depends on all comparisons", "anchors": ["src/komm/_lossless_coding/HuffmanCode.py:huffman_tree", "src/komm/_lossless_coding/HuffmanCode.py:tree_lengths", "src/komm/_lossless_coding/HuffmanCode.py:tree_codewords", "src/komm/_lossless_coding/HuffmanCode.py:huffman_code"]}
{"id": "C27", "title": "Huffman codes are optimal", "statement": "In exact arithmetic, the expected length of HuffmanCode(pmf) is at most that of every uniquely decodable binary code for the same block distribution.", "quantifier": "every pmf and every competing code", "why_tests_cant": "quantifies over all codes", "anchors": ["src/komm/_lossless_coding/HuffmanCode.py:huffman_code"]}
{"id": "C28", "title": "Fano codes", "statement": "FanoCode(pmf) terminates for every pmf and its codewords form a complete prefix-free code.", "quantifier": "every pmf", "why_tests_cant": "recursive splitting at a data-dependent point", "anchors": ["src/komm/_lossless_coding/FanoCode.py:fano_code_lengths"]}
{"id": "C29", "title": "Shannon codes", "statement": "The lengths ceil(log2(1/p)) used by ShannonCode satisfy the Kraft inequality, so the construction never fails, the code is prefix-free, and in exact arithmetic its rate is below H + 1.", "quantifier": "every pmf with positive entries", "why_tests_cant": "inequality for every pmf", "anchors": ["src/komm/_lossless_coding/ShannonCode.py:ShannonCode"]}
{"id": "C30", "title": "Tunstall codes", "statement": "TunstallCode(pmf, n) yields a prefix-free, fully covering set of at most 2**n sourcewords; the documented optimality implies the set is as large as possible, i.e. there is no room for another leaf expansion.", "quantifier": "every pmf and target block size", "why_tests_cant": "greedy tree growth for all pmfs; boundary in the number of expansions", "anchors": ["src/komm/_lossless_coding/TunstallCode.py:tunstall_code"]}
{"id": "C31", "title": "LZ77 round trip", "statement": "decode(encode(x)) == x for LempelZiv77Code with any window and lookahead sizes and every source sequence over its alphabet (symbols below 256); source_to_tokens/tokens_to_source and tokens_to_target/target_to_tokens are inverse pairs on the encoder's output.", "quantifier": "every source sequence, window size, lookahead size, cardinalities", "why_tests_cant": "dictionary coders fail on rare self-overlapping matches and at the end of input", "anchors": ["src/komm/_lossless_coding/LempelZiv77Code.py:LempelZiv77Code"]}
{"id": "C32", "title": "LZSS round trip", "statement": "decode(encode(x)) == x for LempelZivSSCode with any window and lookahead sizes and every source sequence over its alphabet.", "quantifier": "every source sequence, window size, lookahead size, cardinalities", "why_tests_cant": "same, plus the break-even rule choosing literals", "anchors": ["src/komm/_lossless_coding/LempelZivSSCode.py:LempelZivSSCode"]}
{"id": "C33", "title": "LZ78 round trip", "statement": "decode(encode(x)) == x for LempelZiv78Code and every source sequence over its alphabet.", "quantifier": "every source sequence, both cardinalities", "why_tests_cant": "the last phrase may repeat an existing one", "anchors": ["src/komm/_lossless_coding/LempelZiv78Code.py:LempelZiv78Code"]}
{"id": "C34", "title": "LZW round trip", "statement": "decode(encode(x)) == x for LempelZivWelchCode and every source sequence over its alphabet.", "quantifier": "every source sequence, both cardinalities", "why_tests_cant": "the 'code not yet in dictionary' case and width changes only occur on particular inputs", "anchors": ["src/komm/_lossless_coding/LempelZivWelchCode.py:LempelZivWelchCode"]}
{"id": "C35", "title": "Unary code", "statement": "UnaryCode().decode(UnaryCode().encode(x)) == x for every list of non-negative integers; decode raises on an incomplete last codeword and otherwise encode(decode(b)) == b.", "quantifier": "every list of naturals / every bit list", "why_tests_cant": "unbounded values", "anchors": ["src/komm/_integer_coding/UnaryCode.py:UnaryCode"]}
{"id": "C36", "title": "Fibonacci code", "statement": "FibonacciCode().decode(FibonacciCode().encode(x)) == x for every list of positive integers; every codeword is a Zeckendorf representation followed by a 1, i.e. contains '11' only at its end.", "quantifier": "every list of positive integers", "why_tests_cant": "Zeckendorf uniqueness for all integers", "anchors": ["src/komm/_integer_coding/FibonacciCode.py:FibonacciCode"]}
{"id": "C37", "title": "Natural labelings are bijections", "statement": "NaturalLabeling(m): bits_to_indices(indices_to_bits(i)) == i for lists of indices in range, and conversely for every 0/1 list whose length is a multiple of m; wrong lengths raise.", "quantifier": "every m, every index list, every bit list", "why_tests_cant": "unbounded m", "anchors": ["src/komm/_labelings/NaturalLabeling.py:NaturalLabeling"]}
{"id": "C38", "title": "Reflected (Gray) labelings", "statement": "ReflectedLabeling(m) is a bijection between [0, 2^m) and m-bit words in which the labels of i and i+1 (and of 2^m - 1 and 0) differ in exactly one bit; bits_to_indices inverts indices_to_bits.", "quantifier": "every m and every index", "why_tests_cant": "unbounded m", "anchors": ["src/komm/_labelings/ReflectedLabeling.py:ReflectedLabeling"]}
{"id": "C39", "title": "Product and rectangular labelings", "statement": "ProductLabeling of bijective labelings is bijective: its matrix has distinct rows, its indices follow the product order, and bits_to_indices inverts indices_to_bits; ReflectedRectangularLabeling neighbours in the grid differ in one bit.", "quantifier": "every finite list of labelings", "why_tests_cant": "arbitrary numbers and sizes of factors", "anchors": ["src/komm/_labelings/ProductLabeling.py:ProductLabeling", "src/komm/_labelings/ReflectedRectangularLabeling.py:ReflectedRectangularLabeling"]}
{"id": "C40", "title": "Table labelings: indices_to_bits / bits_to_indices / validation", "statement": "A Labeling accepted by the constructor (2^m distinct binary rows of width m) has bits_to_indices and indices_to_bits mutually inverse, blockwise on concatenations.", "quantifier": "every accepted matrix, every index list and bit list", "why_tests_cant": "all permutations of all sizes", "anchors": ["src/komm/_labelings/Labeling.py:Labeling", "src/komm/_labelings/base.py:Labeling"]}
{"id": "C41", "title": "Linear block code: encoder, check and inverse encoder agree", "statement": "For every BlockCode given by a full-rank generator (or check) matrix: encode is linear and injective, check(v) == 0 exactly for the codewords {encode(u)}, inverse_encode(encode(u)) == u, inverse_encode raises ValueError on non-codewords; codewords() lists each codeword exactly once with codewords()[i] == encode(bits of i). Constructing from the check matrix gives the code with that kernel.", "quantifier": "every full-rank binary matrix, every message, every received word", "why_tests_cant": "all shapes, all words", "anchors": ["src/komm/_error_control_block/BlockCode.py:BlockCode", "src/komm/_error_control_block/base.py:BlockCode"]}
{"id": "C42", "title": "Systematic block codes", "statement": "SystematicBlockCode(P, information_set) places the message unchanged on the information set; its generator and check matrices are orthogonal, have full rank, project_word(encode(u)) == u, and check(v) == 0 exactly for codewords.", "quantifier": "every parity submatrix and every admissible information set", "why_tests_cant": "all information sets", "anchors": ["src/komm/_error_control_block/SystematicBlockCode.py:SystematicBlockCode"]}
{"id": "C43", "title": "Cyclic codes", "statement": "CyclicCode(n, g) with g | X^n + 1 : codewords are exactly the length-n words whose polynomial is a multiple of g; the set is closed under cyclic shifts; systematic encoding puts the message on the last k positions; inverse_encode inverts encode in both modes; a generator that does not divide X^n + 1 is rejected.", "quantifier": "every n, every divisor g, every message", "why_tests_cant": "all divisors of X^n+1 for all n", "anchors": ["src/komm/_error_control_block/CyclicCode.py:CyclicCode"]}
{"id": "C44", "title": "Coset leaders", "statement": "coset_leaders() of a code with redundancy m >= 1 terminates and entry i has syndrome int_to_bits(i, m) and minimum Hamming weight among all words with that syndrome; coset_leader_weight_distribution counts them by weight.", "quantifier": "every check matrix of full rank", "why_tests_cant": "minimality over an exponentially large coset", "anchors": ["src/komm/_error_control_block/base.py:BlockCode.coset_leaders", "src/komm/_error_control_block/base.py:BlockCode.coset_leader_weight_distribution"]}
{"id": "C45", "title": "Syndrome-table decoding is minimum-distance decoding", "statement": "SyndromeTableDecoder output is the message of a codeword at minimum Hamming distance from the received word, and corrects every error pattern of weight <= (d-1)//2.", "quantifier": "every code, every received word", "why_tests_cant": "all received words", "anchors": ["src/komm/_error_control_decoders/SyndromeTableDecoder.py:SyndromeTableDecoder"]}
{"id": "C46", "title": "Syndrome decoding of non-systematic cyclic codes", "statement": "SyndromeTableDecoder applied to CyclicCode(..., systematic=False) corrects every error pattern of weight <= (d-1)//2.", "quantifier": "every non-systematic cyclic code", "why_tests_cant": "the library mixes two different syndrome maps; only some patterns reveal it", "anchors": ["src/komm/_error_control_block/CyclicCode.py:CyclicCode.check", "src/komm/_error_control_block/CyclicCode.py:CyclicCode.check_matrix", "src/komm/_error_control_block/base.py:BlockCode.coset_leaders"]}
{"id": "C47", "title": "Exhaustive-search decoding is maximum likelihood", "statement": "ExhaustiveSearchDecoder returns the message of a codeword minimising Hamming distance (hard) or of a codeword minimising Euclidean distance / maximising correlation with the soft input (soft).", "quantifier": "every code, every received word/vector", "why_tests_cant": "all received words", "anchors": ["src/komm/_error_control_decoders/ExhaustiveSearchDecoder.py:ExhaustiveSearchDecoder"]}
{"id": "C48", "title": "minimum_distance, packing and covering radius", "statement": "minimum_distance() equals the minimum distance between distinct codewords; packing_radius() is the largest t such that all patterns of weight <= t are uniquely decodable; covering_radius() is the largest distance of any word from the code.", "quantifier": "every linear code with k >= 1", "why_tests_cant": "extremal statements over all words", "anchors": ["src/komm/_error_control_block/base.py:BlockCode.minimum_distance", "src/komm/_error_control_block/base.py:BlockCode.packing_radius", "src/komm/_error_control_block/base.py:BlockCode.covering_radius"]}
{"id": "C49", "title": "Repetition, single-parity-check and Cordaro-Wagner codes", "statement": "RepetitionCode(n) consists of the two constant words and has minimum distance n; SingleParityCheckCode(n) consists of the even-weight words and has minimum distance 2; CordaroWagnerCode(n) has minimum distance ceil(2n/3)-1 (as documented) for every n >= 2.", "quantifier": "every n", "why_tests_cant": "infinite families", "anchors": ["src/komm/_error_control_block/RepetitionCode.py:RepetitionCode", "src/komm/_error_control_block/SingleParityCheckCode.py:SingleParityCheckCode", "src/komm/_error_control_block/CordaroWagnerCode.py:CordaroWagnerCode"]}
{"id": "C50", "title": "Hamming and simplex codes", "statement": "HammingCode(mu) has length 2^mu - 1, dimension 2^mu - mu - 1, minimum distance 3 (extended: 4) and every non-zero column; SimplexCode(mu) is its dual and every non-zero codeword has weight 2^(mu-1).", "quantifier": "every mu >= 2", "why_tests_cant": "infinite families", "anchors": ["src/komm/_error_control_block/HammingCode.py:HammingCode", "src/komm/_error_control_block/SimplexCode.py:SimplexCode"]}
{"id": "C51", "title": "Golay code", "statement": "GolayCode() has minimum distance 7 and is perfect; its extension is self-dual with minimum distance 8.", "quantifier": "all 2^12 codewords", "why_tests_cant": "finite but the claim of being perfect ranges over all 2^23 words", "anchors": ["src/komm/_error_control_block/GolayCode.py:GolayCode"]}
{"id": "C52", "title": "Reed-Muller codes", "statement": "ReedMullerCode(rho, mu) has dimension sum_{i<=rho} C(mu, i) and minimum distance 2^(mu-rho); its dual is RM(mu-rho-1, mu).", "quantifier": "all 0 <= rho < mu", "why_tests_cant": "infinite family, inductive structure", "anchors": ["src/komm/_error_control_block/ReedMullerCode.py:ReedMullerCode"]}
{"id": "C53", "title": "Reed decoding", "statement": "ReedDecoder (hard) corrects every error pattern of weight less than half the minimum distance of the Reed-Muller code.", "quantifier": "all rho, mu, messages and error patterns", "why_tests_cant": "majority-logic argument for all patterns", "anchors": ["src/komm/_error_control_decoders/ReedDecoder.py:ReedDecoder", "src/komm/_error_control_block/ReedMullerCode.py:ReedMullerCode.reed_partitions"]}
{"id": "C54", "title": "Lexicodes", "statement": "Lexicode(n, d) generated greedily is linear, has minimum distance at least d, and is maximal: every word is within distance d-1 of a codeword.", "quantifier": "all n, d", "why_tests_cant": "linearity of lexicodes is a theorem, not visible in the greedy loop", "anchors": ["src/komm/_error_control_block/Lexicode.py:Lexicode"]}
{"id": "C55", "title": "Polar encoding", "statement": "PolarCode encode (butterfly) equals multiplication by the mu-fold Kronecker power of [[1,0],[1,1]] restricted to active bits; the transform is an involution, so inverse_encode recovers the message.", "quantifier": "every mu, frozen set, message", "why_tests_cant": "recursive structure for every mu", "anchors": ["src/komm/_error_control_block/PolarCode.py:PolarCode", "src/komm/_error_control_decoders/SCDecoder.py:SCDecoder"]}
{"id": "C56", "title": "Wagner decoding is maximum likelihood", "statement": "WagnerDecoder returns an even-parity word maximising correlation with the soft input among all even-parity words.", "quantifier": "every n and every real vector", "why_tests_cant": "all real inputs", "anchors": ["src/komm/_error_control_decoders/WagnerDecoder.py:WagnerDecoder"]}
{"id": "C57", "title": "BCH codes and Berlekamp decoding", "statement": "BCHCode(mu, delta) has minimum distance at least delta, and BerlekampDecoder corrects every error pattern of weight <= (delta-1)//2.", "quantifier": "every mu, delta, message, pattern", "why_tests_cant": "algebraic decoding for all fields", "anchors": ["src/komm/_error_control_block/BCHCode.py:BCHCode", "src/komm/_error_control_decoders/BerlekampDecoder.py:BerlekampDecoder"]}
{"id": "C58", "title": "Slepian (standard) array", "statement": "SlepianArray(code): each word of length n occurs exactly once, rows are cosets, the first column consists of minimum-weight representatives and entry (i, j) is leader_i + codeword_j.", "quantifier": "every code", "why_tests_cant": "partition of the whole space", "anchors": ["src/komm/_error_control_block/SlepianArray.py:SlepianArray"]}
{"id": "C59", "title": "Mealy machine processing composes", "statement": "MealyMachine.process on a concatenation of inputs equals processing the first part and then the second from the state reached; the output length equals the input length; MooreMachine likewise.", "quantifier": "every machine, every initial state, every pair of input sequences", "why_tests_cant": "all streams and split points", "anchors": ["src/komm/_finite_state_machine/MealyMachine.py:MealyMachine.process", "src/komm/_finite_state_machine/MooreMachine.py:MooreMachine.process"]}
{"id": "C60", "title": "Convolutional encoder is linear, chunk-independent and equals its state machine", "statement": "ConvolutionalCode encode_with_state over a concatenated stream equals encoding chunk by chunk carrying the state; the encoder is GF(2)-linear; finite_state_machine() driven with the integer-coded inputs outputs the integer-coded encoder outputs.", "quantifier": "every feedforward/recursive encoder, every input stream and split", "why_tests_cant": "all streams", "anchors": ["src/komm/_error_control_convolutional/base.py:ConvolutionalEncoder", "src/komm/_error_control_convolutional/ConvolutionalCode.py:ConvolutionalCode"]}
{"id": "C61", "title": "State-space representation realises the generator matrix", "statement": "For a (low-rate feedforward or recursive) convolutional code, the state-space matrices produce exactly the output series U(D) G(D) from the zero state.", "quantifier": "every generator matrix and input sequence", "why_tests_cant": "equality of formal power series for all inputs", "anchors": ["src/komm/_error_control_convolutional/ConvolutionalCode.py:ConvolutionalCode.state_space_representation", "src/komm/_error_control_convolutional/LowRateConvolutionalCode.py:LowRateConvolutionalCode"]}
{"id": "C62", "title": "Terminated convolutional codes", "statement": "TerminatedConvolutionalCode with zero-termination drives the encoder to the zero state for every message; with tail-biting the initial state equals the final state (whenever the required matrix is invertible); in all modes encode is linear and equals message times generator matrix.", "quantifier": "every code, block count, message", "why_tests_cant": "all messages and codes", "anchors": ["src/komm/_error_control_convolutional/TerminatedConvolutionalCode.py:TerminatedConvolutionalCode"]}
{"id": "C63", "title": "Viterbi returns a maximum-likelihood path", "statement": "MealyMachine.viterbi returns, for each final state, a path of minimum total metric among all paths from the initial states to it, and that minimum metric (no parallel transitions).", "quantifier": "every machine, every cost function, every observed sequence", "why_tests_cant": "all trellis paths (exponentially many)", "anchors": ["src/komm/_finite_state_machine/MealyMachine.py:MealyMachine.viterbi", "src/komm/_error_control_decoders/ViterbiDecoder.py:ViterbiDecoder"]}
{"id": "C64", "title": "Viterbi with parallel transitions", "statement": "Viterbi decoding remains maximum-likelihood when two inputs lead from the same state to the same next state (e.g. uncoded bits).", "quantifier": "every machine", "why_tests_cant": "needs a machine with parallel edges", "anchors": ["src/komm/_finite_state_machine/MealyMachine.py:MealyMachine.viterbi", "src/komm/_finite_state_machine/MealyMachine.py:MealyMachine.input_edges"]}
{"id": "C65", "title": "Forward-backward computes posteriors", "statement": "In exact arithmetic MealyMachine.forward_backward returns for each time the posterior distribution of the input symbol given the whole observation (machines without parallel transitions).", "quantifier": "every machine, every metric", "why_tests_cant": "sums over all paths", "anchors": ["src/komm/_finite_state_machine/MealyMachine.py:MealyMachine.forward_backward"]}
{"id": "C66", "title": "free_distance", "statement": "For a non-catastrophic convolutional code free_distance() is the minimum weight over all non-zero paths leaving and returning to the zero state.", "quantifier": "every code", "why_tests_cant": "minimum over infinitely many paths", "anchors": ["src/komm/_error_control_convolutional/base.py:ConvolutionalEncoder.free_distance"]}
{"id": "C67", "title": "LFSR sequences", "statement": "LFSRSequence(feedback, start state) satisfies the linear recurrence of its feedback polynomial; for a primitive polynomial and non-zero start its period is exactly 2^m - 1 and one period contains 2^(m-1) ones.", "quantifier": "every feedback polynomial and start state", "why_tests_cant": "period statement for every degree", "anchors": ["src/komm/_sequences_binary/LFSRSequence.py:LFSRSequence", "src/komm/_sequences_binary/sequences.py:lfsr_sequence"]}
{"id": "C68", "title": "Walsh-Hadamard sequences", "statement": "The Walsh-Hadamard sequences of length 2^m (both orderings) are pairwise orthogonal +-1 vectors; in sequency ordering sequence i has exactly i sign changes.", "quantifier": "every m and index pair", "why_tests_cant": "unbounded m", "anchors": ["src/komm/_sequences_binary/WalshHadamardSequence.py:WalshHadamardSequence", "src/komm/_sequences_binary/sequences.py"]}
{"id": "C69", "title": "Barker sequences", "statement": "Every BarkerSequence(length) accepted has aperiodic autocorrelation of magnitude at most 1 at every non-zero shift.", "quantifier": "every accepted length, every shift", "why_tests_cant": "all shifts including outside the support", "anchors": ["src/komm/_sequences_binary/BarkerSequence.py:BarkerSequence", "src/komm/_util/sequences.py:autocorrelation"]}
{"id": "C70", "title": "Autocorrelation", "statement": "autocorrelation is even in the shift for real sequences, vanishes for |shift| >= L, and at shift 0 equals the energy; cyclic_autocorrelation is periodic with period L.", "quantifier": "every real sequence and shift", "why_tests_cant": "all lengths and shifts", "anchors": ["src/komm/_util/sequences.py:autocorrelation", "src/komm/_util/sequences.py:cyclic_autocorrelation"]}
{"id": "C71", "title": "Scalar and uniform quantizers", "statement": "ScalarQuantizer output is always one of the levels, monotone in the input; UniformQuantizer picks a nearest level, and re-quantizing a level returns it (idempotence).", "quantifier": "every quantizer, every real input", "why_tests_cant": "real inputs including thresholds", "anchors": ["src/komm/_quantization/ScalarQuantizer.py:ScalarQuantizer", "src/komm/_quantization/UniformQuantizer.py:UniformQuantizer", "src/komm/_quantization/base.py"]}
{"id": "C72", "title": "Markov chain structure", "statement": "MarkovChain: accessible_states(i) is exactly the set of states reachable with positive probability; communicating_classes() partitions the states into mutual-accessibility classes; recurrent = closed classes; period(i) is the gcd of lengths of all closed walks at i.", "quantifier": "every transition matrix", "why_tests_cant": "paths of unbounded length", "anchors": ["src/komm/_sources/MarkovChain.py:MarkovChain"]}
{"id": "C73", "title": "Index of primitivity", "statement": "MarkovChain.index_of_primitivity returns the least e with all entries of P^e positive, and raises exactly when no such power exists (Wielandt's bound is never too small).", "quantifier": "every transition matrix", "why_tests_cant": "bound over all powers", "anchors": ["src/komm/_sources/MarkovChain.py:MarkovChain.index_of_primitivity"]}
{"id": "C74", "title": "Sampling-rate conversion", "statement": "sampling_rate_compress(sampling_rate_expand(x, L, offset), L, offset) == x; expand places x at the offset positions and zeros elsewhere.", "quantifier": "every sequence, factor, offset", "why_tests_cant": "all sizes", "anchors": ["src/komm/_util/signal_processing.py:sampling_rate_compress", "src/komm/_util/signal_processing.py:sampling_rate_expand"]}
{"id": "C75", "title": "Constellation decisions are nearest-neighbour", "statement": "PAM/ASK/QAM/Orthogonal/Biorthogonal/Simplex closest_indices returns an index of a constellation point at minimum Euclidean distance from the received sample, for every received sample (and noiseless symbols decode to themselves).", "quantifier": "every order, delta > 0 and every real/complex input", "why_tests_cant": "real inputs", "anchors": ["src/komm/_constellations/PAMConstellation.py:PAMConstellation", "src/komm/_constellations/QAMConstellation.py:QAMConstellation", "src/komm/_constellations/base.py", "src/komm/_constellations/OrthogonalConstellation.py", "src/komm/_constellations/BiorthogonalConstellation.py"]}
{"id": "C76", "title": "Constellation mean, energy and minimum distance formulas", "statement": "The closed formulas for mean, mean_energy and minimum_distance of PAM, ASK, QAM, orthogonal, biorthogonal and simplex constellations equal their definitions as averages/minima over the constellation points.", "quantifier": "every order and amplitude", "why_tests_cant": "closed forms for all orders", "anchors": ["src/komm/_constellations/PAMConstellation.py:PAMConstellation", "src/komm/_constellations/ASKConstellation.py:ASKConstellation", "src/komm/_constellations/QAMConstellation.py:QAMConstellation", "src/komm/_constellations/SimplexConstellation.py"]}
{"id": "C77", "title": "Discrete channels", "statement": "BSC/BEC/Z/DMC outputs lie in the output alphabet and an output symbol can only occur if its transition probability from the input is positive (p = 0 means error-free); transition matrices are row-stochastic.", "quantifier": "every input sequence, parameter and random draw", "why_tests_cant": "all random draws", "anchors": ["src/komm/_channels/BinarySymmetricChannel.py", "src/komm/_channels/BinaryErasureChannel.py", "src/komm/_channels/ZChannel.py", "src/komm/_channels/DiscreteMemorylessChannel.py"]}
{"id": "C78", "title": "Entropy and mutual information", "statement": "entropy(pmf) is between 0 and log(cardinality); relative_entropy(p, q) >= 0; mutual information of a DMC is non-negative and at most the input entropy; the BSC/BEC closed forms agree with the general formula.", "quantifier": "every pmf and channel", "why_tests_cant": "real inequalities", "anchors": ["src/komm/_util/information_theory.py", "src/komm/_channels/BinarySymmetricChannel.py", "src/komm/_channels/BinaryErasureChannel.py"]}
{"id": "C79", "title": "Rate of a fixed-to-variable code", "statement": "FixedToVariableCode.rate(pmf) is the expected number of code symbols per source symbol, i.e. (1/k) times the sum over source blocks of the block's probability times the length of its codeword, for every accepted encoding table.", "quantifier": "every accepted code, every pmf", "why_tests_cant": "all tables in every insertion order", "anchors": ["src/komm/_lossless_coding/FixedToVariableCode.py:FixedToVariableCode.rate"]}
{"id": "C80", "title": "Streaming Viterbi", "statement": "ViterbiStreamDecoder / viterbi_streaming: decoding a stream chunk by chunk (memory carried) equals decoding it at once; one symbol per observation; on the observation at time t >= tau the symbol output is the input at time t - tau on the survivor with best metric, so a noiseless stream is decoded correctly with delay tau.", "quantifier": "every machine without parallel transitions, metric, traceback length, observed stream and split", "why_tests_cant": "all streams and chunkings; all trellis paths", "anchors": ["src/komm/_finite_state_machine/MealyMachine.py:MealyMachine.viterbi_streaming", "src/komm/_error_control_convolutional/ViterbiStreamDecoder.py:ViterbiStreamDecoder"]}
{"id": "C81", "title": "Lloyd-Max design keeps its cells in order", "statement": "LloydMaxQuantizer, for every non-negative density: there are L levels and L - 1 thresholds, the levels stay inside input_range in non-decreasing order, and level i lies in cell i (thresholds[i-1] <= levels[i] <= thresholds[i]) whatever the number of iterations, the stopping rule and regions of zero density; hence quantize never fails and is monotone. When the iteration has converged, thresholds are midpoints and levels are centroids of their cells.", "quantifier": "every density, range, number of levels, grid size and number of iterations", "why_tests_cant": "the density is an arbitrary function and the loop bound is arbitrary; tests use two densities", "anchors": ["src/komm/_quantization/LloydMaxQuantizer.py:lloyd_max_quantizer", "src/komm/_quantization/base.py:ScalarQuantizer.quantize"]}
{"id": "C82", "title": "Absorbing Markov chains", "statement": "For an absorbing chain mean_number_of_visits()[i][j] is the expected total number of visits to transient state j from i (the sum over t of the t-step transition probabilities), mean_time_to_absorption() its row sums, absorption_probabilities()[i][k] the limit of the probability of being in absorbing state k; from every state absorption happens with probability one; the call raises exactly for chains that are not absorbing.", "quantifier": "every transition matrix", "why_tests_cant": "infinite sums over all trajectories", "anchors": ["src/komm/_sources/MarkovChain.py:MarkovChain.mean_number_of_visits", "src/komm/_sources/MarkovChain.py:MarkovChain.mean_time_to_absorption", "src/komm/_sources/MarkovChain.py:MarkovChain.absorption_probabilities"]}
{"id": "C83", "title": "Stationary distribution", "statement": "For an irreducible chain stationary_distribution() returns the unique probability vector pi with pi P = pi, all of whose entries are positive; it raises exactly for reducible chains.", "quantifier": "every transition matrix", "why_tests_cant": "existence and uniqueness over all matrices", "anchors": ["src/komm/_sources/MarkovChain.py:MarkovChain.stationary_distribution"]}
{"id": "C84", "title": "Random draws follow the given distribution", "statement": "DiscreteMemorylessSource.emit, MarkovChain.simulate and simulate_until_absorption: every symbol drawn has positive probability, the set of generator values that produce symbol j has measure exactly pmf[j]; a simulated trajectory has the requested length, starts at the initial state and moves only along transitions of positive probability; simulate_until_absorption visits only transient states until its last, absorbing, state.", "quantifier": "every pmf / chain, initial state and sequence of generator values", "why_tests_cant": "all random draws", "anchors": ["src/komm/_sources/DiscreteMemorylessSource.py:DiscreteMemorylessSource.emit", "src/komm/_sources/MarkovChain.py:MarkovChain.simulate", "src/komm/_sources/MarkovChain.py:MarkovChain.simulate_until_absorption"]}
{"id": "C85", "title": "Capacity of a general DMC (Arimoto-Blahut)", "statement": "DiscreteMemorylessChannel.capacity() never exceeds the true capacity, is at least the mutual information of the uniform input, and after k passes of the iteration is within log(n)/k of the true capacity; the loop makes all its passes unless two consecutive input distributions agree within the tolerance; a fixed point of the iteration is optimal.", "quantifier": "every transition matrix, base > 1, iteration limit and tolerance", "why_tests_cant": "supremum over all input distributions", "anchors": ["src/komm/_util/information_theory.py:arimoto_blahut", "src/komm/_channels/DiscreteMemorylessChannel.py:DiscreteMemorylessChannel.capacity"]}
{"id": "C86", "title": "binary_entropy_inv", "statement": "binary_entropy_inv(h, tol) terminates for every tol > 0, raises exactly for h outside [0, 1], and returns a number in [0, 1/2] within tol/2 of the unique x in [0, 1/2] with binary_entropy(x) = h.", "quantifier": "every real h, every positive tolerance", "why_tests_cant": "real inputs, unbounded loop", "anchors": ["src/komm/_util/information_theory.py:binary_entropy_inv", "src/komm/_util/information_theory.py:binary_entropy"]}
{"id": "C87", "title": "Closed-form capacities", "statement": "BinarySymmetricChannel, BinaryErasureChannel and ZChannel .capacity(base) equal the maximum over all input distributions of the mutual information of the channel, for every parameter (including 0 and 1).", "quantifier": "every parameter and base > 1", "why_tests_cant": "maximum over all input distributions", "anchors": ["src/komm/_channels/BinarySymmetricChannel.py:BinarySymmetricChannel.capacity", "src/komm/_channels/BinaryErasureChannel.py:BinaryErasureChannel.capacity", "src/komm/_channels/ZChannel.py:ZChannel.capacity"]}
{"id": "C88", "title": "Posterior probabilities of constellation points", "statement": "Constellation.posteriors(received, noise_power, priors) is Bayes' rule for additive white Gaussian noise (variance noise_power per real coordinate; circularly symmetric of power noise_power for complex constellations): non-negative, sums to one, zero exactly for the points of prior zero; with uniform priors the most probable point is the closest one.", "quantifier": "every constellation, received block, positive noise power and priors", "why_tests_cant": "real inputs, all constellations", "anchors": ["src/komm/_constellations/base.py:Constellation.posteriors"]}
{"id": "C89", "title": "Viterbi decoding of terminated convolutional codes", "statement": "ViterbiDecoder(code, hard).decode on a direct-truncation code, and on a zero-terminated code whose constraint lengths are equal, returns for every received word a message whose codeword has least Hamming distance from it (least sum of v_i l_i for soft input, i.e. a maximum-likelihood message when the input is the list of log-likelihood ratios); for every zero-terminated code the message is recovered from any word with fewer than free_distance()/2 errors; streams are decoded word by word; tail-biting codes are refused.", "quantifier": "every code without parallel transitions, number of blocks, message and received word", "why_tests_cant": "exponentially many codewords and received words", "anchors": ["src/komm/_error_control_decoders/ViterbiDecoder.py:ViterbiDecoder.decode", "src/komm/_error_control_convolutional/TerminatedConvolutionalCode.py:TerminatedConvolutionalCode"]}
{"id": "C90", "title": "BCJR decoding of terminated convolutional codes", "statement": "BCJRDecoder(code).decode on log-likelihood ratios of a memoryless channel returns, for every message bit, the logarithm of the ratio of its posterior probabilities (messages uniform): log of the sum over messages with bit 0 of the likelihood of their codeword, over the same with bit 1; with hard output every bit is a most probable value.", "quantifier": "every code without parallel transitions (zero-termination: equal constraint lengths), number of blocks and channel output", "why_tests_cant": "sums over exponentially many messages; real inputs", "anchors": ["src/komm/_error_control_decoders/BCJRDecoder.py:BCJRDecoder.decode", "src/komm/_error_control_convolutional/TerminatedConvolutionalCode.py:TerminatedConvolutionalCode", "src/komm/_labelings/base.py:marginalize"]}
{"id": "C91", "title": "boxplus", "statement": "boxplus(a, b) is the log-likelihood ratio of the XOR of two independent bits whose log-likelihood ratios are a and b; it satisfies tanh(boxplus(a,b)/2) = tanh(a/2) tanh(b/2), is commutative, associative and odd, its sign is the product of the signs and its magnitude at most the smaller magnitude; arrays are combined entrywise and arrays of different shapes refused. logcosh(x) = log(cosh(x)).", "quantifier": "all real inputs, arrays of any length", "why_tests_cant": "real inputs", "anchors": ["src/komm/_util/special_functions.py:boxplus", "src/komm/_util/special_functions.py:logcosh"]}
{"id": "C92", "title": "Successive cancellation decoding of polar codes", "statement": "SCDecoder(code).decode, fed with log-likelihood ratios: the i-th output is the log-ratio of the posterior of input bit i given the channel outputs and the decisions on the earlier inputs (frozen inputs decided as 0), later inputs unknown and uniform; the hard output is the sign decision of it; when every input has the sign of a codeword the message of this codeword is returned; streams are decoded word by word and never fail when the length is a multiple of the code length.", "quantifier": "every mu, frozen set and real input", "why_tests_cant": "sums over exponentially many inputs; real inputs; unbounded recursion depth", "anchors": ["src/komm/_error_control_decoders/SCDecoder.py:SCDecoder", "src/komm/_error_control_block/PolarCode.py:PolarCode"]}
{"id": "C93", "title": "Zadoff-Chu sequences", "statement": "ZadoffChuSequence(L, q) is refused exactly unless L is odd and 1 <= q < L; its entries follow the documented formula at every integer (period L); all have modulus 1; the cyclic autocorrelation vanishes at every lag that is not a multiple of L/gcd(L, q), in particular at all non-zero lags when q is coprime to L; two sequences whose root difference is coprime to L have cross-correlation of modulus sqrt(L) at every lag.", "quantifier": "every L, q and lag", "why_tests_cant": "all lengths and roots; complex numbers", "anchors": ["src/komm/_sequences_complex/ZadoffChuSequence.py:ZadoffChuSequence"]}
{"id": "C94", "title": "Bit log-ratios from symbol metrics", "statement": "Labeling.marginalize(metrics): for each group of 2^m metrics, output i is the logarithm of the total metric of the labels with bit i equal to 0 over the total metric of the labels with bit i equal to 1 (base 2^m and scale do not matter); refused exactly when the length is not a multiple of the number of labels; when the metrics are the product of independent bit probabilities the individual log-ratios are returned.", "quantifier": "every labeling and list of metrics", "why_tests_cant": "real inputs, all labelings", "anchors": ["src/komm/_labelings/base.py:marginalize"]}
{"id": "C95", "title": "Rectangular, Manchester and Gaussian pulses are consistent", "statement": "The methods of RectangularPulse(w > 0), ManchesterPulse() and GaussianPulse(B > 0) describe one signal: spectrum is the Fourier integral of waveform, energy its squared norm, autocorrelation its correlation with its shifts, energy_spectral_density the squared magnitude of the spectrum, whose integral is the energy and whose inverse transform is the autocorrelation; the waveform vanishes outside support. The Gaussian spectrum is down by half power at B.", "quantifier": "every width/bandwidth, time, frequency and lag", "why_tests_cant": "integrals over all real times and frequencies", "anchors": ["src/komm/_pulses/RectangularPulse.py:RectangularPulse", "src/komm/_pulses/ManchesterPulse.py:ManchesterPulse", "src/komm/_pulses/GaussianPulse.py:GaussianPulse", "src/komm/_pulses/util.py"]}
{"id": "C96", "title": "Sinc, raised-cosine and root-raised-cosine pulses", "statement": "The methods of SincPulse, RaisedCosinePulse(alpha) and its root() describe one signal each (Fourier pair, energy, autocorrelation, energy spectral density); sinc and raised-cosine waveforms are 1 at 0 and 0 at other integers and their folded spectra are flat; the root pulse has a spectrum whose square is the raised-cosine spectrum and its integer translates are orthonormal; exactly the roll-offs in [0, 1] are accepted.", "quantifier": "every roll-off in [0, 1], time, frequency and lag, including the removable singularities", "why_tests_cant": "integrals over all real times and frequencies", "anchors": ["src/komm/_pulses/SincPulse.py:SincPulse", "src/komm/_pulses/RaisedCosinePulse.py:RaisedCosinePulse", "src/komm/_pulses/base.py:RootPulse", "src/komm/_pulses/util.py:raised_cosine"]}
{"id": "C97", "title": "Beaulieu pulse and its root", "statement": "The methods of BeaulieuPulse(alpha) and of its root() describe one signal each; the Beaulieu waveform is 1 at 0 and 0 at other integers and its folded spectrum is flat; the spectrum of the root squares to that of the pulse and the integer translates of the root are orthonormal (the quadrature of the root waveform taken as the integral it approximates).", "quantifier": "every roll-off in [0, 1], time, frequency and lag", "why_tests_cant": "integrals over all real times and frequencies", "anchors": ["src/komm/_pulses/BeaulieuPulse.py:BeaulieuPulse", "src/komm/_pulses/base.py:RootPulse"]}
{"id": "C98", "title": "Pulse taps", "statement": "pulse.taps(sps, span=(a, b)) has (b - a) * sps + 1 entries, entry i being waveform(a + i/sps); it is refused exactly when no span is given and the support is infinite; for a Nyquist pulse the taps sps apart are 1 at time zero and 0 elsewhere.", "quantifier": "every pulse, samples per symbol and span", "why_tests_cant": "all sampling rates and spans", "anchors": ["src/komm/_pulses/base.py:Pulse.taps"]}
{"id": "C99", "title": "Catastrophic encoders", "statement": "is_catastrophic() of a convolutional encoder: True implies that some input of infinite weight has an output of finite weight; False implies there is none; it raises exactly when a non-zero finite input has zero output. For low-rate (k = 1) codes both answers are right; high-rate systematic codes are never catastrophic and are reported so. invariant_factors returns non-zero factors, as many as rows exactly when the rows are independent, and the gcd for a single row.", "quantifier": "every feedforward or feedback encoder, every infinite input", "why_tests_cant": "infinite input sequences; all encoders", "anchors": ["src/komm/_error_control_convolutional/base.py:ConvolutionalCode.is_catastrophic", "src/komm/_util/matrices.py:invariant_factors"]}
{"id": "C100", "title": "Kraft parameter and rate of fixed-to-variable codes", "statement": "kraft_parameter() of a uniquely decodable code without empty codewords is at most 1; of a prefix-free code it is 1 exactly when every infinite sequence of code symbols starts with a codeword. rate(pmf) of every uniquely decodable code is at least the entropy of pmf in base the target cardinality. A Huffman code for a positive pmf has rate in [H, H + 1/k).", "quantifier": "every code table, pmf and block size", "why_tests_cant": "all uniquely decodable codes and pmfs; real-valued entropies", "anchors": ["src/komm/_lossless_coding/FixedToVariableCode.py:FixedToVariableCode.kraft_parameter", "src/komm/_lossless_coding/FixedToVariableCode.py:FixedToVariableCode.rate", "src/komm/_lossless_coding/HuffmanCode.py:HuffmanCode", "src/komm/_util/information_theory.py:entropy"]}
{"id": "C101", "title": "Rate of variable-to-fixed codes; optimality of Tunstall codes", "statement": "For every prefix-free fully covering code the sourceword probabilities sum to one, rate(pmf) is the target block size over the expected sourceword length, and is at least the entropy of pmf in base the target cardinality. A Tunstall code has the smallest rate among all such codes with the same block size and at most as many sourcewords (among all binary ones when no expansion would fit exactly); its sourcewords are nearly equiprobable and rate * log2(pmin * M) <= n * H.", "quantifier": "every code, pmf and block size; every way of breaking ties between most probable leaves", "why_tests_cant": "all parsing trees; real-valued entropies", "anchors": ["src/komm/_lossless_coding/VariableToFixedCode.py:VariableToFixedCode.rate", "src/komm/_lossless_coding/TunstallCode.py:tunstall_code"]}
{"id": "C102", "title": "Mean squared error of quantizers", "statement": "mean_squared_error(pdf, range, n) of every scalar quantizer is non-negative when the range contains the thresholds, and tends to the integral of (Q(x) - x)^2 pdf(x) over the range as n grows (continuous pdf); for a uniform quantizer of step D and the uniform density on its granular region it is D^2/12 * (1 + 2/(n-1)^2); the levels of a Lloyd-Max quantizer minimise it for its thresholds; midpoint thresholds minimise the true error for given levels.", "quantifier": "every quantizer, density, range and number of grid points", "why_tests_cant": "limits over grid sizes; arbitrary densities", "anchors": ["src/komm/_quantization/base.py:ScalarQuantizer.mean_squared_error", "src/komm/_quantization/LloydMaxQuantizer.py:lloyd_max_quantizer", "src/komm/_quantization/UniformQuantizer.py:UniformQuantizer"]}
{"id": "C103", "title": "Gaussian channel: law of the output", "statement": "GaussianChannel(noise_power) raises exactly for a negative noise power; transmit returns the input when the noise power is zero; with independent standard normal samples the output samples are independent, normal around the input, of variance noise_power (real) or circularly symmetric of power noise_power (complex); posteriors of a constellation is the conditional probability of each point given the received block; no decision rule finds equally likely points more often than closest_indices.", "quantifier": "every noise power, input of any shape, constellation, event and decision rule", "why_tests_cant": "a statement about distributions and about all decision rules", "anchors": ["src/komm/_channels/GaussianChannel.py:GaussianChannel", "src/komm/_constellations/base.py:Constellation.posteriors", "src/komm/_constellations/base.py:Constellation.closest_indices"]}
{"id": "C104", "title": "Gaussian Q-function and its inverse; error rate of PAM", "statement": "gaussian_q(x) is the probability that a standard normal variable exceeds x: continuous, strictly decreasing from 1 to 0, Q(-x) = 1 - Q(x), Q(0) = 1/2, Q(x) <= exp(-x^2/2)/2 for x >= 0; gaussian_q_inv inverts it in both directions on (0, 1), maps 0 to infinity and 1 to minus infinity, and raises exactly outside [0, 1]; the symbol error rate of PAM with closest_indices over the Gaussian channel is 2(M-1)/M Q(delta/(2 sqrt(noise_power))).", "quantifier": "every real argument; every order, spacing and noise power", "why_tests_cant": "functions on the reals and error probabilities", "anchors": ["src/komm/_util/special_functions.py:gaussian_q", "src/komm/_util/special_functions.py:gaussian_q_inv", "src/komm/_constellations/PAMConstellation.py:PAMConstellation.closest_indices", "src/komm/_channels/GaussianChannel.py:GaussianChannel.transmit"]}
{"id": "C105", "title": "Marcum Q-function", "statement": "marcum_q(m, a, x) raises exactly when m <= 0 or a or x is negative; otherwise it returns the documented integral of the Bessel function to within its tolerance: exact for a = 0 and x = 0, positive, never above the integral, and the series it sums converges to it.", "quantifier": "every order and every pair of non-negative reals", "why_tests_cant": "real arguments; convergence of a series to an integral", "anchors": ["src/komm/_util/special_functions.py:marcum_q", "src/komm/_util/special_functions.py:_auxiliary_p"]}
{"id": "C106", "title": "Convolution of signals", "statement": "convolve of two non-empty one-dimensional signals in full mode has len(a)+len(b)-1 samples, the coefficients of the product of the two polynomials; same and valid return the documented windows of it; the order of the inputs does not matter; it is associative; a delayed impulse delays; an empty input or two multidimensional inputs raise; a multidimensional input is filtered slice by slice.", "quantifier": "all signals over any commutative ring, all modes", "why_tests_cant": "unbounded lengths and arbitrary samples", "anchors": ["src/komm/_util/signal_processing.py:convolve"]}
{"id": "C107", "title": "Fourier transform of sampled waveforms", "statement": "fourier_transform raises exactly when the number of points is not positive; otherwise it returns n frequencies (j - n//2)/(n dt) and the sums dt * sum w[k] exp(-2 pi i f[j] k dt); the waveform (cut or zero-padded) is recovered by the inverse sum; Parseval's identity holds; real waveforms have Hermitian spectra; full convolution becomes multiplication; for samples of a continuous waveform on [0, T] the value at frequency q/T tends to the Fourier integral.", "quantifier": "all waveforms, time steps, numbers of points; limits in the number of samples", "why_tests_cant": "identities for all inputs; limits", "anchors": ["src/komm/_util/signal_processing.py:fourier_transform", "src/komm/_util/signal_processing.py:convolve"]}
{"id": "C108", "title": "Block methods on arrays of any shape", "statement": "A method applied block by block (encoders, decoders, checks) to an array with any number of axes keeps the leading axes, and every row of the result is what the method returns for that row alone; it raises exactly when the array has no axis, the last axis is not a multiple of the block size, an axis is empty (a last axis of length zero only for the vectorised methods) or the method rejects a block.", "quantifier": "all shapes, entries and block functions", "why_tests_cant": "unbounded number of axes and sizes", "anchors": ["src/komm/_util/decorators.py:blockwise", "src/komm/_util/decorators.py:vectorize"]}
{"id": "C109", "title": "Constellation methods on arrays of any shape", "statement": "For every class of constellation, closest_indices on an array whose last axis is a multiple of the dimension keeps the leading axes and returns for each block the index of a nearest point; closest_symbols keeps the shape and replaces each block by a nearest point; indices_to_symbols followed by closest_indices returns the indices; posteriors returns M values per block, those of the block alone; other arrays, priors that are not a pmf over the points, indices out of range and unsupported orders raise.", "quantifier": "all constellations, shapes and received values", "why_tests_cant": "unbounded shapes and real values", "anchors": ["src/komm/_constellations/base.py:Constellation", "src/komm/_constellations/PAMConstellation.py:PAMConstellation", "src/komm/_constellations/OrthogonalConstellation.py:OrthogonalConstellation", "src/komm/_constellations/BiorthogonalConstellation.py:BiorthogonalConstellation", "src/komm/_constellations/QAMConstellation.py:QAMConstellation"]}
{"id": "C110", "title": "Symbol error rates over the Gaussian channel", "statement": "With minimum-distance decisions over the AWGN channel the probability of preferring another point k to the sent point i is Q(d/(2 sqrt N)) for real signals and Q(d/sqrt(2N)) for complex ones (d their distance); the symbol error rate lies between the largest of these and their sum, hence below (M-1) Q of the minimum distance; binary constellations err with exactly that probability; the PSK detector errs with probability between Q and 2Q of its minimum distance, at every point; the QAM detector errs with exactly 1-(1-p_I)(1-p_Q), where p = 2(M-1)/M Q(delta/sqrt(2N)), for every phase offset.", "quantifier": "all constellations, orders, amplitudes, offsets and noise powers", "why_tests_cant": "probabilities under a continuous law, unbounded orders", "anchors": ["src/komm/_constellations/base.py:Constellation", "src/komm/_constellations/QAMConstellation.py:QAMConstellation", "src/komm/_constellations/PSKConstellation.py:PSKConstellation", "src/komm/_channels/GaussianChannel.py:GaussianChannel"]}
{"id": "C111", "title": "Error probabilities of block codes", "statement": "Over BinarySymmetricChannel(p) the received word differs from the sent one in a given pattern of w places with probability p^w (1-p)^(n-w). The probability of an undetected error (check vanishes on a wrong word) is sum A_w p^w (1-p)^(n-w) over w >= 1 with A the codeword weight distribution; SyndromeTableDecoder is right with probability sum alpha_w p^w (1-p)^(n-w), alpha the coset leader weight distribution; every minimum-distance decoder (syndrome table, hard exhaustive search) fails with probability at most that of more than packing_radius errors, exactly that for perfect codes (Hamming, Golay), and for p <= 1/2 and equally likely messages no decoder is right more often. Soft exhaustive search over the Gaussian channel fails with probability between Q(A sqrt(d/N)) and sum A_w Q(A sqrt(w/N)).", "quantifier": "all codes, messages, crossover probabilities, amplitudes and noise powers; all decoders", "why_tests_cant": "probabilities over all noise realisations, unbounded lengths", "anchors": ["src/komm/_error_control_block/base.py:BlockCode", "src/komm/_error_control_decoders/SyndromeTableDecoder.py:SyndromeTableDecoder", "src/komm/_error_control_decoders/ExhaustiveSearchDecoder.py:ExhaustiveSearchDecoder", "src/komm/_channels/BinarySymmetricChannel.py:BinarySymmetricChannel", "src/komm/_channels/GaussianChannel.py:GaussianChannel"]}
{"id": "C112", "title": "Weight distributions of dual codes (MacWilliams)", "statement": "For a code of dimension k and its dual (in particular BlockCode(generator_matrix=G) and BlockCode(check_matrix=G)) the codeword weight distributions A and B satisfy 2^k sum B_w y^w x^(n-w) = sum A_w (x-y)^w (x+y)^(n-w) for all integers x, y.", "quantifier": "all pairs of dual codes", "why_tests_cant": "all matrices of all sizes", "anchors": ["src/komm/_error_control_block/base.py:BlockCode.codeword_weight_distribution", "src/komm/_error_control_block/BlockCode.py:BlockCode"]}
{"id": "C113", "title": "Bounds on the parameters of a code", "statement": "For every linear code the reported parameters satisfy: d <= n-k+1 (Singleton), sum_{i<k} ceil(d/2^i) <= n (Griesmer), (2^k-1) 2d <= 2^k n (Plotkin), V(n,t) <= 2^(n-k) <= V(n,rho) (sphere packing and covering), t <= rho <= n-k; Lexicode(n,d) has at least 2^n / V(n,d-1) codewords (Gilbert).", "quantifier": "all codes", "why_tests_cant": "all matrices of all sizes", "anchors": ["src/komm/_error_control_block/base.py:BlockCode", "src/komm/_error_control_block/Lexicode.py:Lexicode"]}
{"id": "C114", "title": "Universality of LZ78 and LZW", "statement": "For every number of states there is a redundancy delta(n) tending to 0 such that for every finite-state source with that many states (memoryless, Markov, hidden state updated by the symbols), every initial state and every sequence x of positive probability, len(encode(x)) <= -log_b P(x) + n delta(n). So no sequence needs more than log_b q + delta(n) code symbols per source symbol; encodings of sequences of the same length are prefix-free; and the expected rate on a memoryless source is never below its entropy and tends to it.", "quantifier": "all sources, all sequences of all lengths, all target alphabets", "why_tests_cant": "a limit over all lengths and a bound over all sources", "anchors": ["src/komm/_lossless_coding/LempelZiv78Code.py:LempelZiv78Code", "src/komm/_lossless_coding/LempelZivWelchCode.py:LempelZivWelchCode", "src/komm/_util/information_theory.py:entropy"]}
{"id": "C115", "title": "ViterbiStreamDecoder decodes what was sent", "statement": "decode() of a ViterbiStreamDecoder accepts exactly the inputs made of whole blocks, returns k bits per block, can be fed piece by piece with the same result, and its first tau k output bits are zero. If the encoder has memory, no weightless cycle (true whenever a feedforward rate-1/n code has is_catastrophic() False), free_distance() d, the traceback length tau is at least (nu n + 1) W + nu with W = 2^degree (4 e + 1) + 2, 2 e < d, and every W consecutive received blocks have at most e bit errors, then the hard decoder started in state 0 outputs tau k zeros followed by the message, for streams of every length. With another initial state the first bit can be wrong without any error.", "quantifier": "all messages of all lengths, all error patterns with at most e errors per window, all cuts of the stream", "why_tests_cant": "unbounded streams, all error patterns", "anchors": ["src/komm/_error_control_convolutional/ViterbiStreamDecoder.py:ViterbiStreamDecoder", "src/komm/_finite_state_machine/MealyMachine.py:viterbi_streaming", "src/komm/_error_control_convolutional/base.py:free_distance"]}
{"id": "C116", "title": "Gcd of the minors of a generator matrix (Massey-Sain)", "statement": "_minors_gcd() of a convolutional code returns the gcd of all k x k minors of a polynomial generator matrix and raises exactly when n < k or some entry is not a polynomial. The value is the product of the factors returned by invariant_factors (zero when there are fewer than k). The encoder is catastrophic exactly when the value is not a power of D, and maps a non-zero finite input to zero exactly when the value is zero; when it is a power of D, is_catastrophic() returns False, and when is_catastrophic() returns True it is not a power of D.", "quantifier": "all numbers of inputs and outputs, all polynomial matrices, all infinite input sequences", "why_tests_cant": "all sizes and degrees; catastrophicity quantifies over infinite inputs", "anchors": ["src/komm/_error_control_convolutional/base.py:_minors_gcd", "src/komm/_algebra/ring.py:determinant", "src/komm/_util/matrices.py:invariant_factors"]}
{"id": "C117", "title": "Alternative constructors of source codes", "statement": "from_enc_mapping, from_codewords, from_dec_mapping and from_sourcewords raise exactly on the inputs that describe no code (empty words, a one-symbol inferred alphabet, wrong number or lengths of blocks) and otherwise build the code with the given words in the given order, the i-th word being attached to the block that writes i in the base of the alphabet, with the least alphabets and (from_sourcewords) the least block size. Codes built from prefix-free (and fully covering) words decode what they encode.", "quantifier": "all mappings and lists of words, all alphabets, all inputs", "why_tests_cant": "unbounded word lists and alphabets", "anchors": ["src/komm/_lossless_coding/FixedToVariableCode.py:from_enc_mapping", "src/komm/_lossless_coding/FixedToVariableCode.py:from_codewords", "src/komm/_lossless_coding/VariableToFixedCode.py:from_dec_mapping", "src/komm/_lossless_coding/VariableToFixedCode.py:from_sourcewords"]}
{"id": "C118", "title": "Euclidean domain of the integers", "statement": "divmod, // and % of Integer satisfy the division identity with a remainder of the sign of the divisor and smaller in absolute value, and raise exactly on division by zero; gcd terminates with the greatest common divisor carrying the sign of its second argument (the first argument if the second is zero), xgcd returns Bezout coefficients with it, lcm is the least common multiple with the sign of the first argument.", "quantifier": "all pairs of integers of any size and sign", "why_tests_cant": "unbounded integers; termination", "anchors": ["src/komm/_algebra/Integers.py:Integer", "src/komm/_algebra/domain.py:gcd", "src/komm/_algebra/domain.py:xgcd", "src/komm/_algebra/domain.py:lcm"]}
{"id": "C119", "title": "Labeling and constellation as a modem", "statement": "For every labeling and every constellation with 2**num_bits points, bits_to_indices followed by indices_to_symbols, noise, closest_indices and indices_to_bits returns the transmitted bits whenever every received block is closer than half the minimum distance to what was sent; for any noise the number of wrong bits lies between the number of wrong symbols and num_bits times it; with PAM and the reflected labeling noise below (e + 1/2) delta costs at most e bits per wrong symbol.", "quantifier": "all labelings, all constellations, all bit sequences, all noise sequences", "why_tests_cant": "continuum of noise values, all sizes", "anchors": ["src/komm/_labelings/base.py:Labeling", "src/komm/_constellations/base.py:ConstellationBase", "src/komm/_constellations/PAMConstellation.py:closest_indices", "src/komm/_labelings/ReflectedLabeling.py:indices_to_bits"]}
{"id": "C120", "title": "Operational meaning of capacity()", "statement": "With independent uniform generator values, transmit delivers words with the product of the transition probabilities, and the value returned by capacity() separates the rates: below it, for all large block lengths and any number M <= base**(N R) of messages there is a code and a decoder for which every message has error probability below any given eps; above it, for all large block lengths every code with at least base**(N R) messages and every decoder has average error probability above 1 - eps. For BinarySymmetricChannel, BinaryErasureChannel and ZChannel the returned value is exactly this threshold; for DiscreteMemorylessChannel the threshold lies between the returned value and that value plus log(n)/k after k passes.", "quantifier": "all channels, all bases above 1, all rates, all block lengths, all codes and decoders", "why_tests_cant": "existence of codes for every large block length and impossibility for all codes and decoders cannot be tested", "anchors": ["src/komm/_channels/BinarySymmetricChannel.py:capacity", "src/komm/_channels/BinaryErasureChannel.py:capacity", "src/komm/_channels/ZChannel.py:capacity", "src/komm/_channels/DiscreteMemorylessChannel.py:capacity", "src/komm/_channels/DiscreteMemorylessChannel.py:transmit", "src/komm/_channels/BinarySymmetricChannel.py:transmit"]}
{"id": "C121", "title": "Simulated trajectories of a Markov chain", "statement": "With independent uniform generator values, the state at time t of simulate(i, steps) is j with probability (P**t)[i, j]; simulate_until_absorption has not stopped after m draws with the probability of a non-absorbing state at time m, which tends to 0; from a transient state these probabilities sum to mean_time_to_absorption(), the final state of the returned trajectory has the law absorption_probabilities(), and the expected numbers of visits are mean_number_of_visits().", "quantifier": "all valid (absorbing) transition matrices, all states, all times and numbers of steps", "why_tests_cant": "probabilities over a continuum of generator outputs and limits over all times", "anchors": ["src/komm/_sources/MarkovChain.py:simulate", "src/komm/_sources/MarkovChain.py:simulate_until_absorption", "src/komm/_sources/MarkovChain.py:mean_time_to_absorption", "src/komm/_sources/MarkovChain.py:absorption_probabilities", "src/komm/_sources/MarkovChain.py:mean_number_of_visits"]}
{"id": "C122", "title": "Convergence to the stationary distribution", "statement": "If is_regular(), the law of the state at time t of simulate converges to stationary_distribution() from every initial state, geometrically in t; if is_irreducible() (also for periodic chains) the expected fraction of time spent in each state converges to it with error at most K / steps.", "quantifier": "all irreducible / regular transition matrices, all initial states, all times", "why_tests_cant": "limit over all times for all chains", "anchors": ["src/komm/_sources/MarkovChain.py:stationary_distribution", "src/komm/_sources/MarkovChain.py:is_regular", "src/komm/_sources/MarkovChain.py:is_irreducible", "src/komm/_sources/MarkovChain.py:simulate"]}
{"id": "C123", "title": "Union bounds and free distance", "statement": "Over BinarySymmetricChannel(p), p <= 1/2, any minimum-distance decoder of a block code, and ViterbiDecoder of a terminated convolutional code, returns a wrong message with probability at most the sum over w >= 1 of codeword_weight_distribution()[w] * (2 sqrt(p (1 - p)))**w; with soft input over the Gaussian channel ViterbiDecoder obeys the union bound with gaussian_q and the lower bound given by minimum_distance(). The codewords of a zero-terminated code are at least free_distance() apart, and for all long enough num_blocks minimum_distance() equals free_distance().", "quantifier": "all block codes and terminated codes (equal constraint lengths or rate 1/n), all messages, all p, all noise levels, all block counts", "why_tests_cant": "probabilities over a continuum of generator outputs, for all codes; a limit over all block lengths", "anchors": ["src/komm/_error_control_decoders/ViterbiDecoder.py:ViterbiDecoder", "src/komm/_error_control_convolutional/TerminatedConvolutionalCode.py:TerminatedConvolutionalCode", "src/komm/_error_control_block/BlockCode.py:codeword_weight_distribution", "src/komm/_error_control_convolutional/ConvolutionalCode.py:free_distance", "src/komm/_channels/BinarySymmetricChannel.py:transmit"]}
{"id": "C124", "title": "Source codes on an endless stream", "statement": "With probability one over the draws of DiscreteMemorylessSource(pmf): the length of encode(first n symbols) divided by n tends to the expected rate for every uniquely decodable fixed-to-variable code (n a multiple of the block size) and to rate(pmf) for every prefix-free fully covering variable-to-fixed code, hence to rate(pmf) for Huffman and Tunstall codes, and to entropy(pmf) for LempelZiv78Code and LempelZivWelchCode, which do not know pmf; the probability of the first n symbols is entropy(pmf) in -log per symbol in the limit.", "quantifier": "all pmfs (also with zeros), all codes, almost all infinite sequences of generator outputs", "why_tests_cant": "limits over infinite sequences of random draws", "anchors": ["src/komm/_sources/DiscreteMemorylessSource.py:emit", "src/komm/_lossless_coding/FixedToVariableCode.py:encode", "src/komm/_lossless_coding/VariableToFixedCode.py:encode", "src/komm/_lossless_coding/HuffmanCode.py:HuffmanCode", "src/komm/_lossless_coding/TunstallCode.py:TunstallCode", "src/komm/_lossless_coding/LempelZiv78Code.py:encode", "src/komm/_lossless_coding/LempelZivWelchCode.py:encode"]}
{"id": "C125", "title": "Simulated Markov chains over time", "statement": "For an irreducible chain, with probability one over the draws, the list returned by MarkovChain.simulate(steps, s0) has, as steps grows, the relative frequency of each state tending to stationary_distribution() and the relative frequency of each transition i->j among the visits to i tending to transition_matrix[i, j], whatever the initial state and also for periodic chains; the probability of the simulated trajectory decays at the entropy rate, and the lengths of LempelZiv78Code and LempelZivWelchCode on the trajectory divided by its length tend to the entropy rate of the chain, which these codes do not know.", "quantifier": "all irreducible finite chains, initial states, almost all infinite sequences of generator outputs", "why_tests_cant": "limits over infinite sequences of random draws", "anchors": ["src/komm/_sources/MarkovChain.py:simulate", "src/komm/_lossless_coding/LempelZiv78Code.py:encode", "src/komm/_lossless_coding/LempelZivWelchCode.py:encode"]}
{"id": "C126", "title": "Monte-Carlo estimates", "statement": "With probability one over the draws: the symbol frequencies of DiscreteMemorylessSource.emit tend to pmf; whatever the input sequence, among the positions where symbol i is sent, the relative frequency of the output j of the binary symmetric, binary erasure, Z and general discrete memoryless channel tends to transition_matrix[i, j]; the measured frame error rate of any block code with any decoder over a BSC tends to its exact error probability, which for the syndrome table decoder is given by coset_leader_weight_distribution() and for undetected errors by codeword_weight_distribution(); the measured noise power of the Gaussian channel tends to noise_power, and the measured symbol error rate of PAM to 2 (M-1)/M Q(delta / (2 sqrt(noise_power))).", "quantifier": "all pmfs, channels, codes, decoders, noise powers, constellations, input sequences, almost all infinite sequences of generator outputs", "why_tests_cant": "limits over infinite sequences of random draws", "anchors": ["src/komm/_sources/DiscreteMemorylessSource.py:emit", "src/komm/_channels/BinarySymmetricChannel.py:transmit", "src/komm/_channels/BinaryErasureChannel.py:transmit", "src/komm/_channels/ZChannel.py:transmit", "src/komm/_channels/DiscreteMemorylessChannel.py:transmit", "src/komm/_channels/GaussianChannel.py:transmit", "src/komm/_error_control_decoders/SyndromeTableDecoder.py:decode", "src/komm/_constellations/PAMConstellation.py:closest_indices"]}
{"id": "C127", "title": "Soft decoders are optimal", "statement": "A uniformly distributed message is encoded and sent through transmit of a binary-input memoryless channel with positive transition probabilities, or as plus and minus A through GaussianChannel.transmit. Among all decision rules that look at the channel output, the soft ViterbiDecoder (direct truncation or zero termination), the soft ExhaustiveSearchDecoder (every block code) and the WagnerDecoder (every single parity-check code), given the log-likelihood ratios of the output (for the Gaussian channel also the received values in any unit), have the greatest probability of recovering the message; and the BCJRDecoder with hard output (one input bit per block) has, for every bit of the message, the greatest probability of recovering that bit.", "quantifier": "all codes of the kinds named, channels, noise powers, amplitudes and competing (measurable) decision rules", "why_tests_cant": "a comparison with every possible decoder, over all outcomes of the channel", "anchors": ["src/komm/_error_control_decoders/ViterbiDecoder.py:decode", "src/komm/_error_control_decoders/ExhaustiveSearchDecoder.py:decode", "src/komm/_error_control_decoders/WagnerDecoder.py:decode", "src/komm/_error_control_decoders/BCJRDecoder.py:decode", "src/komm/_channels/DiscreteMemorylessChannel.py:transmit", "src/komm/_channels/GaussianChannel.py:transmit"]}
{"id": "C128", "title": "Fano and Huffman codes are within one bit per block of the entropy", "statement": "For every pmf with at least two symbols (zero probabilities allowed) and every block size k, the rate of FanoCode is at least the entropy H in bits and at most H + (1 - m^k)/k, for every m not above the smallest probability; in particular it is at most H + 1/k, and strictly below it when all probabilities are positive. HuffmanCode satisfies the same bounds under every policy.", "quantifier": "all rational pmfs with at least two symbols, all block sizes, all Huffman policies", "why_tests_cant": "an inequality with logarithms over all pmfs and all numbers of symbols", "anchors": ["src/komm/_lossless_coding/FanoCode.py:fano_code_lengths", "src/komm/_lossless_coding/HuffmanCode.py:huffman_code", "src/komm/_lossless_coding/FixedToVariableCode.py:rate"]}
{"id": "C129", "title": "Objects that share a random generator do not influence one another; sessions can be repeated", "statement": "A session is any program that sets the global generator (global_rng.set), creates sources, channels and Markov chains (with rng=... or with the global generator) and calls emit, transmit, simulate and simulate_until_absorption, each statement chosen from the responses so far. Whatever generators are shared, the probability of the responses is the product of the probabilities of the single calls made in isolation (given explicitly for every method); so it does not depend on which generators are used. A legal program completes almost surely with exactly one list of responses. Setting the global generator to one in the same state before creating the objects repeats the responses exactly; once objects exist, global_rng.set and the use of other generators do not affect them. An object keeps the generator passed to it as rng=, or else the one most recently passed to global_rng.set, so that writing it explicitly changes nothing. DiscreteMemorylessSource(m) is the uniform source.", "quantifier": "all adaptive programs, all assignments of generators to objects, all lengths of session", "why_tests_cant": "all histories of calls on objects with shared mutable state, and probabilities over all outcomes", "anchors": ["src/komm/_util/global_rng.py:get", "src/komm/_util/global_rng.py:set", "src/komm/_sources/DiscreteMemorylessSource.py:__init__", "src/komm/_sources/DiscreteMemorylessSource.py:emit", "src/komm/_sources/MarkovChain.py:simulate", "src/komm/_sources/MarkovChain.py:simulate_until_absorption", "src/komm/_channels/BinarySymmetricChannel.py:transmit", "src/komm/_channels/DiscreteMemorylessChannel.py:transmit", "src/komm/_channels/GaussianChannel.py:transmit"]}
{"id": "C130", "title": "Monte-Carlo simulations with komm's sources, channels and chains converge to the right values", "statement": "An experiment is any program of calls (emit, transmit, simulate, simulate_until_absorption) whose statements may depend on the earlier responses of the same experiment. Repeated for ever in one session, whatever generators the objects share, the responses of the experiments are independent with one law (whose probabilities sum to one), the average of any quantity with a finite mean converges almost surely to that mean, and after N experiments a quantity with values in [0, 1] is off by eps or more with probability at most 2 exp(-2 N eps^2). In particular: repeated simulate_until_absorption estimates mean_time_to_absorption() and absorption_probabilities(); a simulated link (source, encoder, BSC/BEC/Z/discrete channel) estimates every error rate.", "quantifier": "all experiments, all numbers of repetitions, all assignments of generators, all quantities", "why_tests_cant": "limits over infinitely many repetitions, probabilities over all outcomes of the generators", "anchors": ["src/komm/_util/global_rng.py:get", "src/komm/_sources/DiscreteMemorylessSource.py:emit", "src/komm/_sources/MarkovChain.py:simulate_until_absorption", "src/komm/_sources/MarkovChain.py:mean_time_to_absorption", "src/komm/_sources/MarkovChain.py:absorption_probabilities", "src/komm/_channels/BinarySymmetricChannel.py:transmit", "src/komm/_channels/DiscreteMemorylessChannel.py:transmit"]}
{"id": "C131", "title": "Probabilities that sum to one only within the tolerance of np.isclose", "statement": "The validators accept a pmf or a row of a transition matrix exactly if its entries are nonnegative and its sum s differs from one by at most 1.001e-5. For accepted inputs: emit, transmit and simulate raise if |s - 1| > 2^-26 (the check inside numpy) and otherwise do exactly what they do for the probabilities divided by s; entropy is s H - s log s with H the entropy of the normalised probabilities (off by at most |s - 1| (H + 2/log base), possibly negative); relative_entropy is s D + s log(s/t); mutual_information raises exactly if the output pmf is not accepted, and otherwise is given by the usual formula; Huffman and Fano codes are exactly the codes for the normalised probabilities, and their rate is s^k times the rate for those; the Shannon constructor succeeds exactly if the lengths satisfy Kraft's inequality (always if s <= 1); Tunstall codes are complete trees. On exactly normalised inputs nothing changes. The integer validators return their argument iff all entries are in range.", "quantifier": "all pmfs and matrices of all sizes, all sums within and outside the tolerance, all block sizes, all outcomes of the generator", "why_tests_cant": "the set of floating-point inputs that are accepted but not exactly normalised is continuous; codes and measures must be right for all of it", "anchors": ["src/komm/_util/validators.py:validate_pmf", "src/komm/_util/validators.py:validate_transition_matrix", "src/komm/_util/validators.py:validate_integer_range", "src/komm/_util/information_theory.py:entropy", "src/komm/_util/information_theory.py:relative_entropy", "src/komm/_util/information_theory.py:mutual_information", "src/komm/_sources/DiscreteMemorylessSource.py:emit", "src/komm/_lossless_coding/ShannonCode.py:shannon_code", "src/komm/_lossless_coding/HuffmanCode.py:huffman_code", "src/komm/_lossless_coding/FanoCode.py:fano_code"]}
{"id": "C132", "title": "Block-code objects in a session: call history, caches, in-place reduction, flags and batches cannot be observed", "statement": "In any session that creates arrays, creates BlockCode objects from arrays (by reference, several objects may share one array, a returned array may be given to a constructor) and calls any of their attributes and methods in any order, every call on every object returns exactly what the corresponding function of the matrix returns that the constructor's argument held when the object was created, whatever was called before on this or other objects; in particular cached and uncached branches of codeword_weight_distribution and coset_leader_weight_distribution agree, batches of 1024 messages give all codewords in order, and the in-place row reduction never touches an array the user can see. Arrays returned by a call keep their entries forever. This holds provided the user writes neither into an array given to a constructor nor into a returned array; if the user does, later calls are inconsistent (witness).", "quantifier": "all sessions of any length, any number of objects, all full-rank matrices with 1 <= k <= 64, all orders of calls", "why_tests_cant": "histories of calls and sharing patterns are unbounded; caches make results depend on history in principle", "anchors": ["src/komm/_error_control_block/BlockCode.py:BlockCode", "src/komm/_error_control_block/base.py:codewords", "src/komm/_error_control_block/base.py:codeword_weight_distribution", "src/komm/_error_control_block/base.py:coset_leaders", "src/komm/_error_control_block/base.py:coset_leader_weight_distribution", "src/komm/_util/matrices.py:rref", "src/komm/_util/matrices.py:xrref", "src/komm/_util/matrices.py:null_matrix"]}
{"id": "C133", "title": "Bit error rates of Gray-labelled PAM, QAM and QPSK are those of the literature", "statement": "With equally likely points, the nearest-point decision and the Gaussian channel of power N, bit k (from the left) of PAM of order 2^m with ReflectedLabeling(m) is wrong with probability 2/2^m * sum_{e < 2^m - 2^(m-1-k)} (-1)^floor(e/2^(m-k)) (2^k - floor(e/2^(m-k) + 1/2)) Q((2e+1) delta/(2 sqrt N)) (for m = 1: Q; for m = 2: (Q(x)+Q(3x))/2 and (2Q(x)+Q(3x)-Q(5x))/2); the expected fraction of wrong bits is the mean over the bits and lies between SER/m and SER. QAM with ReflectedRectangularLabeling((mi, mq)) has, on its first mi bits, the rates of the in-phase PAM and on the others those of the quadrature PAM, with argument delta/sqrt(2N), for every phase offset. Each bit of PSK(4) with ReflectedLabeling(2) is wrong with probability Q(A/sqrt N) whatever point is sent.", "quantifier": "all orders 2^m (and 2^mi x 2^mq), all bits, all positive steps, amplitudes and noise powers, all phase offsets", "why_tests_cant": "a simulation estimates one rate at one SNR with an error bar; the closed form is a statement over all orders and all noise powers", "anchors": ["src/komm/_labelings/ReflectedLabeling.py:indices_to_bits", "src/komm/_labelings/ReflectedRectangularLabeling.py:matrix", "src/komm/_constellations/PAMConstellation.py:closest_indices", "src/komm/_constellations/QAMConstellation.py:closest_indices", "src/komm/_constellations/PSKConstellation.py:closest_indices", "src/komm/_channels/GaussianChannel.py:transmit"]}
{"id": "C134", "title": "Viterbi decoding in double precision", "statement": "The path metrics of the Viterbi decoders are float64, so every addition is rounded. With hard input and blocks of at most 2^53 bits ViterbiDecoder returns exactly what exact integer arithmetic would, for every input; so it does with soft input made of integers x with |x| N <= 2^53, and so does ViterbiStreamDecoder with hard input over any sequence of calls with at most 2^53 bits in all. With arbitrary finite soft input r of length N <= 2^52, and whatever order np.dot sums in, the returned codeword v' satisfies sum v'_i r_i <= sum v_i r_i + N 2^-51 sum |r_i| for every codeword v; so a codeword that beats all others by more than that margin is the one decoded. No path metric exceeds 2 sum |r_i|, so nothing overflows when sum |r_i| <= 2^1022.", "quantifier": "all terminated codes (direct truncation and zero termination) without parallel transitions, all received words of doubles, all summation orders, all sequences of calls", "why_tests_cant": "rounding errors depend on every bit of every input; tests with a few short words never get near the margin and compare with the same arithmetic", "anchors": ["src/komm/_error_control_decoders/ViterbiDecoder.py:decode", "src/komm/_error_control_convolutional/ViterbiStreamDecoder.py:decode", "src/komm/_finite_state_machine/MealyMachine.py:viterbi", "src/komm/_finite_state_machine/MealyMachine.py:viterbi_streaming"]}
{"id": "C135", "title": "PAM decisions in double precision", "statement": "With every operation rounded to double precision, the stored points of PAMConstellation(M, delta) differ from delta (i - (M-1)/2) by at most (M-1) delta 2^-49; closest_indices of any received value nearer than delta/2 - (M-1) delta 2^-48 to the stored point i is i, so the noiseless round trip is exact for M <= 2^46; away from the thresholds (by (2|r/delta| + M) 2^-52) the index is the exactly rounded and clipped one; decisions are monotone in the received value while |r/delta| <= 2^61. Beyond 2^64 delta the conversion to int64 overflows and the index is 0 although the nearest point is the last.", "quantifier": "all orders 2 <= M <= 2^53, all doubles delta >= 2^-1000, all received doubles", "why_tests_cant": "rounding depends on every bit of delta and of the received value", "anchors": ["src/komm/_constellations/PAMConstellation.py:matrix", "src/komm/_constellations/PAMConstellation.py:closest_indices"]}
{"id": "C136", "title": "Sizes computed with floating-point logarithms", "statement": "For every logarithm of the C library that is accurate to one unit in the last place: the field widths ceil(log(n, b)) of the Lempel-Ziv codes are never too small for n <= 2^44, at most one too large, and exact unless n is a power of b; hence decode(encode(x)) == x for LZ77, LZSS, LZ78 and LZW with the widths as they are computed (buffers, alphabets and inputs up to 2^44 symbols), and LZ78 and LZW keep their universal redundancy bounds. Every ShannonCode that is constructed is prefix-free whatever the logarithm, and it is constructed exactly when the computed lengths satisfy Kraft's inequality; the lengths are the exact ones for probabilities that are powers of two or not within 2^-40 of one; for 17 positive doubles adding up to exactly 1 the constructor raises. The default block size of TunstallCode is the exact one.", "quantifier": "all accurate logarithms, all cardinalities and inputs up to 2^44, all probability vectors of doubles", "why_tests_cant": "rounding depends on every value of n and on the C library; a width that is too small by one symbol at one n breaks decoding of long inputs only", "anchors": ["src/komm/_lossless_coding/LempelZiv77Code.py:tokens_to_target", "src/komm/_lossless_coding/LempelZivSSCode.py:tokens_to_target", "src/komm/_lossless_coding/LempelZiv78Code.py:tokens_to_target", "src/komm/_lossless_coding/LempelZivWelchCode.py:encode", "src/komm/_lossless_coding/ShannonCode.py:shannon_code_lengths", "src/komm/_lossless_coding/TunstallCode.py:__init__"]}
{"id": "C137", "title": "Huffman codes in double precision", "statement": "With block probabilities and node weights computed by rounded double-precision products and sums, HuffmanCode (any policy, any assignment) has, with respect to the exact block probabilities, an expected length of at most (1 + n^2/2^50) times that of every uniquely decodable binary code for the same n <= 2^25 blocks, provided that no positive block probability is below 2^-1000.", "quantifier": "all vectors of non-negative doubles, all block sizes, policies and assignments, all competing uniquely decodable codes", "why_tests_cant": "rounding changes the order in which nodes are merged, depending on every value; optimality quantifies over all codes", "anchors": ["src/komm/_lossless_coding/HuffmanCode.py:huffman_tree", "src/komm/_lossless_coding/HuffmanCode.py:huffman_code", "src/komm/_lossless_coding/HuffmanCode.py:HuffmanCode"]}
{"id": "C138", "title": "Soft-decision block decoders in double precision", "statement": "In double precision, with sums in any order and exp/log1p accurate to 2^-50: the Wagner decoder is exactly maximum likelihood; exhaustive search returns a codeword whose exact correlation is within n 2^-51 sum|r| of the best (exactly the best on integers up to 2^53 in total); Reed decoding corrects every pattern of wrong signs with sum((1-d)m + (1+d)|r_j|) < dmin (1-d) m, d = 2^(mu-52), where m bounds the reliabilities of the right positions; successive cancellation recovers the message when every received value has the right sign and magnitude at least (3 mu + 1)/4, and otherwise takes the exact decisions with soft outputs within mu 2^mu 5 L / 2^51 whenever the exact outputs exceed that bound (L bounds the inputs).", "quantifier": "all codes of the families, all received vectors of finite doubles, all summation orders, all accurate exp and log1p", "why_tests_cant": "the rounding errors depend on every received value and on the library that adds", "anchors": ["src/komm/_error_control_decoders/WagnerDecoder.py:WagnerDecoder", "src/komm/_error_control_decoders/ExhaustiveSearchDecoder.py:ExhaustiveSearchDecoder", "src/komm/_error_control_decoders/ReedDecoder.py:ReedDecoder", "src/komm/_error_control_decoders/SCDecoder.py:SCDecoder", "src/komm/_util/special_functions.py:boxplus"]}
{"id": "C139", "title": "Quantizer and constellation decisions in double precision", "statement": "In double precision: the thresholds of a uniform quantizer are sorted, every input is quantized to a level within (L + |offset|) steps * 2^-48 of the nearest one, inputs clearly inside a cell get that cell's level, and the stored levels are fixed points when L + |offset| < 2^47; the QAM, ASK and PSK detectors choose a point nearest to the received value up to an error proportional to the accuracy of exp(2 pi j phi) and the magnitude of the received value, decide every value clearly inside a point's decision region as that point, and decide the stored QAM and PSK points as themselves when the order is small against the precision and (PSK) the amplitude is large against 10^-15; the generic detector is nearest up to a factor 1 + (N + 64) / 2^50 in squared distance. PSK constellations of amplitude at most 2 * 10^-16 have all their stored points equal to zero.", "quantifier": "all numbers of levels, steps and offsets, all orders, spacings, amplitudes and phase offsets, all finite received values (not subnormal), all roundings of exp, angle and abs within the stated accuracy, all summation orders", "why_tests_cant": "whether rounding moves a value across a decision boundary depends on every bit of the parameters and the received value", "anchors": ["src/komm/_quantization/UniformQuantizer.py:UniformQuantizer", "src/komm/_constellations/QAMConstellation.py:QAMConstellation", "src/komm/_constellations/PSKConstellation.py:PSKConstellation", "src/komm/_constellations/ASKConstellation.py:ASKConstellation", "src/komm/_constellations/base.py:Constellation"]}
{"id": "C140", "title": "Equality, hashing and printing of algebraic objects", "statement": "== between integers, binary polynomials, field elements, fields, fractions and Integers is an equivalence relation that compares values (an int equals the polynomial of that value; elements are equal only within equal fields). Equal objects of one class have equal hashes; an int and the equal polynomial have equal hashes exactly when |v| < 2^61 - 1 or v does not fit in 64 bits. After any sequence of assignments and removals on a dictionary whose keys are outside that exception, each lookup gives the value of the last statement on an equal key. Arithmetic between elements of different fields raises. Evaluating the printed form of a polynomial, or of a field of degree at most 24, gives an equal object; printing a field of larger degree raises.", "quantifier": "all objects of these classes, all dictionary histories of any length", "why_tests_cant": "the histories and the hash collisions are unbounded; hash and equality disagree only in a narrow range of values", "anchors": ["src/komm/_algebra/BinaryPolynomial.py:BinaryPolynomial", "src/komm/_algebra/FiniteBifield.py:FiniteBifieldElement", "src/komm/_algebra/FiniteBifield.py:FiniteBifield", "src/komm/_algebra/BinaryPolynomialFraction.py:BinaryPolynomialFraction", "src/komm/_algebra/Integers.py:Integer"]}
{"id": "C141", "title": "forward_backward and the BCJR decoder are accurate in double precision", "statement": "Run in floating-point arithmetic, with sums taken in any order and elementary functions accurate to a few units in the last place, MealyMachine.forward_backward returns the exact posterior probabilities up to an explicit relative error and the underflow threshold, and BCJRDecoder returns the exact posterior log-ratios up to an explicit bound, bcjrError, proportional to the number of trellis steps times the magnitude of the path metrics, whenever they are at most 599 in magnitude (beyond 600 the output is beyond 500 with the right sign, possibly infinite). The hard decision is the most probable value of every bit whose posterior log-ratio exceeds that bound. Inputs that are themselves inexact by epsilon add at most N epsilon.", "quantifier": "all Mealy machines, observation sequences of any length, priors and metrics; all codes of one input bit per step (direct truncation, zero termination), block counts, channels and received values; all summation orders", "why_tests_cant": "rounding errors accumulate with the length of the block, and the order of summation and the C library are not fixed by the source", "anchors": ["src/komm/_finite_state_machine/MealyMachine.py:MealyMachine.forward_backward", "src/komm/_error_control_decoders/BCJRDecoder.py:BCJRDecoder", "src/komm/_labelings/base.py:Labeling.marginalize"]}
{"id": "C142", "title": "Constellation posteriors and soft demapping are accurate in double precision", "statement": "In floating-point arithmetic, with sums in any order and elementary functions accurate to a few units in the last place, Constellation.posteriors returns the Bayes posterior of every point up to an explicit relative error and the underflow threshold, for every constellation, noise power, priors and received block; Labeling.marginalize of it returns the log-ratio of every label bit up to an explicit bound (when it is at most 600 in magnitude), and the sign of each value is right wherever the log-ratio exceeds the bound. For a binary constellation, demapping followed by BCJR decoding gives the posterior log-ratios of the message bits given the received samples, up to the sum of both bounds.", "quantifier": "all constellations (real or complex, any order and dimension), labelings, noise powers, priors, received values, summation orders", "why_tests_cant": "the error bound must hold for all of them, including where probabilities underflow", "anchors": ["src/komm/_constellations/base.py:Constellation.posteriors", "src/komm/_labelings/base.py:Labeling.marginalize", "src/komm/_error_control_decoders/BCJRDecoder.py:BCJRDecoder"]}
{"id": "C143", "title": "Information measures are accurate in double precision, and where they fail", "statement": "In floating-point arithmetic, with dot products in any order (with or without fused multiply-adds) and logarithms accurate to a few units in the last place: entropy and relative_entropy, to every base, return the exact value for the given numbers up to an explicit bound, when the quotients they take logarithms of do not overflow; relative_entropy is infinite when a positive probability meets 0; binary_entropy is accurate to 2^-45 for every double from 0 to 1; binary_entropy_inv terminates within 50 iterations for every tolerance of at least 2^-50, within half of the tolerance of a point whose entropy is h up to 2^-45. Failures: entropy is infinite as soon as some positive probability is at most 2^-1025, and binary_entropy_inv never returns for tolerances below 2^-54 and h from 0.9 to nearly 1.", "quantifier": "all probability vectors (any length, any doubles), bases, summation orders, tolerances and values of h", "why_tests_cant": "the bounds must hold for all inputs; non-termination cannot be observed by a test", "anchors": ["src/komm/_util/information_theory.py:entropy", "src/komm/_util/information_theory.py:relative_entropy", "src/komm/_util/information_theory.py:binary_entropy", "src/komm/_util/information_theory.py:binary_entropy_inv"]}
{"id": "C144", "title": "The tolerance used to detect removable singularities of the raised-cosine pulses is harmless", "statement": "RaisedCosinePulse.autocorrelation and RaisedCosinePulse(...).root().waveform replace the values at times that np.isclose considers equal to a removable singularity. For every roll-off factor and every time the value returned differs from the exact pulse by at most 4 pi (root waveform) or pi (autocorrelation) times the tolerance 1e-8 + 1e-5 |t0|; at times outside of the tolerance it is exact. (The tolerance is relative, so that for small roll-off factors the plateau is wide.)", "quantifier": "all roll-off factors from 0 to 1 and all real times", "why_tests_cant": "the set of affected times is a union of intervals that sampled tests miss", "anchors": ["src/komm/_pulses/RaisedCosinePulse.py:RaisedCosinePulse.autocorrelation", "src/komm/_pulses/RaisedCosinePulse.py:_RootRaisedCosinePulse.waveform"]}
{"id": "C145", "title": "Mutual information and capacity of the binary channels in double precision", "statement": "With floating-point arithmetic BinarySymmetricChannel.mutual_information and ZChannel.mutual_information never raise: the rounded argument passed to binary_entropy is always from 0 to 1. For all probabilities that are doubles, all double base and accurate library functions, mutual_information and capacity of the binary symmetric, binary erasure and Z channels return a value within (1/|log2 base| + 1) 2^-41 of the exact mutual information or capacity.", "quantifier": "all double crossover, erasure and decay probabilities and all input probabilities from 0 to 1, all valid bases, all libraries of the assumed accuracy", "why_tests_cant": "rounding errors at the edges of the range (p + pi - 2 p pi slightly above 1) occur for inputs that samples miss", "anchors": ["src/komm/_channels/BinarySymmetricChannel.py:BinarySymmetricChannel.mutual_information", "src/komm/_channels/BinarySymmetricChannel.py:BinarySymmetricChannel.capacity", "src/komm/_channels/BinaryErasureChannel.py:BinaryErasureChannel.mutual_information", "src/komm/_channels/BinaryErasureChannel.py:BinaryErasureChannel.capacity", "src/komm/_channels/ZChannel.py:ZChannel.mutual_information", "src/komm/_channels/ZChannel.py:ZChannel.capacity"]}
{"id": "C146", "title": "DiscreteMemorylessChannel.mutual_information in double precision", "statement": "For input pmfs and transition matrices of doubles (entries zero or at least 2^-490, sums within 2^-20 of 1, at most 2^20 inputs and outputs) DiscreteMemorylessChannel.mutual_information does not raise although it passes a rounded output pmf to entropy, which validates it, and whatever the order of the summations and whether fused multiply-adds are used, its result differs from the mutual information of the given numbers by at most 10 (n + m + 16) ((ln m + 1)/|ln base| + 1) 2^-50.", "quantifier": "all such pmfs and matrices, all valid bases, all orders of summation, all libraries of the assumed accuracy", "why_tests_cant": "accuracy for all inputs cannot be sampled, and the order of summation depends on the machine", "anchors": ["src/komm/_util/information_theory.py:mutual_information", "src/komm/_channels/DiscreteMemorylessChannel.py:DiscreteMemorylessChannel.mutual_information", "src/komm/_util/validators.py:validate_pmf"]}
{"id": "C147", "title": "Fano and Tunstall codes in double precision", "statement": "FanoCode built from a pmf of doubles (non-negative, not necessarily summing to 1, zeros and underflow of block probabilities included) never recurses forever and never produces an empty part: for every block size with at most 2^25 blocks and any order of the additions inside np.sum the code has one non-empty binary codeword per block and is prefix-free, fully covering and uniquely decodable. TunstallCode built from a pmf of doubles has a prefix-free, fully covering set of sourcewords, exactly as many as in exact arithmetic (the number of rounds is computed by a rounded division) for target block sizes up to 53, and if the doubles have relative error eps with respect to the true symbol probabilities its mean sourceword length is within the factor 1 + 4 * 2^n * (eps + 2^-52) of the best set of at most that many words.", "quantifier": "all pmfs of non-negative doubles, all block sizes, all orders of summation, all ways of breaking ties in the heap, all competing dictionaries", "why_tests_cant": "rounding may change every comparison the algorithms make; the worst pmf cannot be found by sampling", "anchors": ["src/komm/_lossless_coding/FanoCode.py:fano_code_lengths", "src/komm/_lossless_coding/FanoCode.py:FanoCode.__init__", "src/komm/_lossless_coding/TunstallCode.py:tunstall_code", "src/komm/_lossless_coding/TunstallCode.py:TunstallCode.__init__"]}
{"id": "C148", "title": "Rates and Kraft parameters of source codes in double precision", "statement": "For a pmf of doubles the rate a fixed-to-variable code reports (np.prod of block probabilities, np.dot with the codeword lengths, division by the block size, each operation rounded, in any order) differs from the exact rate for the same doubles by a relative error of at most (number of codewords + 2 * block size + 1) * 2^-52, up to 2^-98; the rate of a variable-to-fixed code has relative error at most (number of sourcewords + 2 * longest sourceword + 1) * 2^-50. The Kraft parameter of any code has relative error at most (2 * number of codewords + 1) * 2^-52, and that of a binary code with codewords of at most 53 bits is computed exactly whenever it is at most 1, so for such codes comparing it with 1 is sound: a uniquely decodable code never reports a value above 1, and a prefix-free code reports exactly 1 if and only if it is fully covering.", "quantifier": "all codes, all pmfs of doubles in [0, 1], all orders of multiplication and summation", "why_tests_cant": "rounding errors accumulate over exponentially many blocks; tests compare a few rates with a tolerance", "anchors": ["src/komm/_lossless_coding/FixedToVariableCode.py:FixedToVariableCode.rate", "src/komm/_lossless_coding/FixedToVariableCode.py:FixedToVariableCode.kraft_parameter", "src/komm/_lossless_coding/VariableToFixedCode.py:VariableToFixedCode.rate"]}
{"id": "C149", "title": "Random draws in double precision", "statement": "DiscreteMemorylessSource.emit, DiscreteMemorylessChannel.transmit and MarkovChain.simulate, with the cumulative sums, the division and the binary search of Generator.choice in double precision and random() a 53-bit number, never produce an index outside the alphabet and never a symbol or a transition of probability zero; they are the exact simulation of a source, channel or chain whose probabilities are multiples of 2^-53 and differ from the given (normalised) ones by at most (6n+3) * 2^-52, so that after t steps the law of a simulated chain is off by at most t * n * (6n+3) * 2^-52. simulate_until_absorption terminates with probability one if no positive entry is below (6n+3) * 2^-52, and can run forever otherwise. The binary symmetric, erasure and Z channels are exactly the channels with the probability rounded up to a multiple of 2^-53: probability 0 never errs, probability 1 always, and a positive probability never gives an error rate below 2^-53.", "quantifier": "all pmfs and transition matrices of non-negative doubles, all values of the generator, all numbers of steps", "why_tests_cant": "rare events of the generator (draws next to 0, 1 or a boundary of the cumulative distribution) are not met by running", "anchors": ["src/komm/_sources/DiscreteMemorylessSource.py:DiscreteMemorylessSource.emit", "src/komm/_sources/MarkovChain.py:MarkovChain.simulate", "src/komm/_sources/MarkovChain.py:MarkovChain.simulate_until_absorption", "src/komm/_channels/DiscreteMemorylessChannel.py:DiscreteMemorylessChannel.transmit", "src/komm/_channels/BinarySymmetricChannel.py:BinarySymmetricChannel.transmit", "src/komm/_channels/BinaryErasureChannel.py:BinaryErasureChannel.transmit", "src/komm/_channels/ZChannel.py:ZChannel.transmit"]}
{"id": "C150", "title": "Noise that soft decoding always tolerates", "statement": "If a codeword v is received as g (A (-1)^v + z), with any gain g > 0 and any real noise vector z of squared length below A^2 d, the soft decoders return the message: ExhaustiveSearchDecoder for every block code (d = minimum_distance()), WagnerDecoder (d = 2), ViterbiDecoder with zero termination (d = free_distance()) and with direct truncation (d = the distance between truncated codewords). For exhaustive search the bound is sharp for every code: beyond it there are a message and a noise vector for which the decoder errs. In particular noise in at most f positions, each of size at most b, is harmless if f b^2 < A^2 d.", "quantifier": "all codes, messages, gains, amplitudes and noise vectors", "why_tests_cant": "the noise vectors form a continuum; the worst directions have measure zero in simulations", "anchors": ["src/komm/_error_control_decoders/ExhaustiveSearchDecoder.py:ExhaustiveSearchDecoder.decode", "src/komm/_error_control_decoders/WagnerDecoder.py:WagnerDecoder.decode", "src/komm/_error_control_decoders/ViterbiDecoder.py:ViterbiDecoder.decode"]}
{"id": "C151", "title": "End-to-end transmissions", "statement": "A message of any number of blocks, encoded blockwise, mapped through bits_to_indices and indices_to_symbols, received with noise, decided by closest_indices, mapped back by indices_to_bits and decoded blockwise arrives without error whenever in every codeword at most t // num_bits symbols are hit by noise of half the minimum distance of the constellation or more, however strong, where t is (d - 1) // 2: for SyndromeTableDecoder and ExhaustiveSearchDecoder (d the minimum distance of any block code), BerlekampDecoder (d the Bose distance), ReedDecoder (d = 2^(mu - rho)) and ViterbiDecoder on zero-terminated rate 1/n codes (d = free_distance()). With less noise than that everywhere, labels may straddle codewords. With a prefix code in front (zero padding to whole messages, dropped after decoding) the source sequence arrives.", "quantifier": "all codes, labelings, constellations, messages and noise", "why_tests_cant": "the composition of five components for all parameters, inputs and noise", "anchors": ["src/komm/_error_control_block/BlockCode.py:BlockCode", "src/komm/_error_control_decoders/SyndromeTableDecoder.py:SyndromeTableDecoder.decode", "src/komm/_error_control_decoders/BerlekampDecoder.py:BerlekampDecoder.decode", "src/komm/_error_control_decoders/ReedDecoder.py:ReedDecoder.decode", "src/komm/_error_control_decoders/ViterbiDecoder.py:ViterbiDecoder.decode", "src/komm/_labelings/base.py:Labeling", "src/komm/_constellations/base.py:Constellation", "src/komm/_lossless_coding/FixedToVariableCode.py:FixedToVariableCode.encode"]}
{"id": "C152", "title": "End-to-end transmissions with soft decisions", "statement": "With binary PAM, marginalize(posteriors(r, noise_power)) is -(delta / noise_power) r, finite for every received r. A message of any number of blocks, encoded blockwise, sent over PAMConstellation(2, delta) with a one-bit labeling, received with noise, turned into L-values with any positive noise_power (right or wrong) and decoded blockwise arrives without error whenever in every codeword the squared length of the noise is below (delta / 2)^2 d: for ExhaustiveSearchDecoder (d the minimum distance of any block code), WagnerDecoder (d = 2) and ViterbiDecoder on zero-terminated rate 1/n codes (d = free_distance()).", "quantifier": "all codes, messages, spacings, noise vectors and assumed noise powers", "why_tests_cant": "the composition of five components for a continuum of noise vectors", "anchors": ["src/komm/_constellations/base.py:Constellation.posteriors", "src/komm/_labelings/base.py:Labeling.marginalize", "src/komm/_error_control_decoders/ExhaustiveSearchDecoder.py:ExhaustiveSearchDecoder.decode", "src/komm/_error_control_decoders/WagnerDecoder.py:WagnerDecoder.decode", "src/komm/_error_control_decoders/ViterbiDecoder.py:ViterbiDecoder.decode"]}
{"id": "C153", "title": "Compressed data and quantized samples over a coded link", "statement": "Any non-empty bits, zero-padded to whole messages, sent over the coded link of C151 and cut back to their length arrive. Hence a file compressed with LempelZivWelchCode or LempelZiv78Code (target alphabet 2) arrives and decompresses to itself, and samples sent as labeling.indices_to_bits(quantizer.digitize(x)) come back, through bits_to_indices and levels, as quantizer.quantize(x), to within half a step for UniformQuantizer in its granular region. Without a channel code, NaturalLabeling(m) over UniformQuantizer(2^m, step): a word with wrong bits gives a sample off by at most step times the sum of 2^(m - 1 - j) over the wrong positions j, plus half a step.", "quantifier": "all quantizers, labelings, codes, constellations, sequences, samples and noise", "why_tests_cant": "the composition of seven components for all inputs and noise", "anchors": ["src/komm/_quantization/UniformQuantizer.py:UniformQuantizer.levels", "src/komm/_quantization/base.py:ScalarQuantizer.digitize", "src/komm/_labelings/base.py:Labeling", "src/komm/_labelings/NaturalLabeling.py:NaturalLabeling", "src/komm/_lossless_coding/LempelZivWelchCode.py:LempelZivWelchCode", "src/komm/_lossless_coding/LempelZiv78Code.py:LempelZiv78Code", "src/komm/_constellations/base.py:Constellation"]}
{"id": "C154", "title": "Gray-labelled symbols over a coded link", "statement": "With ReflectedLabeling(m) over PAMConstellation(2^m, delta) a symbol whose noise stays below (e + 1/2) delta costs the decoder at most min(e, m) wrong bits; with ReflectedRectangularLabeling((mi, mq)) over QAMConstellation the same holds along each axis of the rotated constellation, min(ei, mi) + min(eq, mq) bits. If in every codeword the costs of its symbols add up to at most t, t the number of errors the decoder corrects, the whole message arrives. In particular, for PAM with noise below 1.5 delta everywhere, up to t symbols of each codeword may be decided wrongly, however many bits a symbol carries.", "quantifier": "all codes, decoders, messages, PAM and QAM orders, steps, phase offsets and received sequences", "why_tests_cant": "the composition of encoder, labeling, modulator, demodulator and decoder for all inputs and noise", "anchors": ["src/komm/_labelings/ReflectedLabeling.py:ReflectedLabeling", "src/komm/_labelings/ReflectedRectangularLabeling.py:ReflectedRectangularLabeling", "src/komm/_constellations/PAMConstellation.py:PAMConstellation.closest_indices", "src/komm/_constellations/QAMConstellation.py:QAMConstellation.closest_indices", "src/komm/_error_control_block/BlockCode.py:BlockCode.encode"]}
{"id": "C155", "title": "PSK under unknown gain and phase noise", "statement": "PSKConstellation.closest_indices ignores positive gains: closest_indices(g r) = closest_indices(r). A symbol i received with any positive gain and rotated by psi turns is decided as (i + d) mod M, d the whole number nearest to M psi; in particular correctly if |psi| < 1/(2M), and an exact rotation by d/M turns moves every decision by d. Additive noise shorter than A sin(2 pi t), t at most 1/4, rotates by less than t turns. With ReflectedLabeling(m), M = 2^m, a symbol turned by less than (e + 1/2) angular steps costs at most min(e, m) wrong bits (also across the wrap-around), so a coded transmission with arbitrary gains arrives if the costs in every codeword add up to at most the number of errors the decoder corrects.", "quantifier": "all orders, amplitudes, phase offsets, gains, rotations, noise vectors, codes and messages", "why_tests_cant": "continuous gains, angles and noise, and the composition of five components", "anchors": ["src/komm/_constellations/PSKConstellation.py:PSKConstellation.closest_indices", "src/komm/_constellations/PSKConstellation.py:PSKConstellation.matrix", "src/komm/_labelings/ReflectedLabeling.py:ReflectedLabeling", "src/komm/_error_control_block/BlockCode.py:BlockCode.encode"]}
{"id": "C156", "title": "Constellations under change of coordinates, and the simplex bound", "statement": "Let T multiply all distances by kappa > 0 (gain, rotation, shift, unitary mixing of the coordinates, complex to real coordinates). Constellation(T(matrix)) decides T(received) as Constellation(matrix) decides received, ties included; its minimum_distance is kappa times the original; its posteriors with the noise power scaled by kappa^2 are the same, so that a complex constellation is the real one of twice the dimension with half the noise power. mean and mean_energy of a m + b follow the usual rules: the mean energy is least for the centred constellation. Reordering the points leaves distances and energies, reorders posteriors and untied decisions. For M points with mean energy E (uniform priors) minimum_distance^2 <= 2 M E / (M - 1), whatever the dimension, and SimplexConstellation attains it.", "quantifier": "all constellations, real or complex, of any size and dimension, similarities, received vectors, noise powers and priors", "why_tests_cant": "all point sets and all distance-preserving maps", "anchors": ["src/komm/_constellations/base.py:Constellation.closest_indices", "src/komm/_constellations/base.py:Constellation.minimum_distance", "src/komm/_constellations/base.py:Constellation.posteriors", "src/komm/_constellations/base.py:Constellation.mean_energy", "src/komm/_constellations/base.py:Constellation.mean", "src/komm/_constellations/SimplexConstellation.py:SimplexConstellation.minimum_distance"]}
{"id": "C157", "title": "Laws of the information measures: chain rule, data processing, convexity, relabelling", "statement": "For an input pmf r and channel matrices P, Q with fitting shapes: mutual_information(r, P Q) <= mutual_information(r, P) and likewise for the capacities (a cascade is no better than either stage); relative_entropy(p P, q P) <= relative_entropy(p, q); the entropy of the joint pmf r_i P_ij is entropy(r) plus the average of the entropies of the rows, and mutual_information is the sum of the two marginal entropies minus the joint entropy; entropies of independent variables add. entropy and mutual_information are concave in the pmf, mutual_information is convex in the channel matrix, and relabelling inputs and outputs changes nothing. Two binary symmetric channels in a row are one with crossover p + q - 2 p q, whose capacity is at most that of either.", "quantifier": "all pmfs, channel matrices of every size, mixtures of any length, bases of the logarithm above 1", "why_tests_cant": "all real-valued distributions and channels", "anchors": ["src/komm/_util/information_theory.py:mutual_information", "src/komm/_util/information_theory.py:entropy", "src/komm/_util/information_theory.py:relative_entropy", "src/komm/_channels/BinarySymmetricChannel.py:BinarySymmetricChannel.capacity"]}
{"id": "C158", "title": "Equivalent block codes", "statement": "If the codewords of one code are those of another with the places reordered, both have the same codeword_weight_distribution, minimum_distance, packing_radius, coset_leader_weight_distribution and covering_radius, the same probability of an undetected error over BinarySymmetricChannel and the same probability of a right decision of SyndromeTableDecoder, whatever messages are sent. This is the case for BlockCode with generator rows that span the same space, with reordered generator or check columns, for SystematicBlockCode with any two information sets, and for HammingCode(mu) and any code with distinct nonzero check columns of the same size. coset_leader_weight_distribution()[w] times 2**k is the number of received words at distance exactly w from the code.", "quantifier": "all pairs of equivalent codes of every size, all reorderings", "why_tests_cant": "all permutations of the places and all codes", "anchors": ["src/komm/_error_control_block/base.py:BlockCode.codeword_weight_distribution", "src/komm/_error_control_block/base.py:BlockCode.coset_leader_weight_distribution", "src/komm/_error_control_block/base.py:BlockCode.minimum_distance", "src/komm/_error_control_block/base.py:BlockCode.covering_radius", "src/komm/_error_control_block/base.py:BlockCode.packing_radius", "src/komm/_error_control_block/SystematicBlockCode.py:SystematicBlockCode", "src/komm/_error_control_block/HammingCode.py:HammingCode"]}
{"id": "C159", "title": "Convolutional encoders with reordered inputs and outputs", "statement": "Reordering the rows (with their feedback polynomials) and columns of feedforward_polynomials of a ConvolutionalCode, or the polynomials of a LowRateConvolutionalCode, reorders the bits inside each block of input and output of encode and nothing else; degree, memory_order and the result of free_distance() stay, and so does whether the encoder is catastrophic and whether is_catastrophic() raises. For one input bit per block the answer of is_catastrophic() stays as well; for more it may change: ConvolutionalCode([[0b11, 0], [0, 0b10]]) is declared not catastrophic and its reordering [[0b10, 0], [0, 0b11]] catastrophic.", "quantifier": "all feedforward and feedback encoders of every rate and memory, all reorderings, all input streams", "why_tests_cant": "all infinite input streams and all permutations", "anchors": ["src/komm/_error_control_convolutional/ConvolutionalCode.py:ConvolutionalCode", "src/komm/_error_control_convolutional/LowRateConvolutionalCode.py:LowRateConvolutionalCode", "src/komm/_error_control_convolutional/base.py:ConvolutionalCode.free_distance", "src/komm/_error_control_convolutional/base.py:ConvolutionalCode.is_catastrophic", "src/komm/_error_control_convolutional/base.py:ConvolutionalCode.encode"]}
{"id": "C160", "title": "Laws of the rates of Huffman codes", "statement": "For every pmf and block size, rate(pmf) of HuffmanCode is at most that of any FixedToVariableCode of the same block size with different, uniquely decodable binary codewords; it depends neither on policy nor assignment nor on the order of the probabilities; the number of bits for blocks of a + b symbols is at most the sum of those for blocks of a and of b, so multiplying source_block_size never increases the rate. Increasing the block size otherwise may: for [5/7, 2/7] blocks of 3 are worse than blocks of 2.", "quantifier": "all rational pmfs, block sizes, policies, assignments and competing codes", "why_tests_cant": "all block sizes and all competing codes", "anchors": ["src/komm/_lossless_coding/HuffmanCode.py:HuffmanCode", "src/komm/_lossless_coding/FixedToVariableCode.py:FixedToVariableCode.rate"]}
{"id": "C161", "title": "Laws of the rates of Tunstall codes", "statement": "For every pmf and target_block_size, rate(pmf) and the number of sourcewords of TunstallCode depend neither on the choice among equally probable leaves (the order of ties in the heap) nor on the order of the probabilities; a larger target_block_size never gives fewer sourcewords nor fewer source symbols per target block (target_block_size / rate).", "quantifier": "all rational pmfs, target block sizes, tie-breaking rules and reorderings", "why_tests_cant": "all heaps, ties and block sizes", "anchors": ["src/komm/_lossless_coding/TunstallCode.py:tunstall_code", "src/komm/_lossless_coding/VariableToFixedCode.py:VariableToFixedCode.rate"]}
{"id": "C162", "title": "Laws of the rates of Shannon codes", "statement": "For every strictly positive pmf and block size, rate(pmf) of ShannonCode does not depend on the order of the probabilities; the number of bits for blocks of a + b symbols is at most the sum of those for blocks of a and of b, so multiplying source_block_size never increases the rate; neither ShannonCode nor FanoCode has a smaller rate than HuffmanCode; when all probabilities are powers of 1/2, Shannon and Huffman codes of every block size have a rate equal to entropy(pmf).", "quantifier": "all rational strictly positive pmfs, block sizes, policies and assignments", "why_tests_cant": "all block sizes and reorderings", "anchors": ["src/komm/_lossless_coding/ShannonCode.py:ShannonCode", "src/komm/_lossless_coding/FixedToVariableCode.py:FixedToVariableCode.rate", "src/komm/_lossless_coding/FanoCode.py:FanoCode", "src/komm/_lossless_coding/HuffmanCode.py:HuffmanCode"]}
{"id": "C163", "title": "Shannon codes designed for the wrong probabilities", "statement": "For every strictly positive pmf q, every pmf p on the same alphabet (zeros allowed) and every block size k, the rate(p) of ShannonCode(q, k) is at least entropy(p, 2) + relative_entropy(p, q, 2) and smaller than that plus 1/k; when all entries of q are powers of 1/2 it is exactly that.", "quantifier": "all rational pmfs p and q and block sizes", "why_tests_cant": "all probabilities and block sizes", "anchors": ["src/komm/_lossless_coding/ShannonCode.py:ShannonCode", "src/komm/_lossless_coding/FixedToVariableCode.py:FixedToVariableCode.rate", "src/komm/_util/information_theory.py:relative_entropy"]}
{"id": "C164", "title": "Markov chains with renumbered states", "statement": "Renumbering the states of a MarkovChain renumbers the answers and nothing else: the constructor accepts the same chains; accessible_states_from, communicating_classes, recurrent_states, transient_states, absorbing_states, period and stationary_distribution move with the states; is_irreducible, is_aperiodic, is_regular, is_absorbing and index_of_primitivity stay (though the algorithms start their searches at state 0).", "quantifier": "all finite chains and all permutations of their states", "why_tests_cant": "all sizes, chains and permutations", "anchors": ["src/komm/_sources/MarkovChain.py:MarkovChain"]}
{"id": "C165", "title": "Absorbing chains with renumbered states", "statement": "Renumbering the states of a MarkovChain moves the entries of mean_number_of_visits, mean_time_to_absorption and absorption_probabilities with the states: each method raises for both chains or for neither, and the entries at the renumbered states are those of the chain.", "quantifier": "all finite chains and all permutations of their states", "why_tests_cant": "all sizes, chains and permutations", "anchors": ["src/komm/_sources/MarkovChain.py:MarkovChain"]}

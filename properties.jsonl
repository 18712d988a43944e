{"id": "C01", "title": "Irreducible decomposition intersects to the ideal", "statement": "The monomials emitted by irreducibleDecompositionAsMonomials (and the CLI irrdecom) decode to irreducible ideals <x_i^{d_i} : d_i>0> whose intersection is exactly the input ideal: a monomial m lies in the ideal iff for every emitted d some i has d_i>0 and m_i>=d_i.", "quantifier": "every number of variables n (including 0) and every finite list of generators with arbitrarily large exponents, in any order, with duplicates and redundant generators", "why_tests_cant": "The input space (ideals) is infinite and the output is a function of global structure; tests only compare finitely many ideals with precomputed answers.", "anchors": ["src/frobby.cpp: irreducibleDecompositionAsMonomials", "src/SliceFacade.cpp: produceEncodedIrrDecom", "src/MsmStrategy.cpp", "src/MsmSlice.cpp", "src/Slice.cpp"]}
{"id": "C02", "title": "Irreducible decomposition is irredundant and duplicate free", "statement": "No emitted component can be left out (for each emitted d there is a monomial outside irr(d) and inside every other emitted component), and no component is emitted twice.", "quantifier": "every number of variables n (including 0) and every finite list of generators with arbitrarily large exponents, in any order, with duplicates and redundant generators", "why_tests_cant": "The input space (ideals) is infinite and the output is a function of global structure; tests only compare finitely many ideals with precomputed answers.", "anchors": ["src/frobby.cpp: irreducibleDecompositionAsMonomials", "src/MsmStrategy.cpp: MsmStrategy::pivotSplit/independenceSplit", "src/SliceStrategyCommon.cpp: pivotSplit"]}
{"id": "C03", "title": "Zero ideal, unit ideal and return value of the irreducible decomposition", "statement": "irreducibleDecompositionAsMonomials returns false and makes no consumer call exactly when the ideal has no generators; otherwise it returns true and makes one idealBegin(n), the generators, one idealEnd. The unit ideal yields no generators.", "quantifier": "every number of variables n (including 0) and every finite list of generators with arbitrarily large exponents, in any order, with duplicates and redundant generators", "why_tests_cant": "A claim about every input including the degenerate ones (n=0, no generators, generator 1 among others).", "anchors": ["src/frobby.cpp: irreducibleDecompositionAsMonomials"]}
{"id": "C04", "title": "irreducibleDecompositionAsIdeals emits one ideal of pure powers per component", "statement": "Call sequence is a concatenation of blocks idealBegin(n), pure powers, idealEnd, one block per irreducible component; the zero ideal gives exactly one empty block and the unit ideal none. The block decodes to the component.", "quantifier": "every number of variables n (including 0) and every finite list of generators with arbitrarily large exponents, in any order, with duplicates and redundant generators", "why_tests_cant": "Quantifies over all ideals and all call sequences.", "anchors": ["src/frobby.cpp: IrreducibleIdealDecoder", "src/frobby.cpp: irreducibleDecompositionAsIdeals"]}
{"id": "C05", "title": "Maximal standard monomials are exactly reported", "statement": "maximalStandardMonomials emits precisely the monomials m not in the ideal with m*x_i in the ideal for every i, each exactly once.", "quantifier": "every number of variables n (including 0) and every finite list of generators with arbitrarily large exponents, in any order, with duplicates and redundant generators", "why_tests_cant": "The input space (ideals) is infinite and the output is a function of global structure; tests only compare finitely many ideals with precomputed answers.", "anchors": ["src/frobby.cpp: maximalStandardMonomials", "src/SliceFacade.cpp: computeMaximalStandardMonomials"]}
{"id": "C06", "title": "Alexander dual emits the minimal generators of the dual", "statement": "alexanderDual(I,a) emits, without repetition, an antichain that generates I^[a], the intersection over minimal generators g of <x_i^{a_i-g_i+1} : g_i>0>.", "quantifier": "every number of variables n (including 0) and every finite list of generators with arbitrarily large exponents, in any order, with duplicates and redundant generators; every point a divisible by the lcm of the minimal generators", "why_tests_cant": "The input space (ideals) is infinite and the output is a function of global structure; tests only compare finitely many ideals with precomputed answers.", "anchors": ["src/frobby.cpp: alexanderDual", "src/SliceFacade.cpp: computeAlexanderDual", "src/TermTranslator.cpp: dualize"]}
{"id": "C07", "title": "alexanderDual return value and null point", "statement": "alexanderDual returns true iff every minimal generator divides the point; when it returns false nothing is emitted; a null point behaves as the lcm of the minimal generators (redundant generators do not count) and always succeeds.", "quantifier": "every number of variables n (including 0) and every finite list of generators with arbitrarily large exponents, in any order, with duplicates and redundant generators; every point", "why_tests_cant": "Universally quantified over ideals and points; failure must be detected for all of them.", "anchors": ["src/frobby.cpp: alexanderDual", "src/SliceFacade.cpp: computeAlexanderDual(const vector<mpz_class>&)"]}
{"id": "C08", "title": "alexanderDual with an Ideal as the point", "statement": "The overload taking an Ideal returns false with no output unless that ideal has exactly one generator and the same number of variables; otherwise it agrees with the array overload, in particular for n=0.", "quantifier": "all pairs of ideals", "why_tests_cant": "Universally quantified over pairs of ideals.", "anchors": ["src/frobby.cpp: alexanderDual(const Ideal&, const Ideal&, IdealConsumer&)"]}
{"id": "C09", "title": "Alexander duality is an involution", "statement": "Feeding the output of alexanderDual(I,a) back through alexanderDual(.,a) returns the minimal generators of I.", "quantifier": "every number of variables n (including 0) and every finite list of generators with arbitrarily large exponents, in any order, with duplicates and redundant generators; every valid point a", "why_tests_cant": "A law relating two runs on all inputs.", "anchors": ["src/frobby.cpp: alexanderDual", "src/SliceFacade.cpp: computeAlexanderDual"]}
{"id": "C10", "title": "Associated primes are exact", "statement": "associatedPrimes emits each variable set P exactly once, and emits P iff <x_i : i in P> = I : m for some monomial m.", "quantifier": "every number of variables n (including 0) and every finite list of generators with arbitrarily large exponents, in any order, with duplicates and redundant generators", "why_tests_cant": "The input space (ideals) is infinite and the output is a function of global structure; tests only compare finitely many ideals with precomputed answers.", "anchors": ["src/frobby.cpp: associatedPrimes", "src/SliceFacade.cpp: computeAssociatedPrimes"]}
{"id": "C11", "title": "Canonical primary decomposition is correct", "statement": "primaryDecomposition emits one ideal per associated prime; each is the intersection of the irreducible components with that support, given by its minimal generators; the intersection of all is I.", "quantifier": "every number of variables n (including 0) and every finite list of generators with arbitrarily large exponents, in any order, with duplicates and redundant generators", "why_tests_cant": "The input space (ideals) is infinite and the output is a function of global structure; tests only compare finitely many ideals with precomputed answers.", "anchors": ["src/frobby.cpp: primaryDecomposition", "src/SliceFacade.cpp: computePrimaryDecomposition"]}
{"id": "C12", "title": "Multigraded Hilbert-Poincare numerator is exact", "statement": "The polynomial emitted by multigradedHilbertPoincareSeries divided by (1-x_1)...(1-x_n) is the sum of the monomials outside I: for each monomial m the coefficients of the emitted terms dividing m add up to 0 if m is in I and to 1 otherwise. No monomial is emitted twice and no coefficient is zero.", "quantifier": "every number of variables n (including 0) and every finite list of generators with arbitrarily large exponents, in any order, with duplicates and redundant generators", "why_tests_cant": "The input space (ideals) is infinite and the output is a function of global structure; tests only compare finitely many ideals with precomputed answers.", "anchors": ["src/frobby.cpp: multigradedHilbertPoincareSeries", "src/HilbertStrategy.cpp", "src/HilbertSlice.cpp", "src/HilbertBasecase.cpp"]}
{"id": "C13", "title": "Univariate Hilbert-Poincare numerator is exact", "statement": "univariateHilbertPoincareSeries emits, in decreasing degree order with non-zero coefficients, the multigraded numerator with every variable replaced by t.", "quantifier": "every number of variables n (including 0) and every finite list of generators with arbitrarily large exponents, in any order, with duplicates and redundant generators", "why_tests_cant": "The input space (ideals) is infinite and the output is a function of global structure; tests only compare finitely many ideals with precomputed answers.", "anchors": ["src/frobby.cpp: univariateHilbertPoincareSeries", "src/TotalDegreeCoefTermConsumer.cpp", "src/UniHashPolynomial.cpp"]}
{"id": "C14", "title": "Dimension and codimension", "statement": "dimension is the largest size of a variable set containing the support of no generator, -1 for the unit ideal; dimension + codimension = n.", "quantifier": "every number of variables n (including 0) and every finite list of generators with arbitrarily large exponents, in any order, with duplicates and redundant generators", "why_tests_cant": "The input space (ideals) is infinite and the output is a function of global structure; tests only compare finitely many ideals with precomputed answers.", "anchors": ["src/frobby.cpp: dimension, codimension", "src/IdealFacade.cpp: computeDimension", "src/SizeMaxIndepSetAlg.cpp"]}
{"id": "C15", "title": "Standard monomial program is solved to optimality", "statement": "solveStandardMonomialProgram returns true iff a maximal standard monomial exists, and then emits exactly one, whose value l*d is maximal, whatever branch-and-bound prunes.", "quantifier": "every number of variables n (including 0) and every finite list of generators with arbitrarily large exponents, in any order, with duplicates and redundant generators; every integer objective l", "why_tests_cant": "The input space (ideals) is infinite and the output is a function of global structure; tests only compare finitely many ideals with precomputed answers.", "anchors": ["src/frobby.cpp: solveStandardMonomialProgram", "src/SliceFacade.cpp: solveStandardProgram", "src/OptimizeStrategy.cpp", "src/TermGrader.cpp"]}
{"id": "C16", "title": "Building an ideal exponent by exponent", "statement": "After any history of addExponent calls, the ideal's generators are the calls grouped n at a time in order; with n=0 each call adds the generator 1.", "quantifier": "all call histories", "why_tests_cant": "Quantifies over all call sequences.", "anchors": ["src/frobby.cpp: Ideal::addExponent"]}
{"id": "C17", "title": "Results depend only on the ideal", "statement": "Reordering, duplicating or adding redundant generators does not change the set of emitted irreducible components, maximal standard monomials or dual generators.", "quantifier": "all pairs of generator lists generating the same ideal", "why_tests_cant": "A relation between two runs over all pairs of inputs.", "anchors": ["src/CommonParamsHelper.cpp: setIdeal", "src/Minimizer.cpp: minimize"]}
{"id": "C18", "title": "Minimization is correct on every path", "statement": "Minimizing keeps a duplicate-free antichain that generates the same ideal and consists of input generators, whichever of the simple, two-variable and tree algorithms is chosen by size.", "quantifier": "all generator lists of any length and any number of variables", "why_tests_cant": "The tree path starts at 1000 generators and depends on pivots and thresholds; tests sample a few lists.", "anchors": ["src/Minimizer.cpp: minimize, simpleMinimize, twoVarMinimize, TreeNode"]}
{"id": "C19", "title": "Colon by a monomial keeps minimality", "statement": "Taking the colon of a minimally generated ideal by a monomial or by a variable power yields the minimal generators of the colon ideal, and the returned flag is true iff some generator lost a variable from its support.", "quantifier": "all minimally generated ideals and all monomials", "why_tests_cant": "In-place partition tricks must be right for all inputs.", "anchors": ["src/Minimizer.cpp: colonReminimize", "src/Ideal.cpp: colonReminimize"]}
{"id": "C20", "title": "Exponent translation is exact", "statement": "Translating big-integer exponents to small ids and back is the identity on the input generators, preserves and reflects divisibility, and the id standing for the power at infinity translates to 0.", "quantifier": "every number of variables n (including 0) and every finite list of generators with arbitrarily large exponents, in any order, with duplicates and redundant generators", "why_tests_cant": "Must hold for arbitrarily large exponents and all lists.", "anchors": ["src/TermTranslator.cpp: initialize, shrinkBigIdeal, getExponent, addPurePowersAtInfinity"]}
{"id": "C21", "title": "Slice algorithm terminates", "statement": "The task loop of the Slice Algorithm reaches the empty task list on every input and never indexes outside the exponent arrays through the lower-bound hint.", "quantifier": "every number of variables n (including 0) and every finite list of generators with arbitrarily large exponents, in any order, with duplicates and redundant generators; every built-in pivot and label split", "why_tests_cant": "Termination on all inputs is not testable.", "anchors": ["src/TaskEngine.cpp: runTasks", "src/SliceStrategyCommon.cpp: pivotSplit", "src/MsmStrategy.cpp"]}
{"id": "C22", "title": "Options do not change the result", "statement": "The set of maximal staircase monomials reported is the same for every split strategy and for independence splits on or off (simplification on).", "quantifier": "every number of variables n (including 0) and every finite list of generators with arbitrarily large exponents, in any order, with duplicates and redundant generators; every split strategy and option value", "why_tests_cant": "A relation between runs for all inputs and option combinations.", "anchors": ["src/SplitStrategy.cpp", "src/SliceFacade.cpp: runSliceAlgorithmWithOptions"]}
{"id": "C23", "title": "Cached lcm is always the lcm", "statement": "Whenever a slice says its cached lcm is up to date, it is the lcm of the slice's current generators, after any sequence of slice operations.", "quantifier": "all slices and all operation sequences", "why_tests_cant": "Stale caches only show on particular operation orders.", "anchors": ["src/Slice.cpp: getLcm, innerSlice, outerSlice", "src/MsmSlice.cpp: removeDoubleLcm"]}
{"id": "C24", "title": "Simplification does not change the content of a slice", "statement": "Lower-bound steps, normalisation, removal of double lcms and pruning of subtracted monomials keep the set of maximal standard monomials represented by the slice.", "quantifier": "all slices", "why_tests_cant": "Semantic equality of infinite families of slices.", "anchors": ["src/Slice.cpp: simplify, normalize, pruneSubtract, applyLowerBound", "src/MsmSlice.cpp: removeDoubleLcm, getLowerBound"]}
{"id": "C25", "title": "Pivot splits partition the content", "statement": "For every pivot the contents of the inner and the outer slice are disjoint and their union is the content of the slice that was split.", "quantifier": "all slices and all pivots", "why_tests_cant": "Semantic equality over all slices.", "anchors": ["src/Slice.cpp: innerSlice, outerSlice", "src/SliceStrategyCommon.cpp: pivotSplit"]}
{"id": "C26", "title": "Independence splits multiply contents", "statement": "When the variables fall into two independent groups, the content is the product of the contents of the two projections, and the splitter only reports groups that no generator or subtracted monomial connects.", "quantifier": "all slices", "why_tests_cant": "Depends on a union-find over arbitrary supports.", "anchors": ["src/IndependenceSplitter.cpp: analyze", "src/Partition.cpp", "src/Projection.cpp", "src/MsmStrategy.cpp: MsmIndependenceSplit"]}
{"id": "C27", "title": "Partition is a correct union-find", "statement": "After any sequence of joins, two elements have the same root iff they are connected by the joins performed; set count and sizes are right.", "quantifier": "all sequences of joins", "why_tests_cant": "Quantifies over histories.", "anchors": ["src/Partition.cpp"]}
{"id": "C28", "title": "Ideal intersection", "statement": "Intersecting a list of ideals yields the minimal generators of the intersection; the empty list yields the whole ring.", "quantifier": "all lists of ideals", "why_tests_cant": "The input space (ideals) is infinite and the output is a function of global structure; tests only compare finitely many ideals with precomputed answers.", "anchors": ["src/intersect.cpp", "src/IntersectFacade.cpp"]}
{"id": "C29", "title": "Bigatti algorithm computes the same numerator", "statement": "The Bigatti et al. algorithm emits a polynomial with the defining property of the multigraded Hilbert numerator, for every pivot choice it can make.", "quantifier": "every number of variables n (including 0) and every finite list of generators with arbitrarily large exponents, in any order, with duplicates and redundant generators; every pivot strategy", "why_tests_cant": "The input space (ideals) is infinite and the output is a function of global structure; tests only compare finitely many ideals with precomputed answers.", "anchors": ["src/BigattiHilbertAlgorithm.cpp", "src/BigattiBaseCase.cpp", "src/BigattiState.cpp", "src/BigattiPivotStrategy.cpp"]}
{"id": "C30", "title": "Polynomial accumulation", "statement": "Adding terms to a hash polynomial in any order yields exactly the non-zero coefficient sums, and output in canonical order is sorted without repeated monomials.", "quantifier": "all sequences of additions", "why_tests_cant": "All orders of cancellation.", "anchors": ["src/HashPolynomial.cpp", "src/UniHashPolynomial.cpp"]}
{"id": "C31", "title": "Frobenius number", "statement": "The dynamic programming Frobenius algorithm returns the largest integer that is not a non-negative combination of the given numbers.", "quantifier": "all coprime lists of positive integers", "why_tests_cant": "Infinite input space.", "anchors": ["src/dynamicFrobeniusAlgorithm.cpp"]}
{"id": "C32", "title": "Printing then parsing returns the ideal", "statement": "Writing an ideal in an output format and reading the text back yields the same variables and generators in the same order.", "quantifier": "all ideals and all valid variable names", "why_tests_cant": "Infinite set of texts.", "anchors": ["src/MonosIOHandler.cpp", "src/Macaulay2IOHandler.cpp", "src/IOHandlerCommon.cpp", "src/Scanner.cpp"]}
{"id": "C33", "title": "Prefix lookup of names", "statement": "Looking up a prefix returns the exact match if there is one, else the unique extension, else reports unknown or ambiguous; the outcome does not depend on registration order.", "quantifier": "all registries and all prefixes", "why_tests_cant": "All registries.", "anchors": ["src/NameFactory.h"]}
{"id": "C34", "title": "Exponent storage never overflows its block", "statement": "Every exponent vector handed out for a generator lies inside the block of memory it was carved from, for every history of ideals created and destroyed in the process.", "quantifier": "all histories of ideal creation, insertion, clearing and destruction with any variable counts", "why_tests_cant": "The failing histories need ideals with particular numbers of variables in a particular order and corrupt memory silently.", "anchors": ["src/Ideal.cpp: ChunkPool, ExponentAllocator::reset, ExponentAllocator::allocate"]}
{"id": "C35", "title": "Comparison functions are strict weak orders", "statement": "The comparators handed to std::sort (lex, reverse lex, single degree, translated reverse lex, ideal comparison) are strict weak orders, so sorting has defined behaviour.", "quantifier": "all triples of compared objects", "why_tests_cant": "Transitivity/irreflexivity quantify over all triples.", "anchors": ["src/TermPredicate.cpp", "src/BigIdeal.cpp: operator<", "src/IdealComparator.cpp"]}
{"id": "C36", "title": "Variable names stay bijective", "statement": "After any history of addVar, projectVar, swap, lookups by name and by index are inverse to each other and adding an existing name is refused.", "quantifier": "all histories of calls", "why_tests_cant": "Quantifies over histories.", "anchors": ["src/VarNames.cpp"]}
{"id": "C37", "title": "Polynomial::sortTermsReverseLex collects terms", "statement": "sortTermsReverseLex(true) sorts the terms strictly by decreasing lexicographic order of the monomials, adds the coefficients of equal monomials and removes zero coefficients, as documented in Polynomial.h.", "quantifier": "all polynomials (lists of coefficients and terms in any number of variables)", "why_tests_cant": "All orders and positions of cancellation; the code forgets a zero sum in last position, which random tests of other positions do not show.", "anchors": ["src/Polynomial.cpp: sortTermsReverseLex", "src/Polynomial.h"]}
{"id": "C38", "title": "The optimization programs of the slice facade are solved exactly", "statement": "SliceFacade::solveStandardProgram and solveIrreducibleDecompositionProgram return whether there is a maximal standard monomial (irreducible component), the maximal value of the functional, and solutions of that value without repetition: at most one, or all of them if reportAllSolutions is set; for every split, with and without simplification, and for every use of the bound.", "quantifier": "all ideals, all functionals, all options and pivots", "why_tests_cant": "Branch-and-bound cuts depend on the order in which solutions are found, on the signs of the functional and on bounds of every intermediate slice.", "anchors": ["src/SliceFacade.cpp: solveProgram", "src/OptimizeStrategy.cpp", "src/TermGrader.cpp"]}
{"id": "C39", "title": "The dimension by the slice algorithm agrees with the dimension by IdealFacade", "statement": "SliceFacade::computeDimension (optimization over the irreducible components of the radical) returns the same dimension and codimension as IdealFacade::computeDimension.", "quantifier": "all ideals, all options and pivots", "why_tests_cant": "Two different algorithms must agree on infinitely many ideals; the exception found is one corner of options and number of variables.", "anchors": ["src/SliceFacade.cpp: computeDimension, takeRadical", "src/IdealFacade.cpp: computeDimension", "src/DimensionAction.cpp"]}
{"id": "C40", "title": "Canonical output depends only on the ideals", "statement": "CanonicalTermConsumer passes on the terms of an ideal, and the ideals of a list, rearranged into an order that, after translation, depends only on which ideals and generators were received and not on the order in which the algorithm found them or on the sorting algorithm.", "quantifier": "all lists of ideals, all translators, all correct sorting functions", "why_tests_cant": "Quantifies over all arrival orders and all sorting algorithms.", "anchors": ["src/CanonicalTermConsumer.cpp", "src/IdealComparator.cpp", "src/TermTranslator.cpp: lessThanReverseLex"]}
{"id": "C41", "title": "The deformation algorithm computes the Hilbert-Poincare numerator", "statement": "hilbert -algorithm deform (deforming the ideal to a generic one, enumerating the faces of its Scarf complex and mapping back) outputs exactly the reduced multigraded or univariate Hilbert-Poincare numerator, the same polynomial as the Bigatti algorithm, and no face has more elements than there are variables.", "quantifier": "all numbers of variables, all lists of generators, strong and weak deformation, all orders of enumeration and deformation", "why_tests_cant": "A wrong deformation only shows for ideals with a special pattern of shared exponents and redundant generators; no finite sample of ideals covers this.", "anchors": ["src/ScarfFacade.cpp", "src/ScarfHilbertAlgorithm.cpp", "src/Deformer.cpp", "src/IdealTree.cpp"]}
{"id": "C42", "title": "Orders of generators are stable sorts by the first order that decides", "statement": "Every ideal order that can be named on the command line permutes the generators; a combination a_b_c sorts by a, then b, then c and is stable; the prefix rev flips the order without reversing ties; with lex among the orders the result does not depend on the order of the input; the names are understood as documented.", "quantifier": "all lists of orders, all ideals, all shuffles for random", "why_tests_cant": "There are infinitely many combinations of orders and ideals.", "anchors": ["src/IdealOrderer.cpp", "src/NameFactory.h"]}
{"id": "C43", "title": "Polynomials and computed ideals are read as they were written", "statement": "In every format for polynomials (Macaulay 2, CoCoA 4, Singular, 4ti2), a polynomial that frobby writes and reads back has the same variables, the same terms in the same order and so the same coefficients; this holds for the writer that gets a whole polynomial and for the writer that gets terms with a translator while they are computed. The same holds for ideals that are written while they are computed.", "quantifier": "all formats, all lists of distinct allowed names, all lists of terms with arbitrary integer coefficients and exponents", "why_tests_cant": "There are infinitely many polynomials; signs, coefficients one and minus one, constant terms, exponents zero and one, and the zero polynomial interact differently in each format and for each of the two writers.", "anchors": ["src/IOHandlerImpl.cpp", "src/CoCoA4IOHandler.cpp", "src/Macaulay2IOHandler.cpp", "src/SingularIOHandler.cpp", "src/Fourti2IOHandler.cpp", "src/PolyWriter.cpp", "src/IdealWriter.cpp", "src/TermTranslator.cpp"]}
{"id": "C44", "title": "What is read is what the text means", "statement": "If a text is accepted as an ideal in one of the six input formats then it is a text of the grammar of that format, and the names of the variables, the number of generators and every generator are those that the text denotes: each generator is the product of all the powers that are written, exponents being decimal numbers. Names are valid and different, each generator has one exponent per variable, nothing follows the ideal, and what was read can be written in any other format and is then read as the same ideal.", "quantifier": "for all texts and all formats", "why_tests_cant": "There are infinitely many malformed texts; a reader that accepts one of them silently computes with a different ideal.", "anchors": ["src/InputConsumer.cpp:50-216", "src/Scanner.cpp:46-272", "src/Macaulay2IOHandler.cpp:169-238", "src/CoCoA4IOHandler.cpp:182-247", "src/SingularIOHandler.cpp:145-231", "src/MonosIOHandler.cpp:95-128", "src/NewMonosIOHandler.cpp:96-142", "src/Fourti2IOHandler.cpp:195-398"]}
{"id": "C45", "title": "The structured ideals that are generated are the documented ones", "statement": "genideal with type list gives the products of two consecutive variables; king and knight give the products of two squares of a chess board that are a move apart, with variables named by their squares; tree gives the power n + 1 - k of every product of k > 0 variables; rook gives the products over the inclusion-maximal placements of rooks that do not attack each other; matching gives the products over the maximum matchings of a clique. Each generator appears exactly once, the generators of the first four are minimal, and the searches stop.", "quantifier": "for all numbers of variables, rows, columns and nodes that are accepted", "why_tests_cant": "The searches backtrack with state that is changed in place; a missed or repeated placement shows only for certain sizes, and the number of generators grows faster than any test can enumerate.", "anchors": ["src/randomDataGenerators.cpp:31-390"]}
{"id": "C46", "title": "Random data are as requested whatever the random numbers", "statement": "A random ideal has no generator that divides another, exponents within the range, at most the requested number of generators, and its return value is true exactly if the number was reached; at most 4000000 candidates are tried. A random edge ideal consists of different products of two different variables under the same conditions. A random Frobenius instance is sorted, has the requested number of positive entries of at most the requested size, and they have no common divisor.", "quantifier": "for all sequences of random numbers and all parameters", "why_tests_cant": "The random numbers differ in each run; the sequences that break the limit on the number of tries or leave a common divisor need not turn up.", "anchors": ["src/randomDataGenerators.cpp:392-490", "src/Ideal.cpp:48-55"]}
{"id": "C47", "title": "The Euler characteristic is the Euler characteristic", "statement": "Whatever number the euler action prints is the reduced Euler characteristic of the simplicial complex whose dual Stanley-Reisner ideal is the input, or with swap01 of the complex with the given facets, whatever pivot strategy, simplifications and transposing are chosen and whatever the random choices. The computation stops within a bound that depends on the numbers of variables and generators only, and never reads outside of an array or divides by zero.", "quantifier": "for all square free ideals, options and random choices", "why_tests_cant": "There are thousands of combinations of strategies and simplifications, each a different recursion; a wrong simplification shows only for ideals that reach it in a state with the right counts, and a recursion that does not stop cannot be told from a slow one.", "anchors": ["src/PivotEulerAlg.cpp:41-309", "src/EulerState.cpp:42-246", "src/PivotStrategy.cpp:32-961", "src/EulerAction.cpp:178-241", "src/RawSquareFreeIdeal.cpp"]}
{"id": "C48", "title": "Packed square free terms behave as sets of variables", "statement": "A square free term is stored as an array of words with one bit for each variable and zeros after the last variable. Every function of SquareFreeTermOps, given arrays that hold terms of the same number of variables, at least one, stays inside of the arrays, returns what its name and documentation say about the sets of variables, and leaves arrays that again hold terms; this includes renumbering the variables in compact when the result is written over the input.", "quantifier": "for all numbers of variables and all terms", "why_tests_cant": "The loops treat the last word differently, so an error shows only for particular numbers of variables modulo the word size together with particular bits near the end of a word; there are 2^n terms for n variables.", "anchors": ["src/RawSquareFreeTerm.cpp:51-430", "src/RawSquareFreeTerm.h:25-200"]}
{"id": "C49", "title": "Square free ideals in packed memory behave as lists of sets", "statement": "An object of class RawSquareFreeIdeal whose memory holds a list of square free terms behaves as that list. Inserting, minimizing, colon ideals with and without minimizing, removing variables, transposing, complementing and removing generators never touch words outside of the buffer, provided that the buffer has the size that is asked for, and leave an object that holds the documented list of terms; the functions that look for generators, count, compare and compute lcms and gcds return the documented values.", "quantifier": "for all numbers of variables, all ideals and all contents of the memory that is not in use", "why_tests_cant": "All functions work in place on a single array in which the distance between terms changes. An error needs a combination of number of variables modulo the word size, number of generators modulo 15 and order of generators, and reading stale words gives the right answer when these happen to be zero.", "anchors": ["src/RawSquareFreeIdeal.cpp:38-795", "src/RawSquareFreeIdeal.h:25-370"]}
{"id": "C50", "title": "The transform action does what its options say", "statement": "The action transform applies its options one after the other in a fixed order. Each option does to every ideal what its documentation says: radical gives the radical, minimize the minimal generators of the same ideal, deform a generic deformation, addPurePowers the missing pure powers with exponent one above the largest, projectVar and trimVariables remove the right variables, product multiplies the generators, transpose exchanges variables and generators, swap01 exchanges exponents 0 and 1, sort and unique order the generators and remove duplicates. The output with canon depends only on the ideals and not on the order of variables, generators and ideals. The action does not access exponents that do not exist, and its output is read back as its result.", "quantifier": "for all lists of ideals in a common ring, all combinations of options and all formats; for single parts also for ideals in different rings", "why_tests_cant": "There are 2^11 combinations of options and infinitely many inputs; that the output is canonical is a statement about all pairs of inputs that describe the same ideals.", "anchors": ["src/TransformAction.cpp:125-229", "src/IdealFacade.cpp:37-227", "src/BigIdeal.cpp:60-303", "src/VarSorter.cpp:40-61"]}
{"id": "C51", "title": "The analyze action prints the truth about the ideal", "statement": "For every input that is read without an error, the action analyze prints the least common multiple of the generators, the number of variables, the number of generators, the largest exponent, whether the ideal is minimally generated, and whether it is strongly and weakly generic, each exactly when asked for, and every answer is right for the ideal that was read. It does not access data that does not exist. An ideal that comes from a generic deformation is strongly generic.", "quantifier": "for all texts in all formats and all combinations of options", "why_tests_cant": "Genericity is a statement about all pairs of minimal generators, checked by the code on exponents that were replaced by small identifiers and on a list that the first test sorts in place; no list of sample ideals shows that the answer is the same as for the true exponents.", "anchors": ["src/AnalyzeAction.cpp:30-218", "src/IdealFacade.cpp:253-275", "src/Ideal.cpp:106-140"]}
{"id": "C52", "title": "The linear algebra in Matrix is right", "statement": "For all matrices of rational numbers of any size: rowReduce gives a row echelon form, rowReduceFully gives the unique reduced row echelon form, matrixRank the rank, determinant the determinant, inverse the inverse if there is one, nullSpace a basis of the null space that consists of primitive integer vectors, solve a solution of the linear system exactly if there is one, hasSameColSpace and hasSameRowSpace compare the spaces, isParallelogram recognizes parallelograms in any order of the vertices and getParallelogramAreaSq gives the square of the area. No function reads outside of a matrix.", "quantifier": "for all matrices of all sizes over the rational numbers, including empty ones", "why_tests_cant": "The result depends on the pattern of pivots, zero columns and row exchanges, of which there are exponentially many; that there is no solution, or that a basis is complete, is a statement about all vectors.", "anchors": ["src/Matrix.cpp:31-54", "src/Matrix.cpp:116-486", "src/Matrix.h:47-54"]}
{"id": "C53", "title": "From input text to output text, the actions on monomial ideals print the right answer", "statement": "If the input of irrdecom, maxstandard, assoprimes, alexdual or primdecom is a text of an ideal, then what the action prints is read back by frobby as the irreducible decomposition, the maximal standard monomials, the associated primes, the Alexander dual (with respect to the point of the input, if there is one) or a primary decomposition of that ideal with one ideal for each associated prime, in the same ring and in any input and output format, whatever the choices of the slice algorithm. With -canon the text depends on nothing but the ring and the ideal. Texts that are not ideals, splits that the action does not have and formats without lists end with an error.", "quantifier": "for all input texts, input and output formats, options of the slice algorithm, values of -canon, -minimal, -increment and -encode, and all random choices", "why_tests_cant": "Each option, format and order of the variables has its own path through reading, sorting, translation of exponents, the algorithm, sorting and writing; the tests compare a few of the combinations for a few ideals.", "anchors": ["src/IrreducibleDecomAction.cpp:50-58", "src/MaximalStandardAction.cpp:54-62", "src/AssociatedPrimesAction.cpp:45-50", "src/AlexanderDualAction.cpp:48-74", "src/PrimaryDecomAction.cpp:43-48", "src/CommonParamsHelper.cpp:54-203", "src/SliceFacade.cpp:50-284"]}
{"id": "C54", "title": "From input text to output text, hilbert prints the numerator of the Hilbert-Poincaré series", "statement": "If the input of hilbert is a text of an ideal, then what is printed is read back by frobby as the numerator of the multigraded Hilbert-Poincaré series of that ideal: the sum of the coefficients of the terms that divide a monomial is 0 for the monomials in the ideal and 1 for all others. With -univariate it is the polynomial in t that counts the monomials of each degree outside the ideal. This is so for the algorithms bigatti, slice and deform, all their strategies and all formats of input and output. With -canon the text depends on nothing but the ring and the ideal. Texts that are not ideals, unknown algorithms and strategies and formats without polynomials end with an error.", "quantifier": "for all input texts, input and output formats, algorithms, options of the algorithms, values of -univariate, -canon and -minimal, random choices and orders of hash tables", "why_tests_cant": "Each algorithm has its own way of collecting, translating and sorting the terms, and each option and each ideal takes a different path; the tests compare a few combinations on a few ideals.", "anchors": ["src/HilbertAction.cpp:64-90", "src/BigattiFacade.cpp:38-64", "src/SliceFacade.cpp:78-107", "src/ScarfFacade.cpp:44-74", "src/CommonParamsHelper.cpp:85-203", "src/HashPolynomial.cpp:76-115", "src/UniHashPolynomial.cpp:64-108"]}
{"id": "C55", "title": "From input text to output text, dimension prints the dimension", "statement": "If the input of the action dimension is a text of an ideal in the format given, or in any format if none is given, then the number printed is the Krull dimension of the quotient by that ideal: the largest number of variables such that every monomial of the ideal has a variable outside of them, and -1 for the whole ring. With -codim it is the number of variables minus the dimension. The Slice Algorithm (-useSlice) prints the same number. A text that can be read in some format is recognised as this format, so that guessing the format never changes the result. Other texts end with an error.", "quantifier": "for all input texts, formats, values of -codim, -squareFreeAndMinimal and -useSlice and random choices", "why_tests_cant": "The tests run a few files; that the guess of the format agrees with the reader on every text, and that the two algorithms agree on every ideal, are statements about infinitely many texts.", "anchors": ["src/DimensionAction.cpp:75-99", "src/IdealFacade.cpp:82-118", "src/SliceFacade.cpp:114-148", "src/IOHandler.cpp:198-228", "src/IOParameters.cpp:137-148"]}
{"id": "C56", "title": "From input text to output text, optimize prints the optimal value and solutions that reach it", "statement": "If the input of optimize is a text of an ideal, followed by a vector or not (then the vector is all ones), then the number printed is the largest (with -minValue the least) value of the vector on the encodings of the irreducible components, or with -maxStandard on the maximal standard monomials, of the ideal; \"no solution.\" is printed if there is none. With -displayLevel 1 one of the monomials with this value is printed before it, and with -displayLevel 2 all of them. With -chopFirstAndSubtract the first variable is set to 1 in the ideal and the first entry of the vector is subtracted from the value. The options -bound and -boundSimplify change nothing of this. Texts that are not an ideal and a vector of the right length, and unknown split strategies, end with an error.", "quantifier": "for all input texts, input and output formats, all options of the action and all random choices", "why_tests_cant": "The value is the optimum over a set that the program never computes in full; the tests compare it for a few ideals and vectors, mostly without -canon and -minimal.", "anchors": ["src/OptimizeAction.cpp:104-178", "src/SliceFacade.cpp:325-427", "src/IOFacade.cpp:255-264", "src/BigIdeal.cpp:233-251", "src/SliceParams.cpp:49-59"]}
{"id": "C57", "title": "frobgrob and frobdyn print the Frobenius number of the numbers in the input text", "statement": "frobdyn accepts exactly the texts of integers greater than one without a common divisor, and prints their Frobenius number, the greatest integer that is not a sum of them. frobgrob accepts exactly the texts of a matrix whose first entries are not positive, followed by such integers, one for each column. If the matrix is a Groebner basis of the homogeneous binomials of degree zero in the reverse lexicographic order, it prints the same number for every split strategy and every state of the random numbers, and with -vector it prints before it a vector (-1, u) with nonnegative u whose scalar product with the numbers is the Frobenius number. Every other text is an error. What genfrob writes is read back.", "quantifier": "all texts, all options, all numbers and Groebner bases, all choices of pivots", "why_tests_cant": "The answer of frobgrob rests on Groebner basis theory, on a branch and bound search with bounds, and on the reading of signs, and tests compare the two programs for a handful of instances.", "anchors": ["src/FrobeniusAction.cpp:61-104", "src/DynamicFrobeniusAction.cpp:41-55", "src/IOFacade.cpp:274-315", "src/IOHandler.cpp:160-196", "src/fourti2.cpp:26-61"]}
{"id": "C58", "title": "The euler action prints the Euler characteristic for each text", "statement": "The action euler, from the input text to the printed text: whatever number is printed is the Euler characteristic of the simplicial complex of the ideal that the text denotes (the facet complex if -swap01 is on), all exponents of which are at most one. With the default options the number is printed for every square free ideal written in any format and every other ideal is reported as an error. An error is reported exactly if the text is not that of a square free ideal or an option is not known.", "quantifier": "all options, pivot strategies, random numbers, input formats and input texts", "why_tests_cant": "A test covers a few complexes and strategies; the claim joins the square free reader, the inversion of exponents, the choice of strategies and the divide and conquer algorithm for every text.", "anchors": ["src/EulerAction.cpp:178-241", "src/InputConsumer.cpp:50-57", "src/InputConsumer.cpp:103-136", "src/IOFacade.cpp:115-130"]}
{"id": "C59", "title": "The readers of lists of ideals are sound", "statement": "Whatever the text, if it is read as a list of ideals in one of the formats then the text means that list: each ideal is written with its ring or is in the ring of the ideal before it, no ideal is lost, nothing is ignored, and the ring that is returned is the last one. The names are allowed and different from each other. What was read can be written in every format and is then read as the same list. A text that is read as one ideal is read as the list of that ideal.", "quantifier": "all formats and all input texts", "why_tests_cant": "The set of texts is infinite; tests only show that some texts are read correctly, not that no text is read as something that it does not mean.", "anchors": ["src/IOHandlerCommon.cpp:57-72", "src/NewMonosIOHandler.cpp:101-113", "src/Fourti2IOHandler.cpp:205-232", "src/IOFacade.cpp:132-154"]}
{"id": "C60", "title": "The intersection action prints the intersection for each text", "statement": "The action intersection, from the input text to the printed text: for each text that is read as a list of ideals the minimal generators of their intersection are printed, in the ring with all the variables, and the entire ring is printed if there are no ideals. Every other text is an error, and there is no other outcome. What is printed can be read again. With -canon what is printed depends only on the intersection and the set of variables.", "quantifier": "all input texts, formats of the input and the output, and settings of -canon", "why_tests_cant": "Tests intersect a few lists of ideals; the claim joins the readers of lists, the union of rings, the minimization and the writers for every text.", "anchors": ["src/IntersectionAction.cpp:53-78", "src/IntersectFacade.cpp:34-69"]}
{"id": "C61", "title": "The command line sets exactly what it names", "statement": "For each action and each list of tokens after its name: if the tokens are options that stand for parameters of the action (the name, or a beginning of it and of no other name), each with arguments that are right for it, then parsing succeeds and each parameter has the value of the last option that stands for it, or its default. Every other command line is reported as an error, and there is no internal error. There is only one way to read a command line. The action is the one that the first token stands for.", "quantifier": "all lists of tokens, and all 21 actions with their parameters", "why_tests_cant": "Tests give a few command lines; the claim is about each list of tokens, about each abbreviation of each name, and about each text of an integer.", "anchors": ["src/CliParams.cpp:50-140", "src/Action.cpp:65-151", "src/main.cpp:35-49", "src/IntegerParameter.cpp:40-66", "src/BoolParameter.cpp:41-66", "src/NameFactory.h:158-185"]}
{"id": "C62", "title": "The program does what the command line asks for, on the input as a whole", "statement": "For each command line and each input text: the action is the one that the first token stands for, it runs with the value of each option that the command line gives it or with the default, the input is read in the format that -iformat stands for (or the one it is guessed to be in), and the output is written in the format that -oformat stands for (or in that of the input). So the output of the program is what C50, C51, C53 to C60, C63 and C64 say about that action, options and formats. A token that stands for no action, wrong options and an input format that is not known are reported as errors.", "quantifier": "all lists of tokens, all input texts, all random numbers and hash tables; 18 of the 21 actions", "why_tests_cant": "The tests run a few command lines on a few files; the claim is about each command line with each input.", "anchors": ["src/main.cpp:35-49", "src/Action.cpp:109-151", "src/IOHandler.cpp:129-154", "src/CommonParamsHelper.cpp:54-95", "src/IOParameters.cpp:113-183", "src/Scanner.cpp:37-38"]}
{"id": "C63", "title": "What is read as a polynomial is what the text means, and ptransform prints the same polynomial", "statement": "Whatever the input text: if it is accepted as a polynomial in one of the four formats of polynomials, then the text means that polynomial according to the grammar of the format, the names of the variables are allowed and different, and each term has one exponent for each variable. For each such text, ptransform prints a polynomial with the same terms in the same variables; without options it is the same polynomial, with -sort the terms are in decreasing lexicographic order, with -canon the variables are in order too, and two texts whose polynomials only differ in the order of the variables and of the terms print the same. What is printed can be read back. A text that is not accepted is reported as an error.", "quantifier": "all input texts, all formats of input and output, both options", "why_tests_cant": "The reader is tested on a few dozen texts; the claim is that no text at all is misread, and that the printed polynomial is right for every polynomial.", "anchors": ["src/IOHandlerCommon.cpp:74-79", "src/IOHandlerImpl.cpp:228-292", "src/CoCoA4IOHandler.cpp:356-435", "src/Fourti2IOHandler.cpp:234-281", "src/PolyTransformAction.cpp:55-74", "src/BigPolynomial.cpp:46-55", "src/BigPolynomial.cpp:151-157"]}
{"id": "C64", "title": "What genideal and genfrob print is what was asked for, and it can be read again", "statement": "For each type of ideal, each number of variables and generators, each range of exponents, each format and whatever the random numbers: genideal prints the text of an ideal in that format, reading it in the format or with the guessed format gives the ideal again, and it is the ideal of the type that was asked for (the path, the moves of a king or a knight, the tree ideal, the rook ideal, the ideal of maximum matchings, or a random ideal with no generator dividing another, at most as many generators as asked for and exponents in the range). Types that are not known and sizes that are not allowed are reported as errors, and nothing else is. genfrob prints as many numbers as asked for, in order, with at most as many digits as allowed, and these are an instance that frobdyn accepts.", "quantifier": "all options, all formats, all sequences of random numbers", "why_tests_cant": "The output is random, so that a test can only look at one sample of it; the claim is about all random numbers and all sizes.", "anchors": ["src/GenerateIdealAction.cpp:63-96", "src/GenerateDataFacade.cpp:27-109", "src/GenerateFrobeniusAction.cpp:51-70", "src/randomDataGenerators.cpp:31-490", "src/IOFacade.cpp:156-166", "src/IOFacade.cpp:303-315"]}
{"id": "C65", "title": "The arena gives out memory that nobody else uses, and gives all of it back once", "statement": "For each sequence of allocations and of frees in stack order or of a buffer with all after it, whatever the sizes and whatever memory new gives: the live buffers do not overlap, are aligned, and are inside of memory that has not been given back, outside of the part that the arena uses itself; freeing never follows a null pointer and never gives something to delete twice; the destructor gives back everything once; an allocation fails only if the size is about 2^63 or new fails; the size of an array does not overflow; blocks at least double; isEmpty says whether there are live buffers; the assertions hold; and the arena can still be used after new has failed.", "quantifier": "all sequences of calls, all sizes below 2^64, all addresses from new", "why_tests_cant": "The errors show only for certain orders of allocations and frees across several blocks, for sizes near the limit of size_t, or if memory runs out.", "anchors": ["src/Arena.h:60-117", "src/Arena.h:146-260", "src/Arena.cpp:26-109"]}
{"id": "C66", "title": "latformat prints the lattice that it is given", "statement": "For each text and both formats of lattices: a text is read as the matrix that it means, and only texts that mean a matrix are read; latformat prints that matrix in the format that is asked for; with -zero it prints a matrix of the same size whose rows generate the same lattice and that has more zero entries; and converting to another format and back gives the matrix again.", "quantifier": "all matrices of integers of any size, all texts, both formats", "why_tests_cant": "A wrong row operation or a misread sign shows only for some matrices; the claim on the lattice is about all integer combinations of the rows.", "anchors": ["src/LatticeFormatAction.cpp:61-86", "src/lattice.cpp:22-57", "src/fourti2.cpp:63-92", "src/fplllIO.cpp:26-74", "src/IOFacade.cpp:318-356"]}
{"id": "C67", "title": "The formats count and null", "statement": "With -oformat count the program prints, for each ideal or polynomial that it prints in other formats, one line with the number of its terms: the number of maximal standard monomials, of associated primes, of encoded irreducible components, of generators of the Alexander dual or of the intersection, of terms of the numerator of the Hilbert-Poincare series, of optimal solutions. With -oformat null it prints nothing where it prints ideals or polynomials in other formats, and reports an error exactly when it does with other formats. With -iformat null the input is ignored, and the program does what it does for the ideal without generators in the ring without variables.", "quantifier": "all command lines, all input texts that the action accepts (for null: all input texts), all options, all random numbers and hash tables", "why_tests_cant": "The number printed is a count of an infinite family of objects per input, and a consumer that counts a term twice or does not start again for the next ideal shows only for some orders of calls.", "anchors": ["src/CountingIOHandler.cpp:37-124", "src/NullIOHandler.cpp:36-86", "src/NullTermConsumer.cpp:20-46", "src/NullCoefTermConsumer.h:24-43", "src/Scanner.cpp:77-85"]}
{"id": "C68", "title": "Messages are broken into lines and columns are aligned", "statement": "display prints each line of a message as one or more lines that start with the prefix and the indentation of the line: no line is longer than 79 characters unless it has only one word, no word is torn apart, no word is lost or moved, a line is ended only where the next word does not fit, and a message whose lines fit is printed as it is. ColumnPrinter prints row i with the i-th lines of the columns, each filled up to the longest line of its column, so that all rows have the same length.", "quantifier": "all messages, prefixes and columns without characters of value zero", "why_tests_cant": "Whether a break happens depends on the lengths of all words and gaps before it; there are infinitely many messages, and the cases of indented lines, blank lines and overlong words interact.", "anchors": ["src/display.cpp:25-133", "src/ColumnPrinter.cpp:23-132"]}
{"id": "C69", "title": "The help tells what the program accepts", "statement": "help ACTION lists the options that the action accepts, each once and in the order of their names, with the kind of the argument and the default; giving any listed options with the printed defaults is the same as giving none. help without a topic, and the program without arguments, lists the actions with their descriptions in the order of their names. help io lists for each format what it can read and write, which is what the actions ask for. A topic that stands for nothing is reported as an error.", "quantifier": "all actions, all topics, all descriptions, all lists of listed options, all inputs", "why_tests_cant": "The lists are computed from the same tables as the parser uses, but by other code; that each printed default can be given back, for any choice of options, is a statement about all command lines.", "anchors": ["src/HelpAction.cpp:30-201", "src/BoolParameter.cpp:27-36", "src/IntegerParameter.cpp:30-38", "src/StringParameter.cpp:27-33", "src/DataType.cpp:45-71"]}
{"id": "C70", "title": "The readers accept exactly the texts of the grammars", "statement": "A text is accepted as an ideal in one of the six formats exactly if it belongs to the grammar of that format, and the ideal that is read is then the one that the text means; the same holds for lists of ideals and, in the four formats that have them, for polynomials. In particular no text has two meanings, blanks and line breaks between the parts of a text never matter, and no text of the grammar is rejected however long it is.", "quantifier": "all texts and all formats", "why_tests_cant": "The readers decide what to do by looking at the next character; that this never leads into a dead end for a text of the grammar, with any blanks in any places, is a statement about infinitely many texts.", "anchors": ["src/InputConsumer.cpp:50-216", "src/Scanner.cpp:46-272", "src/IOHandlerCommon.cpp:57-72", "src/Macaulay2IOHandler.cpp:169-238", "src/CoCoA4IOHandler.cpp:182-247", "src/SingularIOHandler.cpp:145-231", "src/MonosIOHandler.cpp:95-128", "src/NewMonosIOHandler.cpp:96-142", "src/Fourti2IOHandler.cpp:195-398", "src/IOHandlerImpl.cpp:228-293"]}
{"id": "C71", "title": "Saturated binomial ideals: bodies, edges, cycles, genericity and text", "statement": "For a list of integer vectors (the binomials of a lattice ideal): the tests for point-free bodies, dominated generators, zero entries, interior and terminating edges say what their definitions say; the count of double triangles is the number of such pairs; removing the generators with (without) a zero first entry leaves exactly the others; validate always ends and finds exactly the cycles of the graph of edges that do not terminate and the generators with a wrong number of edges; isGeneric is true exactly if no vector has a zero entry and the initial ideal is weakly generic; the reader accepts exactly the texts of the format.", "quantifier": "all lists of integer vectors of any length, all texts", "why_tests_cant": "A search for cycles with colors can miss a cycle, report a false one, or not end, depending on the shape of the graph and the order of the generators; the definitions quantify over all pairs of generators.", "anchors": ["src/SatBinomIdeal.cpp:95-127", "src/SatBinomIdeal.cpp:140-350", "src/SatBinomIdeal.h:60-121", "src/Fourti2IOHandler.cpp:283-292", "src/Fourti2IOHandler.cpp:400-425"]}
{"id": "C72", "title": "Terms are values, and the pools of their memory neither lose nor share an array", "statement": "Whatever sequence of constructions, copies, assignments, resets, swaps, writes and destructions a program performs on objects of class Term, and wherever memory runs out on the way: each object reads as what the operations on that object say (no two objects share an array, and an array taken from a pool does not show what was left in it), no operation deletes an array twice, uses a released one or writes through a null pointer, an operation that throws has no effect, every allocated array belongs to an object or is in a pool, a pool never has more than 1000 arrays, and when all objects are gone the pools delete every array exactly once. In a debug build no assertion stops the program.", "quantifier": "for all sequences of legal operations on any number of Term objects with any numbers of variables, with memory failing at any allocation, in debug and release builds", "why_tests_cant": "tests run a few sequences of operations; sharing or losing an array depends on the history of the pools, which is unbounded, and failures of memory are not tested at all", "anchors": ["src/Term.cpp:24-108", "src/Term.h:51-149", "src/Term.h:543-595"]}
{"id": "C73", "title": "The algorithm for Euler characteristics stays inside its arrays", "statement": "On every ideal whose generators do not divide each other the algorithm for Euler characteristics, run on the arrays of words that the code uses, never reads or writes outside of an array and gives the same result as on sets, whatever newly allocated memory holds: each state has the room for its ideal and for the transpose of it, the shared term of the simplifications has the room for every state, and every split leaves a variable so that no state of no variables is ever looked at. The euler action, from the ideal that was read to the number that it prints, is therefore the one of C47, and with default options it prints the Euler characteristic.", "quantifier": "for all square free ideals with any numbers of variables and generators, all contents of new memory, all strategies, all options and all sequences of random numbers", "why_tests_cant": "an access outside of an array or the use of a word that was never written often has no visible effect in a test; both depend on the numbers of variables and generators of all states of a run, which transposition exchanges and compaction shrinks", "anchors": ["src/EulerState.cpp:24-246", "src/PivotEulerAlg.cpp:24-316", "src/PivotStrategy.cpp:24-768", "src/EulerAction.cpp:203-241"]}
{"id": "C74", "title": "Ideals are packed into words while they are read without changing them", "statement": "While an ideal is read its generators are packed into words, in an array that is replaced by a larger one when it is full, until the first exponent other than 0 and 1 moves all of them to an ideal with big exponents. Whatever new memory holds, the ideal that is read, or the error that is reported, is the same as if lists of exponents had been read (C44, C70), nothing is read or written outside of an array, and the packed ideal that readSquareFreeIdeal gives holds the supports of the generators in an array that is large enough. The only other end is an array of 2^64 bytes or more, of about twice as many generators as the text has, which cannot be for a text of less than 2^30 characters. Hence the euler action on words, from the text to the number it prints, does what C58 says.", "quantifier": "for all texts, all formats, all contents of new memory, all options and all sequences of random numbers", "why_tests_cant": "the array is replaced at 16, 32, 64, ... generators and the move to big exponents can come at any exponent of any generator, for any number of variables around multiples of 64; a test sees a few of the combinations and no access outside of an array", "anchors": ["src/InputConsumer.cpp:24-254", "src/SquareFreeIdeal.cpp:24-104", "src/BigIdeal.cpp:83-110", "src/RawSquareFreeIdeal.cpp:60-180"]}
{"id": "C75", "title": "What is read from the bytes of a file is what is in the file", "statement": "A scanner reads a file through a buffer and keeps numbers and names in an array that grows. Whatever the size of the buffer and wherever its parts end, no access is outside of an array, no char is used that was not written, no loop is endless, and every reader gets what it would get from the text of the whole file: in particular an ideal in any of the six formats, or in the format that is found from the first character, is the one the text means (C44, C70). If there is an error, it is reported with the number of the line where it is. A file that cannot be read to its end is not accepted.", "quantifier": "for all sequences of bytes, all sizes of the buffer, all readers that ask for ASCII characters, all six formats", "why_tests_cant": "a token can be cut by the end of the buffer at any place and can be as long as it likes; the value of a char that is 128 or more depends on the sign of char; a test cannot make fread fail at every place", "anchors": ["src/Scanner.cpp:28-316", "src/Scanner.h:137-283", "src/IOHandler.cpp:198-228", "src/IOFacade.cpp:98-130"]}
{"id": "C76", "title": "Lists of ideals, polynomials, lattices and instances are read from a file as from its text", "statement": "What the actions read besides single ideals is, whatever the size of the scanner's buffer, what the text of the file means: a list of ideals with changing rings or a ring without ideals, an ideal followed by a point or by a vector, numbers that are a Frobenius instance, a Frobenius instance with its Gröbner basis, a polynomial, a basis of a lattice, and a saturated binomial ideal. If the text means nothing, there is an error, and its line number is one of a line of the file. Nothing undefined happens.", "quantifier": "for all sequences of bytes, all sizes of the buffer, all formats", "why_tests_cant": "the readers look ahead by skipping white space, matching or peeking, and each of these can be where the buffer ends; texts that are not valid are endless in number", "anchors": ["src/IOHandlerCommon.cpp:57-79", "src/NewMonosIOHandler.cpp:101-113", "src/IOFacade.cpp:192-301", "src/IOHandler.cpp:160-196", "src/fourti2.cpp:26-61", "src/IOHandlerImpl.cpp:228-293", "src/CoCoA4IOHandler.cpp:356-435", "src/Fourti2IOHandler.cpp:234-281", "src/Fourti2IOHandler.cpp:205-232", "src/fourti2.cpp:63-78", "src/fplllIO.cpp:26-60", "src/Fourti2IOHandler.cpp:283-292", "src/Fourti2IOHandler.cpp:400-425"]}
{"id": "C77", "title": "The ideals of a program that uses the library are values", "statement": "A program that uses the library may make, copy, assign (also to itself), extend and destroy objects Frobby::Ideal in any order. As long as it uses only objects that live, nothing undefined happens (no memory is used or given back twice), each object has the number of variables and the generators that belong to the exponents added to it and to what it was copied from, no matter what happened to other objects, each part of the memory belongs to exactly one object, and no memory is left when all objects are destroyed. A call that fails since memory ran out changes nothing.", "quantifier": "for all sequences of operations on any number of objects, with memory running out at any of them", "why_tests_cant": "that two objects share memory or that memory is given back twice shows only for particular sequences of copies, assignments and destructions, and that memory runs out cannot be arranged in tests", "anchors": ["src/frobby.cpp:182-238", "src/BigIdeal.cpp:104-110", "src/BigIdeal.h:126-131"]}
{"id": "C78", "title": "The consumers of a program that uses the library see the right numbers through the pointers they get", "statement": "Consumers get arrays of pointers to exponents that belong to the library. Whatever the algorithms output, as terms with a translator or as vectors, what a consumer sees through the pointers during a call is exactly the exponents (and the coefficient) of the output, in order, between the start with the right number of variables and the end; no pointer is used that was not set. When irreducible ideals are output, the consumer sees for each exponent vector the ideal generated by its pure powers, each generator with zeros at all other variables, although all these use one array and one zero.", "quantifier": "for all sequences of calls, all numbers of variables, all places of the numbers in memory", "why_tests_cant": "an entry of the shared array that is not reset or not set shows only for particular sequences of outputs, and pointers that were not set often point to zeros in tests", "anchors": ["src/frobby.cpp:38-150", "src/frobby.cpp:329-373", "src/frobby.h:78-139"]}
{"id": "C79", "title": "The ideals inside the algorithms are values", "statement": "The class Ideal holds pointers to exponent vectors that it changes in place, moves and shares with no other ideal. Whatever sequence of constructions, copies, assignments, swaps, insertions, removals, products, colons and rearrangements the algorithms carry out, with arguments that may point to generators of any ideal, each ideal shows the value that it has when ideals are plain lists of exponent vectors: no operation on one ideal alters another, no pointer is used after the memory is given back, nothing is given back twice, and nothing is left when the ideals are destroyed.", "quantifier": "for all programs of these operations on any number of ideals with any number of variables", "why_tests_cant": "that two ideals share a vector, or that an argument changes while it is used, shows only for particular sequences of operations, and use of freed memory often gives the right result", "anchors": ["src/Ideal.cpp:28-63", "src/Ideal.cpp:455-548", "src/Ideal.cpp:576-687", "src/Term.h:152-209", "src/Term.h:280-288", "src/Term.h:476-488"]}
{"id": "C80", "title": "The texts that a translator keeps are never out of date", "statement": "A TermTranslator makes the texts of all its powers when the first of them is asked for, and keeps pointers to them. Whatever sequence of copies, assignments (also to itself), dualizations, decrements, renamings, swaps of variables and requests is carried out on translators, each text that is asked for is that of the name and the exponent at that time: name^e, only the name for exponent 1, none for exponent 0, and the plain exponent in the other table. No text is used after it is given back, none is given back twice or shared, and none is left when the translators are destroyed.", "quantifier": "for all programs of these operations on any number of translators, all names without the character zero, all exponents", "why_tests_cant": "a text that is out of date shows only when a translator is used for writing, changed, and used for writing again, in each of many orders", "anchors": ["src/TermTranslator.cpp:143-153", "src/TermTranslator.cpp:288-326", "src/TermTranslator.cpp:346-417", "src/TermTranslator.h:125-135"]}
{"id": "C81", "title": "Numbers are appended to texts as their decimal digits", "statement": "The class FrobbyStringStream, with which names of variables, powers and messages are built, appends a number as its decimal digits without leading zeros and leaves the text before it as it is, for each number of its integer types; the scanner reads what was appended as the same number, different numbers give different texts, and the names made for n variables are x1 to xn with none left out as a duplicate.", "quantifier": "for all texts and all numbers of the type", "why_tests_cant": "there are 2^64 numbers; the boundaries of the loop and of the conversion of types matter", "anchors": ["src/FrobbyStringStream.cpp:39-107", "src/VarNames.cpp:28-66"]}
{"id": "C82", "title": "No object is lost or deleted twice when memory runs out", "statement": "Code that keeps objects in containers of pointers deletes each object exactly once, also when an allocation or any other operation throws: exceptionSafePushBack either stores the object or deletes it and leaves the container as it was; ElementDeleter deletes the elements and nothing else; an ObjectCache, a HilbertBasecase and IntersectFacade::intersect leave, after all exceptions and after their destructors, exactly the objects that others own; the same holds for reading ideals (IOFacade::readIdeals, the action intersection) and for slice strategies with their tasks and their caches.", "quantifier": "for all patterns of operations that throw, all sequences of uses, all numbers of steps and all choices of splits", "why_tests_cant": "memory runs out in practice at one of very many places, and a test would have to make each of them fail in each state", "anchors": ["src/ElementDeleter.h:45-146", "src/ObjectCache.h:61-95", "src/HilbertBasecase.cpp:42-188", "src/HilbertBasecase.cpp:275-290", "src/TermTranslator.cpp:54-68", "src/IntersectFacade.cpp:32-70", "src/InputConsumer.cpp:190-254", "src/IOFacade.cpp:132-154", "src/SliceStrategyCommon.cpp:31-111", "src/HilbertStrategy.cpp:36-155", "src/TaskEngine.cpp:27-78"]}
{"id": "C83", "title": "Statistics and debug output change no computation and account for every step", "statement": "The options for statistics and for debug output change neither which slices are processed, nor their order, nor what is sent to the consumer, nor the Euler characteristic that is computed. The report on the Slice Algorithm counts every slice that was processed once, under leaves if it was a base case and under internal nodes otherwise, with the right averages and the right number of slices for each logarithm; the debug output shows every slice; the statistics on Euler characteristics print how many states were processed.", "quantifier": "for all algorithms, all inputs, all combinations of the two options, all lengths of runs and all ways of rounding logarithms", "why_tests_cant": "a test can compare a few runs, and no test compares the report with the slices that were processed; that the options change nothing is a statement about all runs", "anchors": ["src/StatisticsStrategy.cpp:24-155", "src/StatisticsStrategy.h:26-92", "src/DebugStrategy.cpp:22-78", "src/SliceFacade.cpp:467-491", "src/Slice.cpp:321-327", "src/PivotStrategy.cpp:776-877", "src/PivotEulerAlg.cpp:199-309"]}
{"id": "C84", "title": "The pivots of Euler characteristics are the ones that the help describes", "statement": "Each strategy of the options stdPivot and genPivot of the action euler chooses what its description says: popvar and rarevar a variable, or a generator divisible by a variable, that divides a maximum or a minimum number of generators; maxsupp and minsupp a generator of maximum or minimum support; raremax the same as rarevar_maxsupp; rarest a generator divisible by a maximum number of rare variables, with ties broken by the second-most-rare ones and so on; popgcd and widen_X the gcd of the generators described; in A_B the strategy B breaks the ties of A, and a strategy that would eliminate all candidates preserves all of them.", "quantifier": "for all ideals, all counts of variables, all strategies and all combinations of them, and all random numbers", "why_tests_cant": "the Euler characteristic is the same for every pivot, so tests of results cannot see which pivot is chosen; ties and eliminated candidates depend on the whole list of generators", "anchors": ["src/PivotStrategy.cpp:32-50", "src/PivotStrategy.cpp:105-295", "src/PivotStrategy.cpp:310-461", "src/PivotStrategy.cpp:485-557", "src/PivotStrategy.cpp:626-738", "src/EulerAction.cpp:55-114"]}
{"id": "C85", "title": "The split strategies of the Slice Algorithm choose what their comments say", "statement": "The variable of the pivots minimum, median, maximum and gcd is the middle one of the variables that divide the most minimal generators, among those whose square divides one; minimum, median and maximum use its first power, the median of its positive exponents (less one if that is the largest) and the largest exponent less one; gcd and mingen use a gcd of three generators and a generator that is not square free, with the positive exponents less one; maxlabel uses the variable that divides the most minimal generators, varlabel the first variable that is valid for a label split, and minlabel, among the variables with the least number of exponents equal to one, the one that divides the most minimal generators; indep makes two variables independent of each other; degree uses half the exponent in the lcm of the variable whose degree changes the most by that.", "quantifier": "for all ideals, all numbers of variables and all random numbers", "why_tests_cant": "the output of the Slice Algorithm is the same for every split, so tests of results cannot see which one is chosen; ties and medians depend on the whole list of generators", "anchors": ["src/SplitStrategy.cpp:62-72", "src/SplitStrategy.cpp:74-99", "src/SplitStrategy.cpp:103-132", "src/SplitStrategy.cpp:134-200", "src/SplitStrategy.cpp:209-388", "src/SplitStrategy.cpp:404-438"]}
{"id": "C86", "title": "The degrees that the pivots of Bigatti's algorithm depend on are the documented ones", "statement": "getTypicalExponent finds an exponent of a variable that occurs most often and returns how often; getMostNonGenericExponent finds a degree that the largest number of non-generic pairs share and returns that number; getTypicalNonGenericExponent finds a non-generic degree that occurs most often and returns how often; getNonGenericExponent finds a non-generic degree if there is one; if there is none the result is zero. The strategies named gcd use the gcd of the generators with the degree, and those named tight a pivot that divides a generator of each non-generic pair with the degree and that the gcd divides. The strategy median uses the median of the positive exponents of a variable that divides the most generators, and widened pivots are the gcd of the generators that the pivot divides.", "quantifier": "for all lists of distinct generators in any number of variables, and all degrees", "why_tests_cant": "the Hilbert series is the same for every pivot, so tests of results cannot see a wrong degree; the largest count is over all degrees and all pairs", "anchors": ["src/Ideal.h:132-188", "src/Ideal.cpp:177-195", "src/Ideal.cpp:236-422", "src/BigattiPivotStrategy.cpp:34-43", "src/BigattiPivotStrategy.cpp:77-93", "src/BigattiPivotStrategy.cpp:95-168", "src/BigattiPivotStrategy.cpp:376-404"]}
{"id": "C87", "title": "The comparisons of terms are the documented term orders", "statement": "lexCompare tells how two monomials relate in the lexicographic term order where x_1 > ... > x_n, by -1, 0 or 1. reverseLexCompare does so for a term order where x_1 < ... < x_n. equals returns whether the entries are equal.", "quantifier": "for all monomials in any number of variables", "why_tests_cant": "transitivity, totality and being respected by multiplication are about all pairs and triples of monomials", "anchors": ["src/TermPredicate.h:78-93", "src/TermPredicate.h:154-164", "src/TermPredicate.cpp:50-85"]}

# Formal model of Frobby in Lean 4: design

Source: Macaulay2/frobby, pinned commit in `/repo` (C++, read as text only, never built or run).
Everything is checked by Lean 4.33.0's kernel. Mathlib is imported one module at a time.

## Trusted base

* Lean's kernel and the axioms `propext`, `Classical.choice` and `Quot.sound`. Every theorem in `MANIFEST.json` depends on a subset of these three.
  There are no own axioms, no `sorry`, no `native_decide` and no `bv_decide`.
* The reading of the C++ source. Each definition of the model cites the file and the lines that it models.
* The standard library. `std::sort` returns a sorted permutation (where the order of equal elements matters, any such function is allowed).
  `std::vector`, `std::map`, `std::unique` and GMP integers behave as documented. `rand()` is an arbitrary function.
* The statements of the properties. They are written with the definitions in `Spec.lean`, `OptSpec.lean`, `GrammarSpec.lean`, `GenSpec.lean`, `EulerSpec.lean` and in the
  headers of the `Props*.lean` files. These do not use functions of the model.

## Layout

* `*Model.lean`: the model, function by function.
* `*Spec.lean`: specifications, independent of the model.
* `*Lemmas.lean` and the rest: proofs.
* `Props*.lean`: the theorems that `MANIFEST.json` lists, each with an example beside it that meets the hypotheses.
* `seeded/LOG.jsonl`: wrong programs that were tried, and the theorems that failed for them.

## Modelling conventions

* A monomial is its exponent vector `Term n := Fin n → ℕ`. Divisibility is the pointwise order, lcm `⊔`, gcd `⊓`, product `+`, colon `-` (truncated),
  identity `0`.
* `Exponent` is `unsigned int` in the code and `ℕ` in the model. After translation all exponents are identifiers, which are at most the number of
  generators plus one; theorems on the slice algorithms bound every exponent that is formed.
* An `Ideal` is a `List (Term n)`. The order that in-place swaps leave behind is not modelled; the theorems hold for every order.
  The memory behind an `Ideal` is modelled separately (`AllocModel.lean`, C34).
* Mutation becomes returning a new value. Loops become structural recursion or recursion on explicit fuel. Running out of fuel, errors, undefined behaviour
  and accesses out of range are the outcome `none`. The theorems show that enough fuel exists and that `none` does not occur.
* Caches that influence control flow (`Slice::_lcm`, `_lcmUpdated`, `_lowerBoundHint`) are modelled.
* Texts are lists of characters. A `FILE` is a text; that a file of bytes and the buffer of `Scanner` give that text is C75.

## How the main proofs go

* **Slices** (C01–C13, C17, C21–C26). `Kind` is `msm` or `hilbert`. `val` assigns to a slice the coefficients it stands for (`cval` to a list of outputs).
  Every step (simplification, pivot split, label split, independence split, base case) preserves `val`, and so the whole run gives `val` of the first slice.
  The order-theoretic content of `val` is worked out once, in `Val.lean`, `MsmBase.lean` and `HilbertBase.lean`.
* **Termination.** A measure decreases with every split (`Run.lean`); the task machine (`TaskModel.lean`) is shown to run through the same slices as the
  recursion, with its consumers as allocated objects.
* **Translation.** `TermTranslator` is an order embedding of identifiers into exponents, `floorId` its adjoint. Components, duals and standard monomials are
  transported along it.
* **Optimization** (C15, C38). Pruning keeps one optimal element, because the bound is at least the value of everything in the slice.
* **Dimension** (C14, C39). Invariant of the branch and bound in `SizeMaxIndepSetAlg`.
* **Bigatti and Scarf** (C29, C41). The numerator is additive along pivot splits. For Scarf the numerator of the generic deformation is that of its Scarf complex,
  and undoing the deformation preserves it.
* **Frobenius** (C31). Compared with Mathlib's `FrobeniusNumber`.
* **Texts** (C32, C43, C44). Writers and readers for all formats. C32 and C43 are round trips. C44 goes the other way: whatever is accepted is derived by a grammar.
* **Generators of data** (C45, C46). The backtracking loops are related to recursive enumerations, and those to sets of placements and matchings.

* **Euler characteristic** (C47). `eSum` is an alternating sum over subsets of the generators. It is expanded along a variable, a generator or a term for the
  splits and simplifications, and counted by generators and by variables for transposing. The size of a state decreases with every split.

* **Packed terms** (C48, C49). `WordModel.lean` has the functions of `RawSquareFreeTerm` on arrays of 64 bit words, with accesses outside of an array as an
  outcome of its own. `Packs` says which set of variables an array holds. `RsfModel.lean` has the functions of `RawSquareFreeIdeal` on one array of words with
  the members of the class; `Holds` says which list of sets an object holds. `C49_refines` connects this with the model on sets that C47 uses.

* **Transform** (C50). A generator is a function from names to exponents in the specification. Each option is a relation between ideals; the main theorem chains
  them. For `-canon` every step is shown to respect ideals that differ in the order of variables and generators.

* **Analyze** (C51). Genericity is defined on the minimal elements of a list of functions, for any set of variables. The tests of the code work on
  identifiers of exponents; `minimalIn_iff` and `IdSpec.eq_iff` carry them to exponents.
* **Matrix** (C52). A matrix is a function of row and column into the rational numbers, so it can be compared with Mathlib's determinant, rank, inverse and
  kernel. Every operation on rows is a product with a matrix of known determinant from the left, which gives the row space, the sign and the
  null space. The invariant of the reduction is the list of the columns with a pivot. The reduced form is shown to be the only one with its row space.
* **Actions on monomial ideals** (C53). `prepare` models what `CommonParamsHelper` does with the ideal that was read; `prepare_spec` says that the translated and
  minimized ideal stands for the input in the ring with the printed names. The results about terms (C05, C07 to C11) are then brought to functions of the name of a
  variable, and the result about the writers is that what they print is read back (C42). Two runs with `-canon` are compared through uniqueness of the answers.
* **The action `hilbert`** (C54). `HilbertActionModel` joins the reader, `prepare`, the three algorithms, the hash polynomials and the writers. The specification
  (`HilbertActionSpec`) takes monomials as functions from names to exponents. The numerator is unique, so with sorted variables and terms there is only one text.
* **The action `dimension`** (C55). `DimensionActionModel` joins the reader with the two algorithms. The specification is in terms of sets of names of variables.
  `C55_detect` shows that a text read in some format is detected as this format, from the soundness of the readers (C44).
* **The action `optimize`** (`OptimizeActionModel.lean`, `OptimizeActionSpec.lean`, `OptimizeActionLemmas.lean`, `PropsOptimizeAction.lean`): reading of an ideal and a vector (`IOFacade::readVector`), `BigIdeal::eraseVar(0)`, `OptimizeAction::perform` and `SliceFacade::solveIrreducibleDecompositionProgram`/`solveStandardProgram`/`solveProgram` with their writers, on top of the model of the optimization (C38, C39), of the preparation of the ideal (C53) and of the writers (C43, C44). `IntegerParameter` is a natural number. Not modelled: what `-debug` and `-stats` write to standard error and `-time`.
* **The Frobenius actions on texts** (`FrobActionModel`): `frobgrob` and `frobdyn` from the input text to the output text, with the reader of the 4ti2 format for Gröbner bases and the reader of Frobenius instances, and what `genfrob` writes. Not modelled: how `genfrob` draws its numbers, `-time`.
* **EulerActionModel** models `EulerAction::perform` from the text to the text (EulerAction.cpp:178-241): the square free reader, the choice of strategy, the algorithm of `EulerModel`, and the number that is printed. The fuel and the list of random numbers of `EulerModel` remain parameters; running out of either is `crash`, and `C58_euler_partial` gives an amount of fuel that is enough.
* **ListGrammarSpec** states what a text of a list of ideals means, with the grammars of `GrammarSpec`. It is used for C59 and C60.
* **IntersectionActionModel** models `IntersectionAction::perform` from the text to the text (IntersectionAction.cpp:53-78).
* **CommandModel** models the parameters, their parsing (CliParams.cpp, BoolParameter.cpp, IntegerParameter.cpp, StringParameter.cpp), the table of the 21 actions with the parameters of each, and the lookup of the action (Action.cpp, main.cpp:35-49). A parameter that is asked for but not there is a distinct outcome.
* **CommandSpec** states what a command line means, by options and arguments. It is used for C61.
* **MainModel** models the whole program from the tokens and the input to the output (main.cpp): the values of the options handed to each action, and the choice of the formats (IOHandler.cpp, CommonParamsHelper.cpp, IOParameters.cpp). The actions `latanal` and `test` are not modelled there; they are the outcome `none`. What is written to the standard error is not modelled, apart from what `help` writes (HelpModel).
* **MainSpec** states what the command line asks for. It is used for C62.
* **PolyTransformModel** models the action `ptransform` (PolyTransformAction.cpp, BigPolynomial.cpp, VarSorter.cpp). **PolyGrammarSpec** gives the grammars of the formats of polynomials, and **PolyTransformSpec** the terms of a polynomial without regard to the order of the variables. They are used for C63.
* **GenActionModel** models the actions `genideal` and `genfrob` (GenerateIdealAction.cpp, GenerateFrobeniusAction.cpp, GenerateDataFacade.cpp) on top of GenModel and FrobModel. The random numbers are arbitrary functions. It is used for C64.
* **ArenaModel** models the arena allocator (Arena.h, Arena.cpp), which the computation of Euler characteristics keeps its states in. Addresses are numbers, `new` is an arbitrary function that gives fresh memory or fails. ArenaSpec says what a client does and sees. The templates that run constructors and destructors of elements, and the contents of the buffers, are not modelled. It is used for C65.
* **LatticeModel** models the action `latformat` (LatticeFormatAction.cpp, lattice.cpp, the parts of fourti2.cpp and fplllIO.cpp on lattices). Loops with counters of 32 bits that have no end are crashes. LatticeSpec has the grammars and the lattice as a subgroup. It is used for C66.
* **FormatModel** models the formats `null` and `count` (NullIOHandler.cpp, CountingIOHandler.cpp) and the actions with any of the eight formats. The calls to `CountingConsumer` are modelled one by one for ideals, and as the number of terms for polynomials. It is used for C67 and by MainModel.
* **DisplayModel** models `display` and `ColumnPrinter` (display.cpp, ColumnPrinter.cpp); `display(FrobbyStringStream&)` and `display(string)` are the same function here. What is written is the result, not a file. It is used for C68 and by HelpModel.
* **HelpModel** models the action `help` (HelpAction.cpp): what it writes to the standard error, and in MainModel whether it reports an error. The long descriptions of the actions and of the parameters are arbitrary texts. It is used for C69.
* **GrammarSpec, ListGrammarSpec, PolyGrammarSpec** are the grammars. They are used in both directions for C70: `ReaderCompleteLemmas`, `ReaderCompleteFormats` and `PolyReaderCompleteLemmas` show that each reader follows each text of its grammar.
* **SatBinomModel** (`SatBinomIdeal`, `Fourti2IOHandler::doReadSatBinomIdeal`): the tests on the vectors, the search for cycles with its colors, the removal loops and the reader. Not modelled: `projectVar`, `getMatrix`, `print`. **SatBinomSpec**: bodies by least upper bounds, the graph of the edges, cycles as the transitive closure, and the grammar of the texts.
* **TermPoolModel** (`Term.h`, `Term.cpp`): the arrays of `Term` objects, `allocate`, `deallocate`, the pools, the constructors, assignment, `reset`, `clear`, `swap` and the destructors, with memory errors, assertions and exceptions. **TermPoolSpec**: terms as values, the legal operations and what they mean.
* **EulerWordModel** (`EulerState.cpp`, `PivotEulerAlg.cpp`, `PivotStrategy.cpp`, the end of `EulerAction::perform`): the algorithm of EulerModel on words: each state is a `RawSquareFreeIdeal` (RsfModel) in an array made for both orders of the numbers of variables and generators, and an array of words for the eliminated variables. Every access is checked; new memory holds any words, given as a parameter by round and allocation. The arena that the states are taken from is not modelled: each state has arrays of its own (the arena is the subject of C65).
* **PackedModel** (`InputConsumer.cpp`, `SquareFreeIdeal.cpp`, `BigIdeal::insert(const SquareFreeIdeal&)`, the term and ideal readers of the five formats, `EulerAction::perform`): what IOModel does with lists of exponents, on a `SquareFreeIdeal` over a `RawSquareFreeIdeal` (RsfModel) and two pointers of which one is null. Every access is checked; new memory holds any words, given as a parameter. An array of 2^64 bytes or more is the outcome `badAlloc`. Running out of memory before that is not modelled, nor are exponents that do not fit into memory. The scanner and the names are those of ScanModel and IOModel.
* **ScanBufModel** (`Scanner.cpp`, `Scanner.h`): the scanner on the bytes of a file, with `fread`, `feof` and `ferror`, the buffer, `_char` as a signed `char` in an `int` with -1 for the end, the line number and the array `_tmpString` in which a `char` that was not written is `none`. A reader is a program that asks the scanner (`ScanProg`). Not modelled: the texts of error messages, a line number of 2^32 or more, a `_tmpStringCapacity` that overflows, the format name `null`, running out of memory. `isspace` and the like are those of glibc in the C locale, also for the negative values for which the standard leaves them undefined.
* **FileReaderModel** (`InputConsumer.cpp`, the readers of ideals of the six formats, `autoDetectFormat`): what IOModel has on texts, as programs that ask the scanner. Loops are bounded by the number of characters that are left, as in IOModel.
* **FileReaderMoreModel** (`doReadIdeals`, `doReadPolynomial`, `readAlexanderDualInstance`, `readVector`, `readFrobeniusInstance`, `fourti2::readGrobnerBasis`): the other readers as programs that ask the scanner. Errors that the code reports without a line number (`reportError` instead of `reportSyntaxError`: no columns in a polynomial or a Gröbner basis, a positive first entry of a term of a Gröbner basis, no numbers, a greatest common divisor other than 1) are errors with a line number in the model.
* **FileReaderRestModel** (`Fourti2IOHandler::doReadIdeals`, `fourti2::readLatticeBasis`, `fplll::readLatticeBasis`, `Fourti2IOHandler::doReadSatBinomIdeal`): the remaining readers as programs that ask the scanner. The reader of lists in the format of 4ti2 asks for the end of the file itself when there is only a ring, and the action asks for it again; the program says in a flag whether this is so, and the two questions are asked after it. A reader of lattices whose loops have no end is `none`; where a loop with too many steps ends because no integer is left, the error is that of the first integer that is not there.
* **HandleModel** (`Frobby::Ideal`: constructors, destructor, `operator=`, `addExponent`): objects with pointers to memory; `new` and `delete` on a heap; addresses are not used again. An access to memory that is not there has the distinct outcome `none`. Memory can run out at each `new`, where the vector of generators grows and where a new generator gets its entries. Not modelled: that memory runs out inside GMP (GMP ends the program then), and the parts of the memory of one ideal (its vectors), which are one piece here; a copy of them that fails gives back what it has by the rules of C++.
* **WrapModel** (`ConsumerWrapper`, `ExternalIdealConsumerWrapper`, `ExternalPolynomialConsumerWrapper`, `IrreducibleIdealDecoder`): arrays of addresses of numbers in memory. Not set pointers and accesses out of range have the distinct outcome `none`. The memory at the time of each call is part of the call. The consumer does not alter what it gets, as frobby.h demands. The two wrappers are one definition, in which the address of the coefficient is absent for ideals.
* **ObjectModel** (class `Ideal` with its pointers, C79): objects with lists of addresses, memory from addresses to exponent vectors, loops over pointers as in the code. An argument is a vector elsewhere or a pointer to a generator of some ideal; the loops that change vectors in place read it anew each time. Undefined behaviour (freed memory, vectors that are too short, iterators that are not valid) has the outcome `none`. Simplified: an address stands for a whole vector (that vectors do not overlap is C34, with its exceptions for 513 to 1023 variables), addresses are not used again, exponents have no bounds, sorting and minimizing are any choice and order of the pointers (what they compute is in C18 and C19), `colonReminimize` and `removeIf` are not modelled here. `ObjectSpec` has the same operations on lists, with no addresses. `C79_values_partial` excludes the calls that `ObjectOp.Safe` names; the witnesses show that these do go wrong. No such call was found in /repo.
* **CacheModel** (the texts that `TermTranslator` keeps, C80): tables of pointers to texts in memory, made by `makeStrings` on first use, dropped by `clearStrings`, swapped by `swapVariables`. Use of freed memory, giving back twice and access out of range have the outcome `none`. `strcpy` stops at the character zero. Simplified: addresses are not used again, memory does not run out, the two vectors of vectors are lists, what the constructors compute is in TranslatorModel and IntersectModel (here they give any exponents, one list for each name). `CacheSpec` has no tables: each text is made when it is asked for. `C80_writers` shows that these are the texts with which the models of the writers start.
* **StreamModel** (`FrobbyStringStream::appendIntegerToString`, `operator<<(unsigned long long)`, `VarNames(size_t)`, C81): the loop with words of `w` bits and characters of 8 bits. `operator<<(const mpz_class&)` is GMP's `get_str` and is `decimalInt` as everywhere.
* **OwnModel** (who deletes what, C82): objects are addresses without contents, except the entries of `InputConsumer`. Each operation that may throw asks an arbitrary function `fails` of the number of such operations so far; destructors of local variables are `onThrow` and `inScope`. Deleting or using an object that is not there and using a destroyed container is `stuck`. Simplified: several operations that may throw, with no change of ownership between them, are one; what the algorithms decide (whether a step splits, whether a term is square free) is arbitrary; the loops have a bound on their steps, and `running` says nothing; which addresses are consumers of independence splits is an arbitrary function; the loop of `readIdeals` turns as often as there are entries; the handlers of `delete` and destructors do not throw. The containers are numbered: 0 `_cache` and `_idealCache`, 1 `_todo`, 2 `ideals2`, 3 `InputConsumer::_ideals`, 4 `ideals`, 5 `_sliceCache`, 6 `_consumerCache`, 7 `_tasks`.
* **StatModel** (statistics and debug output, C83): the wrappers around the strategies of the Slice Algorithm and around the pivot strategies. What the wrapped algorithm does with a slice or a state is an arbitrary function, as is the rounded quotient of logarithms. Each task carries the strategy that made it, as `Slice::_strategy` does. Simplified: tasks that are not slices (the end of an independence split) and `freeSlice` are left out; the text of slices and states is left out; averages are the pairs of numbers that are divided; loops have a bound on their steps, and `none` says nothing; the count of transposes is left out.
* **PivotChoiceSpec** (choice of pivots, C84): what the help says about pivots, about the model of the pivot strategies in **EulerModel**. A rare variable is one that divides a minimum number of generators among those that divide any, as the help does not say but means. The filters keep the order of the code, with its swaps.
* **SplitChoiceSpec** (choice of splits, C85): what the comments of SplitStrategy.cpp say, about the model of the split strategies in **StrategyModel**. **SplitChoiceModel** adds the loops of `IndependencePivotSplit` with their flag. A variable with the least number of exponents equal to one is meant among those that have one, as others are not valid for a label split; `C85_minlabel_witness` does not depend on that, as all variables there have one.
* **DegreeChoiceSpec** (degrees of pivots, C86): the documentation of Ideal.h, about the model of Bigatti's algorithm in **BigattiModel**. Pairs are pairs of distinct generators, counted twice and halved. The product `span * (span + 1)` of the code is one of natural numbers in the model: there are fewer than 2^32 generators in memory.
* **TermOrderModel** (term orders, C87): `equals`, and what a term order is, about the model of the comparisons in **OrderModel**.

## Properties and files

| id | modelled | theorems in |
|----|----------|-------------|
| C01–C11 | frobby.cpp, SliceFacade, MsmStrategy, Slice, MsmSlice, SplitStrategy, TermTranslator | PropsApi |
| C12, C13 | HilbertStrategy, HilbertSlice, HilbertBasecase, HilbertIndependenceConsumer | PropsHilbert |
| C14, C39 | SizeMaxIndepSetAlg, IdealFacade, SliceFacade::computeDimension | PropsDim, PropsOpt |
| C15, C38 | OptimizeStrategy, TermGrader | PropsOpt |
| C16 | frobby.cpp Ideal, BigIdeal | PropsBuild |
| C17, C22 | all options of the slice algorithms | PropsSame |
| C18, C19 | Minimizer, Ideal | PropsMinimize |
| C20 | TermTranslator | PropsApi |
| C21 | TaskEngine, MsmStrategy, HilbertStrategy | PropsTasks |
| C23–C26 | Slice, IndependenceSplitter, Projection | PropsSlice |
| C27 | Partition | PropsPartition |
| C28 | IntersectFacade, intersect | PropsIntersect |
| C29 | BigattiHilbertAlgorithm, BigattiState, BigattiBaseCase, BigattiPivotStrategy | PropsBigatti |
| C30, C37 | HashPolynomial, UniHashPolynomial, Polynomial | PropsHilbert |
| C31 | dynamicFrobeniusAlgorithm | PropsFrob |
| C32 | Scanner, InputConsumer, IO handlers, IdealWriter | PropsIO |
| C33 | NameFactory | PropsFactory |
| C34 | ExponentAllocator, ChunkPool | PropsAlloc |
| C35, C40 | TermPredicate, IdealComparator, CanonicalTermConsumer | PropsOrder |
| C36 | VarNames | PropsNames |
| C41, C42 | ScarfHilbertAlgorithm, Deformer, IdealTree, IdealOrderer | PropsScarf, PropsOrderer |
| C43 | PolyWriter and the polynomial readers | PropsPolyIO |
| C44 | the readers again, against grammars | PropsReader |
| C45, C46 | randomDataGenerators | PropsGen, PropsRandom |
| C47 | EulerAction, PivotEulerAlg, EulerState, PivotStrategy, RawSquareFreeIdeal | PropsEuler |
| C48 | RawSquareFreeTerm (words and bits) | PropsWord |
| C49 | RawSquareFreeIdeal (words in one array) | PropsRsf |
| C50 | TransformAction, IdealFacade, BigIdeal, VarSorter | PropsTransform |
| C51 | AnalyzeAction, IdealFacade::printAnalysis, Ideal::isStronglyGeneric, isWeaklyGeneric | PropsAnalyze |
| C52 | Matrix.cpp except printing, comparison, subMatrix and copyRow | PropsMatrix |
| C53 | AlexanderDualAction, IrreducibleDecomAction, MaximalStandardAction, AssociatedPrimesAction, PrimaryDecomAction, CommonParamsHelper, SliceFacade, CanonicalTermConsumer, IrreducibleIdealSplitter, IOFacade::readAlexanderDualInstance | PropsAction, PropsTerm |
| C54 | HilbertAction, BigattiFacade, ScarfFacade, SliceFacade (Hilbert series), HashPolynomial, UniHashPolynomial, TotalDegreeCoefTermConsumer, the factories of pivot strategies and orders | PropsHilbertAction |
| C55 | DimensionAction, IdealFacade (computeDimension), SliceFacade (computeDimension), autoDetectFormat | PropsDimensionAction |
| C56 | `optimizeAction` on texts | PropsOptimizeAction |
| C57 | `frobgrob` and `frobdyn` print the Frobenius number for every accepted text, and all other texts are errors; partial because `-canon` with more than ten numbers is wrong ; all numbers have a Gröbner basis to put into the input | PropsFrobAction, PropsFrobBasis |
| C58 | euler action on texts (partial: false with -impliedDiv alone, and `01` is not read as one) | PropsEulerAction |
| C59 | readers of lists of ideals are sound | PropsListReader |
| C60 | intersection action on texts | PropsIntersectionAction |
| C61 | command line | PropsCommand |
| C62 | the program | PropsMain, PropsProgram |
| C63 | reading polynomials, ptransform | PropsPolyTransform |
| C64 | genideal and genfrob | PropsGenAction, PropsProgram |
| C65 | the arena allocator | PropsArena |
| C66 | latformat | PropsLattice, PropsProgram |
| C67 | formats count and null | PropsFormats, PropsMain |
| C68 | line breaking and columns | PropsDisplay |
| C69 | help | PropsHelp |
| C70 | the readers accept exactly the grammars | PropsReader, PropsListReaderExact, PropsPolyReaderExact |
| C71 | saturated binomial ideals | PropsSatBinom |
| C72 | `Term` objects and the pools of their memory | PropsTermPool |
| C73 | the algorithm for Euler characteristics on words | PropsEulerWord |
| C74 | packing of ideals into words while they are read | PropsPacked |
| C75 | reading from the bytes of a file | PropsFileReader |
| C76 | reading lists, polynomials, lattices and instances from the bytes of a file | PropsFileReaderMore, PropsFileReaderRest |
| C77 | objects `Frobby::Ideal` as values, memory, failed calls | PropsHandle |
| C78 | what consumers see through pointers | PropsWrap |
| C79 | class `Ideal` with pointers | PropsObject |
| C80 | TermTranslator (texts) | PropsCache |
| C81 | FrobbyStringStream, VarNames(size_t) | PropsStream |
| C82 | ElementDeleter, ObjectCache, HilbertBasecase (ownership), InputConsumer (ownership), SliceStrategyCommon (ownership) | PropsOwn |
| C83 | StatisticsStrategy, DebugStrategy, PivotStrategy (wrappers), SliceFacade::runSliceAlgorithmWithOptions | PropsStat |
| C84 | PivotStrategy (which pivots are chosen) | PropsPivotChoice |
| C85 | SplitStrategy (which splits are chosen) | PropsSplitChoice, PropsSplitDegree, PropsSplitSlice |
| C86 | Ideal (typical and non-generic exponents), BigattiPivotStrategy (median, gcd, tight, widened) | PropsDegreeChoice, PropsDegreeMedian |
| C87 | TermPredicate (which orders they are) | PropsTermOrder |

## Not modelled

* The command line: actions other than those in the table, printing of progress, statistics and debug strategies, timers.
* `LatticeAlgs`, `LatticeAnalyzeAction` (lattice analysis).
* In `Matrix`: printing, comparison, `subMatrix` and `copyRow`. Arguments that are the same object, as in `product(a, a, b)`: the code of `product` does not
  take care of that, unlike `transpose` and `subMatrix`.
* `IdealFactory` and the other parts that only the tests use.
* The pool of exponent vectors in `Term.cpp`, exceptions thrown for lack of memory.

## Simplifications

* The number of iterations of the main loop of `dynamicFrobeniusAlgorithm` is not bounded by `int`.
* `term.isIdentity()` in the writer of computed polynomials is modelled on translated exponents.
* Starting over with the next unused node in `generateMatchingIdeal` takes two iterations in the model and one in the code.
* Square free monomials are finite sets of variables. The order of the generators after in-place removals is modelled, because pivots depend on it.
* The results of `rand()` in the Euler characteristic algorithm are a list; the end of the list is an outcome of its own.

## Disagreements between code and documentation

The theorem with the witness is in parentheses, where there is one.

* `computePrimaryDecomposition` can give two components with the same radical, for example for ⟨x³, x²y, xy², y³, xyz⟩ (`C11_not_canonical`).
* `OptimizeStrategy::consume` loses optimal solutions of value 0 when all are asked for (`C38_zero_value`, `C38_not_all`).
* `SliceFacade::computeDimension` without simplification is wrong for the zero ideal in one variable (`C39_one_variable`).
* Scarf with weak deformation is wrong for redundant generators (`C41_weak_wrong`).
* `ExponentAllocator::reset` changes `_varCount` before it looks at `useSingleChunking()`. For 513 to 1023 variables memory is overrun and used after it is freed
  (`C34_exact`, `C34_use_after_free`). Assigning an `Ideal` to itself empties it (`C34_self_assignment`).
* `solveStandardMonomialProgram` calls `idealBegin` and `idealEnd` although the documentation says nothing is written if there is no maximal standard monomial.
* `dynamicFrobeniusAlgorithm` with at least three numbers including 1 returns 0, not -1 (`C31_one`). The reader rejects 1.
* `Polynomial::sortTermsReverseLex` leaves a last term with coefficient zero (`C37_trailing_zero`).
* Exponents with a leading zero are octal: `Scanner::readIntegerNoSign` uses base 0, `parseInteger` base 10 (`C44_octal`).
* Computed polynomials in the format of CoCoA 4 contain `x[i]^0` and cannot be read back (`C43_computed_cocoa`).
* The polynomial without terms is read back as one term with coefficient zero (`C43_zero`).
* The 4ti2 reader of polynomials ignores repeated names of variables.
* Random edge ideals: the number of tries is decremented twice, so the limit can be jumped over (`C46_edge_runs_on`); no variables means division by zero
  (`C46_edge_no_variables`).
* Random Frobenius instances can have a common divisor (`C46_frobenius_common_divisor`).
* Euler characteristic: `-impliedDiv on -uniqueDiv off -manyDiv off` gives 2 instead of -1 for ⟨a, b, c⟩ (`C47_implied_wrong`).
* Euler characteristic: `-pivot std -stdPivot popgcd -uniqueDiv off -autotranspose off` does not stop for ⟨b, c, d, a⟩ (`C47_runs_on`).
* Euler characteristic: `-genPivot minsupp_rarevar_random` can divide by zero. The documentation says that a strategy that would eliminate all candidates
  preserves all of them; the code preserves none for the strategies after it (`C47_divides_by_zero`).
* Square free terms without variables take one word, which `setToIdentity`, `encodeTerm` and `compact` do not clear, and at which `divides` looks
  (`C48_no_variables`, `C48_compact_to_nothing`).
* `RawSquareFreeIdeal::isValid` calls `Ops::isValid` for every term and does not use the result (`C49_isValid_misses`).
* `transform` identifies variables by their number: for ideals in different rings `-trimVariables` and `-projectVar` access exponents that do not exist
  (`C50_rings_crash`, `C50_transpose_crash`), and `-trimVariables` keeps variables that divide no generator (`C50_trimVariables_rings`).
* `transform -product` replaces all ideals by one ideal, not each ideal. `transform -transpose` uses all generators, not only minimal ones.
* `analyze -minimal -summaryLevel 2` minimizes the ideal before it prints the summary, so the numbers are those of another ideal (`C51_minimal_summary`).
  The documentation says that the summary goes to the error output; the code prints it to the standard output.
* `alexdual -canon` with a point sorts the variables but not the exponents of the point: it prints the dual with respect to a different point, or ends with an
  error although all minimal generators divide the point (`C53_alexdual_canon_wrong`).
* `primdecom` can print two ideals with the same radical (`C53_primdecom_not_reduced`, as in C11).
* `validateSplit` compares the text of `-split` with `degree` and `frob`, but a beginning such as `deg` is accepted as a name: it passes the check and the first pivot
  split ends the program with an internal error (`C53_degree_prefix`).
* `inverse` reads the entry `(size - 1, size - 1)` of a matrix without rows (`C52_inverse_empty`).
* The documentation of `rowReduceFully` promises that all entries are zero or one and that no column has two entries that are not zero; that holds only for the
  columns with a leading entry (`C52_documentation`).
* `makeColumnIntegralPrimitive` multiplies a column that is a single negative number by a negative number; no column that `nullSpace` makes is like that.
* `getVarDividesCounts` writes into the reserved memory after the last element of a vector.
* `newDefaultPivotStrategy` asks for a strategy that does not exist (`C47_default_strategy`).
* The documentation of `rarevar_minsupp` says that it picks a generator with maximum support.
* The split strategy option `boundSimplify` sets the option for bound elimination.
* `IndependencePivotSplit`: the variable `first` never becomes false.
* `SizeMaxIndepSetAlg.h` does not mention the result -1.
* `extractExponents` accesses an array out of bounds for exponents below -900.
* `OptimizeStrategy::simplify` with elimination by bounds keeps a dominator that is no longer up to date.
* The documentation of `reverseLexCompare` contradicts the code: one is the greatest monomial, so it is not a term order (`C87_reverse_false`).
* `CanonicalTermConsumer` never resets `_storingList`.
* `totalDegree` reads the first exponent even if there are no variables.
* The name `revlex` is parsed as reversed lexicographic order.
* `IdealTree::Node` calls `makeTree` twice per level.
* `InputConsumer` would dereference a null pointer in `hintGenCount` before an ideal has begun. A character 0xFF is taken for the end of the file.
* `hilbert` in the format of CoCoA 4 prints a polynomial that cannot be read (`C54_cocoa4`), with the defaults of `-alg deform` a wrong one for some ideals with
  redundant generators (`C54_deform_wrong`), and with `-alg slice -split deg` ends in an internal error (`C54_degree_prefix`).
* `dimension -useSlice` ignores `-iformat` and guesses the format (DimensionAction.cpp:77-82); `C55_errors` states this.
* **`optimize` (C56)**: with `-canon` the variables of the ideal are sorted and the entries of the vector are not, so that the value and the solutions belong to another vector (`C56_canon_wrong`: 7 is printed, the optimum is 5). With `-minimal` and `-chopFirstAndSubtract` the generators are taken to be minimal after the first variable is set to 1, where they need not be (`C56_chop_minimal_wrong`). With `-displayLevel 2` solutions can be missing if the optimal value is 0 (`C56_zero_wrong`, C38 at the level of texts). `extractCliValues` stores `-boundSimplify` by calling `useBoundElimination` (SliceParams.cpp:57-58), so that neither `-bound` nor `-boundSimplify` has an effect (`C56_bound`).
* `frobgrob -canon` sorts the variables by their names `x1`, `x10`, `x2`, ..., but not the numbers. With more than ten numbers the answer can be wrong: 5 in place of 1 (`C57_canon_wrong`). `frobgrob` uses the first solution without a test that there is one (FrobeniusAction.cpp:87-88), which is undefined behaviour for matrices with no maximal standard monomial (`C57_no_solution`). Such a matrix is no Gröbner basis for the numbers.
* **`euler` does not read `a^01`** (InputConsumer.cpp:123-135). The square free reader compares the text of the exponent with `0` and `1`, while all other actions read it as a number. So `a^01*b` is a square free monomial for `dimension` but is reported as not square free by `euler` (`C58_leading_zero`).
* An integer option reports that the value must be in [0, 2^31-1], but every value up to 2^32-1 is accepted (IntegerParameter.cpp), and so is a text with blanks between the digits. An example at the end of `PropsCommand` shows both.
* The format `count` is only for output. With `-iformat count` the actions `hilbert`, `irrdecom`, `primdecom`, `assoprimes` and `maxstandard` end in an internal error instead of a message, since `CommonParamsHelper` does not check that the format can be read (IOHandlerImpl.cpp:78-80); the other actions do report an error. `C62_count_wrong` shows both.
* `dimension -useSlice` does not look at `-iformat` (`C62_dimension`), and the special names `autodetect` and `input` cannot be abbreviated although all other names can (`InputIs`, `OutputIs`).
* `ptransform` of a text in the format of 4ti2 with repeated names of variables breaks an assertion in `BigPolynomial::renameVars`; without assertions it goes on with fewer names than exponents and reads names past their end (`C63_repeated_names`).
* `ptransform -canon` does not collect terms with the same exponents, so that `x + x` and `2*x` print differently although the option promises a canonical representation (`C63_canonical_wrong`).
* `genfrob -maxEntryDigits d` can print the number 10^d, which has d + 1 digits (`C64_genfrob_digits_wrong`).
* `genfrob -entryCount 1` always prints the number 1, which `frobdyn` and `frobgrob` do not accept, and with more entries the numbers can have a common divisor although the code tries to remove it (`C64_genfrob_rejected`).
* `genideal -type edge -varCount 0` divides by zero (`C64_edge_crash`).
* `Arena::isEmpty` is documented to return true if there are no live allocations, but it can return false then: after a small buffer has been allocated and freed and then a large one, the first block is still there (`C65_isEmpty_wrong`). It is right if no new block is needed while the current one is empty (`C65_tidy_partial`).
* An assertion in `Arena::freeTopFromOldBlock` can break for a client that frees in stack order (`C65_assertion_wrong`). Without assertions nothing goes wrong (`C65_free`).
* If `new` fails in `Arena::growCapacity`, then the arena has already saved the current block as a previous block: the destructor gives it to `delete` twice (`C65_bad_alloc_wrong`), or a later buffer is in memory that has been given back (`C65_bad_alloc_dangling`).
* `latformat -zero` is documented to increase the number of zero entries, but it can make it smaller (`C66_zero_wrong`). It crashes for a matrix without rows or without columns (`C66_zero_crash`).
* The format `fplll` loses the number of columns of a matrix without rows (`C66_empty_wrong`).
* The loops over rows in fourti2.cpp have counters of 32 bits and limits of 64 bits, so that reading `4294967296 0` has no end (`C66_endless`).
* `irrdecom -oformat count` does not print the number of irreducible components but the number of generators of each (`C67_count_irrdecom` and the example after it); with `-encode` it prints the number of components (`C67_count_encode`).
* `-iformat nul` is accepted as an abbreviation of `null`, but then the input is not ignored: `Scanner::expectEOF` compares the name with `null` and reports an error unless the input is blank (Scanner.cpp:77-85, `C67_nul_partial`).
* `display` prints a line with only the prefix and the indentation before a word that is too long for a line, contrary to the comment at display.cpp:99-101, which says that such a word is printed even if it does not fit; that is so only if there are neither (`C68_long_word_witness`).
* A last line of blanks that has no end is printed without an end (`C68_blank_last_witness`), and what follows a character of value zero in a word is lost (`C68_nul_witness`).
* `help` and `test` accept `-time`, but `help` does not list it for them (`C69_time_witness`; HelpAction.cpp:44-45 and TestAction.cpp:33-34 do not call `Action::obtainParameters`).
* `transform` writes several ideals in the formats cocoa4, singular and newmonos, for which `help io` lists no output of lists (`C69_list_witness`).
* `SatBinomIdeal.h:68-75` says that `isGeneric` is true if no generator has a zero entry; the initial ideal must also be weakly generic (`C71_generic_no_zero_false`). `SatBinomIdeal.h:92-94` says that `isInterior` is true if `max(0,a,b)` is strictly positive in every element; the first element does not count (`C71_interior_first_false`) and the body must be point-free (`C71_interior_false`). The comment of `isTerminatingEdge` has the roles of `from` and `to` the other way round (`C71_terminating_roles_false`). `initialIdealIsWeaklyGeneric` can be false for a weakly generic initial ideal if there is a zero entry (`C71_weakly_generic_complete_false`). `validate` is true whenever there is a zero entry (`C71_validate_zero_false`), and its check that a generator that is interior on its own has no edges can never fail.
* The assertions `size > 0` in `Term::allocate` and `Term::deallocate` do not always hold: `reset(0)` on, or the assignment of a term without variables to, a term with variables calls `allocate(0)`. A debug build stops (`C72_debug_stops`, and `C72_debug_exact` shows that these are the only operations that stop it); a release build goes on correctly with an array of length 0 (`C72_safe_release`).
* `EulerState::rawConstruct` (EulerState.cpp:56-79) throws only if the larger of the two numbers of bytes is 0. If only one of them overflows, as for one variable and 2^61 generators, the other is used, which is too small (`C73_sizes_wrong`); such an ideal does not fit into memory, so this is not a case that happens.
* `~RawSquareFreeTerm` in PivotStrategy.cpp:66 uses `delete _term` on an array that `newTerm` made with `new Word[]`; `deleteTerm` is the function to use. This is undefined behaviour in every run of a strategy that used a term. The model does not say how arrays are released.
* `compactIfProfitable` on a state whose variables have all been eliminated leaves a state of no variables whose array of eliminated variables is not zero, and `hasFullSupport` then reads that word (`C73_no_variable_wrong`). No split makes such a state (`C73_splits_keep_variable`).
* `InputConsumer::hintGenCount` (InputConsumer.cpp:57-60) uses `_bigIdeal`, which is null until an exponent larger than one is read. It is never called; a reader that calls it, as its comment suggests, would follow a null pointer.
* A byte 255 in a file is taken for the end of the file, and what comes after it is ignored: `readBuffer` and `getChar` make an `int` of a signed `char`, and -1 is `EOF` (Scanner.cpp:304-316, Scanner.h:272-283). `C75_byte255_ignored`, `C75_byte255_witness`.
* If reading a file fails, what was read before is taken for the whole file: `readBuffer` treats `ferror` like `feof` and nothing reports it (Scanner.cpp:304-316). An ideal in 4ti2 format can be cut in the middle of a number. `C75_failure_ignored`, `C75_failure_witness`.
* Bytes of 128 or more are passed to `isspace`, `isalpha`, `isdigit` and `isalnum` as negative numbers, which is undefined by the standard (Scanner.h:137, 257-270, Scanner.cpp:61-64, 101-147, 255-272).
* `Scanner::expect(const char*)` reads the character that is different before it reports it, so if that is the end of a line, the error is reported for the next line (Scanner.cpp:46-75); the same holds for `expect(char)` (Scanner.h:231-236).
* As for C75, a byte 255 and a failure of `fread` are taken for the end of the file also by these readers; a list of numbers for `frobdyn` can be cut in the middle of a number without an error. `C76_failure_witness`, `C76_byte255_witness`. After a ring without ideals in the format of 4ti2 the end is asked for twice, so that there what comes after a byte 255 is an error although it is not elsewhere: `C76_twice_witness`.
* `BigIdeal::newLastTerm` (BigIdeal.cpp:104-110) first adds an empty generator and then gives it its entries. If memory runs out in between, `Frobby::Ideal::addExponent` throws an exception but the ideal keeps a generator with no exponents; what uses the ideal afterwards reads outside of it. `C77_exception_witness`.
* `Ideal::product` and `Ideal::colon` with a pointer to one of the ideal's own generators change the argument while it is used (`C79_own_product_witness`, `C79_own_generator_witness`). `Ideal::insertNonMultiples` with the ideal itself uses iterators that are not valid (`C79_self_insert_witness`), while `Ideal::insert(const Ideal&)` with the ideal itself is right as it reserves memory first. Self-assignment empties the ideal (`C79_self_assignment_witness`).
* `FrobbyStringStream::operator<<(unsigned long long)` converts the number to `unsigned long`. Where that type has 32 bits, 4294967296 is appended as 0 (`C81_long_long_witness`).
* `InputConsumer::releaseIdeal` takes the pointer to an entry off its list and moves the ideals out of the entry, but does not delete the entry. One object is lost for each ideal that is read (`C82_read_partial` shows exactly that many, `C82_read_witness`).
* `SliceStrategyCommon` declares `_tasks` before `_sliceCache`, so the cache is destroyed first. If a run throws while there are tasks, the destructor of `TaskEngine` calls `Slice::dispose`, which pushes the slice into the destroyed cache; the same holds for the consumers of independence splits, whose cache is a member of the derived class (`C82_strategy_witness`).
* `StatisticsStrategy` and `DebugStrategy` delegate `run` to the strategy that they wrap, which makes its slices with `*this`. `Slice::run` calls `processSlice` of that strategy, so `processSlice` of the wrappers is never called: the report on the Slice Algorithm always says that there were 0 nodes, and the debug output never shows a slice (`C83_printed`, `C83_report_witness`, `C83_debug_witness`).
* The statistics on Euler characteristics print 1 state for an ideal without generators or variables, for which no state is processed; the count of splits is never reset, so the number that is printed after a second computation with the same object is neither that of the computation nor the total (`C83_euler_states_witness`).
* The help says that a strategy for generators that would eliminate all the candidates preserves all of them. In `minsupp_rarevar_popvar` the strategy `rarevar` can eliminate all, and then `popvar` gets no candidates at all and the generator that is used need not be divisible by a popular variable although a candidate is (`C84_combined_witness`). `C84_combined_partial` shows that this is the only way in which a combination differs from its description.
* `popgcd` uses the popular variable itself, not a gcd of generators, if that variable divides one generator only; `C84_popgcd` is about the other case.
* `MinLabelSplit` looks for the least number of exponents equal to one from the second variable on, so it does not use the first variable if that one alone has the least number (`C85_minlabel_witness`; `C85_minlabel_slice` for a slice that satisfies the invariants of the slices that are split; `C85_minlabel_later` says what is chosen instead). The results of the algorithm are right all the same.
* `IndependencePivotSplit` always uses the pivot of `MedianSplit`, after ten attempts that have no effect but for the random numbers (`C85_indep`).

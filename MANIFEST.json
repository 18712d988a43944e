{
 "claims": [
  {
   "property": "C01",
   "status": "proved",
   "theorems": [
    "Frobby.C01_intersection"
   ],
   "note": ""
  },
  {
   "property": "C02",
   "status": "proved",
   "theorems": [
    "Frobby.C02_irredundant"
   ],
   "note": ""
  },
  {
   "property": "C03",
   "status": "proved",
   "theorems": [
    "Frobby.C03_return_value"
   ],
   "note": ""
  },
  {
   "property": "C04",
   "status": "proved",
   "theorems": [
    "Frobby.C04_asIdeals"
   ],
   "note": ""
  },
  {
   "property": "C05",
   "status": "proved",
   "theorems": [
    "Frobby.C05_maximalStandardMonomials"
   ],
   "note": ""
  },
  {
   "property": "C06",
   "status": "proved",
   "theorems": [
    "Frobby.C06_alexanderDual"
   ],
   "note": ""
  },
  {
   "property": "C07",
   "status": "proved",
   "theorems": [
    "Frobby.C07_return_value",
    "Frobby.C07_null"
   ],
   "note": ""
  },
  {
   "property": "C08",
   "status": "proved",
   "theorems": [
    "Frobby.C08_ideal_overload"
   ],
   "note": ""
  },
  {
   "property": "C09",
   "status": "proved",
   "theorems": [
    "Frobby.C09_involution"
   ],
   "note": ""
  },
  {
   "property": "C10",
   "status": "proved",
   "theorems": [
    "Frobby.C10_associatedPrimes"
   ],
   "note": ""
  },
  {
   "property": "C11",
   "status": "partial",
   "theorems": [
    "Frobby.C11_primaryDecomposition_partial",
    "Frobby.C11_distinct_supports_partial",
    "Frobby.C11_not_canonical"
   ],
   "note": "The claim is false for the code: C11_not_canonical exhibits an ideal for which two of the emitted components have the same radical. The partial theorems say what does hold."
  },
  {
   "property": "C12",
   "status": "proved",
   "theorems": [
    "Frobby.C12_multigradedHilbert"
   ],
   "note": ""
  },
  {
   "property": "C13",
   "status": "proved",
   "theorems": [
    "Frobby.C13_univariateHilbert"
   ],
   "note": ""
  },
  {
   "property": "C14",
   "status": "proved",
   "theorems": [
    "Frobby.C14_dimension",
    "Frobby.C14_sum",
    "Frobby.C14_codimension"
   ],
   "note": "Largest independent set of variables; the minimal support among the irreducible components is the codimension; unit ideal -1 and n+1."
  },
  {
   "property": "C15",
   "status": "proved",
   "theorems": [
    "Frobby.C15_standardMonomialProgram"
   ],
   "note": "API function modelled with the whole branch-and-bound; the events include the empty begin/end block that the header promises not to write (see DESIGN.md)."
  },
  {
   "property": "C16",
   "status": "proved",
   "theorems": [
    "Frobby.C16_addExponent",
    "Frobby.C16_addExponent_zero",
    "Frobby.C16_roundtrip"
   ],
   "note": "All call histories; also that no history reaches an invalid access."
  },
  {
   "property": "C17",
   "status": "proved",
   "theorems": [
    "Frobby.C17_maximalStandardMonomials",
    "Frobby.C17_irreducibleDecomposition",
    "Frobby.C17_alexanderDual",
    "Frobby.C17_dimension",
    "Frobby.C22_irrDecom",
    "Frobby.C22_msm",
    "Frobby.C22_dual",
    "Frobby.C22_associatedPrimes",
    "Frobby.C22_multigradedHilbert",
    "Frobby.C22_univariateHilbert"
   ],
   "note": "Every two generator lists of the same ideal, with any random choices."
  },
  {
   "property": "C18",
   "status": "proved",
   "theorems": [
    "Frobby.C18_minimize",
    "Frobby.C18_minimize_canonical",
    "Frobby.C18_tree",
    "Frobby.C18_insertReminimize"
   ],
   "note": ""
  },
  {
   "property": "C19",
   "status": "proved",
   "theorems": [
    "Frobby.C19_colonReminimize"
   ],
   "note": ""
  },
  {
   "property": "C20",
   "status": "proved",
   "theorems": [
    "Frobby.C20_translation"
   ],
   "note": ""
  },
  {
   "property": "C21",
   "status": "proved",
   "theorems": [
    "Frobby.C21_msmTasks",
    "Frobby.C21_hilbertTasks",
    "Frobby.C21_hint"
   ],
   "note": "Task stack machine with consumers as allocated objects: reaches the empty stack on every input, no error, no use after free; hint always in range."
  },
  {
   "property": "C22",
   "status": "proved",
   "theorems": [
    "Frobby.C22_irrDecom",
    "Frobby.C22_msm",
    "Frobby.C22_dual",
    "Frobby.C22_associatedPrimes",
    "Frobby.C22_multigradedHilbert",
    "Frobby.C22_univariateHilbert"
   ],
   "note": "Every two valid sets of options (simplification, independence splits, split strategy) and every source of random numbers. Bound options of the optimizer: see C15."
  },
  {
   "property": "C23",
   "status": "proved",
   "theorems": [
    "Frobby.C23_cachedLcm"
   ],
   "note": "Reach covers every operation the strategies apply to slices."
  },
  {
   "property": "C24",
   "status": "proved",
   "theorems": [
    "Frobby.C24_simplify",
    "Frobby.C24_steps",
    "Frobby.C24_normalize"
   ],
   "note": ""
  },
  {
   "property": "C25",
   "status": "proved",
   "theorems": [
    "Frobby.C25_pivotSplit",
    "Frobby.C25_pivotSplit_hilbert"
   ],
   "note": ""
  },
  {
   "property": "C26",
   "status": "proved",
   "theorems": [
    "Frobby.C26_groups",
    "Frobby.C26_content",
    "Frobby.C26_hilbert"
   ],
   "note": ""
  },
  {
   "property": "C27",
   "status": "proved",
   "theorems": [
    "Frobby.C27_total",
    "Frobby.C27_roots",
    "Frobby.C27_join",
    "Frobby.C27_setCount",
    "Frobby.C27_sizeOfClassOf",
    "Frobby.C27_setSize"
   ],
   "note": "Array with parent links and path compression, all histories."
  },
  {
   "property": "C28",
   "status": "proved",
   "theorems": [
    "Frobby.C28_intersection",
    "Frobby.C28_empty",
    "Frobby.C28_comm"
   ],
   "note": "Ideals may have different variables in different orders; the shrinking of exponents to identifiers and the reuse of the term between generators are part of the model."
  },
  {
   "property": "C29",
   "status": "proved",
   "theorems": [
    "Frobby.C29_multigraded",
    "Frobby.C29_agrees_with_slice",
    "Frobby.C29_canonical",
    "Frobby.C29_univariate",
    "Frobby.C29_pivot",
    "Frobby.C29_split",
    "Frobby.C29_scarf"
   ],
   "note": "All 13 pivot strategies with and without widening, both base case settings, with and without simplification, multigraded and univariate; termination, absence of undefined behaviour and of integer overflow included. Debug output and statistics are not modelled; variables keep the given order."
  },
  {
   "property": "C30",
   "status": "proved",
   "theorems": [
    "Frobby.C30_hashPolynomial",
    "Frobby.C30_addSign"
   ],
   "note": ""
  },
  {
   "property": "C31",
   "status": "proved",
   "theorems": [
    "Frobby.C31_frobenius",
    "Frobby.C31_accepts",
    "Frobby.C31_one"
   ],
   "note": "The specification is Mathlib's FrobeniusNumber. The int counter of the loop has no bound in the model. C31_one: called directly with three numbers including 1 the algorithm gives 0; the reader rejects 1."
  },
  {
   "property": "C32",
   "status": "proved",
   "theorems": [
    "Frobby.C32_round_trip",
    "Frobby.C32_injective",
    "Frobby.C32_round_trip_list",
    "Frobby.C32_auto_detect",
    "Frobby.C32_square_free",
    "Frobby.C32_square_free_sound"
   ],
   "note": "All six formats that can be read (Macaulay 2, CoCoA 4, Singular, Monos, new Monos, 4ti2), single ideals and lists, with and without square-free generators required, and recognition of the format. Polynomials are not part of this claim."
  },
  {
   "property": "C33",
   "status": "proved",
   "theorems": [
    "Frobby.C33_found",
    "Frobby.C33_unknown",
    "Frobby.C33_ambiguous",
    "Frobby.C33_order",
    "Frobby.C33_create",
    "Frobby.C33_create_order"
   ],
   "note": "Names are lists of characters; the functions of the factory are the products they make."
  },
  {
   "property": "C34",
   "status": "partial",
   "theorems": [
    "Frobby.C34_partial",
    "Frobby.C34_released_partial",
    "Frobby.C34_exact",
    "Frobby.C34_use_after_free",
    "Frobby.C34_self_assignment"
   ],
   "note": "Proved for all histories in which no ideal has between 513 and 1023 variables: no memory error, every ideal contains what was put into it, all memory is released in the end. For 513 to 1023 variables the property is false (C34_exact shows that this is exactly the set of numbers for which it fails, C34_use_after_free shows a use of released memory)."
  },
  {
   "property": "C35",
   "status": "proved",
   "theorems": [
    "Frobby.C35_terms",
    "Frobby.C35_firstDifference",
    "Frobby.C35_terms_decisive",
    "Frobby.C35_bigTerms",
    "Frobby.C35_names",
    "Frobby.C35_ideals",
    "Frobby.C35_bigIdeals",
    "Frobby.C35_bigTerms_length"
   ],
   "note": "All comparisons of terms, big terms, names and ideals handed to std::sort; big terms are compared at equal length, C35_bigTerms_length shows that this is needed."
  },
  {
   "property": "C36",
   "status": "proved",
   "theorems": [
    "Frobby.C36_history",
    "Frobby.C36_inverse"
   ],
   "note": "Nodes of the map and pointers to them are modelled; histories over two objects."
  },
  {
   "property": "C37",
   "status": "partial",
   "theorems": [
    "Frobby.C37_polynomialSort_partial",
    "Frobby.C37_trailing_zero",
    "Frobby.C37_polynomialSort_reduced"
   ],
   "note": "The documented removal of zero coefficients is false for the last monomial (C37_trailing_zero); it holds on reduced input such as the output of the Hilbert series algorithm."
  },
  {
   "property": "C38",
   "status": "partial",
   "theorems": [
    "Frobby.C38_standardProgram",
    "Frobby.C38_irrProgram",
    "Frobby.C38_allStandard_partial",
    "Frobby.C38_allIrr_partial",
    "Frobby.C38_zero_value",
    "Frobby.C38_not_all"
   ],
   "note": "Value, optimality, at most one solution: for all options. All solutions are reported only if the optimum is not 0: the code loses solutions of value 0 (C38_zero_value, C38_not_all)."
  },
  {
   "property": "C39",
   "status": "partial",
   "theorems": [
    "Frobby.C39_sliceDimension",
    "Frobby.C39_sliceDimension_partial",
    "Frobby.C39_one_variable"
   ],
   "note": "Holds with simplification (the default and what DimensionAction uses), and for all options unless the ideal is zero in one variable; there the code without simplification is wrong (C39_one_variable)."
  },
  {
   "property": "C40",
   "status": "proved",
   "theorems": [
    "Frobby.C40_ideal",
    "Frobby.C40_list",
    "Frobby.C40_untranslated"
   ],
   "note": "std::sort is any function that permutes and sorts."
  },
  {
   "property": "C41",
   "status": "partial",
   "theorems": [
    "Frobby.C41_strong",
    "Frobby.C41_weak_partial",
    "Frobby.C41_univariate",
    "Frobby.C41_agrees_with_bigatti",
    "Frobby.C41_face_size",
    "Frobby.C41_tree",
    "Frobby.C41_weak_wrong"
   ],
   "note": "Strong deformation is proved for every input, weak deformation (the default) for every input without gaps in the exponents, in particular for minimal generators. C41_weak_wrong shows that weak deformation gives a wrong numerator for a list with redundant generators, so the full statement is false."
  },
  {
   "property": "C42",
   "status": "proved",
   "theorems": [
    "Frobby.C42_perm",
    "Frobby.C42_composite",
    "Frobby.C42_deterministic",
    "Frobby.C42_extremes",
    "Frobby.C42_names",
    "Frobby.C42_options"
   ],
   "note": "For lists without duplicates, which is what the facade passes. random is any permutation."
  },
  {
   "property": "C43",
   "status": "partial",
   "theorems": [
    "Frobby.C43_round_trip",
    "Frobby.C43_zero",
    "Frobby.C43_coefficients",
    "Frobby.C43_computed_partial",
    "Frobby.C43_computed_cocoa",
    "Frobby.C43_ideal",
    "Frobby.C43_ideal_text"
   ],
   "note": "Proved for both writers except the writer of computed polynomials in the format of CoCoA 4, where it is false: C43_computed_cocoa gives a polynomial that is written with exponents zero and cannot be read back. The polynomial without terms comes back as one term with coefficient zero (C43_zero)."
  },
  {
   "property": "C44",
   "status": "partial",
   "theorems": [
    "Frobby.C44_sound",
    "Frobby.C44_well_formed",
    "Frobby.C44_convert",
    "Frobby.C44_decimal_partial",
    "Frobby.C44_octal"
   ],
   "note": "For all texts: what is accepted is in the grammar of the format (specified by relations, independent of the reader) and has the meaning of the text; conversion between formats. The part that exponents are decimal is false: a leading zero makes them octal (C44_octal); C44_decimal_partial proves the rest. The converse is C70."
  },
  {
   "property": "C45",
   "status": "proved",
   "theorems": [
    "Frobby.C45_list",
    "Frobby.C45_king",
    "Frobby.C45_knight",
    "Frobby.C45_tree",
    "Frobby.C45_rook",
    "Frobby.C45_matching",
    "Frobby.C45_edges",
    "Frobby.C45_errors",
    "Frobby.C45_chess_too_large"
   ],
   "note": "The generators are described in GenSpec.lean without the model. Errors for sizes that are not accepted are C45_errors and C45_chess_too_large."
  },
  {
   "property": "C46",
   "status": "partial",
   "theorems": [
    "Frobby.C46_ideal",
    "Frobby.C46_edge_partial",
    "Frobby.C46_edge_stops_partial",
    "Frobby.C46_edge_runs_on",
    "Frobby.C46_edge_no_variables",
    "Frobby.C46_frobenius_partial",
    "Frobby.C46_frobenius_common_divisor"
   ],
   "note": "C46_ideal holds in full. The random edge ideal is correct if it is finished, but the limit on the number of tries fails (C46_edge_runs_on, C46_edge_no_variables). The Frobenius instance can have a common divisor (C46_frobenius_common_divisor)."
  },
  {
   "property": "C47",
   "status": "partial",
   "theorems": [
    "Frobby.C47_euler_sound_partial",
    "Frobby.C47_euler_stops_partial",
    "Frobby.C47_euler_errors",
    "Frobby.C47_euler_total_partial",
    "Frobby.C47_euler_default",
    "Frobby.C47_implied_wrong",
    "Frobby.C47_divides_by_zero",
    "Frobby.C47_runs_on",
    "Frobby.C47_default_strategy"
   ],
   "note": "Correct for all options except impliedDiv with both other simplifications off, where it is false (C47_implied_wrong); stops except for pivots that are terms with uniqueDiv off, where it is false (C47_runs_on); division by zero only for filters followed by random, where it happens (C47_divides_by_zero). C47_euler_default is unconditional. The word-packed representation is not modelled here."
  },
  {
   "property": "C48",
   "status": "proved",
   "theorems": [
    "Frobby.C48_canonical",
    "Frobby.C48_getExponent",
    "Frobby.C48_setExponent",
    "Frobby.C48_lcm",
    "Frobby.C48_gcd",
    "Frobby.C48_colon",
    "Frobby.C48_assign",
    "Frobby.C48_setTo",
    "Frobby.C48_invert",
    "Frobby.C48_relations",
    "Frobby.C48_support",
    "Frobby.C48_lexLess",
    "Frobby.C48_getVarIfPure",
    "Frobby.C48_atSupport",
    "Frobby.C48_isValid",
    "Frobby.C48_encodeTerm",
    "Frobby.C48_encodeTexts",
    "Frobby.C48_compact",
    "Frobby.C48_no_variables",
    "Frobby.C48_compact_to_nothing"
   ],
   "note": "All functions of RawSquareFreeTerm on arrays of 64 bit words, for at least one variable (for compact: at least one variable left). C48_no_variables and C48_compact_to_nothing show what happens without variables. Printing and newTermParse are not modelled."
  },
  {
   "property": "C49",
   "status": "proved",
   "theorems": [
    "Frobby.C49_bytesOfMemory",
    "Frobby.C49_construct",
    "Frobby.C49_insert",
    "Frobby.C49_insertAll",
    "Frobby.C49_insertIdeal",
    "Frobby.C49_minimize",
    "Frobby.C49_colon",
    "Frobby.C49_colonVar",
    "Frobby.C49_compact",
    "Frobby.C49_transpose",
    "Frobby.C49_swap01",
    "Frobby.C49_removeGenerator",
    "Frobby.C49_swap",
    "Frobby.C49_lcm_gcd",
    "Frobby.C49_varDividesCounts",
    "Frobby.C49_find",
    "Frobby.C49_supportGen",
    "Frobby.C49_exclusiveVar",
    "Frobby.C49_hasFullSupport",
    "Frobby.C49_isMinimallyGenerated",
    "Frobby.C49_equals",
    "Frobby.C49_refines",
    "Frobby.C49_isValid_misses"
   ],
   "note": "On words, for at least one variable. C49_refines connects the model on sets of C47 with the words. C49_isValid_misses is a witness that isValid does not check the terms. sortLexAscending, print and parsing are not modelled."
  },
  {
   "property": "C50",
   "status": "partial",
   "theorems": [
    "Frobby.C50_transform_partial",
    "Frobby.C50_single",
    "Frobby.C50_radical",
    "Frobby.C50_swap01",
    "Frobby.C50_minimize",
    "Frobby.C50_radical_minimize",
    "Frobby.C50_deform",
    "Frobby.C50_addPurePowers",
    "Frobby.C50_sort",
    "Frobby.C50_unique",
    "Frobby.C50_projectVar",
    "Frobby.C50_projectVar_none",
    "Frobby.C50_product",
    "Frobby.C50_product_error",
    "Frobby.C50_trimVariables",
    "Frobby.C50_transpose",
    "Frobby.C50_transpose_twice",
    "Frobby.C50_canon",
    "Frobby.C50_canon_sets",
    "Frobby.C50_canon_rings",
    "Frobby.C50_text",
    "Frobby.C50_rings_crash",
    "Frobby.C50_trimVariables_rings",
    "Frobby.C50_transpose_crash"
   ],
   "note": "The full claim is false for ideals in different rings: C50_rings_crash, C50_transpose_crash and C50_trimVariables_rings are the witnesses. For ideals in one ring all of it is proved."
  },
  {
   "property": "C51",
   "status": "partial",
   "theorems": [
    "Frobby.C51_printAnalysis",
    "Frobby.C51_analyze",
    "Frobby.C51_analyze_partial",
    "Frobby.C51_error",
    "Frobby.C51_minimal",
    "Frobby.C51_deform",
    "Frobby.C51_minimal_summary",
    "Frobby.C51_term_read"
   ],
   "note": "Proved for all options and inputs except that the summary of level 2 together with -minimal describes the minimal generators instead of the ideal (C51_analyze says exactly what is printed, C51_minimal_summary is the counterexample)."
  },
  {
   "property": "C52",
   "status": "partial",
   "theorems": [
    "Frobby.C52_storage",
    "Frobby.C52_product",
    "Frobby.C52_rowReduce",
    "Frobby.C52_rowReduceFully",
    "Frobby.C52_canonical",
    "Frobby.C52_documentation",
    "Frobby.C52_rank",
    "Frobby.C52_determinant",
    "Frobby.C52_inverse_partial",
    "Frobby.C52_inverse_empty",
    "Frobby.C52_nullSpace",
    "Frobby.C52_solve",
    "Frobby.C52_sameSpace",
    "Frobby.C52_isParallelogram",
    "Frobby.C52_area"
   ],
   "note": "Proved for all matrices except for inverse of the matrix without rows, where the code reads an entry that does not exist (C52_inverse_empty). The documentation of rowReduceFully is also refuted (C52_documentation)."
  },
  {
   "property": "C53",
   "status": "partial",
   "theorems": [
    "Frobby.C53_alexdual",
    "Frobby.C53_alexdual_canon_wrong",
    "Frobby.C53_alexdual_point_partial",
    "Frobby.C53_assoprimes",
    "Frobby.C53_canonical",
    "Frobby.C53_degree_prefix",
    "Frobby.C53_dual_input",
    "Frobby.C53_dual_input_ideal",
    "Frobby.C53_dual_input_written",
    "Frobby.C53_errors",
    "Frobby.C53_irrdecom",
    "Frobby.C53_irrdecom_encode",
    "Frobby.C53_maxstandard",
    "Frobby.C53_primdecom_not_reduced",
    "Frobby.C53_primdecom_partial"
   ],
   "note": "The claim is false for the code in two places: alexdual -canon with a point does not sort the exponents of the point (C53_alexdual_canon_wrong), and primdecom can print two ideals with the same radical (C53_primdecom_not_reduced). The theorems without the suffix _partial have the full claim for the other actions. -split deg passes the check of the options and ends in an internal error (C53_degree_prefix)."
  },
  {
   "property": "C54",
   "status": "partial",
   "theorems": [
    "Frobby.C54_multigraded_partial",
    "Frobby.C54_univariate",
    "Frobby.C54_canonical",
    "Frobby.C54_errors",
    "Frobby.C54_degree_prefix",
    "Frobby.C54_cocoa4",
    "Frobby.C54_deform_wrong"
   ],
   "note": "False in three places: CoCoA 4 output of the multigraded series is unreadable (C54_cocoa4), the default deformation of -alg deform is wrong for some redundant generators (C54_deform_wrong), beginnings of degree and frob crash -alg slice (C54_degree_prefix). Proved for everything else."
  },
  {
   "property": "C55",
   "status": "proved",
   "theorems": [
    "Frobby.C55_dimension",
    "Frobby.C55_errors",
    "Frobby.C55_slice",
    "Frobby.C55_detect"
   ],
   "note": "What the action dimension prints is proved for every input text; the format detected is proved to be the one in which the text can be read."
  },
  {
   "property": "C56",
   "status": "partial",
   "theorems": [
    "Frobby.C56_optimize_partial",
    "Frobby.C56_input",
    "Frobby.C56_input_ideal",
    "Frobby.C56_chop",
    "Frobby.C56_errors",
    "Frobby.C56_bound",
    "Frobby.C56_canon_wrong",
    "Frobby.C56_chop_minimal_wrong",
    "Frobby.C56_zero_wrong"
   ],
   "note": "The claim is false for the code in three cases, each with a witness: -canon when the sorted order of the variables changes the meaning of the vector (C56_canon_wrong), -minimal with -chopFirstAndSubtract (C56_chop_minimal_wrong), and all solutions asked for when the optimal value is 0 (C56_zero_wrong). C56_optimize_partial proves everything else."
  },
  {
   "property": "C57",
   "status": "partial",
   "theorems": [
    "Frobby.C57_frobgrob_partial",
    "Frobby.C57_frobgrob_input",
    "Frobby.C57_frobdyn_input",
    "Frobby.C57_frobdyn",
    "Frobby.C57_frobdyn_error",
    "Frobby.C57_agree",
    "Frobby.C57_frobgrob_error",
    "Frobby.C57_written",
    "Frobby.C57_basis_written",
    "Frobby.C57_canon_wrong",
    "Frobby.C57_no_solution",
    "Frobby.C57_basis_exists"
   ],
   "note": "Full for all texts and options except -canon with more than ten numbers, where the code is wrong (C57_canon_wrong), and -minimal with an input that is not minimal. A matrix without maximal standard monomials makes the code read past the end of a vector (C57_no_solution). C57_basis_exists shows that all numbers have a Gröbner basis as the input needs it."
  },
  {
   "property": "C58",
   "status": "partial",
   "theorems": [
    "Frobby.C58_euler_sound_partial",
    "Frobby.C58_euler_partial",
    "Frobby.C58_euler_default",
    "Frobby.C58_euler_error",
    "Frobby.C58_euler_reject",
    "Frobby.C58_leading_zero"
   ],
   "note": "For every text what is printed is the Euler characteristic, for all strategies without -impliedDiv alone; the full claim fails with -impliedDiv when -uniqueDiv and -manyDiv are off (C47_implied_wrong), and an exponent written 01 is rejected (C58_leading_zero)."
  },
  {
   "property": "C59",
   "status": "proved",
   "theorems": [
    "Frobby.C59_list_sound",
    "Frobby.C59_list_good",
    "Frobby.C59_list_convert",
    "Frobby.C59_list_single"
   ],
   "note": "For all texts and all six formats; the converse is C70."
  },
  {
   "property": "C60",
   "status": "proved",
   "theorems": [
    "Frobby.C60_intersection",
    "Frobby.C60_error",
    "Frobby.C60_canonical",
    "Frobby.C60_reread"
   ],
   "note": "For all texts, formats and settings of -canon; rereading needs that the number of variables and generators is below 2^64."
  },
  {
   "property": "C61",
   "status": "proved",
   "theorems": [
    "Frobby.C61_accept",
    "Frobby.C61_reject",
    "Frobby.C61_unique",
    "Frobby.C61_value",
    "Frobby.C61_action",
    "Frobby.C61_names",
    "Frobby.C61_no_crash"
   ],
   "note": "All lists of tokens for all 21 actions."
  },
  {
   "property": "C62",
   "status": "partial",
   "theorems": [
    "Frobby.C62_irrdecom",
    "Frobby.C62_primdecom",
    "Frobby.C62_assoprimes",
    "Frobby.C62_maxstandard",
    "Frobby.C62_alexdual",
    "Frobby.C62_hilbert",
    "Frobby.C62_optimize",
    "Frobby.C62_transform",
    "Frobby.C62_intersection",
    "Frobby.C62_analyze",
    "Frobby.C62_euler",
    "Frobby.C62_dimension",
    "Frobby.C62_frobgrob",
    "Frobby.C62_frobdyn",
    "Frobby.C62_given",
    "Frobby.C62_unknown_action",
    "Frobby.C62_wrong_options",
    "Frobby.C62_unknown_format",
    "Frobby.C62_count_wrong",
    "Frobby.C62_default_formats",
    "Frobby.C62_main_irrdecom",
    "Frobby.C62_main_primdecom_partial",
    "Frobby.C62_main_assoprimes",
    "Frobby.C62_main_maxstandard",
    "Frobby.C62_main_alexdual",
    "Frobby.C62_main_univariate",
    "Frobby.C62_main_hilbert_partial",
    "Frobby.C62_main_dimension",
    "Frobby.C62_main_frobdyn",
    "Frobby.C62_main_frobgrob_partial",
    "Frobby.C62_main_euler_partial",
    "Frobby.C62_main_intersection",
    "Frobby.C62_main_optimize_partial",
    "Frobby.C62_main_analyze",
    "Frobby.C62_ptransform",
    "Frobby.C62_main_ptransform_partial",
    "Frobby.C62_genideal",
    "Frobby.C62_genideal_format",
    "Frobby.C62_genfrob"
   ],
   "note": "The choice of the action, of its options and of the formats is proved for all command lines and inputs, and the errors are. Partial since two of the 21 actions are not modelled, since the theorems on some of the actions are partial, and since an input format that cannot be read is not always reported as an error (C62_count_wrong)."
  },
  {
   "property": "C63",
   "status": "partial",
   "theorems": [
    "Frobby.C63_sound",
    "Frobby.C63_well_formed",
    "Frobby.C63_well_formed_4ti2",
    "Frobby.C63_ptransform_partial",
    "Frobby.C63_canonical",
    "Frobby.C63_errors",
    "Frobby.C63_canonical_wrong",
    "Frobby.C63_repeated_names"
   ],
   "note": "The claim as stated is false for a 4ti2 text with repeated names (C63_repeated_names: internal error), and -canon does not make equal polynomials equal (C63_canonical_wrong). All else is proved for every input text: soundness of the readers, well-formedness, what ptransform prints, canonical form up to the order of variables and terms, and when an error is reported."
  },
  {
   "property": "C64",
   "status": "partial",
   "theorems": [
    "Frobby.C64_list",
    "Frobby.C64_king",
    "Frobby.C64_knight",
    "Frobby.C64_tree",
    "Frobby.C64_rook",
    "Frobby.C64_matching",
    "Frobby.C64_random",
    "Frobby.C64_edge_partial",
    "Frobby.C64_errors",
    "Frobby.C64_edge_crash",
    "Frobby.C64_genfrob_partial",
    "Frobby.C64_genfrob_errors",
    "Frobby.C64_genfrob_digits_wrong",
    "Frobby.C64_genfrob_rejected",
    "Frobby.C64_main_random",
    "Frobby.C64_pipe",
    "Frobby.C64_main_genfrob_partial"
   ],
   "note": "genideal is proved for all types, formats and random numbers, except that the type edge need not stop (C46_edge_runs_on) and divides by zero without variables (C64_edge_crash). genfrob is partial since the claim is false: an entry can have one digit more than allowed (C64_genfrob_digits_wrong), and the instance need not be accepted by frobdyn (C64_genfrob_rejected)."
  },
  {
   "property": "C65",
   "status": "partial",
   "theorems": [
    "Frobby.C65_buffers",
    "Frobby.C65_free",
    "Frobby.C65_destroy",
    "Frobby.C65_alloc_fails",
    "Frobby.C65_growth",
    "Frobby.C65_isEmpty",
    "Frobby.C65_tidy_partial",
    "Frobby.C65_array",
    "Frobby.C65_isEmpty_wrong",
    "Frobby.C65_assertion_wrong",
    "Frobby.C65_bad_alloc_wrong",
    "Frobby.C65_bad_alloc_dangling"
   ],
   "note": "False for the code: isEmpty can be false without live buffers, an assertion can break, and the arena is broken after new has failed. Everything else is proved for all sequences of calls."
  },
  {
   "property": "C66",
   "status": "partial",
   "theorems": [
    "Frobby.C66_reads",
    "Frobby.C66_format_partial",
    "Frobby.C66_only",
    "Frobby.C66_zero_partial",
    "Frobby.C66_zero_wrong",
    "Frobby.C66_zero_crash",
    "Frobby.C66_empty_wrong",
    "Frobby.C66_endless",
    "Frobby.C66_main_format_partial",
    "Frobby.C66_main_zero_partial",
    "Frobby.C62_latformat"
   ],
   "note": "False for the code: -zero can lower the number of zeros and crashes for empty matrices, fplll loses the number of columns of a matrix without rows, and sizes over 32 bits make a loop endless. The rest is proved for all texts and matrices."
  },
  {
   "property": "C67",
   "status": "partial",
   "theorems": [
    "Frobby.C67_count_encode",
    "Frobby.C67_count_irrdecom",
    "Frobby.C67_count_primdecom",
    "Frobby.C67_count_assoprimes",
    "Frobby.C67_count_maxstandard",
    "Frobby.C67_count_alexdual",
    "Frobby.C67_count_hilbert",
    "Frobby.C67_count_univariate",
    "Frobby.C67_count_optimize",
    "Frobby.C67_count_intersection",
    "Frobby.C67_count_ptransform",
    "Frobby.C67_count_transform",
    "Frobby.C67_analyze",
    "Frobby.C67_null_irrdecom",
    "Frobby.C67_null_lists",
    "Frobby.C67_null_ideals",
    "Frobby.C67_null_polynomials",
    "Frobby.C67_null_optimize",
    "Frobby.C67_null_input",
    "Frobby.C67_null_input_list",
    "Frobby.C67_null_input_poly",
    "Frobby.C67_nul_partial",
    "Frobby.C67_main_irrdecom",
    "Frobby.C67_main_primdecom",
    "Frobby.C67_main_assoprimes",
    "Frobby.C67_main_maxstandard",
    "Frobby.C67_main_alexdual",
    "Frobby.C67_main_hilbert",
    "Frobby.C67_main_optimize",
    "Frobby.C67_main_transform",
    "Frobby.C67_main_intersection",
    "Frobby.C67_main_ptransform",
    "Frobby.C67_main_analyze",
    "Frobby.C67_main_euler",
    "Frobby.C67_main_dimension"
   ],
   "note": "The lines that count prints are proved for all the actions that write ideals or polynomials, at the level of the whole program. That null prints nothing and ignores its input is proved for all inputs. Partial since an abbreviation of null does not ignore the input (C67_nul_partial), and since for transform -transpose the count is only known for the other options."
  },
  {
   "property": "C68",
   "status": "partial",
   "theorems": [
    "Frobby.C68_display",
    "Frobby.C68_width",
    "Frobby.C68_words",
    "Frobby.C68_fits",
    "Frobby.C68_columns",
    "Frobby.C68_rows",
    "Frobby.C68_long_word_witness",
    "Frobby.C68_blank_last_witness",
    "Frobby.C68_nul_witness"
   ],
   "note": "For texts without characters of value zero; with one, C68_nul_witness. The last line of a message without an end: C68_display."
  },
  {
   "property": "C69",
   "status": "partial",
   "theorems": [
    "Frobby.C69_action",
    "Frobby.C69_defaults",
    "Frobby.C69_general",
    "Frobby.C69_io",
    "Frobby.C69_io_table",
    "Frobby.C69_topic",
    "Frobby.C69_main",
    "Frobby.C69_time_witness",
    "Frobby.C69_list_witness"
   ],
   "note": "All actions but help and test, for which -time is not listed (C69_time_witness); transform also writes lists that help io does not list (C69_list_witness)."
  },
  {
   "property": "C70",
   "status": "proved",
   "theorems": [
    "Frobby.C70_ideal_exact",
    "Frobby.C70_ideal_unambiguous",
    "Frobby.C70_list_exact",
    "Frobby.C70_list_unambiguous",
    "Frobby.C70_poly_exact",
    "Frobby.C70_poly_unambiguous"
   ],
   "note": "For all texts and all formats, for ideals, lists of ideals and polynomials."
  },
  {
   "property": "C71",
   "status": "partial",
   "theorems": [
    "Frobby.C71_point_free",
    "Frobby.C71_dominating",
    "Frobby.C71_zero_entry",
    "Frobby.C71_edges",
    "Frobby.C71_weakly_generic_sound",
    "Frobby.C71_generic",
    "Frobby.C71_double_triangles",
    "Frobby.C71_remove",
    "Frobby.C71_cycles",
    "Frobby.C71_validate",
    "Frobby.C71_short_cycles",
    "Frobby.C71_read_exact",
    "Frobby.C71_read_two_exact",
    "Frobby.C71_interior_first_false",
    "Frobby.C71_interior_false",
    "Frobby.C71_terminating_roles_false",
    "Frobby.C71_generic_no_zero_false",
    "Frobby.C71_weakly_generic_complete_false",
    "Frobby.C71_cycle_exists",
    "Frobby.C71_validate_zero_false"
   ],
   "note": "Proved for all lists of vectors and all texts. Partial because five comments in SatBinomIdeal.h do not hold, with witnesses: isGeneric, isInterior (twice), isTerminatingEdge, initialIdealIsWeaklyGeneric with a zero entry; C71_generic gives the exact condition when no initial monomial divides another."
  },
  {
   "property": "C72",
   "status": "partial",
   "theorems": [
    "Frobby.C72_values",
    "Frobby.C72_safe_partial",
    "Frobby.C72_safe_release",
    "Frobby.C72_debug_exact",
    "Frobby.C72_no_leak",
    "Frobby.C72_all_released",
    "Frobby.C72_reuse",
    "Frobby.C72_history_example",
    "Frobby.C72_debug_stops"
   ],
   "note": "Proved for all histories in release builds, and in debug builds for all operations other than making a term with variables one without by assignment or reset: those break the assertion size > 0 (C72_debug_stops); C72_debug_exact shows that they are the only ones."
  },
  {
   "property": "C73",
   "status": "partial",
   "theorems": [
    "Frobby.C73_run",
    "Frobby.C73_inside",
    "Frobby.C73_junk",
    "Frobby.C73_value_partial",
    "Frobby.C73_action",
    "Frobby.C73_default",
    "Frobby.C73_sizes",
    "Frobby.C73_sizes_wrong",
    "Frobby.C73_transpose_fits",
    "Frobby.C73_splits_keep_variable",
    "Frobby.C73_no_variable_wrong"
   ],
   "note": "The run on words is the run on sets, never leaves an array and does not depend on the contents of new memory, for every configuration. Partial because the value needs the hypotheses of C47 (one configuration gives wrong values and some strategies need not end) and because the size check of rawConstruct misses an overflow of only one of the two sizes (witness C73_sizes_wrong)."
  },
  {
   "property": "C74",
   "status": "proved",
   "theorems": [
    "Frobby.C74_readIdeal",
    "Frobby.C74_readSquareFree",
    "Frobby.C74_inside",
    "Frobby.C74_small",
    "Frobby.C74_euler_text",
    "Frobby.C74_euler_default"
   ],
   "note": "Reading is compared with the model on lists of exponents, whose meaning is the subject of C44 and C70, and the euler action with the one of C58."
  },
  {
   "property": "C75",
   "status": "partial",
   "theorems": [
    "Frobby.C75_text",
    "Frobby.C75_reader_partial",
    "Frobby.C75_ideal_partial",
    "Frobby.C75_capacity",
    "Frobby.C75_byte255_ignored",
    "Frobby.C75_failure_ignored",
    "Frobby.C75_byte255_witness",
    "Frobby.C75_failure_witness"
   ],
   "note": "The code takes a byte 255 for the end of the file and a failing read for the end of the file, so the claim that the whole file is read is false; both are shown in general (C75_byte255_ignored, C75_failure_ignored) and with a file (witness theorems). Everything else is proved for all files, with the text before the first byte 255. An error is counted at the place up to which the scanner has read, which is after the character that is not the expected one."
  },
  {
   "property": "C76",
   "status": "partial",
   "theorems": [
    "Frobby.C76_ideals_partial",
    "Frobby.C76_lists_partial",
    "Frobby.C76_dual_partial",
    "Frobby.C76_optimize_partial",
    "Frobby.C76_frobenius_partial",
    "Frobby.C76_grobner_partial",
    "Frobby.C76_poly_partial",
    "Frobby.C76_lattice_partial",
    "Frobby.C76_satbinom_partial",
    "Frobby.C76_failure_witness",
    "Frobby.C76_byte255_witness",
    "Frobby.C76_twice_witness"
   ],
   "note": "Proved for all files and all sizes of the buffer, for what comes before a byte 255; for rings without ideals in the format of 4ti2 if there is no such byte. False as stated for bytes 255 and when reading fails (witnesses), and for bases of lattices with 2^32 rows or more and no columns, where reading has no end."
  },
  {
   "property": "C77",
   "status": "partial",
   "theorems": [
    "Frobby.C77_values_partial",
    "Frobby.C77_memory_partial",
    "Frobby.C77_no_leak_partial",
    "Frobby.C77_exception_witness"
   ],
   "note": "All sequences of operations, with memory running out at any of them except where a new generator gets its entries: there the code keeps a generator without exponents, which C77_exception_witness shows."
  },
  {
   "property": "C78",
   "status": "proved",
   "theorems": [
    "Frobby.C78_consumer",
    "Frobby.C78_decoder"
   ],
   "note": "All sequences of calls with well-formed terms; consumers are any that look at what they get during the calls and do not alter it, as the interface demands."
  },
  {
   "property": "C79",
   "status": "partial",
   "theorems": [
    "Frobby.C79_values_partial",
    "Frobby.C79_memory_partial",
    "Frobby.C79_divisor",
    "Frobby.C79_own_generator_witness",
    "Frobby.C79_own_product_witness",
    "Frobby.C79_self_assignment_witness",
    "Frobby.C79_self_insert_witness"
   ],
   "note": "For all programs whose calls are safe in the sense of ObjectOp.Safe. Missing: assigning an ideal to itself, product/colon/mapExponentsToZero by one of the ideal's own generators, and insertNonMultiples of the ideal into itself, where the code violates the claim (witnesses)."
  },
  {
   "property": "C80",
   "status": "proved",
   "theorems": [
    "Frobby.C80_texts",
    "Frobby.C80_memory",
    "Frobby.C80_writers"
   ],
   "note": "For all programs; no exceptions."
  },
  {
   "property": "C81",
   "status": "partial",
   "theorems": [
    "Frobby.C81_append",
    "Frobby.C81_read_back",
    "Frobby.C81_injective",
    "Frobby.C81_names",
    "Frobby.C81_long_long_partial",
    "Frobby.C81_long_long_witness"
   ],
   "note": "unsigned long and unsigned int: all numbers. unsigned long long: where unsigned long has 64 bits; the code violates the claim where it has 32 bits (witness)."
  },
  {
   "property": "C82",
   "status": "partial",
   "theorems": [
    "Frobby.Own.C82_push",
    "Frobby.Own.C82_delete",
    "Frobby.Own.C82_cache",
    "Frobby.Own.C82_basecase",
    "Frobby.Own.C82_intersect",
    "Frobby.Own.C82_read_partial",
    "Frobby.Own.C82_read_witness",
    "Frobby.Own.C82_action_partial",
    "Frobby.Own.C82_strategy_partial",
    "Frobby.Own.C82_strategy_witness"
   ],
   "note": "Proved for push_back, ElementDeleter, ObjectCache, HilbertBasecase and intersections. Reading loses one entry for each ideal (releaseIdeal does not delete it) and nothing else. A strategy whose run throws while it has tasks is destroyed with undefined behaviour; otherwise nothing is lost."
  },
  {
   "property": "C83",
   "status": "partial",
   "theorems": [
    "Frobby.Stat.C83_transparent",
    "Frobby.Stat.C83_printed",
    "Frobby.Stat.C83_report_witness",
    "Frobby.Stat.C83_debug_witness",
    "Frobby.Stat.C83_report_partial",
    "Frobby.Stat.C83_euler_transparent",
    "Frobby.Stat.C83_euler_states_partial",
    "Frobby.Stat.C83_euler_debug",
    "Frobby.Stat.C83_euler_states_witness"
   ],
   "note": "The options change nothing (C83_transparent, C83_euler_transparent). The report on slices would be right if the slices were given to the wrapper (C83_report_partial), but the code never does so, and every report is empty (C83_printed, C83_report_witness, C83_debug_witness). The number of states of Euler characteristics is right for the first non-trivial computation of an object (C83_euler_states_partial) and wrong otherwise (C83_euler_states_witness)."
  },
  {
   "property": "C84",
   "status": "partial",
   "theorems": [
    "Frobby.Choice.C84_filter",
    "Frobby.Choice.C84_single",
    "Frobby.Choice.C84_standard",
    "Frobby.Choice.C84_popgcd",
    "Frobby.Choice.C84_widen",
    "Frobby.Choice.C84_combined_partial",
    "Frobby.Choice.C84_combined_witness"
   ],
   "note": "Single strategies, popgcd, widen_X and standard pivots are as described (C84_filter, C84_single, C84_standard, C84_popgcd, C84_widen). A combination is as described unless a strategy that is not the last one would eliminate all candidates (C84_combined_partial); in that case the code differs from the help (C84_combined_witness)."
  },
  {
   "property": "C85",
   "status": "partial",
   "theorems": [
    "Frobby.SplitChoice.C85_best",
    "Frobby.SplitChoice.C85_power",
    "Frobby.SplitChoice.C85_gcd",
    "Frobby.SplitChoice.C85_mingen",
    "Frobby.SplitChoice.C85_maxlabel",
    "Frobby.SplitChoice.C85_varlabel",
    "Frobby.SplitChoice.C85_minlabel_witness",
    "Frobby.SplitChoice.C85_minlabel_partial",
    "Frobby.SplitChoice.C85_minlabel_slice",
    "Frobby.SplitChoice.C85_minlabel_later",
    "Frobby.SplitChoice.C85_indep",
    "Frobby.SplitChoice.C85_degree"
   ],
   "note": "minlabel leaves out the first variable when it looks for the least number of exponents equal to one (C85_minlabel_witness); C85_minlabel_slice shows it on a slice with all the invariants of a simplified slice that no base case applies to; C85_minlabel_partial covers all cases in which another variable has the least number; C85_minlabel_later says what is chosen instead. indep never makes variables independent and always uses the pivot of median (C85_indep). All other strategies choose what is described."
  },
  {
   "property": "C86",
   "status": "proved",
   "theorems": [
    "Frobby.DegreeChoice.C86_typical",
    "Frobby.DegreeChoice.C86_most",
    "Frobby.DegreeChoice.C86_typicalNG",
    "Frobby.DegreeChoice.C86_some",
    "Frobby.DegreeChoice.C86_gcd",
    "Frobby.DegreeChoice.C86_tight",
    "Frobby.DegreeChoice.C86_median",
    "Frobby.DegreeChoice.C86_widen"
   ],
   "note": "For distinct generators, which minimal generators are."
  },
  {
   "property": "C87",
   "status": "partial",
   "theorems": [
    "Frobby.TermOrder.C87_lex",
    "Frobby.TermOrder.C87_reverse",
    "Frobby.TermOrder.C87_reverse_false",
    "Frobby.TermOrder.C87_equals"
   ],
   "note": "lexCompare and equals are as documented. reverseLexCompare is the lexicographic order turned around: x_1 < ... < x_n and multiplication respects it, but one is the greatest monomial, so it is not a term order (C87_reverse_false) and the documented example x^(0,0) < x^(1,0) is wrong. The sorting that uses it needs a strict weak order only (C35)."
  }
 ]
}

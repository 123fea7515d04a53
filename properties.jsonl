{"id": "C01", "title": "Partition enumeration is exact", "statement": "For n >= 1, generate_partitions_of_n(n) returns every way of writing n as a sum of positive integers, each exactly once, every entry written largest part first, and the list in strictly decreasing lexicographic order.", "quantifier": "every positive integer n", "why_tests_cant": "Tests compare the result with a stored list for a few n; completeness and absence of repeats for all n needs induction over the recursion.", "anchors": ["termfactory/helper_funcs.py: _partitions, generate_partitions_of_n"]}
{"id": "C02", "title": "Partition classes split the partitions", "statement": "The partitions of n fall into three disjoint classes: the single part (n), the 'linked disconnected' ones, and the 'un-linked disconnected' ones; the mixed list is exactly the partitions with at most one part greater than one, the linked list is the mixed list without (n), and the un-linked list is everything else, in decreasing order.", "quantifier": "every positive integer n and every partition of n", "why_tests_cant": "The classification uses the arithmetic test n - max(p) + 1 == len(p); that it means 'at most one part > 1' is a counting fact about all partitions, not about samples.", "anchors": ["termfactory/helper_funcs.py: generate_mixed_partitions_of_n, generate_linked_disconnected_partitions_of_n, generate_un_linked_disconnected_partitions_of_n"]}
{"id": "C03", "title": "unique_permutations returns each rearrangement once", "statement": "unique_permutations(xs) contains a tuple if and only if it is a rearrangement of xs, contains no tuple twice, and is sorted.", "quantifier": "every finite sequence over a totally ordered type, with or without repeated entries", "why_tests_cant": "Tests use a few short sequences; n! growth makes sampling useless and repeated entries are the interesting case.", "anchors": ["termfactory/helper_funcs.py: unique_permutations"]}
{"id": "C04", "title": "Saved truncations reload unchanged", "statement": "Saving a truncation dictionary whose keys and values are valid for one of the three ansatz families and loading it again gives back the same mapping from truncation keys to values.", "quantifier": "every valid truncation dictionary of each of the three families, in every insertion order", "why_tests_cant": "The value space and key orders are a product space; the in-place rename of keys while iterating is order sensitive.", "anchors": ["termfactory/truncations.py: save_trunc_to_JSON, load_trunc_from_JSON, _save_to_JSON, _load_from_JSON", "termfactory/truncation_keys.py: change_dictionary_keys_*"]}
{"id": "C05", "title": "Loading rejects every invalid file and nothing else", "statement": "load_trunc_from_JSON(path) returns a dictionary exactly when the file's keys are precisely the keys of one of the three families and every value lies between 1 and the documented maximum of its key; in every other case it raises.", "quantifier": "every finite dictionary from strings to integers", "why_tests_cant": "The rejected inputs are infinitely many (missing, extra, misspelled keys, out of range values, coincidences of length between families).", "anchors": ["termfactory/truncations.py: _load_from_JSON, __verify_keys, _verify_zhz_truncations, _verify_fcc_truncations, _verify_eT_z_t_truncations", "termfactory/truncation_keys.py: key_list_type"]}
{"id": "C06", "title": "Direct verification accepts exactly the documented dictionaries", "statement": "The fcc/zhz/eT verification functions are documented to accept a dictionary only when its set of keys is exactly the family's key set and each value is in [1, maximum]. What they accept: non-empty, only known keys, all family keys present and in range; dictionaries with additional known keys are accepted as well, contrary to the documentation.", "quantifier": "every dictionary from keys to integers", "why_tests_cant": "A test can show one accepted or rejected dictionary, not that acceptance coincides with a predicate on all of them.", "anchors": ["termfactory/truncations.py: __verify_keys, _verify_*_truncations"]}
{"id": "C07", "title": "Command-line truncations reach the right key and family", "statement": "driver -t v1 ... vk with k = 3, 4 or 5 builds the truncation dictionary that maps the family's i-th documented key to vi, and the family inferred from that dictionary is the one with k keys; any other k raises. Values are not range-checked at this point.", "quantifier": "every tuple of integers of every length", "why_tests_cant": "The mapping must hold for all tuples; the family is inferred twice from lengths at two different places.", "anchors": ["termfactory/driver.py: _make_trunc, __main__", "termfactory/truncation_keys.py: key_list_type"]}
{"id": "C08", "title": "Generation is dispatched to the requested ansatz only with matching truncations", "statement": "Asking for LaTeX or Python runs the generator of the requested ansatz exactly when the truncation dictionary has the number of keys of that ansatz; mismatches raise before anything is written, Python for the z_t ansatz always raises, unknown ansatz names always raise, and options without an 'ansatz' entry raise KeyError although a default is documented.", "quantifier": "every combination of options and truncation dictionary", "why_tests_cant": "Decision table over optional keyword arguments; defaults are merged into a different dictionary than the one that is read.", "anchors": ["termfactory/_glue_.py: _generate_python, _generate_latex"]}
{"id": "C09", "title": "Output file names identify the request", "statement": "For one generator kind, two requests write to the same path exactly when the parameters that are meant to be part of the name agree (for the eT python generator: side, H, P, T, exp and Z values; for the LaTeX and full-CC generators: ground state, side and f-term flags, and the generator).", "quantifier": "every pair of requests, all integer truncation values", "why_tests_cant": "Injectivity of decimal rendering plus delimiters quantifies over all pairs of integers.", "anchors": ["termfactory/_glue_.py: _gen_wrapper_*"]}
{"id": "C10", "title": "Operator families are exact", "statement": "The projection operators, Hamiltonian operators and S operators generated for given truncations are exactly the (m, n) pairs allowed by the truncations (m+n <= cc rank and <= projection order; m+n <= H rank; 1 <= m+n <= cc rank, and n = 0 when restricted to the ground state), each exactly once, projections ordered by rank.", "quantifier": "all natural-number truncation values and both settings of the ground-state flag", "why_tests_cant": "Loop bounds must be right for all truncation values.", "anchors": ["termfactory/latex_full_cc.py: generate_omega_operator, generate_full_cc_hamiltonian_operator, generate_s_operator"]}
{"id": "C11", "title": "Taylor expansion of e^S is exact", "statement": "Order 0 of the generated expansion is the identity, order k >= 1 consists of all length-k products of S operators, each exactly once, for every k up to the requested order.", "quantifier": "all truncation values, all orders", "why_tests_cant": "Combinatorial enumeration of unbounded size.", "anchors": ["termfactory/latex_full_cc.py: generate_s_taylor_expansion"]}
{"id": "C12", "title": "Every full-CC term is a fully paired contraction", "statement": "In every generated term (Omega, h, t...t), every creation operator is contracted with exactly one annihilation operator: t amplitudes contract only with Omega and h, the numbers recorded on Omega and h for their contractions with each t match those recorded on that t, and what is left over on Omega matches what is left over on h in both directions.", "quantifier": "all truncations, every projection operator, every Hamiltonian operator, every Taylor order, every iteration order of the intermediate sets", "why_tests_cant": "The number of terms grows combinatorially and the intermediate set order is unspecified.", "anchors": ["termfactory/latex_full_cc.py: _filter_out_valid_s_terms, _generate_explicit_connections, _generate_all_omega_h_connection_permutations"]}
{"id": "C13", "title": "No valid full-CC contraction is lost", "statement": "Every way of pairing all operators of Omega, h and a product of k t amplitudes without t-t, Omega-Omega or h-h contractions appears among the generated terms of Taylor order k; the early rejection tests (balance, t joins t, Omega joins itself, h joins itself) never remove a product that has such a pairing.", "quantifier": "all truncations, projection operators, Hamiltonian operators, Taylor orders and pairings", "why_tests_cant": "Completeness over an unbounded combinatorial space.", "anchors": ["termfactory/latex_full_cc.py: _generate_valid_s_n_operator_permutations, _t_joining_with_t_terms, _omega_joining_with_itself, _h_joining_with_itself, _generate_all_valid_t_connection_permutations"]}
{"id": "C14", "title": "No full-CC contraction is generated twice", "statement": "Two generated terms for the same projection operator never describe the same contraction (same h and same multiset of labelled t amplitudes), even though products of S operators are enumerated with repetitions.", "quantifier": "all truncations, projection operators and set iteration orders", "why_tests_cant": "Uniqueness across orders and h operators, over unbounded enumerations.", "anchors": ["termfactory/latex_full_cc.py: _remove_duplicate_s_permutations, _filter_out_valid_s_terms"]}
{"id": "C15", "title": "Full-CC term generation never trips its own guards", "statement": "For verified truncations no assertion or 'should not happen' exception inside the full-CC term generation and classification can be raised: remainders are never negative, the upper and lower assignments have equal length, a term with left-over mismatch on one side only cannot occur, and a linear projection never meets a linked disconnected term.", "quantifier": "all verified truncations, projection operators and set iteration orders", "why_tests_cant": "Absence of failures for all inputs.", "anchors": ["termfactory/latex_full_cc.py: _generate_explicit_connections, _seperate_s_terms_by_connection, _generate_all_omega_h_connection_permutations"]}
{"id": "C16", "title": "f-term removal is exact", "statement": "With remove_f_terms the generated terms are exactly those generated without it in which no creation operator of Omega is contracted with h, in the same order.", "quantifier": "all truncations, projection operators and set iteration orders", "why_tests_cant": "Relation between two runs for all inputs.", "anchors": ["termfactory/latex_full_cc.py: _remove_f_zero_terms, _filter_out_valid_s_terms"]}
{"id": "C17", "title": "Connected / linked / unlinked classification is a partition", "statement": "Each generated term is put in exactly one of the three groups; it is fully connected iff every t amplitude is contracted with h (or there is no t), unlinked iff some t amplitude is contracted with all of Omega and nothing else, linked otherwise; generation order is preserved within each group and nothing is lost.", "quantifier": "all term lists produced for all truncations", "why_tests_cant": "Loop with break/else and flags; must be right for every list.", "anchors": ["termfactory/latex_full_cc.py: _seperate_s_terms_by_connection"]}
{"id": "C18", "title": "Full-CC LaTeX index labels describe the contraction", "statement": "In every printed term each summation letter occurs exactly twice, once on h and once on a t, in opposite positions (upper on one, lower on the other), each letter of an external index occurs exactly once, the number of external letters is the rank of Omega, and no letter is both.", "quantifier": "every contraction whose index counts fit the alphabets (10 summation, 8 external letters), in particular every term of every verified truncation", "why_tests_cant": "Offsets are threaded through mutable dictionaries over arbitrarily long t lists.", "anchors": ["termfactory/latex_full_cc.py: _build_h_term_latex_labels, _build_t_term_latex_labels, _build_t_term_latex_group"]}
{"id": "C19", "title": "Full-CC prefactors have the documented value and simplification preserves it", "statement": "The printed prefactor of a term with t amplitudes has the value x!/(h.m! h.n! k!) where k is the number of t amplitudes and x the number of distinct t amplitudes contracted with h; cancelling common factors never changes the value and leaves no common factor; the LaTeX and Python generators print the same value.", "quantifier": "every h and every list of labelled t amplitudes", "why_tests_cant": "String-level cancellation must preserve a rational number for all multisets of factors.", "anchors": ["termfactory/latex_full_cc.py: _build_latex_prefactor, _simplify_full_cc_python_prefactor", "termfactory/code_full_cc.py: _build_full_cc_python_prefactor"]}
{"id": "C20", "title": "Every full-CC term is printed", "statement": "The printed sum of a group of terms contains every term of the group exactly once, in order. (False when the group has 14 or more terms and the number is not a multiple of 7: the trailing terms are silently dropped.)", "quantifier": "every list of terms", "why_tests_cant": "Depends on list length modulo the line width; tests with small truncations never reach the split.", "anchors": ["termfactory/latex_full_cc.py: _make_latex"]}
{"id": "C21", "title": "Full-CC left-hand side lists every product once", "statement": "The left-hand side of a projection equation lists exactly the multisets of t amplitudes whose upper/lower indices add up to the projection's indices, each once, ordered by the number of amplitudes, and contains one time-derivative term per amplitude of every product and one epsilon term per product.", "quantifier": "every projection operator (m, n)", "why_tests_cant": "Enumeration over products of unbounded length.", "anchors": ["termfactory/latex_full_cc.py: _generate_left_hand_side"]}
{"id": "C22", "title": "Generated full-CC einsum strings are well formed", "statement": "In every generated einsum the electronic subscripts form a chain from the row index a to the column index b through all operands; every vibrational summation letter occurs on exactly two operands and every external letter on exactly one operand and in the output; the number of subscript groups equals the number of operands; the number of letters on each operand equals its tensor rank.", "quantifier": "every full-CC term with at most six t amplitudes whose index counts fit the alphabets, in particular every term of every verified truncation", "why_tests_cant": "Labels are produced by mutable offset bookkeeping over arbitrary t lists.", "anchors": ["termfactory/code_full_cc.py: _full_cc_einsum_electronic_components, _full_cc_einsum_vibrational_components, _build_t_term_python_group"]}
{"id": "C23", "title": "Every full-CC term reaches the generated code", "statement": "Every term of a group is accumulated into the residual by the generated function. (False: a later term with the same Hamiltonian rank, highest t rank and prefactor erases the earlier ones.)", "quantifier": "every list of terms", "why_tests_cant": "Needs a collision of three derived keys, which small truncations do not produce.", "anchors": ["termfactory/code_full_cc.py: _write_cc_einsum_python_from_list"]}
{"id": "C24", "title": "Optimised full-CC code consumes its paths in order", "statement": "For every setting of the runtime truncation, the i-th precomputed contraction expression consumed by the optimised residual function was built for the very term that consumes it, and none is left over or missing.", "quantifier": "every term list and every runtime truncation", "why_tests_cant": "Alignment of two independently generated conditional programs.", "anchors": ["termfactory/code_full_cc.py: _write_cc_einsum_python_from_list, _write_cc_optimized_paths_from_list"]}
{"id": "C25", "title": "W operator code contains one einsum per distinct index assignment", "statement": "The generated contribution of a product of t amplitudes to W of a given order contains exactly one term for each distinct assignment of the t orders to positions, each operand's number of mode letters equals its order, letters of one term are distinct and together are exactly the output's letters.", "quantifier": "every multiset of t orders that fits the index alphabet", "why_tests_cant": "Number of assignments is factorial; string building is by slices.", "anchors": ["termfactory/code_w_equations.py: _w_einsum_list, _generate_surface_index, _generate_mode_index"]}
{"id": "C26", "title": "W prefactors", "statement": "The prefactor printed for a product of k t amplitudes of orders n1..nk is 1/(k! n1! ... nk!), and the LaTeX W prefactor agrees with the multiplicities of equal amplitudes.", "quantifier": "every list of t orders", "why_tests_cant": "Formula over all lists.", "anchors": ["termfactory/code_w_equations.py: _generate_w_operator_prefactor", "termfactory/latex_w_equations.py: generate_w_prefactor"]}
{"id": "C27", "title": "Residual terms have the documented prefactor value", "statement": "The numerical prefactor printed for a residual term equals the value of the unsimplified symbolic prefactor. (False for quadratic h terms of high order.)", "quantifier": "every residual term", "why_tests_cant": "String parsing of fractions; errors only show at high order.", "anchors": ["termfactory/code_residual_equations.py: construct_prefactor, simplified_prefactor, extract_numerator_denominator_from_string"]}
{"id": "C28", "title": "Residual equations contain every h-W pairing once", "statement": "For residual order n the generated data pairs each Hamiltonian operator with exactly the W operators that close all summation indices, each pairing once.", "quantifier": "all residual orders and Hamiltonian ranks", "why_tests_cant": "Enumeration for all orders.", "anchors": ["termfactory/code_residual_equations.py: generate_residual_string_list, generate_residual_data"]}
{"id": "C29", "title": "Every z_t (ZHZ) term is a fully paired contraction", "statement": "In every generated left-z / h / right-z term all operators are paired: what each factor records about its contractions with every other factor agrees with what the other factor records, and the recorded numbers add up to the factor's indices.", "quantifier": "all truncations, all projection, h, left-z and right-z operators", "why_tests_cant": "Combinatorial enumeration with many cross constraints.", "anchors": ["termfactory/latex_zhz.py: _filter_out_valid_z_terms, _generate_explicit_z_connections, _generate_all_o_h_z_connection_permutations"]}
{"id": "C30", "title": "No valid z_t contraction is lost or repeated", "statement": "Every full pairing of a projection operator, an h operator and a right (left, or both) z operator without self contractions is generated exactly once.", "quantifier": "all truncations and operators", "why_tests_cant": "Completeness over an unbounded space.", "anchors": ["termfactory/latex_zhz.py: _generate_valid_z_n_operator_permutations, _generate_all_valid_z_connection_permutations"]}
{"id": "C31", "title": "z_t LaTeX labels describe the contraction", "statement": "In every printed z_t term each summation letter occurs exactly twice, on the two factors it contracts and in opposite positions, and each external letter exactly once. (Requires that the number of summation indices fits the five available letters; otherwise letters are silently missing.)", "quantifier": "every generated z_t term", "why_tests_cant": "Offsets across three factors; alphabet exhaustion only shows at high rank.", "anchors": ["termfactory/latex_zhz.py: _build_left_z_term, _build_hz_term_latex_labels, _build_right_z_term"]}
{"id": "C32", "title": "z_t prefactors", "statement": "The prefactor printed for a z_t term has the value of one over the product of the factorials of the contraction multiplicities the documentation lists.", "quantifier": "every generated z_t term", "why_tests_cant": "Formula over all terms with cancellation of strings.", "anchors": ["termfactory/latex_zhz.py: _build_hz_latex_prefactor"]}
{"id": "C33", "title": "Every z_t term is printed exactly once", "statement": "The printed sum of a group of z_t terms contains every term exactly once. (False for 14 or more terms: the last line repeats or drops terms.)", "quantifier": "every list of terms", "why_tests_cant": "Depends on list length modulo line width.", "anchors": ["termfactory/latex_zhz.py: _prepare_second_z_latex, _prepare_third_z_latex, _prepare_fourth_z_latex"]}
{"id": "C34", "title": "Every eT_z_t term is a fully paired contraction", "statement": "In every generated e^T / h / z term all operators are paired consistently, for the supported regime (T rank 1, projections without creation operators, ground-state z).", "quantifier": "all verified truncations, every projection, h, Taylor order and z operator", "why_tests_cant": "Three-level enumeration with accumulated state.", "anchors": ["termfactory/latex_eT_zhz.py: _filter_out_valid_eTz_terms, _generate_all_o_eT_h_z_connection_permutations, _generate_explicit_eT_z_connections"]}
{"id": "C35", "title": "No eT_z_t contraction is lost although only one assignment per z is kept", "statement": "In the supported regime, every full contraction of the projection operator with e^T of order k, h and z is recorded by exactly one generated term, although the program keeps only one assignment of the t indices for each assignment of the z indices.", "quantifier": "all verified truncations", "why_tests_cant": "The code keeps the last loop iteration only; whether this loses anything depends on an arithmetic argument over all inputs.", "anchors": ["termfactory/latex_eT_zhz.py: _generate_all_o_eT_h_z_connection_permutations"]}
{"id": "C36", "title": "Generated eT einsum strings are well formed and never run out of letters", "statement": "For every verified truncation, in every generated eT einsum each vibrational summation letter occurs on exactly two operands, each external letter on one operand and in the output, operand and subscript counts agree, and the alphabets are never exhausted.", "quantifier": "all verified truncations and all generated terms", "why_tests_cant": "Alphabet capacity is a global bound over all truncations.", "anchors": ["termfactory/code_eT_zhz.py: _eT_zhz_einsum_*_components, _build_*_python_labels"]}
{"id": "C37", "title": "eT prefactors", "statement": "LaTeX and Python prefactors of an eT term have closed forms in the contraction multiplicities; cancelling and reduction preserve the value. (The two generators disagree on terms in which h is contracted with some but not all t amplitudes.)", "quantifier": "every generated eT term", "why_tests_cant": "Formula over all terms.", "anchors": ["termfactory/latex_eT_zhz.py: _build_eThz_latex_prefactor", "termfactory/code_eT_zhz.py: _build_eT_zhz_python_prefactor, _simplify_eT_zhz_python_prefactor"]}
{"id": "C38", "title": "eT LaTeX prints each distinct term exactly once", "statement": "The printed sum contains every distinct term string exactly once, in order of first generation, whatever the number of terms.", "quantifier": "every list of term strings", "why_tests_cant": "Line splitting depends on list length.", "anchors": ["termfactory/latex_eT_zhz.py: _prepare_third_eTz_latex"]}
{"id": "C39", "title": "Generating Python for one side does not depend on earlier calls", "statement": "The operator lists passed to the eT Python generator are modified in place while generating; repeating the generation gives the same result, and the lists passed in for the other state selection are affected. ", "quantifier": "every operator family and call sequence", "why_tests_cant": "History dependence through aliasing.", "anchors": ["termfactory/code_eT_zhz.py: _generate_eT_zhz_einsums, remove_all_excited_state_t_terms"]}
{"id": "C40", "title": "Full-CC Python code for projections with creation operators is empty", "statement": "Whatever the truncation, the functions generated for a projection operator with at least one creation operator only contain `pass`, because the Python generator always removes f terms and only uses ground-state amplitudes; the corresponding contractions exist (and the LaTeX generator can print them).", "quantifier": "all truncations, all projection operators with m >= 1", "why_tests_cant": "A statement about every truncation; tests compare a few generated files.", "anchors": ["termfactory/code_full_cc.py: _generate_full_cc_einsums, _generate_cc_optimized_paths", "termfactory/latex_full_cc.py: _filter_out_valid_s_terms"]}
{"id": "C41", "title": "When full-CC Python generation succeeds", "statement": "For cluster rank and number of amplitudes within the verified limits, Python code is produced exactly when the Hamiltonian truncation is at most 5; rank 6 passes the truncation verification but generation always stops with an IndexError.", "quantifier": "all truncations within the verified limits, all projection ranks", "why_tests_cant": "Success for all inputs; the tests stop at small Hamiltonian ranks.", "anchors": ["termfactory/code_full_cc.py: hamiltonian_order_tag, _write_cc_einsum_python_from_list", "termfactory/truncations.py"]}
{"id": "C42", "title": "The generated W module computes the W operators of the truncation", "statement": "For maximum orders up to 6 a module is generated (above: NotImplementedError). When its compute_w_operators runs successfully it computes exactly the orders the truncation flags ask for (1 to 3 always, 4 with doubles, 5 with triples, 6 with quadruples), and for each order n and each ansatz it adds, for every contributing partition of n exactly once, the sum over the distinct orderings of the product of amplitudes, with the coefficient of the cluster exponential. It runs successfully exactly when all required orders were generated and enough amplitudes are passed; a module generated for fewer than three orders can never be run.", "quantifier": "all maximum orders, all truncation flags, all ansatz flags, all numbers of amplitudes", "why_tests_cant": "Tests compare the generated text of single functions; no test runs the generated module, and the flags and orders multiply.", "anchors": ["termfactory/code_w_equations.py: generate_w_operators_string, _generate_vemx_contributions, _generate_vecc_contributions, _write_w_function_strings, _write_master_w_compute_function"]}
{"id": "C43", "title": "Optimised W code is aligned with its contraction expressions", "statement": "In every run of the generated optimised W functions the k-th next(optimized_einsum) call receives the contraction expression of the very einsum the default function executes at that place (same subscripts, shapes of the actual operands), no iterator runs dry and no expression is left over, and both variants execute the same statements.", "quantifier": "all maximum orders up to 6, all truncation flags, all ansatz flags", "why_tests_cant": "The calls and the list of expressions are written by different functions with different conditions; alignment must hold for every combination of flags.", "anchors": ["termfactory/code_w_equations.py: _optimized_w_einsum_list, _contracted_expressions, _write_optimized_vemx_paths_function, _write_optimized_vecc_paths_function"]}
{"id": "C44", "title": "Ground-state W LaTeX prints every partition once", "statement": "The ground-state W document has one equation per order 1..max, and the equation of order n prints every partition of n exactly once as a product of powers with prefactor 1/prod(multiplicity)!.", "quantifier": "all maximum orders", "why_tests_cant": "Unbounded family of equations; the test checks order 2.", "anchors": ["termfactory/latex_w_equations.py: ground_state_w_equations_latex, count_items, generate_w_prefactor"]}
{"id": "C45", "title": "Excited-state W LaTeX prints every product once", "statement": "The excited-state W document has one equation for each W^m_n with m>=1 and m+n<=max, in order of rank, and the equation prints every product of amplitudes with m upper and n lower indices exactly once with prefactor 1/prod(multiplicity)!.", "quantifier": "all maximum orders, all labels", "why_tests_cant": "Enumeration by brute-force product and set; must hold for every label. (It is false: the single amplitude t^m_n is never printed when n>=1.)", "anchors": ["termfactory/latex_w_equations.py: generate_labels_on_w, generate_t_terms_group, excited_state_w_equations_latex"]}
{"id": "C46", "title": "Rewriting the excited-state W file", "statement": "Running the excited-state W generator on an existing file with at least 29 lines keeps those 29 lines as header and further runs leave the file unchanged; running it twice starting from no file produces two different files.", "quantifier": "all previous file contents, all generated equations, all run histories", "why_tests_cant": "A statement about histories of runs and arbitrary existing files.", "anchors": ["termfactory/latex_w_equations.py: excited_state_w_equations_latex"]}
{"id": "C47", "title": "The enumeration of t products behind the dictionary of t terms", "statement": "For every n the function returns lists that sum to n and contains every partition of n. (False: n=1 gives a list summing to 2, n=0 raises, and for every n>=6 partitions such as (3, n-3) are missing; it is exact for 2..5.)", "quantifier": "all n", "why_tests_cant": "Holds for the small n a test would use and fails for all larger n.", "anchors": ["termfactory/code_w_equations.py: _next_list, _generate_t_lists"]}
{"id": "C48", "title": "A generated residual function adds every contribution of the Hamiltonian once", "statement": "The module of residual functions is generated iff order <= 6 and rank <= 2. Calling the function of order k with the W operators and truncation flags it asks for adds, for each Hamiltonian term with at most k upper labels whose W operator was computed (and which is allowed by truncation.quadratic), exactly one einsum with coefficient 1/(m! n! (k-m)!). Calls with too few W operators or without the flag raise. (False: the term with two upper labels is skipped in orders 2 and 3 when w_(k+2) is present.)", "quantifier": "all orders, ranks, truncation flags, and sets of W operators that are None", "why_tests_cant": "The emitted code branches on which W operators are None and on flags; every combination matters.", "anchors": ["termfactory/code_residual_equations.py: write_residual_function_string, generate_python_code_for_residual_functions"]}
{"id": "C49", "title": "Residual einsums name every axis of their tensors", "statement": "In every einsum of a generated residual function each operand and the result have as many letters as their tensors have axes. (False from order 5 on: only four free letters exist.)", "quantifier": "all residual orders and Hamiltonian ranks", "why_tests_cant": "Depends on the letters available for every order.", "anchors": ["termfactory/code_residual_equations.py: write_residual_function_string"]}
{"id": "C50", "title": "Residuals from the W operators of the same truncation are complete", "statement": "When the generated W module is run with a truncation and the residual function of order k is called with the returned tuple and the same truncation, the residual contains every contribution of the Hamiltonian once with the right coefficient. (False for quadratic truncations in orders 2 and 3, and in orders 5 and 6, where the call raises.)", "quantifier": "all truncation flag combinations, module sizes and orders", "why_tests_cant": "A property of two generated modules run together under every truncation.", "anchors": ["termfactory/code_residual_equations.py: write_residual_function_string", "termfactory/code_w_equations.py: _write_master_w_compute_function"]}
{"id": "C51", "title": "Derivative equations subtract every product of amplitudes with one derivative exactly once", "statement": "The module of derivative equations is generated iff the maximum order is at most 6. solve_<order k>_equations succeeds iff the truncation flag of the order is set, enough W operators, amplitudes and derivatives are passed, the W operator of the order was computed and the residual function succeeds; it then combines the residual, the epsilon term with 1/k! and, for each product of amplitudes of the ansatz other than the single amplitude, one statement with the coefficient of the product in the cluster exponential that sums each ordering with each position of the derivative exactly once, every einsum being a correct product.", "quantifier": "all maximum orders, orders, ansatz and truncation flags, numbers of arguments and residual modules", "why_tests_cant": "Reference files fix single outputs; exactly-once over orderings and positions under every flag combination is a universal statement.", "anchors": ["termfactory/code_dt_equations.py: _write_linked_disconnected_strings, _write_un_linked_disconnected_strings, _write_dt_amplitude_strings, _write_master_dt_amplitude_function"]}
{"id": "C52", "title": "The subtracted disconnected terms are the time derivative of the W products", "statement": "For any ring of amplitudes with a derivation D, the value of the disconnected terms of order k with dt_n = D(t_n) equals D of the value of the products of amplitudes (other than the single amplitude) that the generated W code adds to W_k for the same ansatz, for every truncation containing all ranks below k.", "quantifier": "all rings, derivations, amplitude values, ansaetze, truncations, orders", "why_tests_cant": "An algebraic identity between two generated modules over arbitrary tensors.", "anchors": ["termfactory/code_dt_equations.py: _generate_disconnected_einsum_operands_list, _write_linked_disconnected_strings", "termfactory/code_w_equations.py: _write_w_function_strings"]}
{"id": "C53", "title": "Amplitude derivatives can be computed from the generated W and residual modules", "statement": "With the W operators returned by the generated W module and the generated residual functions for the same truncation (closed downwards), the derivative of order k is computed whenever enough amplitudes are passed. (False for orders 5 and 6.)", "quantifier": "all truncations closed downwards, ansaetze, module sizes, orders", "why_tests_cant": "A property of three generated modules run together.", "anchors": ["termfactory/code_dt_equations.py: generate_dt_amplitude_string", "termfactory/code_residual_equations.py: write_residual_function_string", "termfactory/code_w_equations.py: _write_master_w_compute_function"]}
{"id": "C54", "title": "The optimised derivative code serves every contraction with its own expression", "statement": "The optimised solvers execute the same statements as the default ones; each next(optimized_einsum) is served by the expression of the einsum at that place, none is left over, and the epsilon term uses the expression of its order. (False for truncations with gaps: StopIteration, IndexError or the expression of another order.)", "quantifier": "all truncations, ansaetze, orders", "why_tests_cant": "The alignment of iterators depends on every truncation flag.", "anchors": ["termfactory/code_dt_equations.py: _write_optimized_epsilon_paths_function, _write_optimized_linked_paths_function, _write_optimized_unlinked_paths_function, _contracted_expressions"]}
{"id": "C55", "title": "Letters of the last sum of a z_t equation", "statement": "In the printed sum of products of a differentiated amplitude and a z operator, the letters of every product are those of the left-hand side, each exactly once. (False when the projection operator has creation operators and z has letters: a letter is then printed twice.)", "quantifier": "all truncations, every equation of the document, every product", "why_tests_cant": "Index offsets collide only for mixed projections.", "anchors": ["termfactory/latex_zhz.py: _build_fifth_z_term"]}
{"id": "C56", "title": "The z_t document has one equation per projection and one term per contributing operator", "statement": "The z_t document has exactly one equation for each projection operator up to the truncation, a heading exactly where the rank increases; each equation has one h z term per operator of the (pruned) Hamiltonian that has a contraction with a z operator of the truncation, in order, with the powers of f, the prefactor and the labels of this contraction. It is produced for ground-state z operators and projections up to rank 8 only.", "quantifier": "all truncations", "why_tests_cant": "Quantifies over all truncations and a nested enumeration.", "anchors": ["termfactory/latex_zhz.py: generate_z_t_symmetric_latex, _generate_z_symmetric_latex_equations"]}
{"id": "C57", "title": "Letters of the projection operator in z_t equations", "statement": "The letters printed on the annihilation (creation) operators of the projection operator are those of the superscript (subscript) of the amplitude that is projected out. (False for mixed projections.)", "quantifier": "all truncations, every equation", "why_tests_cant": "Wrong only for mixed projections.", "anchors": ["termfactory/latex_zhz.py: _generate_z_symmetric_latex_equations"]}
{"id": "C58", "title": "Free letters of a z_t equation", "statement": "The free letters of the left-hand side of a z_t equation are the external letters of its terms. (False: they are taken from disjoint alphabets, and from rank 3 on the letters of the left-hand side are also used as summation letters.)", "quantifier": "all truncations, every equation", "why_tests_cant": "A property of the whole equation, across three label generators.", "anchors": ["termfactory/latex_zhz.py: _generate_z_symmetric_latex_equations, _build_hz_term_latex_labels"]}
{"id": "C59", "title": "The bare h term of a z_t equation", "statement": "Each z_t equation of rank at least 1 shows the bare h term with as many upper and lower letters as the projection operator has annihilation and creation operators, exactly when the Hamiltonian used has this operator. (False: it is always printed.)", "quantifier": "all truncations, every equation", "why_tests_cant": "Depends on the relation between two truncations.", "anchors": ["termfactory/latex_zhz.py: _build_first_z_term, generate_z_t_symmetric_latex"]}
{"id": "C60", "title": "Powers of f and the connectedness of z_t terms", "statement": "A printed z h, h z or z h z term shows f to the power of the number of pairs whose creation operator is on the left and f-bar to the power of the number of those whose creation operator is on the right; with remove_f set exactly the terms without f are kept; a z h z term is marked disconnected exactly when one of the z operators is not paired with h.", "quantifier": "every generated term", "why_tests_cant": "Counts over three factors with several special cases.", "anchors": ["termfactory/latex_zhz.py: _f_zL_h_contributions, _fbar_zL_h_contributions, _prepare_fourth_z_latex"]}
{"id": "C61", "title": "Every contraction is added exactly once by the e^T Python functions", "statement": "For every projection operator, every contraction of it with a Taylor order up to the truncation, an h operator of the truncated Hamiltonian (on the left-hand side one without annihilation operators) and a z operator of the truncated ansatz is computed by exactly one statement of the generated functions, whose prefactor is the sum of the weights of the contractions it computes. The only contraction left out is that of z alone with the projection operator. (On the right-hand side leaving this one out is wrong: the term h_0 z^n is missing from the equations.)", "quantifier": "all truncations, both sides, every projection operator and contraction", "why_tests_cant": "A completeness and uniqueness claim over all terms of all truncations.", "anchors": ["termfactory/code_eT_zhz.py: _generate_eT_zhz_einsums, _write_third_eTz_einsum_python, _eT_zhz_einsum_subscripts"]}
{"id": "C62", "title": "When the e^T Python module can be generated", "statement": "Generation succeeds for every truncation the checks accept. (False: exactly when H is at most 5 and no z operator of rank 6 occurs; z of rank 6 occurs when CC is 6 and the projection order plus the Taylor order, plus H on the right-hand side, reach 6.)", "quantifier": "all truncations with T = 1, both sides", "why_tests_cant": "Depends on which terms exist for each combination of five truncation numbers.", "anchors": ["termfactory/code_eT_zhz.py: _generate_eT_zhz_python_file_contents, _write_third_eTz_einsum_python, hamiltonian_order_tag"]}
{"id": "C63", "title": "The axes of h in the e^T Python functions", "statement": "In all statements the axes of one h tensor have the same meaning: the axes of its creation operators and those of its annihilation operators are at the same positions. (False for h with one creation and one annihilation operator.)", "quantifier": "all truncations and statements", "why_tests_cant": "Compares every pair of generated statements.", "anchors": ["termfactory/code_eT_zhz.py: _build_h_term_python_labels"]}
{"id": "C64", "title": "When the e^T LaTeX document is generated and its sections", "statement": "The e^T document is generated exactly when only the ground state is asked for, the Taylor order is at least 1 and the smaller of the coupled-cluster rank and the projection order is at most 8. It has one section per projection operator without creation operators, in order of rank, each from rank 1 on with the heading of its rank. Asking to remove terms with f changes nothing.", "quantifier": "all truncations with T = 1, both sides, all flags", "why_tests_cant": "A claim over all truncations and flags.", "anchors": ["termfactory/latex_eT_zhz.py: generate_eT_z_t_symmetric_latex, _generate_eT_z_symmetric_latex_equations"]}
{"id": "C65", "title": "The e^T LaTeX shows every contraction exactly once", "statement": "In the section of a projection operator every contraction of it with a Taylor order up to the truncation, an h operator of the truncated Hamiltonian (on the left-hand side one without annihilation operators) and a z operator of the truncated ansatz is shown by exactly one printed term: its letters pair the same operators, each summation letter occurs once as superscript and once as subscript, each external letter once. (False when the Taylor order plus the number of annihilation operators of h exceeds 5: the summation letters run out and the contraction is shown by no term. The document is complete exactly under a condition on CC, H and the Taylor order.)", "quantifier": "all truncations, both sides, every projection operator and contraction", "why_tests_cant": "A completeness and uniqueness claim over all terms of all truncations.", "anchors": ["termfactory/latex_eT_zhz.py: _prepare_third_eTz_latex, _build_t_term_latex_labels, _build_h_term_latex_labels, _build_z_term_latex_labels"]}
{"id": "C66", "title": "Free letters of an e^T equation", "statement": "The free letters of the derivative an e^T equation is for are the external letters of its terms. (False: they come from disjoint alphabets.)", "quantifier": "all truncations, every equation and term", "why_tests_cant": "A property of the whole document.", "anchors": ["termfactory/latex_eT_zhz.py: generate_eT_z_t_symmetric_latex, _prepare_third_eTz_latex"]}
{"id": "C67", "title": "The bare h term and the last sum of an e^T equation", "statement": "The right-hand side of an e^T equation shows the bare h term with one upper letter per annihilation operator of the projection operator exactly when the truncated Hamiltonian has this operator (false: always printed), and a last sum in which every product of a differentiated amplitude and a z operator uses each letter of the derivative once.", "quantifier": "all truncations, every equation", "why_tests_cant": "Depends on the relation between two truncations.", "anchors": ["termfactory/latex_eT_zhz.py: _generate_eT_z_symmetric_latex_equations", "termfactory/latex_zhz.py: _build_first_z_term, _build_fifth_z_term"]}
{"id": "C68", "title": "What a generated full-CC amplitude function adds up", "statement": "Calling compute_m_n_amplitude of a generated full-CC module raises without at least singles, raises NotImplementedError for an ansatz that is not the ground state, and otherwise, if all tensors are passed, returns a tensor with one vibrational axis per operator of the projection operator to which exactly these contributions were added: h_args[(n, m)] for the term without amplitudes, and prefactor times the sum of the einsums for every kept term whose truncation flags are set.", "quantifier": "all verified truncations, all projection operators, all run-time truncation flags, all callers", "why_tests_cant": "A test runs a few modules with a few flags; the claim concerns every generated module and every combination of run-time flags.", "anchors": ["termfactory/code_full_cc.py: _write_master_full_cc_compute_function, _generate_full_cc_compute_functions, _generate_full_cc_python_file_contents"]}
{"id": "C69", "title": "Optimised full-CC functions do what the default ones do", "statement": "compute_m_n_amplitude_optimized, called with the dictionary returned by compute_m_n_optimized_paths for the same ansatz and truncation, raises the same exceptions and adds the same products in the same order as compute_m_n_amplitude, each product computed by an expression built for this contraction (false: the expressions have no subscripts, only shapes), and compute_all_optimized_paths returns the dictionaries of all projection operators (false: it always raises).", "quantifier": "all verified truncations, all projection operators, all run-time truncation flags, all callers", "why_tests_cant": "The iterator of expressions has to stay aligned with the calls for every combination of flags.", "anchors": ["termfactory/code_full_cc.py: _write_grouped_optimized_paths_function, _write_optimized_master_paths_function, _generate_optimized_paths_functions, _write_master_full_cc_compute_function"]}
{"id": "C70", "title": "What a generated e^T amplitude function adds up", "statement": "Calling compute_m0_n_amplitude of a generated e^T module raises unless the truncation object confirms all orders up to n (at least singles), raises NotImplementedError for an ansatz that is not the ground state if the module was generated for the ground state only, and otherwise, if all tensors are passed, returns a tensor with n vibrational axes to which the following was added: every contraction of the projection operator with up to K amplitudes, an h operator and a z operator for which the run-time flags are set is computed by exactly one of the added products, every other contraction by none, and the prefactor of each product is the sum of the weights of the contractions it computes. The only other exception is a KeyError for a tensor that is missing.", "quantifier": "all verified truncations with Taylor order at least 1, all projection operators, all run-time truncation flags, all callers", "why_tests_cant": "A test runs a few modules with a few flags; the claim concerns every generated module and every combination of run-time flags.", "anchors": ["termfactory/code_eT_zhz.py: _construct_eT_zhz_compute_function, _write_master_eT_zhz_compute_function, generate_eT_zhz_python", "termfactory/code_eT_zhz.py: _write_third_eTz_einsum_python"]}
{"id": "C71", "title": "Optimised e^T functions do what the default ones do", "statement": "compute_m0_n_amplitude_optimized, called with a pair of lists of paths, raises the same exceptions and adds the same products in the same order as compute_m0_n_amplitude, following the paths (false: they are never used), and the module contains a function that computes these paths (false: there is none).", "quantifier": "all verified truncations, all projection operators, all run-time truncation flags, all callers", "why_tests_cant": "Holds for every generated module and every caller.", "anchors": ["termfactory/code_eT_zhz.py: _construct_eT_zhz_compute_function, _write_master_eT_zhz_compute_function, generate_eT_zhz_python"]}
{"id": "C72", "title": "W operators are the exponential of the cluster operator", "statement": "For amplitudes that are symmetric in their modes, the array a generated W function of order k returns is, entry by entry, the sum over m of 1/m! times the sum over all ways to distribute the k modes over m amplitudes (all that the ansatz and the truncation flags admit) of the matrix product of these amplitudes; with the coupled-cluster ansatz and all ranks up to k, these are all surjections of the modes onto m blocks, so the array is the part with k modes of the exponential of the cluster operator.", "quantifier": "all maximal orders, all ansatz and truncation flags for which the call succeeds, all orders k, all numbers of surfaces and modes, all commutative rings containing the rationals, all symmetric amplitudes, all entries", "why_tests_cant": "A test compares the numbers of a few orders; that the generated statements add up to the exponential is a statement about all orders, flags and arrays.", "anchors": ["termfactory/code_w_equations.py: generate_w_operators_string, _generate_vemx_contributions, _generate_vecc_contributions", "termfactory/code_w_equations.py: _w_einsum_list, _generate_w_operator_prefactor, _write_w_function_strings"]}
{"id": "C73", "title": "The written symmetrising function", "statement": "The function symmetrize_tensor written for a maximal order M returns, for every order k up to M (and for 0 and 1), the sum of the array over all permutations of its k modes; its result is symmetric in the modes, and a symmetric array is multiplied by k!. For larger orders it returns zeros without an exception; this includes order 6 for the default maximum. It takes (tensor, order), so the calls in the generated modules, which pass (N, tensor, order=k), are rejected by it.", "quantifier": "all maximal orders, all orders, all arrays", "why_tests_cant": "Every order and every array is meant.", "anchors": ["termfactory/helper_funcs.py: build_symmetrizing_function", "termfactory/code_w_equations.py: _write_w_function_strings", "termfactory/code_dt_equations.py: _write_dt_amplitude_strings"]}
{"id": "C74", "title": "The derivative code solves the derivative of the W operator for the amplitude", "statement": "Whatever residual is used: if the W operators were computed by the generated W functions from the amplitudes and the derivatives of the lower amplitudes are passed, the array the generated solver returns for order k differs from the time derivative of the amplitude of order k exactly by what the derivative of W of order k differs from the symmetrised residual minus W times epsilon. So it returns the derivative of the amplitude if and only if the W operator obeys that equation.", "quantifier": "all maximal orders, ansatz and truncation flags for which the calls succeed, all orders k, all numbers of surfaces and modes, all commutative rings containing the rationals with any derivation, all arrays with symmetric t_k, all entries", "why_tests_cant": "An identity between the generated statements of two modules for every order and for every array; numerical tests compare a few random tensors.", "anchors": ["termfactory/code_dt_equations.py: generate_dt_amplitude_string, _write_dt_amplitude_strings, _generate_disconnected_einsum_function_call_list", "termfactory/code_w_equations.py: generate_w_operators_string"]}
{"id": "C75", "title": "Symmetrised residual is the part of H W with k modes", "statement": "The sum over all permutations of the modes of the array a generated residual function of order k returns is the sum, over the Hamiltonian terms that belong to it, of 1/n! times the sum over the choices of the m modes created by h and over the contracted modes of h times W - including the prefactors the generator writes, for Hamiltonian terms symmetric in their creation operators and symmetric W operators.", "quantifier": "all maximal orders and ranks of the Hamiltonian, all orders the function can be called with, all callers, all symmetric arrays, all entries", "why_tests_cant": "Whether the prefactors are right depends on the symmetrisation in another function; every order, operator and array is meant.", "anchors": ["termfactory/code_residual_equations.py: generate_python_code_for_residual_functions, construct_prefactor, _residual_terms_einsum", "termfactory/code_dt_equations.py: _write_dt_amplitude_strings"]}
{"id": "C76", "title": "The three generated modules solve the equation of motion", "statement": "Calling the W module, the residual module and the derivative module one after the other returns, for order k, the time derivative of the amplitude if and only if dW_k/dt = (H W)_k - W_k epsilon, where H is the whole Hamiltonian of the given rank (without the quadratic terms other than h^1_1 if the truncation is linear).", "quantifier": "all maximal orders, ranks of the Hamiltonian, ansatz, truncations with all ranks up to k, orders k, arrays, rings with a derivation", "why_tests_cant": "End-to-end property of three generators and of three generated programs, for every order and array.", "anchors": ["termfactory/code_w_equations.py: generate_w_operators_string", "termfactory/code_residual_equations.py: generate_residual_equations_file", "termfactory/code_dt_equations.py: generate_dt_amplitude_equations_file"]}
{"id": "C77", "title": "The W operators are the exponential of the cluster operator", "statement": "Written with creation operators (commuting variables), the W operator of order k the generated module returns is the part with k modes of exp(T), T the sum of the amplitudes in the truncation, for the coupled-cluster ansatz; of T for the linear ansatz; and of the terms of exp(T) with at most one factor that is not a single for the mixed ansatz. The electronic matrices need not commute and the amplitudes need not be symmetric.", "quantifier": "all maximal orders, all three ansätze, all truncations (with lower ranks included for coupled cluster), all orders k the module computes, all numbers of surfaces and modes, all arrays over every commutative ring containing the rationals", "why_tests_cant": "An identity of operators for every order, truncation and array.", "anchors": ["termfactory/code_w_equations.py: generate_w_operators_string, _generate_explicit_w_operators"]}
{"id": "C78", "title": "The generated modules solve the Schroedinger equation of the modes", "statement": "With a Hamiltonian term h^m_n acting as the differential operator 1/(m! n!) sum h^I_K a+_I a_K on polynomials in the creation operators, calling the three generated modules returns, for order k, the time derivative of the amplitude at all modes if and only if dW_k/dt is the part with k modes of H W minus W_k epsilon, W the sum of the identity and all W operators and H the whole Hamiltonian of the given rank and truncation.", "quantifier": "all maximal orders, ranks of the Hamiltonian, ansätze, truncations with all ranks up to k, orders k, numbers of surfaces and modes, arrays, rings with a derivation", "why_tests_cant": "End-to-end property of three generators, including the combinatorial prefactors, for every order and array.", "anchors": ["termfactory/code_w_equations.py: generate_w_operators_string, _generate_explicit_w_operators", "termfactory/code_residual_equations.py: generate_residual_equations_file", "termfactory/code_dt_equations.py: generate_dt_amplitude_equations_file"]}
{"id": "C79", "title": "The arrays returned by the ground-state functions of a full-CC module", "statement": "Calling compute_m0_n<k>_amplitude of a generated full-CC module with all tensors returns, for all arrays, the array h_args[(k, 0)] (if the Hamiltonian has rank k) plus for every term that is written and whose truncation flags are set: x!/(m! n! j!) times the sum over the contracted modes of the Hamiltonian's matrix multiplied by the products of the matrices of the j amplitudes in all j! orders, every amplitude with the modes it shares with the Hamiltonian and its own modes of the projection operator; x is the number of different amplitudes that touch the Hamiltonian.  A term with one amplitude is additionally multiplied by k!.", "quantifier": "all truncations for which a module is written, projection operators with k modes, calls with any flags, numbers of electronic states and modes, arrays over commutative rings that contain the rationals", "why_tests_cant": "Numerical meaning of generated einsum calls for every truncation, array and dimension.", "anchors": ["termfactory/code_full_cc.py: _write_cc_einsum_python_from_list, _build_h_term_python_labels, _build_t_term_python_labels, _rank_of_t_term_namedtuple, generate_full_cc_python"]}
{"id": "C80", "title": "The ground-state functions of a full-CC module compute the projections of H e^T", "statement": "With tensors that do not depend on the order of their modes, H = sum 1/(m! n!) h^m_n a+^m a^n, T = sum 1/n! t_n a+^n and all truncation flags set, the array returned by compute_m0_n<k>_amplitude is the array of coefficients of the k-mode part of H e^T applied to the vibrational ground state (coefficients of 1/k! a+^k), if at least (rank of H) + k amplitudes per term are generated.  (In the code this holds exactly when k <= 1 and the Hamiltonian has rank at most 2 or the amplitudes have one mode.)", "quantifier": "all truncations for which a module is written, projection operators with k modes, numbers of electronic states and modes, orders of the exponential series beyond rank + k, arrays over commutative rings that contain the rationals", "why_tests_cant": "Equality of a generated sum of contractions with an operator exponential, for every truncation and array.", "anchors": ["termfactory/code_full_cc.py: generate_full_cc_python, _write_cc_einsum_python_from_list, _build_full_cc_python_prefactor", "termfactory/latex_full_cc.py: _filter_out_valid_s_terms"]}
{"id": "C81", "title": "The functions of a right-hand-side e^T module compute e^T H Z", "statement": "With tensors h and z that do not depend on the order of their modes, the array returned by compute_m0_n<n>_amplitude (and its optimized variant) of a generated right-hand-side e^T module, summed with the creation operators of its n modes, plus the term h_0 z_n that the program leaves out, is the n-mode part of e^T H Z: H = sum 1/(m! n!) h^m_n a+^m a^n over the pruned Hamiltonian terms and Z = sum 1/k! z_k a+^k over the orders the truncation object asks for, e^T the exponential series of sum_i t_i a_i up to the Taylor order (order 0 if t is not asked for).", "quantifier": "all truncations for which a module is written, projection operators with n modes, truncation objects, numbers of electronic states and modes, arrays over commutative rings that contain the rationals", "why_tests_cant": "Numerical meaning of generated einsum calls and of their prefactors for every truncation, array and dimension.", "anchors": ["termfactory/code_eT_zhz.py: _generate_eT_zhz_einsums, _write_third_eTz_einsum_python, _eT_zhz_einsum_subscripts, _build_eT_zhz_python_prefactor, _simplify_eT_zhz_python_prefactor", "termfactory/code_eT_zhz.py: _construct_eT_zhz_compute_function, generate_eT_zhz_python"]}
{"id": "C82", "title": "The functions of a left-hand-side e^T module compute e^T (dZ + dT Z)", "statement": "With tensors dT, z and dz that do not depend on the order of their modes, the array returned by compute_m0_n<n>_amplitude (and its optimized variant) of a generated left-hand-side e^T module, summed with the creation operators of its n modes, plus the derivative dz_n that the program leaves out, is the n-mode part of e^T (dZ + dT Z), with the orders of z and dT (at most 2) the truncation object asks for and the exponential series of sum_i t_conj_i a_i up to the Taylor order.", "quantifier": "all truncations for which a module is written, projection operators with n modes, truncation objects, numbers of electronic states and modes, arrays over commutative rings that contain the rationals", "why_tests_cant": "Numerical meaning of generated einsum calls and of their prefactors for every truncation, array and dimension.", "anchors": ["termfactory/code_eT_zhz.py: _generate_eT_zhz_einsums, _write_third_eTz_einsum_python, _eT_zhz_einsum_subscripts, _build_eT_zhz_python_prefactor, _simplify_eT_zhz_python_prefactor", "termfactory/code_eT_zhz.py: _construct_eT_zhz_compute_function, generate_eT_zhz_python"]}
{"id": "C83", "title": "The text of a right-hand-side e^T file, executed as Python, computes e^T H Z", "statement": "The text of the file written for the right-hand side is Python source; executing compute_m0_n<n>_amplitude of it (or the optimized variant with any two paths) on tensors h and z that do not depend on the order of their modes returns an array of shape (A, N, .., N) which, summed with the creation operators of its n modes, plus the term h_0 z_n that the program leaves out, is the n-mode part of e^T H Z.", "quantifier": "all truncations for which a module is written, projection operators with n modes, truncation objects, einsum paths, numbers of electronic states and modes, arrays over commutative rings that contain the rationals", "why_tests_cant": "The characters of the written file, for every truncation, read and executed as Python on every array.", "anchors": ["termfactory/code_eT_zhz.py: generate_eT_zhz_python, _construct_eT_zhz_compute_function, _write_master_eT_zhz_compute_function, _write_third_eTz_einsum_python", "termfactory/code_import_statements_module.py: eT_zhz_import_statements"]}
{"id": "C84", "title": "The text of a left-hand-side e^T file, executed as Python, computes e^T (dZ + dT Z)", "statement": "The text of the file written for the left-hand side is Python source; executing compute_m0_n<n>_amplitude of it (or the optimized variant with any two paths) on tensors dT, z and dz that do not depend on the order of their modes returns an array of shape (A, N, .., N) which, summed with the creation operators of its n modes, plus the derivative dz_n that the program leaves out, is the n-mode part of e^T (dZ + dT Z).", "quantifier": "all truncations for which a module is written, projection operators with n modes, truncation objects, einsum paths, numbers of electronic states and modes, arrays over commutative rings that contain the rationals", "why_tests_cant": "The characters of the written file, for every truncation, read and executed as Python on every array.", "anchors": ["termfactory/code_eT_zhz.py: generate_eT_zhz_python, _construct_eT_zhz_compute_function, _write_master_eT_zhz_compute_function, _write_third_eTz_einsum_python", "termfactory/code_import_statements_module.py: eT_zhz_import_statements"]}
{"id": "C85", "title": "The text of the residual file, executed as Python, computes the residual equations", "statement": "The text of the file written by generate_residual_equations_file is Python source; executing calculate_order_<k>_residual of it (k <= 4) on any truncation object, Hamiltonian and tuple of W operators returns an array of shape (A, A, N, .., N) or raises ValueError (too few W operators) or AssertionError (truncation flag not set) exactly as C48 says; symmetrised over its k modes the array is the sum of the k-mode parts of h^m_n W over the Hamiltonian terms that belong to the residual.", "quantifier": "all orders and ranks for which a module is written, residual functions of order at most 4, truncation objects, tuples of W operators (also with None entries), numbers of electronic states and modes, arrays over commutative rings that contain the rationals", "why_tests_cant": "The characters of the written file, for every order and rank, read and executed as Python on every array and every combination of flags and missing operators.", "anchors": ["termfactory/code_residual_equations.py: generate_residual_equations_file, generate_python_code_for_residual_functions, write_residual_function_string"]}
{"id": "C86", "title": "The text of the W file, executed as Python, computes the W operators", "statement": "The text of the file written by generate_w_operator_equations_file is Python source; executing compute_w_operators of it returns a tuple of six entries, the W operators of the orders 1..c (c one more than the ranks of the truncation without a gap, at least 3, at most 6) followed by None; entry k has shape (A, A, N, .., N) and is the sum over all ways to distribute its k modes over m amplitudes that enter by the ansatz and the truncation, divided by m! - for the coupled-cluster ansatz with all ranks up to k the k-mode part of exp(T). Exactly these calls raise: no singles (Exception), the module has too few orders (NameError), too few amplitudes (ValueError), all ranks up to quintuples (NotImplementedError).", "quantifier": "all maximum orders for which a module is written, ansatz and truncation objects, numbers of amplitudes, electronic states and modes, arrays over commutative rings that contain the rationals", "why_tests_cant": "The characters of the written file, for every maximum order, read and executed as Python on every array and every combination of ansatz, truncation and number of amplitudes.", "anchors": ["termfactory/code_w_equations.py: generate_w_operator_equations_file, generate_w_operators_string, _write_w_function_strings, _write_master_w_compute_function"]}
{"id": "C87", "title": "The three generated files, executed together as Python, solve the equation of motion", "statement": "The text of the file written by generate_dt_amplitude_equations_file is Python source. Executing solve_singles_equations .. solve_quadruples_equations of it, with the functions of the residual file it imports, returns an array of shape (A, A, N, .., N) exactly when the rank is in the truncation, W of the order is there, the amplitudes and derivatives of the lower orders are passed where the ansatz needs them and the residual function returns. Executed with what compute_w_operators of the W file returned, the array is the time derivative of the amplitude of order k exactly when D W_k = sum (h^m_n W)_k - W_k epsilon, the sum over the terms of the Hamiltonian (without h^2_0 in the orders 2 and 3).", "quantifier": "all maximum orders and ranks for which the files are written, orders up to 4, ansatz and truncation objects, arguments, derivations of commutative rings that contain the rationals, numbers of electronic states and modes, arrays", "why_tests_cant": "The characters of three written files, read and executed as Python with calls between the files, on every array and every combination of ansatz, truncation and arguments.", "anchors": ["termfactory/code_dt_equations.py: generate_dt_amplitude_equations_file, generate_dt_amplitude_string, _write_dt_amplitude_strings, _write_linked_disconnected_strings, _write_un_linked_disconnected_strings, _write_master_dt_amplitude_function", "termfactory/code_residual_equations.py: generate_residual_equations_file", "termfactory/code_w_equations.py: generate_w_operator_equations_file"]}
{"id": "C88", "title": "The text of a full-CC file, executed as Python, computes the projections", "statement": "The text of the file written by generate_full_cc_python is Python source, for all truncations for which a file is written. Executing compute_m<m>_n<n>_amplitude of it raises when the truncation object does not confirm singles, and raises NotImplementedError when the ansatz is not the ground state. Otherwise compute_m0_n<k>_amplitude, with all tensors, returns an array of shape (A, A, N, .., N) with k axes of modes: h_args[(k, 0)], if the Hamiltonian has this rank, plus for every term that is kept by the writer and whose truncation flags are set its prefactor times the sum of the products of its tensors in all orders.", "quantifier": "all truncations for which a file is written (up to sextuples and six amplitudes per term), projection operators, ansatz and truncation objects, numbers of electronic states and modes, arrays over commutative rings that contain the rationals", "why_tests_cant": "The characters of every file that can be written, read and executed as Python on every array.", "anchors": ["termfactory/code_full_cc.py: generate_full_cc_python, _generate_full_cc_python_file_contents, _generate_full_cc_einsums, _generate_full_cc_compute_functions, _wrap_full_cc_generation, _write_master_full_cc_compute_function, _generate_optimized_paths_functions, _write_grouped_optimized_paths_function, _write_optimized_master_paths_function"]}
{"id": "C89", "title": "The h z sums of the z_t equations are the normal-ordered parts of H Z", "statement": "Read every letter of a printed h z term as a sum over the modes, a free superscript with a creation operator and a free subscript with an annihilation operator, with the printed prefactor and powers of f and fbar (fbar = 1). Then the h z sum printed in the equation of the z_t document for the projection operator with m creation and n annihilation operators is the part with n creation and m annihilation operators of the product of the (pruned) Hamiltonian and the z operators of the truncation, written in normal order. This normal order exists and is unique. For projections without creation operators, applied to the ground state, the sum is the part of H Z |0> with n quanta. It holds when the smaller of Hamiltonian and coupled-cluster rank is at most 5 and the smaller of coupled-cluster and projection rank is at most 7; outside of this range labels are wrong (C31).", "quantifier": "all truncations of this range, every equation of the document, numbers of electronic states and modes, arrays of h and z that are symmetric in their modes, over commutative rings that contain the rationals", "why_tests_cant": "An identity of operators for every array, number of modes and state.", "anchors": ["termfactory/latex_zhz.py: generate_z_t_symmetric_latex, _generate_z_symmetric_latex_equations, _prepare_third_z_latex, _build_hz_latex_prefactor, _build_hz_term_latex_labels, _filter_out_valid_z_terms"]}
{"id": "C90", "title": "The optimised functions of a written W module compute what the other functions compute", "statement": "Read the text that generate_w_operator_equations_file writes as Python and execute it. compute_optimized_vemx_paths and compute_optimized_vecc_paths succeed for every truncation. compute_w_operators_optimized, called with the two lists they return for the same A, N and truncation, gives what compute_w_operators gives: the same arrays (those of C86) or the same exception. In particular next() takes every optimised expression for the contraction and the operand shapes for which it was made, in the order of the lists, and no list is too short.", "quantifier": "every max_order for which the text is written, numbers of electronic states and modes, ansatz and truncation objects, numbers and values of the amplitudes, over commutative rings that contain the rationals", "why_tests_cant": "The lists and the functions that use them up are written by different functions of the generator; they must agree for every combination of flags, and the arrays for every input.", "anchors": ["termfactory/code_w_equations.py: generate_w_operator_equations_file, _write_optimized_vemx_paths_function, _write_optimized_vecc_paths_function, _optimized_w_einsum_list, _generate_vemx_contributions, _generate_vecc_contributions, _write_w_function_strings, _write_master_w_compute_function"]}
{"id": "C91", "title": "The optimised functions of a written dt module compute what the other functions compute", "statement": "Read the texts that generate_dt_amplitude_equations_file and generate_residual_equations_file write as Python and execute them together. compute_optimized_paths succeeds for every truncation. solve_.._equations_optimized of an order up to 4, called with the list it returns for the same A, N and truncation, returns an array exactly when solve_.._equations returns one and the truncation contains all ranks up to the order; it is then the same array (that of C87). With all lower ranks in the truncation also the exceptions are the same. If a lower rank is missing the optimised function always raises an exception: the list of the expressions for epsilon has no entry at this position, or that of a higher order.", "quantifier": "every max_order and maximum rank for which the texts are written, orders up to 4, numbers of electronic states and modes, ansatz and truncation objects, numbers and values of all arrays, over commutative rings that contain the rationals", "why_tests_cant": "The lists and the functions that index them and use them up are written by different functions of the generator; they must agree for every combination of flags, and the arrays for every input.", "anchors": ["termfactory/code_dt_equations.py: generate_dt_amplitude_equations_file, _write_optimized_master_paths_function, _write_optimized_epsilon_paths_function, _write_optimized_linked_paths_function, _write_optimized_unlinked_paths_function, _write_dt_amplitude_strings and _write_master_dt_amplitude_function with opt_einsum=True, _write_linked_disconnected_strings, _write_un_linked_disconnected_strings"]}
{"id": "C92", "title": "The written functions for quintuples and sextuples raise an exception or return zeros", "statement": "Read the texts that generate_residual_equations_file and generate_dt_amplitude_equations_file write as Python and execute them. calculate_order_5_residual and calculate_order_6_residual raise ValueError if fewer than k + 2 operators W are passed, else AssertionError if the truncation does not contain the order, else ValueError if any term of the Hamiltonian belongs to the residual (C48), and return an array of zeros of the right shape otherwise; they never return anything else. solve_quintuples_equations, solve_sextuples_equations and their optimised versions raise an exception for all arguments. (With C85, C87 and C91 for the orders up to 4 this settles what every function of the two written modules does.)", "quantifier": "every max_order and maximum rank for which the texts are written, orders 5 and 6, numbers of electronic states and modes, ansatz and truncation objects, numbers and values of all arrays, over commutative rings that contain the rationals", "why_tests_cant": "That no input at all gives a result is a statement about all inputs, truncations and combinations of missing operators.", "anchors": ["termfactory/code_residual_equations.py: generate_residual_equations_file, _residual_terms_einsum, _generate_einsum_w_indices; termfactory/code_dt_equations.py: generate_dt_amplitude_equations_file, _write_master_dt_amplitude_function"]}
{"id": "C93", "title": "Truncation files survive the way through their text, whatever their layout", "statement": "save_trunc_to_JSON writes, for every valid truncation dictionary with integers or booleans as values, a text that load_trunc_from_JSON turns back into the same dictionary with the same order of entries. White space between the pieces of the text makes no difference. A text that is a JSON object of integers, booleans, nulls and strings is accepted exactly when the keys that occur in it are those of one of the three families and the last value of each key is between 1 and its maximum; the returned dictionary holds these last values.", "quantifier": "every valid truncation dictionary of each family in every insertion order; every layout of white space; every text that is such an object, including repeated, missing and unknown keys", "why_tests_cant": "There are infinitely many texts, and a file can be edited by hand: the layouts and repetitions cannot be enumerated.", "anchors": ["termfactory/truncations.py: save_trunc_to_JSON, _save_to_JSON, load_trunc_from_JSON, _load_from_JSON", "termfactory/truncation_keys.py: TruncationsKeys"]}
{"id": "C94", "title": "What a run of the driver writes", "statement": "The options of driver.py may be given in any order and either spelling; a repeated option keeps its last value. With -t and three, four or five values a run first saves these values in ../truncs.json and then either writes exactly one file of equations, whose name and contents are those of the selected generator, or raises an exception and writes nothing else; which of the two is decided by a stated condition on the values and flags. With another number of values it writes nothing, with an -a that does not match it writes only ../truncs.json. A failing run never touches a file of equations. Running again with --path on the saved file does what the first run did exactly when the values are in the documented ranges, and otherwise raises an exception and writes nothing. -lhs changes only the name of the file for full cc and z_t. With both -t and --path, with neither, or with --path and a file that does not exist, the run raises an exception and writes nothing.", "quantifier": "every list of options with values that do not start with a dash and all integers for -t; every set of flags; every state of the files", "why_tests_cant": "The command lines and values are infinite, and the combinations of flags, ansatz and ranges decide which exception is raised and what has been written by then.", "anchors": ["termfactory/driver.py: main block, _make_trunc", "termfactory/_glue_.py: _generate_eqns", "termfactory/truncations.py: save_trunc_to_JSON, load_trunc_from_JSON"]}
{"id": "C95", "title": "What is on the disk after several runs of the driver", "statement": "After any sequence of runs of driver.py in one directory, every file other than ../truncs.json is what it was before or the complete file of equations of the last run that wrote it, which succeeded; failing runs leave no trace in such files. ../truncs.json holds the values of the last command line with -t and three, four or five values. As long as no other such command line was run, --path ../truncs.json with the same options does what that run did, if the values are in the documented ranges, and fails without writing otherwise. Two files of equations have the same name exactly if ansatz, language and side agree and, for eT Python modules, all values agree, for the other files, the flags for excited states and f terms agree; so runs with other values overwrite the earlier equations.", "quantifier": "every sequence of command lines, every initial content of the directory, every hash order in each run; every pair of runs for the names", "why_tests_cant": "Histories of runs are unbounded, and the statement is about what earlier and failing runs leave behind.", "anchors": ["termfactory/driver.py: main block", "termfactory/_glue_.py: the _gen_wrapper functions", "termfactory/truncations.py: _save_to_JSON, load_trunc_from_JSON"]}
{"id": "C96", "title": "Brackets in the LaTeX documents", "statement": "In every LaTeX document of the full CC and eT_z_t generators the braces are balanced and the parentheses are balanced, and in every document of the z_t generator the braces are balanced. The parentheses of a z_t document are balanced exactly if no sum has 14 terms or more: longer sums are split over lines and their opening parenthesis is never closed, and such sums occur exactly if the coupled-cluster rank is at least 12, the projection order at least 2 and the rank of the Hamiltonian at least 10, or 12, 1 and 11, or the rank of the Hamiltonian and the coupled-cluster rank are both at least 13.", "quantifier": "every successful call of the three LaTeX generators: all truncations, flags, sides and hash orders", "why_tests_cant": "The number, order and labels of the printed terms grow with the truncations; a test compares a few files.", "anchors": ["termfactory/latex_full_cc.py: generate_full_cc_latex", "termfactory/latex_zhz.py: generate_z_t_symmetric_latex, _prepare_third_z_latex", "termfactory/latex_eT_zhz.py: generate_eT_z_t_symmetric_latex"]}
{"id": "C97", "title": "Brackets and exponents in the LaTeX of the W operators", "statement": "In the LaTeX of the W operators, for ground and excited states, the braces and the parentheses are balanced, and the power to which an amplitude is raised in a product is the exponent that TeX shows. The second half is true exactly for maximal orders up to 9: exponents are written without braces, so of the power 10 in the equation of order 10 TeX raises only the 1.", "quantifier": "all maximal orders, all hash orders of the sets of products", "why_tests_cant": "The number of products and the size of the powers grow with the order; a test compares the text of a few small orders, where all powers have one digit.", "anchors": ["termfactory/latex_w_equations.py: ground_state_w_equations_latex, excited_state_w_equations_latex, generate_w_prefactor"]}

# Design: a Lean 4 model of termfactory

The model is a shallow embedding: every Python function that matters is a total, computable Lean
function over `Nat`, `Int`, `Rat`, `List`, `Option`, `Except` and plain structures, mirroring the Python
branch by branch.  Each model definition cites the file and lines it models.

## Layout

* `lean/Verif/Py.lean`          Python primitives (slices, `itertools.product`, `sorted`, sets as
                                 lists in an arbitrary iteration order).
* `lean/Verif/Model/*.lean`     the model, one file per Python module (or part of one).
* `lean/Verif/Spec/*.lean`      small specifications that do not mention the algorithms of the model (they
                                 use only its data types, e.g. the record of a printed term).
* `lean/Verif/Lemmas/*.lean`    helper lemmas.
* `lean/Verif/Props/*.lean`     the property theorems, with satisfiability examples beside them.
* `properties.jsonl`            the properties in English; `MANIFEST.json` maps them to theorems.
* `seeded/LOG.jsonl`            wrong programs the theorems were tested against.

## Modelling conventions

* Python exceptions are values (`Except PyErr a` or `Option a`); nothing is totalised silently.
* `set` objects: iteration order is unspecified, so functions that iterate over a set take the
  iteration order as a parameter (`SetOrder`), an arbitrary function returning the distinct elements
  of a list in any order.  Theorems hold for every such order.
* `namedtuple`s compare as tuples; sorting uses lexicographic order on the fields.
* Text output: printed terms and generated statements are structured records plus a renderer.  Theorems
  are about the records; where the program compares texts (removal of duplicates in the e^T generators)
  the renderer is part of the model and its injectivity is proved.
* Generated Python programs are syntax trees (statements under truncation gates).  Where a property is
  about running them, a small interpreter gives the meaning of the constructs that are generated
  (gates, assertions, unpacking, `next`, indexing, `+=`).
* Logging, printing and file writing are dropped (file writing: the written text is the returned
  value).
* In-place modification of shared lists is state passing.

## Plan per property

| id | what is modelled | how it is proved |
|----|------------------|------------------|
| C01, C02 | `_partitions` and the four partition filters | strong induction on n; sorted + nodup + membership characterisation |
| C03 | `unique_permutations` | membership by `List.Perm`, sortedness of insertion sort |
| C04-C06 | truncation dictionaries as association lists in insertion order, key renaming, verification, load/save | case analysis over the finite key enumeration, induction over the dictionary |
| C07-C09 | `_make_trunc`, key_list_type, dispatch tables, path names | decision tables; injectivity of decimal rendering |
| C10, C11 | operator generation, Taylor expansion | membership + nodup of nested ranges and products |
| C12-C17 | full-CC term generation pipeline, classification | refinement to a specification of pairings (`Spec`), by induction over the t lists |
| C18, C22 | label builders with their offset dictionaries | invariant on offsets, by induction over the t list; alphabet injectivity |
| C19 | prefactor lists, cancellation | product of factorials preserved, by counting |
| C20, C33, C38 | line splitting, removal of duplicate texts | list lemmas about chunks and first occurrences; negation with witness where false |
| C21 | left-hand side | characterisation of the enumerated multisets |
| C23, C24 | bucket dictionary of the code writer, both paths | invariant over the fold; negation with witness |
| C25, C26, C42-C47 | W operators: einsum lists, prefactors, generated functions and their run, LaTeX, file rewriting | induction on the enumerations; interpreter for the generated functions |
| C27, C28, C48-C50 | residual equations: data, prefactors, generated functions and their run, composition with the W module | interpreter; exact set of added contributions |
| C51-C54 | derivative equations: generated functions, optimised paths; derivation property in any ring with a derivation | interpreter; induction over partitions; product rule |
| C29-C32, C55-C60 | z_t pipeline and document | as for full CC; tables of contraction numbers, label offsets |
| C34, C35 | e^T term generation | as for z_t, plus the arithmetic argument for the supported regime (T = 1) |
| C36, C37, C39, C61-C63 | e^T Python module: labels, statements, collation, shared state | every statement is characterised by four numbers; tables of contractions are subsets of the t factors |
| C37, C38, C64-C67 | e^T LaTeX document | relation `Shows` between a printed term and a contraction; injectivity of the text |
| C40, C41, C68, C69 | full-CC Python file, its wrapper functions and their run | composition of the above |
| C70, C71 | running the e^T Python functions | interpreter for gates |
| C72 | the arrays of the W functions (`Spec/Tensor`: entries of einsum, sums over permutations) | chains of letters are matrix products; compositions and permutations against maps from modes to blocks (fibres counted by multinomials) |
| C73 | `build_symmetrizing_function` | list permutations against bijections |
| C74 | arrays of the derivative functions (`Spec/DtValue`) | Leibniz rule for the products of amplitudes; the disconnected terms are the derivative of W minus that of t_k |
| C75 | arrays of the residual functions | einsum with contracted letters is a sum of matrix products (`Lemmas/Contract`); permutations against choices of the created modes (fibres of size m!(k-m)!) |
| C76 | the three modules called one after the other | C74 with C75 and the operators present after the W module |
| C77 | the W operators as polynomials in the creation operators (`Spec/Fock.lean`) | the sum over the orderings of C72 without symmetry; the sum over the modes of a product of amplitudes factorises; words over the included orders are the powers of the cluster operator; degrees |
| C78 | Hamiltonian terms as differential operators | derivatives of a symmetric state by induction; the entries of C76 are the coefficients of the product; symmetric coefficients are determined by the polynomial |
| C79 | the arrays added to `R` (`Spec/FullCCValue.lean`): factors denoted by the prefactor texts, entries of the einsum calls | a chain of electronic letters is a matrix product; the letters of the permuted einsum calls are those of the permuted matrices; C68 for the additions |
| C80 | `H e^T` on the polynomials of C77 (`Spec/Fock.lean`, `Spec/Wick.lean`) and the arrays of C79 | Leibniz rule for the annihilation operators gives one contribution per sequence of amplitudes (`exp_contributions`: the generated terms are exactly those of Wick's theorem); every term enters the function with a factor (`amplitude_operator`), which is 1 for all terms exactly in the stated cases (`amplitude_projection_iff`) |
| C81, C82 | arrays and operators of `Spec/ETValue.lean`, on the polynomials of C77; the calls of C70 | Leibniz rule for `(sum_i t_i a_i)^k / k!` (`Lemmas/Lowering.lean`, `Lemmas/ETExpand.lean`), the value of a written einsum (`Lemmas/ETEinsum.lean`), and one summand of the expansion per written statement (`Lemmas/ETSum.lean`); C63 and C70 say which statements are written and run |
| C83, C84 | the characters of the file (`fileText` in `Model/ETPython.lean`), a reader of Python source (`Spec/Source.lean`: tokens, logical lines, indentation, expressions, statements), an interpreter (`Spec/PyRun.lean`), the arguments as Python values (`Spec/ETCall.lean`) | the reader on the concatenated texts (`Lemmas/SourceLex`, `SourceExpr`, `SourceCode`, `ETSource`, `ETSourceModule`, `ETSourceGood`: the file is read as the imports and the definitions of C70), execution of these statements (`Lemmas/PyRun`, `ETSourceRun`, `ETSourceCall`), then C81 and C82 |
| C85 | the characters of the residual file (`Model/ResidualText.lean`), the same reader and interpreter, the arguments as Python values (`Spec/ResidualCall.lean`) | `Lemmas/ResidualSource` (the file is read as the import and the functions of C48), `Lemmas/SourceRun`, `ResidualSourceRun` (execution refines the interpreter of C48, exceptions included), then C75; orders 5 and 6 are left out as in C75, since the letters of the modes run out |
| C86 | the characters of the W file (`Model/WText.lean`), the same reader and interpreter, the arguments as Python values (`Spec/WCall.lean`) | `Lemmas/WSource`, `WSourceFn`, `WSourceFile` (the whole file is read, with the optimised functions and the path functions), `WSourceRun`, `WSourceCall`, `WSourceMaster` (three levels of calls: contributions, orders, `compute_w_operators`; execution refines the interpreter of C42), then C72; the optimised functions are read, not executed |
| C87 | the characters of the dt file (`Model/DtText.lean`), the same reader and interpreter, calls between two modules and the arguments as Python values (`Spec/DtCall.lean`) | `Lemmas/DtSource`, `DtSourceFn`, `DtSourceFile` (the whole file is read, with the optimised functions and the path functions), `DtSourceRun` (disconnected terms), `DtSourceCall` (the functions of the orders; execution refines the interpreter of C51), then C85, C86 and C76; orders up to 4 as in C85; the optimised functions are read, not executed |
| C88 | the characters of the full-CC file (`Model/FullCC/Text.lean`), the same reader and interpreter, the arguments as Python values (`Spec/FullCCCall.lean`) | `Lemmas/FullCC/Source`, `SourceProgram`, `SourceModule`, `SourceFile` (the whole file is read, with the optimised functions and the path functions), `SourceGood` (every generated program is readable), `SourceRun` (terms), `SourceCall` (functions; execution refines the interpreter of C68), then C79 and C80; the optimised functions are read, not executed |
| C89 | printed z_t terms as operators on polynomials, normal order (`Spec/ZhzValue.lean`), Hamiltonian and z states as in C76 (`Spec/ETValue.lean`) | `Lemmas/ZhzValue` (letters of a printed term give one sum), `ZhzOperator` (Wick's theorem for one h and one z by the Leibniz rule), `ZhzNormal` (parts of the product), `ZhzUnique` (the parts of a normal-ordered operator are unique: induction on the number of annihilation operators, on symmetrised indicator states) |
| C90 | lists that are extended, iterators and optimised expressions in the interpreter (`Spec/PyIter.lean`), calls (`Spec/WIter.lean`) | `Lemmas/PyIter` (statements without iterators are those of C83), `WIterRun` (a block uses up the expressions of its partition), `WIterCall` (functions of an order), `WIterPaths` (the functions that make the lists), `WIterMaster`; the result is literally the one of C86 |
| C91 | the interpreter of C90 with functions of another module (`Spec/DtIter.lean`) | `Lemmas/DtIterRun` (blocks of disconnected terms), `DtIterCall` (functions of an order; with an expression for another order they raise), `DtIterPaths` (the functions that make the lists), `DtIterSolver`; exact condition on the truncation, a truncation for which the functions differ |
| C92 | the texts and interpreters of C85, C87 and C91 | `Lemmas/ResidualHigh`: each einsum of the orders 5 and 6 that is executed raises, each one that is not is behind `is not None`; the derivative functions with the lemmas of C87 and C91 for an arbitrary residual module |
| C93 | `Model/TruncText`: the text of `json.dumps`; `Spec/Json`: a reader for JSON objects with integers, booleans, null and strings without escapes (it stands for `json.loads` on these texts) | the reader inverts every layout of the pieces (induction over the characters and the pieces), then C04 and C05; the last value of a repeated key by induction over the entries |
| C94 | `Model/Program`: the words of the command line, the driver of `Model/Glue`, the generators and the files they write, composed | induction over the options for the parser; the rest composes C04, C05, C93 and the exact success conditions of the generators (`run_t`), and the inverse of the saved text (`run_replay`) |
| C95 | `Model/History`: files by name, runs of C94 one after the other, each with its own hash orders | induction over the runs with the shape of the writes of one run; names: a finite table for the names made of flags, injectivity of decimal numbers between parentheses for the eT modules |
| C96 | `Model/LatexText`: the texts the three LaTeX generators write, with the removal of `^{}` and `_{}` | the level of brackets before and after every piece of text, added up along the text; labels are slices of alphabets without brackets; the removal keeps the levels |
| C97 | `Model/WLatexText`: the texts of the ground and excited state W equations, with the three characters cut off after every equation; `Spec/TexPower`: the argument TeX takes after `^` | levels of brackets as in C96; every label prints a product, so what is cut off is the last ` + `; a multiplicity is at most the number of factors, which is at most the order; a number is one digit long iff it is at most 9 |

## Trusted base

* Lean's kernel (`vcheck` replays the compiled modules).
* Axioms: every theorem depends at most on `propext`, `Classical.choice` and `Quot.sound` (checked with
  `#print axioms`).  No axioms are added; there is no `sorry`, `admit`, `native_decide`, `bv_decide`,
  `implemented_by` or `unsafe`.
* The fidelity of the model (this document and the citations in the source).  The project cannot be run
  here, so it was not tested against Python.  The texts written by the model of `generate_eT_zhz_python` were
  compared with the reference files in `tests/deep/files/test_code_eT_zhz`: all 416 are equal, character by character.
* For C83 - C88 and C90 - C92: the reader and the interpreter of the fragment of Python that the generated files use
  (`Spec/Source`, `Spec/PyRun`).  Numbers are exact, arrays have entries in a commutative ring, arrays of different shapes are not added
  (no broadcasting), docstrings are skipped, imports do nothing, `np.einsum` and `np.zeros` are the only library functions.
  The residual file adds f-strings (assertion messages, not evaluated), `assert`, `elif`/`else`, starred unpacking and attributes of the truncation
  object.  The residual text of the model for order 2 and rank 2 is equal, character by character, to the reference file
  `tests/deep/files/test_code_residual_equations/code_output_residual_equations.py`.
  The W file adds calls of functions of the module (they change the array they are given), `math.factorial` and `symmetrize_tensor` of the module
  `symmetrize` next to the generated files, modelled as the sum over the permutations of the modes with the arguments the generated code passes (the
  `symmetrize_tensor` this repository generates takes other arguments, see the disagreements below).  The W
  text of the model for order 2 is equal, character by character, to the reference file `main_output_w_operator_equations.py`, and the text for order 6
  contains the reference outputs of `tests/deep/files/test_code_w_equations` for the single orders.
  The dt file adds calls of functions of another module (`residual_equations.calculate_order_k_residual`): they are calls in the source of that module, which
  share the arrays.  The dt text of the model for order 2 is equal, character by character, to the reference file `code_output_dt_amplitude_equations.py`, and
  the texts for the other orders contain the reference outputs of `tests/deep/files/test_code_dt_equations` for the single orders.
  For the optimised functions (C90, `Spec/PyIter`): `oe.contract_expression` keeps the subscripts and the operand shapes, the expression computes what `np.einsum`
  computes and raises for other shapes; lists are values (no list that is changed has a second name), `iter`/`next` take the items in order, a function name that is
  not known raises before the arguments are evaluated, `log.warning` does nothing.
  The full-CC text of the model for the truncation 1, 1, 1, 1 is equal, character by character, to the reference file of `tests/deep/files/test_code_full_cc`.

### Modelled, file by file (all in `termfactory/`)

| file | model | not modelled |
|------|-------|--------------|
| helper_funcs.py | `Model/Helper` (permutations, `named_line`, `spaced_named_line` in the renderers), `Model/Symmetrize` | `print_residual_data` (prints only) |
| truncations.py, truncation_keys.py | `Model/Truncations` | JSON texts with escapes, fractions, exponents, arrays or nested objects (for C04 and C05 a file is its parsed dictionary; C93 has the text, `Model/TruncText`, and trusts that `json.dumps` and `json.loads` agree with it on the texts described) |
| driver.py, _glue_.py | `Model/Glue`, `Model/Program`, `Model/History` | `argparse` beyond exact spellings of the options, values without a dash in front and integers; the log file; redirection of stdout |
| latex_full_cc.py | `Model/FullCC/Terms`, `Model/FullCC/Latex`, `Model/LatexText` | debug printing; functions that are never called (`_build_h_string`, `_build_latex_h_string`, `_build_latex_t_string`) |
| code_full_cc.py | `Model/FullCC/Python`, `Model/FullCC/Module`, `Model/FullCC/Text` (the characters of the file) | `_full_cc_einsum_subscript_generator`, `_full_cc_einsum_prefactor` (never called) |
| code_w_equations.py | `Model/W`, `Model/WText` (the characters) | `_generate_t_terms_dictionary`, `_permutation_function`, `_write_permutations` (never called) |
| latex_w_equations.py | `Model/W` | static header text |
| code_residual_equations.py | `Model/Residual`, `Model/ResidualText` (the characters) | printing |
| code_dt_equations.py | `Model/Dt`, `Model/DtText` (the characters) | |
| latex_zhz.py | `Model/Zhz`, `Model/LatexText` | `_generate_t_symmetric_latex_equations`, `_generate_t_symmetric_left_hand_side`, `_make_z_symmetric_latex`, `_write_t_symmetric_latex_from_lists` (never called) |
| latex_eT_zhz.py | `Model/ET`, `Model/LatexText` | left z operators (always `None` at the calls), the excited branches that raise `NotImplementedError` beyond the raise |
| code_eT_zhz.py | `Model/ETPython`, `Model/ETModule` | `compute_prefactor_adjustment` (its result is only printed), `_simplify_eT_zhz_python_prefactor` (its result is thrown away), `_eT_zhz_einsum_subscript_generator`, `_eT_zhz_einsum_prefactor` (never called) |
| reference_latex_headers.py, latex_defines.py, common_imports.py, log_conf.py, code_import_statements_module.py | `eT_zhz_import_statements` in `Model/ETPython` | static text, logging |

Also outside the model: numpy and opt_einsum (their meaning is given only where a theorem needs it,
in a specification: `Spec/Tensor` for the entries of `np.einsum` and `np.transpose` and for the function
`symmetrize_tensor` that the generated modules expect, `Spec/FullCCValue` for the prefactor texts of the full-CC modules,
`Spec/Fock` for creation and annihilation operators as multiplications and derivatives of polynomials), the runtime objects `ansatz` and `truncation` of the caller (any object with the
attributes the generated code reads: arbitrary flags), floating-point arithmetic (prefactors are
rationals), and the file system beyond "the text that is written".

## Disagreements between the claims and the code

Each is proved as a theorem about the model (universally where possible, else with a witness); the
property keeps a `_partial` or exact-condition theorem.  Line numbers refer to /repo/termfactory.

1. Full-CC LaTeX: sums of 14 or more terms whose number is no multiple of 7 lose the last terms
   (`terms_dropped_witness`, `all_terms_shown_iff`).
2. Full-CC LaTeX documents are not produced for projections of rank 4 or more (`document_ok_iff`).
3. Full-CC Python: a term overwrites an earlier one with the same ranks and prefactor text
   (`term_lost_witness`, `all_kept_iff`).
4. Full-CC Python functions of projections with creation operators are empty
   (`creation_projection_empty`), and H of rank 6 raises IndexError (`pythonFile_ok_iff`).
5. Full-CC Python: `compute_all_optimized_paths` stores into a list with a tuple as index and always
   raises (`all_optimized_paths_raises`); contraction expressions have shapes but no subscripts, so
   different contractions get the same expression (`expressions_without_subscripts`,
   `same_expression_witness`).
6. The direct verification functions accept dictionaries with extra keys of the other families (C06).
7. Command-line truncations are not range-checked; file names of different requests coincide where
   parameters are missing (C07, C09).
8. Excited-state W LaTeX never prints the single amplitude (`excited_latex_omits`).
9. The legacy enumeration of t products misses partitions from n = 6 on (`legacy_incomplete`).
10. Residual prefactors of quadratic h terms of high order (`residual_prefactor_wrong`); data generation
    raises for rank and order both at least 4 (`residual_data_iff`).
11. Residual functions of order 2, 3 skip the quadratic h term unless a higher W is `None`
    (`residual_quadratic_skipped`), and from order 5 on use more letters than exist
    (`residual_too_few_letters`).
12. The W and residual modules do not fit together for orders 2, 3, 5, 6 (`pipeline_quadratic_lost`,
    `pipeline_high_orders`, `dt_pipeline_high`).
13. Optimised derivative code serves wrong expressions for truncations with gaps
    (`dt_optimised_starves`, `dt_epsilon_shifted`).
14. z_t LaTeX: long sums repeat or drop terms (`zhz_lines_iff`, `zhz_document_lines_false`); letters run
    out (`zhz_document_labels_iff`); wrong letters in the last sum and of mixed projections
    (`zhz_fifth_letters`, `zhz_omega_letters`); disjoint alphabets on the two sides
    (`zhz_external_letters`); bare h printed although pruned (`zhz_bare_h`).
15. e^T terms: the order of the t factors recorded by z differs from the list of t factors
    (`eT_terms_misaligned`).
16. e^T Python: rank 6 raises IndexError (`eT_python_ok_iff`); on the right-hand side h_0 z^n is missing
    (`eT_python_derivative_left_out`, `eT_rhs_value`); the axes of h_args[(1, 1)] change their meaning from statement to
    statement (`eT_python_h_axes_inconsistent`); the functions for hot bands equal those for the ground
    state (`eT_python_state`).
17. e^T LaTeX: prefactors lack a binomial coefficient (`eT_latex_prefactor_wrong`,
    `eT_latex_prefactor_iff`), summation letters run out (`eT_latex_complete_iff`), disjoint alphabets
    (`eT_latex_external_letters`), bare h printed although pruned (`eT_latex_other_terms`), Taylor order 0
    raises IndexError (`eT_latex_ok_iff`).
18. e^T Python: the optimised functions unpack `opt_paths` but never use them, and the module has no function
    that computes them (`eT_optimised_run_partial`, `eT_no_paths_function`).
19. The function written by `build_symmetrizing_function` takes (tensor, order), but the generated modules call
    `symmetrize_tensor(N, tensor, order=..)` (`symmetrize_call_rejected`); for orders above its maximum (5 by
    default, while order 6 is allowed) it returns zeros (`symmetrize_above`, `symmetrize_default_six`).
20. The prefactors of the full-CC terms are not those of Wick's theorem (C80).  With the conventions of the W code (`1/(m! n!)` in the
    Hamiltonian, `1/n!` in the cluster operator) a term enters with `x! prod(m_h! m_o!) (repetitions) [k! for one amplitude] / (n! k!)`
    times what `H e^T` gives: `h_(0,3) t_1 t_2` in the energy with 2/3, `h_(0,0) t_k` in the function for `k` modes with `k!`.
    `amplitude_projection_iff` gives exactly the truncations for which all factors are 1 and no term is lost.
21. `compute_optimized_epsilon_paths` appends one expression for each rank in the truncation, but `solve_.._equations_optimized` of order `k`
    takes the entry `k - 1`.  For a truncation without a rank below `k` the optimised function raises an exception although the other
    function returns an array (C91, `dt_text_optimized_differs`).
22. `-lhs` with full cc or z_t writes the right-hand-side equations into a file whose name says LHS (C94, `side_ignored`); the full-CC Python file
    ignores `-es` and `-rf`, too (`fcc_python_ignores`).
23. The names of the files of equations, except those of the eT Python modules, do not contain the values, so a run with other values replaces the
    equations of an earlier run; the names of the eT modules do not contain the flags `-es` and `-rf` (C95, `same_name_iff`, `overwritten`).
24. A sum of 14 terms or more in the third term of a z_t equation is printed as `(` and lines, and the `)` is missing (latex_zhz.py 1446), so the
    parentheses of the document are not balanced (C96, `zt_parens_iff`, `zt_parens_values`, `zt_parens_witness`); it takes a
    coupled-cluster rank of 12 and a Hamiltonian of rank 10.
25. The power of an amplitude is written as `)^k` without braces (latex_w_equations.py 111, 235), so TeX shows a wrong exponent when `k` has two
    digits, which happens in every document of order 10 or more (C97, `ground_powers_iff_partial`, `excited_powers_iff_partial`, `powers_witness`).

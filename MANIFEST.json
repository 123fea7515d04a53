{
 "claims": [
  {
   "property": "C01",
   "status": "proved",
   "theorems": [
    "TF.Helper.partitions_exact",
    "TF.Helper.partitions_sorted",
    "TF.Helper.partitions_nodup",
    "TF.Helper.partitions_zero"
   ],
   "note": ""
  },
  {
   "property": "C02",
   "status": "proved",
   "theorems": [
    "TF.Helper.mixed_exact",
    "TF.Helper.mixed_sublist",
    "TF.Helper.linked_exact",
    "TF.Helper.unlinked_exact",
    "TF.Helper.unlinked_sorted",
    "TF.Helper.partition_classes_split",
    "TF.Helper.connected_exact"
   ],
   "note": ""
  },
  {
   "property": "C03",
   "status": "proved",
   "theorems": [
    "TF.Helper.uniquePermutations_exact",
    "TF.Helper.uniquePermutations_sorted"
   ],
   "note": ""
  },
  {
   "property": "C04",
   "status": "proved",
   "theorems": [
    "TF.Trunc.save_load"
   ],
   "note": ""
  },
  {
   "property": "C05",
   "status": "proved",
   "theorems": [
    "TF.Trunc.load_ok_iff",
    "TF.Trunc.load_result",
    "TF.Trunc.loadTrunc_nonempty",
    "TF.Trunc.loadTrunc_empty"
   ],
   "note": ""
  },
  {
   "property": "C06",
   "status": "proved",
   "theorems": [
    "TF.Trunc.verify_ok_iff",
    "TF.Trunc.verify_accepts_extra_key",
    "TF.Trunc.verify_accepts_non_integer"
   ],
   "note": ""
  },
  {
   "property": "C07",
   "status": "partial",
   "theorems": [
    "TF.Glue.makeTrunc_three",
    "TF.Glue.makeTrunc_four",
    "TF.Glue.makeTrunc_five",
    "TF.Glue.makeTrunc_other",
    "TF.Glue.driver_needs_one_source",
    "TF.Glue.driver_t_ok",
    "TF.Glue.driver_t_runs_iff",
    "TF.Glue.driver_saves_unchecked",
    "TF.Glue.driver_zt_out_of_range",
    "TF.Glue.driver_rf_false_is_true"
   ],
   "note": "range checking is proved for the full-CC and eT families and refuted for the z_t family (driver_zt_out_of_range)"
  },
  {
   "property": "C08",
   "status": "proved",
   "theorems": [
    "TF.Glue.generate_ok_iff",
    "TF.Glue.wrapper_call",
    "TF.Glue.wrapper_ok_iff",
    "TF.Glue.generate_zt_python",
    "TF.Glue.generate_missing_ansatz",
    "TF.Glue.generate_no_options"
   ],
   "note": ""
  },
  {
   "property": "C09",
   "status": "proved",
   "theorems": [
    "TF.Glue.flag_paths_injective",
    "TF.Glue.eT_path_injective",
    "TF.Glue.flag_path_ignores_truncations"
   ],
   "note": ""
  },
  {
   "property": "C10",
   "status": "proved",
   "theorems": [
    "TF.CC.omegaOps_exact",
    "TF.CC.omegaOps_nodup",
    "TF.CC.omegaOps_sorted",
    "TF.CC.hamiltonian_exact",
    "TF.CC.sOps_exact"
   ],
   "note": ""
  },
  {
   "property": "C11",
   "status": "proved",
   "theorems": [
    "TF.CC.sTaylor_zero",
    "TF.CC.sTaylor_one",
    "TF.CC.sTaylor_order",
    "TF.CC.sTaylor_length"
   ],
   "note": ""
  },
  {
   "property": "C12",
   "status": "proved",
   "theorems": [
    "TF.CC.terms_sound"
   ],
   "note": ""
  },
  {
   "property": "C13",
   "status": "proved",
   "theorems": [
    "TF.CC.terms_complete"
   ],
   "note": ""
  },
  {
   "property": "C14",
   "status": "proved",
   "theorems": [
    "TF.CC.terms_unique"
   ],
   "note": ""
  },
  {
   "property": "C15",
   "status": "proved",
   "theorems": [
    "TF.CC.termsFor_ok",
    "TF.CC.separate_ok"
   ],
   "note": ""
  },
  {
   "property": "C16",
   "status": "proved",
   "theorems": [
    "TF.CC.remove_f_exact"
   ],
   "note": ""
  },
  {
   "property": "C17",
   "status": "proved",
   "theorems": [
    "TF.CC.separate_exact",
    "TF.CC.classes_disjoint"
   ],
   "note": ""
  },
  {
   "property": "C18",
   "status": "proved",
   "theorems": [
    "TF.CC.plain_labels",
    "TF.CC.printed_labels",
    "TF.CC.printed_f_powers",
    "TF.CC.labels_need_alphabet",
    "TF.CC.linked_labels",
    "TF.CC.unlinked_labels",
    "TF.CC.linked_letters_gap"
   ],
   "note": "Letters are right for every printed form. Condensed linked terms use distinct external letters that may skip one (linked_labels, linked_letters_gap)."
  },
  {
   "property": "C19",
   "status": "proved",
   "theorems": [
    "TF.CC.simplify_value",
    "TF.CC.simplify_no_common",
    "TF.CC.simplify_exact",
    "TF.CC.prefactor_value",
    "TF.CC.prefactor_single",
    "TF.CC.prefactor_hidden_iff",
    "TF.CC.py_prefactor_value",
    "TF.CC.py_latex_prefactor_agree"
   ],
   "note": ""
  },
  {
   "property": "C20",
   "status": "partial",
   "theorems": [
    "TF.CC.all_terms_shown_partial",
    "TF.CC.split_prints_all_iff",
    "TF.CC.split_prefix",
    "TF.CC.equation_contents",
    "TF.CC.equation_zero",
    "TF.CC.equation_not_implemented",
    "TF.CC.all_terms_shown_iff",
    "TF.CC.terms_dropped_witness",
    "TF.CC.document_ok_iff",
    "TF.CC.document_entries"
   ],
   "note": "The claim is false of the code: long sums lose up to six trailing terms (terms_dropped_witness); exact condition in all_terms_shown_iff. The document is not produced at all for projections of rank 4 or more (document_ok_iff)."
  },
  {
   "property": "C21",
   "status": "proved",
   "theorems": [
    "TF.CC.lhs_products_exact",
    "TF.CC.lhs_products_unique",
    "TF.CC.lhs_labels",
    "TF.CC.lhs_terms_exact",
    "TF.CC.lhs_terms_count"
   ],
   "note": ""
  },
  {
   "property": "C22",
   "status": "proved",
   "theorems": [
    "TF.CC.einsums_wellformed",
    "TF.CC.einsums_count",
    "TF.CC.single_amplitude_copies",
    "TF.CC.einsums_seven",
    "TF.CC.fitsCode_of_generated",
    "TF.CC.file_einsums_wellformed"
   ],
   "note": ""
  },
  {
   "property": "C23",
   "status": "partial",
   "theorems": [
    "TF.CC.every_term_emitted_partial",
    "TF.CC.all_kept_iff",
    "TF.CC.term_lost_witness",
    "TF.CC.pythonFile_contents"
   ],
   "note": "The claim is false of the code: a later term with the same ranks and prefactor text overwrites earlier ones (term_lost_witness). Proved: exactly which terms are executed, for every runtime truncation, and that all are kept iff the keys are distinct."
  },
  {
   "property": "C24",
   "status": "proved",
   "theorems": [
    "TF.CC.optimised_paths_aligned",
    "TF.CC.optimised_same_sums",
    "TF.CC.file_paths_aligned"
   ],
   "note": ""
  },
  {
   "property": "C25",
   "status": "proved",
   "theorems": [
    "TF.W.einsums_exact",
    "TF.W.einsums_number",
    "TF.W.einsums_above"
   ],
   "note": ""
  },
  {
   "property": "C26",
   "status": "proved",
   "theorems": [
    "TF.W.w_prefactor_value",
    "TF.W.w_prefactor_empty",
    "TF.W.w_code_latex_agree",
    "TF.W.w_latex_prefactor"
   ],
   "note": ""
  },
  {
   "property": "C27",
   "status": "partial",
   "theorems": [
    "TF.Residual.residual_prefactor_iff",
    "TF.Residual.residual_prefactor_partial",
    "TF.Residual.residual_prefactor_wrong",
    "TF.Residual.residual_symbolic",
    "TF.Residual.residual_symbolic_coefficient",
    "TF.Residual.residual_symbolic_wrong"
   ],
   "note": "False of the code: residual_prefactor_iff gives the exact condition; for the h term with two upper labels and W order above 2 another number is printed (residual_prefactor_wrong) or generation raises."
  },
  {
   "property": "C28",
   "status": "partial",
   "theorems": [
    "TF.Residual.residual_pairs_partial",
    "TF.Residual.residual_texts",
    "TF.Residual.residual_data_iff",
    "TF.Residual.residual_ten_labels"
   ],
   "note": "False of the code for rank and order both >= 4 (raises, residual_data_iff) and for operators with ten or more lower labels (recorded as h_0, residual_ten_labels); proved for everything else."
  },
  {
   "property": "C29",
   "status": "proved",
   "theorems": [
    "TF.Zhz.zhz_terms_paired",
    "TF.Zhz.zhz_terms_ok_iff"
   ],
   "note": ""
  },
  {
   "property": "C30",
   "status": "proved",
   "theorems": [
    "TF.Zhz.zhz_terms_exactly_once"
   ],
   "note": ""
  },
  {
   "property": "C31",
   "status": "partial",
   "theorems": [
    "TF.Zhz.zhz_labels_hz",
    "TF.Zhz.zhz_labels_zh",
    "TF.Zhz.zhz_labels_zhz",
    "TF.Zhz.zhz_document_labels_iff"
   ],
   "note": "False of the code with more than five summation indices or rank above seven; the theorems give the exact condition (at document level: min(H,CC)<=5 and min(CC,P)<=7; H=CC=6 is accepted by the truncation check and prints incomplete labels)."
  },
  {
   "property": "C32",
   "status": "proved",
   "theorems": [
    "TF.Zhz.zhz_prefactor",
    "TF.Zhz.zhz_prefactor_left"
   ],
   "note": ""
  },
  {
   "property": "C33",
   "status": "partial",
   "theorems": [
    "TF.Zhz.zhz_lines_iff",
    "TF.Zhz.zhz_document_lines_partial",
    "TF.Zhz.zhz_document_lines_false"
   ],
   "note": "False of the code for most sums of 14 or more terms (zhz_lines_iff, zhz_document_lines_false); holds for all truncations the checks accept (zhz_document_lines_partial)."
  },
  {
   "property": "C34",
   "status": "partial",
   "theorems": [
    "TF.ET.eT_terms_ok",
    "TF.ET.eT_terms_paired_partial",
    "TF.ET.eT_terms_misaligned"
   ],
   "note": "Each term records a full contraction up to the order of the t factors; the order used by z and by the list of t factors differ (eT_terms_misaligned)."
  },
  {
   "property": "C35",
   "status": "proved",
   "theorems": [
    "TF.ET.eT_terms_ok",
    "TF.ET.eT_terms_exactly_once"
   ],
   "note": ""
  },
  {
   "property": "C36",
   "status": "proved",
   "theorems": [
    "TF.ETPy.eT_python_statements"
   ],
   "note": "Well-formedness is the relation ReadsAs inside Computes: subscripts, operands and letters of each factor, every letter on exactly two places."
  },
  {
   "property": "C37",
   "status": "partial",
   "theorems": [
    "TF.ETPy.eT_python_statements",
    "TF.ETLatex.eT_latex_prefactor_partial",
    "TF.ETLatex.eT_latex_prefactor_iff",
    "TF.ETLatex.eT_latex_prefactor_wrong"
   ],
   "note": "Python: the prefactor is the sum of the weights of the contractions the call computes. LaTeX: the printed fraction is the weight of each contraction the term shows; it is their sum iff h is paired with none or all of the t factors (eT_latex_prefactor_iff), so every document with Taylor order >= 2 has a wrong coefficient (eT_latex_prefactor_wrong)."
  },
  {
   "property": "C38",
   "status": "proved",
   "theorems": [
    "TF.ETLatex.eT_latex_texts_once",
    "TF.ETLatex.eT_latex_sum_complete"
   ],
   "note": ""
  },
  {
   "property": "C39",
   "status": "proved",
   "theorems": [
    "TF.ETPy.eT_python_state",
    "TF.ETPy.eT_python_history",
    "TF.ETPy.eT_python_in_place"
   ],
   "note": ""
  },
  {
   "property": "C40",
   "status": "proved",
   "theorems": [
    "TF.CC.creation_projection_empty",
    "TF.CC.creation_projection_has_terms"
   ],
   "note": ""
  },
  {
   "property": "C41",
   "status": "proved",
   "theorems": [
    "TF.CC.pythonFile_ok_iff"
   ],
   "note": ""
  },
  {
   "property": "C42",
   "status": "proved",
   "theorems": [
    "TF.W.module_generated_iff",
    "TF.W.w_orders",
    "TF.W.w_run_ok_iff",
    "TF.W.w_run_correct",
    "TF.W.w_run_needs_three"
   ],
   "note": ""
  },
  {
   "property": "C43",
   "status": "proved",
   "theorems": [
    "TF.W.w_optimised_same",
    "TF.W.w_optimised_aligned",
    "TF.W.vecc_paths_need_doubles"
   ],
   "note": ""
  },
  {
   "property": "C44",
   "status": "proved",
   "theorems": [
    "TF.W.ground_latex_exact"
   ],
   "note": ""
  },
  {
   "property": "C45",
   "status": "partial",
   "theorems": [
    "TF.W.labels_exact",
    "TF.W.excited_latex_partial",
    "TF.W.excited_latex_omits"
   ],
   "note": "False of the code: for every label with n>=1 the single amplitude t^m_n is not printed (excited_latex_omits); proved that nothing else is missing and nothing is printed twice."
  },
  {
   "property": "C46",
   "status": "proved",
   "theorems": [
    "TF.W.rewrite_idempotent",
    "TF.W.rewrite_fresh_not_idempotent"
   ],
   "note": ""
  },
  {
   "property": "C47",
   "status": "partial",
   "theorems": [
    "TF.W.legacy_exact",
    "TF.W.legacy_sound",
    "TF.W.legacy_incomplete",
    "TF.W.legacy_complete_to_five",
    "TF.W.legacy_boundary"
   ],
   "note": "Completeness is false of the code for every n>=6 (legacy_incomplete), soundness for n=1 (legacy_boundary); the exact set returned is proved for every n>=2 (legacy_exact)."
  },
  {
   "property": "C48",
   "status": "partial",
   "theorems": [
    "TF.Residual.residual_module_iff",
    "TF.Residual.residual_function_runs",
    "TF.Residual.residual_function_partial",
    "TF.Residual.residual_quadratic_skipped",
    "TF.Residual.residual_function_guards"
   ],
   "note": "False of the code: in orders 2 and 3 the h term with two upper labels is in the else branch of `if w_(k+2) is not None` (residual_quadratic_skipped). Proved: exactly which terms are added, for every environment and k <= 4."
  },
  {
   "property": "C49",
   "status": "partial",
   "theorems": [
    "TF.Residual.residual_function_partial",
    "TF.Residual.residual_too_few_letters"
   ],
   "note": "False of the code from order 5 on (residual_too_few_letters); for orders up to 4 the einsums are right (Adds in residual_function_partial)."
  },
  {
   "property": "C50",
   "status": "partial",
   "theorems": [
    "TF.Residual.pipeline_operators",
    "TF.Residual.pipeline_partial",
    "TF.Residual.pipeline_quadratic_lost",
    "TF.Residual.pipeline_high_orders"
   ],
   "note": "False of the code: pipeline_quadratic_lost (orders 2, 3) and pipeline_high_orders (orders 5, 6)."
  },
  {
   "property": "C51",
   "status": "proved",
   "theorems": [
    "TF.Dt.dt_module_iff",
    "TF.Dt.dt_run_ok_iff",
    "TF.Dt.dt_run_correct"
   ],
   "note": ""
  },
  {
   "property": "C52",
   "status": "proved",
   "theorems": [
    "TF.Dt.dt_product_rule"
   ],
   "note": "Multiplication in an arbitrary ring stands for the tensor contraction; that each einsum is the right contraction is MultipliesD / Multiplies in dt_run_correct and w_run_correct."
  },
  {
   "property": "C53",
   "status": "partial",
   "theorems": [
    "TF.Dt.dt_pipeline_partial",
    "TF.Dt.dt_pipeline_high"
   ],
   "note": "False of the code for orders 5 and 6 (dt_pipeline_high: the residual functions need more W operators than the W module returns)."
  },
  {
   "property": "C54",
   "status": "partial",
   "theorems": [
    "TF.Dt.dt_optimised_same",
    "TF.Dt.dt_optimised_partial",
    "TF.Dt.dt_optimised_starves",
    "TF.Dt.dt_epsilon_shifted"
   ],
   "note": "False of the code for truncations with gaps (dt_optimised_starves, dt_epsilon_shifted); proved for truncations closed downwards."
  },
  {
   "property": "C55",
   "status": "partial",
   "theorems": [
    "TF.Zhz.zhz_fifth_letters"
   ],
   "note": "False of the code for projections with creation operators and z with letters; exact condition proved."
  },
  {
   "property": "C56",
   "status": "proved",
   "theorems": [
    "TF.Zhz.zhz_document_ok_iff",
    "TF.Zhz.zhz_document_sections",
    "TF.Zhz.zhz_equation_terms",
    "TF.Zhz.contributes_iff"
   ],
   "note": ""
  },
  {
   "property": "C57",
   "status": "partial",
   "theorems": [
    "TF.Zhz.zhz_omega_letters"
   ],
   "note": "False of the code for mixed projections; exact condition proved."
  },
  {
   "property": "C58",
   "status": "partial",
   "theorems": [
    "TF.Zhz.zhz_external_letters"
   ],
   "note": "False of the code: the alphabets are disjoint (proved for every equation)."
  },
  {
   "property": "C59",
   "status": "partial",
   "theorems": [
    "TF.Zhz.zhz_bare_h"
   ],
   "note": "False of the code: the term is printed in every equation of rank >= 1, while the operator is in the Hamiltonian only under the proved condition."
  },
  {
   "property": "C60",
   "status": "proved",
   "theorems": [
    "TF.Zhz.zhz_labels_hz",
    "TF.Zhz.zhz_labels_zh",
    "TF.Zhz.zhz_labels_zhz"
   ],
   "note": ""
  },
  {
   "property": "C61",
   "status": "partial",
   "theorems": [
    "TF.ETPy.eT_python_exactly_once",
    "TF.ETPy.eT_python_statements",
    "TF.ETPy.eT_python_derivative_left_out",
    "TF.ETPy.eT_python_derivative_exists"
   ],
   "note": "Proved except that on the right-hand side the term h_0 z^n is missing (eT_python_derivative_left_out)."
  },
  {
   "property": "C62",
   "status": "partial",
   "theorems": [
    "TF.ETPy.eT_python_ok_iff"
   ],
   "note": "False of the code for rank 6; the exact condition is proved."
  },
  {
   "property": "C63",
   "status": "partial",
   "theorems": [
    "TF.ETPy.eT_python_h_axes_partial",
    "TF.ETPy.eT_python_h_axes_inconsistent"
   ],
   "note": "False of the code: eT_python_h_axes_inconsistent."
  },
  {
   "property": "C64",
   "status": "proved",
   "theorems": [
    "TF.ETLatex.eT_latex_ok_iff",
    "TF.ETLatex.eT_latex_sections"
   ],
   "note": ""
  },
  {
   "property": "C65",
   "status": "partial",
   "theorems": [
    "TF.ETLatex.eT_latex_exactly_once_partial",
    "TF.ETLatex.eT_latex_complete_iff"
   ],
   "note": "False of the code when the summation letters run out; the exact condition per contraction and per truncation is proved."
  },
  {
   "property": "C66",
   "status": "partial",
   "theorems": [
    "TF.ETLatex.eT_latex_external_letters"
   ],
   "note": "False of the code: the alphabets are disjoint (proved for every term)."
  },
  {
   "property": "C67",
   "status": "partial",
   "theorems": [
    "TF.ETLatex.eT_latex_other_terms"
   ],
   "note": "False of the code for the bare h term, which is always printed; the last sum is right."
  },
  {
   "property": "C68",
   "status": "proved",
   "theorems": [
    "TF.CC.amplitude_run"
   ],
   "note": ""
  },
  {
   "property": "C69",
   "status": "partial",
   "theorems": [
    "TF.CC.amplitude_optimized_run_partial",
    "TF.CC.all_optimized_paths_raises",
    "TF.CC.expressions_without_subscripts",
    "TF.CC.same_expression_witness"
   ],
   "note": "Same additions, exceptions and matching shapes are proved. False of the code: the expressions carry no subscripts and compute_all_optimized_paths always raises."
  },
  {
   "property": "C70",
   "status": "proved",
   "theorems": [
    "TF.ETPy.eT_amplitude_run",
    "TF.ETPy.eT_amplitude_errors"
   ],
   "note": ""
  },
  {
   "property": "C71",
   "status": "partial",
   "theorems": [
    "TF.ETPy.eT_optimised_run_partial",
    "TF.ETPy.eT_no_paths_function"
   ],
   "note": "Same results and exceptions as the default function are proved, for every pair of lists. False of the code: the paths are never used, and no function of the module computes them."
  },
  {
   "property": "C72",
   "status": "proved",
   "theorems": [
    "TF.W.w_value",
    "TF.W.w_exponential"
   ],
   "note": ""
  },
  {
   "property": "C73",
   "status": "proved",
   "theorems": [
    "TF.Sym.symmetrize_sum",
    "TF.Sym.symmetrize_above",
    "TF.Sym.symmetrize_symmetric",
    "TF.Sym.symSum_symmetric",
    "TF.Sym.symSum_of_symmetric",
    "TF.Sym.symmetrize_call_rejected",
    "TF.Sym.symmetrize_default_six"
   ],
   "note": ""
  },
  {
   "property": "C74",
   "status": "proved",
   "theorems": [
    "TF.Dt.dt_value"
   ],
   "note": ""
  },
  {
   "property": "C75",
   "status": "proved",
   "theorems": [
    "TF.Dt.line_symmetrised",
    "TF.Dt.residual_value"
   ],
   "note": "For the orders up to 4, which are those whose functions can be called after the W module; line_symmetrised has no bound on the order. residual_value shows that h^2_0 W is missing in orders 2 and 3."
  },
  {
   "property": "C76",
   "status": "partial",
   "theorems": [
    "TF.Dt.equation_of_motion_partial",
    "TF.Dt.equation_of_motion"
   ],
   "note": "False of the code in orders 2 and 3 with a quadratic truncation, where h^2_0 W is missing (equation_of_motion states the equation that is solved instead), and from order 5 on the calls raise (C53)."
  },
  {
   "property": "C77",
   "status": "proved",
   "theorems": [
    "TF.Fock.w_is_exponential",
    "TF.Fock.w_is_linear",
    "TF.Fock.w_is_mixed"
   ],
   "note": ""
  },
  {
   "property": "C78",
   "status": "partial",
   "theorems": [
    "TF.Fock.schroedinger_partial",
    "TF.Fock.schroedinger",
    "TF.Fock.hamW_state"
   ],
   "note": "False of the code in orders 2 and 3 with a quadratic truncation, where h^2_0 W is missing (schroedinger states the equation that is solved instead), and from order 5 on the calls raise (C53)."
  },
  {
   "property": "C79",
   "status": "proved",
   "theorems": [
    "TF.CC.amplitude_value",
    "TF.CC.means_unique",
    "TF.CC.term_value"
   ],
   "note": ""
  },
  {
   "property": "C80",
   "status": "partial",
   "theorems": [
    "TF.CC.amplitude_projection_partial",
    "TF.CC.amplitude_projection_iff",
    "TF.CC.amplitude_operator",
    "TF.CC.exp_contributions"
   ],
   "note": "The full claim is false; amplitude_projection_iff says for which truncations it holds. exp_contributions: the generated terms are all of H e^T. amplitude_operator: the factor with which each enters."
  },
  {
   "property": "C81",
   "status": "proved",
   "theorems": [
    "TF.ETPy.eT_rhs_value"
   ],
   "note": ""
  },
  {
   "property": "C82",
   "status": "proved",
   "theorems": [
    "TF.ETPy.eT_lhs_value"
   ],
   "note": ""
  },
  {
   "property": "C83",
   "status": "proved",
   "theorems": [
    "TF.ETPy.eT_rhs_text"
   ],
   "note": ""
  },
  {
   "property": "C84",
   "status": "proved",
   "theorems": [
    "TF.ETPy.eT_lhs_text"
   ],
   "note": ""
  },
  {
   "property": "C85",
   "status": "proved",
   "theorems": [
    "TF.Residual.residual_text_runs",
    "TF.Residual.residual_text",
    "TF.Residual.residual_text_errors"
   ],
   "note": "orders 5 and 6 are left out: the letters of the modes run out there, as in C75"
  },
  {
   "property": "C86",
   "status": "proved",
   "theorems": [
    "TF.W.w_text",
    "TF.W.w_text_exponential",
    "TF.W.w_text_errors",
    "TF.W.w_text_exists"
   ],
   "note": ""
  },
  {
   "property": "C87",
   "status": "proved",
   "theorems": [
    "TF.Dt.dt_text_runs",
    "TF.Dt.dt_text_returns_iff",
    "TF.Dt.text_equation_of_motion",
    "TF.Dt.dt_text_exists"
   ],
   "note": "orders up to 4, as in C85"
  },
  {
   "property": "C88",
   "status": "proved",
   "theorems": [
    "TF.CC.text_value",
    "TF.CC.text_calls",
    "TF.CC.text_creation_zero",
    "TF.CC.text_projection_partial"
   ],
   "note": "text_value: the property. text_creation_zero: projections with creation operators give zeros. text_calls: also the functions with m > 0, relative to the interpreter of C68. text_projection_partial: the part of C80 that holds, for the executed text."
  },
  {
   "property": "C89",
   "status": "proved",
   "theorems": [
    "TF.Zhz.zhz_equation_operator",
    "TF.Zhz.zhz_product_normal",
    "TF.Zhz.zhz_normal_unique",
    "TF.Zhz.zhz_equation_ground"
   ],
   "note": "zhz_equation_operator: the property, for any expansion of the product in normal order. zhz_product_normal: there is one. zhz_normal_unique: only one. zhz_equation_ground: on the ground state. The range of truncations is that of C31."
  },
  {
   "property": "C90",
   "status": "proved",
   "theorems": [
    "TF.W.w_text_optimized",
    "TF.W.w_text_optimized_value"
   ],
   "note": "w_text_optimized: same result as compute_w_operators for all arguments. w_text_optimized_value: with the values of C86."
  },
  {
   "property": "C91",
   "status": "proved",
   "theorems": [
    "TF.Dt.dt_text_optimized",
    "TF.Dt.dt_text_optimized_iff",
    "TF.Dt.dt_text_optimized_differs"
   ],
   "note": "dt_text_optimized: same result as the other function if the truncation contains the lower ranks, an exception otherwise. dt_text_optimized_iff: exact condition. dt_text_optimized_differs: witness of a truncation for which only the optimised function raises."
  },
  {
   "property": "C92",
   "status": "proved",
   "theorems": [
    "TF.Residual.residual_text_high",
    "TF.Residual.residual_text_high_raises",
    "TF.Dt.dt_text_high"
   ],
   "note": "residual_text_high: the four cases. residual_text_high_raises: an exception whenever W of the order is passed. dt_text_high: all functions of the dt module of the orders 5 and 6 always raise."
  },
  {
   "property": "C93",
   "status": "proved",
   "theorems": [
    "TF.Trunc.save_text_load",
    "TF.Trunc.load_text_layout",
    "TF.Trunc.load_text_ok_iff"
   ],
   "note": "save_text_load: the text that is written is read back as the same dictionary. load_text_layout: white space does not matter. load_text_ok_iff: exactly which texts are accepted and what is returned. The standard json library is described by Spec/Json and Model/TruncText for objects of integers, booleans, nulls and strings without escapes."
  },
  {
   "property": "C94",
   "status": "proved",
   "theorems": [
    "TF.Program.parse_items",
    "TF.Program.run_t",
    "TF.Program.run_t_other",
    "TF.Program.run_t_mismatch",
    "TF.Program.run_unclear",
    "TF.Program.run_atomic",
    "TF.Program.run_replay",
    "TF.Program.side_ignored",
    "TF.Program.fcc_python_ignores"
   ],
   "note": "parse_items: every order and spelling of the options. run_t: exactly when the file of equations is written, its name and contents, and what has been saved before. run_t_other, run_t_mismatch: the other runs with -t. run_atomic: a failing run writes no equations. run_replay: running again on the saved file. side_ignored, fcc_python_ignores: options that change only the name of the file. run_unclear: -t together with --path, neither, or a missing file."
  },
  {
   "property": "C95",
   "status": "proved",
   "theorems": [
    "TF.Program.session_equations",
    "TF.Program.session_truncs",
    "TF.Program.session_replay",
    "TF.Program.same_name_iff",
    "TF.Program.session_described",
    "TF.Program.overwritten"
   ],
   "note": "session_equations: the files of equations after any history. session_truncs: the saved values. session_replay: using them again. same_name_iff: when two files have the same name. session_described: the theorems apply to every sequence of command lines without --path. overwritten: a history in which equations are lost."
  },
  {
   "property": "C96",
   "status": "partial",
   "theorems": [
    "TF.LatexText.fcc_balanced",
    "TF.LatexText.zt_braces",
    "TF.LatexText.zt_parens_iff",
    "TF.LatexText.zt_parens_values",
    "TF.LatexText.zt_parens_witness",
    "TF.LatexText.eT_balanced"
   ],
   "note": "fcc_balanced, eT_balanced: both kinds of brackets. zt_braces: the braces of z_t. zt_parens_iff: the parentheses of z_t, exactly when no sum has 14 terms. zt_parens_values: the same in terms of the truncations; balanced in particular for ranks of the Hamiltonian up to 9 or coupled-cluster ranks up to 11. zt_parens_witness: a document where they are not balanced, so the general claim is false of the code."
  },
  {
   "property": "C97",
   "status": "partial",
   "theorems": [
    "TF.W.ground_text_balanced",
    "TF.W.excited_text_balanced",
    "TF.W.excited_text_exact",
    "TF.W.ground_powers_iff_partial",
    "TF.W.excited_powers_iff_partial",
    "TF.W.powers_witness"
   ],
   "note": "ground_text_balanced, excited_text_balanced: both kinds of brackets, for all orders. excited_text_exact: what is cut off after an equation is the last plus sign and nothing else. ground_powers_iff_partial, excited_powers_iff_partial: all powers are shown exactly if the maximal order is at most 9. powers_witness: the power 10 in the equation of order 10, so the claim about powers is false of the code."
  }
 ]
}
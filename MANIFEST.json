{
 "claims": [
  {
   "property": "C01",
   "status": "proved",
   "theorems": [
    "OM.c01_group",
    "OM.c01_execution_order",
    "OM.wellFormed_of_order",
    "OM.orderOk_two",
    "OM.orderOk_four",
    "OM.orderOk_eight",
    "OM.pySetList_ascending"
   ],
   "note": "Proved for every acyclic group below the recursion limit for whose dependencies the order of sets of positions is good (OrderOk). CPython's order, modelled exactly, is good for an expression with at most two dependencies (any number of independent variables), with at most four of which at most one is needed by another, or if dependencies and independent variables are at most eight. Without any such condition the claim is false, see C05."
  },
  {
   "property": "C02",
   "status": "proved",
   "theorems": [
    "OM.c02_group",
    "OM.c02_exactly_once"
   ],
   "note": "Same conditions as C01. c02_group is about histories of calls: the components are exactly the objects from which an output is built; results of x[key] have none, they are written by the component that decomposes x."
  },
  {
   "property": "C03",
   "status": "proved",
   "theorems": [
    "OM.c03_terminates",
    "OM.c03_cyclic_nodes_dropped"
   ],
   "note": "Any finite graph, any dependents lists, any earlier visit counts."
  },
  {
   "property": "C04",
   "status": "proved",
   "theorems": [
    "OM.c04_removal_keeps_constraints",
    "OM.c04_removal_in_setup"
   ],
   "note": "c04_removal_in_setup: the calls made by setup, under the condition of C01 on integer sets. c04_removal_keeps_constraints: any calls on any graph, if sets of all positions come in ascending order (CPython: at most eight dependencies)."
  },
  {
   "property": "C05",
   "status": "partial",
   "theorems": [
    "OM.c05_same_components_partial",
    "OM.c05_order_of_int_sets_matters",
    "OM.c05_order_of_int_sets_breaks_setup",
    "OM.c05_lost",
    "OM.c05_lost_cpython"
   ],
   "note": "The code violates the claim: with CPython's order of {8, 0} an expression with ten dependencies runs before one of them, and every expression with two redundant dependencies at positions iterated in descending order loses the dependency after the second. Partial: holds for ascending integer sets, any order of object sets."
  },
  {
   "property": "C06",
   "status": "proved",
   "theorems": [
    "OM.c06_group",
    "OM.c06_indeps_first"
   ],
   "note": "Same conditions as C01."
  },
  {
   "property": "C07",
   "status": "proved",
   "theorems": [
    "OM.c07_outputs_before_subsystem"
   ],
   "note": "Histories of any length (GroupOk). The output must not later be defined by an expression depending on the subsystem: then the code cuts the dependency, and no order could satisfy both."
  },
  {
   "property": "C08",
   "status": "proved",
   "theorems": [
    "OM.c08_inputs_after_subsystem"
   ],
   "note": "Histories of any length (GroupOk), any number of subsystems in between."
  },
  {
   "property": "C09",
   "status": "proved",
   "theorems": [
    "OM.c09_subsystems_in_order"
   ],
   "note": "Histories of any length (GroupOk)."
  },
  {
   "property": "C10",
   "status": "proved",
   "theorems": [
    "OM.c10_undefined_reported",
    "OM.c10_defined_accepted"
   ],
   "note": "Histories of any length (GroupOk)."
  },
  {
   "property": "C11",
   "status": "partial",
   "theorems": [
    "OM.c11_second_setup_builds_nothing"
   ],
   "note": "The code violates the claim: the negation is proved for every group and every second description."
  },
  {
   "property": "C12",
   "status": "proved",
   "theorems": [
    "OM.c12_program",
    "OM.c12_values",
    "OM.c12_group_values",
    "OM.c12_group_calls",
    "OM.c12_expression_values"
   ],
   "note": "c12_program: for every program of API calls the values computed satisfy each equation the user wrote (exception: C64). The others: any components wired by the dependencies; conditions of C01. Groups with feedback (define on an output the expression depends on) are not Wired: they have to be iterated."
  },
  {
   "property": "C13",
   "status": "proved",
   "theorems": [
    "OM.c13_order_irrelevant",
    "OM.c13_group_order_irrelevant"
   ],
   "note": "Same conditions as C12."
  },
  {
   "property": "C14",
   "status": "partial",
   "theorems": [
    "OM.c14_acyclic_partial",
    "OM.c14_self_assignment",
    "OM.c14_feedback_assignment"
   ],
   "note": "The code violates the claim: two histories are proved to make a cycle and end in RecursionError for every recursion limit. Partial: acyclic for all histories without indexed assignment of an expression to an output it depends on."
  },
  {
   "property": "C15",
   "status": "partial",
   "theorems": [
    "OM.c15_collisions_exact",
    "OM.c15_unique_partial",
    "OM.c15_collision"
   ],
   "note": "The code violates the claim beyond 62*63^4 names: the first collision is proved. Up to there names are proved different; which numbers collide is described exactly."
  },
  {
   "property": "C16",
   "status": "partial",
   "theorems": [
    "OM.c16_never_wrong",
    "OM.c16_accepts_forward",
    "OM.c16_accepts_backward",
    "OM.c16_refuses",
    "OM.c16_exceptions",
    "OM.c16_reversed_refused"
   ],
   "note": "Never wrong: proved for all bounds and steps. The code refuses every slice with a negative step and a missing bound (proved for either bound and any axis), so it is not complete for those."
  },
  {
   "property": "C17",
   "status": "partial",
   "theorems": [
    "OM.c17_values_partial",
    "OM.c17_exact",
    "OM.c17_built",
    "OM.c17_negative_int",
    "OM.c17_one_source",
    "OM.c17_partials",
    "OM.c17_other_failures_leave_no_trace",
    "OM.c17_refused_assignment_takes_effect",
    "OM.c17_partials_violated",
    "OM.c17_matrix_slice"
   ],
   "note": "The code violates the claim: an assignment refused for overlapping indices takes effect if the exception is caught (proved for outputs of any length), and then the partials are wrong too. A slice alone on a matrix is read as flat positions, unlike NumPy (proved). Partial: the claim itself holds for histories in which refused assignments left no trace and int keys are not negative. c17_exact says what happens in every history without negative ints, refused assignments included: the last recorded assignment wins. c17_negative_int: with a recorded negative int, running the component raises ValueError. One source per element holds for all histories."
  },
  {
   "property": "C18",
   "status": "partial",
   "theorems": [
    "OM.c18_overlap_rejected",
    "OM.c18_overlap_value_error",
    "OM.c18_out_of_range",
    "OM.c18_accepted_in_range",
    "OM.c18_negative_index_accepted",
    "OM.c18_accepts",
    "OM.c18_exact",
    "OM.c18_refused_blocks"
   ],
   "note": "The code violates the claim for negative ints: out[n] and out[-1] are both accepted (proved). Everything else is proved; a repeated expression gives KeyError instead of ValueError. c18_exact characterises acceptance for every history; c18_refused_blocks: an assignment refused for overlapping blocks the positions it would have taken."
  },
  {
   "property": "C19",
   "status": "partial",
   "theorems": [
    "OM.c19_never_wrong",
    "OM.c19_values",
    "OM.c19_partials",
    "OM.c19_accepts",
    "OM.c19_computed_expression",
    "OM.c19_computed_expression_int",
    "OM.c19_exceptions"
   ],
   "note": "Proved for variables whose stored value has their shape. The code violates the claim for computed expressions, whose val stays np.array([1]) (proved)."
  },
  {
   "property": "C20",
   "status": "proved",
   "theorems": [
    "OM.c20_same_key",
    "OM.c20_same_expr"
   ],
   "note": "Every history of reads, including failing ones."
  },
  {
   "property": "C21",
   "status": "partial",
   "theorems": [
    "OM.c21_read_back_partial",
    "OM.c21_readable",
    "OM.c21_negative_stop",
    "OM.c21_matrix_int_key"
   ],
   "note": "Values read are the assigned ones whenever the read succeeds, and it succeeds for keys within the shape with one item per axis. The code violates the claim: accepted keys that cannot be read are proved (a negative stop for every length, an int key for every matrix)."
  },
  {
   "property": "C22",
   "status": "partial",
   "theorems": [
    "OM.c22_failure_is_harmless_partial",
    "OM.c22_first_failure_is_permanent",
    "OM.c22_exceptions"
   ],
   "note": "The code violates the claim: if the very first use fails, all later ones fail (proved for every key). Partial: failures after a first success are harmless."
  },
  {
   "property": "C23",
   "status": "partial",
   "theorems": [
    "OM.c23_no_redefinition_partial",
    "OM.c23_assignment_after_define"
   ],
   "note": "The code violates the claim: indexed assignment after define is accepted. The other two thirds are proved."
  },
  {
   "property": "C24",
   "status": "proved",
   "theorems": [
    "OM.c24_register_outcome"
   ],
   "note": "Any history."
  },
  {
   "property": "C25",
   "status": "partial",
   "theorems": [
    "OM.c25_collision_check_never_fires",
    "OM.c25_check_exact",
    "OM.c25_same_name_noticed_partial",
    "OM.c25_setup_exact"
   ],
   "note": "The documented error is never raised (proved); equal component names are noticed by OpenMDAO's add_subsystem instead."
  },
  {
   "property": "C26",
   "status": "partial",
   "theorems": [
    "OM.c26_linear_combination",
    "OM.c26_add",
    "OM.c26_sub",
    "OM.c26_accepts",
    "OM.c26_exceptions",
    "OM.c26_array_on_the_left",
    "OM.c26_operands",
    "OM.c26_with_array",
    "OM.c26_combination_plain"
   ],
   "note": "Proved for all operands except an array on the left of the operator, where NumPy makes an array of expressions instead of an expression (proved)."
  },
  {
   "property": "C27",
   "status": "proved",
   "theorems": [
    "OM.c27_power_combination",
    "OM.c27_mul",
    "OM.c27_div",
    "OM.c27_div_zero",
    "OM.c27_pow",
    "OM.c27_neg",
    "OM.c27_exceptions"
   ],
   "note": "All sizes and inputs where NumPy's power is defined and differentiable (positive base, or integer exponent with a nonzero base or exponent at least one). Floating point is idealised by reals."
  },
  {
   "property": "C28",
   "status": "partial",
   "theorems": [
    "OM.c28_number_coefficient_partial",
    "OM.c28_exact",
    "OM.c28_array_coefficient_changes",
    "OM.c28_array_coefficient_derivative"
   ],
   "note": "The code violates the claim for array coefficients: proved for all shapes and inputs. c28_exact: after any derivative evaluations the result is multiplied by all the inputs they were made at. Holds for number coefficients."
  },
  {
   "property": "C29",
   "status": "partial",
   "theorems": [
    "OM.c29_only_first_row",
    "OM.c29_vector",
    "OM.c29_wrong",
    "OM.c29_equal_rows_partial",
    "OM.c29_zero",
    "OM.c29_zero_rows"
   ],
   "note": "The code violates the claim: only the first row of the exponent array is used, in results and derivatives (proved for every shape); for positive inputs other than 1 an element is right exactly if its exponent is the one of the first row. With a zero among the inputs and rows of more than one element the evaluation raises (proved). Arrays with equal rows: correct, with exact derivatives."
  },
  {
   "property": "C30",
   "status": "partial",
   "theorems": [
    "OM.c30_values",
    "OM.c30_partials_partial",
    "OM.c30_two_functions_fail"
   ],
   "note": "All 18 formulas are proved exact. The code violates the claim for arcsin and sech of arrays of rank two or more, whose derivatives raise (proved)."
  },
  {
   "property": "C31",
   "status": "proved",
   "theorems": [
    "OM.c31_elementwise",
    "OM.c31_reduction",
    "OM.c31_forms",
    "OM.c31_refused",
    "OM.c31_exceptions"
   ],
   "note": "All three forms, maximum and minimum."
  },
  {
   "property": "C32",
   "status": "proved",
   "theorems": [
    "OM.c32_elementwise",
    "OM.c32_reduction"
   ],
   "note": "All three forms; for the axis-wise and scalar forms these are the derivatives computed together with the value (see C33)."
  },
  {
   "property": "C33",
   "status": "partial",
   "theorems": [
    "OM.c33_elementwise",
    "OM.c33_reduction_stale",
    "OM.c33_reduction_partial",
    "OM.c33_reduction_violated",
    "OM.c33_pnorm_stale",
    "OM.c33_pnorm_partial",
    "OM.c33_pnorm_violated"
   ],
   "note": "The code violates the claim for the axis-wise and scalar extrema and for the p-norm, which keep results of the last evaluation (proved, with the exact dependence on the history). Partial: derivatives are exact if the last evaluation was at the same inputs."
  },
  {
   "property": "C34",
   "status": "proved",
   "theorems": [
    "OM.c34_value",
    "OM.c34_norm",
    "OM.c34_exact",
    "OM.c34_accepts",
    "OM.c34_arguments",
    "OM.c34_rejects",
    "OM.c34_exceptions"
   ],
   "note": "Derivatives asked for after an evaluation at the same inputs (see C33)."
  },
  {
   "property": "C35",
   "status": "partial",
   "theorems": [
    "OM.c35_sum",
    "OM.c35_arguments",
    "OM.c35_accepted",
    "OM.c35_average_partial",
    "OM.c35_average_accepts",
    "OM.c35_average_two_axes",
    "OM.c35_average_no_axes",
    "OM.c35_exceptions",
    "OM.c35_layout",
    "OM.c35_removed"
   ],
   "note": "Sums are proved in full. The code violates the claim for averages over two or more axes, which raise IndexError, and over an empty tuple of axes (both proved)."
  },
  {
   "property": "C36",
   "status": "proved",
   "theorems": [
    "OM.c36_matmat",
    "OM.c36_matvec",
    "OM.c36_accepted",
    "OM.c36_refused",
    "OM.c36_same_operand",
    "OM.c36_exceptions"
   ],
   "note": "First operands of every rank: beyond two axes those whose other axes have length one, the others are refused. Operands with different names (the same expression twice is refused at setup, see C54)."
  },
  {
   "property": "C37",
   "status": "proved",
   "theorems": [
    "OM.c37_outer",
    "OM.c37_accepted",
    "OM.c37_exceptions"
   ],
   "note": "At most 26 axes in total, operands with different names."
  },
  {
   "property": "C38",
   "status": "partial",
   "theorems": [
    "OM.c38_dot",
    "OM.c38_dot_accepted",
    "OM.c38_inner_value",
    "OM.c38_inner_accepted",
    "OM.c38_inner_partials_partial",
    "OM.c38_inner_partials_exactly",
    "OM.c38_inner_negative_axis",
    "OM.c38_dot_exceptions",
    "OM.c38_inner_exceptions"
   ],
   "note": "Values, vector products and dot products are proved in full. The Jacobian of inner of tensors is exact when the axes of each operand are nonnegative numbers, or all its axes are contracted and the negative ones come first; for operands whose axes all have at least two entries it is proved that it is wrong at some inputs in all other cases, so the code violates the claim."
  },
  {
   "property": "C39",
   "status": "partial",
   "theorems": [
    "OM.c39_cross_partial",
    "OM.c39_accepted",
    "OM.c39_negative_axis",
    "OM.c39_wrong_partials",
    "OM.c39_exceptions"
   ],
   "note": "Values: proved for every axis that is accepted. Jacobian: proved for axes counted from the front (at most ten other axes), for ten axes, and for axis -11. The code violates the claim for the other negative axes: most raise at setup, and for arrays of six or more axes every one that is accepted has a wrong Jacobian (proved)."
  },
  {
   "property": "C40",
   "status": "proved",
   "theorems": [
    "OM.c40_value",
    "OM.c40_rotation",
    "OM.c40_exact",
    "OM.c40_axis",
    "OM.c40_refused"
   ],
   "note": ""
  },
  {
   "property": "C41",
   "status": "partial",
   "theorems": [
    "OM.c41_exact",
    "OM.c41_scalar",
    "OM.c41_code",
    "OM.c41_value_partial",
    "OM.c41_accepted",
    "OM.c41_exceptions",
    "OM.c41_permuted",
    "OM.c41_exactly",
    "OM.c41_rank_unchecked"
   ],
   "note": "Partials are exact for everything accepted, and the values are proved if the letters on the left occur on the right in the same order. The code violates the claim for other orders: the order of the letters on the left is ignored (c41_exactly: the values are right if and only if the letters of axes longer than one are in the same order; c41_code says what is computed)."
  },
  {
   "property": "C42",
   "status": "proved",
   "theorems": [
    "OM.c42_reorder",
    "OM.c42_refused",
    "OM.c42_exceptions",
    "OM.c42_inverse",
    "OM.c42_transpose"
   ],
   "note": ""
  },
  {
   "property": "C43",
   "status": "proved",
   "theorems": [
    "OM.c43_reshape"
   ],
   "note": "A change of size is rejected when the model runs."
  },
  {
   "property": "C44",
   "status": "partial",
   "theorems": [
    "OM.c44_shape",
    "OM.c44_value",
    "OM.c44_accepted",
    "OM.c44_refused",
    "OM.c44_accepted_exactly",
    "OM.c44_broadcast_refused",
    "OM.c44_broadcast_first",
    "OM.c44_exceptions",
    "OM.c44_no_arrow",
    "OM.c44_no_arrow_exactly"
   ],
   "note": "Proved for all strings with an arrow, including broadcast axes; what is accepted is characterised exactly. The code violates the claim for strings without an arrow: the shape announced is made of labels that the result does not have, so a call is accepted only if the sizes agree by chance or the result has one entry (c44_no_arrow_exactly says for all such strings what is accepted and computed), and it refuses operands whenever the first axis with a label of the result is broadcast (proved)."
  },
  {
   "property": "C45",
   "status": "partial",
   "theorems": [
    "OM.c45_dense_partial",
    "OM.c45_sparse_partial",
    "OM.c45_inputs",
    "OM.c45_new_after_repeated",
    "OM.c45_letters",
    "OM.c45_sparse_order",
    "OM.c45_sparse_broadcast",
    "OM.c45_no_arrow"
   ],
   "note": "Dense partials are exact if no new operand follows a repeated one and the unused letters suffice. Sparse partials are exact if moreover no axis is broadcast and sparse inputs come first. The code violates the claim in each of the other cases: compute_partials raises, or entries are missing for broadcast axes (all proved). Without an arrow compute_partials always raises (c45_no_arrow)."
  },
  {
   "property": "C46",
   "status": "proved",
   "theorems": [
    "OM.c46_same",
    "OM.c46_too_many",
    "OM.c46_unknown_label"
   ],
   "note": ""
  },
  {
   "property": "C47",
   "status": "partial",
   "theorems": [
    "OM.c47_accepted",
    "OM.c47_value_partial",
    "OM.c47_partials_partial",
    "OM.c47_wrong_partials",
    "OM.c47_array",
    "OM.c47_array_condition",
    "OM.c47_same_expression",
    "OM.c47_exceptions"
   ],
   "note": "For expressions with one entry the value is right. The code violates the rest of the claim: the partial of the branch taken is its value, so it is exact only if that value is one; arrays, array conditions and repeated expressions raise (all proved)."
  },
  {
   "property": "C48",
   "status": "partial",
   "theorems": [
    "OM.c48_step",
    "OM.c48_inside",
    "OM.c48_bracket",
    "OM.c48_root_partial",
    "OM.c48_roots",
    "OM.c48_converges",
    "OM.c48_coupled"
   ],
   "note": "Proved for residuals each entry of which depends, inside the bracket, on its own entry of the output only (so for all scalar ones), with the better bound |x2-x1|/2^(maxiter+1). The code violates the claim for residuals whose entries are coupled (proved)."
  },
  {
   "property": "C49",
   "status": "partial",
   "theorems": [
    "OM.c49_single_partial",
    "OM.c49_solved_partial",
    "OM.c49_plain",
    "OM.c49_initial",
    "OM.c49_two_outputs",
    "OM.c49_mixed",
    "OM.c49_maxiter",
    "OM.c49_exceptions"
   ],
   "note": "Proved for components with a single output. The code violates the claim otherwise: with a bracketed and any other output solving raises KeyError, and maxiter has no effect (all proved, for every history and order)."
  },
  {
   "property": "C50",
   "status": "partial",
   "theorems": [
    "OM.c50_read",
    "OM.c50_set",
    "OM.c50_exceptions",
    "OM.c50_declare_exceptions",
    "OM.c50_valid_partial",
    "OM.c50_invalid_default",
    "OM.c50_types_list"
   ],
   "note": "Reads are proved for every history. The code violates the validation clause for invalid defaults: declare raises but the value is readable (proved); proved to hold when the defaults are valid. Types given as a list reject every value (proved)."
  },
  {
   "property": "C51",
   "status": "proved",
   "theorems": [
    "OM.c51_agree",
    "OM.c51_raises"
   ],
   "note": ""
  },
  {
   "property": "C52",
   "status": "proved",
   "theorems": [
    "OM.c52_define",
    "OM.c52_define_finishes"
   ],
   "note": "Any state reached by a history; exact description of all dependency lists afterwards."
  },
  {
   "property": "C53",
   "status": "partial",
   "theorems": [
    "OM.c53_collect",
    "OM.c53_terminates",
    "OM.c53_interface_partial",
    "OM.c53_single",
    "OM.c53_shared",
    "OM.c53_deep",
    "OM.c53_output_as_input",
    "OM.c53_after_subsystem"
   ],
   "note": "Proved for components that can be set up. The code violates the claim when two residuals share a free input, when an input is named as another output (setup raises), and for inputs declared after any subsystem, which are not exposed (all proved)."
  },
  {
   "property": "C54",
   "status": "partial",
   "theorems": [
    "OM.c54_same_operand_fails",
    "OM.c54_different_operands_partial"
   ],
   "note": "The code violates the claim for every expression and shape: setup raises."
  },
  {
   "property": "C55",
   "status": "partial",
   "theorems": [
    "OM.c55_rows_partial",
    "OM.c55_not_grid",
    "OM.c55_transposed",
    "OM.c55_limits",
    "OM.c55_exceptions"
   ],
   "note": "Proved for one input or a single-point grid. With more, the code reshapes where it should transpose: the rows are not grid points (proved)."
  },
  {
   "property": "C56",
   "status": "proved",
   "theorems": [
    "OM.c56_program",
    "OM.c56_total_derivatives"
   ],
   "note": "c56_program: for every program of API calls. Conditions of C12, partials exact at the computed values. That OpenMDAO solves the stated linear system is trusted."
  },
  {
   "property": "C57",
   "status": "partial",
   "theorems": [
    "OM.c57_exponential_work"
   ],
   "note": "The code violates the claim: the negation is proved (2^(m+1) calls for 2(m+1) expressions)."
  },
  {
   "property": "C58",
   "status": "partial",
   "theorems": [
    "OM.c58_long_chain_fails",
    "OM.c58_witness"
   ],
   "note": "The code violates the claim: RecursionError for every chain at least as long as the limit. What holds below the limit is C01."
  },
  {
   "property": "C59",
   "status": "proved",
   "theorems": [
    "OM.c59_create_group_builds_once"
   ],
   "note": "Same conditions as C01."
  },
  {
   "property": "C60",
   "status": "partial",
   "theorems": [
    "OM.c60_define_partial",
    "OM.c60_shape"
   ],
   "note": "Proved for an expression of the declared shape. An expression of another shape is accepted and the output has its shape (proved)."
  },
  {
   "property": "C61",
   "status": "partial",
   "theorems": [
    "OM.c61_solve_linear_partial",
    "OM.c61_adds",
    "OM.c61_totals_iff",
    "OM.c61_totals_partial",
    "OM.c61_totals_violated"
   ],
   "note": "Proved for diagonal Jacobians; proved to fail for every other Jacobian with nonzero diagonal. The same for the derivatives of the solution as a function of the inputs, in both modes, with the exact condition for each direction."
  },
  {
   "property": "C62",
   "status": "partial",
   "theorems": [
    "OM.c53_interface_partial",
    "OM.c62_coupled"
   ],
   "note": "Proved for free inputs and the residual's own output. The code violates the claim for the other implicit outputs a residual depends on: no partial is declared (proved)."
  },
  {
   "property": "C63",
   "status": "partial",
   "theorems": [
    "OM.c63_residual_partial",
    "OM.c63_all_replaced_partial",
    "OM.c63_skipped",
    "OM.c63_replacement_skips"
   ],
   "note": "The code violates the claim: the element after the output in a dependency list is skipped (proved for every acyclic group: what only the skipped element of the residual's list depends on keeps its uses of the output; with a witness). Partial: proved in full if wherever the output occurs below the residual the next element of the list does not depend on it; in general what is replaced is replaced correctly and nothing else changes. The skipped use reads the variable of the same name, so values are not affected."
  },
  {
   "property": "C64",
   "status": "partial",
   "theorems": [
    "OM.c64_registered_first_partial",
    "OM.c64_renamed_after_assignment",
    "OM.c64_violated",
    "OM.c12_program"
   ],
   "note": "The code violates the claim: an expression registered after it was assigned to a part of an output is not used there; the output reads the old name (exact values proved, with a witness). Partial: holds if no assigned expression is registered later; all other uses are proved in general."
  },
  {
   "property": "C65",
   "status": "proved",
   "theorems": [
    "OM.c65_elementwise",
    "OM.c65_reduction"
   ],
   "note": "The intermediate values fmax, arg, gmax and summation are those of the code. Reals, not floats: an underflow to zero of the other exponentials is not excluded and harmless."
  },
  {
   "property": "C66",
   "status": "partial",
   "theorems": [
    "OM.c66_declared_partial",
    "OM.c66_consistent",
    "OM.c66_expand",
    "OM.c66_violated",
    "OM.c66_exceptions"
   ],
   "note": "The code violates the claim: ScalarExpansionComp declares its input without value, so the value of an unconnected scalar is lost when it is expanded (proved for every scalar, with a witness). Partial: all other operations keep the declared value and agree on it."
  },
  {
   "property": "C67",
   "status": "partial",
   "theorems": [
    "OM.c67_accepts_partial",
    "OM.c67_inner_reduced",
    "OM.c67_matmat_computed",
    "OM.c67_ifElse_computed",
    "OM.c67_violated"
   ],
   "note": "The code violates the claim in three places: inner and dot refuse a first vector made by a reduction along axes (its dimension is a NumPy integer, the option wants int); matmat refuses computed vectors of more than one entry; if_else gives computed operands an input with one entry. Partial: everything else is accepted with the right sizes."
  },
  {
   "property": "C68",
   "status": "partial",
   "theorems": [
    "OM.c68_group_partial",
    "OM.c68_component",
    "OM.c68_violated",
    "OM.c68_conflict",
    "OM.c68_all_promoted",
    "OM.c68_renamed_group_partial",
    "OM.c68_renamed_component",
    "OM.c68_renamed_violated"
   ],
   "note": "The code violates the claim: for components the promotions are ignored and everything is promoted (proved exactly); as a consequence two components with an output of the same name cannot be added. Proved for groups. The c68_renamed theorems: the same with pairs (promotion under another name); a pair given for a component is ignored."
  },
  {
   "property": "C69",
   "status": "proved",
   "theorems": [
    "OM.c69_term",
    "OM.c69_accepts",
    "OM.c69_outShape",
    "OM.c69_compiles",
    "OM.c69_shapes",
    "OM.c69_values",
    "OM.c69_totals",
    "OM.c69_solves",
    "OM.c69_run",
    "OM.c74_outputs"
   ],
   "note": "All calls of the program are compiled to the components modelled for C17-C19 and C26-C45 and run in the order of C01-C06. Programs without feedback and subsystems; subscripts are letters; parts are read of variables or one-element expressions (C19) and assigned under non-negative ints (C18); an expression is registered before it is assigned to a part (C64). c69_compiles and c69_shapes: acceptance in both directions. c69_solves and c69_run assume nothing about solutions: what is computed from arbitrary inputs solves the equations wherever no call leaves its domain, near such a point too, with the derivatives that OpenMDAO assembles."
  },
  {
   "property": "C70",
   "status": "proved",
   "theorems": [
    "OM.c70_values",
    "OM.c70_totals",
    "OM.c70_run"
   ],
   "note": "Trees of groups of any depth. System.Ok: every group is accepted as in C69, and promotions do not give two variables of one subsystem the same name. c70_values and c70_totals: from arrays that solve all equations; c70_run: whatever is computed solves them wherever no call leaves its domain and the other components have exact partials, near such a point too. Left out: create_group blocks that use objects of the group around them."
  },
  {
   "property": "C71",
   "status": "partial",
   "theorems": [
    "OM.c71_values",
    "OM.c71_partials_partial",
    "OM.c71_zero_violated",
    "OM.c71_array_coefficients",
    "OM.c71_string_names"
   ],
   "note": "Values proved. The code violates the claim for partials where a variable is zero and some term lacks it (0 * 0 ** -1 is nan; already for x + y at x = 0), for arrays as coefficients (changed in place by compute_partials), and for one name given as a string (its characters become the inputs). Exactness proved elsewhere."
  },
  {
   "property": "C72",
   "status": "partial",
   "theorems": [
    "OM.c72_shared_partial",
    "OM.c72_built_where",
    "OM.c72_sharing_builds_twice",
    "OM.c72_violated",
    "OM.c72_order_violated",
    "OM.c72_inputs_accepted",
    "OM.c72_inputs",
    "OM.c72_again",
    "OM.c72_again_accepted"
   ],
   "note": "The code violates the claim whenever an expression is shared: dependents and visit counters are those of all groups set up so far, so the topmost shared expressions are built in both groups (proved for all pairs of groups, with a witness), and one of them may be built after an expression that depends on it (witness). For a block and the group around it it is proved exactly which expressions are built where. For any number of groups that share nothing but inputs the claim is proved, and every further setup of any of them succeeds and builds nothing."
  },
  {
   "property": "C73",
   "status": "partial",
   "theorems": [
    "OM.c73_residuals",
    "OM.c73_trial",
    "OM.c73_jacobian_partial",
    "OM.c73_jacobian_linear_partial",
    "OM.c73_chain_iff",
    "OM.c73_stale_violated",
    "OM.c73_after_bisection",
    "OM.c73_solve_violated"
   ],
   "note": "Residuals proved after every history of calls. The code violates the claim for the Jacobian: linearize sets the values but does not run the internal problem, so the partials of components that read intermediate values are those of the last run (witness y * y * y - c, also after solve_nonlinear with a bracket, which never runs the value it returns). Derivatives proved when the residuals at the same values were asked for last, and after any call when no partial depends on a computed value. For all compositions h(g(y)) it is proved exactly when the derivative is right."
  },
  {
   "property": "C74",
   "status": "proved",
   "theorems": [
    "OM.c74_converged",
    "OM.c74_solves",
    "OM.c74_iteration",
    "OM.c74_partials",
    "OM.c74_totals",
    "OM.c74_outputs"
   ],
   "note": "For programs with feedback through define. Feedback through indexed assignment makes setup fail (C14). An expression registered after it was assigned to a part of an output is excluded (C64). Convergence itself, and differentiability of the converged values, are hypotheses."
  },
  {
   "property": "C75",
   "status": "partial",
   "theorems": [
    "OM.c75_residuals",
    "OM.c75_values",
    "OM.c75_trial",
    "OM.c75_jacobian_partial",
    "OM.c75_jacobian_linear_partial",
    "OM.c75_solved_partial",
    "OM.c75_system_residuals",
    "OM.c75_system_values",
    "OM.c75_system_trial",
    "OM.c75_system_jacobian_partial",
    "OM.c75_system_solved_partial",
    "OM.c75_system_exposed_partial",
    "OM.c75_feedback_residuals",
    "OM.c75_feedback_trial",
    "OM.c75_feedback_jacobian_partial",
    "OM.c75_feedback_solved_partial"
   ],
   "note": "Residuals and trial runs proved for all setups without feedback of their own whose residuals are not implicit outputs themselves; the system theorems allow independent variables and subsystems (groups inside groups, other components), the feedback theorems also groups with feedback inside, iterated as in C78. An input declared after a subsystem that no subsystem provides keeps its earlier value, because it is not exposed (C53); c75_system_exposed_partial says which inputs are. The Jacobian is proved if the residuals at the same values were asked for last, and, without subsystems, after any call if every call of the program is linear or has only inputs and implicit outputs for operands (the code violates the rest, C73). The solution is proved, with feedback inside too, for one bracketed output with a residual that is elementwise inside the bracket (C48, C49 for what goes wrong otherwise)."
  },
  {
   "property": "C76",
   "status": "proved",
   "theorems": [
    "OM.c76_design_vars",
    "OM.c76_errors"
   ],
   "note": "The loop is modelled with its checks interleaved as in the code; OpenMDAO's two calls are modelled as far as names go. Hypotheses on the history as for C02 (GroupOk)."
  },
  {
   "property": "C77",
   "status": "partial",
   "theorems": [
    "OM.c77_never_set_up",
    "OM.c77_refuses_partial"
   ],
   "note": "Violated: setup calls set with three arguments, so it raises TypeError for every condition and pair of branches it should accept. The refusals are as stated."
  },
  {
   "property": "C78",
   "status": "proved",
   "theorems": [
    "OM.c78_converged",
    "OM.c78_runs",
    "OM.c78_iteration",
    "OM.c78_partials",
    "OM.c78_totals"
   ],
   "note": "Iteration is modelled as passes until nothing changes, or as convergence of repeated runs to a limit; OpenMDAO stops at a tolerance. That the iteration converges, and that the solution is differentiable, are hypotheses."
  },
  {
   "property": "C79",
   "status": "partial",
   "theorems": [
    "OM.c79_inputs",
    "OM.c79_outputs",
    "OM.c79_violated"
   ],
   "note": "Inputs proved. The code violates the claim for outputs: the component's output has the shape and value of the residual expression, so it starts from ones whatever value was given (proved for every computed residual: the value is right only if all its entries are one, the shape only if the residual has it)."
  },
  {
   "property": "C80",
   "status": "partial",
   "theorems": [
    "OM.c80_documented",
    "OM.c80_single",
    "OM.c80_assignment",
    "OM.c80_skipped",
    "OM.c80_wrong_elements"
   ],
   "note": "Proved for assignments and for single objects. The code violates the claim for reads with tuples: other items are skipped (proved for all tuples of integers), and since they count as positions x[..., :, 0] selects wrong elements whenever there are fewer columns than rows (proved)."
  },
  {
   "property": "C81",
   "status": "partial",
   "theorems": [
    "OM.c81_left",
    "OM.c81_handled_partial",
    "OM.c81_power_partial",
    "OM.c81_right",
    "OM.c81_variable_exponent",
    "OM.c81_never_computed"
   ],
   "note": "Proved for other objects on the left, for sums, differences, products and quotients of expressions and constants, and for powers with constant exponents. The code violates the claim otherwise: any object is accepted on the right, and x ** y for an expression y ignores y and has the shape (1,); in both cases the result has no component (proved), setup succeeds, and whatever reads it gets its initial value (proved for all calls before and after)."
  },
  {
   "property": "C82",
   "status": "partial",
   "theorems": [
    "OM.c82_exact",
    "OM.c82_constants_partial",
    "OM.c82_violated"
   ],
   "note": "The code violates the claim: a product with an array keeps the array of the user and multiplies it in place when its derivatives are evaluated, which changes every other sum and product made with it (proved for all shapes and inputs). c82_exact says what every program does after every history. Partial: programs without products and quotients with arrays."
  },
  {
   "property": "C83",
   "status": "partial",
   "theorems": [
    "OM.c83_sorted_partial",
    "OM.c83_order_violated",
    "OM.c83_outputs_unsorted",
    "OM.c83_cost_partial",
    "OM.c83_run_order_partial",
    "OM.c83_trees_partial",
    "OM.c83_shared_violated",
    "OM.c83_cycles_violated"
   ],
   "note": "The code violates the claim: the order is the opposite of the documented one unless all costs are equal (c83_order_violated, all groups), the outputs are never sorted (c83_outputs_unsorted), the cost of a shared expression grows whenever it is met, so larger branches can be cheaper (c83_shared_violated, for any number of expressions), and cycles end in RecursionError (c83_cycles_violated). Partial: sorted by the costs computed, the other way round; costs are numbers of expressions, and branches run in the order of the dependencies, if every expression is used once (c83_trees_partial)."
  },
  {
   "property": "C84",
   "status": "partial",
   "theorems": [
    "OM.c84_words",
    "OM.c84_letters",
    "OM.c84_idempotent",
    "OM.c84_injective",
    "OM.c84_scripts",
    "OM.c84_export_partial",
    "OM.c84_files_collide",
    "OM.c84_capitals_collide"
   ],
   "note": "The code violates the claim: names that differ in capital letters only, and names whose words are divided differently between file and class (c84_files_collide, for all of them), give the same script, and one class is left without. Partial: proved for names that consist of words and files whose names do not continue each other. Names are ASCII; the content of the scripts is C90."
  },
  {
   "property": "C85",
   "status": "partial",
   "theorems": [
    "OM.c85_unchanged_partial",
    "OM.c85_other_breaks",
    "OM.c85_blocks_define",
    "OM.c85_assignment_stays",
    "OM.c85_residual_cut",
    "OM.c85_same",
    "OM.c85_setup_same"
   ],
   "note": "The code violates the claim: an indexed assignment, or a define or define_residual past its first checks, changes the group before it raises. After define or an indexed assignment with something that is no expression, every setup raises whatever is called (c85_other_breaks); a refused indexed assignment still makes the component of its expression be built (c85_assignment_stays); a registered residual is cut off from the unknown (c85_residual_cut). Partial: proved for all other refusals. Plain data only; the flag is_residual and the dictionaries of indexed assignments are not part of the state."
  },
  {
   "property": "C86",
   "status": "partial",
   "theorems": [
    "OM.c86_raises",
    "OM.c86_exact",
    "OM.c86_seen_partial",
    "OM.c86_masked",
    "OM.c86_stays"
   ],
   "note": "The code violates both parts: setup runs in finally, so an output created and not defined when the block raises turns any exception into ValueError (c86_masked; c86_exact says when), and the unfinished group has been added and is run (c86_stays). Partial: no exception is lost (c86_raises), and the user gets the exception of the block if all created outputs are defined. The calls of the block are calls on the new group."
  },
  {
   "property": "C87",
   "status": "partial",
   "theorems": [
    "OM.c87_rst",
    "OM.c87_sorted",
    "OM.c87_value",
    "OM.c87_types",
    "OM.c87_complete_partial",
    "OM.c87_set_raises",
    "OM.c87_lost"
   ],
   "note": "The code violates it in two ways: a set of types, which declare accepts, makes both raise AttributeError (c87_set_raises), and rows of options whose names start with === are cut at the width (c87_lost). Partial: the table is complete and aligned for all other types, and the wrapped text gives every row back, up to white space at its end, for names that do not start with ===. The texts of values are given by Python's str; line breaks inside them are characters like others."
  },
  {
   "property": "C88",
   "status": "partial",
   "theorems": [
    "OM.c88_super_last_partial",
    "OM.c88_exact",
    "OM.c88_ignored",
    "OM.c88_super_first",
    "OM.c88_needs_setup"
   ],
   "note": "The code violates it: the metaclass wraps the setup of every class, so super().setup() sorts and builds at once, and whatever is called after it is ignored (c88_exact, c88_ignored); a direct subclass that begins with super().setup() adds nothing and reports no undefined outputs (c88_super_first); a class statement without setup raises KeyError (c88_needs_setup). Partial: it holds if super().setup() is called last (c88_super_last_partial)."
  },
  {
   "property": "C89",
   "status": "partial",
   "theorems": [
    "OM.c89_first_partial",
    "OM.c89_violated"
   ],
   "note": "The code violates it: the group is made in __init__ and keeps its residuals, so once a component with an output has been set up every further setup raises, whatever it calls and however often it is tried (c89_violated); in the example OpenMDAO refuses the constraint for the old residual. Partial: the first setup gives exactly the variables of C53 and the components of the group."
  },
  {
   "property": "C90",
   "status": "partial",
   "theorems": [
    "OM.c90_imports_exact",
    "OM.c90_multiline_violated",
    "OM.c90_source_exact",
    "OM.c90_source_partial",
    "OM.c90_source_other_partial",
    "OM.c90_param_lost",
    "OM.c90_quotes_lost",
    "OM.c90_group",
    "OM.c90_component",
    "OM.c90_script",
    "OM.c90_all_partial",
    "OM.c90_aborts"
   ],
   "note": "The code violates it: imports are found line by line, so the script has the imports of the file if and only if every line of them, and no other line, starts with import or from (c90_imports_exact; c90_multiline_violated: of an import over several lines only the first is left); code with :param and a colon, and empty strings in triple quotation marks over two lines, are lost (c90_param_lost, c90_quotes_lost); a class that is neither group nor component ends the whole export with TypeError (c90_aborts). Partial: everything else is proved. Whether the script runs is left to Python."
  },
  {
   "property": "C91",
   "status": "partial",
   "theorems": [
    "OM.c91_plain_partial",
    "OM.c91_violated",
    "OM.c91_raises"
   ],
   "note": "The code violates it for every class and every sequence of calls: the metaclass wraps the setup of every class, so the variables are declared and the internal problem is set up twice. If a setup that calls super().setup() ends at all without exception, the base class has no outputs and the internal problem has no component (c91_violated), so a class with outputs cannot be extended (c91_raises). Partial: a setup that does not call super().setup() is that of C89."
  },
  {
   "property": "C92",
   "status": "partial",
   "theorems": [
    "OM.c92_levels",
    "OM.c92_order",
    "OM.c92_leaves",
    "OM.c92_recursion",
    "OM.c92_exponential",
    "OM.c92_complete_partial",
    "OM.c92_cycle_violated",
    "OM.c92_shape",
    "OM.c92_shape_arith"
   ],
   "note": "The lines and their indentation are proved exactly for every graph and depth, and when RecursionError is raised (c92_recursion). The code violates the rest of the claim: chains as long as the recursion limit and cycles raise (c92_cycle_violated), shared expressions are printed once for every chain, so 2(k+1) expressions can give 3*2^k-1 lines (c92_exponential), and the shape shown for arithmetic expressions has a parenthesis after every dimension, so it is right only for vectors (c92_shape_arith). Of a line the indentation, the object and the shape are modelled."
  },
  {
   "property": "C93",
   "status": "partial",
   "theorems": [
    "OM.c93_chars",
    "OM.c93_components",
    "OM.c93_group",
    "OM.c93_variable",
    "OM.c93_variables_partial",
    "OM.c93_violated"
   ],
   "note": "Components: proved for every program. Variables: proved while fewer than 63^4 expressions have been made in the process. The code violates the rest of the claim: the prefix of the name is used up then, and the names of the next 9*63^4 expressions start with a digit (c93_violated; c93_variable says exactly which numbers give such names)."
  },
  {
   "property": "C94",
   "status": "partial",
   "theorems": [
    "OM.c94_exact",
    "OM.c94_needs_partial",
    "OM.c94_violated"
   ],
   "note": "The code violates it: names are not looked at when components are ordered, so the order of a set of objects decides, and with one of two orders the reader uses the value from before the run, for all functions and values (c94_violated). c94_exact says what is read for every order. Partial: right if the reading expression also needs the object that writes the name. OpenMDAO's connection by promoted name and its run-once solver are part of the trusted base."
  },
  {
   "property": "C95",
   "status": "partial",
   "theorems": [
    "OM.c95_vector",
    "OM.c95_rank",
    "OM.c95_violated",
    "OM.c95_unpack",
    "OM.c95_empty_partial",
    "OM.c95_empty_again"
   ],
   "note": "The code violates it for every variable with entries: Variable has no __iter__, Python calls x[0], x[1], ... until IndexError, but x[n] raises ValueError (c95_vector, exact: the n entries are seen first), as does x[0] for arrays that are not vectors (c95_rank); so no loop ends (c95_violated) and no assignment to several names works (c95_unpack). Partial: the entries seen are the right ones, and a loop over a variable without entries ends, the first time only (c95_empty_again)."
  },
  {
   "property": "C96",
   "status": "partial",
   "theorems": [
    "OM.c96_exact",
    "OM.c96_factor_partial",
    "OM.c96_chain_partial",
    "OM.c96_refused",
    "OM.c96_violated"
   ],
   "note": "The code violates it for units with different offsets (degree Celsius and kelvin): it converts the magnitude one, and the number returned is right for no other magnitude (c96_violated). It is a factor exactly if the offsets agree (c96_exact). Proved for units without offset. What pint does is trusted."
  },
  {
   "property": "C97",
   "status": "partial",
   "theorems": [
    "OM.c97_chosen",
    "OM.c97_margin",
    "OM.c97_exact",
    "OM.c97_indented_partial",
    "OM.c97_violated",
    "OM.c97_replace",
    "OM.c97_setup",
    "OM.c97_shown",
    "OM.c97_shown_partial"
   ],
   "note": "The choice of lines is proved. The margin of the first line is cut off every line whatever stands there: a later line that begins further left loses code (c97_violated); exactly then (c97_exact). Proved for lines indented at least like the first."
  }
 ]
}

c("C01", "proved", "c01_group c01_execution_order wellFormed_of_order orderOk_two orderOk_four orderOk_eight pySetList_ascending",
  "Proved for every acyclic group below the recursion limit for whose dependencies the order of sets of positions is good (OrderOk). CPython's order, modelled exactly, is good for an expression with at most two dependencies (any number of independent variables), with at most four of which at most one is needed by another, or if dependencies and independent variables are at most eight. Without any such condition the claim is false, see C05.")
c("C02", "proved", "c02_group c02_exactly_once", "Same conditions as C01. c02_group is about histories of calls: the components are exactly the objects from which an output is built; results of x[key] have none, they are written by the component that decomposes x.")
c("C03", "proved", "c03_terminates c03_cyclic_nodes_dropped", "Any finite graph, any dependents lists, any earlier visit counts.")
c("C04", "proved", "c04_removal_keeps_constraints c04_removal_in_setup", "c04_removal_in_setup: the calls made by setup, under the condition of C01 on integer sets. c04_removal_keeps_constraints: any calls on any graph, if sets of all positions come in ascending order (CPython: at most eight dependencies).")
c("C05", "partial", "c05_same_components_partial c05_order_of_int_sets_matters c05_order_of_int_sets_breaks_setup c05_lost c05_lost_cpython",
  "The code violates the claim: with CPython's order of {8, 0} an expression with ten dependencies runs before one of them, and every expression with two redundant dependencies at positions iterated in descending order loses the dependency after the second. Partial: holds for ascending integer sets, any order of object sets.")
c("C06", "proved", "c06_group c06_indeps_first", "Same conditions as C01.")
c("C11", "partial", "c11_second_setup_builds_nothing",
  "The code violates the claim: the negation is proved for every group and every second description.")
c("C57", "partial", "c57_exponential_work", "The code violates the claim: the negation is proved (2^(m+1) calls for 2(m+1) expressions).")
c("C58", "partial", "c58_long_chain_fails c58_witness", "The code violates the claim: RecursionError for every chain at least as long as the limit. What holds below the limit is C01.")
c("C59", "proved", "c59_create_group_builds_once", "Same conditions as C01.")
c("C07", "proved", "c07_outputs_before_subsystem", "Histories of any length (GroupOk). The output must not later be defined by an expression depending on the subsystem: then the code cuts the dependency, and no order could satisfy both.")
c("C08", "proved", "c08_inputs_after_subsystem", "Histories of any length (GroupOk), any number of subsystems in between.")
c("C09", "proved", "c09_subsystems_in_order", "Histories of any length (GroupOk).")
c("C10", "proved", "c10_undefined_reported c10_defined_accepted", "Histories of any length (GroupOk).")
c("C14", "partial", "c14_acyclic_partial c14_self_assignment c14_feedback_assignment",
  "The code violates the claim: two histories are proved to make a cycle and end in RecursionError for every recursion limit. Partial: acyclic for all histories without indexed assignment of an expression to an output it depends on.")
c("C23", "partial", "c23_no_redefinition_partial c23_assignment_after_define",
  "The code violates the claim: indexed assignment after define is accepted. The other two thirds are proved.")
c("C24", "proved", "c24_register_outcome", "Any history.")
c("C25", "partial", "c25_collision_check_never_fires c25_check_exact c25_same_name_noticed_partial c25_setup_exact",
  "The documented error is never raised (proved); equal component names are noticed by OpenMDAO's add_subsystem instead.")
c("C52", "proved", "c52_define c52_define_finishes", "Any state reached by a history; exact description of all dependency lists afterwards.")
c("C15", "partial", "c15_collisions_exact c15_unique_partial c15_collision",
  "The code violates the claim beyond 62*63^4 names: the first collision is proved. Up to there names are proved different; which numbers collide is described exactly.")
c("C16", "partial", "c16_never_wrong c16_accepts_forward c16_accepts_backward c16_refuses c16_exceptions c16_reversed_refused",
  "Never wrong: proved for all bounds and steps. The code refuses every slice with a negative step and a missing bound (proved for either bound and any axis), so it is not complete for those.")
c("C12", "proved", "c12_program c12_values c12_group_values c12_group_calls c12_expression_values", "c12_program: for every program of API calls the values computed satisfy each equation the user wrote (exception: C64). The others: any components wired by the dependencies; conditions of C01. Groups with feedback (define on an output the expression depends on) are not Wired: they have to be iterated.")
c("C13", "proved", "c13_order_irrelevant c13_group_order_irrelevant", "Same conditions as C12.")
c("C56", "proved", "c56_program c56_total_derivatives", "c56_program: for every program of API calls. Conditions of C12, partials exact at the computed values. That OpenMDAO solves the stated linear system is trusted.")
c("C17", "partial", "c17_values_partial c17_exact c17_built c17_negative_int c17_one_source c17_partials c17_other_failures_leave_no_trace c17_refused_assignment_takes_effect c17_partials_violated c17_matrix_slice",
  "The code violates the claim: an assignment refused for overlapping indices takes effect if the exception is caught (proved for outputs of any length), and then the partials are wrong too. A slice alone on a matrix is read as flat positions, unlike NumPy (proved). Partial: the claim itself holds for histories in which refused assignments left no trace and int keys are not negative. c17_exact says what happens in every history without negative ints, refused assignments included: the last recorded assignment wins. c17_negative_int: with a recorded negative int, running the component raises ValueError. One source per element holds for all histories.")
c("C18", "partial", "c18_overlap_rejected c18_overlap_value_error c18_out_of_range c18_accepted_in_range c18_negative_index_accepted c18_accepts c18_exact c18_refused_blocks",
  "The code violates the claim for negative ints: out[n] and out[-1] are both accepted (proved). Everything else is proved; a repeated expression gives KeyError instead of ValueError. c18_exact characterises acceptance for every history; c18_refused_blocks: an assignment refused for overlapping blocks the positions it would have taken.")
c("C19", "partial", "c19_never_wrong c19_values c19_partials c19_accepts c19_computed_expression c19_computed_expression_int c19_exceptions",
  "Proved for variables whose stored value has their shape. The code violates the claim for computed expressions, whose val stays np.array([1]) (proved).")
c("C20", "proved", "c20_same_key c20_same_expr", "Every history of reads, including failing ones.")
c("C21", "partial", "c21_read_back_partial c21_readable c21_negative_stop c21_matrix_int_key",
  "Values read are the assigned ones whenever the read succeeds, and it succeeds for keys within the shape with one item per axis. The code violates the claim: accepted keys that cannot be read are proved (a negative stop for every length, an int key for every matrix).")
c("C22", "partial", "c22_failure_is_harmless_partial c22_first_failure_is_permanent c22_exceptions",
  "The code violates the claim: if the very first use fails, all later ones fail (proved for every key). Partial: failures after a first success are harmless.")
c("C26", "partial", "c26_linear_combination c26_add c26_sub c26_accepts c26_exceptions c26_array_on_the_left c26_operands c26_with_array c26_combination_plain",
  "Proved for all operands except an array on the left of the operator, where NumPy makes an array of expressions instead of an expression (proved).")
c("C27", "proved", "c27_power_combination c27_mul c27_div c27_div_zero c27_pow c27_neg c27_exceptions",
  "All sizes and inputs where NumPy's power is defined and differentiable (positive base, or integer exponent with a nonzero base or exponent at least one). Floating point is idealised by reals.")
c("C28", "partial", "c28_number_coefficient_partial c28_exact c28_array_coefficient_changes c28_array_coefficient_derivative",
  "The code violates the claim for array coefficients: proved for all shapes and inputs. c28_exact: after any derivative evaluations the result is multiplied by all the inputs they were made at. Holds for number coefficients.")
c("C29", "partial", "c29_only_first_row c29_vector c29_wrong c29_equal_rows_partial c29_zero c29_zero_rows",
  "The code violates the claim: only the first row of the exponent array is used, in results and derivatives (proved for every shape); for positive inputs other than 1 an element is right exactly if its exponent is the one of the first row. With a zero among the inputs and rows of more than one element the evaluation raises (proved). Arrays with equal rows: correct, with exact derivatives.")
c("C30", "partial", "c30_values c30_partials_partial c30_two_functions_fail",
  "All 18 formulas are proved exact. The code violates the claim for arcsin and sech of arrays of rank two or more, whose derivatives raise (proved).")
c("C54", "partial", "c54_same_operand_fails c54_different_operands_partial",
  "The code violates the claim for every expression and shape: setup raises.")
c("C31", "proved", "c31_elementwise c31_reduction c31_forms c31_refused c31_exceptions", "All three forms, maximum and minimum.")
c("C32", "proved", "c32_elementwise c32_reduction", "All three forms; for the axis-wise and scalar forms these are the derivatives computed together with the value (see C33).")
c("C33", "partial", "c33_elementwise c33_reduction_stale c33_reduction_partial c33_reduction_violated c33_pnorm_stale c33_pnorm_partial c33_pnorm_violated",
  "The code violates the claim for the axis-wise and scalar extrema and for the p-norm, which keep results of the last evaluation (proved, with the exact dependence on the history). Partial: derivatives are exact if the last evaluation was at the same inputs.")
c("C34", "proved", "c34_value c34_norm c34_exact c34_accepts c34_arguments c34_rejects c34_exceptions", "Derivatives asked for after an evaluation at the same inputs (see C33).")
c("C35", "partial", "c35_sum c35_arguments c35_accepted c35_average_partial c35_average_accepts c35_average_two_axes c35_average_no_axes c35_exceptions c35_layout c35_removed",
  "Sums are proved in full. The code violates the claim for averages over two or more axes, which raise IndexError, and over an empty tuple of axes (both proved).")
c("C36", "proved", "c36_matmat c36_matvec c36_accepted c36_refused c36_same_operand c36_exceptions", "First operands of every rank: beyond two axes those whose other axes have length one, the others are refused. Operands with different names (the same expression twice is refused at setup, see C54).")
c("C37", "proved", "c37_outer c37_accepted c37_exceptions", "At most 26 axes in total, operands with different names.")
c("C38", "partial", "c38_dot c38_dot_accepted c38_inner_value c38_inner_accepted c38_inner_partials_partial c38_inner_partials_exactly c38_inner_negative_axis c38_dot_exceptions c38_inner_exceptions",
  "Values, vector products and dot products are proved in full. The Jacobian of inner of tensors is exact when the axes of each operand are nonnegative numbers, or all its axes are contracted and the negative ones come first; for operands whose axes all have at least two entries it is proved that it is wrong at some inputs in all other cases, so the code violates the claim.")
c("C39", "partial", "c39_cross_partial c39_accepted c39_negative_axis c39_wrong_partials c39_exceptions",
  "Values: proved for every axis that is accepted. Jacobian: proved for axes counted from the front (at most ten other axes), for ten axes, and for axis -11. The code violates the claim for the other negative axes: most raise at setup, and for arrays of six or more axes every one that is accepted has a wrong Jacobian (proved).")
c("C40", "proved", "c40_value c40_rotation c40_exact c40_axis c40_refused", "")
c("C41", "partial", "c41_exact c41_scalar c41_code c41_value_partial c41_accepted c41_exceptions c41_permuted c41_exactly c41_rank_unchecked",
  "Partials are exact for everything accepted, and the values are proved if the letters on the left occur on the right in the same order. The code violates the claim for other orders: the order of the letters on the left is ignored (c41_exactly: the values are right if and only if the letters of axes longer than one are in the same order; c41_code says what is computed).")
c("C42", "proved", "c42_reorder c42_refused c42_exceptions c42_inverse c42_transpose", "")
c("C43", "proved", "c43_reshape", "A change of size is rejected when the model runs.")
c("C44", "partial", "c44_shape c44_value c44_accepted c44_refused c44_accepted_exactly c44_broadcast_refused c44_broadcast_first c44_exceptions c44_no_arrow c44_no_arrow_exactly",
  "Proved for all strings with an arrow, including broadcast axes; what is accepted is characterised exactly. The code violates the claim for strings without an arrow: the shape announced is made of labels that the result does not have, so a call is accepted only if the sizes agree by chance or the result has one entry (c44_no_arrow_exactly says for all such strings what is accepted and computed), and it refuses operands whenever the first axis with a label of the result is broadcast (proved).")
c("C45", "partial", "c45_dense_partial c45_sparse_partial c45_inputs c45_new_after_repeated c45_letters c45_sparse_order c45_sparse_broadcast c45_no_arrow",
  "Dense partials are exact if no new operand follows a repeated one and the unused letters suffice. Sparse partials are exact if moreover no axis is broadcast and sparse inputs come first. The code violates the claim in each of the other cases: compute_partials raises, or entries are missing for broadcast axes (all proved). Without an arrow compute_partials always raises (c45_no_arrow).")
c("C46", "proved", "c46_same c46_too_many c46_unknown_label", "")
c("C47", "partial", "c47_accepted c47_value_partial c47_partials_partial c47_wrong_partials c47_array c47_array_condition c47_same_expression c47_exceptions",
  "For expressions with one entry the value is right. The code violates the rest of the claim: the partial of the branch taken is its value, so it is exact only if that value is one; arrays, array conditions and repeated expressions raise (all proved).")
c("C60", "partial", "c60_define_partial c60_shape", "Proved for an expression of the declared shape. An expression of another shape is accepted and the output has its shape (proved).")
c("C48", "partial", "c48_step c48_inside c48_bracket c48_root_partial c48_roots c48_converges c48_coupled",
  "Proved for residuals each entry of which depends, inside the bracket, on its own entry of the output only (so for all scalar ones), with the better bound |x2-x1|/2^(maxiter+1). The code violates the claim for residuals whose entries are coupled (proved).")
c("C49", "partial", "c49_single_partial c49_solved_partial c49_plain c49_initial c49_two_outputs c49_mixed c49_maxiter c49_exceptions",
  "Proved for components with a single output. The code violates the claim otherwise: with a bracketed and any other output solving raises KeyError, and maxiter has no effect (all proved, for every history and order).")
c("C61", "partial", "c61_solve_linear_partial c61_adds c61_totals_iff c61_totals_partial c61_totals_violated", "Proved for diagonal Jacobians; proved to fail for every other Jacobian with nonzero diagonal. The same for the derivatives of the solution as a function of the inputs, in both modes, with the exact condition for each direction.")

c("C50", "partial", "c50_read c50_set c50_exceptions c50_declare_exceptions c50_valid_partial c50_invalid_default c50_types_list",
  "Reads are proved for every history. The code violates the validation clause for invalid defaults: declare raises but the value is readable (proved); proved to hold when the defaults are valid. Types given as a list reject every value (proved).")
c("C51", "proved", "c51_agree c51_raises", "")
c("C53", "partial", "c53_collect c53_terminates c53_interface_partial c53_single c53_shared c53_deep c53_output_as_input c53_after_subsystem",
  "Proved for components that can be set up. The code violates the claim when two residuals share a free input, when an input is named as another output (setup raises), and for inputs declared after any subsystem, which are not exposed (all proved).")
c("C55", "partial", "c55_rows_partial c55_not_grid c55_transposed c55_limits c55_exceptions",
  "Proved for one input or a single-point grid. With more, the code reshapes where it should transpose: the rows are not grid points (proved).")
c("C62", "partial", "c53_interface_partial c62_coupled",
  "Proved for free inputs and the residual's own output. The code violates the claim for the other implicit outputs a residual depends on: no partial is declared (proved).")
c("C63", "partial", "c63_residual_partial c63_all_replaced_partial c63_skipped c63_replacement_skips",
  "The code violates the claim: the element after the output in a dependency list is skipped (proved for every acyclic group: what only the skipped element of the residual's list depends on keeps its uses of the output; with a witness). Partial: proved in full if wherever the output occurs below the residual the next element of the list does not depend on it; in general what is replaced is replaced correctly and nothing else changes. The skipped use reads the variable of the same name, so values are not affected.")
c("C64", "partial", "c64_registered_first_partial c64_renamed_after_assignment c64_violated c12_program",
  "The code violates the claim: an expression registered after it was assigned to a part of an output is not used there; the output reads the old name (exact values proved, with a witness). Partial: holds if no assigned expression is registered later; all other uses are proved in general.")
c("C65", "proved", "c65_elementwise c65_reduction", "The intermediate values fmax, arg, gmax and summation are those of the code. Reals, not floats: an underflow to zero of the other exponentials is not excluded and harmless.")
c("C66", "partial", "c66_declared_partial c66_consistent c66_expand c66_violated c66_exceptions",
  "The code violates the claim: ScalarExpansionComp declares its input without value, so the value of an unconnected scalar is lost when it is expanded (proved for every scalar, with a witness). Partial: all other operations keep the declared value and agree on it.")
c("C67", "partial", "c67_accepts_partial c67_inner_reduced c67_matmat_computed c67_ifElse_computed c67_violated",
  "The code violates the claim in three places: inner and dot refuse a first vector made by a reduction along axes (its dimension is a NumPy integer, the option wants int); matmat refuses computed vectors of more than one entry; if_else gives computed operands an input with one entry. Partial: everything else is accepted with the right sizes.")
c("C68", "partial", "c68_group_partial c68_component c68_violated c68_conflict c68_all_promoted c68_renamed_group_partial c68_renamed_component c68_renamed_violated",
  "The code violates the claim: for components the promotions are ignored and everything is promoted (proved exactly); as a consequence two components with an output of the same name cannot be added. Proved for groups. The c68_renamed theorems: the same with pairs (promotion under another name); a pair given for a component is ignored.")
c("C69", "proved", "c69_term c69_accepts c69_outShape c69_compiles c69_shapes c69_values c69_totals c69_solves c69_run c74_outputs",
  "All calls of the program are compiled to the components modelled for C17-C19 and C26-C45 and run in the order of C01-C06. Programs without feedback and subsystems; subscripts are letters; parts are read of variables or one-element expressions (C19) and assigned under non-negative ints (C18); an expression is registered before it is assigned to a part (C64). c69_compiles and c69_shapes: acceptance in both directions. c69_solves and c69_run assume nothing about solutions: what is computed from arbitrary inputs solves the equations wherever no call leaves its domain, near such a point too, with the derivatives that OpenMDAO assembles.")
c("C70", "proved", "c70_values c70_totals c70_run",
  "Trees of groups of any depth. System.Ok: every group is accepted as in C69, and promotions do not give two variables of one subsystem the same name. c70_values and c70_totals: from arrays that solve all equations; c70_run: whatever is computed solves them wherever no call leaves its domain and the other components have exact partials, near such a point too. Left out: create_group blocks that use objects of the group around them.")
c("C71", "partial", "c71_values c71_partials_partial c71_zero_violated c71_array_coefficients c71_string_names",
  "Values proved. The code violates the claim for partials where a variable is zero and some term lacks it (0 * 0 ** -1 is nan; already for x + y at x = 0), for arrays as coefficients (changed in place by compute_partials), and for one name given as a string (its characters become the inputs). Exactness proved elsewhere.")
c("C72", "partial", "c72_shared_partial c72_built_where c72_sharing_builds_twice c72_violated c72_order_violated c72_inputs_accepted c72_inputs c72_again c72_again_accepted",
  "The code violates the claim whenever an expression is shared: dependents and visit counters are those of all groups set up so far, so the topmost shared expressions are built in both groups (proved for all pairs of groups, with a witness), and one of them may be built after an expression that depends on it (witness). For a block and the group around it it is proved exactly which expressions are built where. For any number of groups that share nothing but inputs the claim is proved, and every further setup of any of them succeeds and builds nothing.")
c("C73", "partial", "c73_residuals c73_trial c73_jacobian_partial c73_jacobian_linear_partial c73_chain_iff c73_stale_violated c73_after_bisection c73_solve_violated",
  "Residuals proved after every history of calls. The code violates the claim for the Jacobian: linearize sets the values but does not run the internal problem, so the partials of components that read intermediate values are those of the last run (witness y * y * y - c, also after solve_nonlinear with a bracket, which never runs the value it returns). Derivatives proved when the residuals at the same values were asked for last, and after any call when no partial depends on a computed value. For all compositions h(g(y)) it is proved exactly when the derivative is right.")
c("C74", "proved", "c74_converged c74_solves c74_iteration c74_partials c74_totals c74_outputs",
  "For programs with feedback through define. Feedback through indexed assignment makes setup fail (C14). An expression registered after it was assigned to a part of an output is excluded (C64). Convergence itself, and differentiability of the converged values, are hypotheses.")
c("C75", "partial", "c75_residuals c75_values c75_trial c75_jacobian_partial c75_jacobian_linear_partial c75_solved_partial c75_system_residuals c75_system_values c75_system_trial c75_system_jacobian_partial c75_system_solved_partial c75_system_exposed_partial c75_feedback_residuals c75_feedback_trial c75_feedback_jacobian_partial c75_feedback_solved_partial",
  "Residuals and trial runs proved for all setups without feedback of their own whose residuals are not implicit outputs themselves; the system theorems allow independent variables and subsystems (groups inside groups, other components), the feedback theorems also groups with feedback inside, iterated as in C78. An input declared after a subsystem that no subsystem provides keeps its earlier value, because it is not exposed (C53); c75_system_exposed_partial says which inputs are. The Jacobian is proved if the residuals at the same values were asked for last, and, without subsystems, after any call if every call of the program is linear or has only inputs and implicit outputs for operands (the code violates the rest, C73). The solution is proved, with feedback inside too, for one bracketed output with a residual that is elementwise inside the bracket (C48, C49 for what goes wrong otherwise).")
c("C76", "proved", "c76_design_vars c76_errors", "The loop is modelled with its checks interleaved as in the code; OpenMDAO's two calls are modelled as far as names go. Hypotheses on the history as for C02 (GroupOk).")
c("C77", "partial", "c77_never_set_up c77_refuses_partial", "Violated: setup calls set with three arguments, so it raises TypeError for every condition and pair of branches it should accept. The refusals are as stated.")
c("C78", "proved", "c78_converged c78_runs c78_iteration c78_partials c78_totals", "Iteration is modelled as passes until nothing changes, or as convergence of repeated runs to a limit; OpenMDAO stops at a tolerance. That the iteration converges, and that the solution is differentiable, are hypotheses.")
c("C79", "partial", "c79_inputs c79_outputs c79_violated", "Inputs proved. The code violates the claim for outputs: the component's output has the shape and value of the residual expression, so it starts from ones whatever value was given (proved for every computed residual: the value is right only if all its entries are one, the shape only if the residual has it).")
c("C80", "partial", "c80_documented c80_single c80_assignment c80_skipped c80_wrong_elements", "Proved for assignments and for single objects. The code violates the claim for reads with tuples: other items are skipped (proved for all tuples of integers), and since they count as positions x[..., :, 0] selects wrong elements whenever there are fewer columns than rows (proved).")
c("C81", "partial", "c81_left c81_handled_partial c81_power_partial c81_right c81_variable_exponent c81_never_computed", "Proved for other objects on the left, for sums, differences, products and quotients of expressions and constants, and for powers with constant exponents. The code violates the claim otherwise: any object is accepted on the right, and x ** y for an expression y ignores y and has the shape (1,); in both cases the result has no component (proved), setup succeeds, and whatever reads it gets its initial value (proved for all calls before and after).")
c("C82", "partial", "c82_exact c82_constants_partial c82_violated", "The code violates the claim: a product with an array keeps the array of the user and multiplies it in place when its derivatives are evaluated, which changes every other sum and product made with it (proved for all shapes and inputs). c82_exact says what every program does after every history. Partial: programs without products and quotients with arrays.")
c("C83", "partial", "c83_sorted_partial c83_order_violated c83_outputs_unsorted c83_cost_partial c83_run_order_partial c83_trees_partial c83_shared_violated c83_cycles_violated", "The code violates the claim: the order is the opposite of the documented one unless all costs are equal (c83_order_violated, all groups), the outputs are never sorted (c83_outputs_unsorted), the cost of a shared expression grows whenever it is met, so larger branches can be cheaper (c83_shared_violated, for any number of expressions), and cycles end in RecursionError (c83_cycles_violated). Partial: sorted by the costs computed, the other way round; costs are numbers of expressions, and branches run in the order of the dependencies, if every expression is used once (c83_trees_partial).")
c("C84", "partial", "c84_words c84_letters c84_idempotent c84_injective c84_scripts c84_export_partial c84_files_collide c84_capitals_collide", "The code violates the claim: names that differ in capital letters only, and names whose words are divided differently between file and class (c84_files_collide, for all of them), give the same script, and one class is left without. Partial: proved for names that consist of words and files whose names do not continue each other. Names are ASCII; the content of the scripts is C90.")
c("C85", "partial", "c85_unchanged_partial c85_other_breaks c85_blocks_define c85_assignment_stays c85_residual_cut c85_same c85_setup_same", "The code violates the claim: an indexed assignment, or a define or define_residual past its first checks, changes the group before it raises. After define or an indexed assignment with something that is no expression, every setup raises whatever is called (c85_other_breaks); a refused indexed assignment still makes the component of its expression be built (c85_assignment_stays); a registered residual is cut off from the unknown (c85_residual_cut). Partial: proved for all other refusals. Plain data only; the flag is_residual and the dictionaries of indexed assignments are not part of the state.")
c("C86", "partial", "c86_raises c86_exact c86_seen_partial c86_masked c86_stays", "The code violates both parts: setup runs in finally, so an output created and not defined when the block raises turns any exception into ValueError (c86_masked; c86_exact says when), and the unfinished group has been added and is run (c86_stays). Partial: no exception is lost (c86_raises), and the user gets the exception of the block if all created outputs are defined. The calls of the block are calls on the new group.")
c("C87", "partial", "c87_rst c87_sorted c87_value c87_types c87_complete_partial c87_set_raises c87_lost", "The code violates it in two ways: a set of types, which declare accepts, makes both raise AttributeError (c87_set_raises), and rows of options whose names start with === are cut at the width (c87_lost). Partial: the table is complete and aligned for all other types, and the wrapped text gives every row back, up to white space at its end, for names that do not start with ===. The texts of values are given by Python's str; line breaks inside them are characters like others.")
c("C88", "partial", "c88_super_last_partial c88_exact c88_ignored c88_super_first c88_needs_setup", "The code violates it: the metaclass wraps the setup of every class, so super().setup() sorts and builds at once, and whatever is called after it is ignored (c88_exact, c88_ignored); a direct subclass that begins with super().setup() adds nothing and reports no undefined outputs (c88_super_first); a class statement without setup raises KeyError (c88_needs_setup). Partial: it holds if super().setup() is called last (c88_super_last_partial).")
c("C89", "partial", "c89_first_partial c89_violated", "The code violates it: the group is made in __init__ and keeps its residuals, so once a component with an output has been set up every further setup raises, whatever it calls and however often it is tried (c89_violated); in the example OpenMDAO refuses the constraint for the old residual. Partial: the first setup gives exactly the variables of C53 and the components of the group.")
c("C90", "partial", "c90_imports_exact c90_multiline_violated c90_source_exact c90_source_partial c90_source_other_partial c90_param_lost c90_quotes_lost c90_group c90_component c90_script c90_all_partial c90_aborts", "The code violates it: imports are found line by line, so the script has the imports of the file if and only if every line of them, and no other line, starts with import or from (c90_imports_exact; c90_multiline_violated: of an import over several lines only the first is left); code with :param and a colon, and empty strings in triple quotation marks over two lines, are lost (c90_param_lost, c90_quotes_lost); a class that is neither group nor component ends the whole export with TypeError (c90_aborts). Partial: everything else is proved. Whether the script runs is left to Python.")
c("C91", "partial", "c91_plain_partial c91_violated c91_raises", "The code violates it for every class and every sequence of calls: the metaclass wraps the setup of every class, so the variables are declared and the internal problem is set up twice. If a setup that calls super().setup() ends at all without exception, the base class has no outputs and the internal problem has no component (c91_violated), so a class with outputs cannot be extended (c91_raises). Partial: a setup that does not call super().setup() is that of C89.")
c("C92", "partial", "c92_levels c92_order c92_leaves c92_recursion c92_exponential c92_complete_partial c92_cycle_violated c92_shape c92_shape_arith", "The lines and their indentation are proved exactly for every graph and depth, and when RecursionError is raised (c92_recursion). The code violates the rest of the claim: chains as long as the recursion limit and cycles raise (c92_cycle_violated), shared expressions are printed once for every chain, so 2(k+1) expressions can give 3*2^k-1 lines (c92_exponential), and the shape shown for arithmetic expressions has a parenthesis after every dimension, so it is right only for vectors (c92_shape_arith). Of a line the indentation, the object and the shape are modelled.")
c("C93", "partial", "c93_chars c93_components c93_group c93_variable c93_variables_partial c93_violated", "Components: proved for every program. Variables: proved while fewer than 63^4 expressions have been made in the process. The code violates the rest of the claim: the prefix of the name is used up then, and the names of the next 9*63^4 expressions start with a digit (c93_violated; c93_variable says exactly which numbers give such names).")
c("C94", "partial", "c94_exact c94_needs_partial c94_violated", "The code violates it: names are not looked at when components are ordered, so the order of a set of objects decides, and with one of two orders the reader uses the value from before the run, for all functions and values (c94_violated). c94_exact says what is read for every order. Partial: right if the reading expression also needs the object that writes the name. OpenMDAO's connection by promoted name and its run-once solver are part of the trusted base.")
c("C95", "partial", "c95_vector c95_rank c95_violated c95_unpack c95_empty_partial c95_empty_again", "The code violates it for every variable with entries: Variable has no __iter__, Python calls x[0], x[1], ... until IndexError, but x[n] raises ValueError (c95_vector, exact: the n entries are seen first), as does x[0] for arrays that are not vectors (c95_rank); so no loop ends (c95_violated) and no assignment to several names works (c95_unpack). Partial: the entries seen are the right ones, and a loop over a variable without entries ends, the first time only (c95_empty_again).")
c("C96", "partial", "c96_exact c96_factor_partial c96_chain_partial c96_refused c96_violated", "The code violates it for units with different offsets (degree Celsius and kelvin): it converts the magnitude one, and the number returned is right for no other magnitude (c96_violated). It is a factor exactly if the offsets agree (c96_exact). Proved for units without offset. What pint does is trusted.")
c("C97", "partial", "c97_chosen c97_margin c97_exact c97_indented_partial c97_violated c97_replace c97_setup c97_shown c97_shown_partial", "The choice of lines is proved. The margin of the first line is cut off every line whatever stands there: a later line that begins further left loses code (c97_violated); exactly then (c97_exact). Proved for lines indented at least like the first.")

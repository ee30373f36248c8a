{"id": "C01", "title": "Components run after the components they read from", "statement": "When Group.setup finishes, the subsystems added to the group are listed so that the component of every expression comes after the component of each expression it was built from, whatever the order in which outputs were registered.", "quantifier": "every finite acyclic expression graph with any sharing and depth, every iteration order of the Python sets involved, both values of reverse_branch_sorting", "why_tests_cant": "the order comes from list(set(...)) over objects hashed by address plus a cost sort, so it changes from run to run; a test sees one graph and one order", "anchors": ["omtools/core/graph.py:topological_sort", "omtools/core/group.py:_post_setup", "omtools/core/variable.py:Variable.sort_dependency_branches"]}
{"id": "C02", "title": "Each needed expression is built exactly once and nothing else is built", "statement": "After Group.setup, every expression a registered output depends on (directly or not) contributes exactly one entry to the execution list, and an expression no registered output depends on contributes none.", "quantifier": "every finite acyclic expression graph and every set iteration order", "why_tests_cant": "sharing patterns (diamonds of any depth) are unbounded; a miscount of visits only shows for particular in-degrees", "anchors": ["omtools/core/graph.py:topological_sort", "omtools/core/group.py:_post_setup", "omtools/core/variable.py:Variable.register_nodes", "omtools/core/variable.py:Variable.add_fwd_edges"]}
{"id": "C03", "title": "The ordering step terminates on every graph, cyclic ones included", "statement": "Ordering the expressions of a group finishes after a number of visits bounded by the number of dependency edges, even if the expressions form a cycle; an expression on a cycle, or one that can only run before a cycle, never appears in the order (it is dropped without an error by the ordering step).", "quantifier": "every finite directed graph, cyclic or not, any initial visit counters", "why_tests_cant": "termination is a statement about all graphs; the docstring claims the opposite for cycles", "anchors": ["omtools/core/graph.py:topological_sort"]}
{"id": "C04", "title": "Dropping redundant dependencies keeps every ordering constraint", "statement": "Cleaning up the expression graph before ordering never changes which expressions must run before which: expression A must run before B after the clean-up iff it had to before.", "quantifier": "every finite acyclic graph, the clean-up applied to the nodes in any sequence, indices removed in descending order", "why_tests_cant": "the clean-up deletes several edges of one node at once; whether a path survives depends on the whole graph", "anchors": ["omtools/core/graph.py:remove_indirect_dependencies", "omtools/core/variable.py:Variable.remove_dependency_by_index"]}
{"id": "C05", "title": "Ordering constraints survive whatever order Python's set yields", "statement": "The clean-up keeps every ordering constraint even when the set of positions to delete is iterated in an order that is not ascending.", "quantifier": "every finite acyclic graph and every iteration order of the set of positions", "why_tests_cant": "needs an expression with at least ten direct dependencies and two positions whose hashes collide", "anchors": ["omtools/core/graph.py:remove_indirect_dependencies"]}
{"id": "C06", "title": "Independent variables run first", "statement": "Every independent variable created on a group has its component placed before the component of every other kind of expression in the group, also when it is created last or after a subsystem was added.", "quantifier": "every finite acyclic group graph, every set iteration order", "why_tests_cant": "the position is forced by extra edges that the clean-up may delete again; only an argument over all graphs shows that the constraint survives", "anchors": ["omtools/core/group.py:_post_setup", "omtools/core/group.py:Group.create_indep_var"]}
{"id": "C07", "title": "A subsystem runs after every output registered before it was added", "statement": "If register_output, create_output or create_indep_var was called before add_subsystem, that output's component runs before the subsystem.", "quantifier": "every sequence of calls to the Group API, of any length", "why_tests_cant": "histories are unbounded and interleave freely", "anchors": ["omtools/core/group.py:Group.add_subsystem", "omtools/core/group.py:Group.register_output"]}
{"id": "C08", "title": "Expressions built on inputs declared after a subsystem run after it", "statement": "If declare_input is called after add_subsystem, every needed expression built from that input runs after the most recent subsystem and so after all earlier ones.", "quantifier": "every sequence of calls to the Group API, of any length", "why_tests_cant": "same as C07", "anchors": ["omtools/core/group.py:Group.declare_input", "omtools/core/group.py:Group.add_subsystem"]}
{"id": "C09", "title": "Subsystems run in the order they were added", "statement": "For two calls of add_subsystem on the same group, the first subsystem added is executed first.", "quantifier": "every sequence of calls to the Group API, of any length and with any number of subsystems", "why_tests_cant": "same as C07", "anchors": ["omtools/core/group.py:Group.add_subsystem"]}
{"id": "C10", "title": "An output that was created but never defined is always reported", "statement": "If create_output was called and neither define nor an indexed assignment ever succeeded on it, Group.setup raises ValueError; and setup does not raise this error when all created outputs are defined.", "quantifier": "every sequence of calls to the Group API and every set iteration order", "why_tests_cant": "the check happens while walking the computed order, so it depends on the ordering being complete", "anchors": ["omtools/core/group.py:_post_setup", "omtools/core/explicit_output.py:ExplicitOutput"]}
{"id": "C11", "title": "Setting a group up again builds the same components", "statement": "Running setup a second time on the same group object produces the same list of components as the first time.", "quantifier": "every group", "why_tests_cant": "state left over in visit counters depends on the history of calls", "anchors": ["omtools/core/graph.py:topological_sort", "omtools/core/group.py:_post_setup", "omtools/core/group.py:Group.create_group"]}
{"id": "C12", "title": "Running the generated components computes the value of every expression", "statement": "Executing the generated components once, in the generated order, each reading its arguments by promoted name and writing its own name, leaves under the name of every expression the value obtained by evaluating the expression recursively.", "quantifier": "every acyclic expression graph with pairwise different names, every component semantics, every input values, every set iteration order", "why_tests_cant": "it is a compiler-correctness statement over all expression graphs and values", "anchors": ["omtools/core/group.py:_post_setup", "omtools/core/graph.py:topological_sort"]}
{"id": "C13", "title": "Results do not depend on the nondeterministic component order", "statement": "Two set-ups of the same expressions that end in different component orders (different set iteration orders, or reverse_branch_sorting flipped) leave the same values under all names.", "quantifier": "every acyclic expression graph with pairwise different names, every pair of set iteration orders and flags", "why_tests_cant": "the order depends on object addresses", "anchors": ["omtools/core/graph.py:topological_sort", "omtools/core/variable.py:Variable.sort_dependency_branches"]}
{"id": "C14", "title": "Group.setup never sees a cycle", "statement": "Whatever sequence of API calls a user makes, the expression graph that setup analyses is acyclic (cyclic relations are only created through define, which breaks them).", "quantifier": "every sequence of calls to the Group API, of any length", "why_tests_cant": "histories are unbounded", "anchors": ["omtools/core/group.py:Group.add_subsystem", "omtools/core/explicit_output.py:ExplicitOutput.define", "omtools/core/explicit_output.py:ExplicitOutput.__setitem__"]}
{"id": "C15", "title": "Automatically generated names are unique", "statement": "Two expressions for which the user chose no name never share their generated name.", "quantifier": "every number of expressions created so far", "why_tests_cant": "collisions only start after about a billion expressions", "anchors": ["omtools/utils/gen_hex_name.py:gen_hex_name", "omtools/core/variable.py:Variable.__init__"]}
{"id": "C16", "title": "Slices select what Python slicing would select", "statement": "For a slice with non-negative bounds within the axis, the index list equals the one Python's own slicing gives; a negative stop is counted from the end; a slice that selects nothing or reaches a negative index raises an error and never yields a wrong list.", "quantifier": "every start, stop, step (also missing or negative) and axis size", "why_tests_cant": "infinitely many combinations of signs and sizes", "anchors": ["omtools/utils/slice_to_list.py:slice_to_list", "omtools/core/variable.py:slice_to_tuple"]}
{"id": "C17", "title": "Indexed assignment: each element has exactly one source", "statement": "After any sequence of indexed assignments of which some may raise, every element of the output covered by an accepted assignment is copied from exactly one element of exactly one accepted expression: the one at the same position within the assigned block.", "quantifier": "every sequence of assignments with any mixture of int, slice and tuple keys and any shapes", "why_tests_cant": "the invariant ranges over unbounded histories with failures in between", "anchors": ["omtools/core/explicit_output.py:ExplicitOutput.__setitem__", "omtools/comps/indexed_pass_through_comp.py:IndexedPassThroughComp"]}
{"id": "C18", "title": "Overlapping or out-of-range assignments are always rejected", "statement": "An indexed assignment touching an element already assigned, or an element beyond the end of the output, raises ValueError. Every other assignment of a new expression with the shape of the selected block is accepted.", "quantifier": "every history of assignments, every key", "why_tests_cant": "same as C17", "anchors": ["omtools/core/explicit_output.py:ExplicitOutput.__setitem__"]}
{"id": "C19", "title": "Indexing an expression yields exactly the selected elements", "statement": "x[key] denotes the same elements, in the same order, as NumPy indexing of the value of x with that key (kept as an axis of length one for ints), and the derivative handed to OpenMDAO is the derivative of that selection.", "quantifier": "every shape of any rank, every tuple of in-range slices and ints", "why_tests_cant": "rank and sizes unbounded", "anchors": ["omtools/core/variable.py:Variable.__getitem__", "omtools/comps/decompose_comp.py:DecomposeComp"]}
{"id": "C20", "title": "Indexing with the same key returns the same expression", "statement": "Two uses of the same key on one variable return one expression object, and different expressions returned for one variable never denote the same key.", "quantifier": "every history of indexing operations on a variable", "why_tests_cant": "history-dependent cache", "anchors": ["omtools/core/variable.py:Variable.__getitem__"]}
{"id": "C21", "title": "Reading back what was assigned", "statement": "Reading an output with the key used in an accepted assignment yields the assigned expression's values.", "quantifier": "every history of assignments and every shape", "why_tests_cant": "combines two components and an unbounded history", "anchors": ["omtools/core/explicit_output.py:ExplicitOutput.__setitem__", "omtools/core/variable.py:Variable.__getitem__"]}
{"id": "C22", "title": "A failed indexing operation leaves the variable usable", "statement": "If x[key] raises, a later x[key2] with a valid key2 succeeds.", "quantifier": "every history of indexing operations", "why_tests_cant": "failure atomicity is a property of histories", "anchors": ["omtools/core/variable.py:Variable.__getitem__"]}
{"id": "C23", "title": "An output is defined at most once and in one way", "statement": "Once an output was defined with define, a second define and any indexed assignment raise; once it has an indexed assignment, define raises.", "quantifier": "every sequence of define and indexed-assignment calls", "why_tests_cant": "state machine over unbounded histories", "anchors": ["omtools/core/explicit_output.py:ExplicitOutput.define", "omtools/core/explicit_output.py:ExplicitOutput.__setitem__"]}
{"id": "C24", "title": "Registration is exclusive", "statement": "register_output raises TypeError for every declared input and ValueError for every expression already registered, created or added; a rejected call leaves the group unchanged; an accepted one makes the expression an output under the given name.", "quantifier": "every sequence of calls to the Group API", "why_tests_cant": "same as C07", "anchors": ["omtools/core/group.py:Group.register_output"]}
{"id": "C25", "title": "Two outputs cannot share a name unnoticed", "statement": "If two different expressions are given the same name by the user, setup raises the documented name-collision error.", "quantifier": "every sequence of calls to the Group API", "why_tests_cant": "same as C07", "anchors": ["omtools/core/variable.py:Variable.register_nodes", "omtools/core/group.py:Group.register_output"]}
{"id": "C26", "title": "Sums, differences and shifted values are exact with exact derivatives", "statement": "For a+b, a-b, a+c, c+a, a-c, c-a with expressions a, b of equal shape and constant c (number or array of that shape), the generated component computes the named value elementwise and its partial derivatives are the exact Jacobian.", "quantifier": "all real input values, all sizes, any number of terms and coefficients", "why_tests_cant": "real-valued inputs and all sizes", "anchors": ["omtools/core/variable.py:ElementwiseAddition", "omtools/core/variable.py:ElementwiseSubtraction", "omtools/comps/linearcombination_comp.py:LinearCombinationComp"]}
{"id": "C27", "title": "Products, quotients and powers are exact with exact derivatives", "statement": "For a*b, a/b, c*a, a*c, a/c, c/a, -a and a**p with number c and p, the generated component computes the named value elementwise and its partial derivatives are the exact Jacobian wherever the value is differentiable.", "quantifier": "all real input values in the domain, all sizes, any number of factors and exponents", "why_tests_cant": "real-valued inputs; points with zeros", "anchors": ["omtools/core/variable.py:ElementwiseMultiplication", "omtools/core/variable.py:ElementwiseDivision", "omtools/core/variable.py:ElementwisePower", "omtools/comps/arithmetic_comps/power_combination_comp.py:PowerCombinationComp"]}
{"id": "C28", "title": "Evaluating derivatives does not change the model", "statement": "Evaluating the derivatives of a product component any number of times, interleaved with evaluations, never changes what the component computes.", "quantifier": "every interleaving of evaluations and derivative evaluations, scalar and array coefficients", "why_tests_cant": "needs a particular interleaving and an array-valued coefficient", "anchors": ["omtools/comps/arithmetic_comps/power_combination_comp.py:PowerCombinationComp.compute_partials"]}
{"id": "C29", "title": "x ** array raises each element to its own power", "statement": "For an expression and a constant array of the same shape, ** computes the elementwise power.", "quantifier": "all shapes, values and exponent arrays", "why_tests_cant": "the repository's test only uses a constant exponent array", "anchors": ["omtools/core/variable.py:ElementwisePower", "omtools/utils/process_options.py:get_scalars_list"]}
{"id": "C30", "title": "Unary functions come with their exact derivative", "statement": "For each of the 18 unary functions the partial derivatives returned are the exact derivative at every point of the domain.", "quantifier": "every real point in the domain, every size", "why_tests_cant": "a finite-difference test samples points", "anchors": ["omtools/comps/sincomp.py", "omtools/comps/coscomp.py", "omtools/comps/tancomp.py", "omtools/comps/arcsincomp.py", "omtools/comps/arccoscomp.py", "omtools/comps/arctancomp.py", "omtools/comps/sinhcomp.py", "omtools/comps/coshcomp.py", "omtools/comps/tanhcomp.py", "omtools/comps/expcomp.py", "omtools/comps/logcomp.py", "omtools/comps/log10comp.py", "omtools/comps/seccomp.py", "omtools/comps/coseccomp.py", "omtools/comps/cotancomp.py", "omtools/comps/sechcomp.py", "omtools/comps/cosechcomp.py", "omtools/comps/cotanhcomp.py"]}
{"id": "C31", "title": "The smooth maximum is a tight upper bound, the smooth minimum a tight lower bound", "statement": "max (min) of n values with parameter rho > 0 is never below (above) the true maximum (minimum) and off by at most log(n)/rho.", "quantifier": "all real inputs, all n, all rho > 0, each of the elementwise, axis-wise and scalar forms", "why_tests_cant": "an inequality over all reals", "anchors": ["omtools/comps/elementwise_max_comp.py", "omtools/comps/elementwise_min_comp.py", "omtools/comps/axiswise_max_comp.py", "omtools/comps/axiswise_min_comp.py", "omtools/comps/scalar_extremum_comp.py"]}
{"id": "C32", "title": "Derivatives of the smooth extrema are exact, non-negative and sum to one", "statement": "The partial derivatives of max and min are the exact Jacobian at every point, each is non-negative and those of one output add up to 1.", "quantifier": "all real inputs, ties included, all n, all rho > 0", "why_tests_cant": "ties and overflow guards are exactly where samples mislead", "anchors": ["omtools/comps/elementwise_max_comp.py", "omtools/comps/elementwise_min_comp.py", "omtools/comps/axiswise_max_comp.py", "omtools/comps/axiswise_min_comp.py", "omtools/comps/scalar_extremum_comp.py"]}
{"id": "C33", "title": "Derivatives belong to the point they are asked for", "statement": "The derivative returned by a component for given inputs depends on those inputs only, not on which inputs it was evaluated with before.", "quantifier": "every history of evaluations and derivative evaluations", "why_tests_cant": "history-dependent caches in the component", "anchors": ["omtools/comps/axiswise_max_comp.py", "omtools/comps/axiswise_min_comp.py", "omtools/comps/scalar_extremum_comp.py", "omtools/comps/vectorized_pnorm_comp.py", "omtools/comps/vectorized_axiswise_pnorm_comp.py"]}
{"id": "C34", "title": "The p-norm is a norm and has the exact derivative", "statement": "pnorm with even positive p computes the p-norm; its partials are the exact Jacobian wherever the norm is nonzero; other p are rejected.", "quantifier": "all real inputs, all sizes, all even p", "why_tests_cant": "real inputs", "anchors": ["omtools/std/pnorm.py:pnorm", "omtools/comps/vectorized_pnorm_comp.py", "omtools/comps/vectorized_axiswise_pnorm_comp.py"]}
{"id": "C35", "title": "sum and average: values and derivatives", "statement": "sum and average over one or several arrays, over all elements or chosen axes, compute the mathematical sum and mean and declare the exact sparse Jacobian.", "quantifier": "all shapes of any rank, all sets of axes, any number of operands, all real inputs", "why_tests_cant": "index arithmetic for arbitrary rank", "anchors": ["omtools/std/sum.py:sum", "omtools/std/average.py:average", "omtools/comps/single_tensor_sum_comp.py", "omtools/comps/multiple_tensor_sum_comp.py", "omtools/comps/single_tensor_average_comp.py", "omtools/comps/multiple_tensor_average_comp.py"]}
{"id": "C36", "title": "Matrix-matrix and matrix-vector products: values and derivatives", "statement": "matmat and matvec compute the product and the declared row/column pattern with the computed values is the exact Jacobian with respect to each operand.", "quantifier": "all matrix sizes and entries", "why_tests_cant": "index arithmetic for all sizes", "anchors": ["omtools/comps/matmat_comp.py:MatMatComp", "omtools/comps/matvec_comp.py:MatVecComp"]}
{"id": "C37", "title": "Outer products: values and derivatives", "statement": "outer of vectors and of tensors computes the outer product and declares the exact Jacobian.", "quantifier": "all shapes and values", "why_tests_cant": "index arithmetic for all sizes", "anchors": ["omtools/comps/vector_outer_product_comp.py", "omtools/comps/tensor_outer_product_comp.py"]}
{"id": "C38", "title": "Inner and dot products: values and derivatives", "statement": "inner and dot of vectors and tensors compute the contraction and declare the exact Jacobian.", "quantifier": "all shapes, axes and values", "why_tests_cant": "index arithmetic for all ranks", "anchors": ["omtools/comps/vector_inner_product_comp.py", "omtools/comps/tensor_inner_product_comp.py", "omtools/comps/tensor_dot_product_comp.py"]}
{"id": "C39", "title": "Cross products: values and derivatives", "statement": "cross computes the vector product along the axis and declares the exact Jacobian; the result is orthogonal to both operands.", "quantifier": "all shapes, all positions of the axis, all values", "why_tests_cant": "index arithmetic for all ranks", "anchors": ["omtools/std/cross.py:cross", "omtools/comps/cross_product_comp.py"]}
{"id": "C40", "title": "Rotation matrices are rotations", "statement": "rotmat yields, for each angle and each axis, an orthogonal matrix of determinant one fixing that axis, angle zero gives the identity and adding angles multiplies matrices; partials are exact.", "quantifier": "all real angles, arrays of angles of any shape", "why_tests_cant": "all reals", "anchors": ["omtools/std/rotmat.py:rotmat", "omtools/comps/rotation_matrix_comp.py"]}
{"id": "C41", "title": "expand copies values along the new axes", "statement": "expand gives an array whose entry at each multi-index is the entry of the source at the indices named on the left of '->', and its partials are exact; the index string is honoured.", "quantifier": "all shapes and all index strings accepted", "why_tests_cant": "index arithmetic for all ranks; only non-square shapes reveal permuted indices", "anchors": ["omtools/std/expand.py:expand", "omtools/comps/array_expansion_comp.py", "omtools/comps/scalar_expansion_comp.py"]}
{"id": "C42", "title": "reorder_axes and transpose permute entries and derivatives alike", "statement": "The output entry at the permuted multi-index equals the input entry; partials select exactly that entry; reordering by a permutation and its inverse is the identity.", "quantifier": "all shapes and permutations of axes", "why_tests_cant": "index arithmetic for all ranks", "anchors": ["omtools/comps/reorder_axes_comp.py", "omtools/comps/transpose_comp.py", "omtools/utils/reorder_axes_utils.py:compute_new_axes_locations"]}
{"id": "C43", "title": "reshape keeps the flattened data", "statement": "reshape keeps the row-major sequence of values, its Jacobian is the identity, reshaping there and back is the identity, and size-changing reshapes are rejected.", "quantifier": "all shapes and values", "why_tests_cant": "all ranks", "anchors": ["omtools/std/reshape.py:reshape", "omtools/comps/reshape_comp.py"]}
{"id": "C44", "title": "einsum: shape and value", "statement": "einsum of any operands with any subscripts has the shape announced for the expression, and computes the sum over the contracted indices.", "quantifier": "all numbers of operands, ranks and subscripts", "why_tests_cant": "unbounded combinations of subscripts", "anchors": ["omtools/std/einsum.py:einsum", "omtools/utils/einsum_utils.py"]}
{"id": "C45", "title": "einsum: derivatives", "statement": "The derivatives handed to OpenMDAO by einsum are the exact Jacobian for each distinct operand, also if an operand occurs several times.", "quantifier": "all numbers of operands, ranks and subscripts, all values", "why_tests_cant": "unbounded combinations of subscripts", "anchors": ["omtools/comps/einsum_comp_dense_derivs.py", "omtools/comps/einsum_comp_sparse_derivs.py"]}
{"id": "C46", "title": "einsum_new_api means the same as the subscript string", "statement": "The tuple notation of einsum_new_api denotes the same operation as einsum with letters in place of the labels, for any labels.", "quantifier": "all lists of tuples of hashable labels with at most 26 different labels", "why_tests_cant": "unbounded", "anchors": ["omtools/std/einsum_new_api.py:einsum_new_api", "omtools/utils/einsum_utils.py:new_einsum_subscripts_to_string_and_list"]}
{"id": "C47", "title": "if_else chooses the branch and its derivative", "statement": "if_else(c,a,b) equals a where c >= 0 and b where c < 0 elementwise, and its partials are the exact Jacobian where c is not zero.", "quantifier": "all values and sizes", "why_tests_cant": "all reals", "anchors": ["omtools/std/if_else.py"]}
{"id": "C48", "title": "Bracketed implicit outputs: bisection keeps and shrinks the bracket", "statement": "When the residual changes sign between the two bracket ends, every bisection step keeps a sign change inside the bracket, halves its width, and so the returned value is within |x2-x1|/2^maxiter of a root of a continuous residual.", "quantifier": "all continuous residuals, all brackets with a sign change, in either order, all numbers of steps", "why_tests_cant": "all functions", "anchors": ["omtools/comps/implicit_component.py:ImplicitComponent.solve_nonlinear"]}
{"id": "C49", "title": "Every bracketed output of an implicit component keeps its own bracket", "statement": "If several implicit outputs are defined with brackets, each is solved with the bracket given for it; the maxiter argument is honoured.", "quantifier": "every sequence of define_residual and define_residual_bracketed calls", "why_tests_cant": "history of calls", "anchors": ["omtools/core/implicit_output.py:ImplicitOutput.define_residual_bracketed", "omtools/comps/implicit_component.py"]}
{"id": "C50", "title": "Options: reads return validated values", "statement": "Reading a declared option returns the last value accepted by its validation, or its default; a value failing the declared values/types/bounds is never readable; undeclared, unset or read-only accesses raise.", "quantifier": "every sequence of declare, undeclare, set, update and get calls", "why_tests_cant": "histories are unbounded", "anchors": ["omtools/utils/options_dictionary.py:OptionsDictionary"]}
{"id": "C51", "title": "Declared shape and value always agree", "statement": "For declare_input, create_indep_var, create_output and create_implicit_output: if the call succeeds, the value stored has exactly the shape stored; a number is broadcast, an explicit shape other than (1,) is never overridden, a mismatch raises.", "quantifier": "all shapes and values", "why_tests_cant": "all shapes", "anchors": ["omtools/utils/get_shape_val.py:get_shape_val"]}
{"id": "C52", "title": "define turns a self-referential expression into a feedback input", "statement": "After out.define(expr), no expression reachable from out refers to out, every place that did now reads an input with out's name, and all other dependencies are unchanged.", "quantifier": "every acyclic expression graph, every set iteration order", "why_tests_cant": "the code edits lists while it iterates over them; the result depends on the position of the output among its siblings", "anchors": ["omtools/utils/replace_output_leaf_nodes.py", "omtools/core/explicit_output.py:ExplicitOutput.define", "omtools/core/implicit_output.py:ImplicitOutput.define_residual"]}
{"id": "C53", "title": "An implicit component exposes exactly the free inputs of its residuals", "statement": "The inputs of the implicit component are exactly the declared inputs, not fed by a subsystem, that a residual depends on.", "quantifier": "every acyclic expression graph", "why_tests_cant": "all graphs", "anchors": ["omtools/utils/collect_input_exprs.py:collect_input_exprs"]}
{"id": "C54", "title": "Using one expression twice as operand is allowed", "statement": "a+a, a-a, a*a and a/a build a component that computes the stated value.", "quantifier": "all expressions and shapes", "why_tests_cant": "a test has to think of the aliasing case", "anchors": ["omtools/core/variable.py:ElementwiseAddition", "omtools/comps/linearcombination_comp.py:LinearCombinationComp.setup"]}
{"id": "C55", "title": "Structured training data rows are grid points", "statement": "structure_data returns one row per point of the Cartesian grid spanned by the inputs.", "quantifier": "any number of inputs of any lengths", "why_tests_cant": "all sizes", "anchors": ["omtools/utils/structure_data.py:structure_data"]}
{"id": "C56", "title": "Total derivatives through the generated model are exact", "statement": "Propagating the components' exact partial derivatives through the generated order gives the derivative of every registered output with respect to every input.", "quantifier": "every acyclic expression graph with differentiable components, all real inputs, every set iteration order", "why_tests_cant": "composition over all graphs", "anchors": ["omtools/core/group.py:_post_setup", "omtools/core/graph.py:topological_sort"]}
{"id": "C57", "title": "Setup takes polynomial time", "statement": "The work done by Group setup on an acyclic group is bounded by a polynomial in the number of expressions and dependencies.", "quantifier": "every acyclic group", "why_tests_cant": "asymptotic claim over all graph shapes; small tests finish either way", "anchors": ["omtools/core/variable.py:Variable.add_fwd_edges", "omtools/core/variable.py:Variable.compute_dag_cost"]}
{"id": "C58", "title": "Chains of any length can be set up", "statement": "An acyclic group is set up successfully however long its chains of dependencies are.", "quantifier": "every acyclic group, every Python recursion limit", "why_tests_cant": "tests use short chains", "anchors": ["omtools/core/variable.py:Variable.register_nodes", "omtools/core/variable.py:Variable.add_fwd_edges", "omtools/core/variable.py:Variable.compute_dag_cost"]}
{"id": "C59", "title": "A group filled in a create_group block is built exactly once", "statement": "The setup of a group made by create_group runs when the with-block ends and again when OpenMDAO sets up the problem; over both runs every expression gets exactly one component.", "quantifier": "every acyclic group, every set iteration order of both runs", "why_tests_cant": "depends on stale state of every node for all graphs", "anchors": ["omtools/core/group.py:Group.create_group", "omtools/core/graph.py:topological_sort"]}
{"id": "C60", "title": "An output defined by an expression equals the expression", "statement": "After y = create_output(name, shape) and y.define(expr), the output has the declared shape, its values are those of expr, and its partials are the exact Jacobian.", "quantifier": "all shapes and values", "why_tests_cant": "all reals and shapes", "anchors": ["omtools/core/explicit_output.py:ExplicitOutput.define", "omtools/comps/pass_through_comp.py"]}
{"id": "C61", "title": "The linear solve of an implicit component inverts its Jacobian", "statement": "In forward mode solve_linear returns d_outputs with dR/dy * d_outputs = d_residuals, in reverse mode d_residuals with (dR/dy)^T * d_residuals = d_outputs.", "quantifier": "every Jacobian with an inverse, every right-hand side", "why_tests_cant": "all matrices", "anchors": ["omtools/comps/implicit_component.py:ImplicitComponent.solve_linear", "omtools/comps/implicit_component.py:ImplicitComponent.linearize"]}
{"id": "C62", "title": "An implicit component declares a partial for every variable a residual depends on", "statement": "For every residual and every input or implicit output of the component that the residual depends on, the implicit component declares the partial of the residual's output with respect to it.", "quantifier": "every list of residuals, every acyclic expression graph, every set iteration order", "why_tests_cant": "all graphs", "anchors": ["omtools/comps/implicit_component.py:_build_problem", "omtools/utils/collect_input_exprs.py:collect_input_exprs"]}
{"id": "C63", "title": "define_residual replaces every use of the output", "statement": "After a successful out.define_residual(expr), no expression reachable from expr uses out: each use is replaced by one new input of the same name, and no other dependency changes.", "quantifier": "every state reached by calls of the Group API, every expression graph, every set iteration order", "why_tests_cant": "all graphs; which use is skipped depends on the order of dependency lists", "anchors": ["omtools/core/implicit_output.py:ImplicitOutput.define_residual", "omtools/utils/replace_output_leaf_nodes.py:replace_output_leaf_nodes"]}
{"id": "C64", "title": "A registered name is used wherever the expression is used", "statement": "Registering an expression with register_output names the variable that all operations, parts, definitions and indexed assignments using the expression read, whether they were written before or after the registration.", "quantifier": "every program of calls of the Group API without feedback, every order of the calls, all values computed by the operations", "why_tests_cant": "it concerns every order of calls; in the tests expressions are registered directly after they are made", "anchors": ["omtools/core/group.py:Group.register_output", "omtools/core/explicit_output.py:ExplicitOutput.__setitem__", "omtools/comps/indexed_pass_through_comp.py:IndexedPassThroughComp"]}
{"id": "C65", "title": "Smooth extrema are computed without overflow", "statement": "When max or min is evaluated with rho > 0, no argument of the exponential is positive, one of them is zero, and the argument of the logarithm lies between one and the number of values reduced.", "quantifier": "all real inputs, all numbers of operands, all shapes and axes, all rho > 0", "why_tests_cant": "an inequality over all reals; over the reals every shift gives the same value, so values do not show it", "anchors": ["omtools/comps/elementwise_max_comp.py", "omtools/comps/elementwise_min_comp.py", "omtools/comps/axiswise_max_comp.py", "omtools/comps/axiswise_min_comp.py", "omtools/comps/scalar_extremum_comp.py"]}
{"id": "C66", "title": "Declared values reach every component that reads the variable", "statement": "The input of a component that reads a variable declared with a value (declare_input, create_output, ...) has that value as initial value, whatever operation the component computes; so all components reading an unconnected variable agree on its value.", "quantifier": "all operations of the library and operators, all shapes, all declared values", "why_tests_cant": "every operation passes the value on in its own way; the examples connect their inputs or use the default value one", "anchors": ["omtools/comps/scalar_expansion_comp.py:ScalarExpansionComp.setup", "omtools/std/expand.py:expand", "omtools/core/variable.py", "omtools/std/*.py"]}
{"id": "C67", "title": "Operations accept expressions wherever they accept declared variables", "statement": "Whether a component can be set up depends on the shapes of its operands only, not on whether an operand was declared or computed, or by which operation it was computed; its inputs have the sizes of the operands.", "quantifier": "all operations of the library and operators, all operands accepted by the function", "why_tests_cant": "it concerns every combination of an operation with the operation that makes its operand", "anchors": ["omtools/std/inner.py:inner", "omtools/std/dot.py:dot", "omtools/comps/vector_inner_product_comp.py", "omtools/std/matmat.py:matmat", "omtools/std/if_else.py:ConditionalComponent.setup", "omtools/std/sum.py:sum"]}
{"id": "C68", "title": "Promotions of subsystems are the ones asked for", "statement": "A variable of a subsystem added with add_subsystem is called by its own name in the group if the given promotes, promotes_inputs or promotes_outputs cover it, by the second name of a pair if they give a pair for it, and subsystem.variable otherwise.", "quantifier": "every kind of subsystem, every set of variables, every choice of promotions", "why_tests_cant": "all combinations of kinds, patterns and variables; tests use promotes=['*'], where nothing can be seen", "anchors": ["omtools/core/group.py:_post_setup", "omtools/core/group.py:Group.add_subsystem", "omtools/core/subsystem.py:Subsystem"]}
{"id": "C69", "title": "A whole program computes what it says, with exact derivatives", "statement": "Take any program of calls that create variables, combine them with the operators and functions of the package, read parts x[key], assign parts out[key] = e, register and define outputs. It is accepted exactly if every call fits the shapes of its operands. Running the components that setup adds, in the order in which it adds them, then raises no exception and gives every variable the array that the user's formulas say, index by index, elements of an output that are not assigned being 1; the derivatives that OpenMDAO assembles from the partials of the components are the derivatives of these formulas. Left out are if_else, einsum_new_api (see C46), subsystems (see C70), feedback, and the uses of single functions for which C17-C19, C27-C47 and C64 show the package to be wrong.", "quantifier": "every program of any length over 23 operators and functions, indexing and indexed assignment, every shape, every point where the formulas are defined", "why_tests_cant": "tests compare single expressions at sample points; wrong wiring, order or partials of one component show up only in combination", "anchors": ["omtools/core/group.py:_post_setup", "omtools/core/variable.py:Variable", "omtools/core/expression.py:Expression", "omtools/std", "omtools/comps"]}
{"id": "C70", "title": "Groups inside groups compute what they say, with exact derivatives", "statement": "Take a program as in C69 whose calls also add subsystems: components of OpenMDAO with exact partials, or groups that are again such programs, to any depth, with any promotions under which no two variables of a subsystem get the same name. Running the groups one inside the other raises no exception and gives every variable, under the name that the promotions give it, the array that the formulas of the group it belongs to say; variables that no component computes keep what they were given. The derivatives that OpenMDAO assembles from the partials of all components in all groups are the derivatives of these formulas.", "quantifier": "every tree of groups of any depth, every program in each of them, every choice of promotions, every point where the formulas are defined", "why_tests_cant": "trees of groups and promotions are unbounded; tests nest one group and promote everything", "anchors": ["omtools/core/group.py:_post_setup", "omtools/core/group.py:Group.add_subsystem", "omtools/core/subsystem.py:Subsystem"]}
{"id": "C71", "title": "LinearPowerCombinationComp computes a sum of products of powers", "statement": "A LinearPowerCombinationComp made from a list of terms (coefficient, {variable: power}) has one input per variable and computes constant + sum of coefficient * product of variable ** power, a variable that a term lacks counting as power 0; its partials are the derivatives wherever the sum is differentiable; evaluating partials does not change the component; in_names given as a string names one input.", "quantifier": "every list of terms, every shape, all inputs, scalar and array coefficients", "why_tests_cant": "the only check in the file uses positive random inputs and variables that occur in every term", "anchors": ["omtools/comps/linearpowercombination.py:LinearPowerCombinationComp"]}
{"id": "C72", "title": "A create_group block may use the variables of the group around it", "statement": "In a create_group block expressions may be formed from variables of the surrounding group. After the block has ended and the surrounding group has been set up, every expression that one of the groups depends on has been built exactly once in exactly one of the groups, after everything it depends on within that group, and setting the groups up again builds nothing.", "quantifier": "every pair of acyclic groups sharing variables, and every sequence of groups sharing inputs; every iteration order of sets of objects", "why_tests_cant": "the examples with create_group share no expression between the block and its surroundings; the counters left on the shared objects depend on the whole graph", "anchors": ["omtools/core/group.py:create_group", "omtools/core/group.py:_post_setup", "omtools/core/graph.py:topological_sort"]}
{"id": "C73", "title": "Residuals and derivatives of an implicit component belong to the values they are asked for", "statement": "Whenever OpenMDAO asks an implicit component made by omtools for its residuals or its Jacobian at given inputs and outputs, the answer is the value, or the derivative, of the residual expressions at these inputs and outputs, whatever was asked before.", "quantifier": "every internal problem of explicit components, every sequence of earlier calls, all values of inputs and outputs", "why_tests_cant": "the error of a stale linearisation point depends on the sequence of calls and vanishes when the solver has converged; derivative checks run the model first", "anchors": ["omtools/comps/implicit_component.py:_set_values", "omtools/comps/implicit_component.py:run", "omtools/comps/implicit_component.py:apply_nonlinear", "omtools/comps/implicit_component.py:solve_nonlinear", "omtools/comps/implicit_component.py:linearize"]}
{"id": "C74", "title": "Outputs defined in terms of themselves: converged values satisfy the program", "statement": "An output may be defined, with define, by an expression that depends on it. Whenever the components of such a group leave the values as they are, in particular when repeated runs converge, the values satisfy every equation of the program, the ones with feedback included, and conversely values that satisfy the equations are left as they are. The partial derivatives of the components are exact at all values met on the way, and if the converged values are differentiable functions of the inputs, their derivatives solve OpenMDAO's linear system of total derivatives.", "quantifier": "all programs with any number of such definitions, all starting values, all values at which the calls are defined", "why_tests_cant": "feedback is cut by rewriting the graph in place at define; whether the cut loses an operand or reads a stale copy depends on the shape of the whole graph and the iteration", "anchors": ["omtools/core/explicit_output.py:define", "omtools/utils/replace_output_leaf_nodes.py:replace_output_leaf_nodes", "omtools/core/group.py:setup"]}
{"id": "C75", "title": "An implicit component computes the residuals its setup wrote down", "statement": "Let the setup of an implicit component declare inputs, create implicit outputs and independent variables, add subsystems, build expressions and define residuals. Whatever the component was used for before, asked for the residuals at given inputs and outputs it raises no exception, and the residual of every implicit output is the value of its residual expression, as a mathematical function of these inputs and outputs. Expressions registered as outputs that are not residuals do not matter. The Jacobian it reports at the same values is the derivative of the residuals, and the array stored by solve_nonlinear for a bracketed output is close to one with residual zero.", "quantifier": "all setups of implicit components made of the calls of the API, all values of inputs and outputs at which the calls are defined, all histories of earlier calls", "why_tests_cant": "the residuals run through the whole chain of graph construction, removal of non-residuals, ordering, component construction and an internal problem that keeps values between calls", "anchors": ["omtools/comps/implicit_component.py:_post_setup", "omtools/comps/implicit_component.py:ImplicitComponent.apply_nonlinear", "omtools/core/implicit_output.py:define_residual", "omtools/core/group.py:create_implicit_output"]}
{"id": "C76", "title": "Design variables are the independent variables marked as such", "statement": "When a group is set up without exception, the design variables registered with OpenMDAO are exactly the names of the independent variables created with dv=True, each once, in the order in which their components are added. Setup fails at the first expression in execution order that is an output without definition or would reuse the name of an earlier component; add_design_var itself is never refused.", "quantifier": "all histories of API calls, all choices of dv flags, all orders of sets", "why_tests_cant": "the loop interleaves checks, components and design variables in an order computed from the whole graph; no test sets dv", "anchors": ["omtools/core/group.py:_post_setup", "omtools/core/group.py:create_indep_var", "omtools/core/indep.py:Indep.initialize"]}
{"id": "C77", "title": "The component for conditional models can be set up", "statement": "ConditionalComponent refuses declared inputs as condition or branch (TypeError) and branches of different shapes (ValueError), and can be set up with everything else.", "quantifier": "all conditions and branches", "why_tests_cant": "the component is not reachable from the functions that tests call", "anchors": ["omtools/comps/conditional_component.py:ConditionalComponent.setup"]}
{"id": "C78", "title": "Nested groups with feedback converge to solutions of all their equations", "statement": "Let any group of a nested model have feedback: outputs defined in terms of themselves, or subsystems that use each other's outputs. If every group with feedback is iterated until nothing changes (groups without feedback may be run once), the values at the end satisfy the equations written in the setup methods of all groups, and independent variables and inputs keep their values. The same holds of the limit if the whole model is run again and again and the values converge. The partials of all components are exact at any values, and the derivatives of the solution solve OpenMDAO's linear system of total derivatives.", "quantifier": "all nestings of groups and components, all choices of which groups without feedback are iterated, all starting values, all numbers of passes", "why_tests_cant": "the solvers nest, and each pass of an outer group contains any number of passes of the inner ones", "anchors": ["omtools/core/group.py:_post_setup", "omtools/core/explicit_output.py:ExplicitOutput.define", "omtools/core/group.py:Group.add_subsystem"]}
{"id": "C79", "title": "Implicit outputs have the shape and the initial value given for them", "statement": "The implicit component has, for every implicit output with a residual, an output of the shape given to create_implicit_output whose initial value (the starting point of OpenMDAO's solvers) is the value given there; and for every input that a residual depends on, an input with the declared shape and value.", "quantifier": "every list of residuals, all shapes and values of outputs and inputs", "why_tests_cant": "tests use the default value one and residuals of the shape of the output, for which the difference cannot be seen", "anchors": ["omtools/comps/implicit_component.py:_post_setup", "omtools/core/group.py:Group.create_implicit_output"]}
{"id": "C80", "title": "Keys of other kinds are refused", "statement": "x[key] and out[key] = expr raise an exception if the key is, or as a tuple contains, anything but integers and slices, as the error message of the code says; a key of integers and slices is read and assigned as in C17 and C19.", "quantifier": "all keys made of integers, slices, Ellipsis, None and objects that are no index, all shapes, all histories of reads", "why_tests_cant": "tests use documented keys only; a key like x[..., :, 0] is accepted and gives the right elements of square matrices", "anchors": ["omtools/core/variable.py:Variable.__getitem__", "omtools/core/explicit_output.py:ExplicitOutput.__setitem__"]}
{"id": "C81", "title": "Operators refuse operands they cannot handle", "statement": "For an expression x and any object y, each of x + y, x - y, x * y, x / y, x ** y and their reflections either raises an exception or returns an expression that depends on all operands that are expressions, has their shape, and for which setup makes a component that computes it.", "quantifier": "all operands (expressions of all shapes, numbers, arrays, other objects) on both sides; in a group, all calls before and after", "why_tests_cant": "tests use supported operands; for others nothing fails: a value that was never computed is used", "anchors": ["omtools/core/variable.py:ElementwiseAddition", "omtools/core/variable.py:ElementwiseSubtraction", "omtools/core/variable.py:ElementwiseMultiplication", "omtools/core/variable.py:ElementwiseDivision", "omtools/core/variable.py:ElementwisePower", "omtools/core/group.py:Group.setup"]}
{"id": "C82", "title": "Components with constants do not influence each other", "statement": "Let a program use +, -, * and / with constants, the same array as often as it likes. In whatever order the components are run and asked for their partial derivatives, each one computes its operator applied to the operands given, and the arrays of the user are left as they are.", "quantifier": "every program of operator calls, every sequence of runs and derivative evaluations of its components, all values", "why_tests_cant": "the tests use each array once and evaluate derivatives last; the sharing shows only in histories", "anchors": ["omtools/core/variable.py:ElementwiseAddition", "omtools/core/variable.py:ElementwiseSubtraction", "omtools/core/variable.py:ElementwiseMultiplication", "omtools/core/variable.py:ElementwiseDivision", "omtools/comps/arithmetic_comps/power_combination_comp.py:PowerCombinationComp.compute_partials"]}
{"id": "C83", "title": "Branches are sorted by their cost", "statement": "compute_dag_cost gives the number of expressions traversed below an expression, ignoring cycles, and terminates; after setup the dependencies of the root and of every expression are sorted by that cost, branches with higher cost first (critical path), or last if reverse_branch_sorting is set, and are executed in that order.", "quantifier": "every expression graph, all set iteration orders, both values of reverse_branch_sorting", "why_tests_cant": "tests only look at values, which do not depend on the order; costs go wrong only with shared expressions, in a way that depends on the order in which they are met", "anchors": ["omtools/core/variable.py:Variable.compute_dag_cost", "omtools/core/variable.py:Variable.sort_dependency_branches", "omtools/core/group.py:Group.setup", "omtools/core/graph.py:topological_sort"]}
{"id": "C84", "title": "Every example class has its own script", "statement": "camel_to_snake puts the words of a name into small letters with underscores between them, and after export_examples every class of a file in examples whose name starts with Example or Error has its own script, named after the file and the remaining words, in examples/valid or examples/invalid.", "quantifier": "every list of source files with any names and any names of classes", "why_tests_cant": "overwritten scripts are still valid scripts, so the tests generated from them pass; collisions depend on pairs of names", "anchors": ["omtools/utils/generate_example_scripts.py:camel_to_snake", "omtools/utils/generate_example_scripts.py:get_example_file_name", "omtools/utils/generate_example_scripts.py:export_examples"]}
{"id": "C85", "title": "A refused call leaves the group as it was", "statement": "A call of register_output, define, define_residual or an indexed assignment that raises leaves the group as it was: the user can catch the exception, make the call properly, and set up the group.", "quantifier": "every history of calls, with expressions or plain data as arguments, every refused call in it, and everything called afterwards", "why_tests_cant": "tests check that a call raises and stop there; what is left behind shows only in what later calls and the setup do", "anchors": ["omtools/core/variable.py:Variable.add_dependency_node", "omtools/core/variable.py:Variable.register_nodes", "omtools/core/explicit_output.py:ExplicitOutput.define", "omtools/core/explicit_output.py:ExplicitOutput.__setitem__", "omtools/core/implicit_output.py:ImplicitOutput.define_residual", "omtools/core/group.py:Group.register_output", "omtools/utils/replace_output_leaf_nodes.py:replace_output_leaf_nodes"]}
{"id": "C86", "title": "An exception in a create_group block reaches the user", "statement": "If the block of `with group.create_group(name)` raises, the user gets that exception, and the group around is as if the block had not been entered.", "quantifier": "every sequence of calls in the block, every exception, every state of the group around it and everything called afterwards", "why_tests_cant": "no test has a block that raises; the masked exception and the unfinished subsystem depend on what was called before", "anchors": ["omtools/core/group.py:Group.create_group", "omtools/core/group.py:Group.add_subsystem", "omtools/core/group.py:_post_setup"]}
{"id": "C87", "title": "The printed table of options shows every option completely", "statement": "`__rst__` and `str` of an OptionsDictionary succeed for every dictionary that `declare` accepts; the table has one row per option in the order of the names, with name, value, acceptable values, types and description complete in aligned columns, and the wrapped text of `str` loses nothing and is not wider than asked for.", "quantifier": "every dictionary of options, every text of names, values and descriptions, every width", "why_tests_cant": "no test prints options; what is lost depends on names, lengths and the width together", "anchors": ["omtools/utils/options_dictionary.py:OptionsDictionary.__rst__", "omtools/utils/options_dictionary.py:OptionsDictionary.__str__", "omtools/utils/options_dictionary.py:OptionsDictionary.declare"]}
{"id": "C88", "title": "A subclass may inherit and extend setup", "statement": "A subclass of a Group class may leave setup out and inherit it, or call super().setup() anywhere in its own setup; the components added and exceptions raised are those of one setup that makes all calls of both in the same order.", "quantifier": "every chain of subclasses, every list of calls before and after super().setup(), every order of sets", "why_tests_cant": "no test derives from a user's group; an output registered after super().setup() is missing without any message", "anchors": ["omtools/core/group.py:_ComponentBuilder", "omtools/core/group.py:_post_setup", "omtools/core/group.py:Group.setup"]}
{"id": "C89", "title": "An implicit component can be set up again", "statement": "When a problem that contains an implicit component is set up again, the setup of the component succeeds as the first time and gives the same variables and partials.", "quantifier": "every implicit component with at least one implicit output, every number of setups, every set iteration order", "why_tests_cant": "depends on the history of setups; tests set every problem up once", "anchors": ["omtools/comps/implicit_component.py:_post_setup", "omtools/comps/implicit_component.py:ImplicitComponent.__init__", "omtools/core/implicit_output.py:ImplicitOutput.define_residual"]}
{"id": "C90", "title": "Example scripts contain everything needed to run the example", "statement": "The script written for an example class has the import statements of its file, the class as it is in the file without the parameters in its docstring, a problem whose model is the class with the options of the docstring (or a group that contains it, for a component), and shows every variable of the docstring, all in the order given; export_examples writes a script for every class.", "quantifier": "every file, every class, every list of variables and options", "why_tests_cant": "all files and docstrings; the scripts are made from the examples at hand, whose imports fit on one line each", "anchors": ["omtools/utils/generate_example_scripts.py:export_examples", "omtools/utils/generate_example_scripts.py:write_setup"]}
{"id": "C91", "title": "Implicit components can be extended by subclasses", "statement": "A subclass of an implicit component may call super().setup() anywhere in its setup and add inputs and outputs of its own: the component has the variables and residuals of both, and its internal problem computes them.", "quantifier": "every class hierarchy, every sequence of calls before and after super().setup(), every set iteration order", "why_tests_cant": "all hierarchies and call sequences; no test derives from a user-defined implicit component", "anchors": ["omtools/comps/implicit_component.py:_post_setup", "omtools/comps/implicit_component.py:_ProblemBuilder", "omtools/comps/implicit_component.py:ImplicitComponent.setup"]}
{"id": "C92", "title": "print_dag shows everything a variable is computed from", "statement": "x.print_dag(depth) prints a line for x and for everything x is computed from along every chain of fewer than depth dependencies (along all chains if depth is negative, the default), indented by the length of the chain, with the shape of each, and says which of them have no dependencies.", "quantifier": "every graph of expressions, every depth, every shape, every recursion limit", "why_tests_cant": "all graphs, depths and shapes; there is no test of the text", "anchors": ["omtools/core/variable.py:Variable.print_dag", "omtools/core/variable.py:ElementwiseAddition.__repr__", "omtools/core/input.py:Input.__repr__", "omtools/core/explicit_output.py:ExplicitOutput.__repr__"]}
{"id": "C93", "title": "Names made by the library are valid names in OpenMDAO", "statement": "If the user gives names made of letters, digits and underscores that start with a letter or underscore, then every component that is not a group is added under a name OpenMDAO accepts for subsystems, and every variable, generated expressions and decompositions included, has a name of the same form; a group keeps the name the user gave.", "quantifier": "every program (history of calls of the API), every number of expressions made before, all names given by the user", "why_tests_cant": "all programs and all numbers; names change form only after millions of expressions", "anchors": ["omtools/utils/gen_hex_name.py:gen_hex_name", "omtools/core/group.py:_post_setup", "omtools/core/variable.py:Variable.__getitem__"]}
{"id": "C94", "title": "An input named as an output of the same group reads that output", "statement": "If a program declares an input under the name of a variable that the same group computes, every component that reads the input uses the value computed in the same run, whatever order Python gives to sets.", "quantifier": "every program, all components and values, every order of sets of objects", "why_tests_cant": "the outcome depends on the addresses of objects; a test sees one order", "anchors": ["omtools/core/group.py:Group.declare_input", "omtools/core/group.py:_post_setup", "omtools/core/graph.py:topological_sort"]}
{"id": "C95", "title": "A loop over a variable visits its entries and ends", "statement": "for e in x, list(x) and y_1, ..., y_n = x visit x[0], ..., x[n-1], where n is the length of the first axis of x, in this order, and end without exception, whatever has been read from x before.", "quantifier": "every variable (all shapes), every history of reads before the loop, every number of names", "why_tests_cant": "all shapes and histories; the protocol Python uses is not visible in the code", "anchors": ["omtools/core/variable.py:Variable.__getitem__"]}
{"id": "C96", "title": "units gives the factor between two units", "statement": "units(unit_to, unit_from) returns the number r such that every magnitude x in unit_from is the magnitude r * x in unit_to, exactly for two known units of the same dimension; otherwise it raises. There and back gives one and conversions in a row multiply.", "quantifier": "every registry of units, every pair of names, all magnitudes", "why_tests_cant": "all units and magnitudes; a test with lengths does not see the degree Celsius", "anchors": ["omtools/utils/units.py:units"]}
{"id": "C97", "title": "Shortened code in the documentation is the code between its marks", "statement": "embed-compare with a start text and an end text shows the lines from the first line with the start text to the first line with the end text from there on, less a common margin of blanks and the argument check=False of prob.setup, and loses no other character.", "quantifier": "every source code, all pairs of texts", "why_tests_cant": "all texts and indentations; pages are looked at, not tested", "anchors": ["docs/_exts/embed_compare.py:EmbedCompareDirective.run"]}

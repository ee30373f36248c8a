# Formal model of omtools: design

Prover: Lean 4.33.0 with Mathlib. Project in `lean/`, build with `lake build`.

## Trusted base

* Lean's kernel. Theorems depend on at most the three standard axioms
  `propext`, `Classical.choice`, `Quot.sound`. No `sorry`, no `native_decide`, no own axioms.
* The model is written by hand from the Python text in /repo (nothing was executed). The comments
  on the definitions cite file and lines. The link between Python and Lean is by reading only.
* Third-party code is modelled, not verified. What is assumed of it:
  * NumPy: row-major order; the documented meaning of `ravel_multi_index`, `unravel_index`, `meshgrid`,
    `delete`, `repeat`, `tile`, `transpose`, `tensordot`, `einsum` (axes of length 1 are broadcast), `cross`,
    `sum`, `average`, `max`, `linalg.norm`, basic slicing (CPython's `PySlice_AdjustIndices`); a list of arrays
    used as index is a tuple (before NumPy 1.23).
  * OpenMDAO: `add_subsystem` refuses a repeated name; `add_input` and `add_output` refuse a repeated name; `add_constraint` does, and the constraints stay when a problem is set up again, while the components added by `setup` methods are discarded;
    variables are connected by their promoted names; the components of a group run once, in the order in which
    they were added (`NonlinearRunOnce`); sparse partials are sums of (row, column, value) triples, dense ones are
    reshaped; `declare_partials` refuses rows beyond the output; an array assigned to a sparse partial has the
    shape of `rows`; a partial declared twice is the one declared last; a value of the same size assigned to an
    output is reshaped, one of size 1 fills it; `compute_totals` solves the linear system stated in C56.
  * pint: a unit is a dimension, a positive factor and an offset over a base unit; `1. * unit` has magnitude one, also for units
    with an offset; `to` keeps the meaning and refuses other dimensions (C96 only).
  * CPython: `list(set(xs))` (see below), the recursion limit, exceptions leave earlier effects in place.

### Simplifications common to all modules

* Floating point numbers are real numbers. Overflow, rounding and complex step are not modelled.
* Python exceptions are values of an `Except`-like type; error messages are not modelled, their class is.
* Python objects are natural-number references into a heap; `is` is equality of references.
* `list(set(xs))` is an arbitrary permutation of the duplicate-free content of `xs`
  (an oracle argument, `SetOrder`). Python's real choice is one such permutation, so theorems for every oracle hold
  for it. For sets of integers (graph.py 25), where the order matters, `Model/PySet.lean` models CPython's hash
  table exactly (insertion, probing, growth); it is proved to be such a permutation for all lists, in ascending order if
  the numbers are below the size of the table, and theorems say which orders they need (`OrderOk`).
* The recursion limit is an argument ("fuel"); running out of it is `RecursionError`.
* A history of API calls is a list; exceptions are caught by the user, who goes on.

Each model file lists its own further simplifications at the top.

## Layout

`Verif/Model/*.lean` models of the code, each definition citing its source lines.
`Verif/Spec/*.lean` small independent specifications used in theorem statements.
`Verif/Lemmas/*.lean` helper lemmas.
`Verif/Props/*.lean` the property theorems `cNN_...` with an example beside each that meets its hypotheses.

| source | model |
|--------|-------|
| `core/graph.py`, `core/variable.py` (dependencies) | `Graph`, `PySet` |
| `core/group.py` `_post_setup`, `setup` | `Setup`, `Group`, `DesignVars` |
| `core/group.py` API, `explicit_output.py`, `implicit_output.py`, `indep.py`, `input.py`, `subsystem.py` | `Group`, `Implicit` |
| `utils/replace_output_leaf_nodes.py` | `Replace` |
| `utils/gen_hex_name.py` | `Names` |
| `utils/slice_to_list.py`, `Variable.__getitem__`, `ExplicitOutput.__setitem__`, `comps/decompose_comp.py`, `comps/indexed_pass_through_comp.py` | `Slice`, `Numpy`, `Indexing`, `Keys` |
| operators in `core/variable.py`, `comps/linearcombination_comp.py`, `comps/arithmetic_comps/power_combination_comp.py`, `comps/array_explicit_component.py`, `utils/process_options.py` | `Arith`, `Operators` |
| the 18 elementwise functions | `Unary` |
| `std/{max,min,pnorm}.py` and components | `Extremum` |
| `std/{sum,average}.py` and components | `Reduce` |
| `std/{matmat,matvec,outer,inner,dot}.py` and components | `Product` |
| `std/cross.py`, `std/rotmat.py` and components | `Cross`, `Rotmat` |
| `std/{expand,reorder_axes,transpose,reshape}.py` and components, `utils/decompose_shape_tuple.py`, `utils/reorder_axes_utils.py` | `Axes` |
| `std/{einsum,einsum_new_api}.py`, `utils/einsum_utils.py` and components | `Einsum` |
| `std/if_else.py`, `comps/pass_through_comp.py` | `IfElse` |
| `comps/conditional_component.py` up to its exception | `Conditional` |
| `comps/implicit_component.py`, `utils/collect_input_exprs.py` | `Implicit`, `ImplRun`, `ImplVars`, `Collect`, `ImplProgram` |
| `utils/options_dictionary.py` | `Options` |
| `utils/get_shape_val.py`, `utils/structure_data.py` | `Data` |
| what the `build` functions of `std/*.py` and `core/variable.py` hand to `add_input` | `Operands` |
| names read and written by each object's component (the `build` functions) | `Wiring` |
| `Group.add_subsystem`, end of `_post_setup`: promotions | `Promotes`, `PromotesAs` |
| execution of the built group (OpenMDAO) | `Exec`, `Nested`, `Solvers` |
| programs of calls with shapes, compiled to the components of the other files | `Compile` |
| array constants of products and of constants as objects (NumPy aliasing) | `Aliased` |
| `utils/generate_example_scripts.py`: names of scripts | `Examples` |
| `utils/generate_example_scripts.py`: content of scripts | `Scripts` |
| `Variable.print_dag`, shapes in `__repr__` | `PrintDag` |
| loops over variables (`Variable.__getitem__` without `__iter__`) | `Iterate` |
| `utils/units.py` | `Units` |
| `docs/_exts/embed_compare.py` | `EmbedCompare` |
| the exceptions as values | `Err` |

`Verif/Props/RepoTests.lean` runs the model on the repository's own invalid examples (`omtools/examples/invalid`, with the
exceptions that `omtools/tests` expects) and on its indexing examples. These are checks of the model, not proofs.

## How each property is proved, and what came out

"Violated" means that the negation is proved, for a witness or for whole families of inputs; the theorem with suffix
`_partial` says what holds. `MANIFEST.json` names the theorems.

| id | model and proof | result |
|----|-----------------|--------|
| C01-C03 | `topological_sort` as a small-step machine on (stack, visit counters, output); invariant: pushed-but-unpopped copies + visits = number of expanded dependents; termination by a bounded measure. Histories of calls: `Op.Links` says which objects a call builds from which, and is proved to be what the calls record | proved if CPython's order of integer sets is good for the dependencies of each expression (`OrderOk`: at most two dependencies and any number of independent variables, or at most eight of both, …; see C05). Every node holds all or none of the independent variables throughout the clean-up, so the set of removed positions is small or as large as their number |
| C04 | `remove_indirect_dependencies` with the deletion order as oracle; every removed edge has a bypass; well-founded induction | proved |
| C05 | as C04, with CPython's order of integer sets | violated for an expression with ten dependencies, and with CPython's order for every expression with two redundant dependencies at positions `j < i` with `i % 8 < j % 8` and a dependency after `i` that nothing else needs; holds for ascending orders |
| C06 | `_post_setup` pipeline; indep edges exist before clean-up; C04 keeps reachability | proved |
| C07-C10, C24 | Group API as operations on a heap; invariants by induction on histories | proved |
| C11 | visit counters kept between runs | violated: a second setup builds nothing |
| C12, C13, C56 | component list executed on an environment name -> value; induction on the order given by C01; chain rule. Programs of API calls (`Props/Program`): the values satisfy every equation the user wrote | proved |
| C14 | as C07 | violated (self-assignment by index, feedback by index); otherwise acyclic |
| C15 | `gen_hex_name`; positional numerals | violated beyond 62*63^4 names, exact description of collisions |
| C16 | `slice_to_list` against a specification of Python slices | never wrong; some slices refused |
| C17, C18, C21, C23 | `ExplicitOutput` state machine, IndexedPassThroughComp; invariants over histories | violated in corners (refused overlaps take effect and block positions, negative ints, keys that cannot be read back, assignment after define); what every history does is described exactly (`c17_exact`, `c18_exact`); the rest proved |
| C19, C20, C22 | `__getitem__` state machine, DecomposeComp; ravel/unravel inverse laws | C20 proved; C19 violated for computed expressions; C22 violated if the first use fails |
| C25 | name-collision check of `register_nodes` | violated: the documented error is never raised; OpenMDAO notices equal component names |
| C26-C29, C54 | components and the operators choosing their options; `HasFDerivAt`; mutation as component state | C27 proved; C26 except arrays on the left; C28, C29, C54 violated, with what holds |
| C30 | 18 unary components; `HasDerivAt` | formulas proved; violated for arcsin and sech of rank two or more |
| C31-C34 | log-sum-exp inequalities; `rpow` calculus; cached values as component state | proved, except C33: derivatives belong to the last evaluation |
| C35-C43 | row/column/value triples computed as the code does; index arithmetic on ravel/unravel, repeat, tile | proved, except averages over several axes, negative axes of inner and cross (refused, or accepted with a wrong Jacobian), permuted letters of expand (violated) |
| C44-C46 | einsum on assignments of labels; multilinearity, product rule; renaming of labels | proved with an arrow; violated without, and if the first axis with a label is broadcast; derivatives violated in four corners and always without an arrow, proved otherwise |
| C47 | conditional component | value proved for one entry; partials violated |
| C48, C49, C61 | ImplicitComponent: bisection invariant; dictionaries of brackets; linear solve | proved for uncoupled single outputs; violated otherwise |
| C50 | OptionsDictionary; invariant over histories | reads proved; invalid defaults are readable |
| C51 | get_shape_val | proved |
| C52 | replace_output_leaf_nodes with list mutation during iteration | proved |
| C53, C62 | collect_input_exprs and the interface of implicit components | proved where setup succeeds; violated for shared inputs, inputs after subsystems, coupled outputs |
| C55 | structure_data | violated for two or more inputs |
| C57, C58 | number of calls, depth of recursion | violated (exponential work, RecursionError for long chains) |
| C59 | create_group | proved |
| C60 | PassThroughComp | proved for equal shapes; shape of the declaration is ignored (violated) |
| C63 | define_residual | violated: an element is skipped while the list changes; exact description of what is replaced |
| C64 | names captured by `build` functions, over all orders of calls | violated: indexed assignment keeps the name its operand had; everything else uses the registered name (proved) |
| C65 | arguments of `exp` and `log` in the smooth extrema | proved |
| C66, C67 | what `build` tells components about operands (`Operands`): shape, initial value, kind of integer | violated: the value of an expanded scalar is lost; inner, dot, matmat and if_else depend on how an operand was made; otherwise proved |
| C68 | names and promotions handed to OpenMDAO | violated for components: everything is promoted, under its own name; proved for groups, also with pairs |
| C69 | `Compile`: a program of calls becomes components (those of C17-C19 and C26-C45), which run in the order of C01-C06 and may raise; `Spec/Term` says by multi-index what a call means; induction on the order of execution | proved |
| C70 | `Nested`: a tree of groups, run one inside the other, names accumulated from the promotions; flattening the tree to one list of components, renaming of components | proved |
| C71 | `LinPow`: floats as real or not finite; sum of the derivatives of C27's products | values proved; partials violated where a variable is zero and a term lacks it (nan), for array coefficients, and for a name given as a string; proved otherwise |
| C72 | projection of `topological_sort` to a part of the graph closed under dependents; invariant of the counters left by earlier setups, induction over sessions of setups | violated: whenever a block and the group around it share an expression, it or one that depends on it is built in both, and the order in the surrounding group may be wrong; which expressions are built where is proved exactly (flow of visits through the loop of `topological_sort`); proved for groups that share nothing but inputs, further setups included |
| C73 | recursive evaluation does not depend on what is not given; total derivatives of the internal problem at the point where it was run last; width of the bracket halves | residuals proved; violated by `linearize`, which does not run the internal problem: intermediate values are those of the last run; proved exactly when this does harm for compositions of two functions, and that it does none if no partial depends on an intermediate value |
| C74 | components read operands by name, so a run that changes nothing makes every component's equation true, in whatever order they run; during a run a variable has its old or its new value, so limits of repeated runs are such values | proved; `c74_solves` is an equivalence |
| C75 | simulation: the group of the component and that of the program in which implicit outputs are declared inputs and residuals are registered outputs have the same objects, operands, names and components; C69's results for parts of programs and C73's for histories of calls apply; with subsystems, C70's results for the explicit group with the same subsystems apply, with feedback inside C78's | residuals proved; Jacobian and solution as far as C73, C48 and C49 allow |
| C76 | the loop keeps the names of components and design variables as functions of the expressions seen; a design variable's name is part of its component's name, so it is never refused; independent variables keep their names because they are outputs from the start | proved |
| C77 | case analysis of `setup` | violated: `set(a, b, c)` raises `TypeError`, the component can never be set up; the refusals are right |
| C78 | a pass that changes nothing changes nothing in between, because every name has one owner; so the arrays at which a run ends are left alone by every component, by induction over the nesting; these are the solutions (C74's argument for every group) | proved |
| C79 | the declarations of all residuals, with OpenMDAO's rule for shapes and values (C66) | violated: outputs get the shape and value of the residual; inputs proved |
| C80 | all keys with `...`, `None` and objects that are no index beside integers and slices | violated: such items of a tuple are skipped when reading; assignments and single objects proved |
| C81 | operators with operands of any kind on both sides; in a group, all calls before and after | violated: any object is accepted on the right and any expression as exponent, and the result is never computed; supported operands and other objects on the left proved |
| C82 | array constants as objects shared by components and the user (`Model/Aliased.lean`) | violated: evaluating derivatives of a product with an array changes other components; described exactly; proved without such products |
| C83 | costs threaded through the traversal; in trees the traversed parts are disjoint, and the loop of `topological_sort` is a preorder | violated: cheap branches first, outputs unsorted, shared expressions counted again and again; proved for trees with the order reversed |
| C84 | the two regular expressions as recursive functions (compared with Python's `re` on all strings of up to seven characters over five letters outside Lean); words joined with and without underscores as an inductive relation between the two passes | violated for names that differ in capital letters only or are divided differently between file and class; proved for names made of words |
| C85 | histories with objects that are not expressions: invariant (such objects stay in the lists of created outputs, created outputs stay registered, what is defined stays so) kept by every call, refused or not; soundness of the registration of nodes; simultaneous induction that the search for the output raises when it meets such an object; without such objects the calls are those of `step` | violated by indexed assignments and by `define` and `define_residual` past their first checks, with what is left behind stated for all later calls; proved for all other refusals |
| C86 | the block as calls up to the first that raises, then the setup of `finally`; from the exact behaviour of the setup (C02, C10) | violated when an output is created and not defined, and the unfinished group stays; exact characterisation of what is raised |
| C87 | texts as lists of characters; widths as a running maximum, cells read back from the columns, wrapping undone by joining lines without their indentation | violated for sets of types and for names starting with `===`; complete otherwise |
| C88 | a tree of `setup` methods run over the state of the group; the root counts as visited after the first sort, so later sorts are empty | violated: calls after `super().setup()` are ignored, missing `setup` raises; holds with `super().setup()` last |
| C89 | state of the component over setups; outputs of the group stay outputs under their names through every history of calls and sorts | violated for every component with an output: the second setup raises; the first is that of C53 |
| C90 | the two substitutions as functions on lines (compared with Python's `re` on 300000 random texts outside Lean); properties of lines as existence of parts | violated for imports over several lines, code that looks like a docstring, and classes that are no systems; exact for imports |
| C91 | class hierarchies as in C88, component as in C89; outputs and residuals of the component as an invariant | violated for every class that calls `super().setup()`: raises, or leaves an empty internal problem |
| C92 | lines as values; ends of paths by recursion on their length; number of closing parentheses | lines exact for every graph and depth; violated for shapes of arithmetic expressions of rank other than one, and for long chains and cycles |
| C93 | form of all names, invariant over histories of calls; leading digit in base 63 | components proved; variables violated after 63^4 expressions, exact description. That OpenMDAO accepts `[a-zA-Z][a-zA-Z0-9_]*` for subsystems is its documented rule |
| C94 | what a component reads in a given order, exactly; one program, two orders of sets | violated: the order of sets of objects decides between the value of this run and the one before |
| C95 | Python's protocol for objects with `__getitem__` only (calls until `IndexError`), over the model of reads; induction on the entries left | violated for every variable with entries, exact |
| C96 | pint's units as factor and offset over a base unit; algebra | violated for units with different offsets, exact |
| C97 | lines as lists of characters; induction on the first line and on the text searched | violated by lines that begin left of the first one, exact |

C69 puts the parts together. Its simplifications: errors that a component raises in its `setup` are raised by the call
that makes the expression; operands of a sum, and an output and the expression defining it, have equal shapes (see C35,
C60 for what happens otherwise); a component whose partials use stored values is run before its partials are asked for
(C33); the arrays of inputs and independent variables are given from outside; no array of a program has entries beyond
its size; an expression assigned to a part of an output is registered, if at all, before that (C64). Parts that are read
go through the one `DecomposeComp` of their variable, which has one output per part. `Term.Defined` lists the points and uses for which single functions are right; outside them see C27-C47. `Solves` has the equations of the components in the list it is given; that all outputs are in the list of
`setup` is `c74_outputs`.

C70 adds subsystems. A group has its own objects: a group filled in a `with self.create_group(…)` block that uses objects
of the group around it is left out, as is promotion under another name. OpenMDAO connects variables of the same promoted
name; in the model the components of all groups share one store, in which a variable has the name that it has at the top.

## Wrong programs

`seeded/LOG.jsonl` has one line for each wrong program tried: the definition edited, the edit, the claim, the theorems
whose proof broke. "Failed" lists the declarations that no longer compile; "claims_lost" lists the theorems of
`MANIFEST.json` that are one of them or rest on one of them. A theorem that rests on a broken lemma is not thereby shown
to be false of the wrong program; where the English claim is false of the program and no theorem *states* it strongly
enough, the theorem was tightened, and the log says so.

## Not modelled

* `docs/` except `_exts/embed_compare.py` 81-111 (C97), the examples and tests.
* `comps/conditional_component.py` after line 76: its `setup` always raises before (C77), so `compute` and
  `compute_partials` are never called.
* Initial values of variables (`val` handed to components), except in C51, C66, C67 and C79; `sum` over all axes given explicitly.
* OpenMDAO's solvers other than the run-once default and the iterations of C78; discrete variables; units; MPI.

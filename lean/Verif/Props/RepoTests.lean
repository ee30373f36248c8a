import Verif.Model.Indexing
import Verif.Model.Group
import Verif.Model.Axes
import Verif.Model.Cross
import Verif.Model.Product
import Verif.Model.Extremum

/-!
# The model against the repository's own tests

The programs in `omtools/examples/invalid` and what `omtools/tests` expects of them, and the indexing
programs in `omtools/examples/valid`. These are checks of the model, not proofs of properties: they show
that the definitions the theorems speak about give the outcome that the authors of the code expect.
(`ex_expand_scalar_incorrect_order` is left out: it passes the arguments in the wrong order, and the
types of the model do not allow that.)
-/

namespace OM.RepoTests

open OM

/-- A history of assignments as a program: it stops at the first exception. -/
def run (v : OVar) : List Assign → Except PyErr OVar
  | [] => .ok v
  | a :: as =>
    match setItemIdx v a.1 a.2.1 a.2.2 with
    | (v, none) => run v as
    | (_, some e) => .error e

def all : KeyItem := .slice none none none
def upto (b : Int) : KeyItem := .slice none (some b) none
def since (a : Int) : KeyItem := .slice (some a) none none
def span (a b : Int) : KeyItem := .slice (some a) (some b) none

/-! ## tests/test_indices.py -/

-- ex_indices_integer_overlap
example : run (.new [2]) [(.one (.int 0), "a", [1]), (.one (.int 0), "b", [1])] = .error .valueError := by
  decide

-- ex_indices_integer_out_of_range
example : run (.new [1]) [(.one (.int 1), "a", [1])] = .error .valueError := by decide

-- ex_indices_integer
example : (run (.new [7]) [(.one (.int 0), "a", [1]), (.one (.int 1), "b", [1]), (.one (.int 2), "c", [1]),
    (.one (.int 3), "d", [1]), (.one (.int 4), "e", [1]), (.one (.int 5), "f", [1]),
    (.one (.int 6), "g", [1])]).map (·.tgt) =
    .ok [("a", [1], [0]), ("b", [1], [1]), ("c", [1], [2]), ("d", [1], [3]), ("e", [1], [4]),
      ("f", [1], [5]), ("g", [1], [6])] := by decide

/-- The value of the output of a program of assignments, from an output that holds ones: the first
`size` entries, if `compute` does not raise. -/
def value (v : OVar) (as : List Assign) (x : String → Nat → Int) : Except PyErr (List Int) :=
  match run v as with
  | .error e => .error e
  | .ok v =>
    match indexedPassThrough v.tgt x (fun _ => 1) with
    | .error e => .error e
    | .ok y => .ok ((List.range (prodShape v.shape)).map y)

-- the two reads of `x`: `x[0]` and `x[6]`
example : (getItem (.new [7] [7]) (.one (.int 0))).2.map (fun e => (e.shape, e.src)) = .ok ([1], [0]) := by
  decide
example : (getItem (getItem (.new [7] [7]) (.one (.int 0))).1 (.one (.int 6))).2.map
    (fun e => (e.shape, e.src)) = .ok ([1], [6]) := by decide

-- ex_indices_integer_reuse: `x[0]` read twice is one expression, so it has one name
example : (getItem (getItem (.new [2] [2]) (.one (.int 0))).1 (.one (.int 0))).2 =
    (getItem (.new [2] [2]) (.one (.int 0))).2 := by decide
example : run (.new [2]) [(.one (.int 0), "x0", [1]), (.one (.int 1), "x0", [1])] = .error .keyError := by
  decide

-- ex_indices_one_dimensional_reuse
example : (getItem (getItem (.new [8] [8]) (.one (upto 4))).1 (.one (upto 4))).2 =
    (getItem (.new [8] [8]) (.one (upto 4))).2 := by decide
example : run (.new [8]) [(.one (upto 4), "u4", [4]), (.one (since 4), "u4", [4])] = .error .keyError := by
  decide

-- ex_indices_one_dimensional_overlap
example : run (.new [20]) [(.one (span 0 16), "p", [16]), (.one (span 15 19), "q", [4])] =
    .error .valueError := by decide

-- ex_indices_one_dimensional_out_of_range
example : run (.new [20]) [(.one (span 0 16), "p", [16]), (.one (span 17 21), "q", [4])] =
    .error .valueError := by decide

-- ex_indices_one_dimensional: `y`, with `v = arange(16)` and `w = 16 + arange(4)`
example : value (.new [20]) [(.one (span 0 16), "p", [16]), (.one (span 16 20), "q", [4])]
    (fun n i => if n = "p" then 2 * (i + 1) else 16 + i - 3) =
    .ok ((List.range 16).map (fun i => 2 * ((i : Int) + 1)) ++ (List.range 4).map (fun i => 16 + (i : Int) - 3)) := by
  decide
-- and the reads `x[0:5]`, `x[3:]`, `x[2:4]`
example : (getItem (.new [20] [20]) (.one (span 0 5))).2.map (fun e => (e.shape, e.src)) =
    .ok ([5], [0, 1, 2, 3, 4]) := by decide
example : (getItem (.new [20] [20]) (.one (since 3))).2.map (fun e => (e.shape, e.src)) =
    .ok ([17], (List.range 17).map (3 + ·)) := by decide
example : (getItem (.new [20] [20]) (.one (span 2 4))).2.map (fun e => (e.shape, e.src)) =
    .ok ([2], [2, 3]) := by decide

-- ex_indices_multidimensional_overlap
example : run (.new [2, 3]) [(.tuple [span 0 2, span 0 3], "z", [2, 3]),
    (.tuple [span 0 2, span 0 3], "z", [2, 3])] = .error .keyError := by decide

-- ex_indices_multidimensional_out_of_range
example : run (.new [2, 3]) [(.tuple [span 0 3, span 0 3], "z", [2, 3])] = .error .valueError := by decide

-- ex_indices_multidimensional: `x`, `q`, `r` (of shape (1, 2, 3), as the test says), `s`, `t`
example : value (.new [2, 3]) [(.tuple [span 0 2, span 0 3], "z", [2, 3])] (fun _ i => i) =
    .ok [0, 1, 2, 3, 4, 5] := by decide
example : value (.new [5, 2, 3]) [(.tuple [span 0 5, span 0 2, span 0 3], "p", [5, 2, 3])] (fun _ i => i) =
    .ok ((List.range 30).map Int.ofNat) := by decide +kernel
example : (getItem (.new [5, 2, 3] [5, 2, 3]) (.tuple [.int 0, all, all])).2.map
    (fun e => (e.shape, e.src)) = .ok ([1, 2, 3], [0, 1, 2, 3, 4, 5]) := by decide
example : value (.new [2, 20]) [(.tuple [.int 0, all], "vec", [1, 20]), (.tuple [.int 1, all], "d", [1, 20])]
    (fun n i => if n = "vec" then i else 2 * i) =
    .ok ((List.range 20).map Int.ofNat ++ (List.range 20).map fun i => 2 * Int.ofNat i) := by decide +kernel
-- `t[0:5, 0:-1, 0:3] = p`: the last row of each block keeps OpenMDAO's default value 1, although `val=0`
-- was given; the test expects this too
example : value (.new [5, 3, 3]) [(.tuple [span 0 5, span 0 (-1), span 0 3], "p", [5, 2, 3])] (fun _ i => i) =
    .ok ((List.range 5).flatMap fun b => (List.range 6).map (fun i => 6 * Int.ofNat b + Int.ofNat i) ++
      [1, 1, 1]) := by decide +kernel

/-! ## tests/test_general.py -/

-- ex_general_register_input
example (env : GEnv) (w : World) (x : Ref) (h : w.kind x = .input) :
    (w.register env "a" x).2 = some .typeError := by simp [World.register, h]

/-! ## tests/test_expand.py -/

-- ex_expand_array_no_indices
example : (stdExpand "x" [2, 3] [2, 4, 3, 1] none).toOption = none ∧
    ∃ e, stdExpand "x" [2, 3] [2, 4, 3, 1] none = .error e ∧ e = .valueError := ⟨rfl, _, rfl, rfl⟩

-- ex_expand_array_invalid_indices1
example : stdExpand "x" [2, 3] [2, 4, 3, 1] (some ['i', 'j', '-', '>', 'i', 'a', 'j']) =
    .error .valueError := by rfl

-- ex_expand_array_invalid_indices2
example : stdExpand "x" [2, 3] [2, 4, 3, 1] (some ['i', 'j', '-', '>', 'i', 'j', 'a', 'b']) =
    .error .valueError := by rfl

-- ex_expand_array2array
example : (stdExpand "x" [2, 3] [2, 4, 3, 1] (some ['i', 'j', '-', '>', 'i', 'a', 'j', 'b'])).map
    (·.expandIndices) = .ok [1, 3] := by rfl

/-! ## tests/test_cross.py, test_dot.py, test_matmat.py, test_matvec.py: "raises `Exception`" -/

-- ex_cross_different_shapes, ex_cross_incorrect_axis_index
example : (stdCross "x" [2, 5, 4, 3] "y" [7, 5, 6, 3] 3).toOption = none := rfl
example : (stdCross "x" [2, 5, 4, 3] "y" [2, 5, 4, 3] 2).toOption = none := rfl
-- ex_cross_tensor_tensor
example : (stdCross "x" [2, 5, 4, 3] "y" [2, 5, 4, 3] 3).toOption.isSome := rfl

-- ex_dot_vec_different_shapes, ex_dot_ten_different_shapes, ex_dot_wrong_axis
example : (stdDot "x" [3] "y" [4] none).toOption = none := rfl
example : (stdDot "x" [3, 4, 5] "y" [4, 4, 3] (some 0)).toOption = none := rfl
example : (stdDot "x" [3, 4, 5] "y" [3, 4, 5] (some 1)).toOption = none := rfl
-- ex_dot_vector_vector, ex_dot_tensor_tensor_first, ex_dot_tensor_tensor_last
example : (stdDot "x" [3] "y" [3] none).toOption.isSome := rfl
example : (stdDot "x" [3, 4, 5] "y" [3, 4, 5] (some 0)).toOption.isSome := rfl
example : (stdDot "x" [2, 4, 3] "y" [2, 4, 3] (some 2)).toOption.isSome := rfl

-- ex_matmat_matrix_matrix_incompatible_shapes, ex_matvec_matrix_vector_incompatible_shapes
example : (stdMatmat "x" [3, 2] "y" [4, 4]).toOption = none := rfl
example : (stdMatvec "x" [3, 4] "y" [3]).toOption = none := rfl

/-! ## tests/test_max.py, test_min.py, test_pnorm.py: "raises `Exception`" -/

-- ex_max_inputs_not_same_size, ex_min_inputs_not_same_size
example (lower : Bool) (rho : ℝ) :
    stdExtremum lower [("m", [2, 2]), ("n", [2, 3])] none rho = .error .exception := by simp [stdExtremum]
-- ex_max_multi_inputs_and_axis, ex_min_multi_inputs_and_axis
example (lower : Bool) (rho : ℝ) :
    stdExtremum lower [("m", [2, 3]), ("n", [2, 3])] (some 0) rho = .error .exception := rfl
-- ex_pnorm_type_not_even, ex_pnorm_type_not_positive
example : stdPnorm "x" [3] 3 none = .error .exception := by simp [stdPnorm]
example : stdPnorm "x" [3] (-2) none = .error .exception := by simp [stdPnorm]

end OM.RepoTests

import Verif.Lemmas.Arith
import Verif.Lemmas.Axes
import Verif.Lemmas.AxisNames
import Verif.Lemmas.Build
import Verif.Lemmas.Built
import Verif.Lemmas.Component
import Verif.Lemmas.Edges
import Verif.Lemmas.Einsum
import Verif.Lemmas.EinsumExact
import Verif.Lemmas.EinsumRename
import Verif.Lemmas.Exec
import Verif.Lemmas.Extremum
import Verif.Lemmas.Finite
import Verif.Lemmas.Flat
import Verif.Lemmas.Gather
import Verif.Lemmas.Getitem
import Verif.Lemmas.Group
import Verif.Lemmas.History
import Verif.Lemmas.ImplProgram
import Verif.Lemmas.ImplSetup
import Verif.Lemmas.Indexing
import Verif.Lemmas.Items
import Verif.Lemmas.Jacobian
import Verif.Lemmas.Layout
import Verif.Lemmas.Loop
import Verif.Lemmas.Multilinear
import Verif.Lemmas.Names
import Verif.Lemmas.Pipeline
import Verif.Lemmas.PySet
import Verif.Lemmas.Reduce
import Verif.Lemmas.Refused
import Verif.Lemmas.RefusedRun
import Verif.Lemmas.Rename
import Verif.Lemmas.Replace
import Verif.Lemmas.ReplaceVisits
import Verif.Lemmas.Resetup
import Verif.Lemmas.Runs
import Verif.Lemmas.Setitem
import Verif.Lemmas.Setup
import Verif.Lemmas.Shape
import Verif.Lemmas.Shared
import Verif.Lemmas.SharedCount
import Verif.Lemmas.Subscripts
import Verif.Lemmas.Tensordot
import Verif.Lemmas.Topo
import Verif.Lemmas.Wiring
import Verif.Model.Aliased
import Verif.Model.Arith
import Verif.Model.Axes
import Verif.Model.Collect
import Verif.Model.Compile
import Verif.Model.Conditional
import Verif.Model.Cross
import Verif.Model.Data
import Verif.Model.DesignVars
import Verif.Model.Einsum
import Verif.Model.EmbedCompare
import Verif.Model.Err
import Verif.Model.Examples
import Verif.Model.Exec
import Verif.Model.Extremum
import Verif.Model.Graph
import Verif.Model.Group
import Verif.Model.GroupBlock
import Verif.Model.IfElse
import Verif.Model.ImplAgain
import Verif.Model.ImplInherit
import Verif.Model.ImplProgram
import Verif.Model.ImplRun
import Verif.Model.ImplVars
import Verif.Model.Implicit
import Verif.Model.Indexing
import Verif.Model.Inherit
import Verif.Model.Iterate
import Verif.Model.Keys
import Verif.Model.LinPow
import Verif.Model.Names
import Verif.Model.Nested
import Verif.Model.Numpy
import Verif.Model.Operands
import Verif.Model.Operators
import Verif.Model.Options
import Verif.Model.OptionsTable
import Verif.Model.PrintDag
import Verif.Model.Product
import Verif.Model.Promotes
import Verif.Model.PromotesAs
import Verif.Model.PySet
import Verif.Model.Reduce
import Verif.Model.Refused
import Verif.Model.Replace
import Verif.Model.Rotmat
import Verif.Model.Scripts
import Verif.Model.Setup
import Verif.Model.Slice
import Verif.Model.Solvers
import Verif.Model.Unary
import Verif.Model.Units
import Verif.Model.Wiring
import Verif.Props.Aliased
import Verif.Props.Arith
import Verif.Props.Axes
import Verif.Props.AxesExact
import Verif.Props.Branches
import Verif.Props.Collect
import Verif.Props.Compiled
import Verif.Props.CompiledPrograms
import Verif.Props.CompiledRun
import Verif.Props.Conditional
import Verif.Props.Cross
import Verif.Props.Data
import Verif.Props.Define
import Verif.Props.DesignVars
import Verif.Props.Einsum
import Verif.Props.EinsumAccept
import Verif.Props.EinsumDerivs
import Verif.Props.EinsumNew
import Verif.Props.EinsumNoArrow
import Verif.Props.EinsumSparse
import Verif.Props.EmbedCompare
import Verif.Props.Examples
import Verif.Props.Exceptions
import Verif.Props.Exec
import Verif.Props.Extremum
import Verif.Props.Feedback
import Verif.Props.Getitem
import Verif.Props.Group
import Verif.Props.GroupApi
import Verif.Props.GroupBlock
import Verif.Props.IfElse
import Verif.Props.ImplAgain
import Verif.Props.ImplInherit
import Verif.Props.ImplLinear
import Verif.Props.ImplProgram
import Verif.Props.ImplRun
import Verif.Props.ImplSolvers
import Verif.Props.ImplSolversProgram
import Verif.Props.ImplSystem
import Verif.Props.ImplSystemProgram
import Verif.Props.ImplTotals
import Verif.Props.ImplVars
import Verif.Props.Implicit
import Verif.Props.Inherit
import Verif.Props.Inner
import Verif.Props.InnerExact
import Verif.Props.IntSets
import Verif.Props.Iterate
import Verif.Props.Keys
import Verif.Props.LayoutPlain
import Verif.Props.LinPow
import Verif.Props.Names
import Verif.Props.Nested
import Verif.Props.NestedPrograms
import Verif.Props.OperandValues
import Verif.Props.Operands
import Verif.Props.Operators
import Verif.Props.Options
import Verif.Props.OptionsTable
import Verif.Props.Order
import Verif.Props.Overflow
import Verif.Props.Passes
import Verif.Props.Pnorm
import Verif.Props.PrintDag
import Verif.Props.Product
import Verif.Props.Program
import Verif.Props.ProgramTotals
import Verif.Props.Promotes
import Verif.Props.PromotesAs
import Verif.Props.Reduce
import Verif.Props.Refusals
import Verif.Props.Refused
import Verif.Props.RepoTests
import Verif.Props.Residual
import Verif.Props.Rotmat
import Verif.Props.Scripts
import Verif.Props.Setitem
import Verif.Props.SetitemExact
import Verif.Props.Shared
import Verif.Props.SharedAgain
import Verif.Props.SharedExact
import Verif.Props.SharedName
import Verif.Props.Slice
import Verif.Props.Solvers
import Verif.Props.SolversProgram
import Verif.Props.Terms
import Verif.Props.TermsAccepted
import Verif.Props.TermsArray
import Verif.Props.TermsAxes
import Verif.Props.TermsEinsum
import Verif.Props.TermsIndex
import Verif.Props.Totals
import Verif.Props.Unary
import Verif.Props.Units
import Verif.Props.ValidNames
import Verif.Props.Work
import Verif.Spec.Component
import Verif.Spec.Eval
import Verif.Spec.Extremum
import Verif.Spec.Graph
import Verif.Spec.Index
import Verif.Spec.Jacobian
import Verif.Spec.Options
import Verif.Spec.Reduce
import Verif.Spec.Slice
import Verif.Spec.Term

import Verif.Spec.Tree
import Verif.Spec.Cursor
import Verif.Spec.Nav
import Verif.Model.Core
import Verif.Model.Nav
import Verif.Model.Policy
import Verif.Proof.Tree
import Verif.Proof.Nav
import Verif.Proof.PreOrder
import Verif.Proof.Cursor
import Verif.Proof.PrePost
import Verif.Proof.Rows
import Verif.Proof.RowNav
import Verif.Proof.Bfs
import Verif.Spec.BNav
import Verif.Proof.InOrder
import Verif.Proof.Leaves
import Verif.Model.NaryNode
import Verif.Model.BinaryNode
import Verif.Spec.Repr
import Verif.Proof.Heap
import Verif.Proof.NaryRepr
import Verif.Proof.NaryNav
import Verif.Proof.NaryDealloc
import Verif.Proof.NaryReplace
import Verif.Proof.NaryEdit
import Verif.Proof.NaryChild
import Verif.Proof.NaryBuild
import Verif.Spec.Lit
import Verif.Model.Lit
import Verif.Proof.BinRepr
import Verif.Proof.BinOps
import Verif.Proof.BinEdit
import Verif.Proof.BinQuery
import Verif.Proof.Convert
import Verif.Model.Filter
import Verif.Model.FilterObj
import Verif.Spec.Laws
import Verif.Spec.FilterCursor
import Verif.Proof.Laws
import Verif.Proof.Filter
import Verif.Proof.FilterObj
import Verif.Proof.PredNav
import Verif.Props.Samples
import Verif.Props.Iteration
import Verif.Props.Navigation
import Verif.Props.Filter
import Verif.Model.Tree
import Verif.Spec.World
import Verif.Proof.Lawful
import Verif.Proof.LawfulBin
import Verif.Proof.Own
import Verif.Proof.Update
import Verif.Proof.TreeOps
import Verif.Proof.Erase
import Verif.Spec.History
import Verif.Spec.Tally
import Verif.Proof.WorldOps
import Verif.Proof.WorldInsert
import Verif.Proof.Caches
import Verif.Proof.Steps
import Verif.Proof.Unique
import Verif.Proof.History
import Verif.Proof.Tally
import Verif.Proof.Example
import Verif.Props.SampleWorlds
import Verif.Props.Ownership
import Verif.Props.Counts
import Verif.Props.Tally
import Verif.Spec.Prune
import Verif.Proof.EraseRange
import Verif.Proof.Prune
import Verif.Proof.Edits
import Verif.Proof.Frame
import Verif.Proof.Returned
import Verif.Proof.NaryDefect
import Verif.Props.Editing
import Verif.Props.Frames
import Verif.Spec.Levels
import Verif.Proof.Levels
import Verif.Props.Levels
import Verif.Proof.Again
import Verif.Props.Again
import Verif.Model.Compare
import Verif.Spec.Compare
import Verif.Proof.Same
import Verif.Proof.Compare
import Verif.Props.Compare
import Verif.Spec.Print
import Verif.Model.Print
import Verif.Proof.Print
import Verif.Proof.PrintTrees
import Verif.Props.Print
import Verif.Spec.Pattern
import Verif.Spec.Named
import Verif.Model.Pattern
import Verif.Model.Named
import Verif.Proof.Simple
import Verif.Proof.Pattern
import Verif.Proof.PatternResult
import Verif.Proof.PatternBin
import Verif.Proof.PatternWorld
import Verif.Proof.PatternTotal
import Verif.Props.Pattern
import Verif.Props.Named
import Verif.Props.NodeQuery
import Verif.Props.NodeMove
import Verif.Props.Multi
import Verif.Proof.Pruned
import Verif.Props.Pruned
import Verif.Model.View
import Verif.Spec.View
import Verif.Proof.View
import Verif.Props.View
import Verif.Spec.Searched
import Verif.Proof.Trim
import Verif.Proof.StarWalk
import Verif.Proof.StarSearch
import Verif.Proof.StarWorld
import Verif.Props.Star
import Verif.Spec.Yields
import Verif.Model.Generate
import Verif.Proof.Makes
import Verif.Proof.MakesBin
import Verif.Proof.Grow
import Verif.Proof.GrowCore
import Verif.Proof.GrowSkip
import Verif.Proof.GrowBfs
import Verif.Proof.Reach
import Verif.Proof.GrowRun
import Verif.Proof.Climb
import Verif.Proof.PatternYields
import Verif.Proof.YieldsWorld
import Verif.Proof.YieldsBin
import Verif.Props.StarResult
import Verif.Proof.StarAlone
import Verif.Props.StarAlone
import Verif.Proof.Wired
import Verif.Proof.PatternSafe
import Verif.Proof.PatternEnds
import Verif.Proof.SafeWorld
import Verif.Props.Endless
import Verif.Props.Safe
import Verif.Spec.Literal
import Verif.Model.StructNode
import Verif.Proof.StructNode
import Verif.Props.Literal
import Verif.Spec.Written
import Verif.Model.Matcher
import Verif.Proof.Matcher
import Verif.Props.Matcher
import Verif.Spec.Matched
import Verif.Model.Typed
import Verif.Props.Typed
import Verif.Spec.Limits
import Verif.Proof.Limits
import Verif.Props.Limits
import Verif.Proof.Bare
import Verif.Props.Optional
import Verif.Spec.Refresh
import Verif.Proof.Refresh
import Verif.Props.Refresh
import Verif.Props.Access
import Verif.Spec.Reads
import Verif.Proof.Reads
import Verif.Props.Reads
import Verif.Model.Reverse
import Verif.Spec.Reverse
import Verif.Proof.Reverse
import Verif.Model.Faults
import Verif.Spec.Faults
import Verif.Proof.Faults
import Verif.Proof.FaultSteps
import Verif.Props.Faults
import Verif.Proof.FaultQueue
import Verif.Props.FaultQueue
import Verif.Model.Alloc
import Verif.Spec.Alloc
import Verif.Proof.Alloc
import Verif.Props.Alloc
import Verif.Model.Threads
import Verif.Spec.Threads
import Verif.Proof.Threads
import Verif.Proof.ThreadCalls
import Verif.Proof.ThreadAnswers
import Verif.Props.Threads
import Verif.Spec.Depth
import Verif.Model.Depth
import Verif.Proof.DepthTree
import Verif.Proof.Depth
import Verif.Props.Depth
import Verif.Spec.Cost
import Verif.Proof.Cost
import Verif.Proof.CostIn
import Verif.Proof.CostQueue
import Verif.Props.Cost
import Verif.Model.ConstIter
import Verif.Spec.ConstIter
import Verif.Spec.Mixed
import Verif.Proof.ConstIter
import Verif.Proof.Mixed
import Verif.Props.ConstIter
import Verif.Props.Mixed
import Verif.Model.Generative
import Verif.Spec.Generative
import Verif.Proof.GenBin
import Verif.Proof.GenNary
import Verif.Props.Generative
import Verif.Spec.Allocs
import Verif.Proof.Allocs
import Verif.Props.Allocs
import Verif.Spec.Spill
import Verif.Proof.Spill
import Verif.Props.Spill
import Verif.Proof.PreStop
import Verif.Spec.Took
import Verif.Proof.Took
import Verif.Proof.TookWorld
import Verif.Props.Took
import Verif.Props.Operators
import Verif.Model.Navigator
import Verif.Spec.Navigator
import Verif.Props.Navigator

import Verif.Basic
import Verif.Trees
import Verif.TreeRead
import Verif.TreeLemmas
import Verif.RefTrees
import Verif.Unit.Model
import Verif.Unit.Inv
import Verif.Unit.Ops
import Verif.Unit.Reads
import Verif.Doublets
import Verif.Spec
import Verif.SpecLemmas
import Verif.Derived
import Verif.Unit.Instance
import Verif.Unit.Query
import Verif.Unit.Lawful
import Verif.Unit.Reach
import Verif.Unit.History
import Verif.Unit.CreateCases
import Verif.Unit.Same
import Verif.DerivedLaws
import Verif.Unit.ReachLawful
import Verif.Unit.Example
import Verif.Split.Model
import Verif.Split.Inv
import Verif.Split.Net
import Verif.Split.Reads
import Verif.Split.Ops
import Verif.Split.Instance
import Verif.Split.Query
import Verif.Split.Lawful
import Verif.Split.Reach
import Verif.Split.History
import Verif.Split.Hidden
import Verif.Split.Example
import Verif.Props.UnitWrites
import Verif.Props.UnitQueries
import Verif.Props.UnitDerived
import Verif.Props.SplitWrites
import Verif.Compare
import Verif.Props.SplitQueries
import Verif.Props.SplitFindings
import Verif.LinkHelpers
import Verif.Ffi
import Verif.Props.LinkFfi
import Verif.Decorators
import Verif.DecoratorLaws
import Verif.Props.Decorators
import Verif.Props.SplitDerived
import Verif.Unit.Crash
import Verif.Unit.CrashLaws
import Verif.Props.Crash
import Verif.Props.Indices
import Verif.Careful
import Verif.Props.Careful
import Verif.Props.Order
import Verif.Split.Crash
import Verif.Split.CrashLaws
import Verif.Props.SplitCrash
import Verif.RepoTests
import Verif.ReadCost
import Verif.RefBalanced
import Verif.Props.Cost
import Verif.Props.SplitCost
import Verif.DerivedExact
import Verif.Props.WriteCost
import Verif.Props.Exact
import Verif.Props.DoubleUsers
import Verif.Macros
import Verif.Props.Macros
import Verif.Split.SourcesList
import Verif.Props.SourcesList
import Verif.Printing
import Verif.Props.Printing
import Verif.Props.Malformed
import Verif.Props.DeleteExact
import Verif.Props.SplitDoubleUsers
import Verif.Props.CascadeExact
import Verif.Props.Lookup
import Verif.Props.Reopen
import Verif.Props.SplitCounts
import Verif.Split.NullQuery
import Verif.Props.SplitNull
import Verif.Props.SameContents
import Verif.Props.Lost
import Verif.Props.SplitWriteCost
import Verif.Access
import Verif.RefPrograms
import Verif.Unit.Access
import Verif.Unit.AccessLaws
import Verif.Unit.AccessCalls
import Verif.Props.Access
import Verif.Guard
import Verif.Split.Access
import Verif.Split.AccessLaws
import Verif.Split.AccessCalls
import Verif.Props.SplitAccess
import Verif.Props.AnyFile
import Verif.Replay
import Verif.Props.Replay
import Verif.Props.Growth
import Verif.Props.Nested
import Verif.Props.Bytes
import Verif.Props.PowerLoss
import Verif.Props.Stacks
import Verif.Props.Shared
import Verif.Props.SplitShared
import Verif.Props.Sequences
import Verif.Props.Session
import Verif.Props.Constants
import Verif.Props.Copy
import Verif.Props.Recovery
import Verif.Props.Undo
import Verif.Props.Depth
import Verif.Props.WeakTrees
import Verif.Props.WeakAccess
import Verif.Props.Status
import Verif.Props.TargetSearch
import Verif.Props.UniqueExact
import Verif.Props.SplitUniqueExact
import Verif.Props.SplitMemories
import Verif.Props.HalfPairs
import Verif.Props.Singles
import Verif.Props.SourcesListWrites
import Verif.Props.SplitSharedActs
import Verif.Props.SharedActs
import Verif.Props.SplitSharedCrash
import Verif.Props.SharedCrash
import Verif.Props.Unwind
import Verif.Props.SplitDeleteNull
import Verif.Props.SplitCountNull
import Verif.Props.SharedRecovery
import Verif.Props.MadeUp
import Verif.Props.Growing
import Verif.Props.Owners
import Verif.Props.Storing
import Verif.Props.Batch
import Verif.Props.Script
import Verif.Props.ScriptThreads
import Verif.Props.Parallel
import Verif.Props.Sweep
import Verif.Props.Release
import Verif.Props.Width
import Verif.Props.Routine
import Verif.Props.RoutineFfi
import Verif.Props.Restart
import Verif.Props.Readme
import Verif.Props.RoutineWeak
import Verif.Props.Intern
import Verif.Props.Guarded
import Verif.Props.Grounded
import Verif.Props.Walks
import Verif.Props.GroundedThreads
import Verif.Props.Migrate
import Verif.Props.Unbuild

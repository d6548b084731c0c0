import Verif.DD.Syntax
import Verif.DD.Config
import Verif.DD.Ops
import Verif.DD.Spec
import Verif.DD.Canon
import Verif.DD.Containers
import Verif.DD.Logic
import Verif.DD.SquareUnion
import Verif.DD.SumCorrect
import Verif.DD.InterDiffCorrect
import Verif.DD.Kinds
import Verif.DD.Step
import Verif.Mem.Lru
import Verif.DD.Machine
import Verif.Values.FlatSet
import Verif.Values.Bitset
import Verif.Values.Concrete
import Verif.DD.Session
import Verif.DD.Top
import Verif.DD.Natural
import Verif.DD.Transparent
import Verif.DD.NoDup
import Verif.DD.Count
import Verif.DD.Paths
import Verif.DD.Stats
import Verif.DD.Heads
import Verif.DD.Program
import Verif.DD.Outcome
import Verif.Mem.NextPower
import Verif.Mem.HashTable
import Verif.Mem.Links
import Verif.Mem.Exhaust
import Verif.Mem.Heap
import Verif.Mem.HeapSem
import Verif.Mem.Cache
import Verif.Mem.CacheHist
import Verif.Mem.Arena
import Verif.Mem.Manager
import Verif.Properties.DD
import Verif.DD.Node
import Verif.Values.Print
import Verif.Properties.Values
import Verif.Properties.Mem
import Verif.Properties.Cache
import Verif.Properties.Arena
import Verif.Order.Builder
import Verif.Order.Order
import Verif.Order.Init
import Verif.Order.Json
import Verif.Order.Force
import Verif.Properties.Order
import Verif.Hom.Syntax
import Verif.Hom.Eval
import Verif.Hom.Ev
import Verif.Hom.Typing
import Verif.Hom.Loops
import Verif.Hom.Sound
import Verif.Hom.Run
import Verif.Hom.Cached
import Verif.Hom.Laws
import Verif.Hom.Rel
import Verif.Hom.Build
import Verif.Hom.BuildSum
import Verif.Hom.RelUniq
import Verif.Hom.RelBuild
import Verif.Hom.RelNary
import Verif.Hom.RelRewrite
import Verif.Hom.Same
import Verif.Hom.History
import Verif.Hom.Carrier
import Verif.Hom.Built
import Verif.Hom.FixTerm
import Verif.Hom.Total
import Verif.Hom.Finite
import Verif.Hom.Hanoi
import Verif.Properties.Hom
import Verif.Mem.Hash
import Verif.Properties.Hash
import Verif.Mem.SddHeap
import Verif.Mem.HeapStats
import Verif.Mem.CacheStats
import Verif.Mem.Variant
import Verif.Mem.Layout
import Verif.Mem.Shutdown
import Verif.Mem.Counter
import Verif.DD.Size
import Verif.DD.Dot
import Verif.DD.Dictionary
import Verif.Hom.Export
import Verif.Properties.Stats
import Verif.Properties.Export
import Verif.Properties.Examples
import Verif.DD.Text
import Verif.Order.Text
import Verif.Order.JsonText
import Verif.Properties.Layout
import Verif.Properties.Text
import Verif.Hom.Text
import Verif.Properties.HomText
import Verif.Mem.HomHeap
import Verif.Hom.Stored
import Verif.Properties.HomMem
import Verif.Conform.DD
import Verif.Conform.Hom
import Verif.Conform.Base
import Verif.DD.Cost
import Verif.DD.Memo
import Verif.DD.Keys
import Verif.DD.Evals
import Verif.Properties.Cost
import Verif.DD.Width
import Verif.DD.Iter
import Verif.DD.DotIter
import Verif.Properties.Width
import Verif.Properties.Iter
import Verif.Hom.NoDup
import Verif.Hom.Natural
import Verif.Hom.Memo
import Verif.Properties.HomCache
import Verif.Tools.Serial
import Verif.Properties.Serial
import Verif.Values.FlatIter
import Verif.Properties.FlatIter
import Verif.Values.Throw
import Verif.Properties.Throw
import Verif.Hom.SatTerm
import Verif.Hom.Pointwise
import Verif.Hom.SatNested
import Verif.Hom.SatSum
import Verif.Properties.Saturation
import Verif.Examples.Tasks
import Verif.Examples.Scheduling
import Verif.Properties.Scheduling
import Verif.Hom.Session
import Verif.Properties.Session
import Verif.Mem.Generator
import Verif.Properties.Generator
import Verif.Properties.Reenter
import Verif.Hom.Depth
import Verif.Mem.Depth
import Verif.Properties.Depth
import Verif.Mem.OpHeap
import Verif.Properties.OpHeap
import Verif.Properties.Misuse
import Verif.Mem.Align
import Verif.Properties.Align
import Verif.Order.Artificial
import Verif.Hom.SkipUser
import Verif.Properties.Artificial
import Verif.Mem.Oom
import Verif.Properties.Oom
import Verif.Order.LoadAny
import Verif.Properties.LoadAny
import Verif.Hom.CompLeft
import Verif.Hom.CompFit
import Verif.Hom.RewriteSum
import Verif.Hom.RewriteInter
import Verif.Hom.InterAlone
import Verif.Properties.AnyHom

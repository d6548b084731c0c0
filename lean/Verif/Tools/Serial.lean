import Verif.DD.Stats
import Verif.DD.Size
import Verif.Mem.HeapStats
import Verif.Mem.CacheStats
/-!
# Statistics saved in archives

`/repo/sdd/tools/serialization.hh`, `/repo/sdd/tools/sdd_statistics.hh`, `/repo/sdd/tools/manager_statistics.hh`,
`/repo/sdd/manager.hh:79-146,198-256`.

An archive (of the library cereal) receives a sequence of named values; here, the sequence itself. How it is written is not modelled.
-/

set_option autoImplicit false
set_option linter.unusedSectionVars false

namespace Verif
namespace Serial

/-- Values given to an archive: numbers, quotients (a load factor is a `double` in the code), the map of the frequencies of arcs, and nested sequences.
(`/repo/sdd/tools/serialization.hh`, lines 28-96.) -/
inductive SVal : Type where
  | num (n : Nat)
  | ratio (n d : Nat)
  | freq (f : Freq)
  | obj (fields : List (String × SVal))

/-- The value of a name. (Model of the environment: what the user or the system does.) -/
def SVal.get (name : String) : SVal → Option SVal
  | .obj fs => (fs.find? fun e => e.1 = name).map Prod.snd
  | _ => none

/-- The names of a sequence. (Specification or proof device, not part of the code.) -/
def SVal.names : SVal → List String
  | .obj fs => fs.map Prod.fst
  | _ => []

/-- `save` of the statistics of a unique table, `/repo/sdd/tools/serialization.hh:26-42`. -/
def saveTable (s : Heap.TReport) : SVal := .obj
  [("#", .num s.size), ("# peak", .num s.peak), ("# accesses", .num s.access), ("# hits", .num s.hits), ("# misses", .num s.misses),
   ("# rehash", .num s.rehash), ("# collisions", .num s.collisions), ("# alone", .num s.alone), ("# empty", .num s.empty),
   ("# buckets", .num s.buckets), ("load factor", .ratio s.loadNum s.loadDen)]

/-- `cache_statistics`, `/repo/sdd/mem/cache.hh:63-94`. -/
structure CReport where
  size : Nat
  hits : Nat
  misses : Nat
  filtered : Nat
  discarded : Nat
  collisions : Nat
  alone : Nat
  empty : Nat
  buckets : Nat
  loadNum : Nat
  loadDen : Nat

/-- `cache::statistics()`, `/repo/sdd/mem/cache.hh:283-293`. -/
def cacheReport {K R : Type} (c : Cache.State K R) (st : Cache.CStats) : CReport :=
  { size := c.table.size
    hits := st.hits
    misses := st.misses
    filtered := st.filtered
    discarded := st.discarded
    collisions := c.table.collisions.1
    alone := c.table.collisions.2.1
    empty := c.table.collisions.2.2
    buckets := c.table.buckets.length
    loadNum := c.table.size
    loadDen := c.table.buckets.length }

/-- `save` of the statistics of a cache, `/repo/sdd/tools/serialization.hh:46-61`. -/
def saveCache (c : CReport) : SVal := .obj
  [("#", .num c.size), ("# hits", .num c.hits), ("# misses", .num c.misses), ("# filtered", .num c.filtered),
   ("# discarded", .num c.discarded), ("# collisions", .num c.collisions), ("# alone", .num c.alone), ("# empty", .num c.empty),
   ("# buckets", .num c.buckets), ("load factor", .ratio c.loadNum c.loadDen)]

/-- The tables and the caches of a manager, `/repo/sdd/internal_manager.hh:38-94`, `/repo/sdd/dd/context.hh:26-82`,
`/repo/sdd/hom/context.hh:21-66`, and the unique table of the values, `/repo/sdd/values/flat_set.hh:325-390`: what their functions `stats()` and `statistics()` return. -/
structure Tables where
  sdds : Heap.TReport
  homs : Heap.TReport
  values : Heap.TReport
  sums : CReport
  inters : CReport
  diffs : CReport
  homApps : CReport

/-- `manager_statistics`, `/repo/sdd/tools/manager_statistics.hh:18-27`. -/
structure MStats where
  sddUt : Heap.TReport
  diffCache : CReport
  interCache : CReport
  sumCache : CReport
  homUt : Heap.TReport
  homCache : CReport
  valuesUt : Heap.TReport

/-- `manager_statistics` and the functions of the manager which it calls, `/repo/sdd/tools/manager_statistics.hh:31-40,56-61`,
`/repo/sdd/manager.hh:84-146,195-256`. -/
def mstats (t : Tables) : MStats :=
  { sddUt := t.sdds, diffCache := t.diffs, interCache := t.inters, sumCache := t.sums, homUt := t.homs, homCache := t.homApps,
    valuesUt := t.values }

/-- `save` of the statistics of a manager, `/repo/sdd/tools/serialization.hh:70-82`. -/
def saveManager (m : MStats) : SVal := .obj
  [("SDD unique table", saveTable m.sddUt), ("SDD differences cache", saveCache m.diffCache),
   ("SDD intersections cache", saveCache m.interCache), ("SDD sums cache", saveCache m.sumCache),
   ("hom unique table", saveTable m.homUt), ("hom cache", saveCache m.homCache), ("values", saveTable m.valuesUt)]

/-- `sdd_statistics`, `/repo/sdd/tools/sdd_statistics.hh:18-26`. -/
structure SStats where
  bytes : Nat
  freq : Freq
  nodes : Nat × Nat
  arcs : Nat × Nat

/-- `sdd_statistics` and `statistics`, `/repo/sdd/tools/sdd_statistics.hh:30-35,46-51`. -/
def sstats {V : Type} [DecidableEq V] (z : Sizes) (x : SDD V) : SStats :=
  { bytes := sizeBytes z x, freq := arcsFreq x, nodes := Verif.nodes x, arcs := numberOfArcs (arcsFreq x) }

/-- `save` of the statistics of an SDD, `/repo/sdd/tools/serialization.hh:86-98`. -/
def saveSdd (s : SStats) : SVal := .obj
  [("bytes", .num s.bytes), ("flat nodes", .num s.nodes.1), ("hierarchical nodes", .num s.nodes.2), ("flat arcs", .num s.arcs.1),
   ("hierarchical arcs", .num s.arcs.2), ("arcs frequency", .freq s.freq)]

end Serial
end Verif

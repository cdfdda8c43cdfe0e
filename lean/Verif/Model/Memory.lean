/-
Model of `include/samurai/memory.hpp`: the memory used by the meshes, in bytes.
-/
import Verif.Model.CellArray

namespace Samurai

/-- `memory_usage(lca)` in dimension `n + 1` (memory.hpp:15-26); `szI` and `szO` are the sizes of an interval and of an offset, `lca.offsets(d)` is `offsets (d - 1)`. The unsigned
numbers are not bounded here. -/
def LCA.memoryUsage (n szI szO : Nat) (L : LCA) : Nat :=
  (List.range' 1 n).foldl (fun mem d => mem + (L.offsets (d - 1)).length * szO) (L.nbIntervals n * szI) + szO

/-- `memory_usage(ca)` (memory.hpp:28-37). -/
def CA.memoryUsage (n szI szO : Nat) (c : CA) : Nat := c.levels.foldl (fun mem l => mem + (c.lca l).memoryUsage n szI szO) 0

/-- `memory_usage(mesh)` (memory.hpp:39-55): `meshes` are `mesh[id]` for all the identifiers; what `verbose` prints is not modelled. -/
def meshMemoryUsage (n szI szO : Nat) (meshes : List CA) : Nat := meshes.foldl (fun mem c => mem + c.memoryUsage n szI szO) 0

end Samurai

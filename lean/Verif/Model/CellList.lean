/-
Model of `include/samurai/cell_list.hpp` and of the construction of a `CellArray` from it.
-/
import Verif.Model.CellArray
import Verif.Model.LevelCellList

namespace Samurai

/-- `CellList<dim, interval_t, max_size>` with `dim = n + 1` (cell_list.hpp:20-49): one level cell list for
each level `0 .. max_size`. Levels above `maxSize` do not exist. -/
structure CL (n : Nat) where
  maxSize : Nat
  lcl : Nat → LCL n

/-- `CellList()` (cell_list.hpp:58-65). Origin and scaling factor are not modelled. -/
def CL.new (n maxSize : Nat) : CL n := ⟨maxSize, fun l => LCL.new n l⟩

/-- A call on `cl[level]` (cell_list.hpp:77-87): `none` when `level` is out of the bounds of the `std::array`. -/
def CL.call {n : Nat} (cl : CL n) (e : Nat × CellCall) : Option (CL n) :=
  if e.1 ≤ cl.maxSize then some { cl with lcl := Function.update cl.lcl e.1 (e.2.run (cl.lcl e.1)) }
  else none

/-- A sequence of such calls. -/
def CL.calls {n : Nat} (cl : CL n) (h : List (Nat × CellCall)) : Option (CL n) := h.foldlM CL.call cl

/-- `CellArray(cl, false)` (cell_array.hpp:257-270). -/
def CA.ofCL {n : Nat} (cl : CL n) : CA := ⟨cl.maxSize, fun l => LCA.ofList (cl.lcl l)⟩

/-- `CellArray()` (cell_array.hpp:241-247): every level is empty and knows its level. -/
def CA.empty (n maxSize : Nat) : CA := CA.ofCL (CL.new n maxSize)

/-- `ca[level] = lca`. -/
def CA.set (c : CA) (level : Nat) (L : LCA) : CA := { c with lca := Function.update c.lca level L }

/-- The calls made by the callback `g` while `for_each_interval(ca, g)` runs, `g` leaving the intervals
as they are. (The callback modifies a cell list, never the array traversed: the calls may be executed
after the traversal.) -/
def collectCalls (n : Nat) (g : Nat → List Int → Interval → List (Nat × CellCall)) (c : CA) :
    Option (List (Nat × CellCall)) :=
  (forEachIntervalCA n (fun acc l yz i => (acc ++ g l yz i, i)) c []).map Prod.snd

end Samurai

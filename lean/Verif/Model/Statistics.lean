/-
Model of the statistics of a mesh (include/samurai/statistics.hpp, with WITH_STATS): the numbers recorded at each call and the file.
-/
import Verif.Model.CellArray

namespace Samurai

/-- `std::minmax_element` and the values at the two iterators (statistics.hpp:51-53, 61-64); on an empty range the iterators are the end of the range and
reading them is an error (`none`). -/
def minMax (l : List Nat) : Option (Nat × Nat) :=
  match l.min?, l.max? with
  | some a, some b => some (a, b)
  | _, _ => none

/-- `std::adjacent_difference` in place (statistics.hpp:60); the offsets increase, so that the unsigned differences are exact. -/
def adjacentDifference (l : List Nat) : List Nat :=
  match l with
  | [] => []
  | a :: l => a :: List.zipWith (fun x y => y - x) (a :: l) l

/-- What is recorded for an axis: the number of its intervals, and the sizes of the shortest and of the longest (statistics.hpp:46-54). -/
structure AxisStats where
  intervals : Nat
  shortest : Nat
  longest : Nat
  deriving DecidableEq

/-- What is recorded for a level; `perComponent` are the records "number of intervals per component" of the axes 1, 2, ... -/
structure LevelStats where
  cells : Nat
  axes : List AxisStats
  perComponent : List (Nat × Nat)
  deriving DecidableEq

/-- The record of a level (statistics.hpp:41-67), in dimension `n + 1`: for every axis `d ≥ 1` the loop reads `offsets(1)` (line 59). -/
def levelStats (n : Nat) (L : LCA) : Option LevelStats :=
  match (List.range (n + 1)).mapM fun d => (minMax ((L.cells d).map Interval.size)).map fun m => (⟨(L.cells d).length, m.1, m.2⟩ : AxisStats) with
  | none => none
  | some axes =>
    match (List.range n).mapM fun _ => minMax ((adjacentDifference (L.offsets 0)).drop 1) with
    | none => none
    | some comps => some ⟨L.nbCells, axes, comps⟩

/-- The record of a mesh: all the levels from the coarsest to the finest (statistics.hpp:25-69). -/
def meshStats (n : Nat) (c : CA) : Option (List (Nat × LevelStats)) :=
  c.levels.mapM fun l => (levelStats n (c.lca l)).map fun s => (l, s)

/-- The object `Statistics` (statistics.hpp:103-107), and the file it writes: `R` are the records, a test case has the list of its records (`json::array`). -/
structure StatsState (R : Type) where
  saveAll : Int
  icurrent : Nat
  stats : String → Option (List R)
  file : Option (String → Option (List R))

/-- The constructor (statistics.hpp:17-22). -/
def StatsState.new (R : Type) (saveAll : Int) : StatsState R := ⟨saveAll, 0, fun _ => none, none⟩

/-- `stats[test_case].push_back`, or a new array with the record (statistics.hpp:70-87). -/
def pushRecord {R : Type} (stats : String → Option (List R)) (test : String) (r : R) : String → Option (List R) :=
  fun t => if t = test then
    match stats test with
    | some l => some (l ++ [r])
    | none => some [r]
  else stats t

/-- `operator()` once the record is computed (statistics.hpp:25-95): every `save_all` calls the file is written. -/
def StatsState.call {R : Type} (s : StatsState R) (e : String × R) : StatsState R :=
  let s1 := { s with icurrent := s.icurrent + 1, stats := pushRecord s.stats e.1 e.2 }
  if (s1.icurrent : Int) = s1.saveAll then { s1 with file := some s1.stats, icurrent := 0 } else s1

/-- The destructor (statistics.hpp:97-101). -/
def StatsState.finish {R : Type} (s : StatsState R) : StatsState R := { s with file := some s.stats }

end Samurai

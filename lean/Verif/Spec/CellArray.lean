/- Contents of a cell array (all levels). -/
import Verif.Model.CellArray
import Verif.Spec.LevelCellArray

namespace Samurai

/-- Every level of the cell array is well formed. -/
def CA.WF (n : Nat) (c : CA) : Prop := ∀ l ≤ c.maxSize, (c.lca l).WF n

/-- The cell `p` of level `l` is in the cell array. -/
def CA.Mem (n : Nat) (c : CA) (l : Nat) (p : List Int) : Prop := l ≤ c.maxSize ∧ (c.lca l).Mem n p

/-- All the x-intervals, level after level, each with its level and the coordinates of its row. -/
def CA.rows (n : Nat) (c : CA) : List (Nat × List Int × Interval) :=
  (List.range (c.maxSize + 1)).flatMap fun l => ((c.lca l).rows n).map fun e => (l, e.1, e.2)

/-- All the cells, level after level, each with its level and its number. -/
def CA.numbered (n : Nat) (c : CA) : List (Nat × List Int × Int) :=
  (List.range (c.maxSize + 1)).flatMap fun l => ((c.lca l).numbered n).map fun e => (l, e.1, e.2)

end Samurai

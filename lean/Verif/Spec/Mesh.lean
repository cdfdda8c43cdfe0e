/-
Vocabulary for meshes with several levels: parents, ancestors, neighbourhoods. Nothing here refers to
the algorithms.
-/
import Verif.Spec.CellArray
import Verif.Spec.Subset

namespace Samurai

/-- The cell `p` is the ancestor of the cell `q`, `k` levels up (`k = 0`: the same cell). -/
def Anc (k : Nat) (p q : List Int) : Prop := List.Forall₂ (IsAncestor k) p q

/-- The cells `p` and `q` of the same level are at (Chebyshev) distance at most `w`. -/
def Near (w : Nat) (p q : List Int) : Prop := List.Forall₂ (fun a b : Int => a ≤ b + w ∧ b ≤ a + w) p q

/-- All the coordinates of the cells, measured at level `M`, are less than `D` (no overflow of `int`). -/
def CA.Below (n : Nat) (c : CA) (M : Nat) (D : Int) : Prop :=
  ∀ l p, c.Mem n l p → ∀ x ∈ p, x * 2 ^ (M - l) < D

/-- Every level array of the mesh knows its level. -/
def CA.Leveled (c : CA) : Prop := ∀ l ≤ c.maxSize, (c.lca l).level = l

/-- The levels of the cells are between `a` and `b`. -/
def CA.Between (n : Nat) (c : CA) (a b : Nat) : Prop := ∀ l p, c.Mem n l p → a ≤ l ∧ l ≤ b

/-- The cell `p` of level `l` is a strict ancestor of a cell of the mesh. -/
def CoveredBy (n : Nat) (cells : CA) (l : Nat) (p : List Int) : Prop :=
  ∃ l' q, l < l' ∧ cells.Mem n l' q ∧ Anc (l' - l) p q

/-- A mesh of leaf cells: well-formed levels, cells between `minL` and `maxL`, whose coordinates measured at the level
`maxL`, with a margin of `margin` cells of level 0, stay in the range of `int`. -/
structure CA.Proper (n : Nat) (cells : CA) (minL maxL margin : Nat) : Prop where
  wf : cells.WF n
  leveled : cells.Leveled
  between : cells.Between n minL maxL
  size : maxL ≤ cells.maxSize
  range : ∃ D : Int, 0 ≤ D ∧ D + (margin : Int) * 2 ^ maxL + 2 < INT_MAX ∧ cells.Below n maxL D

/-- The coordinates of a level array, measured at level `M`, are below `D`. -/
def LCA.BelowAt (n : Nat) (L : LCA) (M : Nat) (D : Int) : Prop := ∀ p, L.Mem n p → ∀ x ∈ p, x * 2 ^ (M - L.level) < D

/-- A mesh of leaf cells together with its domain, in the range of `int` (see `CA.Proper`). -/
structure ProperWithDomain (n : Nat) (cells : CA) (dom : LCA) (minL maxL margin : Nat) : Prop where
  wf : cells.WF n
  leveled : cells.Leveled
  between : cells.Between n minL maxL
  size : maxL ≤ cells.maxSize
  domWF : dom.WF n
  domLevel : dom.level ≤ maxL
  range : ∃ D : Int, 0 ≤ D ∧ D + (margin : Int) * 2 ^ maxL + 2 < INT_MAX ∧ cells.Below n maxL D ∧ dom.BelowAt n maxL D

end Samurai

/-
Specification of the geometry of the cells: the points of a cell, the descendants of a cell.
-/
import Verif.Model.Cell
import Verif.Spec.Basic

namespace Samurai

/-- The point `x` lies in the cube of side `scaling / 2^level` at the integer position `p` of the grid of the level (closed at the low end, open at the other). -/
def InCube {R : Type} [Field R] [LinearOrder R] {dim : Nat} (origin : Fin dim → R) (scaling : R) (level : Nat) (p : Fin dim → Int) (x : Fin dim → R) : Prop :=
  ∀ i, origin i + scaling / 2 ^ level * (p i : R) ≤ x i ∧ x i < origin i + scaling / 2 ^ level * ((p i : R) + 1)

/-- `q` is a descendant of `p`, `k` levels down. -/
def Desc {dim : Nat} (k : Nat) (p q : Fin dim → Int) : Prop := ∀ i, IsAncestor k (p i) (q i)

end Samurai

/-
Vocabulary for the update of the ghosts of an AMR mesh.
-/
import Verif.Spec.Adapt
import Verif.Spec.AMRAdapt
import Verif.Spec.GhostUpdate

namespace Samurai

/-- Leaves that tile the domain without overlap, graded or not. -/
structure TilingLeaves (n : Nat) (cells : CA) (dom : LCA) (minL maxL : Nat) : Prop where
  wf : cells.WF n
  leveled : cells.Leveled
  size : maxL ≤ cells.maxSize
  between : cells.Between n minL maxL
  noOverlap : cells.NoOverlap n
  tiles : ∀ m, cells.Tiles n maxL m ↔ InDomain n dom maxL m

/-- The cells on which the schemes work: those within `w` of a leaf of their level. -/
def NearLeaf (n w : Nat) (cells : CA) (l : Nat) (p : List Int) : Prop := ∃ q, cells.Mem n l q ∧ Near w p q

end Samurai

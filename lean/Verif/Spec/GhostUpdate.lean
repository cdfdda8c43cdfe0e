/-
Vocabulary for the update of the ghosts of a multiresolution field: what the values of the cells that are not leaves must be.
-/
import Verif.Spec.Bc
import Verif.Spec.Operators
import Verif.Model.Update
import Verif.Model.GhostUpdate

namespace Samurai

section
variable {K : Type} [Field K]

/-- The value of the cell is the mean of the values of its `2^dim` children. -/
def MeanOfChildren (n : Nat) (val : Nat → List Int → K) (l : Nat) (p : List Int) : Prop :=
  2 ^ (n + 1) * val l p = ((childrenOf p).map fun q => val (l + 1) q).sum

/-- The value of the cell is the prediction (Prediction.lean: C30, C31, C53) from the values of the level below. -/
def PredictedFromBelow (n order : Nat) (val : Nat → List Int → K) (l : Nat) (p : List Int) : Prop :=
  val l p = predictFine (n + 1) order (fun q => val (l - 1) (ofPt (n + 1) q)) (toPt p)

/-- The ghosts of level `level` next to the boundary of the box `b` have the values of the boundary conditions, or, beyond the ghosts of the
conditions and on the diagonals of the corners in dimension 2, the extrapolated values. -/
structure BoundaryHolds (n : Nat) (M : BcMesh K) (bcs : List (BcCond K)) (level : Nat) (b : Box) (val : Nat → List Int → K) : Prop where
  imposed : ∀ l1 c d l2, bcEntries bcs = l1 ++ (c, d) :: l2 → ∀ p i q, Imposes n M level c d p i → CellIs n M.ref level p q →
    WideFor n b c.kind.ghosts d.1 → (∀ y ∈ l2, ¬ ImposesGhost n M level y (walk n p i d.1)) →
    c.kind.Satisfied M.h0 level (fun j => val level (walk n p j d.1)) i (c.value d.1 q)
  extrapolated : ∀ p v (k : Nat), Outward n b p v → (∀ d ≤ n, v d ≠ 0 → M.periodic d = false) → M.ref.Mem n level (walk n p k v) →
    1 ≤ k → k ≤ 3 → k ≤ M.cfg.ghostWidth → (OneAxis n v ∧ ∀ c ∈ bcs, c.kind.ghosts < k) ∨ (n = 1 ∧ v 0 ≠ 0 ∧ v 1 ≠ 0) →
    Extrapolated (fun j => val level (walk n p j v)) k

/-- The boundary conditions cover the boundary: each cell of the domain (at the level of the domain) next to the boundary along an axis is in the
region of a condition for this direction. -/
def CoversBoundary (n : Nat) (dom : LCA) (bcs : List (BcCond K)) : Prop :=
  ∀ q v, dom.Mem n q → UnitVector n v → OneAxis n v → ¬ dom.Mem n (shiftPoint v n q) →
    ∃ c ∈ bcs, ∃ d ∈ c.region, (∀ k ≤ n, d.1 k = v k) ∧ d.2.Mem n q

end

end Samurai

/-
Vocabulary for the linear systems of the implicit schemes.
-/
import Verif.Model.PetscSystem
import Verif.Spec.Petsc
import Verif.Spec.Bc

namespace Samurai

section
variable {K : Type} {n m : Nat}

/-- The conditions that the implicit schemes know: `Dirichlet<1>` and `Neumann<1>`. -/
def BcKind.Implicit : BcKind → Prop
  | .dirichlet order => order = 1
  | .neumann => True

/-- The conditions with their directions, in the order of application. -/
def fieldEntries (bcs : List (FieldBc K n m)) : List (FieldBc K n m × ((Nat → Int) × LCA)) := bcs.flatMap fun c => c.region.map fun d => (c, d)

/-- The condition `x.1`, on its direction `x.2`, has an equation for the ghost `q` next to the leaf `p` of level `level`. -/
def Constrains (n : Nat) (cells : CA) (level : Nat) (x : FieldBc K n m × ((Nat → Int) × LCA)) (p q : List Int) : Prop :=
  UnitVector n x.2.1 ∧ OneAxis n x.2.1 ∧ x.1.kind.Implicit ∧ cells.Mem n level p ∧ RegionAt n x.2.2 level p ∧ q = walk n p 1 x.2.1

/-- The centre of the face of the cell `p` of level `level` in the direction `dir`. -/
def faceAt [Field K] (origin : Fin (n + 1) → K) (h0 : K) (level : Nat) (p : List Int) (dir : Nat → Int) (k : Fin (n + 1)) : K :=
  origin k + cellLength h0 level * ((toPt p k : K) + 1 / 2 + (dir k : K) / 2)

/-- The conditions of the component `j` as the explicit schemes use them. -/
def explicitConds [Field K] (origin : Fin (n + 1) → K) (h0 : K) (bcs : List (FieldBc K n m)) (j : Fin m) : List (BcCond K) :=
  bcs.map fun b => ⟨b.kind, fun dir c => b.explicitValue origin h0 dir c j, b.region⟩

/-- The conditions cover the boundary: each cell of the domain next to the boundary along an axis is in the region of a condition for this direction. -/
def FieldCovers (dom : LCA) (bcs : List (FieldBc K n m)) : Prop :=
  ∀ q v, dom.Mem n q → UnitVector n v → OneAxis n v → ¬ dom.Mem n (shiftPoint v n q) → ∃ x ∈ fieldEntries bcs, (∀ k ≤ n, x.2.1 k = v k) ∧ x.2.2.Mem n q

/-- The values of a condition are a function of the coordinates of the centre of the face. -/
def FieldBc.OfCoords (b : FieldBc K n m) : Prop := ∀ dir dir' c c' x, b.value dir c x = b.value dir' c' x

/-- The stencils of two cells, one on each side of the interface. -/
def TwoPoint (n : Nat) (dir : Nat → Int) (S : List (Nat → Int)) : Prop := ∀ s ∈ S, (∀ k ≤ n, s k = 0) ∨ ∀ k ≤ n, s k = dir k

end

end Samurai

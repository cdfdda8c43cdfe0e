/-
Vocabulary for the cell-based schemes.
-/
import Verif.Model.CellScheme
import Verif.Spec.Petsc
import Verif.Spec.PetscSystem

namespace Samurai

/-- The stencil of a cell-based scheme: `center` is the position of the zero vector, the vectors have a length of at most `w` in each direction. -/
structure CellStencilOK (n w : Nat) (S : List (Nat → Int)) (center : Nat) : Prop where
  centre : ∃ s, S[center]? = some s ∧ ∀ k ≤ n, s k = 0
  width : ∀ s ∈ S, ∀ k ≤ n, - (w : Int) ≤ s k ∧ s k ≤ w

/-- The field has the value `val l p` on the leaf `p` of level `l`, and 0 in the other cells. -/
def LeafValues (n : Nat) (cells : CA) {V : Type} [AddCommGroup V] (out : Int → V) (val : Nat → List Int → V) : Prop :=
  (∀ l p v, (l, p, v) ∈ cells.numbered n → out v = val l p) ∧ ∀ v, (∀ l p, (l, p, v) ∉ cells.numbered n) → out v = 0

/-- The stencils of an operator of a sum fit in the ghosts of width `w`. -/
def LinOp.OK {K : Type} [Field K] {m p : Nat} (n w : Nat) : LinOp K m p → Prop
  | .flux ld _ => ∀ d ≤ n, StencilOK n w (unitDir d) (ld.stencil d)
  | .cell cd => CellStencilOK n w cd.stencil cd.center

/-- The flux-based schemes with a boundary scheme have stencils of two cells, the stencils of the cell-based schemes are the cell itself: identity, mass and reaction terms. -/
def LinOp.Compact {K : Type} [Field K] {m p : Nat} (n : Nat) : LinOp K m p → Prop
  | .flux ld bdry => bdry = false ∨ ∀ d ≤ n, TwoPoint n (unitDir d) (ld.stencil d)
  | .cell cd => ∀ s ∈ cd.stencil, ∀ k ≤ n, s k = 0

/-- The scheme includes the interfaces of the boundary. -/
def LinOp.WithBoundary {K : Type} [Field K] {m p : Nat} : LinOp K m p → Prop
  | .flux _ bdry => bdry = true
  | .cell _ => True

end Samurai

/-
Vocabulary for the preallocation of the matrices.
-/
import Mathlib.Data.Finset.Card
import Verif.Model.Sparsity
import Verif.Spec.CellScheme

namespace Samurai

/-- The columns of the places `T` that are in the row `r`, each once. -/
def rowColumns (T : List (Int × Int)) (r : Int) : Finset Int := ((T.filter fun e => e.1 = r).map Prod.snd).toFinset

/-- The cells that `a` reads are among those that `b` reads, and `b` has interfaces around all the leaves: `b` is a flux-based scheme with the interfaces of the boundary and `a` a flux-based
scheme whose stencils are parts of those of `b`, or a cell-based scheme that reads the cell itself; or both are cell-based and the stencil of `a` is a part of that of `b`. -/
def LinOp.Within {K : Type} [Field K] {m p : Nat} (n : Nat) : LinOp K m p → LinOp K m p → Prop
  | .flux a _, .flux b bdry => bdry = true ∧ ∀ d ≤ n, ∀ s ∈ a.stencil d, ∃ t ∈ b.stencil d, ∀ k ≤ n, s k = t k
  | .cell a, .flux _ bdry => bdry = true ∧ ∀ s ∈ a.stencil, ∀ k ≤ n, s k = 0
  | .cell a, .cell b => ∀ s ∈ a.stencil, ∃ t ∈ b.stencil, ∀ k ≤ n, s k = t k
  | .flux _ _, .cell _ => False

/-- A cell-based operator announces all its places: the fields are stored cell by cell, or no coefficient is 0 for a cell of length 1. -/
def PatOp.Full {K : Type} [Field K] {m p : Nat} (soa : Bool) (o : PatOp K m p) : Prop :=
  match o.op with
  | .flux _ _ => True
  | .cell cd => soa = false ∨ (o.start + o.size ≤ cd.stencil.length ∧ ∀ c < cd.stencil.length, ∀ i j, coeffAt (cd.coeffs (cellLength 1 0)) c i j ≠ 0)

/-- The contiguous indices of an operator are positions of its stencil. -/
def PatOp.InStencil {K : Type} [Field K] {m p : Nat} (o : PatOp K m p) : Prop :=
  match o.op with
  | .flux _ _ => True
  | .cell cd => o.start + o.size ≤ cd.stencil.length

end Samurai

/-
Vocabulary for the stencils: vectors on an axis, Cartesian directions, scalar product.
-/
import Verif.Spec.Interface
import Mathlib.Algebra.BigOperators.Group.Finset.Basic

namespace Samurai

/-- The vector `k` times the unit vector of the coordinate `d`. -/
def axis (d : Nat) (k : Int) : Nat → Int := fun i => if i = d then k else 0

/-- A unit vector of one of the `n + 1` coordinates, or its opposite. -/
def Cartesian (n : Nat) (dir : Nat → Int) : Prop := ∃ d ≤ n, ∃ s : Int, (s = 1 ∨ s = -1) ∧ ∀ k ≤ n, dir k = axis d s k

/-- The scalar product of two vectors of `n + 1` coordinates. -/
def dot (n : Nat) (v w : Nat → Int) : Int := ∑ k ∈ Finset.range (n + 1), v k * w k

end Samurai

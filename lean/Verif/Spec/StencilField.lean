/-
Vocabulary for the finite volume expressions of fields.
-/
import Verif.Model.StencilField
import Verif.Spec.Operators
import Verif.Spec.Graduation
import Mathlib.Order.Interval.Set.Basic
import Mathlib.Order.Bounds.Basic

namespace Samurai

/-- The meshes on which the expressions can be evaluated: the leaves and their neighbours across the faces are cells of the reference mesh, whose cells have different numbers. -/
structure StencilMesh (n : Nat) (cells ref : CA) : Prop where
  cellsWF : cells.WF n
  steps : ∀ r ∈ cells.rows n, r.2.2.step = 1
  refWF : ref.WF n
  numbers : ref.NumbersDiffer n
  leaves : ∀ l p, cells.Mem n l p → ref.Mem n l p
  nextCells : ∀ l p, cells.Mem n l p → ∀ d ≤ n, ref.Mem n l (after n d p) ∧ ref.Mem n l (before n d p)

section
variable {K : Type} [Field K]

/-- The new value of a cell: `u_p - dt / h Σ_d (F_d(u_p, u_{p + e_d}) - F_d(u_{p - e_d}, u_p))`, `f` being the values of the level. -/
def fvUpdate (n : Nat) (F : Nat → K → K → K) (h dt : K) (f : List Int → K) (p : List Int) : K :=
  f p - dt / h * ∑ d ∈ Finset.range (n + 1), (F d (f p) (f (after n d p)) - F d (f (before n d p)) (f p))

/-- `c` is the flux of Godunov of the flux function `φ` between the states `ul` and `ur`: its least value between them if they increase, its greatest value if they decrease. -/
def IsGodunov [LinearOrder K] (φ : K → K) (ul ur c : K) : Prop :=
  (ul ≤ ur → IsLeast (φ '' Set.Icc ul ur) c) ∧ (ur ≤ ul → IsGreatest (φ '' Set.Icc ur ul) c)

end

end Samurai

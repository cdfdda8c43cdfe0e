/-
Vocabulary for the linear homogeneous schemes.
-/
import Verif.Spec.Flux
import Verif.Model.LinFlux

namespace Samurai

section
variable {K U V : Type} [Field K] [AddCommGroup U] [Module K U] [AddCommGroup V] [Module K V]

/-- `Σ_c A_c u(cell c)`. -/
def linValue (u : Int → U) : List (U →ₗ[K] V) → List MCell → V
  | a :: A, m :: C => a (u m.index) + linValue u A C
  | _, _ => 0

/-- The level of the cells of a stencil. -/
def levelOf (c : List MCell) : Nat := match c with | m :: _ => m.level | [] => 0

/-- The flux of a linear scheme as a flux function: the coefficients for the length of the cells, applied to the values of the cells. -/
def linFlux (h0 : K) (u : Int → U) (ld : LinDef K U V) : FluxDef V where
  stencil := ld.stencil
  flux := fun d => asConservative fun c => linValue u (ld.coeffs d (cellLength h0 (levelOf c))) c

end

end Samurai

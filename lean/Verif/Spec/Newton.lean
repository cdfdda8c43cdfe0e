/-
Specification for the Newton solver: what the Jacobians given by the user have to be, and what the functions may read.
-/
import Verif.Spec.LinFlux
import Verif.Model.Newton
import Mathlib.Analysis.Calculus.Deriv.Basic

namespace Samurai

section
variable {K : Type} [NontriviallyNormedField K] {m p : Nat}

/-- The blocks `J` are the derivatives of the two fluxes `F` with respect to the values in the cells of the stencil `C`, at the field `u`: for every direction `v`, the derivative of
`F` along `v` is the sum of the products of the blocks and of the values of `v` in the cells. There are as many blocks for the two fluxes. -/
structure JacobianAt (F : List MCell → (Int → Fin m → K) → (Fin p → K) × (Fin p → K)) (J : List MCell → (Int → Fin m → K) →
    List ((Fin m → K) →ₗ[K] (Fin p → K)) × List ((Fin m → K) →ₗ[K] (Fin p → K))) (C : List MCell) (u : Int → Fin m → K) : Prop where
  size : (J C u).1.length = (J C u).2.length
  fst : ∀ (v : Int → Fin m → K) (i : Fin p), HasDerivAt (fun t : K => (F C fun k => u k + t • v k).1 i) (linValue v (J C u).1 C i) 0
  snd : ∀ (v : Int → Fin m → K) (i : Fin p), HasDerivAt (fun t : K => (F C fun k => u k + t • v k).2 i) (linValue v (J C u).2 C i) 0

/-- The user has given, in each direction, a flux function and a Jacobian function, and the second one is the derivative of the first one at the field `u`. -/
def NonlinDef.HasJacobian (nd : NonlinDef K (Fin m → K) (Fin p → K)) (n : Nat) (u : Int → Fin m → K) : Prop :=
  ∀ d ≤ n, ∃ F J, nd.fluxFunction d = some F ∧ nd.jacFunction d = some J ∧ ∀ C, JacobianAt F J C u

end

section
variable {K U V : Type} [Field K] [AddCommGroup U] [Module K U] [AddCommGroup V] [Module K V]

/-- The flux functions of the user only read the field in the cells of the stencil. -/
def NonlinDef.ReadsStencil (nd : NonlinDef K U V) (n : Nat) : Prop :=
  ∀ d ≤ n, ∀ F, nd.fluxFunction d = some F → ∀ C u1 u2, (∀ c ∈ C, u1 c.index = u2 c.index) → F C u1 = F C u2

/-- The Jacobian functions of the user only read the field in the cells of the stencil. -/
def NonlinDef.JacReadsStencil (nd : NonlinDef K U V) (n : Nat) : Prop :=
  ∀ d ≤ n, ∀ J, nd.jacFunction d = some J → ∀ C u1 u2, (∀ c ∈ C, u1 c.index = u2 c.index) → J C u1 = J C u2

end

end Samurai

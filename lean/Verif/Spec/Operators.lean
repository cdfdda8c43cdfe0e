/-
Vocabulary for the operators: values on the neighbours of a cell, centres of cells.
-/
import Verif.Spec.LinFlux
import Verif.Model.Operators

namespace Samurai

section
variable {K U V : Type} [Field K] [AddCommGroup U] [Module K U] [AddCommGroup V] [Module K V]

/-- The flux of a linear heterogeneous scheme as a flux function. -/
def hetFlux (u : Int → U) (hd : HetDef K U V) : FluxDef V where
  stencil := hd.stencil
  flux := fun d => asConservative fun c => linValue u (hd.coeffs d c) c

/-- The field `u`, given by the numbers of the cells, has the value `val l p` on the cell `p` of level `l`. -/
def FieldIs (n : Nat) (ref : CA) (u : Int → U) (val : Nat → List Int → U) : Prop := ∀ l p i, (l, p, i) ∈ ref.numbered n → u i = val l p

/-- `Σ_s A_s f(q + s)` over the vectors `s` of a stencil. -/
def stencilSum (n : Nat) (f : List Int → U) (q : List Int) : List (U →ₗ[K] V) → List (Nat → Int) → V
  | a :: A, s :: S => a (f (shiftPoint s n q)) + stencilSum n f q A S
  | _, _ => 0

/-- The leaf `p` of level `l` lies between leaves of its level in every Cartesian direction. -/
def Regular (n : Nat) (cells : CA) (l : Nat) (p : List Int) : Prop :=
  cells.Mem n l p ∧ ∀ d ≤ n, cells.Mem n l (shiftPoint (unitDir d) n p) ∧ cells.Mem n l (shiftPoint (fun k => - unitDir d k) n p)

/-- The neighbours of a cell in the direction `d`. -/
def after (n d : Nat) (p : List Int) : List Int := shiftPoint (unitDir d) n p
def before (n d : Nat) (p : List Int) : List Int := shiftPoint (fun k => - unitDir d k) n p

/-- The coordinate `k` (0 is x) of the centre of the cell `p` whose sides have length `h`. The coordinates of a cell are listed from the last one to x. -/
def centre (n : Nat) (h : K) (p : List Int) (k : Nat) : K := h * ((p.getD (n - k) 0 : Int) : K) + h / 2

end

end Samurai

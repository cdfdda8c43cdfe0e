/-
Model of the finite volume expressions of fields (`include/samurai/stencil_field.hpp`, `include/samurai/operators_base.hpp`): `upwind`, `upwind_scalar_burgers`, and the assignment
`unp1 = u - dt * upwind(a, u)` (field.hpp:667-680, field_expression.hpp:72-97). Scalar fields on the same mesh; `n` is `dim - 1`; exact arithmetic.
The versions of the operators for one, two and three dimensions are the same definition here, the directions being numbered from x.
-/
import Verif.Model.GhostUpdate
import Verif.Model.Cell
import Verif.Spec.Interface
import Mathlib.Algebra.Order.Field.Basic

namespace Samurai

section
variable {K : Type} [Field K] [LinearOrder K] [IsStrictOrderedRing K]

/-- `upwind_op::flux(a, ul, ur)` (stencil_field.hpp:86-92), on one element. -/
def upwindSideFlux (a ul ur : K) : K := 1 / 2 * a * (ul + ur) + 1 / 2 * |a| * (ul - ur)

/-- `upwind_scalar_burgers_op::flux(a, ul, ur)` (stencil_field.hpp:187-204), on one element: `out` is 0, then the two masked assignments. -/
def scalarBurgersFlux (a ul ur : K) : K :=
  let mask1 := a * ul < a * ur
  let mask2 := ul * ur > 0
  let mn := min |ul| |ur|
  let mx := max |ul| |ur|
  let out := 0
  let out := if mask1 ∧ mask2 then 1 / 2 * mn * mn else out
  if ¬ mask1 then 1 / 2 * mx * mx else out

omit [LinearOrder K] [IsStrictOrderedRing K] in
/-- The elements of `u(level, i + s_0, j + s_1, k + s_2)` (field.hpp:116-122, 682-734). -/
def shiftedRow (n : Nat) (ref : CA) (u : Int → K) (s : Nat → Int) (l : Nat) (yz : List Int) (i : Interval) : Option (Nat → K) :=
  (fieldInterval n ref l (shiftPoint s n yz) (i.addRight (s 0))).map fun r k => u (r.index + (i.addRight (s 0)).start + (k : Int))

omit [LinearOrder K] [IsStrictOrderedRing K] in
/-- One direction of `finite_volume::operator()` (stencil_field.hpp:27-52): minus the flux of the left (down, front) side plus the flux of the right (up, back) side
(stencil_field.hpp:94-165, 206-230), `F` being the flux of the direction with its velocity. -/
def fvDirection (n : Nat) (F : K → K → K) (ref : CA) (u : Int → K) (d l : Nat) (yz : List Int) (i : Interval) : Option (Nat → K) :=
  match shiftedRow n ref u (fun k => - unitDir d k) l yz i, shiftedRow n ref u (fun _ => 0) l yz i, shiftedRow n ref u (unitDir d) l yz i with
  | some b, some c, some a => some fun k => - F (b k) (c k) + F (c k) (a k)
  | _, _, _ => none

omit [LinearOrder K] [IsStrictOrderedRing K] in
/-- `finite_volume::operator()` (stencil_field.hpp:27-52) on a row: the sum over the directions, divided by `mesh.cell_length(level)`. -/
def fvOperator (n : Nat) (F : Nat → K → K → K) (scaling : K) (ref : CA) (u : Int → K) (l : Nat) (yz : List Int) (i : Interval) : Option (Nat → K) :=
  ((List.range (n + 1)).foldlM (fun (acc : Nat → K) d => (fvDirection n (F d) ref u d l yz i).map fun g k => acc k + g k) fun _ => 0).map
    fun g k => g k / cellLength scaling l

omit [LinearOrder K] [IsStrictOrderedRing K] in
/-- One turn of the loop of `unp1 = u - dt * op(a, u)` (field.hpp:672-676): the field number `t` is written, the field number `s` is read. The right-hand side is computed before it is
written (`xt::eval`, stencil_field.hpp:31, field_expression.hpp:93-97). -/
def fvRow (n : Nat) (F : Nat → K → K → K) (scaling dt : K) (ref : CA) (s t : Nat) (env : Nat → Int → K) (l : Nat) (yz : List Int) (i : Interval) : Option (Nat → Int → K) :=
  match shiftedRow n ref (env s) (fun _ => 0) l yz i, fvOperator n F scaling ref (env s) l yz i, fieldInterval n ref l yz i with
  | some c, some g, some r => some (Function.update env t fun k =>
      if r.index + i.start ≤ k ∧ k < r.index + i.stop then c (k - r.index - i.start).toNat - dt * g (k - r.index - i.start).toNat else env t k)
  | _, _, _ => none

omit [LinearOrder K] [IsStrictOrderedRing K] in
/-- `unp1 = u - dt * op(a, u)` (field.hpp:667-680; demos/FiniteVolume/advection_2d.cpp:255), `u` and `unp1` being the fields number `s` and `t`. -/
def fvStep (n : Nat) (F : Nat → K → K → K) (scaling dt : K) (cells ref : CA) (s t : Nat) (env : Nat → Int → K) : Option (Nat → Int → K) :=
  (forEachIntervalCA n (fun (st : Option (Nat → Int → K)) l yz i => (st.bind fun env => fvRow n F scaling dt ref s t env l yz i, i)) cells (some env)).bind Prod.snd

/-- The fluxes of `upwind(a, u)`. -/
def upwindSideFluxes (a : Nat → K) : Nat → K → K → K := fun d => upwindSideFlux (a d)

/-- The fluxes of `upwind_scalar_burgers(a, u)`. -/
def scalarBurgersFluxes (a : Nat → K) : Nat → K → K → K := fun d => scalarBurgersFlux (a d)

end

end Samurai

/-
Model of the operators provided with the library (`schemes/fv/operators/diffusion.hpp`, `gradient.hpp`, `divergence.hpp`, `convection_lin.hpp`,
`convection_nonlin.hpp`), of the linear heterogeneous schemes (`flux_based_scheme__lin_het.hpp`, `explicit_flux_based_scheme__lin_het.hpp`) and of
the algebra of schemes (`flux_based/algebraic_operators.hpp`, `explicit_operator_sum.hpp`).
A field of size `m` has values in `Fin m → K`. `n` is `dim - 1`. Exact arithmetic.
-/
import Verif.Model.LinFlux
import Verif.Model.Stencil
import Mathlib.Algebra.BigOperators.Group.Finset.Basic
import Mathlib.Algebra.BigOperators.Ring.Finset
import Mathlib.Data.Fintype.BigOperators
import Mathlib.Algebra.Order.Ring.Defs
import Mathlib.Tactic.Ring

namespace Samurai

section
variable {K : Type} [Field K]

/-- A coefficient of a stencil: a matrix with one row per component of the output field and one column per component of the input field, applied with
`field_value(output, field_i) += cell_coeff(c, field_i, field_j) * field_value(input, field_j)` (explicit_flux_based_scheme__lin_hom.hpp:57-78). -/
def matMap {a b : Nat} (M : Fin a → Fin b → K) : (Fin b → K) →ₗ[K] (Fin a → K) where
  toFun := fun u i => ∑ j, M i j * u j
  map_add' := by
    intro u v
    funext i
    simp only [Pi.add_apply, mul_add]
    exact Finset.sum_add_distrib
  map_smul' := by
    intro s u
    funext i
    simp only [Pi.smul_apply, smul_eq_mul, RingHom.id_apply, Finset.mul_sum]
    exact Finset.sum_congr rfl fun j _ => by ring

/-- `make_diffusion_order2(K)` (diffusion.hpp:125-175): `field_size` is `m`. For `field_size == 1` the coefficient is the only entry of the matrix. -/
def diffusionOp (m : Nat) (k : Nat → K) : LinDef K (Fin m → K) (Fin m → K) where
  stencil := fun d => lineStencil d 2
  coeffs := fun d h => [matMap fun i j => if i = j then (-1 / h) * (- k d) else 0, matMap fun i j => if i = j then (1 / h) * (- k d) else 0]

/-- `make_multi_diffusion_order2(K)` (diffusion.hpp:177-242): one coefficient per component. -/
def multiDiffusionOp (m : Nat) (k : Fin m → K) : LinDef K (Fin m → K) (Fin m → K) where
  stencil := fun d => lineStencil d 2
  coeffs := fun _ h => [matMap fun i j => if i = j then (-1 / h) * (- k i) else 0, matMap fun i j => if i = j then (1 / h) * (- k i) else 0]

/-- `make_gradient_order2()` (gradient.hpp:6-51): the row `d` is filled with 0.5. -/
def gradientOp (n : Nat) : LinDef K (Fin 1 → K) (Fin (n + 1) → K) where
  stencil := fun d => lineStencil d 2
  coeffs := fun d _ => [matMap fun i _ => if i.val = d then 1 / 2 else 0, matMap fun i _ => if i.val = d then 1 / 2 else 0]

/-- `make_divergence_order2()` (divergence.hpp:6-52): the column `d` is filled with 0.5. -/
def divergenceOp (n : Nat) : LinDef K (Fin (n + 1) → K) (Fin 1 → K) where
  stencil := fun d => lineStencil d 2
  coeffs := fun d _ => [matMap fun _ j => if j.val = d then 1 / 2 else 0, matMap fun _ j => if j.val = d then 1 / 2 else 0]

/-- The matrix of the upwind schemes (convection_lin.hpp:40-51): the value for a scalar field, otherwise the column `d` is filled with the value. -/
def upwindMatrix (m d : Nat) (a : K) : (Fin m → K) →ₗ[K] (Fin m → K) :=
  matMap fun _ j => if m = 1 then a else if j.val = d then a else 0

/-- `make_convection_upwind(velocity)` (convection_lin.hpp:12-78). `none`: `xt::col(coeffs, d)` beyond the last column. -/
def upwindOp [LinearOrder K] (n m : Nat) (a : Nat → K) : Option (LinDef K (Fin m → K) (Fin m → K)) :=
  if m = 1 ∨ n < m then
    some { stencil := fun d => lineStencil d 2
           coeffs := fun d _ => if 0 ≤ a d then [upwindMatrix m d (a d), 0] else [0, upwindMatrix m d (a d)] }
  else none

/-- The flux of `make_convection_upwind()` for the Burgers equation (convection_nonlin.hpp:145-172) with `f(u) = v(u) * u`, where `v d u` is `u` for a scalar field
and `u(d)` for a vector field: the sign of `v` in the left cell decides. -/
def burgersFlux [LinearOrder K] {m : Nat} (v : Nat → (Fin m → K) → K) (u : Int → Fin m → K) : FluxDef (Fin m → K) where
  stencil := fun d => lineStencil d 2
  flux := fun d => asConservative fun c =>
    match c with
    | left :: right :: _ => if 0 ≤ v d (u left.index) then v d (u left.index) • u left.index else v d (u right.index) • u right.index
    | _ => 0

/-- `make_convection_upwind()` (convection_nonlin.hpp:22-177) for a scalar field. -/
def burgersScalar [LinearOrder K] (u : Int → Fin 1 → K) : FluxDef (Fin 1 → K) := burgersFlux (fun _ w => w 0) u

/-- `make_convection_upwind()` (convection_nonlin.hpp:22-177) for a vector field; `field_size == dim` (`static_assert`). -/
def burgersVector [LinearOrder K] (n : Nat) (u : Int → Fin (n + 1) → K) : FluxDef (Fin (n + 1) → K) :=
  burgersFlux (fun d w => if hd : d < n + 1 then w ⟨d, hd⟩ else 0) u

end

/-! ### linear heterogeneous schemes -/

section
variable {K U V : Type} [Field K] [AddCommGroup U] [Module K U] [AddCommGroup V] [Module K V]

/-- `NormalFluxDefinition` of a linear heterogeneous scheme (flux_definition.hpp:150-164): the coefficients depend on the cells of the stencil. -/
structure HetDef (K U V : Type) [Field K] [AddCommGroup U] [Module K U] [AddCommGroup V] [Module K V] where
  stencil : Nat → List (Nat → Int)
  coeffs : Nat → List MCell → List (U →ₗ[K] V)

/-- The callback of the interior loops (explicit_flux_based_scheme__lin_het.hpp:47-77): one update of the left cell and one of the right cell for each cell of the
stencil. `A`, `B` are the left and right contributions. -/
def hetFace (u : Int → U) (A B : List (U →ₗ[K] V)) (f : FaceCall) : List (Upd V) :=
  stencilLoop (fun (a b : U →ₗ[K] V) (c : MCell) => [(f.left.index, a (u c.index)), (f.right.index, b (u c.index))]) A B f.comput

/-- The callback of the boundary loops (explicit_flux_based_scheme__lin_het.hpp:82-106). -/
def hetBdry (u : Int → U) (A : List (U →ₗ[K] V)) (f : BdryCall) : List (Upd V) :=
  stencilLoop (fun (a _ : U →ₗ[K] V) (c : MCell) => [(f.cell.index, a (u c.index))]) A A f.comput

/-- `for_each_interior_interface_and_coeffs`, same level (flux_based_scheme__lin_het.hpp:82-101). The loop is sequential: one task. -/
def hetSameRegion (n : Nat) (h0 : K) (u : Int → U) (ref cells : CA) (dir : Nat → Int) (S : List (Nat → Int)) (C : List MCell → List (U →ₗ[K] V))
    (level : Nat) : Option (List (Region V)) :=
  (sameLevelFaces n ref cells level dir S).map fun fs => [⟨false, [fs.flatMap fun f =>
    let h := cellLength h0 level
    let L := contributionL n (C f.comput) h h
    hetFace u L (negL L) f]⟩]

/-- `for_each_interior_interface_and_coeffs`, level jumps (flux_based_scheme__lin_het.hpp:104-151). -/
def hetJumpRegions (n : Nat) (h0 : K) (u : Int → U) (ref cells : CA) (maxL : Nat) (dir : Nat → Int) (S : List (Nat → Int)) (C : List MCell → List (U →ₗ[K] V))
    (level : Nat) : Option (List (Region V)) :=
  match jumpFaces n ref cells maxL level dir S, jumpFacesOpp n ref cells maxL level dir S with
  | some a, some b =>
    let h := cellLength h0 level
    let h1 := cellLength h0 (level + 1)
    some [⟨false, [a.flatMap fun f => hetFace u (contributionL n (C f.comput) h1 h) (contributionL n (negL (C f.comput)) h1 h1) f]⟩,
      ⟨false, [b.flatMap fun f => hetFace u (contributionL n (C f.comput) h1 h1) (contributionL n (negL (C f.comput)) h1 h) f]⟩]
  | _, _ => none

/-- `for_each_boundary_interface_and_coeffs` (flux_based_scheme__lin_het.hpp:167-205), for one level. -/
def hetBdryRegions (n : Nat) (h0 : K) (u : Int → U) (ref : CA) (sub : LCA) (cells : CA) (dir : Nat → Int) (S : List (Nat → Int))
    (C : List MCell → List (U →ₗ[K] V)) (level : Nat) : Option (List (Region V)) :=
  match bdryFaces n ref sub cells dir S level, bdryFacesOpp n ref sub cells dir S level with
  | some a, some b =>
    let h := cellLength h0 level
    some [⟨false, [a.flatMap fun f => hetBdry u (contributionL n (C f.comput) h h) f]⟩,
      ⟨false, [b.flatMap fun f => hetBdry u (contributionL n (negL (C f.comput)) h h) f]⟩]
  | _, _ => none

/-- `Explicit<FluxBasedScheme>::apply(d, output_field, input_field)` (explicit_flux_based_scheme__lin_het.hpp:34-109). -/
def hetDirectionRegions (n : Nat) (h0 : K) (u : Int → U) (ref : CA) (sub : LCA) (cells : CA) (maxL : Nat) (bdry : Bool) (hd : HetDef K U V)
    (d : Nat) (dir : Nat → Int) : Option (List (Region V)) :=
  match overLevels (hetSameRegion n h0 u ref cells dir (hd.stencil d) (hd.coeffs d)) cells.levels,
    overLevels (hetJumpRegions n h0 u ref cells maxL dir (hd.stencil d) (hd.coeffs d)) (List.range' cells.minLevel (cells.maxLevel - cells.minLevel)),
    (if bdry then overLevels (hetBdryRegions n h0 u ref sub cells dir (hd.stencil d) (hd.coeffs d)) cells.usedLevels else some []) with
  | some a, some b, some c => some (a ++ b ++ c)
  | _, _, _ => none

/-- All the directions (explicit_FV_scheme.hpp:70-76). -/
def hetSchemeRegions (n : Nat) (h0 : K) (u : Int → U) (ref : CA) (sub : LCA) (cells : CA) (maxL : Nat) (bdry : Bool) (hd : HetDef K U V) :
    Option (List (Region V)) :=
  overLevels (fun d => hetDirectionRegions n h0 u ref sub cells maxL bdry hd d (cartesianDir d)) (List.range (n + 1))

/-- `apply_to(input_field)` (explicit_FV_scheme.hpp:50-58). -/
def hetApplyTo (n : Nat) (h0 : K) (u : Int → U) (ref : CA) (sub : LCA) (cells : CA) (maxL : Nat) (bdry : Bool) (hd : HetDef K U V) : Option (Int → V) :=
  (hetSchemeRegions n h0 u ref sub cells maxL bdry hd).map fun rs => rs.foldl Region.run fun _ => 0

end

section
variable {K : Type} [Field K]

/-- `make_diffusion_order2(K)` with a field of coefficients (diffusion.hpp:266-323). `k_right` is read in the left cell and not used. -/
def hetDiffusionOp (h0 : K) (m : Nat) (k : Int → Nat → K) : HetDef K (Fin m → K) (Fin m → K) where
  stencil := fun d => lineStencil d 2
  coeffs := fun d c =>
    match c with
    | left :: _ =>
      let h := cellLength h0 left.level
      [matMap fun i j => if i = j then - k left.index d / h * (-1) else 0, matMap fun i j => if i = j then k left.index d / h * (-1) else 0]
    | [] => []

/-- `make_convection_upwind(velocity_field)` (convection_lin.hpp:141-207): the velocity of the left cell. `none` as in `upwindOp`. -/
def hetUpwindOp [LinearOrder K] (n m : Nat) (a : Int → Nat → K) : Option (HetDef K (Fin m → K) (Fin m → K)) :=
  if m = 1 ∨ n < m then
    some { stencil := fun d => lineStencil d 2
           coeffs := fun d c =>
             match c with
             | left :: _ => if 0 ≤ a left.index d then [upwindMatrix m d (a left.index d), 0] else [0, upwindMatrix m d (a left.index d)]
             | [] => [] }
  else none

end

/-! ### algebra of schemes -/

section
variable {K U V : Type} [Field K] [AddCommGroup U] [Module K U] [AddCommGroup V] [Module K V]

/-- A linear homogeneous scheme: the flux definition and `m_include_boundary_fluxes` (flux_based_scheme__lin_hom.hpp:30-58). -/
structure LinScheme (K U V : Type) [Field K] [AddCommGroup U] [Module K U] [AddCommGroup V] [Module K V] where
  defn : LinDef K U V
  bdry : Bool

/-- `scalar * scheme` (algebraic_operators.hpp:6-71) for a linear homogeneous scheme. -/
def LinScheme.smul [DecidableEq K] (s : K) (a : LinScheme K U V) : LinScheme K U V :=
  { defn := { stencil := a.defn.stencil, coeffs := fun d => if s ≠ 1 then fun h => (a.defn.coeffs d h).map fun x => s • x else a.defn.coeffs d }
    bdry := a.bdry }

/-- `-scheme` (algebraic_operators.hpp:143-159). -/
def LinScheme.neg [DecidableEq K] (a : LinScheme K U V) : LinScheme K U V := a.smul (-1)

/-- `scheme1 + scheme2` for the same configuration (algebraic_operators.hpp:76-99): a copy of `scheme1` with the sum of the flux functions. The arrays of
coefficients are added entry by entry (algebraic_array.hpp); they have the same size, the stencil size of the configuration. -/
def LinScheme.add (a b : LinScheme K U V) : LinScheme K U V :=
  { defn := { stencil := a.defn.stencil, coeffs := fun d h => List.zipWith (fun x y => x + y) (a.defn.coeffs d h) (b.defn.coeffs d h) }
    bdry := a.bdry }

/-- `make_laplacian_order2()` (diffusion.hpp:260-264): `-make_diffusion_order2(1.)`; boundary fluxes included (flux_based_scheme__lin_hom.hpp:31). -/
def laplacianOp [DecidableEq K] (m : Nat) : LinScheme K (Fin m → K) (Fin m → K) := LinScheme.neg ⟨diffusionOp m fun _ => 1, true⟩

/-- `scheme(field)` (flux_based_scheme.hpp / explicit_FV_scheme.hpp:50-58). -/
def LinScheme.apply (n : Nat) (h0 : K) (par : Bool) (u : Int → U) (ref : CA) (sub : LCA) (cells : CA) (maxL : Nat) (a : LinScheme K U V) :
    Option (Int → V) :=
  linApplyTo n h0 par u ref sub cells maxL a.bdry a.defn

/-- A non-linear scheme. -/
structure NonlinScheme (V : Type) where
  defn : FluxDef V
  bdry : Bool

/-- `scalar * scheme` (algebraic_operators.hpp:36-66) for a non-linear scheme: the pair of fluxes is multiplied, `flux_function` or, when only `cons_flux_function` is
set, through it (flux_definition.hpp:105-114). -/
def NonlinScheme.smul [DecidableEq K] (s : K) (a : NonlinScheme V) : NonlinScheme V :=
  { defn := { stencil := a.defn.stencil, flux := fun d => if s ≠ 1 then fun c => (s • (a.defn.flux d c).1, s • (a.defn.flux d c).2) else a.defn.flux d }
    bdry := a.bdry }

/-- An operator that can be applied explicitly: the regions of its `apply(output_field, input_field)`. -/
@[reducible] def ExplicitOp (V : Type) : Type := Option (List (Region V))

/-- `Explicit<OperatorSum>::apply` (explicit_operator_sum.hpp:24-31): the operators one after the other, on the same output field; `none` if one of them fails. -/
def operatorSumRun : List (ExplicitOp V) → (Int → V) → Option (Int → V)
  | [], out => some out
  | none :: _, _ => none
  | some rs :: ops, out => operatorSumRun ops (rs.foldl Region.run out)

/-- `apply_to(input_field)` of a sum of operators (explicit_FV_scheme.hpp:50-58). -/
def operatorSumApplyTo (ops : List (ExplicitOp V)) : Option (Int → V) := operatorSumRun ops fun _ => 0

end

end Samurai

/-
Model of the cell-based schemes (`schemes/fv/cell_based/*.hpp`), of their assembly (`petsc/fv/cell_based_scheme_assembly.hpp`) and of the assembly of the sums of schemes
(`petsc/fv/operator_sum_assembly.hpp`). As in `Model/LinFlux.lean` a coefficient is a linear map: the loops on the components are the application of its matrix. `n` is `dim - 1`.
Exact arithmetic.
-/
import Verif.Model.PetscSystem

namespace Samurai

/-! ### the loops -/

/-- `for_each_meshinterval(lca, f)` (algorithm.hpp:134-143): the intervals in the order of the iterator, not guarded by `empty()`. -/
def meshIntervals (n : Nat) (L : LCA) : Option (List Call) :=
  match iterBegin L n with
  | none => none
  | some it => (forEachLoop n (fun (s : List Call) yz i => (s ++ [(yz, i)], i)) ((L.cells 0).length + 1) L it []).map Prod.snd

/-- `for_each_stencil(mesh, level, stencil_it, f)` (stencil.hpp:671-680): the arrays of cells on which `f` is called. -/
def levelStencils (n : Nat) (ref cells : CA) (S : List (Nat → Int)) (level : Nat) : Option (List (List MCell)) :=
  match meshIntervals n (cells.lca level) with
  | none => none
  | some calls => facesOf (stencilRow n ref S level) calls

section
variable {K U V : Type} [Field K] [AddCommGroup U] [Module K U] [AddCommGroup V] [Module K V]

/-- `CellBasedSchemeDefinition` of a linear homogeneous scheme (cell_based_scheme_definition.hpp:140-157) and `cfg::center_index`: the stencil, the position of its centre and,
for each length of a cell, one coefficient per cell of the stencil. -/
structure CellDef (K U V : Type) [Field K] [AddCommGroup U] [Module K U] [AddCommGroup V] [Module K V] where
  stencil : List (Nat → Int)
  center : Nat
  coeffs : K → List (U →ₗ[K] V)

/-- `for_each_stencil_and_coeffs` (cell_based_scheme__lin_hom.hpp:81-99): the arguments of the calls of `apply_coeffs`. -/
def cellCalls (n : Nat) (h0 : K) (ref cells : CA) (cd : CellDef K U V) : Option (List (List MCell × List (U →ₗ[K] V))) :=
  overLevels (fun level =>
    let A := cd.coeffs (cellLength h0 level)
    (levelStencils n ref cells cd.stencil level).map fun l => l.map fun c => (c, A)) cells.usedLevels

/-- The callback of `apply` (explicit_cell_based_scheme.hpp:39-54): the loop on the cells of the stencil. -/
def cellUpdates (u : Int → U) (center : Nat) (c : List MCell × List (U →ₗ[K] V)) : List (Upd V) :=
  (c.2.zip c.1).map fun e => ((cellAt c.1 center).index, e.1 (u e.2.index))

/-- `Explicit<CellBasedScheme>::apply` of a linear scheme (explicit_cell_based_scheme.hpp:36-55). There is one task: the loops are not parallel. -/
def cellRegions (n : Nat) (h0 : K) (u : Int → U) (ref cells : CA) (cd : CellDef K U V) : ExplicitOp V :=
  (cellCalls n h0 ref cells cd).map fun l => [⟨false, [l.flatMap (cellUpdates u cd.center)]⟩]

/-- `apply_to(input_field)` (explicit_FV_scheme.hpp:50-58): the output field is filled with 0. -/
def cellApplyTo (n : Nat) (h0 : K) (u : Int → U) (ref cells : CA) (cd : CellDef K U V) : Option (Int → V) :=
  (cellRegions n h0 u ref cells cd).map fun rs => rs.foldl Region.run fun _ => 0

/-- A non-linear cell-based scheme (cell_based_scheme_definition.hpp:86-121): `scheme_function` reads the input field. -/
structure CellFun (U V : Type) where
  stencil : List (Nat → Int)
  center : Nat
  value : List MCell → (Int → U) → V

/-- `for_each_stencil(mesh, stencil, f)` (stencil.hpp:682-691). -/
def allStencils (n : Nat) (ref cells : CA) (S : List (Nat → Int)) : Option (List (List MCell)) := overLevels (levelStencils n ref cells S) cells.usedLevels

/-- `Explicit<CellBasedScheme>::apply` of a non-linear scheme (explicit_cell_based_scheme.hpp:82-94, cell_based_scheme__nonlin.hpp:150-167). -/
def cellFunRegions (n : Nat) (u : Int → U) (ref cells : CA) (cf : CellFun U V) : ExplicitOp V :=
  (allStencils n ref cells cf.stencil).map fun l => [⟨false, [l.map fun c => ((cellAt c cf.center).index, cf.value c u)]⟩]

/-- `apply_to(input_field)` (explicit_FV_scheme.hpp:50-58). -/
def cellFunApplyTo (n : Nat) (u : Int → U) (ref cells : CA) (cf : CellFun U V) : Option (Int → V) :=
  (cellFunRegions n u ref cells cf).map fun rs => rs.foldl Region.run fun _ => 0

/-! ### algebra -/

/-- `scalar * scheme` (cell_based/algebraic_operators.hpp:9-21). -/
def CellDef.smul (s : K) (a : CellDef K U V) : CellDef K U V :=
  { a with coeffs := fun h => (a.coeffs h).map fun x => s • x }

/-- `-scheme` (cell_based/algebraic_operators.hpp:207-211). -/
def CellDef.neg (a : CellDef K U V) : CellDef K U V := a.smul (-1)

/-- `scheme1 + scheme2` for the same configuration (cell_based/algebraic_operators.hpp:77-89): a copy of `scheme1` with the sums of the coefficients, which have the same
number, the stencil size of the configuration. -/
def CellDef.add (a b : CellDef K U V) : CellDef K U V :=
  { a with coeffs := fun h => List.zipWith (fun x y => x + y) (a.coeffs h) (b.coeffs h) }

/-- `scheme1 - scheme2` (cell_based/algebraic_operators.hpp:228-232). -/
def CellDef.sub (a b : CellDef K U V) : CellDef K U V := a.add (b.smul (-1))

/-- `scalar * scheme` of a non-linear scheme (cell_based/algebraic_operators.hpp:22-31). -/
def CellFun.smul (s : K) (a : CellFun U V) : CellFun U V := { a with value := fun c u => s • a.value c u }

/-- `scheme1 + scheme2` of two non-linear schemes (cell_based/algebraic_operators.hpp:90-103). -/
def CellFun.add (a b : CellFun U V) : CellFun U V := { a with value := fun c u => a.value c u + b.value c u }

/-- `scheme1 + scheme2`, linear and non-linear, of stencil size 1 (cell_based/algebraic_operators.hpp:135-163): `cell` is `stencil_cells[0]`, `cell.length` the length of
its level. -/
def CellDef.addFun (h0 : K) (a : CellDef K U V) (b : CellFun U V) : CellFun U V :=
  { b with value := fun c u => b.value c u + ((a.coeffs (cellLength h0 (cellAt c 0).level)).headD 0) (u (cellAt c 0).index) }

end

section
variable {K : Type} [Field K]

/-! ### operators -/

/-- `make_identity` (operators/identity.hpp:6-25): `star_stencil<dim, 0>`, the identity. -/
def identityOp (n m : Nat) : Option (CellDef K (Fin m → K) (Fin m → K)) := (starStencil n 0).map fun S => ⟨S, 0, fun _ => [LinearMap.id]⟩

/-- `make_zero_operator` (operators/zero_operator.hpp:6-23). -/
def zeroOp (n m p : Nat) : Option (CellDef K (Fin m → K) (Fin p → K)) := (starStencil n 0).map fun S => ⟨S, 0, fun _ => [0]⟩

/-- `make_diffusion_old` (operators/diffusion_old.hpp:31-44): `star_stencil<dim>`, `center_index` is 1. -/
def diffusionOld (n m : Nat) : Option (CellDef K (Fin m → K) (Fin m → K)) :=
  (starStencil n 1).map fun S => ⟨S, 1, fun h => (List.range (1 + 2 * (n + 1))).map fun c =>
    (if c = 1 then ((2 * (n + 1) : Nat) : K) else -1) • (1 / (h * h)) • LinearMap.id⟩

/-! ### assembly -/

/-- The callback of `assemble_scheme` (cell_based_scheme_assembly.hpp:166-296): the coefficients go to the row of the centre. The order of the calls, which differs with the
layout of the fields, and the calls that are skipped because their value is 0 change no coefficient (simplification). -/
def cellEntries (L : MatLayout) {m p : Nat} (center : Nat) (c : List MCell × List ((Fin m → K) →ₗ[K] (Fin p → K))) : List (MatEntry K) :=
  (List.finRange p).flatMap fun (i : Fin p) => (List.finRange m).flatMap fun (j : Fin m) =>
    (c.2.zip c.1).map fun e => (L.row (cellAt c.1 center).index i, L.col e.2.index j, cellCoeff e.1 i j)

/-- `assemble_scheme(A)` (cell_based_scheme_assembly.hpp:150-298). -/
def assembleCell (n : Nat) (h0 : K) (L : MatLayout) {m p : Nat} (ref cells : CA) (cd : CellDef K (Fin m → K) (Fin p → K)) : Option (List (MatEntry K)) :=
  (cellCalls n h0 ref cells cd).map fun l => l.flatMap (cellEntries L cd.center)

/-- The rows marked by `set_is_row_not_empty` (cell_based_scheme_assembly.hpp:262, 292-296). -/
def cellMarks (n : Nat) (h0 : K) (L : MatLayout) {m p : Nat} (ref cells : CA) (cd : CellDef K (Fin m → K) (Fin p → K)) : Option (List Int) :=
  (cellCalls n h0 ref cells cd).map fun l => l.flatMap fun c => (List.range L.outSize).map fun i => L.row (cellAt c.1 cd.center).index i

/-- An operator of a sum: flux-based or cell-based, linear and homogeneous. -/
inductive LinOp (K : Type) [Field K] (m p : Nat) where
  | flux (ld : LinDef K (Fin m → K) (Fin p → K)) (bdry : Bool)
  | cell (cd : CellDef K (Fin m → K) (Fin p → K))

/-- `cfg_t::stencil_size`: the stencils of a flux-based scheme have the same size in all the directions. -/
def LinOp.stencilSize {m p : Nat} : LinOp K m p → Nat
  | .flux ld _ => (ld.stencil 0).length
  | .cell cd => cd.stencil.length

/-- The explicit application of an operator. -/
def LinOp.regions {m p : Nat} (n : Nat) (h0 : K) (par : Bool) (u : Int → Fin m → K) (ref : CA) (sub : LCA) (cells : CA) (maxL : Nat) : LinOp K m p → ExplicitOp (Fin p → K)
  | .flux ld bdry => linSchemeRegions n h0 par u ref sub cells maxL bdry ld
  | .cell cd => cellRegions n h0 u ref cells cd

/-- `assemble_scheme(A)` of an operator. -/
def LinOp.assemble {m p : Nat} (n : Nat) (h0 : K) (L : MatLayout) (rec : GhostMap K) (ref : CA) (sub : LCA) (cells : CA) (maxL : Nat) : LinOp K m p → Option (List (MatEntry K))
  | .flux ld bdry => assembleScheme n h0 L rec ref sub cells maxL bdry ld.stencil (ld.flux h0)
  | .cell cd => assembleCell n h0 L ref cells cd

/-- The rows marked by the assembly of an operator. -/
def LinOp.marks {m p : Nat} (n : Nat) (h0 : K) (L : MatLayout) (ref : CA) (sub : LCA) (cells : CA) (maxL : Nat) : LinOp K m p → Option (List Int)
  | .flux ld bdry => schemeMarks n L ref sub cells maxL bdry ld.stencil
  | .cell cd => cellMarks n h0 L ref cells cd

/-- `get_largest_stencil_index` (scheme_operators.hpp:36-49): the first operator with the largest stencil. -/
def largestIndex (sizes : List Nat) : Nat := sizes.findIdx fun s => s == sizes.foldl max 0

/-- `assemble_matrix` of a sum of operators (matrix_assembly.hpp:211-245, operator_sum_assembly.hpp:180-190, 236-239): all the operators add their coefficients, the rows that are
not empty, the boundary conditions and the ghosts without equation are those of the operator with the largest stencil. -/
def assembleSum [DecidableEq K] (n : Nat) (h0 diag : K) (L : MatLayout) (rec : GhostMap K) {m p : Nat} (ref : CA) (sub : LCA) (cells : CA) (maxL : Nat) (ops : List (LinOp K m p))
    (bcs : List (FieldBc K n m)) : Option ((Int → Int → K) × List Int) :=
  match overList (LinOp.assemble n h0 L rec ref sub cells maxL) ops, (ops[largestIndex (ops.map LinOp.stencilSize)]?).bind (LinOp.marks n h0 L ref sub cells maxL) with
  | some E, some R => finishMatrix n h0 diag L ref cells bcs E R
  | _, _ => none

end

end Samurai

/-
Model of the non-linear flux-based schemes with Jacobians and of the Newton solver: `schemes/fv/flux_based/flux_definition.hpp`,
`schemes/fv/flux_based/flux_based_scheme__nonlin.hpp` (the loops that give the Jacobians), `petsc/fv/flux_based_scheme_assembly.hpp`,
`petsc/nonlinear_solver.hpp` and `petsc/utils.hpp`. `SNESSolve` is not modelled: the function and the matrix that it calls are. With the elimination of the ghosts. `n` is
`dim - 1`. Exact arithmetic.
-/
import Verif.Model.PetscSystem
import Verif.Spec.PetscSystem

namespace Samurai

/-! ### the definition of the fluxes -/

section
variable {K U V : Type} [Field K] [AddCommGroup U] [Module K U] [AddCommGroup V] [Module K V]

/-- `NormalFluxDefinition` of a non-linear scheme for each positive Cartesian direction (flux_definition.hpp:66-144). The four functions of the user are `none` when they are
not set (`nullptr`). They take the cells of the stencil and the field. -/
structure NonlinDef (K U V : Type) [Field K] [AddCommGroup U] [Module K U] [AddCommGroup V] [Module K V] where
  stencil : Nat → List (Nat → Int)
  consFlux : Nat → Option (List MCell → (Int → U) → V)
  flux : Nat → Option (List MCell → (Int → U) → V × V)
  consJac : Nat → Option (List MCell → (Int → U) → List (U →ₗ[K] V))
  jac : Nat → Option (List MCell → (Int → U) → List (U →ₗ[K] V) × List (U →ₗ[K] V))

/-- The flux function used in the loops (flux_based_scheme__nonlin.hpp:92-93, flux_definition.hpp:105-114). `none`: the call of an empty `std::function`. -/
def NonlinDef.fluxFunction (nd : NonlinDef K U V) (d : Nat) : Option (List MCell → (Int → U) → V × V) :=
  match nd.flux d with
  | some f => some f
  | none => (nd.consFlux d).map fun f c u => (f c u, - f c u)

/-- The Jacobian function used in the loops (flux_based_scheme__nonlin.hpp:222-230, flux_definition.hpp:120-134). `none`: the program stops with a message. -/
def NonlinDef.jacFunction (nd : NonlinDef K U V) (d : Nat) : Option (List MCell → (Int → U) → List (U →ₗ[K] V) × List (U →ₗ[K] V)) :=
  match nd.jac d with
  | some f => some f
  | none => (nd.consJac d).map fun f c u => (f c u, negL (f c u))

/-- The fluxes for the field `u`. -/
def NonlinDef.fluxAt (nd : NonlinDef K U V) (u : Int → U) : FluxDef V :=
  ⟨nd.stencil, fun d c => match nd.fluxFunction d with
    | some f => f c u
    | none => (0, 0)⟩

/-- `scheme(field)` (explicit_FV_scheme.hpp:50-58) for a non-linear scheme. -/
def nonlinApply (n : Nat) (h0 : K) (ref : CA) (sub : LCA) (cells : CA) (maxL : Nat) (bdry : Bool) (nd : NonlinDef K U V) (u : Int → U) : Option (Int → V) :=
  if (List.range (n + 1)).all fun d => (nd.fluxFunction d).isSome then applyTo n h0 ref sub cells maxL bdry (nd.fluxAt u) else none

end

/-! ### the Jacobian matrix -/

section
variable {K : Type} [Field K]

/-- The Jacobians of the two fluxes as functions of the cells of the stencil, for one field. -/
abbrev CoeffPair (K : Type) [Field K] (m p : Nat) := List MCell → List ((Fin m → K) →ₗ[K] (Fin p → K)) × List ((Fin m → K) →ₗ[K] (Fin p → K))

/-- Same level (flux_based_scheme__nonlin.hpp:232-250) with the callback of the assembly (flux_based_scheme_assembly.hpp:148-194). -/
def jacSame (n : Nat) (h0 : K) (L : MatLayout) (rec : GhostMap K) {m p : Nat} (ref cells : CA) (dir : Nat → Int) (S : List (Nat → Int)) (J : CoeffPair K m p)
    (level : Nat) : Option (List (MatEntry K)) :=
  (sameLevelFaces n ref cells level dir S).map fun fs => fs.flatMap fun f =>
    let h := cellLength h0 level
    faceEntries L rec (contributionL n (J f.comput).1 h h) (contributionL n (J f.comput).2 h h) f

/-- Level jumps (flux_based_scheme__nonlin.hpp:252-296). -/
def jacJump (n : Nat) (h0 : K) (L : MatLayout) (rec : GhostMap K) {m p : Nat} (ref cells : CA) (maxL : Nat) (dir : Nat → Int) (S : List (Nat → Int)) (J : CoeffPair K m p)
    (level : Nat) : Option (List (MatEntry K)) :=
  match jumpFaces n ref cells maxL level dir S, jumpFacesOpp n ref cells maxL level dir S with
  | some a, some b =>
    let h := cellLength h0 level
    let h1 := cellLength h0 (level + 1)
    some ((a.flatMap fun f => faceEntries L rec (contributionL n (J f.comput).1 h1 h) (contributionL n (J f.comput).2 h1 h1) f) ++
      b.flatMap fun f => faceEntries L rec (contributionL n (J f.comput).1 h1 h1) (contributionL n (J f.comput).2 h1 h) f)
  | _, _ => none

/-- The boundary (flux_based_scheme__nonlin.hpp:304-342), one level. -/
def jacBdry (n : Nat) (h0 : K) (L : MatLayout) {m p : Nat} (ref : CA) (sub : LCA) (cells : CA) (dir : Nat → Int) (S : List (Nat → Int)) (J : CoeffPair K m p)
    (level : Nat) : Option (List (MatEntry K)) :=
  match bdryFaces n ref sub cells dir S level, bdryFacesOpp n ref sub cells dir S level with
  | some a, some b =>
    let h := cellLength h0 level
    some ((a.flatMap fun f => bdryEntries L (contributionL n (J f.comput).1 h h) f) ++
      b.flatMap fun f => bdryEntries L (contributionL n (J f.comput).2 h h) f)
  | _, _ => none

/-- `for_each_interior_interface_and_coeffs` (flux_based_scheme__nonlin.hpp:209-298), one direction. -/
def jacInterior (n : Nat) (h0 : K) (L : MatLayout) (rec : GhostMap K) {m p : Nat} (ref cells : CA) (maxL : Nat) (dir : Nat → Int) (S : List (Nat → Int))
    (J : CoeffPair K m p) : Option (List (MatEntry K)) :=
  match overLevels (jacSame n h0 L rec ref cells dir S J) cells.levels,
    overLevels (jacJump n h0 L rec ref cells maxL dir S J) (List.range' cells.minLevel (cells.maxLevel - cells.minLevel)) with
  | some a, some b => some (a ++ b)
  | _, _ => none

/-- `assemble_scheme(A)` (flux_based_scheme_assembly.hpp:135-217) with the Jacobians `J d`. -/
def assemblePairs (n : Nat) (h0 : K) (L : MatLayout) (rec : GhostMap K) {m p : Nat} (ref : CA) (sub : LCA) (cells : CA) (maxL : Nat) (bdry : Bool)
    (S : Nat → List (Nat → Int)) (J : Nat → CoeffPair K m p) : Option (List (MatEntry K)) :=
  match overLevels (fun d => jacInterior n h0 L rec ref cells maxL (cartesianDir d) (S d) (J d)) (List.range (n + 1)),
    (if bdry then overLevels (fun d => overLevels (jacBdry n h0 L ref sub cells (cartesianDir d) (S d) (J d)) cells.usedLevels) (List.range (n + 1)) else some []) with
  | some a, some b => some (a ++ b)
  | _, _ => none

/-- The Jacobians at the field `u`. -/
def NonlinDef.jacAt {m p : Nat} (nd : NonlinDef K (Fin m → K) (Fin p → K)) (u : Int → Fin m → K) (d : Nat) : CoeffPair K m p := fun c =>
  match nd.jacFunction d with
  | some f => f c u
  | none => ([], [])

/-- `assemble_scheme(A)` of a non-linear scheme whose unknown is `u`. -/
def assembleJacobian (n : Nat) (h0 : K) (L : MatLayout) (rec : GhostMap K) {m p : Nat} (ref : CA) (sub : LCA) (cells : CA) (maxL : Nat) (bdry : Bool)
    (nd : NonlinDef K (Fin m → K) (Fin p → K)) (u : Int → Fin m → K) : Option (List (MatEntry K)) :=
  if (List.range (n + 1)).all fun d => (nd.jacFunction d).isSome then assemblePairs n h0 L rec ref sub cells maxL bdry nd.stencil (nd.jacAt u) else none

/-! ### the Newton solver -/

/-- An operation on each component of a field. -/
def eachComponent {m : Nat} (f : Fin m → (Int → K) → Option (Int → K)) (u : Int → Fin m → K) : Option (Int → Fin m → K) :=
  if ∀ j, (f j fun k => u k j).isSome then some fun k j => ((f j fun k => u k j).getD fun _ => 0) k else none

/-- `copy(x, x_field)` (petsc/utils.hpp:73-91): the array of the field is that of the vector. -/
def fieldOf (L : MatLayout) (m : Nat) (x : Int → K) : Int → Fin m → K := fun k j => x (L.col k j)

/-- `copy(f_field, f)` (petsc/utils.hpp:28-39). -/
def vectorOf (L : MatLayout) {m : Nat} (out : Int → Fin m → K) : Int → K :=
  ((List.range L.nCells).flatMap fun (k : Nat) => (List.finRange m).map fun (i : Fin m) => (L.row (k : Int) i, out (k : Int) i)).foldl vecInsert fun _ => 0

/-- `set_0_for_all_ghosts(b)` (FV_scheme_assembly.hpp:649-667): the numbers of the ghosts. `maxL` is `mesh().max_level()`. -/
def allGhosts (n : Nat) (ref cells : CA) (maxL : Nat) : Option (List Int) :=
  overLevels (fun l => setNumbers n ref (.op .diff (.leaf (.mesh (ref.lca l))) (.leaf (.mesh (cells.lca l)))) l) (List.range (maxL + 1))

/-- `prepare_rhs(b)` (nonlinear_solver.hpp:234-247). -/
def newtonRhs (n : Nat) (origin : Fin (n + 1) → K) (h0 : K) (L : MatLayout) {m : Nat} (ref cells : CA) (maxL : Nat) (bcs : List (FieldBc K n m)) (b : Int → K) :
    Option (Int → K) :=
  match allGhosts n ref cells maxL, bcCalls n h0 ref cells bcs with
  | some G, some B => some (((G.flatMap fun k => (List.range L.outSize).map fun i => (L.row k i, 0)) ++ B.flatMap (bcRhsOf origin h0 L)).foldl vecInsert b)
  | _, _ => none

/-- `PETSC_nonlinear_function` (nonlinear_solver.hpp:157-186): the vector `f` for the vector `x`. -/
def newtonFunction (n : Nat) (M : GhostMesh K) (origin : Fin (n + 1) → K) (L : MatLayout) {m : Nat} (sub : LCA) (bdry : Bool)
    (nd : NonlinDef K (Fin m → K) (Fin m → K)) (bcs : List (FieldBc K n m)) (x : Int → K) : Option (Int → K) :=
  match eachComponent (fun j u => updateGhostMr n M (explicitConds origin M.h0 bcs j) u) (fieldOf L m x) with
  | none => none
  | some w =>
    match nonlinApply n M.h0 M.ref sub M.cells M.maxL bdry nd w with
    | none => none
    | some out => newtonRhs n origin M.h0 L M.ref M.cells M.maxL bcs (vectorOf L out)

/-- `update_bc(field)` (bc.hpp:1347-1357). -/
def updateBcLevels (n : Nat) (M : BcMesh K) (bcs : List (BcCond K)) (u : Int → K) : Option (Int → K) :=
  (List.range' M.ref.minLevel (M.ref.maxLevel + 1 - M.ref.minLevel)).foldlM (fun u level => updateBc n M bcs level u) u

/-- `PETSC_jacobian_function` (nonlinear_solver.hpp:188-230): the matrix for the vector `x`, and the rows that are not empty. They are the same at each call. -/
def newtonJacobian [DecidableEq K] (n : Nat) (M : GhostMesh K) (origin : Fin (n + 1) → K) (diag : K) (L : MatLayout) (rec : GhostMap K) {m : Nat} (sub : LCA)
    (bdry : Bool) (nd : NonlinDef K (Fin m → K) (Fin m → K)) (bcs : List (FieldBc K n m)) (x : Int → K) : Option ((Int → Int → K) × List Int) :=
  match eachComponent (fun j u => updateBcLevels n M.toBcMesh (explicitConds origin M.h0 bcs j) u) (fieldOf L m x) with
  | none => none
  | some w =>
    match assembleJacobian n M.h0 L rec M.ref sub M.cells M.maxL bdry nd w, schemeMarks n L M.ref sub M.cells M.maxL bdry nd.stencil with
    | some E, some R => finishMatrix n M.h0 diag L M.ref M.cells bcs E R
    | _, _ => none

end

end Samurai

/-
Model of the explicit flux-based schemes: `schemes/fv/flux_based/flux_based_scheme__nonlin.hpp`, `explicit_flux_based_scheme__nonlin.hpp` and
`schemes/fv/explicit_FV_scheme.hpp`, with the parallel loops of `algorithm.hpp` (one task per interval).
A field is a function from the number of a cell to a value; the components of a vector field are updated independently of each other,
the value type is any module over the field of the coefficients. Exact arithmetic.
-/
import Verif.Model.Interface
import Verif.Model.Cell
import Mathlib.Algebra.Module.Basic
import Mathlib.Algebra.Field.Defs
import Mathlib.Algebra.Module.Rat

namespace Samurai

/-! ### the tasks of a parallel loop -/

/-- `parallel_for_each_meshinterval(set, f)` (algorithm.hpp:170-186): one task per interval of the set; the task owns a copy of the
interval (formal arguments passed by reference are firstprivate in an orphaned task) and uses the iterators of its thread, which it initialises. -/
def rowsOf {α : Type} (row : Call → Option (List α)) : List Call → Option (List (List α))
  | [] => some []
  | c :: cs =>
    match row c, rowsOf row cs with
    | some a, some b => some (a :: b)
    | _, _ => none

/-- `for_each_interior_interface__same_level<Run::Parallel>` (interface.hpp:11-67). -/
def sameLevelTasks (n : Nat) (ref cells : CA) (level : Nat) (dir : Nat → Int) (S : List (Nat → Int)) : Option (List (List FaceCall)) :=
  match runDefault n (.op .inter (.leaf (.mesh (cells.lca level))) (.leaf (.translate (.mesh (cells.lca level)) fun d => - dir d))) with
  | none => none
  | some calls => rowsOf (sameLevelRow n ref level dir S) calls

/-- `for_each_interior_interface__level_jump_direction<Run::Parallel>` (interface.hpp:82-145). -/
def jumpTasks (n : Nat) (ref cells : CA) (maxL level : Nat) (dir : Nat → Int) (S : List (Nat → Int)) : Option (List (List FaceCall)) :=
  if level ≥ maxL then some []
  else
    match runSet n (.op .inter (.leaf (.mesh (cells.lca level)))
        (.leaf (.translate (.mesh (cells.lca (level + 1))) fun d => - dir d))) (level + 1) with
    | none => none
    | some calls => rowsOf (jumpRow n ref level dir S) calls

/-- `for_each_interior_interface__level_jump_opposite_direction<Run::Parallel>` (interface.hpp:161-228). -/
def jumpTasksOpp (n : Nat) (ref cells : CA) (maxL level : Nat) (dir : Nat → Int) (S : List (Nat → Int)) : Option (List (List FaceCall)) :=
  if level ≥ maxL then some []
  else
    match runSet n (.op .inter (.leaf (.mesh (cells.lca level)))
        (.leaf (.translate (.mesh (cells.lca (level + 1))) dir))) (level + 1) with
    | none => none
    | some calls => rowsOf (jumpRowOpp n ref level dir S) calls

/-- `for_each_boundary_interface__direction<Run::Parallel>` (interface.hpp:336-387). -/
def bdryTasks (n : Nat) (ref : CA) (sub : LCA) (cells : CA) (dir : Nat → Int) (S : List (Nat → Int)) (level : Nat) :
    Option (List (List BdryCall)) :=
  match boundarySet n sub cells level dir with
  | none => none
  | some calls => rowsOf (bdryRow n ref level dir S) calls

/-- `for_each_boundary_interface__opposite_direction<Run::Parallel>` (interface.hpp:389-403). -/
def bdryTasksOpp (n : Nat) (ref : CA) (sub : LCA) (cells : CA) (dir : Nat → Int) (S : List (Nat → Int)) (level : Nat) :
    Option (List (List BdryCall)) :=
  bdryTasks n ref sub cells (fun d => - dir d) (minusStencil dir S) level

/-! ### the contributions -/

section
variable {K V : Type} [Field K] [AddCommGroup V] [Module K V]

/-- `contribution(flux_value, h_face, h_cell)` (flux_based_scheme__nonlin.hpp:57-63), `dim = n + 1`. -/
def contribution (n : Nat) (v : V) (hf hc : K) : V := (hf ^ n / hc ^ (n + 1)) • v

/-- `NormalFluxDefinition` for each positive Cartesian direction (flux_definition.hpp:17-144, 201-260): the stencil, and the flux function which gives the fluxes in the
positive and in the negative direction. The flux function reads the input field, which is fixed. -/
structure FluxDef (V : Type) where
  stencil : Nat → List (Nat → Int)
  flux : Nat → List MCell → V × V

/-- `flux_function_as_conservative` (flux_definition.hpp:105-114). -/
def asConservative (f : List MCell → V) (c : List MCell) : V × V := (f c, - f c)

/-- `output_field[cell] += value`: the number of the cell and the value. -/
@[reducible] def Upd (V : Type) : Type := Int × V

/-- The effect of one update. -/
def addTo (out : Int → V) (u : Upd V) : Int → V := fun i => if i = u.1 then out i + u.2 else out i

/-- One parallel region: the tasks, each a sequence of updates; the updates are protected by `omp atomic` or not. -/
structure Region (V : Type) where
  atomic : Bool
  tasks : List (List (Upd V))

/-- The callback of the interior loops (explicit_flux_based_scheme__nonlin.hpp:36-50, flux_based_scheme__nonlin.hpp:99-112): two atomic
updates. `hf`, `hl`, `hr` are the levels whose lengths are given to `contribution`. -/
def faceUpdates (n : Nat) (h0 : K) (F : List MCell → V × V) (hf hl hr : Nat) (f : FaceCall) : List (Upd V) :=
  [(f.left.index, contribution n (F f.comput).1 (cellLength h0 hf) (cellLength h0 hl)),
   (f.right.index, contribution n (F f.comput).2 (cellLength h0 hf) (cellLength h0 hr))]

/-- The region of an interior loop. -/
def faceRegion (n : Nat) (h0 : K) (F : List MCell → V × V) (hf hl hr : Nat) (ts : List (List FaceCall)) : Region V :=
  ⟨true, ts.map fun t => t.flatMap (faceUpdates n h0 F hf hl hr)⟩

/-- `for_each_interior_interface`, same level (flux_based_scheme__nonlin.hpp:95-113), for one level. -/
def sameRegion (n : Nat) (h0 : K) (ref cells : CA) (dir : Nat → Int) (S : List (Nat → Int)) (F : List MCell → V × V) (level : Nat) :
    Option (List (Region V)) :=
  (sameLevelTasks n ref cells level dir S).map fun t => [faceRegion n h0 F level level level t]

/-- `for_each_interior_interface`, level jumps (flux_based_scheme__nonlin.hpp:116-158), for one level. -/
def jumpRegions (n : Nat) (h0 : K) (ref cells : CA) (maxL : Nat) (dir : Nat → Int) (S : List (Nat → Int)) (F : List MCell → V × V) (level : Nat) :
    Option (List (Region V)) :=
  match jumpTasks n ref cells maxL level dir S, jumpTasksOpp n ref cells maxL level dir S with
  | some a, some b => some [faceRegion n h0 F (level + 1) level (level + 1) a, faceRegion n h0 F (level + 1) (level + 1) level b]
  | _, _ => none

/-- `FluxBasedScheme::for_each_interior_interface(d, field, f)` (flux_based_scheme__nonlin.hpp:82-159): the parallel regions in order. -/
def interiorRegions (n : Nat) (h0 : K) (ref cells : CA) (maxL : Nat) (dir : Nat → Int) (S : List (Nat → Int)) (F : List MCell → V × V) :
    Option (List (Region V)) :=
  match overLevels (sameRegion n h0 ref cells dir S F) cells.levels,
    overLevels (jumpRegions n h0 ref cells maxL dir S F) (List.range' cells.minLevel (cells.maxLevel - cells.minLevel)) with
  | some a, some b => some (a ++ b)
  | _, _ => none

/-- The region of a boundary loop: the updates are not atomic (explicit_flux_based_scheme__nonlin.hpp:55-64). -/
def bdryRegion (n : Nat) (h0 : K) (F : List MCell → V) (level : Nat) (ts : List (List BdryCall)) : Region V :=
  ⟨false, ts.map fun t => t.map fun f => (f.cell.index, contribution n (F f.comput) (cellLength h0 level) (cellLength h0 level))⟩

/-- `FluxBasedScheme::for_each_boundary_interface(d, field, f)` (flux_based_scheme__nonlin.hpp:165-205), for one level. -/
def bdryRegions (n : Nat) (h0 : K) (ref : CA) (sub : LCA) (cells : CA) (dir : Nat → Int) (S : List (Nat → Int)) (F : List MCell → V × V)
    (level : Nat) : Option (List (Region V)) :=
  match bdryTasks n ref sub cells dir S level, bdryTasksOpp n ref sub cells dir S level with
  | some a, some b => some [bdryRegion n h0 (fun c => (F c).1) level a, bdryRegion n h0 (fun c => (F c).2) level b]
  | _, _ => none

/-- `Explicit<FluxBasedScheme>::apply(d, output_field, input_field)` (explicit_flux_based_scheme__nonlin.hpp:32-66). -/
def directionRegions (n : Nat) (h0 : K) (ref : CA) (sub : LCA) (cells : CA) (maxL : Nat) (bdry : Bool) (fd : FluxDef V) (d : Nat)
    (dir : Nat → Int) : Option (List (Region V)) :=
  match interiorRegions n h0 ref cells maxL dir (fd.stencil d) (fd.flux d),
    (if bdry then overLevels (bdryRegions n h0 ref sub cells dir (fd.stencil d) (fd.flux d)) cells.usedLevels else some []) with
  | some a, some b => some (a ++ b)
  | _, _ => none

/-- `positive_cartesian_directions` (stencil.hpp:243-264): the row `d`. -/
def cartesianDir (d : Nat) : Nat → Int := fun k => if k = d then 1 else 0

/-- `ExplicitFVScheme::apply(output_field, input_field)` (explicit_FV_scheme.hpp:70-76), all the directions. -/
def schemeRegions (n : Nat) (h0 : K) (ref : CA) (sub : LCA) (cells : CA) (maxL : Nat) (bdry : Bool) (fd : FluxDef V) : Option (List (Region V)) :=
  overLevels (fun d => directionRegions n h0 ref sub cells maxL bdry fd d (cartesianDir d)) (List.range (n + 1))

/-- A region executed by one thread: the tasks one after the other. -/
def Region.run (out : Int → V) (r : Region V) : Int → V := r.tasks.flatten.foldl addTo out

/-- `apply_to(input_field)` (explicit_FV_scheme.hpp:50-58) with one thread: the output field is filled with 0. -/
def applyTo (n : Nat) (h0 : K) (ref : CA) (sub : LCA) (cells : CA) (maxL : Nat) (bdry : Bool) (fd : FluxDef V) : Option (Int → V) :=
  (schemeRegions n h0 ref sub cells maxL bdry fd).map fun rs => rs.foldl Region.run fun _ => 0

/-! ### parallel execution -/

/-- A task in execution: the value that it has loaded and not yet stored, the remaining updates. -/
structure Task (V : Type) where
  loaded : Option V
  rest : List (Upd V)

/-- The state of a parallel region: the memory and the tasks. -/
structure PState (V : Type) where
  mem : Int → V
  tasks : List (Task V)

/-- One step of a parallel region. An `omp atomic update` is one step; an unprotected `+=` is a load and a store, other tasks may run in between. -/
inductive PStep (atomic : Bool) : PState V → PState V → Prop
  | update (mem : Int → V) (a b : List (Task V)) (u : Upd V) (us : List (Upd V)) (h : atomic = true) :
    PStep atomic ⟨mem, a ++ ⟨none, u :: us⟩ :: b⟩ ⟨addTo mem u, a ++ ⟨none, us⟩ :: b⟩
  | load (mem : Int → V) (a b : List (Task V)) (u : Upd V) (us : List (Upd V)) (h : atomic = false) :
    PStep atomic ⟨mem, a ++ ⟨none, u :: us⟩ :: b⟩ ⟨mem, a ++ ⟨some (mem u.1), u :: us⟩ :: b⟩
  | store (mem : Int → V) (a b : List (Task V)) (u : Upd V) (us : List (Upd V)) (v : V) (h : atomic = false) :
    PStep atomic ⟨mem, a ++ ⟨some v, u :: us⟩ :: b⟩ ⟨fun i => if i = u.1 then v + u.2 else mem i, a ++ ⟨none, us⟩ :: b⟩

/-- A complete execution of a region: any sequence of steps from the start of all tasks to the end of all tasks (the barrier at the end of the
region). -/
inductive PRun (atomic : Bool) : PState V → (Int → V) → Prop
  | done (s : PState V) (h : ∀ t ∈ s.tasks, t.loaded = none ∧ t.rest = []) : PRun atomic s s.mem
  | step (s s' : PState V) (m : Int → V) (h : PStep atomic s s') (hr : PRun atomic s' m) : PRun atomic s m

/-- The regions executed in parallel, one after the other (the barrier at the end of each `omp parallel`). -/
inductive ParRun : List (Region V) → (Int → V) → (Int → V) → Prop
  | nil (m : Int → V) : ParRun [] m m
  | cons (r : Region V) (rs : List (Region V)) (m m' m'' : Int → V) (h : PRun r.atomic ⟨m, r.tasks.map fun t => ⟨none, t⟩⟩ m')
      (hr : ParRun rs m' m'') : ParRun (r :: rs) m m''

end

end Samurai

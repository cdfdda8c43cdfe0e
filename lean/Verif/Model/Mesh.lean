/-
Model of `include/samurai/mesh.hpp`, `mr/mesh.hpp`, `amr/mesh.hpp` and `uniform_mesh.hpp`: the union
meshes, the ghost cells and the renumbering. Sequential code (no MPI).
-/
import Verif.Model.CellList
import Verif.Model.Box
import Verif.Model.SetOps

namespace Samurai

/-- The integer parameters of `MRConfig` (mr/mesh.hpp:31-53) and `amr::Config` (amr/mesh.hpp:29-45). -/
structure MeshConfig where
  maxStencilWidth : Nat
  predictionOrder : Nat

/-- `ghost_width = max(max_stencil_width, prediction_order)` (mr/mesh.hpp:50, amr/mesh.hpp:41). -/
def MeshConfig.ghostWidth (c : MeshConfig) : Nat := Nat.max c.maxStencilWidth c.predictionOrder

/-- An expression evaluated without `on`. -/
def runDefault (n : Nat) (e : Expr Node) : Option (List Call) := ((mkSet e).call n).map Prod.snd

/-- `for (level = hi; level >= lo; --level)`. -/
def downFrom (hi lo : Nat) : List Nat := (List.range' lo (hi + 1 - lo)).reverse

/-- The body shared by all the ghost constructions (mesh.hpp of `mr`: 161-169, 186-193, 206-213; of `amr`:
107-113, 167-173; uniform_mesh.hpp:152-158): `static_nested_loop<dim - 1, -w, w + 1>` over the rows around
`yz`, adding `[start - w, end + w)`. -/
def grow (w : Nat) (yz : List Int) (i : Interval) : List CellCall :=
  (nestedIndices (2 * w + 1) yz.length).map fun st =>
    .interval (List.zipWith (fun y s => y + (s - (w : Int))) yz st) (Interval.mk' (i.start - w) (i.stop + w))

/-- The children rows (mr/mesh.hpp:313-318): `static_nested_loop<dim - 1, 0, 2>`, rows `(yz << 1) + s`,
interval `i << 1`. -/
def childRows (yz : List Int) (i : Interval) : List CellCall :=
  (nestedIndices 2 yz.length).map fun st =>
    .interval (List.zipWith (fun y s => shl y 1 + s) yz st) (i.shiftLeft 1)

/-- The level cell array filled by a functor `lcl[index_yz].add_interval(interval)` on the calls of a set. -/
def lcaOfCalls (n level : Nat) (calls : List Call) : LCA :=
  LCA.ofList (runCellCalls n level (calls.map fun c => .interval c.1 c.2))

/-! ### union -/

/-- One turn of the loop of `construct_union` (mesh.hpp:622-645). -/
def unionStep (n : Nat) (cells : CA) (u : CA) (level : Nat) : Option CA :=
  match runSet n (.op .union (.leaf (.mesh (cells.lca level))) (.leaf (.mesh (u.lca level)))) (level - 1) with
  | none => none
  | some calls => some (u.set (level - 1) (lcaOfCalls n (level - 1) calls))

/-- `construct_union` (mesh.hpp:603-647). `m_union` is a new `CellArray` (all the constructors). -/
def constructUnion (n : Nat) (cells : CA) (minL maxL : Nat) : Option CA :=
  (downFrom maxL (if minL = 0 then 1 else minL)).foldlM (unionStep n cells)
    ((CA.empty n cells.maxSize).set maxL (LCA.ofList (LCL.new n maxL)))

/-- `construct_subdomain` (mesh.hpp:579-601). `1 << shift` rows in each outer direction. Levels above
`m_max_level` (`shift` would wrap around) are undefined behaviour. -/
def constructSubdomain (n : Nat) (cells : CA) (maxL : Nat) : Option LCA :=
  match collectCalls n (fun l yz i =>
      (nestedIndices (2 ^ (maxL - l)) yz.length).map fun st =>
        (l, .interval (List.zipWith (fun y s => shl y (maxL - l) + s) yz st) (i.shiftLeft (maxL - l)))) cells with
  | none => none
  | some h => if h.all fun e => decide (e.1 ≤ maxL) then some (LCA.ofList (runCellCalls n maxL (h.map Prod.snd))) else none

/-! ### multiresolution mesh -/

/-- `cell_list` after the first loop of `update_sub_mesh_impl` (mr/mesh.hpp:158-170). -/
def mrGhostList (n : Nat) (cfg : MeshConfig) (cells : CA) : Option (CL n) :=
  match collectCalls n (fun l yz i => (grow cfg.maxStencilWidth yz i).map fun c => (l, c)) cells with
  | none => none
  | some h => (CL.new n cells.maxSize).calls h

/-- One turn of the loop adding the cells of the multiresolution analysis (mr/mesh.hpp:176-216). `cg` is
`cells_and_ghosts`. `intersection(x, x)` has no `on`. -/
def mrParentStep (n : Nat) (cfg : MeshConfig) (cells u cg : CA) (cl : CL n) (level : Nat) : Option (CL n) :=
  match runSet n (.op .diff (.leaf (.mesh (cg.lca level))) (.leaf (.mesh (u.lca level)))) level with
  | none => none
  | some c1 =>
    match cl.calls (c1.flatMap fun c =>
        (grow cfg.predictionOrder (c.1.map fun y => shr y 1) (c.2.shiftRight 1)).map fun e => (level - 1, e)) with
    | none => none
    | some cl1 =>
      match runDefault n (.op .inter (.leaf (.mesh (cells.lca level))) (.leaf (.mesh (cells.lca level)))) with
      | none => none
      | some c2 =>
        cl1.calls (c2.flatMap fun c =>
          if level - 1 > 0 then
            (grow cfg.predictionOrder (c.1.map fun y => shr y 2) (c.2.shiftRight 2)).map fun e => (level - 2, e)
          else [])

/-- One turn of the last loop (mr/mesh.hpp:306-324): state `cell_list`, `all_cells`, `proj_cells`. -/
def mrProjStep (n : Nat) (u : CA) (s : CL n × CA × CA) (level : Nat) : Option (CL n × CA × CA) :=
  match runDefault n (.op .inter (.leaf (.mesh (s.2.1.lca level))) (.leaf (.mesh (u.lca level)))) with
  | none => none
  | some calls =>
    match s.1.calls (calls.flatMap fun c => (childRows c.1 c.2).map fun e => (level + 1, e)) with
    | none => none
    | some cl => some (cl, s.2.1.set (level + 1) (LCA.ofList (cl.lcl (level + 1))),
        s.2.2.set level (lcaOfCalls n level calls))

/-- The sub-meshes of a mesh: `cells`, `cells_and_ghosts`, `proj_cells`, `all_cells`. -/
structure SubMeshes where
  cells : CA
  ghosts : CA
  proj : CA
  all : CA

/-- `MRMesh::update_sub_mesh_impl` (mr/mesh.hpp:128-332), `minL`, `maxL` are `m_min_level`, `m_max_level`.
Not modelled here: MPI neighbours (217-243), periodic ghosts (245-304; no direction is periodic). -/
def mrUpdateSubMesh (n : Nat) (cfg : MeshConfig) (cells u : CA) (minL maxL : Nat) : Option SubMeshes :=
  match mrGhostList n cfg cells with
  | none => none
  | some cl0 =>
    if maxL ≠ minL then
      match (downFrom cells.maxLevel (if cells.minLevel = 0 then 1 else cells.minLevel)).foldlM
          (mrParentStep n cfg cells u (CA.ofCL cl0)) cl0 with
      | none => none
      | some cl1 =>
        match (List.range cells.maxLevel).foldlM (mrProjStep n u) (cl1, CA.ofCL cl1, CA.empty n cells.maxSize) with
        | none => none
        | some (_, all, proj) => some ⟨cells, CA.ofCL cl0, proj, all⟩
    else some ⟨cells, CA.ofCL cl0, CA.empty n cells.maxSize, CA.ofCL cl0⟩

/-! ### uniform mesh -/

/-- `UniformMesh::update_sub_mesh` (uniform_mesh.hpp:148-163): the mesh `cells_and_ghosts`. -/
def uniformGhosts (n w : Nat) (cells : LCA) : Option LCA :=
  match forEachInterval n (fun acc yz i => (acc ++ grow w yz i, i)) cells [] with
  | none => none
  | some (_, h) => some (LCA.ofList (runCellCalls n cells.level h))

/-- The numbering of the cells of a uniform mesh from the reference mesh (uniform_mesh.hpp:166-183). -/
def uniformRenumber (n : Nat) (ref cells : LCA) : Option LCA :=
  match forEachInterval n (fun (ok : Bool) yz i =>
      match getInterval ref n (yz ++ [i.start]) with
      | none => (false, i)
      | some r => (ok, { i with index := r.index })) cells true with
  | some (c, true) => some c
  | _ => none

/-- `UniformMesh(cl)` (uniform_mesh.hpp:99-109): `cells` and the reference `cells_and_ghosts`. -/
def uniformMesh (n w : Nat) (cells : LCA) : Option (LCA × LCA) :=
  match uniformGhosts n w cells with
  | none => none
  | some g =>
    match updateIndex n g with
    | none => none
    | some ref =>
      match uniformRenumber n ref cells with
      | none => none
      | some c => some (c, ref)

/-! ### renumbering -/

/-- `i.index = reference[level].get_interval(i, index).index` (mesh.hpp:543-549). The state is the success of the
searches so far (`get_interval` reads out of bounds when the cell is not found). -/
def renumberInterval (n : Nat) (ref : CA) (ok : Bool) (l : Nat) (yz : List Int) (i : Interval) : Bool × Interval :=
  match getInterval (ref.lca l) n (yz ++ [i.start]) with
  | none => (false, i)
  | some r => (ok, { i with index := r.index })

/-- The renumbering of one sub-mesh (mesh.hpp:540-551). -/
def renumberSub (n : Nat) (ref c : CA) : Option CA :=
  match forEachIntervalCA n (renumberInterval n ref) c true with
  | some (c', true) => some c'
  | _ => none

/-- `renumbering()` (mesh.hpp:534-552) for the reference mesh `all`; the sub-meshes in the order of their ids. -/
def renumbering (n : Nat) (m : SubMeshes) : Option SubMeshes :=
  match updateIndexCA n m.all with
  | none => none
  | some all =>
    match renumberSub n all m.cells, renumberSub n all m.ghosts, renumberSub n all m.proj with
    | some c, some g, some p => some ⟨c, g, p, all⟩
    | _, _, _ => none

/-- `MRMesh(cl, min_level, max_level)` (mesh.hpp:284-303) and `MRMesh(cl, ref_mesh)` (mesh.hpp:306-324), after `cells`
has been built from the cell list: the sub-meshes and the union meshes. -/
def mrMesh (n : Nat) (cfg : MeshConfig) (cells : CA) (minL maxL : Nat) : Option (SubMeshes × CA) :=
  match constructUnion n cells minL maxL with
  | none => none
  | some u =>
    match mrUpdateSubMesh n cfg cells u minL maxL with
    | none => none
    | some m =>
      match renumbering n m with
      | none => none
      | some m => some (m, u)

end Samurai

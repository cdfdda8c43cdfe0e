/-
Model of `MRMesh::update_sub_mesh_impl` (`include/samurai/mr/mesh.hpp`) with periodic directions. Sequential code (no MPI).
-/
import Verif.Model.Mesh
import Verif.Model.GhostUpdate

namespace Samurai

/-- `lcl[index_yz + view(stencil, range(1, _))].add_interval(i + stencil[0])` on the calls of a set (mr/mesh.hpp:283-287, 297-301). -/
def shiftCalls (n level : Nat) (v : Nat → Int) (calls : List Call) : List (Nat × CellCall) :=
  calls.map fun c => (level, .interval (shiftPoint v n c.1) (c.2.addRight (v 0)))

/-- The boxes `lca1` and `lca2` (mr/mesh.hpp:265-295): the `gw` layers on both sides of the lower and of the upper boundary of the domain in the
direction `d`. -/
def periodicBand (gw : Nat) (lo hi : Nat → Int) (d : Nat) (after : Bool) : Box where
  lo := fun k => if k = d then (if after then hi d - gw else lo d - gw) else lo k - gw
  hi := fun k => if k = d then (if after then hi d + gw else lo d + gw) else hi k + gw

/-- One direction of the addition of the periodic ghosts of a level (mr/mesh.hpp:260-302): state `cell_list`, `all_cells`. -/
def mrPeriodicDir (n gw level : Nat) (lo hi period : Nat → Int) (s : CL n × CA) (d : Nat) : Option (CL n × CA) :=
  match runDefault n (.op .inter (.leaf (.mesh (s.2.lca level))) (.leaf (.mesh (LCA.ofBox n level (periodicBand gw lo hi d false))))) with
  | none => none
  | some c1 =>
    match s.1.calls (shiftCalls n level (fun k => if k = d then period d else 0) c1) with
    | none => none
    | some cl1 =>
      match runDefault n (.op .inter (.leaf (.mesh (s.2.lca level))) (.leaf (.mesh (LCA.ofBox n level (periodicBand gw lo hi d true))))) with
      | none => none
      | some c2 =>
        match cl1.calls (shiftCalls n level (fun k => if k = d then - period d else 0) c2) with
        | none => none
        | some cl2 => some (cl2, s.2.set level (LCA.ofList (cl2.lcl level)))

/-- One level of the addition of the periodic ghosts (mr/mesh.hpp:254-303); `I` are the indices of the domain, of level `domL`. A level finer than
the domain is a shift by a negative number, done only when a direction is periodic. -/
def mrPeriodicLevel (n : Nat) (cfg : MeshConfig) (domL : Nat) (I : List (Int × Int)) (periodic : Nat → Bool) (s : CL n × CA) (level : Nat) :
    Option (CL n × CA) :=
  let dirs := (List.range (n + 1)).filter periodic
  if dirs ≠ [] ∧ domL < level then none
  else dirs.foldlM (mrPeriodicDir n cfg.ghostWidth level (fun d => shr (I.getD d (0, 0)).1 (domL - level))
    (fun d => shr (I.getD d (0, 0)).2 (domL - level)) (fun d => shr ((I.getD d (0, 0)).2 - (I.getD d (0, 0)).1) (domL - level))) s

/-- The addition of the periodic ghosts (mr/mesh.hpp:245-304). The levels of `all_cells` do not change in the loop. -/
def mrPeriodicGhosts (n : Nat) (cfg : MeshConfig) (dom : LCA) (periodic : Nat → Bool) (s : CL n × CA) : Option (CL n × CA) :=
  match domainIndices n dom with
  | none => none
  | some I => (List.range' s.2.minLevel (s.2.maxLevel + 1 - s.2.minLevel)).foldlM (mrPeriodicLevel n cfg dom.level I periodic) s

/-- `MRMesh::update_sub_mesh_impl` (mr/mesh.hpp:128-332) with periodic directions. Not modelled: MPI neighbours (217-243). -/
def mrUpdateSubMeshPeriodic (n : Nat) (cfg : MeshConfig) (dom : LCA) (periodic : Nat → Bool) (cells u : CA) (minL maxL : Nat) : Option SubMeshes :=
  match mrGhostList n cfg cells with
  | none => none
  | some cl0 =>
    if maxL ≠ minL then
      match (downFrom cells.maxLevel (if cells.minLevel = 0 then 1 else cells.minLevel)).foldlM
          (mrParentStep n cfg cells u (CA.ofCL cl0)) cl0 with
      | none => none
      | some cl1 =>
        match mrPeriodicGhosts n cfg dom periodic (cl1, CA.ofCL cl1) with
        | none => none
        | some s =>
          match (List.range cells.maxLevel).foldlM (mrProjStep n u) (s.1, s.2, CA.empty n cells.maxSize) with
          | none => none
          | some (_, all, proj) => some ⟨cells, CA.ofCL cl0, proj, all⟩
    else some ⟨cells, CA.ofCL cl0, CA.empty n cells.maxSize, CA.ofCL cl0⟩

/-- `MRMesh(cl, min_level, max_level)` with periodic directions (mesh.hpp:251-324), after `cells` has been built: the sub-meshes and the union
meshes. `dom` is `m_domain`. -/
def mrMeshPeriodic (n : Nat) (cfg : MeshConfig) (dom : LCA) (periodic : Nat → Bool) (cells : CA) (minL maxL : Nat) : Option (SubMeshes × CA) :=
  match constructUnion n cells minL maxL with
  | none => none
  | some u =>
    match mrUpdateSubMeshPeriodic n cfg dom periodic cells u minL maxL with
    | none => none
    | some m =>
      match renumbering n m with
      | none => none
      | some m => some (m, u)

end Samurai

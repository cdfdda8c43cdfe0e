/-
Model of `include/samurai/amr/mesh.hpp`: the sub-meshes of an AMR mesh. Sequential code (no MPI).
-/
import Verif.Model.Mesh

namespace Samurai

/-- A mesh as operand of a set expression. -/
abbrev opnd (L : LCA) : Expr Node := .leaf (.mesh L)

/-- The sub-meshes of an AMR mesh (`AMR_Id`, amr/mesh.hpp:16-26). -/
structure AMRMeshes where
  cells : CA
  ghosts : CA
  proj : CA
  pred : CA
  all : CA

/-- `cl` after the first loop (amr/mesh.hpp:102-113). -/
def amrGhostList (n : Nat) (cfg : MeshConfig) (cells : CA) : Option (CL n) :=
  match collectCalls n (fun l yz i => (grow cfg.ghostWidth yz i).map fun c => (l, c)) cells with
  | none => none
  | some h => (CL.new n cells.maxSize).calls h

/-- The construction of `proj_cells[level]` (amr/mesh.hpp:121-136). -/
def amrProjStep (n : Nat) (cells u cg : CA) (proj : CA) (level : Nat) : Option CA :=
  match runSet n (.op .diff (.op .union (.op .inter (opnd (cg.lca (level - 1))) (opnd (u.lca (level - 1))))
      (opnd (proj.lca (level - 1)))) (opnd (cells.lca (level - 1)))) level with
  | none => none
  | some calls => some (proj.set level (lcaOfCalls n level calls))

/-- The construction of `pred_cells[level]` (amr/mesh.hpp:139-154); `dom` is `domain()`. -/
def amrPredStep (n : Nat) (cells u cg : CA) (dom : LCA) (pred : CA) (level : Nat) : Option CA :=
  match runSet n (.op .inter (.op .diff (opnd (cg.lca level)) (.op .union (opnd (u.lca level)) (opnd (cells.lca level))))
      (opnd dom)) level with
  | none => none
  | some calls => some (pred.set level (lcaOfCalls n level calls))

/-- The ghosts of the prediction (amr/mesh.hpp:156-173). At level 0 `cl[level - 1]` is out of bounds. -/
def amrGrowStep (n : Nat) (cfg : MeshConfig) (pred : CA) (cl : CL n) (level : Nat) : Option (CL n) :=
  if level = 0 then none
  else
    match runSet n (.op .inter (opnd (pred.lca level)) (opnd (pred.lca level))) (level - 1) with
    | none => none
    | some calls => cl.calls (calls.flatMap fun c => (grow cfg.predictionOrder c.1 c.2).map fun e => (level - 1, e))

/-- The construction of `all_cells[level]` (amr/mesh.hpp:176-187). -/
def amrAllStep (n : Nat) (cg proj : CA) (all : CA) (level : Nat) : Option CA :=
  match runDefault n (.op .union (opnd (cg.lca level)) (opnd (proj.lca level))) with
  | none => none
  | some calls => some (all.set level (lcaOfCalls n level calls))

/-- `amr::Mesh::update_sub_mesh_impl` (amr/mesh.hpp:99-188). Without any leaf `min_level` is out of the bounds of
`proj_cells`. -/
def amrUpdateSubMesh (n : Nat) (cfg : MeshConfig) (cells u : CA) (dom : LCA) : Option AMRMeshes :=
  if cells.maxSize < cells.minLevel then none
  else
    let lo := cells.minLevel
    let hi := cells.maxLevel
    match amrGhostList n cfg cells with
    | none => none
    | some cl0 =>
      match (List.range' (lo + 1) (hi - lo)).foldlM (amrProjStep n cells u (CA.ofCL cl0))
          ((CA.empty n cells.maxSize).set lo (LCA.ofList (LCL.new n lo))) with
      | none => none
      | some proj =>
        match (List.range' (lo + 1) (hi - lo)).foldlM (amrPredStep n cells u (CA.ofCL cl0) dom) (CA.empty n cells.maxSize) with
        | none => none
        | some pred =>
          match (List.range' lo (hi + 1 - lo)).foldlM (amrGrowStep n cfg pred) cl0 with
          | none => none
          | some cl1 =>
            match (List.range' lo (hi + 1 - lo)).foldlM (amrAllStep n (CA.ofCL cl1) proj) (CA.empty n cells.maxSize) with
            | none => none
            | some all => some ⟨cells, CA.ofCL cl1, proj, pred, all⟩

/-- `renumbering()` (mesh.hpp:534-552) on the sub-meshes of an AMR mesh. -/
def amrRenumbering (n : Nat) (m : AMRMeshes) : Option AMRMeshes :=
  match updateIndexCA n m.all with
  | none => none
  | some all =>
    match renumberSub n all m.cells, renumberSub n all m.ghosts, renumberSub n all m.proj, renumberSub n all m.pred with
    | some c, some g, some p, some q => some ⟨c, g, p, q, all⟩
    | _, _, _, _ => none

/-- `amr::Mesh(cl, min_level, max_level)` and `amr::Mesh(cl, ref_mesh)` (mesh.hpp:284-324), after `cells` has been built. -/
def amrMesh (n : Nat) (cfg : MeshConfig) (cells : CA) (dom : LCA) (minL maxL : Nat) : Option (AMRMeshes × CA) :=
  match constructUnion n cells minL maxL with
  | none => none
  | some u =>
    match amrUpdateSubMesh n cfg cells u dom with
    | none => none
    | some m =>
      match amrRenumbering n m with
      | none => none
      | some m => some (m, u)

end Samurai

/-
Model of `include/samurai/mr/mesh_with_overleaves.hpp`: the sub-meshes of a multiresolution mesh with overleaves. Sequential
code (no MPI).
-/
import Verif.Model.Mesh

namespace Samurai

/-- The sub-meshes of a mesh with overleaves (`MROMeshId`, mesh_with_overleaves.hpp:18-29). -/
structure MroMeshes where
  cells : CA
  ghosts : CA
  proj : CA
  union : CA
  all : CA
  over : CA

/-- `MROConfig::ghost_width` (mesh_with_overleaves.hpp:45-46), `gradW` is `graduation_width`. -/
def mroGhostWidth (cfg : MeshConfig) (gradW : Nat) : Nat := max (max (2 * gradW - 1) cfg.maxStencilWidth) cfg.predictionOrder

/-- One turn of the loop "Construct projection cells" (mesh_with_overleaves.hpp:142-169): the cells around the parents of the
leaves of `level`. -/
def mroParentStep (n w : Nat) (cells : CA) (cl : CL n) (level : Nat) : Option (CL n) :=
  match forEachInterval n (fun acc yz i =>
      (acc ++ grow w (yz.map fun y => shr y 1) (Interval.mk' (shr i.start 1) (shr (i.stop + 1) 1)), i)) (cells.lca level) [] with
  | none => none
  | some (_, h) => cl.calls (h.map fun e => (level - 1, e))

/-- One turn of the loop "compaction" (mesh_with_overleaves.hpp:174-195); `all` is `all_cells` before the loop. -/
def mroSiblingStep (n : Nat) (cells u all : CA) (cl : CL n) (level : Nat) : Option (CL n) :=
  if (cells.lca level).isEmpty then some cl
  else
    match runSet n (.op .inter (.leaf (.mesh (u.lca level))) (.op .diff (.leaf (.mesh (all.lca level))) (.leaf (.mesh (cells.lca level)))))
        (level - 1) with
    | none => none
    | some calls => cl.calls (calls.flatMap fun c => (childRows c.1 c.2).map fun e => (level, e))

/-- One turn of the loop on the projection cells (mesh_with_overleaves.hpp:198-210). -/
def mroProjStep (n : Nat) (u all : CA) (proj : CA) (level : Nat) : Option CA :=
  match runDefault n (.op .inter (.leaf (.mesh (all.lca (level - 1)))) (.leaf (.mesh (u.lca (level - 1))))) with
  | none => none
  | some calls => some (proj.set (level - 1) (lcaOfCalls n (level - 1) calls))

/-- The overleaves of one interval (mesh_with_overleaves.hpp:227-237), `cells_to_add = 1`: for every row `index` around
`yz`, the rows `2 * index` and `2 * index + 1` (one is added to all the coordinates). -/
def overRows (yz : List Int) (i : Interval) : List CellCall :=
  (nestedIndices 3 yz.length).flatMap fun st =>
    let index := List.zipWith (fun y s => y + (s - 1)) yz st
    [.interval (index.map fun y => 2 * y) (Interval.mk' (2 * (i.start - 1)) (2 * (i.stop + 1))),
     .interval (index.map fun y => 2 * y + 1) (Interval.mk' (2 * (i.start - 1)) (2 * (i.stop + 1)))]

/-- The calls of the loop "Construct overleaves" (mesh_with_overleaves.hpp:217-239); `maxL` is `max_level()` of the mesh. -/
def overCalls (n : Nat) (cells : CA) (maxL : Nat) : Option (List (Nat × CellCall)) :=
  collectCalls n (fun l yz i => if l < maxL then (overRows yz i).map fun e => (l + 1, e) else []) cells

/-- `MROMesh::update_sub_mesh_impl` (mesh_with_overleaves.hpp:104-244); `w` is `ghost_width`. The union meshes are built by the loop
of `construct_union` (the same text, lines 111-127), between the levels of the leaves. -/
def mroUpdateSubMesh (n w : Nat) (cells : CA) (maxL : Nat) : Option MroMeshes :=
  let lo := if cells.minLevel = 0 then 1 else cells.minLevel
  match constructUnion n cells cells.minLevel cells.maxLevel with
  | none => none
  | some u =>
    match mrGhostList n ⟨w, 0⟩ cells with
    | none => none
    | some cl0 =>
      match (List.range' lo (cells.maxLevel + 1 - lo)).foldlM (mroParentStep n w cells) cl0 with
      | none => none
      | some cl1 =>
        match (downFrom cells.maxLevel lo).foldlM (mroSiblingStep n cells u (CA.ofCL cl1)) cl1 with
        | none => none
        | some cl2 =>
          match (downFrom cells.maxLevel lo).foldlM (mroProjStep n u (CA.ofCL cl2)) (CA.empty n cells.maxSize) with
          | none => none
          | some proj =>
            match overCalls n cells maxL with
            | none => none
            | some h =>
              match (CL.new n cells.maxSize).calls h, cl2.calls h with
              | some ol, some cl3 => some ⟨cells, CA.ofCL cl0, proj, u, CA.ofCL cl3, CA.ofCL ol⟩
              | _, _ => none

/-- `renumbering()` (mesh.hpp:534-552) on the sub-meshes of a mesh with overleaves. -/
def mroRenumbering (n : Nat) (m : MroMeshes) : Option MroMeshes :=
  match updateIndexCA n m.all with
  | none => none
  | some all =>
    match renumberSub n all m.cells, renumberSub n all m.ghosts, renumberSub n all m.proj, renumberSub n all m.union,
        renumberSub n all m.over with
    | some c, some g, some p, some u, some o => some ⟨c, g, p, u, all, o⟩
    | _, _, _, _, _ => none

/-- `MROMesh(cl, min_level, max_level)` (mesh.hpp:284-303), after `cells` has been built from the cell list. The member `m_union` of the
base class (`construct_union()`) is the one of `mrMesh`: it is not used by `update_sub_mesh_impl`. -/
def mroMesh (n w : Nat) (cells : CA) (maxL : Nat) : Option MroMeshes :=
  match mroUpdateSubMesh n w cells maxL with
  | none => none
  | some m => mroRenumbering n m

end Samurai

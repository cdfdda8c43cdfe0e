/-
Model of `update_ghost_mro` (include/samurai/algorithm/update.hpp:52-88), the update of the ghosts of a field on a mesh with overleaves. `n` is
`dim - 1`; a field is the array of its values, addressed by the number of the cell in the reference mesh, which is `mesh[all_cells]`
(mesh_with_overleaves.hpp:18-29). Sequential code, exact values.
-/
import Verif.Model.GhostUpdate
import Verif.Model.AMRMesh
import Verif.Model.MroMesh

namespace Samurai

/-- What `update_ghost_mro` reads from a mesh with overleaves, with what `update_bc` reads: `mesh[proj_cells]`. -/
structure MroGhostMesh (K : Type) extends BcMesh K where
  proj : CA

section
variable {K : Type} [Field K]

/-- One turn of the first loop of `update_ghost_mro` (update.hpp:61-65). -/
def mroDown (n : Nat) (M : MroGhostMesh K) (u : Int → K) (level : Nat) : Option (Int → K) :=
  match runSet n (.op .inter (opnd (M.ref.lca level)) (opnd (M.proj.lca (level - 1)))) (level - 1) with
  | none => none
  | some calls => calls.foldlM (projectRow n M.ref (level - 1)) u

/-- One turn of the last loop of `update_ghost_mro` (update.hpp:68-87). A prediction at level 0 would read the level `-1`: it is an error unless
there is no cell to predict. -/
def mroUp (n : Nat) (M : MroGhostMesh K) (bcs : List (BcCond K)) (u : Int → K) (level : Nat) : Option (Int → K) :=
  match runSet n (.op .inter (.op .diff (opnd (M.ref.lca level)) (.op .union (opnd (M.cells.lca level)) (opnd (M.proj.lca level)))) (opnd M.dom)) level with
  | none => none
  | some calls =>
    if level = 0 ∧ calls ≠ [] then none
    else
      match calls.foldlM (predictRow n M.cfg.predictionOrder M.ref level) u with
      | none => none
      | some u => updateBc n M.toBcMesh bcs level u

/-- `update_ghost_mro(field)` (update.hpp:52-88). `max_level` is `mesh.max_level()`, the maximum level the mesh was given. -/
def updateGhostMro (n : Nat) (M : MroGhostMesh K) (bcs : List (BcCond K)) (u : Int → K) : Option (Int → K) :=
  match (downFrom M.maxL 1).foldlM (mroDown n M) u with
  | none => none
  | some u =>
    match updateBc n M.toBcMesh bcs 0 u with
    | none => none
    | some u => (List.range' M.ref.minLevel (M.maxL + 1 - M.ref.minLevel)).foldlM (mroUp n M bcs) u

end

end Samurai

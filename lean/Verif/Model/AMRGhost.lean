/-
Model of `update_ghost` (include/samurai/algorithm/update.hpp:26-50), the update of the ghosts of a field on an AMR mesh. `n` is `dim - 1`; a field is
the array of its values, addressed by the number of the cell in the reference mesh, which is `mesh[all_cells]`. Sequential code, one field, exact values.
-/
import Verif.Model.GhostUpdate
import Verif.Model.AMRMesh

namespace Samurai

/-- What `update_ghost` reads from an AMR mesh, with what `update_bc` reads: `mesh[proj_cells]` and `mesh[pred_cells]`. -/
structure AMRGhostMesh (K : Type) extends BcMesh K where
  proj : CA
  pred : CA

section
variable {K : Type} [Field K]

/-- One turn of the first loop of `update_ghost` (update.hpp:35-39). -/
def amrDown (n : Nat) (M : AMRGhostMesh K) (u : Int → K) (level : Nat) : Option (Int → K) :=
  match runSet n (.op .inter (opnd (M.proj.lca level)) (opnd (M.ref.lca (level - 1)))) (level - 1) with
  | none => none
  | some calls => calls.foldlM (projectRow n M.ref (level - 1)) u

/-- One turn of the last loop of `update_ghost` (update.hpp:42-47). At level 0 `mesh[reference][level - 1]` is out of bounds. -/
def amrUp (n : Nat) (M : AMRGhostMesh K) (bcs : List (BcCond K)) (u : Int → K) (level : Nat) : Option (Int → K) :=
  if level = 0 then none
  else
    match runSet n (.op .inter (opnd (M.pred.lca level)) (opnd (M.ref.lca (level - 1)))) level with
    | none => none
    | some calls =>
      match calls.foldlM (predictRow n M.cfg.predictionOrder M.ref level) u with
      | none => none
      | some u => updateBc n M.toBcMesh bcs level u

/-- `update_ghost(field)` (update.hpp:26-50). `max_level` is `mesh.max_level()`, the maximum level the mesh was given. -/
def updateGhostAmr (n : Nat) (M : AMRGhostMesh K) (bcs : List (BcCond K)) (u : Int → K) : Option (Int → K) :=
  match (downFrom M.maxL 1).foldlM (amrDown n M) u with
  | none => none
  | some u =>
    match updateBc n M.toBcMesh bcs 0 u with
    | none => none
    | some u => (List.range' M.ref.minLevel (M.maxL + 1 - M.ref.minLevel)).foldlM (amrUp n M bcs) u

end

end Samurai

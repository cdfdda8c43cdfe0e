/-
Model of `keep_only_one_coarse_tag` (`include/samurai/algorithm/update.hpp`), which the processes run before they change their meshes. `n` is `dim - 1`.
-/
import Verif.Model.Adapt
import Verif.Model.MpiGhost

namespace Samurai

/-- The functor of `keep_only_one_coarse_tag` (update.hpp:429-491) on one cell `p` of the level `level - 1`: if all its children have the flag `coarsen` and none has the flag `keep`, their tags are set to 0.
The C++ works on an interval of cells; two cells of the interval have no child in common. -/
def keepOneCell (level : Nat) (t : TagField) (p : List Int) : TagField :=
  let children := childrenOf p
  if (children.all fun q => flagged (t level q) CellFlag.coarsen) && !(children.any fun q => flagged (t level q) CellFlag.keep) then
    children.foldl (fun (t : TagField) q => t.put level q 0#32) t
  else t

/-- The body of the loop on the levels (update.hpp:424-492): `sub` is the subdomain of the neighbour. -/
def keepOneLevel (n : Nat) (cells : CA) (sub : LCA) (t : TagField) (level : Nat) : Option TagField :=
  match runSet n (.op .inter (.leaf (.mesh (cells.lca level))) (.leaf (.mesh sub))) (level - 1) with
  | none => none
  | some calls => some (tagCells (keepOneCell level) calls t)

/-- `keep_only_one_coarse_tag(tag)` (update.hpp:405-496) on the process `rank` among `size` ones; `sub q` is the subdomain of the process `q`, `refMin` is `mesh[reference].min_level()`. -/
def keepOnlyOneCoarseTag (n size rank refMin : Nat) (cells : CA) (sub : Nat → LCA) (t : TagField) : Option TagField :=
  (mpiOthers size rank).foldlM (fun t q =>
    if rank > q then
      (List.range' (max 1 refMin) (cells.maxLevel + 1 - max 1 refMin)).foldlM (keepOneLevel n cells (sub q)) t
    else some t) t

/-- The end of `harten` on a process: `keep_only_one_coarse_tag` (adapt.hpp:348), then the cells of the new mesh of `update_field_mr` (adapt.hpp:350). `ref` is `mesh[reference]`. -/
def mpiNewLeaves (n size minL maxL rank : Nat) (ref cells : CA) (sub : Nat → LCA) (t : TagField) : Option CA :=
  match keepOnlyOneCoarseTag n size rank ref.minLevel cells sub t with
  | none => none
  | some t' => updateLeaves n minL maxL (tagArray n ref t') cells

end Samurai

/-
Model of `update_tag_periodic` (`include/samurai/algorithm/update.hpp`), which `harten` runs after each step of the tagging. `n` is `dim - 1`.
-/
import Verif.Model.Adapt
import Verif.Model.GhostUpdate

namespace Samurai

/-- The functors of `update_tag_periodic` (update.hpp:636-640, 651-655) on one cell `p`: `p` and the cell `p + v` get the flags of both.
The C++ treats an interval at once, first the cells `p` then the cells `p + v`; the interval and its translate have no cell in common when the period is at least `ghost_width`.
That the cells `p + v` are in the mesh is not checked here (see C51_mesh). -/
def tagPeriodicCell (n level : Nat) (v : Nat → Int) (t : TagField) (p : List Int) : TagField :=
  let q := shiftPoint v n p
  let t : TagField := t.put level p (t level p ||| t level q)
  t.put level q (t level q ||| t level p)

/-- `intersection(mesh[reference][level], lca)` with the functor (update.hpp:629-640, 644-655); `lca` is the box `b`. -/
def tagPeriodicSet (n : Nat) (ref : CA) (level : Nat) (b : Box) (v : Nat → Int) (t : TagField) : Option TagField :=
  match runDefault n (.op .inter (.leaf (.mesh (ref.lca level))) (.leaf (.mesh (LCA.ofBox n level b)))) with
  | none => none
  | some calls => some (tagCells (tagPeriodicCell n level v) calls t)

/-- One direction (update.hpp:613-656); the boxes are those of `update_ghost_periodic`. -/
def tagPeriodicDir (n gw : Nat) (ref : CA) (level : Nat) (lo hi period : Nat → Int) (t : TagField) (d : Nat) : Option TagField :=
  match tagPeriodicSet n ref level (periodicBox gw lo hi d false) (fun k => if k = d then period d else 0) t with
  | none => none
  | some t => tagPeriodicSet n ref level (periodicBox gw lo hi d true) (fun k => if k = d then - period d else 0) t

/-- `update_tag_periodic(level, tag)` (update.hpp:591-658) on a mesh with the domain `dom` and the periodic directions `P`. A level finer than the domain is a shift by a negative number,
done only when a direction is periodic. -/
def updateTagPeriodic (n gw : Nat) (ref : CA) (dom : LCA) (P : Nat → Bool) (level : Nat) (t : TagField) : Option TagField :=
  match domainIndices n dom with
  | none => none
  | some I =>
    let dirs := (List.range (n + 1)).filter P
    if dirs ≠ [] ∧ dom.level < level then none
    else
      let k := dom.level - level
      dirs.foldlM (tagPeriodicDir n gw ref level (fun d => shr (I.getD d (0, 0)).1 k) (fun d => shr (I.getD d (0, 0)).2 k)
        (fun d => shr ((I.getD d (0, 0)).2 - (I.getD d (0, 0)).1) k)) t

end Samurai

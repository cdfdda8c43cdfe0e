/-
Model of the adaptation of an AMR mesh: `graduation(tag, stencil)` (include/samurai/algorithm/graduation.hpp) with the operators of
algorithm/utils.hpp, and `update_field` (algorithm/update.hpp:745-812). Sequential code, one field beside the tags. `n` is `dim - 1`, a stencil is the
list of its vectors. The operators work on the cells of a row one after the other: in each of them what is read is not written, or is written with the
same value for all the cells that share it.
-/
import Verif.Model.Adapt
import Verif.Model.AMRMesh

namespace Samurai

/-- The cells are in the reference mesh: `tag(level, i, index)` (field.hpp:106-125, 682-734) throws when they are not. -/
def hasCells (n : Nat) (all : CA) (l : Nat) (L : List (List Int)) : Bool := L.all fun q => (getInterval (all.lca l) n q).isSome

/-- The cells of the box of half width `w` around a cell. -/
def boxAroundW (w : Nat) : List Int → List (List Int)
  | [] => [[]]
  | c :: p => (boxAroundW w p).flatMap fun q => (List.range (2 * w + 1)).map fun (k : Nat) => (c - w + (k : Int)) :: q

/-- `tag_to_keep<0>(tag)` (algorithm/utils.hpp:61-69, 83-91, 105-113) on one cell. -/
def keepCell (n : Nat) (all : CA) (level : Nat) (t : TagField) (p : List Int) : Option TagField :=
  if hasCells n all level [p] then some (TagField.add CellFlag.keep t level p) else none

/-- `tag_to_keep<w>(tag, CellFlag::refine)` (algorithm/utils.hpp:71-81, 93-103, 115-125) on one cell. The views around the cell are taken even
when the mask is false. -/
def keepAroundCellW (n : Nat) (all : CA) (w level : Nat) (t : TagField) (p : List Int) : Option TagField :=
  if hasCells n all level (boxAroundW w p) then
    some (if flagged (t level p) CellFlag.refine then (boxAroundW w p).foldl (fun t q => TagField.add CellFlag.keep t level q) t else t)
  else none

/-- `keep_children_together(tag)` (algorithm/utils.hpp:144-201) on one cell of the coarse level `level`. -/
def keepChildrenCell (n : Nat) (all : CA) (level : Nat) (t : TagField) (p : List Int) : Option TagField :=
  if hasCells n all (level + 1) (childrenOf p) then
    some (if (childrenOf p).any fun q => flagged (t (level + 1) q) CellFlag.keep then
        (childrenOf p).foldl (fun t q => TagField.add CellFlag.keep t (level + 1) q) t
      else t)
  else none

/-- The point `p` moved by minus the stencil vector `s`; `d` is the direction of the first (outermost) coordinate. -/
def unshiftPoint (s : Nat → Int) (d : Nat) (p : List Int) : List Int := shiftPoint (fun k => - s k) d p

/-- `graduate(tag, s)` (algorithm/graduation.hpp:19-97) on one cell `p` of the fine level: the flags `refine` and `keep` of the cell `p - s` go to the
parent of `p`. -/
def graduateTagCell (n : Nat) (all : CA) (s : Nat → Int) (level : Nat) (t : TagField) (p : List Int) : Option TagField :=
  let c := unshiftPoint s n p
  let r := p.map fun y => shr y 1
  if hasCells n all level [c] && hasCells n all (level - 1) [r] then
    let t := if flagged (t level c) CellFlag.refine then TagField.add CellFlag.refine t (level - 1) r else t
    some (if flagged (t level c) CellFlag.keep then TagField.add CellFlag.keep t (level - 1) r else t)
  else none

/-- `graduate(tag, s)` on a row. In dimension 1 the mask, of the size of `i`, is used on the view on `i >> 1`: the sizes must be the same. -/
def graduateTagRow (n : Nat) (all : CA) (s : Nat → Int) (level : Nat) (t : TagField) (c : Call) : Option TagField :=
  if n = 0 ∧ (c.2.shiftRight 1).stop - (c.2.shiftRight 1).start ≠ c.2.stop - c.2.start then none
  else (callCells [c]).foldlM (graduateTagCell n all s level) t

/-- One turn of the inner loop (algorithm/graduation.hpp:167-172). -/
def graduateTagStep (n level : Nat) (cells all : CA) (t : TagField) (s : Nat → Int) : Option TagField :=
  match runSet n (.op .inter (.leaf (.translate (.mesh (cells.lca level)) s)) (.leaf (.mesh (cells.lca (level - 1))))) level with
  | none => none
  | some calls => calls.foldlM (graduateTagRow n all s level) t

/-- One turn of the loop of `graduation` (algorithm/graduation.hpp:118-173); `gw` is `graduation_width`. `reference` is `all_cells`. -/
def graduationLevel (n gw : Nat) (S : List (Nat → Int)) (cells all : CA) (t : TagField) (level : Nat) : Option TagField :=
  match parentSet n cells all level with
  | none => none
  | some ghosts =>
    match (callCells ghosts).foldlM (keepCell n all (level - 1)) t with
    | none => none
    | some t =>
      match runDefault n (.op .inter (opnd (cells.lca level)) (opnd (cells.lca level))) with
      | none => none
      | some leaves =>
        match (callCells leaves).foldlM (keepAroundCellW n all gw level) t with
        | none => none
        | some t =>
          match runSet n (.op .inter (opnd (cells.lca level)) (opnd (cells.lca level))) (level - 1) with
          | none => none
          | some parents =>
            match (callCells parents).foldlM (keepChildrenCell n all (level - 1)) t with
            | none => none
            | some t => S.foldlM (graduateTagStep n level cells all) t

/-- `graduation(tag, stencil)` (algorithm/graduation.hpp:107-175); `maxL` is `max_level()`. -/
def graduation (n gw maxL : Nat) (S : List (Nat → Int)) (cells all : CA) (t : TagField) : Option TagField :=
  (downFrom maxL 1).foldlM (graduationLevel n gw S cells all) t

section
variable {K : Type} [Field K]

/-- `update_field(tag, field)` (algorithm/update.hpp:745-812) on an AMR mesh: returned value, sub-meshes, union and field. `m`, `u` are the sub-meshes
and the union of the mesh. -/
def updateField (n : Nat) (cfg : MeshConfig) (minL maxL : Nat) (dom : LCA) (tag : Int → BitVec 32) (m : AMRMeshes) (u : CA) (f : CellField K) :
    Option (Bool × AMRMeshes × CA × CellField K) :=
  match updateLeaves n minL maxL tag m.cells with
  | none => none
  | some cells =>
    match amrMesh n cfg cells dom minL maxL with
    | none => none
    | some (m', u') =>
      if meshEq n minL maxL m.cells m'.cells then some (true, m, u, f)
      else
        match updateFields n cfg.predictionOrder minL maxL m.cells m'.cells f with
        | none => none
        | some f' => some (false, m', u', f')

/-- One turn of the adaptation loop of the AMR programs (demos/FiniteVolume/level_set.cpp:311-323, AMR_Burgers_Hat.cpp:235-246,
demos/Weno/heat_weno5_amr.cpp:753-766): `t` holds the tags set by the criterion and `f` the field with its ghosts updated. -/
def amrAdapt (n : Nat) (cfg : MeshConfig) (gw minL maxL : Nat) (S : List (Nat → Int)) (dom : LCA) (t : TagField) (m : AMRMeshes) (u : CA)
    (f : CellField K) : Option (Bool × AMRMeshes × CA × CellField K) :=
  match graduation n gw maxL S m.cells m.all t with
  | none => none
  | some t => updateField n cfg minL maxL dom (tagArray n m.all t) m u f

end

end Samurai

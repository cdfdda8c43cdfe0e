/-
Model of one step of the mesh adaptation: `Adapt::harten` (include/samurai/mr/adapt.hpp:196-351) with its operators
(mr/operators.hpp, mr/criteria.hpp, algorithm/utils.hpp). Sequential, not periodic. The values of the details are not modelled:
only the outcomes of their comparisons with the thresholds, which are arbitrary here.
-/
import Verif.Model.Update
import Verif.Spec.CellArray

namespace Samurai

/-- The tag field, addressed by level and cell (see `CellField`). Reading or writing a cell that is not in the reference mesh
is not an error in this model. -/
abbrev TagField := CellField (BitVec 32)

/-- `tag(cell) |= flag`. -/
def TagField.add (flag : BitVec 32) (t : TagField) (l : Nat) (p : List Int) : TagField := t.put l p (t l p ||| flag)

/-- `tag(cell) &= ~flag`. -/
def TagField.clear (flag : BitVec 32) (t : TagField) (l : Nat) (p : List Int) : TagField := t.put l p (t l p &&& ~~~flag)

/-- `maximum_op` (mr/operators.hpp:21-116) on one cell `p` of the coarse level. The C++ works on an interval of cells; two
cells of the interval have no child in common. -/
def maximumCell (level : Nat) (t : TagField) (p : List Int) : TagField :=
  let children := childrenOf p
  let t :=
    if children.any fun q => flagged (t (level + 1) q) CellFlag.keep then
      TagField.add CellFlag.keep (children.foldl (fun t q => TagField.add CellFlag.keep t (level + 1) q) t) level p
    else t
  if children.all fun q => flagged (t (level + 1) q) CellFlag.coarsen then TagField.add CellFlag.keep t level p
  else children.foldl (fun t q => TagField.clear CellFlag.coarsen t (level + 1) q) t

/-- The cells of the `3^dim` box around a cell. -/
def boxAround : List Int → List (List Int)
  | [] => [[]]
  | c :: p => (boxAround p).flatMap fun q => [(c - 1) :: q, c :: q, (c + 1) :: q]

/-- `keep_around_refine_op` (mr/operators.hpp:646-695) and `extend_op` (mr/operators.hpp:741-792) on one cell. -/
def keepAroundCell (level : Nat) (t : TagField) (p : List Int) : TagField :=
  if flagged (t level p) CellFlag.refine then (boxAround p).foldl (fun t q => TagField.add CellFlag.keep t level q) t else t

/-- `enlarge_op` (mr/operators.hpp:586-635) on one cell. -/
def enlargeCell (level : Nat) (t : TagField) (p : List Int) : TagField :=
  if flagged (t level p) CellFlag.keep then (boxAround p).foldl (fun t q => TagField.add CellFlag.enlarge t level q) t else t

/-- `tag_to_keep_op` with a flag and `s = 0` (algorithm/utils.hpp:55-130) on one cell. -/
def tagToKeepCell (flag : BitVec 32) (level : Nat) (t : TagField) (p : List Int) : TagField :=
  if flagged (t level p) flag then TagField.add CellFlag.keep t level p else t

/-- The point `p` moved by the stencil `s`; `d` is the direction of the first (outermost) coordinate. -/
def shiftPoint (s : Nat → Int) : Nat → List Int → List Int
  | _, [] => []
  | d, c :: p => (c + s d) :: shiftPoint s (d - 1) p

/-- `balance_2to1_op` (mr/operators.hpp:128-153) on one row: the cells of the row are all read before any is written (the
assignment `|=` of overlapping xtensor views goes through a temporary). `q` is written when `q + s` is in the row. -/
def balanceRow (n level : Nat) (s : Nat → Int) (t : TagField) (c : Call) : TagField := fun l q =>
  if l = level ∧ shiftPoint s n q ∈ (coords1 c.2).map fun x => c.1 ++ [x] then
    t l q ||| (t level (shiftPoint s n q) &&& CellFlag.keep)
  else t l q

/-- `make_graduation_op` (mr/operators.hpp:804-864) on one cell of the fine level; for `i_even >> 1`, `i_odd >> 1` see C02. -/
def graduateCell (level : Nat) (t : TagField) (p : List Int) : TagField :=
  if flagged (t level p) CellFlag.keep then TagField.add CellFlag.refine t (level - 1) (p.map fun y => shr y 1) else t

/-- The outcomes of the comparisons of the details with the thresholds, for the cells of each level: all the components are below
`eps_l` (`small`), one is above `2^(regularity + dim) eps_l` (`large`), one is above this divided by `2^dim`, `eps_l` being the one of
the next level (`largeParent`). -/
structure DetailMasks where
  small : Nat → List Int → Bool
  large : Nat → List Int → Bool
  largeParent : Nat → List Int → Bool

/-- `to_coarsen_mr_op` (mr/criteria.hpp:15-177) on one cell of the coarse level. In 1D only the first child is looked at. -/
def toCoarsenCell (n minL : Nat) (D : DetailMasks) (level : Nat) (t : TagField) (p : List Int) : TagField :=
  if level + 1 > minL then
    let children := childrenOf p
    let mask := if n = 0 then (children.take 1).all (D.small (level + 1)) else children.all (D.small (level + 1))
    if mask then children.foldl (fun (t : TagField) q => t.put (level + 1) q CellFlag.coarsen) t else t
  else t

/-- `to_refine_mr_op` (mr/criteria.hpp:264-312) on one cell of the coarse level. -/
def toRefineCell (maxL : Nat) (D : DetailMasks) (level : Nat) (t : TagField) (p : List Int) : TagField :=
  let children := childrenOf p
  let t := if D.largeParent level p then children.foldl (fun t q => TagField.add CellFlag.keep t (level + 1) q) t else t
  if level + 1 < maxL then
    children.foldl (fun (t : TagField) q => if D.large (level + 1) q then t.put (level + 1) q CellFlag.refine else t) t
  else t

/-- `set.apply_op(op)`. -/
def tagCells (op : TagField → List Int → TagField) (calls : List Call) (t : TagField) : TagField := (callCells calls).foldl op t

/-- `detail::box_dir<dim>()` (mr/adapt.hpp:158-193), `dim = n + 1`: the directions as functions (0 is x). -/
def boxDir : Nat → List (Nat → Int)
  | 0 => [fun _ => -1, fun _ => 1]
  | 1 => [fun d => [-1, 1].getD d 0, fun d => [1, 1].getD d 0, fun d => [-1, -1].getD d 0, fun d => [1, -1].getD d 0]
  | _ => [fun d => [-1, -1, -1].getD d 0, fun d => [1, -1, -1].getD d 0, fun d => [-1, 1, -1].getD d 0, fun d => [1, 1, -1].getD d 0,
          fun d => [-1, -1, 1].getD d 0, fun d => [1, -1, 1].getD d 0, fun d => [-1, 1, 1].getD d 0, fun d => [1, 1, 1].getD d 0]

/-- `grad_width * detail::box_dir<dim>()`. -/
def gradStencils (n gw : Nat) : List (Nat → Int) := (boxDir n).map fun s => fun d => (gw : Int) * s d

/-- `intersection(mesh[cells][level], mesh[all_cells][level - 1]).on(level - 1)` (adapt.hpp:236, 272, 335). With `level = 0` the C++
reads the array of levels out of bounds (`level - 1` is a `size_t`). -/
def parentSet (n : Nat) (cells all : CA) (level : Nat) : Option (List Call) :=
  if level = 0 then none
  else runSet n (.op .inter (.leaf (.mesh (cells.lca level))) (.leaf (.mesh (all.lca (level - 1))))) (level - 1)

/-- The tags of the leaves (adapt.hpp:204-208). -/
def tagLeaves (n : Nat) (cells : CA) : TagField :=
  (cells.numbered n).foldl (fun (t : TagField) e => t.put e.1 e.2.1 CellFlag.keep) fun _ _ => 0#32

/-- One turn of the loop on the criteria (adapt.hpp:229-245). -/
def criteriaLevel (n minL maxL : Nat) (D : DetailMasks) (cells all : CA) (t : TagField) (level : Nat) : Option TagField :=
  match parentSet n cells all level with
  | none => none
  | some calls => some (tagCells (toRefineCell maxL D (level - 1)) calls (tagCells (toCoarsenCell n minL D (level - 1)) calls t))

/-- One turn of the loop on `keep_around_refine` and `enlarge` (adapt.hpp:247-262). -/
def keepLevel (n : Nat) (enlarge : Bool) (cells ghosts : CA) (t : TagField) (level : Nat) : Option TagField :=
  match runDefault n (.op .inter (.leaf (.mesh (cells.lca level))) (.leaf (.mesh (cells.lca level)))) with
  | none => none
  | some calls =>
    let t := tagCells (keepAroundCell level) calls t
    if enlarge then
      match runDefault n (.op .inter (.leaf (.mesh (ghosts.lca level))) (.leaf (.mesh (ghosts.lca level)))) with
      | none => none
      | some calls' => some (tagCells (tagToKeepCell CellFlag.enlarge level) calls' (tagCells (enlargeCell level) calls t))
    else some t

/-- One turn of the inner loop of the coarsening graduation (adapt.hpp:279-284). -/
def balanceStep (n level : Nat) (cells all : CA) (t : TagField) (s : Nat → Int) : Option TagField :=
  match runSet n (.op .inter (.leaf (.mesh (cells.lca level))) (.leaf (.translate (.mesh (all.lca (level - 1))) s))) (level - 1) with
  | none => none
  | some calls => some (calls.foldl (balanceRow n (level - 1) s) t)

/-- One turn of the loop of the coarsening graduation (adapt.hpp:268-288). -/
def coarsenLevel (n gw : Nat) (cells all : CA) (t : TagField) (level : Nat) : Option TagField :=
  match parentSet n cells all level with
  | none => none
  | some calls => (gradStencils n gw).foldlM (balanceStep n level cells all) (tagCells (maximumCell (level - 1)) calls t)

/-- One turn of the inner loop of the refinement graduation (adapt.hpp:301-308). -/
def graduateStep (n level : Nat) (cells all : CA) (dom : LCA) (t : TagField) (s : Nat → Int) : Option TagField :=
  match runSet n (.op .inter (.leaf (.translate (.mesh (cells.lca level)) s))
      (.op .inter (.leaf (.mesh (all.lca (level - 1)))) (.leaf (.mesh dom)))) level with
  | none => none
  | some calls => some (tagCells (graduateCell level) calls t)

/-- One turn of the loop of the refinement graduation (adapt.hpp:291-312). -/
def refineLevel (n gw : Nat) (cells all : CA) (dom : LCA) (t : TagField) (level : Nat) : Option TagField :=
  match runDefault n (.op .inter (.leaf (.mesh (cells.lca level))) (.leaf (.mesh (cells.lca level)))) with
  | none => none
  | some calls => (gradStencils n gw).foldlM (graduateStep n level cells all dom) (tagCells (keepAroundCell level) calls t)

/-- One turn of the last loop (adapt.hpp:333-341). -/
def maximumLevel (n : Nat) (cells all : CA) (t : TagField) (level : Nat) : Option TagField :=
  match parentSet n cells all level with
  | none => none
  | some calls => some (tagCells (maximumCell (level - 1)) calls t)

/-- The tags computed by `harten` (adapt.hpp:199-341). -/
def hartenTags (n gw minL maxL ite : Nat) (enlarge : Bool) (D : DetailMasks) (m : SubMeshes) (dom : LCA) : Option TagField :=
  match (List.range' minL (maxL - ite + 1 - minL)).foldlM (criteriaLevel n minL maxL D m.cells m.all) (tagLeaves n m.cells) with
  | none => none
  | some t =>
    match (List.range' minL (maxL - ite + 1 - minL)).foldlM (keepLevel n enlarge m.cells m.ghosts) t with
    | none => none
    | some t =>
      match (downFrom maxL 1).foldlM (coarsenLevel n gw m.cells m.all) t with
      | none => none
      | some t =>
        match (downFrom maxL (minL + 1)).foldlM (refineLevel n gw m.cells m.all dom) t with
        | none => none
        | some t => (downFrom maxL 1).foldlM (maximumLevel n m.cells m.all) t

/-- The tag field as the array that `update_field_mr` reads: the cell with number `v` of the reference mesh. -/
def tagArray (n : Nat) (all : CA) (t : TagField) : Int → BitVec 32 := fun v =>
  match (all.numbered n).find? fun e => e.2.2 == v with
  | some e => t e.1 e.2.1
  | none => 0#32

/-- `harten(ite, eps, regularity)` (adapt.hpp:196-351) on a multiresolution mesh. `f` is the field after `update_ghost_mr`.
`keep_only_one_coarse_tag`, `update_tag_subdomains` and `update_ghost_subdomains` do nothing without MPI, `update_tag_periodic` does nothing
on a mesh that is not periodic. -/
def harten {K : Type} [Field K] (n : Nat) (cfg : MeshConfig) (gw minL maxL ite : Nat) (enlarge : Bool) (D : DetailMasks) (dom : LCA)
    (m : SubMeshes) (u : CA) (f : CellField K) : Option (Bool × SubMeshes × CA × CellField K) :=
  match hartenTags n gw minL maxL ite enlarge D m dom with
  | none => none
  | some t => updateFieldMr n cfg minL maxL (tagArray n m.all t) m u f

/-- The loop of `Adapt::operator()` (adapt.hpp:140-152) on the list of the remaining values of `i`. `ghosts` is `update_ghost_mr` and
`details` the outcomes of the comparisons of the details of the field with the thresholds: arbitrary functions of the mesh and the field. -/
def adaptLoop {K : Type} [Field K] (n : Nat) (cfg : MeshConfig) (gw minL maxL : Nat) (enlarge : Bool)
    (ghosts : SubMeshes → CellField K → CellField K) (details : SubMeshes → CellField K → Nat → DetailMasks) (dom : LCA) :
    List Nat → SubMeshes → CA → CellField K → Option (SubMeshes × CA × CellField K)
  | [], m, u, f => some (m, u, f)
  | i :: is, m, u, f =>
    match harten n cfg gw minL maxL i enlarge (details m (ghosts m f) i) dom m u (ghosts m f) with
    | none => none
    | some (stop, m', u', f') => if stop then some (m', u', f') else adaptLoop n cfg gw minL maxL enlarge ghosts details dom is m' u' f'

/-- `Adapt::operator()(eps, regularity)` (adapt.hpp:128-155) without other fields. -/
def adapt {K : Type} [Field K] (n : Nat) (cfg : MeshConfig) (gw minL maxL : Nat) (enlarge : Bool)
    (ghosts : SubMeshes → CellField K → CellField K) (details : SubMeshes → CellField K → Nat → DetailMasks) (dom : LCA)
    (m : SubMeshes) (u : CA) (f : CellField K) : Option (SubMeshes × CA × CellField K) :=
  if minL = maxL then some (m, u, f)
  else adaptLoop n cfg gw minL maxL enlarge ghosts details dom (List.range (maxL - minL)) m u (ghosts m f)

end Samurai

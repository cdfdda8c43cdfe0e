/-
Model of `update_ghost_mr` and `update_ghost_periodic` (`include/samurai/algorithm/update.hpp`). `n` is `dim - 1`; a field is the array of its
values, addressed by the number of the cell in the reference mesh; all the values are exact. Sequential code (no MPI), one field.
-/
import Verif.Model.Bc

namespace Samurai

/-! ### rows of a field -/

/-- `Field::get_interval(level, interval, index)` (field.hpp:682-734): the interval of the reference mesh that holds the first cell of `i`; `none` also
for the exception `out_of_range`. The intervals of a mesh have step 1. -/
def fieldInterval (n : Nat) (ref : CA) (l : Nat) (yz : List Int) (i : Interval) : Option Interval :=
  match getInterval (ref.lca l) n (yz ++ [i.start]) with
  | none => none
  | some r => if r.stop - 1 < i.stop - i.step ∨ i.start < r.start then none else some r

section
variable {K : Type} [Field K]

/-- The value in `field(level, I + (x' - x0), index)` of the element number `x'` of the row, `q` being the point (`x' = q 0`, `index` the other
coordinates) and `I` the interval read for the element `x0` (field.hpp:106-125). -/
def readView (n : Nat) (ref : CA) (l : Nat) (u : Int → K) (I : Interval) (x0 : Int) (q : Pt) : Option K :=
  (fieldInterval n ref l (ofPt (n + 1) q).dropLast (I.addRight (q 0 - x0))).map fun r => u (r.index + q 0)

/-- `field(level, i, index) = values`: the array of values is computed first. -/
def writeRow (n : Nat) (ref : CA) (l : Nat) (yz : List Int) (i : Interval) (values : Int → K) (u : Int → K) : Option (Int → K) :=
  (fieldInterval n ref l yz i).map fun r j => if r.index + i.start ≤ j ∧ j < r.index + i.stop then values (j - r.index) else u j

/-- All the vectors of `{lo, ..., lo + k - 1}^dim`. -/
def offsetsFrom (n : Nat) (lo : Int) (k : Nat) : List (Nat → Int) :=
  (nestedIndices k (n + 1)).map fun st d => if d ≤ n then st.reverse.getD d 0 + lo else 0

/-- A row operator: `dest(level, i, index) = F(views)`, where `read` gives the views for an element of the row and `need` is the list of the points
read for this element. The views must exist for the first element of the row (they are the same for all). -/
def rowOp (n : Nat) (ref : CA) (l : Nat) (read : (Int → K) → Int → Pt → Option K) (need : Int → List Pt) (F : (Pt → K) → Pt → K)
    (u : Int → K) (c : Call) : Option (Int → K) :=
  if (need c.2.start).all fun q => (read u c.2.start q).isSome then
    writeRow n ref l c.1 c.2 (fun x => F (fun q => (read u x q).getD 0) (toPt (c.1 ++ [x]))) u
  else none

/-- `projection(field)` on a row of level `l` (projection.hpp:14-44): the views `src(level + 1, 2 * i, 2 * j, ...)` and the other children. -/
def projectRow (n : Nat) (ref : CA) (l : Nat) (u : Int → K) (c : Call) : Option (Int → K) :=
  rowOp n ref l (fun u x => readView n ref (l + 1) u (c.2.mul 2) (2 * x))
    (fun x => (offsetsFrom n 0 2).map fun s d => 2 * toPt (c.1 ++ [x]) d + s d) (project (n + 1)) u c

/-- `prediction<order, false>(field)` on a row of level `l` (prediction.hpp:380-401, 420-445, 466-506, 531-629, 655-676, 710-860): the views of the
level below on `i >> 1` and its neighbours. Simplification: one value for each cell; the alignment of the even and odd parts of the row is in
`predictEven`, `predictOdd` (C53). -/
def predictRow (n order : Nat) (ref : CA) (l : Nat) (u : Int → K) (c : Call) : Option (Int → K) :=
  rowOp n ref l (fun u x => readView n ref (l - 1) u (c.2.shiftRight 1) (shr x 1))
    (fun x => (offsetsFrom n (-(order : Int)) (2 * order + 1)).map fun s d => parentPt (toPt (c.1 ++ [x])) d + s d) (predictFine (n + 1) order) u c

/-- `field(level, i, index) = field(level, i + stencil[0], index + ...)` (update.hpp:541, 557). -/
def shiftRow (n : Nat) (ref : CA) (l : Nat) (v : Nat → Int) (u : Int → K) (c : Call) : Option (Int → K) :=
  rowOp n ref l (fun u x => readView n ref l u c.2 x) (fun x => [fun d => toPt (c.1 ++ [x]) d + v d]) (fun f p => f fun d => p d + v d) u c

/-! ### periodic ghosts -/

/-- `min_indices()` (level_cell_array.hpp:688-703), direction `d`: an empty array is undefined behaviour. -/
def minIndex (L : LCA) (d : Nat) : Option Int := ((L.cells d).map (·.start)).min?

/-- `max_indices()` (level_cell_array.hpp:667-682), direction `d`. -/
def maxIndex (L : LCA) (d : Nat) : Option Int := ((L.cells d).map (·.stop)).max?

/-- The smallest and largest indices in all the directions. -/
def domainIndices (n : Nat) (dom : LCA) : Option (List (Int × Int)) :=
  (List.range (n + 1)).mapM fun d => match minIndex dom d, maxIndex dom d with
    | some a, some b => some (a, b)
    | _, _ => none

/-- `intersection(mesh[reference][level], lca)` applied to the copy by `v` (update.hpp:531-558); `lca` is the box `b`. -/
def periodicCopy (n : Nat) (ref : CA) (level : Nat) (b : Box) (v : Nat → Int) (u : Int → K) : Option (Int → K) :=
  match runDefault n (.op .inter (.leaf (.mesh (ref.lca level))) (.leaf (.mesh (LCA.ofBox n level b)))) with
  | none => none
  | some calls => calls.foldlM (shiftRow n ref level v) u

/-- The boxes `lca1` and `lca2` (update.hpp:518-548): the `ghostWidth` layers before and after the domain in the direction `d`; `lo`, `hi` are the
indices of the domain at this level. -/
def periodicBox (gw : Nat) (lo hi : Nat → Int) (d : Nat) (after : Bool) : Box where
  lo := fun k => if k = d then (if after then hi d else lo d - gw) else lo k - gw
  hi := fun k => if k = d then (if after then hi d + gw else lo d) else hi k + gw

/-- One direction of `update_ghost_periodic(level, field)` (update.hpp:514-560). The period is `(max - min) >> delta_l`. -/
def periodicDir (n gw : Nat) (ref : CA) (level : Nat) (lo hi period : Nat → Int) (u : Int → K) (d : Nat) : Option (Int → K) :=
  match periodicCopy n ref level (periodicBox gw lo hi d false) (fun k => if k = d then period d else 0) u with
  | none => none
  | some u => periodicCopy n ref level (periodicBox gw lo hi d true) (fun k => if k = d then - period d else 0) u

/-- `update_ghost_periodic(level, field)` (update.hpp:496-562). A level finer than the domain is a shift by a negative number, done only when a
direction is periodic. -/
def updateGhostPeriodic (n : Nat) (M : BcMesh K) (level : Nat) (u : Int → K) : Option (Int → K) :=
  match domainIndices n M.dom with
  | none => none
  | some I =>
    let dirs := (List.range (n + 1)).filter M.periodic
    if dirs ≠ [] ∧ M.dom.level < level then none
    else
      let k := M.dom.level - level
      dirs.foldlM (periodicDir n M.cfg.ghostWidth M.ref level (fun d => shr (I.getD d (0, 0)).1 k) (fun d => shr (I.getD d (0, 0)).2 k)
        (fun d => shr ((I.getD d (0, 0)).2 - (I.getD d (0, 0)).1) k)) u

/-! ### update of the ghosts of a multiresolution mesh -/

/-- What `update_ghost_mr` reads from the mesh, with what `update_bc` reads: `mesh[proj_cells]` and `subdomain()`. For a multiresolution mesh
`mesh[reference]` is `mesh[all_cells]`. -/
structure GhostMesh (K : Type) extends BcMesh K where
  proj : CA
  subdomain : LCA

/-- One turn of the first loop of `update_ghost_mr` (update.hpp:109-116). -/
def ghostDown (n : Nat) (M : GhostMesh K) (u : Int → K) (level : Nat) : Option (Int → K) :=
  match updateGhostPeriodic n M.toBcMesh level u with
  | none => none
  | some u =>
    match runSet n (.op .inter (.leaf (.mesh (M.ref.lca level))) (.leaf (.mesh (M.proj.lca (level - 1))))) (level - 1) with
    | none => none
    | some calls => calls.foldlM (projectRow n M.ref (level - 1)) u

/-- The boundary conditions and the periodic ghosts of the coarsest level (update.hpp:118-126). -/
def ghostBase (n : Nat) (M : GhostMesh K) (bcs : List (BcCond K)) (level : Nat) (u : Int → K) : Option (Int → K) :=
  match updateBc n M.toBcMesh bcs level u with
  | none => none
  | some u => updateGhostPeriodic n M.toBcMesh level u

/-- The cells predicted at a level (update.hpp:130-134). The intersection of three sets is two intersections (simplification). -/
def ghostPredicted (M : GhostMesh K) (level : Nat) : Expr Node :=
  .op .inter (.op .inter (.op .diff (.leaf (.mesh (M.ref.lca level)))
    (.op .union (.leaf (.mesh (M.cells.lca level))) (.leaf (.mesh (M.proj.lca level))))) (.leaf (.mesh M.subdomain)))
    (.leaf (.mesh (M.ref.lca (level - 1))))

/-- One turn of the last loop of `update_ghost_mr` (update.hpp:128-140). -/
def ghostUp (n : Nat) (M : GhostMesh K) (bcs : List (BcCond K)) (u : Int → K) (level : Nat) : Option (Int → K) :=
  match runSet n (ghostPredicted M level) level with
  | none => none
  | some calls =>
    match calls.foldlM (predictRow n M.cfg.predictionOrder M.ref level) u with
    | none => none
    | some u =>
      match updateGhostPeriodic n M.toBcMesh level u with
      | none => none
      | some u => updateBc n M.toBcMesh bcs level u

/-- `update_ghost_mr(field)` (update.hpp:90-143). -/
def updateGhostMr (n : Nat) (M : GhostMesh K) (bcs : List (BcCond K)) (u : Int → K) : Option (Int → K) :=
  let lo := M.ref.minLevel
  let hi := M.ref.maxLevel
  match (downFrom hi (lo + 1)).foldlM (ghostDown n M) u with
  | none => none
  | some u =>
    match (if lo > 0 ∧ lo ≠ hi then ghostBase n M bcs (lo - 1) u else some u) with
    | none => none
    | some u =>
      match ghostBase n M bcs lo u with
      | none => none
      | some u => (List.range' (lo + 1) (hi - lo)).foldlM (ghostUp n M bcs) u

end

end Samurai

/-
Model of the computation of the details in a step of the adaptation (`compute_detail`, include/samurai/mr/operators.hpp:165-263, and its loop in
`Adapt::harten`, mr/adapt.hpp:217-222), of the comparisons with the thresholds (mr/adapt.hpp:225-244, mr/criteria.hpp) and of the adaptation with
them: `Adapt::operator()(eps, regularity)`. One field with one component, sequential, not periodic, exact arithmetic. `n` is `dim - 1`; the field and
the details are the arrays of their values, addressed by the number of the cell in the reference mesh, which is `mesh[all_cells]`.
-/
import Verif.Model.Adapt
import Verif.Model.GhostUpdate

namespace Samurai

section
variable {K : Type} [Field K]

/-- `dest(level, i, index) = values` for an interval with a step: the array of values is computed first. -/
def writeStrided (n : Nat) (ref : CA) (l : Nat) (yz : List Int) (i : Interval) (values : Int → K) (u : Int → K) : Option (Int → K) :=
  (fieldInterval n ref l yz i).map fun r j =>
    if (r.index + i.start ≤ j ∧ j < r.index + i.stop) ∧ (j - r.index - i.start) % i.step = 0 then values (j - r.index) else u j

/-- `detail(level + 1, 2 * i + s, 2 * j + s', ...) = field(level + 1, 2 * i + s, ...) - (field(level, i, j, ...) + ...)` on the row `c` of level
`level` (operators.hpp:175-178, 191-212, 225-248): the views of the neighbours on the level and of the child `s` must exist. `u` is the field, `dt` the
details. -/
def detailChildRow (n order : Nat) (ref : CA) (level : Nat) (u : Int → K) (c : Call) (dt : Int → K) (s : Nat → Int) : Option (Int → K) :=
  let coarse (x : Int) : Pt → Option K := readView n ref level u c.2 x
  let fine (x : Int) : Pt → Option K := readView n ref (level + 1) u (c.2.mul 2) (2 * x)
  let child (x : Int) : Pt := fun d => 2 * toPt (c.1 ++ [x]) d + s d
  let need (x : Int) : List Pt := (offsetsFrom n (-(order : Int)) (2 * order + 1)).map fun t d => toPt (c.1 ++ [x]) d + t d
  if ((need c.2.start).all fun q => (coarse c.2.start q).isSome) && (fine c.2.start (child c.2.start)).isSome then
    writeStrided n ref (level + 1) (ofPt (n + 1) (child c.2.start)).dropLast ((c.2.mul 2).addRight (s 0))
      (fun y => detailChild (n + 1) order (fun q => (fine (shr y 1) q).getD 0) (fun q => (coarse (shr y 1) q).getD 0) (toPt (c.1 ++ [shr y 1]))
        fun d => decide (s d = 1)) dt
  else none

/-- `pred(..., detail, field, order, dest_on_level = false)` (operators.hpp:182-183, 216-217, 252-253): the prediction of the row from the level below of
`field`, written in `detail` (see `predictRow`). -/
def detailPredictRow (n order : Nat) (ref : CA) (level : Nat) (u : Int → K) (c : Call) (dt : Int → K) : Option (Int → K) :=
  rowOp n ref level (fun _ x => readView n ref (level - 1) u (c.2.shiftRight 1) (shr x 1))
    (fun x => (offsetsFrom n (-(order : Int)) (2 * order + 1)).map fun s d => parentPt (toPt (c.1 ++ [x])) d + s d) (predictFine (n + 1) order) dt c

/-- `detail(level, i, ...) = field(level, i, ...) - detail(level, i, ...)` (operators.hpp:184, 218, 254). -/
def detailSubRow (n : Nat) (ref : CA) (level : Nat) (u : Int → K) (c : Call) (dt : Int → K) : Option (Int → K) :=
  match fieldInterval n ref level c.1 c.2 with
  | none => none
  | some r => writeRow n ref level c.1 c.2 (fun x => u (r.index + x) - dt (r.index + x)) dt

/-- `compute_detail_op` on a row of level `level` (operators.hpp:165-257). The children are in the order of `offsetsFrom` (each one is written once). -/
def detailRow (n order : Nat) (ref : CA) (level : Nat) (u : Int → K) (dt : Int → K) (c : Call) : Option (Int → K) :=
  match (offsetsFrom n 0 2).foldlM (detailChildRow n order ref level u c) dt with
  | none => none
  | some dt =>
    if 1 ≤ level then
      match detailPredictRow n order ref level u c dt with
      | none => none
      | some dt => detailSubRow n ref level u c dt
    else some dt

/-- One turn of the loop on the details (adapt.hpp:217-221). -/
def detailLevel (n order : Nat) (cells all : CA) (u : Int → K) (dt : Int → K) (level : Nat) : Option (Int → K) :=
  match runSet n (.op .inter (.leaf (.mesh (all.lca level))) (.leaf (.mesh (cells.lca (level + 1))))) level with
  | none => none
  | some calls => calls.foldlM (detailRow n order all level u) dt

/-- The details (adapt.hpp:144-145, 217-221): from `min_level - 1` (0 if `min_level` is 0) to `max_level - ite`, excluded; `detail` is filled with 0. -/
def computeDetails (n order minL maxL ite : Nat) (cells all : CA) (u : Int → K) : Option (Int → K) :=
  (List.range' (minL - 1) (maxL - ite - (minL - 1))).foldlM (detailLevel n order cells all u) fun _ => 0

/-- `field(level, i, index)` on one cell: the value at the number of the cell in the reference mesh (level_cell_array.hpp, `get_index`). -/
def fieldAt (n : Nat) (ref : CA) (u : Int → K) (l : Nat) (p : List Int) : K := u ((getIndex (ref.lca l) n p.dropLast (p.getLastD 0)).getD 0)

/-- `eps_l = eps / (1 << exponent)` with `exponent = dim * (max_level - level)` (adapt.hpp:227-228). `1` is an `int`: the shift is undefined from 31. -/
def epsLevel (n maxL : Nat) (eps : K) (level : Nat) : Option K :=
  if (n + 1) * (maxL - level) < 31 then some (eps / 2 ^ ((n + 1) * (maxL - level))) else none

end

section
variable {K : Type} [Field K] [LinearOrder K] [IsStrictOrderedRing K]

/-- The comparisons of the details with the thresholds (criteria.hpp:36, 264-281, 288, 301-303; adapt.hpp:234-243). `factor` is `pow(2.0, regularity + dim)`.
Where `eps_l` is undefined, `adaptStep` is `none`. -/
def detailMasks (n maxL : Nat) (eps factor : K) (all : CA) (dt : Int → K) : DetailMasks where
  small := fun l p => decide (|fieldAt n all dt l p| < (epsLevel n maxL eps l).getD 0)
  large := fun l p => decide (|fieldAt n all dt l p| > factor * (epsLevel n maxL eps l).getD 0)
  largeParent := fun l p => decide (|fieldAt n all dt l p| > factor * (epsLevel n maxL eps (l + 1)).getD 0 / 2 ^ (n + 1))

/-- The array of a field given on the cells: the cell with number `v` of the reference mesh. -/
def fieldArray (n : Nat) (all : CA) (f : CellField K) : Int → K := fun v =>
  match (all.numbered n).find? fun e => e.2.2 == v with
  | some e => f e.1 e.2.1
  | none => 0

/-- `update_ghost_mr(field)` (update.hpp:90-143) for a field of the mesh `m`. The subdomain was computed with the mesh (mesh.hpp:`construct_subdomain`). -/
def ghostArray (n : Nat) (cfg : MeshConfig) (minL maxL : Nat) (dom : LCA) (h0 : K) (bcs : List (BcCond K)) (m : SubMeshes) (f : CellField K) :
    Option (Int → K) :=
  match constructSubdomain n m.cells maxL with
  | none => none
  | some S => updateGhostMr n ⟨⟨m.cells, m.all, dom, minL, maxL, fun _ => false, h0, cfg⟩, m.proj, S⟩ bcs (fieldArray n m.all f)

/-- `harten(ite, eps, regularity)` (adapt.hpp:196-351) with `update_ghost_mr`, the details and the thresholds. -/
def adaptStep (n : Nat) (cfg : MeshConfig) (gw minL maxL : Nat) (enlarge : Bool) (dom : LCA) (h0 : K) (bcs : List (BcCond K)) (eps factor : K) (ite : Nat)
    (m : SubMeshes) (x : CA) (f : CellField K) : Option (Bool × SubMeshes × CA × CellField K) :=
  match ghostArray n cfg minL maxL dom h0 bcs m f with
  | none => none
  | some u =>
    match computeDetails n cfg.predictionOrder minL maxL ite m.cells m.all u with
    | none => none
    | some dt =>
      if ((List.range' minL (maxL - ite + 1 - minL)).all fun l => (epsLevel n maxL eps l).isSome) then
        harten n cfg gw minL maxL ite enlarge (detailMasks n maxL eps factor m.all dt) dom m x (fieldAt n m.all u)
      else none

/-- The loop of `Adapt::operator()` (adapt.hpp:140-152) on the list of the remaining values of `i`. -/
def adaptSteps (n : Nat) (cfg : MeshConfig) (gw minL maxL : Nat) (enlarge : Bool) (dom : LCA) (h0 : K) (bcs : List (BcCond K)) (eps factor : K) :
    List Nat → SubMeshes → CA → CellField K → Option (SubMeshes × CA × CellField K)
  | [], m, x, f => some (m, x, f)
  | i :: is, m, x, f =>
    match adaptStep n cfg gw minL maxL enlarge dom h0 bcs eps factor i m x f with
    | none => none
    | some (stop, m', x', f') => if stop then some (m', x', f') else adaptSteps n cfg gw minL maxL enlarge dom h0 bcs eps factor is m' x' f'

/-- `Adapt::operator()(eps, regularity)` (adapt.hpp:126-155) without other fields. -/
def adaptMr (n : Nat) (cfg : MeshConfig) (gw minL maxL : Nat) (enlarge : Bool) (dom : LCA) (h0 : K) (bcs : List (BcCond K)) (eps factor : K)
    (m : SubMeshes) (x : CA) (f : CellField K) : Option (SubMeshes × CA × CellField K) :=
  if minL = maxL then some (m, x, f)
  else
    match ghostArray n cfg minL maxL dom h0 bcs m f with
    | none => none
    | some u => adaptSteps n cfg gw minL maxL enlarge dom h0 bcs eps factor (List.range (maxL - minL)) m x (fieldAt n m.all u)

end

end Samurai

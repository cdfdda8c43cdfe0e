/-
Model of `include/samurai/numeric/prediction.hpp`, `numeric/projection.hpp` and of `compute_detail_op`
(`mr/operators.hpp`). Values are in a field `K` (exact arithmetic instead of `double`: simplification).
A field of the mesh at one level is a total function of the point.
-/
import Verif.Model.Interval
import Mathlib.Algebra.Field.Basic

namespace Samurai

/-- A point: its coordinate in each direction (0 is x). -/
abbrev Pt := Nat → Int

/-- The point moved by `s` in direction `d`. -/
def move (p : Pt) (d : Nat) (s : Int) : Pt := fun e => if e = d then p e + s else p e

section
variable {K : Type} [Field K]

/-- `interp_coeffs<2 * order + 1>(sign)` (prediction.hpp:16-71). -/
def interpCoeffs (order : Nat) (sign : K) : List K :=
  match order with
  | 0 => [1]
  | 1 => [sign / 8, 1, -sign / 8]
  | 2 => [-sign * 3 / 128, sign * 22 / 128, 1, -sign * 22 / 128, sign * 3 / 128]
  | 3 => [sign * 5 / 1024, -sign * 11 / 256, sign * 201 / 1024, 1, -sign * 201 / 1024, sign * 11 / 256, -sign * 5 / 1024]
  | 4 => [-sign * 35 / 32768, sign * 185 / 16384, -sign * 949 / 16384, sign * 3461 / 16384, 1,
          -sign * 3461 / 16384, sign * 949 / 16384, -sign * 185 / 16384, sign * 35 / 32768]
  | _ => [sign * 63 / 262144, -sign * 49 / 16384, sign * 4661 / 262144, -sign * 569 / 8192, sign * 29011 / 131072, 1,
          -sign * 29011 / 131072, sign * 569 / 8192, -sign * 4661 / 262144, sign * 49 / 16384, -sign * 63 / 262144]

/-- `prediction_coeffs<order>()` (prediction.hpp:73-104), orders 1 to 5. -/
def predictionCoeffs (order : Nat) : List K :=
  match order with
  | 0 => []
  | 1 => [-1 / 8]
  | 2 => [-22 / 128, 3 / 128]
  | 3 => [-201 / 1024, 11 / 256, -5 / 1024]
  | 4 => [-3461 / 16384, 949 / 16384, -185 / 16384, 35 / 32768]
  | _ => [-29011 / 131072, 569 / 8192, -4661 / 262144, 49 / 16384, -63 / 262144]

/-- A callable of the expression templates: `m_e(integral_constant<s>, level, i...)`. -/
abbrev QsExpr (K : Type) := Nat → Pt → K

/-- `field_hack` (prediction.hpp:106-127): ignores the constant. -/
def fieldHack (f : Pt → K) : QsExpr K := fun _ p => f p

/-- `Qs_i_impl`, `Qs_j_impl`, `Qs_k_impl` (prediction.hpp:129-161, 177-212, 228-263) for direction `d`,
started at `s = S - k`. The operand is called with `s + 1` (with `S` for the last term), as in the code. -/
def qsFrom (c : List K) (S d : Nat) (e : QsExpr K) : Nat → Pt → K
  | 0, p => c.getD (S - 1) 0 * (e S (move p d S) - e S (move p d (-S)))
  | k + 1, p =>
    let s := S - (k + 1)
    c.getD (s - 1) 0 * (e (s + 1) (move p d s) - e (s + 1) (move p d (-s))) + qsFrom c S d e k p

/-- `operator()(integral_constant<s>, ...)` of `Qs_*_impl`. -/
def qsOp (c : List K) (S d : Nat) (e : QsExpr K) : QsExpr K := fun s p => qsFrom c S d e (S - s) p

/-- `Qs_i`, `Qs_j`, `Qs_k` (prediction.hpp:169-175, 220-226, 271-277) for direction `d`. -/
def Qs (order d : Nat) (f : Pt → K) (p : Pt) : K := qsOp (predictionCoeffs order) order d (fieldHack f) 1 p

/-- `Qs_ij`, `Qs_ik`, `Qs_jk` (prediction.hpp:279-301) for directions `d`, `e`. -/
def Qs2 (order d e : Nat) (f : Pt → K) (p : Pt) : K :=
  qsOp (predictionCoeffs order) order d (qsOp (predictionCoeffs order) order e (fieldHack f)) 1 p

/-- `Qs_ijk` (prediction.hpp:303-309). -/
def Qs3 (order : Nat) (f : Pt → K) (p : Pt) : K :=
  qsOp (predictionCoeffs order) order 0
    (qsOp (predictionCoeffs order) order 1 (qsOp (predictionCoeffs order) order 2 (fieldHack f))) 1 p

/-- 1D `prediction_op` with `dest_on_level = true` (prediction.hpp:365-378, 403-418): the value given to the
child `2 i + a` of the cell `p`. -/
def predict1 (order : Nat) (f : Pt → K) (p : Pt) (a : Bool) : K :=
  if order = 0 then f p
  else
    let qi := Qs order 0 f p
    match a with
    | false => f p + qi
    | true => f p - qi

/-- 2D `prediction_op` with `dest_on_level = true` (prediction.hpp:447-464, 508-529). -/
def predict2 (order : Nat) (f : Pt → K) (p : Pt) (a b : Bool) : K :=
  if order = 0 then f p
  else
    let qi := Qs order 0 f p
    let qj := Qs order 1 f p
    let qij := Qs2 order 0 1 f p
    match a, b with
    | false, false => f p + qi + qj - qij
    | true, false => f p - qi + qj + qij
    | false, true => f p + qi - qj + qij
    | true, true => f p - qi - qj - qij

/-- 3D `prediction_op` with `dest_on_level = true` (prediction.hpp:631-653, 678-708). -/
def predict3 (order : Nat) (f : Pt → K) (p : Pt) (a b c : Bool) : K :=
  if order = 0 then f p
  else
    let qi := Qs order 0 f p
    let qj := Qs order 1 f p
    let qk := Qs order 2 f p
    let qij := Qs2 order 0 1 f p
    let qik := Qs2 order 0 2 f p
    let qjk := Qs2 order 1 2 f p
    let qijk := Qs3 order f p
    match a, b, c with
    | false, false, false => f p + qi + qj + qk - qij - qik - qjk + qijk
    | true, false, false => f p - qi + qj + qk + qij + qik - qjk - qijk
    | false, true, false => f p + qi - qj + qk + qij - qik + qjk - qijk
    | true, true, false => f p - qi - qj + qk - qij + qik + qjk + qijk
    | false, false, true => f p + qi + qj - qk - qij + qik + qjk - qijk
    | true, false, true => f p - qi + qj - qk + qij - qik + qjk + qijk
    | false, true, true => f p + qi - qj - qk + qij + qik - qjk + qijk
    | true, true, true => f p - qi - qj - qk - qij - qik - qjk - qijk

/-- `prediction(level)` with `dest_on_level = true` in dimension `dim`: the value given to the child of `p` whose
last bits are `a`. -/
def predictChild (dim order : Nat) (f : Pt → K) (p : Pt) (a : Nat → Bool) : K :=
  match dim with
  | 1 => predict1 order f p (a 0)
  | 2 => predict2 order f p (a 0) (a 1)
  | _ => predict3 order f p (a 0) (a 1) (a 2)

/-- The parent of a fine cell: `>> 1` in each direction. -/
def parentPt (q : Pt) : Pt := fun d => shr (q d) 1

/-- `coord & 1`. -/
def isOdd (x : Int) : Bool := decide (x % 2 = 1)

/-- `prediction_op` with `dest_on_level = false` (prediction.hpp:380-401, 420-445 in 1D, 466-506, 531-629 in 2D,
655-676, 710-860 in 3D): the value given to the fine cell `q`; one cell of the interval (the alignment of the arrays on
the interval is modelled by `predictEven`, `predictOdd`). The branches are on `k & 1`, `j & 1`, then even/odd `i`. -/
def predictFine (dim order : Nat) (f : Pt → K) (q : Pt) : K :=
  let p := parentPt q
  if order = 0 then f p
  else
    let qi := Qs order 0 f p
    let qj := Qs order 1 f p
    let qk := Qs order 2 f p
    let qij := Qs2 order 0 1 f p
    let qik := Qs2 order 0 2 f p
    let qjk := Qs2 order 1 2 f p
    let qijk := Qs3 order f p
    match dim with
    | 1 => if isOdd (q 0) then f p - qi else f p + qi
    | 2 =>
      if isOdd (q 1) then
        if isOdd (q 0) then f p - qi - qj - qij else f p + qi - qj + qij
      else
        if isOdd (q 0) then f p - qi + qj + qij else f p + qi + qj - qij
    | _ =>
      if isOdd (q 2) then
        if isOdd (q 1) then
          if isOdd (q 0) then f p - qi - qj - qk - qij - qik - qjk - qijk
          else f p + qi - qj - qk + qij + qik - qjk + qijk
        else
          if isOdd (q 0) then f p - qi + qj - qk + qij - qik + qjk + qijk
          else f p + qi + qj - qk - qij + qik + qjk - qijk
      else
        if isOdd (q 1) then
          if isOdd (q 0) then f p - qi - qj + qk - qij + qik + qjk + qijk
          else f p + qi - qj + qk + qij - qik + qjk - qijk
        else
          if isOdd (q 0) then f p - qi + qj + qk + qij + qik - qjk - qijk
          else f p + qi + qj + qk - qij - qik - qjk + qijk

/-- The elements of an interval of step 2: `start, start + 2, ... < stop`. -/
def coords2 (i : Interval) : List Int :=
  (List.range ((i.stop - i.start + 1).toNat / 2)).map fun (k : Nat) => i.start + 2 * (k : Int)

/-- The elements of an interval of step 1. -/
def coords1 (i : Interval) : List Int :=
  (List.range (i.stop - i.start).toNat).map fun (k : Nat) => i.start + (k : Int)

/-- An xtensor assignment `dest(cells) = values`: shapes that differ are an error (`none`). -/
def assignCells (cells : List Int) (values : List K) : Option (List (Int × K)) :=
  if cells.length = values.length then some (cells.zip values) else none

/-- An xtensor operation on two arrays: shapes that differ are an error (`none`; broadcasting of arrays of one
element is not modelled). -/
def zipArrays (op : K → K → K) (a b : List K) : Option (List K) :=
  if a.length = b.length then some (List.zipWith op a b) else none

/-- The assignment of the even cells of `i` in `prediction_op` with `dest_on_level = false`
(prediction.hpp:428-436): `qs` is computed on `i >> 1` and its view starts at `dec_even`. Returns the cells of `dest`
assigned with their values; `src` is the row read at `even_i >> 1`. -/
def predictEven (i : Interval) (src qs : Int → K) : Option (List (Int × K)) :=
  let qsArr := (coords1 (i.shiftRight 1)).map qs
  let even := i.evenElements
  if even.isValid then
    let decEven := if i.start % 2 = 1 then 1 else 0
    (zipArrays (fun s q => s + q) ((coords1 (even.shiftRight 1)).map src) (qsArr.drop decEven)).bind
      (assignCells (coords2 even))
  else some []

/-- The same for the odd cells (prediction.hpp:438-444): the view ends `dec_odd` before the end. -/
def predictOdd (i : Interval) (src qs : Int → K) : Option (List (Int × K)) :=
  let qsArr := (coords1 (i.shiftRight 1)).map qs
  let odd := i.oddElements
  if odd.isValid then
    let decOdd := if i.stop % 2 = 1 then 1 else 0
    (zipArrays (fun s q => s - q) ((coords1 (odd.shiftRight 1)).map src) (qsArr.take (qsArr.length - decOdd))).bind
      (assignCells (coords2 odd))
  else some []

/-- The child of `p` with last bits `a`. -/
def childPt (p : Pt) (a : Nat → Bool) : Pt := fun d => 2 * p d + (if a d then 1 else 0)

/-- `projection_op_` (projection.hpp:14-44): the value given to the coarse cell `p` from the fine field `g`. -/
def project (dim : Nat) (g : Pt → K) (p : Pt) : K :=
  let v (a b c : Bool) : K := g (childPt p fun d => if d = 0 then a else if d = 1 then b else if d = 2 then c else false)
  match dim with
  | 1 => (1 / 2) * (v false false false + v true false false)
  | 2 => (1 / 4) * (v false false false + v false true false + v true false false + v true true false)
  | _ => (1 / 8) * (v false false false + v true false false + v false true false + v true true false
                    + v false false true + v true false true + v false true true + v true true true)

/-- `compute_detail_op` (mr/operators.hpp:165-257), the details of the children `2 i + a` of `p`: fine field `g`,
coarse field `f`. The formulas are the ones of `prediction_op` (lines 177-178, 209-212, 233-248), order at least 1. -/
def detailChild (dim order : Nat) (g f : Pt → K) (p : Pt) (a : Nat → Bool) : K :=
  match dim with
  | 1 =>
    let qi := Qs order 0 f p
    match a 0 with
    | false => g (childPt p a) - (f p + qi)
    | true => g (childPt p a) - (f p - qi)
  | 2 =>
    let qi := Qs order 0 f p
    let qj := Qs order 1 f p
    let qij := Qs2 order 0 1 f p
    match a 0, a 1 with
    | false, false => g (childPt p a) - (f p + qi + qj - qij)
    | true, false => g (childPt p a) - (f p - qi + qj + qij)
    | false, true => g (childPt p a) - (f p + qi - qj + qij)
    | true, true => g (childPt p a) - (f p - qi - qj - qij)
  | _ =>
    let qi := Qs order 0 f p
    let qj := Qs order 1 f p
    let qk := Qs order 2 f p
    let qij := Qs2 order 0 1 f p
    let qik := Qs2 order 0 2 f p
    let qjk := Qs2 order 1 2 f p
    let qijk := Qs3 order f p
    match a 0, a 1, a 2 with
    | false, false, false => g (childPt p a) - (f p + qi + qj + qk - qij - qik - qjk + qijk)
    | true, false, false => g (childPt p a) - (f p - qi + qj + qk + qij + qik - qjk - qijk)
    | false, true, false => g (childPt p a) - (f p + qi - qj + qk + qij - qik + qjk - qijk)
    | true, true, false => g (childPt p a) - (f p - qi - qj + qk - qij + qik + qjk + qijk)
    | false, false, true => g (childPt p a) - (f p + qi + qj - qk - qij + qik + qjk - qijk)
    | true, false, true => g (childPt p a) - (f p - qi + qj - qk + qij - qik + qjk + qijk)
    | false, true, true => g (childPt p a) - (f p + qi - qj - qk + qij + qik - qjk + qijk)
    | true, true, true => g (childPt p a) - (f p - qi - qj - qk - qij - qik - qjk - qijk)

/-- The second part of `compute_detail_op` (lines 180-185, 214-219, 250-255): the detail of the cell `p` itself with
respect to its parent, `h` being the field one level below; only for `level ≥ 1`. -/
def detailSelf (dim order : Nat) (f h : Pt → K) (p : Pt) : K := f p - predictFine dim order h p

end

end Samurai

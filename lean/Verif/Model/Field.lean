/-
Model of the expressions of fields (`include/samurai/field.hpp`, `include/samurai/field_expression.hpp`) with the arrays of xtensor that they use: views of the rows, element-wise
functions with broadcasting, assignment. `n` is `dim - 1`; all the values are exact. The intervals of a mesh have step 1.
-/
import Verif.Model.GhostUpdate

namespace Samurai

/-! ### arrays -/

/-- An array of xtensor: its shape and its elements. Shapes and indices begin with the last dimension. -/
structure View (U : Type) where
  shape : List Nat
  get : List Nat → U

/-- The common shape of two arrays (xtensor, `broadcast_shape`): the dimensions are compared from the last one, they are equal or one of them is 1. `none`: `broadcast_error`. -/
def bcast : List Nat → List Nat → Option (List Nat)
  | [], t => some t
  | a :: s, [] => some (a :: s)
  | a :: s, b :: t =>
    match bcast s t with
    | none => none
    | some r => if a = b ∨ b = 1 then some (a :: r) else if a = 1 then some (b :: r) else none

/-- The index of the element of an array of shape `s` for the element `idx` of the result. -/
def pick : List Nat → List Nat → List Nat
  | [], _ => []
  | _, [] => []
  | a :: s, i :: idx => (if a = 1 then 0 else i) :: pick s idx

/-! ### fields -/

/-- A field: the leaves and the reference mesh of its mesh, its number of components, its layout and its values (number of the cell, component). -/
structure FieldState (U : Type) where
  cells : CA
  ref : CA
  size : Nat
  soa : Bool
  data : Int → Nat → U

/-- The shape of the view of a row of `len` cells (field.hpp:116-122, 206-212, 334-341): one dimension for scalar fields, two for vector fields. -/
def rowShape (size : Nat) (soa : Bool) (len : Nat) : List Nat := if size = 1 then [len] else if soa then [len, size] else [size, len]

/-- The index of the component `c` of the `i`-th cell of a row. -/
def rowIndex (size : Nat) (soa : Bool) (i c : Nat) : List Nat := if size = 1 then [i] else if soa then [i, c] else [c, i]

/-- The cell and the component of an index. -/
def rowPlace (size : Nat) (soa : Bool) (idx : List Nat) : Nat × Nat :=
  if size = 1 then (idx.getD 0 0, 0) else if soa then (idx.getD 0 0, idx.getD 1 0) else (idx.getD 1 0, idx.getD 0 0)

/-- `field(level, i, index)` (field.hpp:116-122, 206-212, 334-341). -/
def FieldState.view {U : Type} (n : Nat) (F : FieldState U) (l : Nat) (yz : List Int) (i : Interval) : Option (View U) :=
  (fieldInterval n F.ref l yz i).map fun r =>
    ⟨rowShape F.size F.soa (i.stop - i.start).toNat, fun idx => F.data (r.index + i.start + ((rowPlace F.size F.soa idx).1 : Int)) (rowPlace F.size F.soa idx).2⟩

/-! ### expressions -/

/-- The expressions (field_expression.hpp:57-127): the field number `k`, a number, or `field_function`, a function of the elements of other expressions. -/
inductive FieldExpr (U : Type) where
  | field (k : Nat)
  | const (v : U)
  | fn (m : Nat) (f : (Fin m → U) → U) (args : Fin m → FieldExpr U)

/-- The array of a function of arrays (`xt::eval(m_f(...))`, field_expression.hpp:93-97). -/
def applyViews {U : Type} (m : Nat) (f : (Fin m → U) → U) (vs : Fin m → View U) : Option (View U) :=
  ((List.finRange m).foldlM (fun s j => bcast s (vs j).shape) []).map fun s => ⟨s, fun idx => f fun j => (vs j).get (pick (vs j).shape idx)⟩

/-- `e(level, i, index)` (field_expression.hpp:72-97), the fields being `env`. -/
def FieldExpr.eval {U : Type} [Inhabited U] (n : Nat) (env : Nat → FieldState U) (l : Nat) (yz : List Int) (i : Interval) : FieldExpr U → Option (View U)
  | .field k => (env k).view n l yz i
  | .const v => some ⟨[], fun _ => v⟩
  | .fn m f args =>
    if ∀ j, ((args j).eval n env l yz i).isSome then applyViews m f fun j => ((args j).eval n env l yz i).getD ⟨[], fun _ => default⟩ else none

/-- One turn of the loop: `(*this)(level, i, index) = e(level, i, index)` (field.hpp:672-676). xtensor broadcasts the array to the shape of the view. -/
def assignRow {U : Type} [Inhabited U] (n : Nat) (a : Nat) (e : FieldExpr U) (env : Nat → FieldState U) (l : Nat) (yz : List Int) (i : Interval) : Option (Nat → FieldState U) :=
  match e.eval n env l yz i, fieldInterval n (env a).ref l yz i with
  | some w, some r =>
    if bcast w.shape (rowShape (env a).size (env a).soa (i.stop - i.start).toNat) = some (rowShape (env a).size (env a).soa (i.stop - i.start).toNat) then
      some (Function.update env a { env a with
        data := fun k c => if r.index + i.start ≤ k ∧ k < r.index + i.stop ∧ c < (env a).size then
          w.get (pick w.shape (rowIndex (env a).size (env a).soa (k - r.index - i.start).toNat c)) else (env a).data k c })
    else none
  | _, _ => none

/-- `field = e` (field.hpp:667-680) for the field number `a`. -/
def assignExpr {U : Type} [Inhabited U] (n : Nat) (a : Nat) (e : FieldExpr U) (env : Nat → FieldState U) : Option (Nat → FieldState U) :=
  (forEachIntervalCA n (fun (s : Option (Nat → FieldState U)) l yz i => (s.bind fun env => assignRow n a e env l yz i, i)) (env a).cells (some env)).bind Prod.snd

end Samurai

/-
Vocabulary for the expressions of fields.
-/
import Verif.Model.Field
import Verif.Spec.Graduation

namespace Samurai

variable {U : Type}

/-- The field number `k` is in the expression. -/
def FieldExpr.Uses (k : Nat) : FieldExpr U → Prop
  | .field k' => k' = k
  | .const _ => False
  | .fn _ _ args => ∃ j, (args j).Uses k

/-- The value of the expression in a cell, for the component `c`: `read k c` is the value of the field number `k` in this cell. -/
def FieldExpr.valueAt (read : Nat → Nat → U) (c : Nat) : FieldExpr U → U
  | .field k => read k c
  | .const v => v
  | .fn _ f args => f fun j => (args j).valueAt read c

/-- The fields that can be used for a result with `size` components: the same number of components and the same layout, or scalar fields if the result is stored by components. -/
def FieldState.Fits (F : FieldState U) (size : Nat) (soa : Bool) : Prop := F.size = size ∧ (size = 1 ∨ F.soa = soa) ∨ F.size = 1 ∧ soa = true

/-- The mesh of the field is well formed, with intervals of step 1, and its leaves are cells of its reference mesh. -/
structure FieldState.OK (n : Nat) (F : FieldState U) : Prop where
  cellsWF : F.cells.WF n
  steps : ∀ r ∈ F.cells.rows n, r.2.2.step = 1
  refWF : F.ref.WF n
  numbers : F.ref.NumbersDiffer n
  leaves : ∀ l p, F.cells.Mem n l p → F.ref.Mem n l p

end Samurai

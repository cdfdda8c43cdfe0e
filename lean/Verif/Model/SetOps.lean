/-
Model of the helpers building set expressions: `contraction`, `expand` (`subset/node_op.hpp`) and operators whose
operands are themselves operators (`subset/subset_op.hpp`).
-/
import Verif.Model.Subset

namespace Samurai

/-- An operator whose operands are operator objects, e.g. `union_(a.on(1), b)` (subset_op.hpp:39-48, 75-79, 125-129:
`get_arg` copies the operands), then the constructor initialises the levels
(subset_op_base.hpp:102-108). -/
def SetObj.combine (f : Fn) (a b : SetObj) : SetObj := SetObj.make (.op f a.tree b.tree)

/-- `union_` with several arguments: a right fold. -/
def unionAll : Node → List Node → Expr Node
  | N, [] => .leaf N
  | N, M :: l => .op .union (.leaf N) (unionAll M l)

/-- The sign vectors used by `detail::expand_impl` after the first one, in order (node_op.hpp:514-557);
dimension `n + 1`, dimensions 1 to 3 only. -/
def expandSigns : Nat → List (Nat → Int)
  | 0 => [fun _ => -1]
  | 1 => [fun d => if d = 0 then -1 else 1, fun d => if d = 0 then 1 else -1, fun _ => -1]
  | _ => [fun d => if d = 0 then -1 else 1, fun d => if d = 1 then -1 else 1, fun d => if d = 2 then 1 else -1,
          fun d => if d = 2 then -1 else 1, fun d => if d = 1 then 1 else -1, fun d => if d = 0 then 1 else -1, fun _ => -1]

/-- `expand(t, size)` (node_op.hpp:559-568), dimension `n + 1`. -/
def expandSet (n : Nat) (t : Node) (size : Int) : Expr Node :=
  unionAll (.translate t fun _ => size) ((expandSigns n).map fun s => .translate t fun d => size * s d)

/-- `contraction(t, size)` (node_op.hpp:494-512). -/
def contractionSet (t : Node) (size : Int) : Expr Node :=
  .op .inter (.leaf (.translate t fun _ => size)) (.leaf (.translate t fun _ => -size))

end Samurai

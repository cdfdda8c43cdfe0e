/-
Vocabulary for the life of the solvers.
-/
import Verif.Model.SolverLife

namespace Samurai

/-- The event is an assignment by copy, `a = b`. -/
def SolverEv.IsCopy : SolverEv → Prop
  | .copy _ _ => True
  | _ => False

/-- The event is an assignment by move, `a = std::move(b)`. -/
def SolverEv.IsMove : SolverEv → Prop
  | .move _ _ => True
  | _ => False

/-- The event builds a solver of the class `c`. -/
def SolverEv.Builds (c : SolverClass) : SolverEv → Prop
  | .construct _ c' => c' = c
  | _ => False

/-- The event changes the unknown of a solver. -/
def SolverEv.ChangesUnknown : SolverEv → Prop
  | .setUnknown _ _ => True
  | _ => False

/-- The program uses or frees an object after its end. -/
def UsesDangling (es : List SolverEv) : Prop := SolverState.init.runs es = .error .dangling

/-- After the program all the solvers are destroyed, and some object of PETSc is not. -/
def Leaks (es : List SolverEv) : Prop := ∃ s, SolverState.init.runs es = .ok s ∧ (∀ a, s.objs a = none) ∧ ∃ id, s.heap.refs id ≠ 0

/-- The events of programs that reset a solver each time they give it an unknown, the mesh of an unknown being a part of it. -/
inductive CarefulEv
  | construct (a : Nat) (c : SolverClass)
  | newUnknown (a u : Nat)   -- a.set_unknown(u); a.reset();
  | setup (a : Nat)
  | solve (a : Nat)
  | reset (a : Nat)
  | move (a b : Nat)
  | destroy (a : Nat)

/-- The events of the solvers that they stand for. -/
def CarefulEv.events : CarefulEv → List SolverEv
  | .construct a c => [.construct a c]
  | .newUnknown a u => [.setUnknown a u, .reset a]
  | .setup a => [.setup a]
  | .solve a => [.solve a]
  | .reset a => [.reset a]
  | .move a b => [.move a b]
  | .destroy a => [.destroy a]

end Samurai

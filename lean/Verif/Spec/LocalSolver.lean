/-
Vocabulary for the cell-based schemes of stencil 1 and for the solvers of their equations.
-/
import Verif.Model.LocalSolver
import Mathlib.Analysis.Calculus.Deriv.Basic

namespace Samurai

/-- The expressions that a user writes with schemes of stencil 1: a scheme given by its function and its Jacobian, the product by a number, the sum and the difference of a linear scheme and of
an expression. -/
inductive LocalExpr (K κ : Type) (n : Nat)
  | user (f : κ → (Fin n → K) → Fin n → K) (J : κ → (Fin n → K) → Matrix (Fin n) (Fin n) K)
  | scale (a : K) (e : LocalExpr K κ n)
  | add (l : K → Matrix (Fin n) (Fin n) K) (e : LocalExpr K κ n)
  | sub (l : K → Matrix (Fin n) (Fin n) K) (e : LocalExpr K κ n)

section
variable {K κ : Type} [Field K] {n : Nat}

/-- The scheme that the operators of the library make of an expression. -/
def LocalExpr.scheme (length : κ → K) : LocalExpr K κ n → LocalNonlin K κ n
  | .user f J => LocalNonlin.make f J
  | .scale a e => (e.scheme length).scale a
  | .add l e => LocalNonlin.addLin length ⟨l⟩ (e.scheme length)
  | .sub l e => LocalNonlin.linSub length ⟨l⟩ (e.scheme length)

/-- The value of an expression in the cell `c` where the field is `x`, in mathematics. -/
def LocalExpr.value (length : κ → K) (c : κ) (x : Fin n → K) : LocalExpr K κ n → Fin n → K
  | .user f _ => f c x
  | .scale a e => fun i => a * e.value length c x i
  | .add l e => fun i => ∑ j, l (length c) i j * x j + e.value length c x i
  | .sub l e => fun i => ∑ j, l (length c) i j * x j - e.value length c x i

end

/-- The matrix `A` is the derivative of `f` at `x`: its entries are the partial derivatives. -/
def IsJacobian {K : Type} [NontriviallyNormedField K] {n : Nat} (f : (Fin n → K) → Fin n → K) (A : Matrix (Fin n) (Fin n) K) (x : Fin n → K) : Prop :=
  ∀ i j, HasDerivAt (fun t => f (Function.update x j t) i) (A i j) (x j)

/-- In each scheme given by the user, the Jacobian is the derivative of the function. -/
def LocalExpr.UserJacobians {K κ : Type} [NontriviallyNormedField K] {n : Nat} : LocalExpr K κ n → Prop
  | .user f J => ∀ c x, IsJacobian (f c) (J c x) x
  | .scale _ e => e.UserJacobians
  | .add _ e => e.UserJacobians
  | .sub _ e => e.UserJacobians

/-- The state of the method (kept by a `SNES` from a cell to the next one) has no effect on its iterates. -/
def NewtonMethod.Memoryless {K S : Type} {n : Nat} (nm : NewtonMethod K S n) : Prop := ∀ s s' F J r x, (nm.next s F J r x).2 = (nm.next s' F J r x).2

/-- A schedule visits cells of different indices, all below the size of the fields. -/
structure GoodSchedule {κ : Type} (index : κ → Nat) (N : Nat) (sched : List (κ × Nat)) : Prop where
  nodup : (sched.map fun ct => index ct.1).Nodup
  lt : ∀ ct ∈ sched, index ct.1 < N

end Samurai

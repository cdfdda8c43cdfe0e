/-
Specification: vectors of several fields.
-/
import Verif.Spec.Petsc
import Mathlib.Algebra.BigOperators.Group.Finset.Basic
import Mathlib.Data.Fintype.Basic

namespace Samurai

/-- The number of the first value of the field `c`, when the fields with `sz c` components on `N` cells are put one after the other. -/
def fieldOffset {C : Nat} (N : Nat) (sz : Fin C → Nat) (c : Fin C) : Int := ((∑ q ∈ Finset.univ.filter (· < c), N * sz q : Nat) : Int)

/-- The number of values of all the fields. -/
def fieldsSize {C : Nat} (N : Nat) (sz : Fin C → Nat) : Nat := ∑ c, N * sz c

/-- `x` is the vector of the fields `u c`, one after the other. -/
def AreVectors {K : Type} {C : Nat} (soa : Fin C → Bool) (N : Nat) (sz : Fin C → Nat) (u : (c : Fin C) → Int → Fin (sz c) → K) (x : Int → K) : Prop :=
  ∀ c, IsVector (soa c) N (sz c) (fieldOffset N sz c) (u c) x

end Samurai

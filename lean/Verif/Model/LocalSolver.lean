/-
Model of the cell-based schemes of stencil 1 with their algebra (`schemes/fv/cell_based/algebraic_operators.hpp`), and of the solvers of their independent equations, one per cell:
`petsc/nonlinear_local_solvers.hpp`, `petsc/utils.hpp` (copies between fields and vectors), `schemes/fv/cell_based/local_field.hpp`.
A field of `n` components is an array of numbers; the mesh has `N` cells with an index. Exact arithmetic.
-/
import Mathlib.Data.Matrix.Mul
import Mathlib.Logic.Function.Basic

namespace Samurai

/-! ### the schemes -/

section
variable {K κ : Type} [Field K] {n : Nat}

/-- The local functions of a non-linear cell-based scheme of stencil 1 (cell_based_scheme_definition.hpp:93-117): they read a `LocalField`, that is the values in the cell. `none` is `nullptr`. -/
structure LocalNonlin (K κ : Type) (n : Nat) where
  fn : Option (κ → (Fin n → K) → Fin n → K)
  jac : Option (κ → (Fin n → K) → Matrix (Fin n) (Fin n) K)

/-- A linear homogeneous cell-based scheme of stencil 1: the block of coefficients for the length of the cell. -/
structure LocalLin (K : Type) (n : Nat) where
  coeffs : K → Matrix (Fin n) (Fin n) K

/-- `make_identity` (operators/identity_fv.hpp:6-24). -/
def LocalLin.identity : LocalLin K n := ⟨fun _ => 1⟩

/-- `scalar * scheme`, linear (algebraic_operators.hpp:15-21). -/
def LocalLin.scale (a : K) (s : LocalLin K n) : LocalLin K n := ⟨fun h => a • s.coeffs h⟩

/-- `scheme1 + scheme2`, both linear (algebraic_operators.hpp:83-89). -/
def LocalLin.add (s t : LocalLin K n) : LocalLin K n := ⟨fun h => s.coeffs h + t.coeffs h⟩

/-- `scalar * scheme`, non-linear (algebraic_operators.hpp:32-58). -/
def LocalNonlin.scale (a : K) (s : LocalNonlin K κ n) : LocalNonlin K κ n :=
  ⟨s.fn.map fun f c x => a • f c x, s.jac.map fun J c x => a • J c x⟩

/-- `mat_vec` (schemes/fv/utils.hpp:142-183): the sums start from 0. -/
def blockVec (A : Matrix (Fin n) (Fin n) K) (x : Fin n → K) : Fin n → K := fun i => (List.finRange n).foldl (fun r j => r + A i j * x j) 0

/-- `linear + nonlinear` for stencils of size 1 (algebraic_operators.hpp:134-200), `length` being `cell.length`. -/
def LocalNonlin.addLin (length : κ → K) (l : LocalLin K n) (s : LocalNonlin K κ n) : LocalNonlin K κ n :=
  ⟨s.fn.map fun f c x => f c x + blockVec (l.coeffs (length c)) x, s.jac.map fun J c x => J c x + l.coeffs (length c)⟩

/-- `linear - nonlinear` (algebraic_operators.hpp:235-242). -/
def LocalNonlin.linSub (length : κ → K) (l : LocalLin K n) (s : LocalNonlin K κ n) : LocalNonlin K κ n := LocalNonlin.addLin length l (s.scale (-1))

/-- `set_scheme_function` and `set_jacobian_function` (cell_based_scheme__nonlin.hpp:90-95, 122-127). -/
def LocalNonlin.make (f : κ → (Fin n → K) → Fin n → K) (J : κ → (Fin n → K) → Matrix (Fin n) (Fin n) K) : LocalNonlin K κ n := ⟨some f, some J⟩

end

/-! ### the solvers -/

section
variable {K κ S : Type} {n : Nat}

/-- The position of the component `i` of the cell of index `idx` in the array of a field: components first (`SOA`), or cells first. -/
def fieldPos (soa : Bool) (N idx : Nat) (i : Fin n) : Nat := if soa then i.1 * N + idx else idx * n + i.1

/-- The arrays of the fields, by their addresses. -/
abbrev FieldMem (K : Type) := Nat → Nat → K

/-- `copy(f, cell, v)` (petsc/utils.hpp:136-158), and what a vector made by `create_petsc_vector_from(f, cell)` (160-171) gives when it is read. -/
def readLocal (soa : Bool) (N : Nat) (m : FieldMem K) (f idx : Nat) : Fin n → K := fun i => m f (fieldPos soa N idx i)

/-- The array of a field after the values of a cell are written. -/
def writeArray (soa : Bool) (N : Nat) (a : Nat → K) (idx : Nat) (x : Fin n → K) : Nat → K :=
  (List.finRange n).foldl (fun a i => Function.update a (fieldPos soa N idx i) (x i)) a

/-- `copy(v, f, cell)` (petsc/utils.hpp:173-196), and writing a vector made by `create_petsc_vector_from(f, cell)`. -/
def writeLocal (soa : Bool) (N : Nat) (m : FieldMem K) (f idx : Nat) (x : Fin n → K) : FieldMem K := Function.update m f (writeArray soa N (m f) idx x)

/-- A Newton method of PETSc: from its state, the function whose zero is searched, the Jacobian, the value of the function at the iterate and the iterate, the next state and iterate; and the test
of convergence (which knows the first value of the function). `maxIt` is the largest number of iterations. -/
structure NewtonMethod (K S : Type) (n : Nat) where
  next : S → ((Fin n → K) → Fin n → K) → ((Fin n → K) → Matrix (Fin n) (Fin n) K) → (Fin n → K) → (Fin n → K) → S × (Fin n → K)
  converged : (Fin n → K) → (Fin n → K) → Bool
  maxIt : Nat

/-- The iterations of `SNESSolve(snes, b, x)` on vectors `x`, `b` in a memory `M`: the function is `F(x) - b`, `b` being read at each evaluation; the value at the new iterate is computed
before `x` is written (as by the line searches). `none`: no convergence, the program stops (nonlinear_local_solvers.hpp:272-297). -/
def newtonLoop {M : Type} [Sub K] (nm : NewtonMethod K S n) (getX : M → Fin n → K) (setX : M → (Fin n → K) → M) (getB : M → Fin n → K)
    (F : (Fin n → K) → Fin n → K) (J : (Fin n → K) → Matrix (Fin n) (Fin n) K) (r0 : Fin n → K) : Nat → S → (Fin n → K) → M → Option (S × M)
  | 0, s, r, m => if nm.converged r0 r then some (s, m) else none
  | k + 1, s, r, m =>
    if nm.converged r0 r then some (s, m)
    else
      let (s', x') := nm.next s (fun y => F y - getB m) J r (getX m)
      newtonLoop nm getX setX getB F J r0 k s' (F x' - getB m) (setX m x')

/-- `SNESSolve(snes, b, x)`: the first value of the function, then the iterations. -/
def snesSolve {M : Type} [Sub K] (nm : NewtonMethod K S n) (getX : M → Fin n → K) (setX : M → (Fin n → K) → M) (getB : M → Fin n → K)
    (F : (Fin n → K) → Fin n → K) (J : (Fin n → K) → Matrix (Fin n) (Fin n) K) (s : S) (m : M) : Option (S × M) :=
  newtonLoop nm getX setX getB F J (F (getX m) - getB m) nm.maxIt s (F (getX m) - getB m) m

/-- The body of the loop for a cell (nonlinear_local_solvers.hpp:147-185): the fields with the components first are copied into vectors and back, the others are wrapped. -/
def solveCell [Sub K] (nm : NewtonMethod K S n) (F : (Fin n → K) → Fin n → K) (J : (Fin n → K) → Matrix (Fin n) (Fin n) K) (soa : Bool) (N u b idx : Nat) (s : S) (m : FieldMem K) :
    Option (S × FieldMem K) :=
  if 1 < n ∧ soa then
    match snesSolve (M := Fin n → K) nm (fun x => x) (fun _ x => x) (fun _ => readLocal soa N m b idx) F J s (readLocal soa N m u idx) with
    | none => none
    | some (s', x) => some (s', writeLocal soa N m u idx x)
  else snesSolve nm (fun m => readLocal soa N m u idx) (fun m x => writeLocal soa N m u idx x) (fun m => readLocal soa N m b idx) F J s m

/-- `NonLinearLocalSolvers`: its members (nonlinear_local_solvers.hpp:41-42). -/
structure LocalSolvers (K κ : Type) (n : Nat) where
  unknown : Option Nat
  scheme : LocalNonlin K κ n

/-- The constructor (nonlinear_local_solvers.hpp:46-63): `none` when a function is missing (`exit`). -/
def LocalSolvers.make (s : LocalNonlin K κ n) : Option (LocalSolvers K κ n) :=
  if s.fn.isSome ∧ s.jac.isSome then some ⟨none, s⟩ else none

/-- `operator=` by copy (nonlinear_local_solvers.hpp:67-74). -/
def LocalSolvers.assign (a b : LocalSolvers K κ n) : LocalSolvers K κ n := { a with unknown := b.unknown }

/-- `set_unknown`. -/
def LocalSolvers.setUnknown (a : LocalSolvers K κ n) (u : Nat) : LocalSolvers K κ n := { a with unknown := some u }

/-- `solve(rhs)` (nonlinear_local_solvers.hpp:110-197): the cells in the order in which the threads take them, each with the number of its thread (a sequential run has one thread); each thread has a `SNES`,
which keeps its state from a cell to the next. The solves of two cells are not interleaved: they use different `SNES` and different positions of the arrays. -/
def LocalSolvers.solve [Sub K] (a : LocalSolvers K κ n) (nm : NewtonMethod K S n) (fresh : S) (index : κ → Nat) (soa : Bool) (N rhs : Nat) (sched : List (κ × Nat)) (m : FieldMem K) : Option (FieldMem K) :=
  match a.unknown, a.scheme.fn, a.scheme.jac with
  | some u, some F, some J =>
    (sched.foldlM (fun (st : (Nat → S) × FieldMem K) (ct : κ × Nat) =>
      match solveCell nm (F ct.1) (J ct.1) soa N u rhs (index ct.1) (st.1 ct.2) st.2 with
      | none => none
      | some (s', m') => some (Function.update st.1 ct.2 s', m')) (fun _ => fresh, m)).map Prod.snd
  | _, _, _ => none

end

end Samurai

/-
Model of the life of the solvers and of the PETSc objects that they own: `petsc/linear_solver.hpp`, `petsc/linear_block_solver.hpp` (monolithic and nested), `petsc/nonlinear_solver.hpp`.
The objects of PETSc are handles with a number of references; a linear solver (`KSP`) and a non-linear solver (`SNES`) are called Krylov handles here. The two references that a Krylov
handle takes on its matrix (the operator and the matrix of the preconditioner, which are the same) are counted once. Without the multigrid (`ENABLE_MG` is not defined).
-/
import Mathlib.Logic.Function.Basic

namespace Samurai

/-- The objects of PETSc: `refs` is the number of references (0: never created, or freed), `ops` is the matrix of a Krylov handle, `ctx` the address given to its callbacks,
`built` the unknown for which a matrix was assembled. -/
structure PetscHeap where
  next : Nat
  refs : Nat → Nat
  ops : Nat → Option Nat
  ctx : Nat → Option Nat
  built : Nat → Option Nat

/-- What stops a program: an object used or freed after its end (undefined), a null handle given to PETSc (its error code is not read), `exit` with a message,
or a program that is not valid C++ (an object built twice, or used outside its life). -/
inductive SolverErr
  | dangling
  | null
  | stopped
  | invalid
  deriving DecidableEq

/-- The three classes of solvers: `LinearSolver`, `LinearBlockSolver`, `NonLinearSolver`. -/
inductive SolverClass
  | linear
  | block
  | nonlinear
  deriving DecidableEq

/-- The members of a solver (linear_solver.hpp:24-27, nonlinear_solver.hpp:20-23): `unknown` is the unknown of `m_assembly` (`none`: not set). A number stands for a field with its mesh
and its boundary conditions: an unknown whose mesh was adapted is another number. -/
structure SolverObj where
  cls : SolverClass
  unknown : Option Nat
  ksp : Option Nat
  mat : Option Nat
  setUp : Bool

/-- `KSPCreate`, `SNESCreate`, `MatCreate`. -/
def PetscHeap.create (h : PetscHeap) : PetscHeap :=
  { next := h.next + 1, refs := Function.update h.refs h.next 1, ops := Function.update h.ops h.next none, ctx := Function.update h.ctx h.next none,
    built := Function.update h.built h.next none }

/-- One reference less. -/
def PetscHeap.release (h : PetscHeap) (id : Nat) : Except SolverErr PetscHeap :=
  if h.refs id = 0 then .error .dangling else .ok { h with refs := Function.update h.refs id (h.refs id - 1) }

/-- `KSPDestroy`, `SNESDestroy`: with its last reference the object gives back its matrix. -/
def PetscHeap.destroyKrylov (h : PetscHeap) (k : Nat) : Except SolverErr PetscHeap :=
  match h.release k with
  | .error e => .error e
  | .ok h' => if h'.refs k = 0 then match h'.ops k with
      | some a => h'.release a
      | none => .ok h'
    else .ok h'

/-- `KSPSetOperators`, `SNESSetJacobian`: a reference to the new matrix, then one less to the old one. -/
def PetscHeap.setOperators (h : PetscHeap) (k a : Nat) : Except SolverErr PetscHeap :=
  if h.refs k = 0 ∨ h.refs a = 0 then .error .dangling
  else
    let h1 : PetscHeap := { h with refs := Function.update h.refs a (h.refs a + 1) }
    match h1.ops k with
    | none => .ok { h1 with ops := Function.update h1.ops k (some a) }
    | some b => match h1.release b with
      | .error e => .error e
      | .ok h2 => .ok { h2 with ops := Function.update h2.ops k (some a) }

/-! ### the methods -/

/-- `_destroy_petsc_objects()` (linear_solver.hpp:43-55, nonlinear_solver.hpp:39-51). -/
def destroyPetsc (h : PetscHeap) (o : SolverObj) : Except SolverErr (PetscHeap × SolverObj) :=
  match (match o.mat with
    | some a => h.release a
    | none => .ok h) with
  | .error e => .error e
  | .ok h1 => match (match o.ksp with
      | some k => h1.destroyKrylov k
      | none => .ok h1) with
    | .error e => .error e
    | .ok h2 => .ok (h2, { o with ksp := none, mat := none })

/-- `_configure_solver()` (linear_solver.hpp:110-114, 256-290; linear_block_solver.hpp:47-51; nonlinear_solver.hpp:111-115): the handle is overwritten. The temporary `user_ksp` of `LinearSolver`
is created and destroyed at once; it is left out. -/
def configureSolver (h : PetscHeap) (o : SolverObj) : PetscHeap × SolverObj := (h.create, { o with ksp := some h.next })

/-- The constructors: the one of the base class configures the solver (linear_solver.hpp:31-35, nonlinear_solver.hpp:27-31), then those of `LinearSolver` and `LinearBlockSolver`
do it again (linear_solver.hpp:242-246, linear_block_solver.hpp:39-43). -/
def constructSolver (h : PetscHeap) (c : SolverClass) : PetscHeap × SolverObj :=
  let (h1, o1) := configureSolver h ⟨c, none, none, none, false⟩
  match c with
  | .nonlinear => (h1, o1)
  | _ => let (h2, o2) := configureSolver h1 o1
         (h2, { o2 with setUp := false })

/-- `create_matrix(m_A)` and `assemble_matrix(m_A)` for the unknown `u`: the handle is overwritten. -/
def makeMatrix (h : PetscHeap) (o : SolverObj) (u : Nat) : PetscHeap × SolverObj :=
  ({ h.create with built := Function.update h.create.built h.next (some u) }, { o with mat := some h.next })

/-- `assemble_matrix()` of the linear solvers (linear_solver.hpp:126-143). -/
def ensureMatrix (h : PetscHeap) (o : SolverObj) : Except SolverErr (PetscHeap × SolverObj) :=
  match o.mat, o.unknown with
  | some _, _ => .ok (h, o)
  | none, none => .error .stopped
  | none, some u => .ok (makeMatrix h o u)

/-- The end of `setup()`: the matrix is given to the Krylov handle, and to the callbacks of a `SNES` the address `this`. -/
def attachMatrix (h : PetscHeap) (o : SolverObj) (self : Nat) : Except SolverErr (PetscHeap × SolverObj) :=
  match o.ksp, o.mat with
  | some k, some a => match h.setOperators k a with
    | .error e => .error e
    | .ok h' => .ok ({ h' with ctx := if o.cls = .nonlinear then Function.update h'.ctx k (some self) else h'.ctx }, { o with setUp := true })
  | _, _ => .error .null

/-- `setup()` (linear_solver.hpp:145-172, 318-348; linear_block_solver.hpp:104-133; nonlinear_solver.hpp:125-153): `LinearSolver` and `NonLinearSolver` create the matrix whether there is
one or not, `LinearBlockSolver` only if there is none. -/
def setupSolver (h : PetscHeap) (o : SolverObj) (self : Nat) : Except SolverErr (PetscHeap × SolverObj) :=
  if o.setUp then .ok (h, o)
  else match o.cls with
    | .block => match ensureMatrix h o with
      | .error e => .error e
      | .ok (h1, o1) => attachMatrix h1 o1 self
    | _ => match o.unknown with
      | none => .error .stopped
      | some u => let (h1, o1) := makeMatrix h o u
                  attachMatrix h1 o1 self

/-! ### programs -/

/-- The state of a program: the solvers by their addresses, the objects of PETSc, and for each `solve` the unknown of the solver and the one for which its matrix was assembled. -/
structure SolverState where
  objs : Nat → Option SolverObj
  heap : PetscHeap
  solved : List (Option Nat × Option Nat)

def SolverState.init : SolverState := ⟨fun _ => none, ⟨0, fun _ => 0, fun _ => none, fun _ => none, fun _ => none⟩, []⟩

/-- What a program does with its solvers. -/
inductive SolverEv
  | construct (a : Nat) (c : SolverClass)
  | setUnknown (a u : Nat)
  | assemble (a : Nat)
  | setup (a : Nat)
  | solve (a : Nat)
  | reset (a : Nat)
  | move (a b : Nat)   -- a = std::move(b)
  | copy (a b : Nat)   -- a = b
  | destroy (a : Nat)
  deriving DecidableEq

/-- The solver `a` after a method that changes it and the objects of PETSc. -/
def SolverState.put (s : SolverState) (a : Nat) (r : PetscHeap × SolverObj) : SolverState := { s with objs := Function.update s.objs a (some r.2), heap := r.1 }

/-- `KSPSolve`, `SNESSolve` (linear_solver.hpp:195-224, 350-363; nonlinear_solver.hpp:245-270, 321-334): the handle and its matrix are used, and the solver whose address was given to
the callbacks (nonlinear_solver.hpp:157-236). -/
def solveWith (s : SolverState) (o : SolverObj) : Except SolverErr SolverState :=
  match o.ksp with
  | none => .error .null
  | some k => match s.heap.ops k with
    | none => .error .null
    | some m =>
      if s.heap.refs k = 0 ∨ s.heap.refs m = 0 then .error .dangling
      else match s.heap.ctx k with
        | none => .ok { s with solved := s.solved ++ [(o.unknown, s.heap.built m)] }
        | some c => match s.objs c with
          | none => .error .dangling
          | some _ => .ok { s with solved := s.solved ++ [(o.unknown, s.heap.built m)] }

/-- `a = b` and `a = std::move(b)` for two solvers (linear_solver.hpp:65-91, nonlinear_solver.hpp:61-88). -/
def assignSolver (s : SolverState) (a b : Nat) (moved : Bool) : Except SolverErr SolverState :=
  match s.objs a, s.objs b with
  | some oa, some ob =>
    if oa.cls ≠ ob.cls then .error .invalid
    else if a = b then .ok s
    else match destroyPetsc s.heap oa with
      | .error e => .error e
      | .ok (h, oa') =>
        let s1 := s.put a (h, { oa' with unknown := ob.unknown, ksp := ob.ksp, mat := ob.mat, setUp := ob.setUp })
        .ok (if moved then s1.put b (h, { ob with ksp := none, mat := none, setUp := false }) else s1)
  | _, _ => .error .invalid

/-- One statement of a program. -/
def SolverState.step (s : SolverState) : SolverEv → Except SolverErr SolverState
  | .construct a c => match s.objs a with
    | some _ => .error .invalid
    | none => .ok (s.put a (constructSolver s.heap c))
  | .setUnknown a u => match s.objs a with
    | none => .error .invalid
    | some o => .ok (s.put a (s.heap, { o with unknown := some u }))
  | .assemble a => match s.objs a with
    | none => .error .invalid
    | some o => if o.cls = .nonlinear then .error .invalid else match ensureMatrix s.heap o with
      | .error e => .error e
      | .ok r => .ok (s.put a r)
  | .setup a => match s.objs a with
    | none => .error .invalid
    | some o => match setupSolver s.heap o a with
      | .error e => .error e
      | .ok r => .ok (s.put a r)
  | .solve a => match s.objs a with
    | none => .error .invalid
    | some o => match setupSolver s.heap o a with
      | .error e => .error e
      | .ok r => solveWith (s.put a r) r.2
  -- linear_solver.hpp:231-236, nonlinear_solver.hpp:279-284
  | .reset a => match s.objs a with
    | none => .error .invalid
    | some o => match destroyPetsc s.heap o with
      | .error e => .error e
      | .ok (h, o') => .ok (s.put a (configureSolver h { o' with setUp := false }))
  | .move a b => assignSolver s a b true
  | .copy a b => assignSolver s a b false
  -- linear_solver.hpp:37-40, nonlinear_solver.hpp:33-36
  | .destroy a => match s.objs a with
    | none => .error .invalid
    | some o => match destroyPetsc s.heap o with
      | .error e => .error e
      | .ok (h, _) => .ok { s with objs := Function.update s.objs a none, heap := h }

/-- A program from a state. -/
def SolverState.runs (s : SolverState) : List SolverEv → Except SolverErr SolverState
  | [] => .ok s
  | e :: es => match s.step e with
    | .error x => .error x
    | .ok s' => s'.runs es

end Samurai

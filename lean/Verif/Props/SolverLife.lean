/-
C109: a program that builds, uses, resets, moves and destroys solvers never uses or frees an object of PETSc after its end, and leaves none behind.
C110: each solve uses the matrix assembled for the unknown of the solver.
-/
import Verif.Lemmas.SolverLife

namespace Samurai

/-- C109: programs of any length with any number of solvers, that assign no solver by copy, and no non-linear solver by move. -/
theorem C109_no_dangling (es : List SolverEv) (hcopy : ∀ e ∈ es, ¬ e.IsCopy) (hmove : (∀ e ∈ es, ¬ e.IsMove) ∨ ∀ e ∈ es, ¬ e.Builds .nonlinear) : ¬ UsesDangling es := by
  intro h
  have := SolverGood.runs (C := True) (L := False) es hcopy (fun _ => hmove) (fun h => h.elim) SolverGood.init (fun _ => .inr fun a o ha => absurd ha (by simp [SolverState.init]))
  rw [show SolverState.init.runs es = .error .dangling from h] at this
  exact this trivial rfl

/-- C109 (partial): programs that only build non-linear solvers, and assign none by copy, leave no object of PETSc behind. What is missing: the linear solvers (see `C109_leak_refuted`). -/
theorem C109_no_leak_partial (es : List SolverEv) (hcopy : ∀ e ∈ es, ¬ e.IsCopy) (hnl : ∀ e ∈ es, ∀ c, e.Builds c → c = .nonlinear) : ¬ Leaks es := by
  rintro ⟨s, h1, h2, id, h3⟩
  have := SolverGood.runs (C := False) (L := True) es hcopy (fun h => h.elim) (fun _ => hnl) SolverGood.init (fun h => h.elim)
  rw [h1] at this
  obtain ⟨a, o, e1, -⟩ := this.owned trivial id h3
  rw [h2 a] at e1
  exact absurd e1 (by simp)

/-- C109 refuted for the linear solvers: their constructors create the `KSP` twice, the first one is lost. -/
theorem C109_leak_refuted (c : SolverClass) (hc : c ≠ .nonlinear) : Leaks [.construct 0 c, .destroy 0] := by
  cases c with
  | nonlinear => exact absurd rfl hc
  | linear => exact ⟨_, rfl, fun a => by by_cases h : a = 0 <;> simp [h, SolverState.put, SolverState.init], 0, by decide +kernel⟩
  | block => exact ⟨_, rfl, fun a => by by_cases h : a = 0 <;> simp [h, SolverState.put, SolverState.init], 0, by decide +kernel⟩

/-- C109 refuted: `assemble_matrix()` before `solve` on a `LinearSolver`, and its matrix is lost too: the objects 0 (a `KSP`) and 2 (a matrix) outlive the solver. -/
theorem C109_matrix_leak_refuted : ∃ s, SolverState.init.runs [.construct 0 .linear, .setUnknown 0 7, .assemble 0, .solve 0, .destroy 0] = .ok s ∧ (∀ a, s.objs a = none) ∧
    s.heap.refs 0 ≠ 0 ∧ s.heap.refs 2 ≠ 0 ∧ s.heap.built 2 = some 7 :=
  ⟨_, rfl, fun a => by by_cases h : a = 0 <;> simp [h, SolverState.put, SolverState.init], by decide +kernel, by decide +kernel, by decide +kernel⟩

/-- C109 refuted for the assignment by copy, of all the classes: both solvers own the objects, they are freed twice. -/
theorem C109_copy_refuted (c : SolverClass) : UsesDangling [.construct 0 c, .construct 1 c, .copy 0 1, .destroy 1, .destroy 0] := by
  cases c <;> rfl

/-- C109 refuted for the assignment by move of non-linear solvers: the callbacks of the `SNES` keep the address of the solver that set it up. -/
theorem C109_move_refuted : UsesDangling [.construct 0 .nonlinear, .construct 1 .nonlinear, .setUnknown 1 7, .setup 1, .move 0 1, .destroy 1, .solve 0] := rfl

/-- A solver that was moved from has no handle: it is of no use before `reset()`, also after `set_unknown`. -/
theorem C109_moved_from (c : SolverClass) : SolverState.init.runs [.construct 0 c, .construct 1 c, .move 0 1, .setUnknown 1 7, .solve 1] = .error .null ∧
    ∃ s, SolverState.init.runs [.construct 0 c, .construct 1 c, .move 0 1, .setUnknown 1 7, .reset 1, .solve 1] = .ok s ∧ s.solved = [(some 7, some 7)] := by
  cases c <;> exact ⟨rfl, _, rfl, rfl⟩

/-- C110: programs of any length with any number of solvers that reset a solver each time they give it an unknown: each solve uses the matrix of the unknown of the solver. -/
theorem C110_matrix_of_unknown (es : List CarefulEv) {s : SolverState} (h : SolverState.init.runs (es.flatMap CarefulEv.events) = .ok s) : ∀ p ∈ s.solved, p.1 = p.2 :=
  SolverGood.careful es SolverGood.init (by simp [SolverState.init]) s h

/-- C110 refuted without the reset: `solve(u1, b1); solve(u2, b2);` solves the second system with the matrix of `u1`: the fields may differ in their boundary conditions, and the mesh of a field
may have been adapted in between. -/
theorem C110_stale_refuted (c : SolverClass) : ∃ s, SolverState.init.runs [.construct 0 c, .setUnknown 0 1, .solve 0, .setUnknown 0 2, .solve 0] = .ok s ∧ (some 2, some 1) ∈ s.solved := by
  cases c <;> exact ⟨_, rfl, by decide +kernel⟩

/-! ### concrete programs -/

/-- A time loop: the solver is moved into a member, used, reset and used again. -/
def solverProgram (c : SolverClass) : List SolverEv :=
  [.construct 0 c, .construct 1 c, .setUnknown 1 7, .setup 1, .move 0 1, .solve 0, .destroy 1, .solve 0, .setUnknown 0 8, .reset 0, .solve 0, .destroy 0]

example (c : SolverClass) (hc : c ≠ .nonlinear) : ¬ UsesDangling (solverProgram c) :=
  C109_no_dangling _ (by simp [solverProgram, SolverEv.IsCopy]) (.inr (by simp [solverProgram, SolverEv.Builds, hc]))

-- and it does run to its end
example : ∃ s, SolverState.init.runs (solverProgram .linear) = .ok s ∧ s.solved = [(some 7, some 7), (some 7, some 7), (some 8, some 8)] := ⟨_, rfl, rfl⟩

def newtonProgram : List SolverEv := [.construct 0 .nonlinear, .construct 1 .nonlinear, .move 0 1, .setUnknown 0 7, .solve 0, .reset 0, .solve 0, .destroy 1, .destroy 0]

example : ¬ Leaks newtonProgram := C109_no_leak_partial _ (by simp [newtonProgram, SolverEv.IsCopy]) (by simp [newtonProgram, SolverEv.Builds])

example : ∃ s, SolverState.init.runs newtonProgram = .ok s ∧ s.solved.length = 2 := ⟨_, rfl, rfl⟩

example : ¬ UsesDangling [.construct 0 .nonlinear, .setUnknown 0 7, .solve 0, .reset 0, .solve 0, .destroy 0] :=
  C109_no_dangling _ (by simp [SolverEv.IsCopy]) (.inl (by simp [SolverEv.IsMove]))

def carefulProgram : List CarefulEv := [.construct 0 .block, .newUnknown 0 7, .solve 0, .newUnknown 0 8, .solve 0, .solve 0, .destroy 0]

example : ∃ s, SolverState.init.runs (carefulProgram.flatMap CarefulEv.events) = .ok s ∧ s.solved = [(some 7, some 7), (some 8, some 8), (some 8, some 8)] := ⟨_, rfl, rfl⟩

end Samurai

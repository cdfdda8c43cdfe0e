import Verif.Model.Bc
import Mathlib.LinearAlgebra.Lagrange
import Mathlib.Algebra.CharZero.Defs
import Mathlib.Tactic.FieldSimp
import Mathlib.Tactic.IntervalCases
import Mathlib.Tactic.NormNum

namespace Samurai
open Polynomial

section
variable {K : Type} [Field K] [CharZero K]

/-- The formulas of `DirichletImpl` are exact for polynomials. -/
theorem dirichletRow_exact {order : Nat} (h1 : 1 ≤ order) (h4 : order ≤ 4) (p : K[X]) (hp : p.degree < ((order + 1 : Nat) : WithBot Nat)) {i : Nat}
    (hi : order ≤ i) (hi2 : i < 2 * order) :
    dirichletRow order i (p.eval ((order : K) - 1 / 2)) (fun j => p.eval (j : K)) = p.eval (i : K) := by
  have hlt : p.natDegree < order + 1 := by
    by_cases h0 : p = 0
    · subst h0; simp
    · exact (natDegree_lt_iff_degree_lt h0).2 hp
  simp only [eval_eq_sum_range' hlt]
  interval_cases order <;> interval_cases i <;>
    simp only [dirichletRow, Finset.sum_range_succ, Finset.sum_range_zero] <;> push_cast <;> field_simp <;> ring

theorem extrapolationRow_exact {k : Nat} (h1 : 1 ≤ k) (h3 : k ≤ 3) (p : K[X]) (hp : p.degree < ((2 * k - 1 : Nat) : WithBot Nat)) :
    extrapolationRow (2 * k) (fun j => p.eval (j : K)) = p.eval ((2 * k - 1 : Nat) : K) := by
  have hlt : p.natDegree < 2 * k - 1 := by
    by_cases h0 : p = 0
    · subst h0; simp; omega
    · exact (natDegree_lt_iff_degree_lt h0).2 hp
  simp only [eval_eq_sum_range' hlt]
  interval_cases k <;>
    simp only [extrapolationRow, Finset.sum_range_succ, Finset.sum_range_zero, Nat.mul_one, Nat.reduceMul, Nat.reduceSub] <;> push_cast <;> ring

/-- The polynomial through the values at `0, .., m - 1`, and one more point. -/
theorem exists_poly_through (m : Nat) (x v : K) (hx : ∀ j : Nat, j < m → (j : K) ≠ x) (a : Nat → K) :
    ∃ p : K[X], p.degree < ((m + 1 : Nat) : WithBot Nat) ∧ (∀ j < m, p.eval (j : K) = a j) ∧ p.eval x = v := by
  classical
  let node : Nat → K := fun j => if j < m then (j : K) else x
  let val : Nat → K := fun j => if j < m then a j else v
  have hinj : Set.InjOn node (Finset.range (m + 1) : Finset Nat) := by
    intro i hi j hj hij
    simp only [Finset.coe_range, Set.mem_Iio] at hi hj
    simp only [node] at hij
    by_cases h1 : i < m <;> by_cases h2 : j < m <;> simp only [h1, h2, if_true, if_false] at hij
    · exact_mod_cast hij
    · exact absurd hij (hx i h1)
    · exact absurd hij.symm (hx j h2)
    · omega
  refine ⟨Lagrange.interpolate (Finset.range (m + 1)) node val, ?_, ?_, ?_⟩
  · have := Lagrange.degree_interpolate_lt val hinj
    simpa using this
  · intro j hj
    have := Lagrange.eval_interpolate_at_node val hinj (i := j) (by simp; omega)
    simpa [node, val, hj] using this
  · have := Lagrange.eval_interpolate_at_node val hinj (i := m) (by simp)
    simpa [node, val] using this

theorem exists_poly (m : Nat) (a : Nat → K) : ∃ p : K[X], p.degree < (m : WithBot Nat) ∧ ∀ j < m, p.eval (j : K) = a j := by
  have hinj : Set.InjOn (fun j : Nat => (j : K)) (Finset.range m : Finset Nat) := fun i _ j _ h => Nat.cast_injective h
  refine ⟨Lagrange.interpolate (Finset.range m) (fun j : Nat => (j : K)) a, ?_, fun j hj => ?_⟩
  · have := Lagrange.degree_interpolate_lt a hinj
    simpa using this
  · exact Lagrange.eval_interpolate_at_node a hinj (by simpa using hj)

omit [CharZero K] in
theorem dirichletRow_congr {order i : Nat} (h1 : 1 ≤ order) (h4 : order ≤ 4) (hi : order ≤ i) (hi2 : i < 2 * order) (v : K) {a a' : Nat → K}
    (h : ∀ j < order, a j = a' j) : dirichletRow order i v a = dirichletRow order i v a' := by
  interval_cases order <;> interval_cases i <;> simp only [dirichletRow] <;> simp [h]

omit [CharZero K] in
theorem extrapolationRow_congr {k : Nat} (h1 : 1 ≤ k) (h3 : k ≤ 3) {a a' : Nat → K}
    (h : ∀ j < 2 * k - 1, a j = a' j) : extrapolationRow (2 * k) a = extrapolationRow (2 * k) a' := by
  interval_cases k <;> simp only [extrapolationRow, Nat.mul_one, Nat.reduceMul] <;> simp [h]

/-- The ghosts of `Dirichlet<order>` are on the polynomial of degree at most `order` through the cells and the boundary value. -/
theorem dirichletRow_poly {order : Nat} (h1 : 1 ≤ order) (h4 : order ≤ 4) (v : K) (a : Nat → K) :
    ∃ p : K[X], p.degree < ((order + 1 : Nat) : WithBot Nat) ∧ (∀ j < order, p.eval (j : K) = a j) ∧ p.eval ((order : K) - 1 / 2) = v ∧
      ∀ i, order ≤ i → i < 2 * order → dirichletRow order i v a = p.eval (i : K) := by
  obtain ⟨p, p1, p2, p3⟩ := exists_poly_through order ((order : K) - 1 / 2) v (by
    intro j _ hj
    have h2 : (2 * j + 1 : K) = 2 * order := by
      rw [hj]; ring
    have h3 : ((2 * j + 1 : Nat) : K) = ((2 * order : Nat) : K) := by push_cast; exact h2
    have := Nat.cast_injective h3
    omega) a
  refine ⟨p, p1, p2, p3, fun i hi hi2 => ?_⟩
  rw [← dirichletRow_exact h1 h4 p p1 hi hi2, p3]
  exact dirichletRow_congr h1 h4 hi hi2 v fun j hj => (p2 j hj).symm

theorem extrapolationRow_poly {k : Nat} (h1 : 1 ≤ k) (h3 : k ≤ 3) (a : Nat → K) :
    ∃ p : K[X], p.degree < ((2 * k - 1 : Nat) : WithBot Nat) ∧ (∀ j < 2 * k - 1, p.eval (j : K) = a j) ∧
      extrapolationRow (2 * k) a = p.eval ((2 * k - 1 : Nat) : K) := by
  obtain ⟨p, p1, p2⟩ := exists_poly (2 * k - 1) a
  refine ⟨p, p1, p2, ?_⟩
  rw [← extrapolationRow_exact h1 h3 p p1]
  exact extrapolationRow_congr h1 h3 fun j hj => (p2 j hj).symm

end

end Samurai

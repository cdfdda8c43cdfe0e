/-
Gauss-Legendre quadrature on a cell.
-/
import Verif.Lemmas.Quadrature

namespace Samurai

open MeasureTheory

/-- The domain of a cell: `length` in each direction from its corner. -/
def Cell.box {dim : Nat} (cell : Cell ℝ dim) : Set (Fin dim → ℝ) := Set.univ.pi fun i => Set.Icc (cell.corner i) (cell.corner i + cell.length)

/-- C98, partial: for all the degrees up to 39, in dimension 1, 2 and 3, on every cell and for every polynomial `f` of degree at most `degree` in each variable (written with the powers of
`(x i - center i) / (length / 2)`, the coefficients being `a`), `GaussLegendre<degree>().quadrature<1>(cell, f)` is the integral of `f` over the cell up to `1e-14` times the volume of
half a cell and the sum of the absolute values of the coefficients. The degrees above 39 are missing, see `C98_quadrature_refuted`. -/
theorem C98_quadrature_partial {dim degree : Nat} (h1 : 1 ≤ dim) (h3 : dim ≤ 3) (hd : degree ≤ 39) (cell : Cell ℝ dim) (hl : 0 < cell.length)
    (a : (Fin dim → Fin (degree + 1)) → ℝ) (f : (Fin dim → ℝ) → ℝ)
    (hf : ∀ x, f x = ∑ α, a α * ∏ i, ((x i - cell.center i) / (cell.length / 2)) ^ (α i : Nat)) :
    ∃ q, gaussQuadrature degree cell f = some q ∧ |q - ∫ x in cell.box, f x| ≤ 1 / 10 ^ 14 * ((cell.length / 2) ^ dim * ∑ α, |a α|) := by
  have hh : 0 < cell.length / 2 := by positivity
  have hn1 : 1 ≤ glRequired degree := by unfold glRequired; omega
  have hn2 : glRequired degree ≤ 20 := by unfold glRequired; omega
  obtain ⟨t, ht, _⟩ := moment_table (k := 0) hn1 hn2 (by omega)
  have hm : ∀ k : Fin (degree + 1), |moment (t.map fun a => ((a.1 : ℝ) / 10 ^ 16, (a.2 : ℝ) / 10 ^ 16)) k - (exactMoment k : ℝ) / ((k : Nat) + 1)| ≤ 1 / (2 * 10 ^ 15) := by
    intro k
    obtain ⟨t', ht', h⟩ := moment_table (k := k) hn1 hn2 (by have := k.2; unfold glRequired; omega)
    rw [ht] at ht'
    obtain rfl := Option.some.inj ht'
    exact h
  have hfun : f = fun x => ∑ α, a α * ∏ i, ((x i - cell.center i) / (cell.length / 2)) ^ (α i : Nat) := funext hf
  have hbox : cell.box = Set.univ.pi fun i => Set.Icc (cell.center i - cell.length / 2) (cell.center i + cell.length / 2) := by
    unfold Cell.box
    congr 1
    funext i
    unfold Cell.corner Cell.center
    congr 1 <;> ring
  refine ⟨_, by unfold gaussQuadrature; rw [ht]; simp only []; rw [hfun, quadratureSum_monomials h1 h3 _ hh.ne']; rfl, ?_⟩
  rw [hbox, hfun, integral_combination a (fun α i => (α i : Nat)) cell.center hh, ← mul_sub, abs_mul, abs_of_pos (by positivity), ← mul_assoc, mul_comm (1 / 10 ^ 14), mul_assoc]
  refine mul_le_mul_of_nonneg_left ?_ (by positivity)
  rw [← Finset.sum_sub_distrib, Finset.mul_sum]
  refine (Finset.abs_sum_le_sum_abs _ _).trans (Finset.sum_le_sum fun α _ => ?_)
  rw [← mul_sub, abs_mul, mul_comm]
  exact mul_le_mul_of_nonneg_right (prod_close h3 (fun i => exactMoment_le _) fun i => hm (α i)) (abs_nonneg _)

/-- C98_quadrature_partial for `x y^3` (degree 3) on a cell of level 2 in dimension 2: the polynomial has a coefficient that is not 0. -/
example : ∃ (cell : Cell ℝ 2) (a : (Fin 2 → Fin 4) → ℝ), 0 < cell.length ∧ a ![1, 3] ≠ 0 ∧ ∃ q, gaussQuadrature 3 cell (fun x => ∑ α, a α * ∏ i, ((x i - cell.center i) / (cell.length / 2)) ^ (α i : Nat)) = some q ∧
    |q - ∫ x in cell.box, ∑ α, a α * ∏ i, ((x i - cell.center i) / (cell.length / 2)) ^ (α i : Nat)| ≤ 1 / 10 ^ 14 * ((cell.length / 2) ^ 2 * ∑ α, |a α|) := by
  have hl : 0 < (Cell.mk' (fun _ => 0) 1 2 ![3, 1] 0 : Cell ℝ 2).length := by simp [Cell.mk', cellLength]
  refine ⟨Cell.mk' (fun _ => 0) 1 2 ![3, 1] 0, fun α => if α = ![1, 3] then 1 else 0, hl, by simp, ?_⟩
  exact C98_quadrature_partial (by omega) (by omega) (by omega) _ hl _ _ fun _ => rfl

/-- `GaussLegendre<degree>` compiles for all degrees, but the points are not initialized above 39: there is no meaningful result, even for the function 1. -/
theorem C98_quadrature_refuted {degree : Nat} (h : 40 ≤ degree) {dim : Nat} (cell : Cell ℝ dim) (f : (Fin dim → ℝ) → ℝ) : gaussQuadrature degree cell f = none := by
  have hm : 21 ≤ glRequired degree := by unfold glRequired; omega
  obtain ⟨m, hm'⟩ : ∃ m, glRequired degree = m + 21 := ⟨_, (Nat.sub_add_cancel hm).symm⟩
  unfold gaussQuadrature
  rw [hm']
  rfl

end Samurai

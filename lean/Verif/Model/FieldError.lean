/-
Model of `make_field(name, mesh, f)` and of `operator==` (`include/samurai/field.hpp`) and of `L2_error` (`include/samurai/numeric/error.hpp`). `n` is `dim - 1`. Real numbers stand for
`double`, without rounding. The array `cells` holds the leaves with their numbers in the reference mesh (mesh.hpp, `renumbering`); a field is the array of its values.
-/
import Verif.Model.Quadrature
import Verif.Model.CellArray
import Verif.Model.Interface
import Verif.Model.Update
import Mathlib.Analysis.SpecialFunctions.Sqrt

namespace Samurai

/-- The leaves of a mesh, its origin and its scaling factor. -/
structure FieldMesh (n : Nat) where
  cells : CA
  origin : Fin (n + 1) → ℝ
  scaling : ℝ

/-- The cell handed by `for_each_cell` (algorithm.hpp:290-306, level_cell_array.hpp): `p` has the last coordinate first. -/
noncomputable def FieldMesh.cell {n : Nat} (M : FieldMesh n) (l : Nat) (p : List Int) (k : Int) : Cell ℝ (n + 1) := Cell.mk' M.origin M.scaling l (fun i => toPt p i) k

/-- `make_field<value_t, m, SOA>(name, mesh, f)` (field.hpp:962-983), without `SAMURAI_CHECK_NAN`. The layout of the data is not modelled. -/
noncomputable def makeFieldFn {n m : Nat} (M : FieldMesh n) (f : (Fin (n + 1) → ℝ) → Fin m → ℝ) : Option (Int → Fin m → ℝ) :=
  forEachCellCA n (fun u l p k => Function.update u k (f (M.cell l p k).center)) M.cells fun _ _ => 0

/-- `error_norm` and `solution_norm` before the square roots (error.hpp:21-57). The second one is computed only for relative errors, which has no effect on the first one. -/
noncomputable def l2Sums {n m : Nat} (M : FieldMesh n) (u : Int → Fin m → ℝ) (exact : (Fin (n + 1) → ℝ) → Fin m → ℝ) : Option (ℝ × ℝ) :=
  (forEachCellCA n (fun (s : Option (ℝ × ℝ)) l p k => s.bind fun s =>
    (gaussQuadrature 0 (M.cell l p k) fun x => ∑ c, (exact x c - u k c) * (exact x c - u k c)).bind fun a =>
    (gaussQuadrature 0 (M.cell l p k) fun x => ∑ c, exact x c * exact x c).map fun b => (s.1 + a, s.2 + b)) M.cells (some (0, 0))).bind id

/-- `L2_error<relative>(field, exact)` (error.hpp:11-72). `none` also for a division by 0. -/
noncomputable def l2Error {n m : Nat} (relative : Bool) (M : FieldMesh n) (u : Int → Fin m → ℝ) (exact : (Fin (n + 1) → ℝ) → Fin m → ℝ) : Option ℝ := by
  classical exact (l2Sums M u exact).bind fun s => if relative then (if Real.sqrt s.2 = 0 then none else some (Real.sqrt s.1 / Real.sqrt s.2)) else some (Real.sqrt s.1)

/-- `field1 == field2` for two scalar fields on the same mesh (field.hpp:996-1019); the comparison of the meshes is not modelled here. -/
noncomputable def fieldEq (n : Nat) (cells : CA) (u v : Int → ℝ) : Option Bool := by
  classical exact forEachCellCA n (fun same _ _ k => if |u k - v k| > 1 / 10 ^ 15 then false else same) cells true

end Samurai

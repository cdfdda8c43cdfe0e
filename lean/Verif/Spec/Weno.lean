/-
Specification of a fifth-order reconstruction: cell averages of polynomials on a uniform grid, and their value at the right face of the central cell.
-/
import Verif.Model.Weno

namespace Samurai

variable {R : Type} [Field R]

/-- The average of `a + b x + c x²` over the cell `[j - 1/2, j + 1/2]` (side 1): `a + b j + c (j² + 1/12)`. -/
def average (a b c j : R) : R := a + b * j + c * (j ^ 2 + 1 / 12)

/-- The values of `a + b x + c x²` at a point. -/
def quadratic (a b c x : R) : R := a + b * x + c * x ^ 2

/-- The average of `a + b x + c x² + d x³ + e x⁴` over the cell `[j - 1/2, j + 1/2]`. -/
def average4 (a b c d e j : R) : R := a + b * j + c * (j ^ 2 + 1 / 12) + d * (j ^ 3 + j / 4) + e * (j ^ 4 + j ^ 2 / 2 + 1 / 80)

/-- The linear reconstruction of order five on the five cells. -/
def optimal5 (f : Five R) : R := (2 * f.f0 - 13 * f.f1 + 47 * f.f2 + 27 * f.f3 - 3 * f.f4) / 60

end Samurai

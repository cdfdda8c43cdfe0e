/-
Specification of the numerical operators: means over cells, tensor product of one-dimensional interpolations.
Independent of the prediction tables except for the interpolation coefficients, which are a parameter.
-/
import Verif.Model.Prediction
import Mathlib.MeasureTheory.Integral.IntervalIntegral.Basic
import Mathlib.Algebra.Polynomial.Eval.Degree

namespace Samurai

/-- The mean of the function `u` over the interval from `a` to `b`. -/
noncomputable def meanOn (u : ℝ → ℝ) (a b : ℝ) : ℝ := (∫ x in a..b, u x) / (b - a)

/-- The mean of `u` over the `i`-th cell of length `h` of the grid with origin `x0`. -/
noncomputable def cellMean (u : ℝ → ℝ) (x0 h : ℝ) (i : Int) : ℝ := meanOn u (x0 + i * h) (x0 + (i + 1) * h)

section
variable {K : Type} [Field K]

/-- The sign used for a child: `+1` for an even child, `-1` for an odd one. -/
def childSign (a : Bool) : K := if a then -1 else 1

/-- `Σ_k coeffs[k] * u(k - (number of coefficients)/2)`. -/
def interpolate (coeffs : List K) (u : Int → K) : K :=
  ((List.range coeffs.length).map fun k => coeffs.getD k 0 * u ((k : Int) - ((coeffs.length / 2 : Nat) : Int))).sum

/-- The tensor product of the one-dimensional interpolations with the tables `coeffs a` (for child parity `a`), in
the directions `0 .. dim-1`. -/
def tensorPredict (coeffs : Bool → List K) : Nat → (Pt → K) → Pt → (Nat → Bool) → K
  | 0, f, p, _ => f p
  | d + 1, f, p, a => interpolate (coeffs (a d)) fun s => tensorPredict coeffs d f (move p d s) a

end
end Samurai

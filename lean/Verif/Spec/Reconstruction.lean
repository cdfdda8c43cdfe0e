/-
Specification of the multi-level prediction: composition of the one-level tensor-product prediction.
-/
import Verif.Spec.Prediction
import Verif.Model.Reconstruction

namespace Samurai
section
variable {K : Type} [Field K]

/-- The one-level prediction at a fine cell, by interpolation in each direction around the parent cell: the tensor
product of the one-dimensional interpolations. -/
def predictAt (coeffs : Bool → List K) : List Int → (List Int → K) → K
  | [], f => f []
  | x :: xs, f => interpolate (coeffs (decide (x % 2 = 1))) fun s => predictAt coeffs xs fun ys => f ((x / 2 + s) :: ys)

/-- The composition of `l` one-level predictions of the coarse field `f`: a field `l` levels finer. -/
def iterPredict (coeffs : Bool → List K) : Nat → (List Int → K) → List Int → K
  | 0, f => f
  | l + 1, f => fun i => predictAt coeffs i (iterPredict coeffs l f)

/-- The interpolation coefficients used for each parity. -/
def coeffsOf (order : Nat) : Bool → List K := fun b => interpCoeffs order (if b then -1 else 1)

/-- The linear combination of the values of `f` with the coefficients of a map. -/
def combine (m : List (List Int × K)) (f : List Int → K) : K := (m.map fun kv => kv.2 * f kv.1).sum

end

/-- The product of the means of one polynomial per direction, over the cell `i` of the grid of step `h`: the mean over
the cell of the product of the polynomials. -/
noncomputable def productMean (us : List (Polynomial ℝ × ℝ)) (h : ℝ) (i : List Int) : ℝ :=
  (List.zipWith (fun (u : Polynomial ℝ × ℝ) x => cellMean (fun t => u.1.eval t) u.2 h x) us i).prod

end Samurai

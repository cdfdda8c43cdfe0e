/-
Vocabulary for the matrices of the schemes.
-/
import Verif.Model.Petsc
import Verif.Spec.Operators
import Verif.Spec.GhostUpdate
import Mathlib.Algebra.BigOperators.Pi
import Mathlib.Order.Interval.Finset.Basic
import Mathlib.Data.Int.Interval
import Mathlib.Data.Fintype.Pi

namespace Samurai

section
variable {K : Type} [Field K]

/-- The values of the field in the ghosts of the map are those of the combinations. -/
def GhostsHold {U : Type} [AddCommGroup U] [Module K U] (m : GhostMap K) (u : Int → U) : Prop :=
  ∀ e ∈ m, u e.1 = (e.2.map fun t => t.2 • u t.1).sum

/-- The component `r` of the product of the matrix `A`, with the columns `shift, ..., shift + cols - 1`, and of the vector `x`. -/
def matVec (A : Int → Int → K) (shift : Int) (cols : Nat) (x : Int → K) (r : Int) : K :=
  ((List.range cols).map fun (c : Nat) => A r (shift + (c : Int)) * x (shift + (c : Int))).sum

/-- `x` is the vector of the values of the field `u`: for an array of structures the components of a cell are consecutive, for a structure of arrays the values of
a component are consecutive. -/
def IsVector (soa : Bool) (nCells size : Nat) (shift : Int) (u : Int → Fin size → K) (x : Int → K) : Prop :=
  ∀ k : Int, 0 ≤ k → k < nCells → ∀ j : Fin size, x (if soa then shift + (j : Int) * nCells + k else shift + k * size + (j : Int)) = u k j

/-- The cell `p` of level `l` is a ghost whose value comes from the finer cells: one of its children is a leaf. -/
def ProjGhost (n : Nat) (cells cag : CA) (l : Nat) (p : List Int) : Prop := cag.Mem n l p ∧ ∃ c, cells.Mem n (l + 1) c ∧ Anc 1 p c

/-- The cell `p` of level `l` is a ghost whose value comes from the coarser cells: its parent is a leaf. -/
def PredGhost (n : Nat) (cells cag : CA) (l : Nat) (p : List Int) : Prop := 1 ≤ l ∧ cag.Mem n l p ∧ ∃ q, cells.Mem n (l - 1) q ∧ Anc 1 q p

/-- The value of the cell is the mean of the values of its children. -/
def MeanBelow {U : Type} [AddCommGroup U] [Module K U] (n : Nat) (val : Nat → List Int → U) (l : Nat) (p : List Int) : Prop :=
  val l p = (1 / 2 ^ (n + 1) : K) • ((childrenOf p).map fun c => val (l + 1) c).sum

/-- The value of the cell is the tensor product prediction from the neighbours of its parent, `order` cells away in each direction:
`Σ_s Π_d w_d(s_d) val(parent + s)`, where `w_d(-order), ..., w_d(order)` are the coefficients of the 1D prediction of a left child (even coordinate) or a right child
(odd coordinate). -/
def TensorPredicted {U : Type} [AddCommGroup U] [Module K U] (n order : Nat) (val : Nat → List Int → U) (l : Nat) (p : List Int) : Prop :=
  val l p = ∑ s ∈ Fintype.piFinset fun _ : Fin (n + 1) => Finset.Icc (-(order : Int)) order,
    (∏ d : Fin (n + 1), (interpCoeffs order (if toPt p d % 2 = 1 then (-1 : K) else 1)).getD (s d + order).toNat 0) •
      val (l - 1) (ofPt (n + 1) fun d => toPt p d / 2 + if h : d < n + 1 then s ⟨d, h⟩ else 0)

end

end Samurai

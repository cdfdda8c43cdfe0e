/-
What the details, the thresholds and the consistent boundary conditions are. The coordinates of a cell are outermost first.
-/
import Verif.Model.Details
import Verif.Spec.Adapt
import Verif.Spec.GhostUpdate

namespace Samurai

section
variable {K : Type} [Field K]

/-- The detail of a cell: its value minus the value predicted from the level below (Prediction.lean: C30, C31, C53). -/
def detailAt (n order : Nat) (val : Nat → List Int → K) (l : Nat) (p : List Int) : K :=
  val l p - predictFine (n + 1) order (fun q => val (l - 1) (ofPt (n + 1) q)) (toPt p)

/-- The threshold of a level: `eps` on the finest level, divided by `2^dim` for each coarser one. -/
def threshold (n maxL : Nat) (eps : K) (l : Nat) : K := eps / 2 ^ ((n + 1) * (maxL - l))

/-- The cells with a detail: the siblings of the leaves, of a level the iteration looks at, and the parents of these leaves. -/
def HasDetail (n : Nat) (cells : CA) (maxL ite : Nat) (l : Nat) (p : List Int) : Prop :=
  1 ≤ l ∧ ((l ≤ maxL - ite ∧ ∃ c q, cells.Mem n l c ∧ Anc 1 q c ∧ Anc 1 q p) ∨ (l + 1 ≤ maxL - ite ∧ ∃ c, cells.Mem n (l + 1) c ∧ Anc 1 p c))

/-- The default configuration, on a domain that is a box `b` of cells of a level at least three below `min_level`, or of level 0, given at the level
`max_level`, and whose coordinates with a margin stay in the range of `int` (as in C76). -/
structure BoxSetup (n : Nat) (cfg : MeshConfig) (dom : LCA) (minL maxL base : Nat) (b : Box) : Prop where
  order : cfg.predictionOrder = 1
  width : cfg.maxStencilWidth = 1
  box : BoxDomain n dom base b
  level : dom.level = maxL
  coarse : base ≤ minL - 3
  range : ∃ B : Int, 0 ≤ B ∧ B + 11 * 2 ^ dom.level + 2 < INT_MAX ∧ ∀ d ≤ n, b.hi d * 2 ^ (dom.level - base) ≤ B

/-- The boundary condition holds for the uniform field `k`: a Dirichlet condition with the value `k`, or a Neumann condition with the value 0. -/
def BcCond.HoldsFor (c : BcCond K) (k : K) : Prop :=
  match c.kind with
  | .dirichlet _ => ∀ v q, c.value v q = k
  | .neumann => ∀ v q, c.value v q = 0

end

/-- A turn of a time loop: the field is changed by a function that knows the mesh, then the mesh is adapted with `eps` and the regularity. -/
structure MrCall (K : Type) where
  change : SubMeshes → CellField K → CellField K
  enlarge : Bool
  bcs : List (BcCond K)
  eps : K
  factor : K

/-- The mesh and the field after the turns of a time loop. -/
def runMr {K : Type} [Field K] [LinearOrder K] [IsStrictOrderedRing K] (n : Nat) (cfg : MeshConfig) (gw minL maxL : Nat) (dom : LCA) (h0 : K) :
    List (MrCall K) → SubMeshes → CA → CellField K → Option (SubMeshes × CA × CellField K)
  | [], m, x, f => some (m, x, f)
  | c :: cs, m, x, f =>
    match adaptMr n cfg gw minL maxL c.enlarge dom h0 c.bcs c.eps c.factor m x (c.change m f) with
    | none => none
    | some (m', x', f') => runMr n cfg gw minL maxL dom h0 cs m' x' f'

end Samurai

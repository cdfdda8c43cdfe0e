/-
Vocabulary for the boundary conditions: domains that are boxes, boundary cells, outward directions, ghosts.
-/
import Verif.Model.Bc
import Verif.Spec.Box
import Verif.Spec.Mesh
import Verif.Spec.Interface
import Verif.Spec.Graduation
import Mathlib.Algebra.Polynomial.Eval.Defs
import Mathlib.Algebra.Polynomial.Degree.Defs

namespace Samurai

/-- The cell `i` steps from `p` in the direction `v`. -/
def walk (n : Nat) (p : List Int) (i : Int) (v : Nat → Int) : List Int := shiftPoint (fun d => i * v d) n p

/-- The box of cells `b` seen `k` levels finer. -/
def Box.refined (b : Box) (k : Nat) : Box := ⟨fun d => b.lo d * 2 ^ k, fun d => b.hi d * 2 ^ k⟩

/-- The domain is the box `b` of cells of level `level` (at least one cell in each direction). -/
structure BoxDomain (n : Nat) (dom : LCA) (level : Nat) (b : Box) : Prop where
  wf : dom.WF n
  le : level ≤ dom.level
  pos : ∀ d ≤ n, b.lo d < b.hi d
  mem : ∀ m, dom.Mem n m ↔ InBox (b.refined (dom.level - level)) n m

/-- `v` is a vector of -1, 0, 1, not zero. -/
def UnitVector (n : Nat) (v : Nat → Int) : Prop := (∀ d ≤ n, v d = -1 ∨ v d = 0 ∨ v d = 1) ∧ ∃ d ≤ n, v d ≠ 0

/-- Each nonzero component of `v` leads from the cell `p` of the box out of the box. -/
def Outward (n : Nat) (b : Box) (p : List Int) (v : Nat → Int) : Prop :=
  InBox b n p ∧ UnitVector n v ∧ ∀ d ≤ n, v d ≠ 0 → ¬ (b.lo d ≤ toPt p d + v d ∧ toPt p d + v d < b.hi d)

/-- `v` has exactly one nonzero component. -/
def OneAxis (n : Nat) (v : Nat → Int) : Prop := ∃ d ≤ n, v d ≠ 0 ∧ ∀ k ≤ n, k ≠ d → v k = 0

/-- A part of the region `L` is inside the cell `p` of level `level`. -/
def RegionAt (n : Nat) (L : LCA) (level : Nat) (p : List Int) : Prop := ∃ q, L.Mem n q ∧ Anc (L.level - level) p q

/-- A region of a boundary condition for a Cartesian direction: cells of the domain whose neighbour in this direction is outside the domain. -/
structure BdryRegion (n : Nat) (dom : LCA) (dir : Nat → Int) (L : LCA) : Prop where
  wf : L.WF n
  level : L.level = dom.level
  cells : ∀ q, L.Mem n q → dom.Mem n q ∧ ¬ dom.Mem n (shiftPoint dir n q)

/-- The conditions of the library that exist: `Dirichlet<order>` with `order` from 1 to 4, `Neumann<1>`. -/
def BcKind.Exists : BcKind → Prop
  | .dirichlet order => 1 ≤ order ∧ order ≤ 4
  | .neumann => True

/-- The number of ghosts that a condition fills on each line. -/
def BcKind.ghosts (k : BcKind) : Nat := k.stencilSize / 2

/-- A boundary condition on a domain that is a box. -/
structure GoodBc {K : Type} (n : Nat) (dom : LCA) (w : Nat) (c : BcCond K) : Prop where
  known : c.kind.Exists
  width : c.kind.ghosts ≤ w
  region : ∀ d ∈ c.region, UnitVector n d.1 → OneAxis n d.1 → BdryRegion n dom d.1 d.2

/-- A mesh on which `update_bc(level, field)` can work: the domain is a box of cells of level `level`, the leaves are inside, the reference mesh
holds the cells within `w` of a leaf, and with a ghost in the layers that are filled it holds the cells of the line from the ghost to the boundary,
and as many inside. -/
structure BcReady {K : Type} (n : Nat) (M : BcMesh K) (level : Nat) (b : Box) (w : Nat) : Prop where
  cellsWF : M.cells.WF n
  refWF : M.ref.WF n
  cellsLevels : level ≤ M.cells.maxSize ∧ (M.cells.lca level).level = level
  refLevels : level ≤ M.ref.maxSize ∧ (M.ref.lca level).level = level
  numbers : M.ref.NumbersDiffer n
  dom : BoxDomain n M.dom level b
  leaves : ∀ p, M.cells.Mem n level p → InBox b n p
  near : ∀ p q, M.cells.Mem n level q → Near w p q → M.ref.Mem n level p
  lines : ∀ p v (k : Nat), Outward n b p v → 1 ≤ k → k ≤ Nat.max w M.cfg.ghostWidth →
    M.ref.Mem n level (walk n p k v) → ∀ v', (∀ d ≤ n, v' d = v d ∨ v' d = 0) →
    ∀ j : Int, - (k : Int) < j → j ≤ k → M.ref.Mem n level (walk n p j v')
  range : ∃ D : Int, 0 ≤ D ∧ D + 8 * 2 ^ M.dom.level + 2 < INT_MAX ∧ M.dom.BelowAt n M.dom.level D ∧ (M.cells.lca level).BelowAt n M.dom.level D ∧
    (M.ref.lca level).BelowAt n M.dom.level D

/-- The condition `c` of the region `d` imposes the value of the ghost `i` steps from the boundary cell `p` (in the direction `d.1`). -/
def Imposes {K : Type} (n : Nat) (M : BcMesh K) (level : Nat) (c : BcCond K) (d : (Nat → Int) × LCA) (p : List Int) (i : Nat) : Prop :=
  UnitVector n d.1 ∧ OneAxis n d.1 ∧ (∀ k ≤ n, d.1 k ≠ 0 → M.periodic k = false) ∧ RegionAt n d.2 level p ∧
    (M.cells.Mem n level p ∨ (M.minL ≠ M.maxL ∧ M.ref.Mem n level (walk n p c.kind.ghosts d.1))) ∧ 1 ≤ i ∧ i ≤ c.kind.ghosts

/-- The conditions with their directions, in the order of application. -/
def bcEntries {K : Type} (bcs : List (BcCond K)) : List (BcCond K × ((Nat → Int) × LCA)) := bcs.flatMap fun c => c.region.map fun d => (c, d)

/-- The domain is at least as wide as the number of ghosts along the direction. -/
def WideFor (n : Nat) (b : Box) (k : Nat) (v : Nat → Int) : Prop := ∀ d ≤ n, v d ≠ 0 → (k : Int) ≤ b.hi d - b.lo d

/-- The condition `x.1`, on its direction `x.2`, imposes the value of the ghost `q`. -/
def ImposesGhost {K : Type} (n : Nat) (M : BcMesh K) (level : Nat) (x : BcCond K × ((Nat → Int) × LCA)) (q : List Int) : Prop :=
  ∃ p i, Imposes n M level x.1 x.2 p i ∧ q = walk n p i x.2.1

/-- The value `f i` of the ghost `i` of a line is the one of the condition: `f j` is the value of the cell `j` of the line, the cells `0, -1, ...`
are inside the domain, the boundary is at `1/2`. `Dirichlet<order>`: the ghost is on the polynomial of degree at most `order` that has the value
`x` on the boundary and the values of the `order` inner cells. `Neumann<1>`: the difference quotient has the value `x`. -/
def BcKind.Satisfied {K : Type} [Field K] (h0 : K) (level : Nat) (kind : BcKind) (f : Int → K) (i : Nat) (x : K) : Prop :=
  match kind with
  | .dirichlet order => ∃ P : Polynomial K, P.natDegree ≤ order ∧ (∀ j : Nat, j < order → f (- (j : Int)) = P.eval (- (j : K))) ∧
      P.eval (1 / 2) = x ∧ f i = P.eval (i : K)
  | .neumann => i = 1 ∧ f 1 - f 0 = cellLength h0 level * x

/-- The ghost `k` of a line is on the polynomial of degree at most `2 k - 2` through the `2 k - 1` cells before it. -/
def Extrapolated {K : Type} [Field K] (f : Int → K) (k : Nat) : Prop :=
  ∃ P : Polynomial K, P.natDegree ≤ 2 * k - 2 ∧ ∀ j : Int, - (k : Int) < j → j ≤ k → f j = P.eval (j : K)

end Samurai

/-
Periodic domains: what the ghosts outside the domain have to contain.
-/
import Verif.Spec.Bc
import Verif.Model.GhostUpdate
import Verif.Spec.Mesh

namespace Samurai

/-- `q` is the cell inside the box (in the periodic directions `P`) that periodicity identifies with `p`: the coordinates of the periodic
directions differ by a multiple of the length of the box, the others are the same. -/
def PeriodicImage (n : Nat) (P : Nat → Bool) (b : Box) (p q : List Int) : Prop :=
  q.length = n + 1 ∧ ∀ d ≤ n,
    if P d then (b.lo d ≤ toPt q d ∧ toPt q d < b.hi d) ∧ (b.hi d - b.lo d) ∣ (toPt p d - toPt q d) else toPt q d = toPt p d

/-- `p` is a periodic copy of `q`: the coordinates of the periodic directions differ by a multiple of the period, the others are the same. -/
def SameClass (n : Nat) (P : Nat → Bool) (b : Box) (p q : List Int) : Prop :=
  p.length = n + 1 ∧ q.length = n + 1 ∧ ∀ d ≤ n, if P d then (b.hi d - b.lo d) ∣ (toPt p d - toPt q d) else toPt p d = toPt q d

/-- `p` is in the box, or at a distance of at most `w` cells of it. -/
def AroundBox (n : Nat) (w : Nat) (b : Box) (p : List Int) : Prop :=
  p.length = n + 1 ∧ ∀ d ≤ n, b.lo d - w ≤ toPt p d ∧ toPt p d < b.hi d + w

/-- `p` is outside the box in one of the directions `P`. -/
def OutsideAlong (n : Nat) (P : Nat → Bool) (b : Box) (p : List Int) : Prop :=
  ∃ d ≤ n, P d = true ∧ ¬ (b.lo d ≤ toPt p d ∧ toPt p d < b.hi d)

/-- The vector with the component `t` in the direction `d`. -/
def alongDir (d : Nat) (t : Int) : Nat → Int := fun k => if k = d then t else 0

/-- The cells of `S` around the box that are outside in a periodic direction come with the cell one period further inside. -/
def HasImages (n : Nat) (P : Nat → Bool) (w : Nat) (b : Box) (S : List Int → Prop) : Prop :=
  ∀ p, S p → AroundBox n w b p → ∀ d ≤ n, P d = true →
    (toPt p d < b.lo d → S (shiftPoint (alongDir d (b.hi d - b.lo d)) n p)) ∧
    (b.hi d ≤ toPt p d → S (shiftPoint (alongDir d (b.lo d - b.hi d)) n p))

/-- Leaves of levels between `minL` and `maxL` inside a domain that is the box `b` of cells of level `base`, coarse enough for the ghosts of the two
levels below `minL` to be aligned with the domain. The indices, with the margin, are in the range of `int`. -/
structure LeavesInBox (n : Nat) (cells : CA) (minL maxL base : Nat) (b : Box) (margin : Nat) : Prop where
  wf : cells.WF n
  leveled : cells.Leveled
  between : cells.Between n minL maxL
  size : maxL ≤ cells.maxSize
  coarse : base ≤ minL - 2
  inside : ∀ l p, cells.Mem n l p → InBox (b.refined (l - base)) n p
  range : ∃ D : Int, 0 ≤ D ∧ D + (margin : Int) * 2 ^ maxL + 2 < INT_MAX ∧ ∀ d ≤ n, b.hi d * 2 ^ (maxL - base) ≤ D

/-- The mesh is graded across the periodic boundaries: a leaf `p` and a periodic copy `p''` of a leaf `p'` that touch each other, also by a corner, have
levels that differ by at most one. (`q` is a cell of the level of the finer leaf, inside the coarser one.) -/
def CA.GradedPeriodic (n : Nat) (P : Nat → Bool) (base : Nat) (b : Box) (c : CA) : Prop :=
  ∀ l p l' p' p'' q, c.Mem n l p → c.Mem n l' p' → l ≤ l' → SameClass n P (b.refined (l' - base)) p'' p' → Near 1 q p'' → Anc (l' - l) p q → l' ≤ l + 1

end Samurai

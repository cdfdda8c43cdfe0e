/-
What the memory of a mesh should be (C121), in terms of the sets of its cells alone.
-/
import Verif.Spec.Statistics

namespace Samurai

/-- The bytes of a level of dimension `n + 1` with the set of cells `S`: one interval for each run along each axis, and for each axis but the first one, one offset for each point of the level seen from
this axis outwards and one more; one offset for the level itself. A level without cells has the latter only. -/
def LevelBytes (n szI szO : Nat) (S : List Int → Prop) (bytes : Nat) : Prop :=
  ((∀ p, ¬ S p) ∧ bytes = szO) ∨
  ((∃ p, S p) ∧ ∃ runs points : Nat → Nat, (∀ d ≤ n, NumberOf (IsRun (Shadow d S)) (runs d)) ∧ (∀ d, 1 ≤ d → d ≤ n → NumberOf (Shadow d S) (points d)) ∧
    bytes = ((List.range (n + 1)).map runs).sum * szI + ((List.range n).map fun d => points (d + 1) + 1).sum * szO + szO)

/-- The bytes of an array of cells `S l p` (level, position): those of the levels from the coarsest one with cells to the finest one with cells. -/
def ArrayBytes (n szI szO : Nat) (S : Nat → List Int → Prop) (bytes : Nat) : Prop :=
  ((∀ l p, ¬ S l p) ∧ bytes = 0) ∨
  ∃ lo hi, (∃ p, S lo p) ∧ (∃ p, S hi p) ∧ (∀ l p, S l p → lo ≤ l ∧ l ≤ hi) ∧
    ∃ level : Nat → Nat, (∀ l, lo ≤ l → l ≤ hi → LevelBytes n szI szO (S l) (level l)) ∧ bytes = ((List.range' lo (hi + 1 - lo)).map level).sum

end Samurai

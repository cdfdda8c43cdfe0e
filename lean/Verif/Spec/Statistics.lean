/-
What the statistics of a mesh should be (C120), in terms of the sets of its cells alone. A point is a list of coordinates, outermost first.
-/
import Verif.Spec.CellArray

namespace Samurai

/-- The points that are left when the `d` innermost coordinates of those of `S` are forgotten. -/
def Shadow (d : Nat) (S : List Int → Prop) (q : List Int) : Prop := ∃ p : List Int, p.length = d ∧ S (q ++ p)

/-- `(o, a, b)` is a run of `S`: the points with the outer coordinates `o` and an innermost coordinate from `a` to `b - 1` are in `S`, and neither of the two next
ones is. -/
def IsRun (S : List Int → Prop) (r : List Int × Int × Int) : Prop :=
  r.2.1 < r.2.2 ∧ (∀ x, r.2.1 ≤ x → x < r.2.2 → S (r.1 ++ [x])) ∧ ¬ S (r.1 ++ [r.2.1 - 1]) ∧ ¬ S (r.1 ++ [r.2.2])

/-- Exactly `k` elements have the property `P`. -/
def NumberOf {α : Type} (P : α → Prop) (k : Nat) : Prop := ∃ l : List α, l.Nodup ∧ (∀ x, x ∈ l ↔ P x) ∧ l.length = k

/-- `m` is the smallest and `M` the largest of the numbers with the property `P`. -/
def Extremes (P : Nat → Prop) (m M : Nat) : Prop := (P m ∧ ∀ k, P k → m ≤ k) ∧ P M ∧ ∀ k, P k → k ≤ M

/-- The records of the test case `t` among the calls, in their order; none if it was never called. -/
def recordsOf {R : Type} (calls : List (String × R)) (t : String) : Option (List R) :=
  if (calls.filter fun e => e.1 = t) = [] then none else some ((calls.filter fun e => e.1 = t).map Prod.snd)

end Samurai

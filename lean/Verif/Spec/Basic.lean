/-
Independent specification vocabulary: integer intervals as sets, ancestors of a coordinate,
canonical lists of intervals, points of any dimension.
Nothing here refers to the model's algorithms.
-/
import Verif.Model.Interval

namespace Samurai

/-- Meaning of an interval: the integers `x` with `start ≤ x < stop`. -/
def Interval.Mem (x : Int) (i : Interval) : Prop := i.start ≤ x ∧ x < i.stop

instance : Membership Int Interval := ⟨fun i x => Interval.Mem x i⟩

instance (x : Int) (i : Interval) : Decidable (x ∈ i) :=
  inferInstanceAs (Decidable (i.start ≤ x ∧ x < i.stop))

theorem Interval.mem_def {x : Int} {i : Interval} : x ∈ i ↔ i.start ≤ x ∧ x < i.stop := Iff.rfl

/-- `a` is the ancestor, `k` levels up, of the coordinate `x`: `a * 2^k ≤ x < (a+1) * 2^k`. -/
def IsAncestor (k : Nat) (a x : Int) : Prop := a * 2 ^ k ≤ x ∧ x < (a + 1) * 2 ^ k

/-- The integers met by the loop `for (x = start; x < stop; x += step)`. -/
def Interval.Walk (i : Interval) (x : Int) : Prop :=
  ∃ n : Nat, x = i.start + n * i.step ∧ x < i.stop

/-- A coordinate belongs to one of the intervals of a list. -/
def MemList (x : Int) (l : List Interval) : Prop := ∃ i ∈ l, x ∈ i

/-- Canonical list: non-empty intervals, increasing, with at least one missing integer between
consecutive ones. -/
def Canonical : List Interval → Prop
  | [] => True
  | [i] => i.start < i.stop
  | i :: j :: l => i.start < i.stop ∧ i.stop < j.start ∧ Canonical (j :: l)

/-- Bounds of the intervals of a list. -/
def bounds (l : List Interval) : List (Int × Int) := l.map fun i => (i.start, i.stop)

end Samurai

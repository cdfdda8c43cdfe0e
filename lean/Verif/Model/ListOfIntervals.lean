/-
Model of `include/samurai/list_of_intervals.hpp`.
A `std::forward_list<Interval>` is a `List Interval`.
-/
import Verif.Model.Interval

namespace Samurai

/-- The merging loop of `add_interval` (list_of_intervals.hpp:112-117): `it` is the node being
extended, the list is what follows it; nodes with `start ≤ interval.end` are erased. -/
def absorb (v : Interval) (it : Interval) : List Interval → List Interval
  | [] => [it]
  | n :: tl =>
    if v.stop ≥ n.start then absorb v { it with stop := max n.stop v.stop } tl
    else it :: n :: tl

/-- `ListOfIntervals::add_interval` (list_of_intervals.hpp:86-118). The prefix skipped by
`forward_find_if` (lines 16-29, 94-98) is the recursion of this function: nodes with
`!(interval.start <= node.end)` are left untouched. -/
def insertValid (v : Interval) : List Interval → List Interval
  | [] => [v]                                               -- line 102: `it.second == end()`
  | it :: tl =>
    if v.start ≤ it.stop then
      if v.stop < it.start then v :: it :: tl               -- lines 102-106
      else                                                  -- lines 109-117
        absorb v { it with start := min it.start v.start, stop := max it.stop v.stop } tl
    else it :: insertValid v tl

/-- `ListOfIntervals::add_interval` with its validity guard (list_of_intervals.hpp:89-92). -/
def addInterval (l : List Interval) (v : Interval) : List Interval :=
  if v.isValid then insertValid v l else l

/-- `ListOfIntervals::add_point` (list_of_intervals.hpp:79-83). -/
def addPoint (l : List Interval) (p : Int) : List Interval := addInterval l (Interval.mk' p (p + 1))

/-- A call on a `ListOfIntervals`. -/
inductive ListCall
  | interval (i : Interval)
  | point (p : Int)

/-- Execute one call. -/
def ListCall.run (l : List Interval) : ListCall → List Interval
  | .interval i => addInterval l i
  | .point p => addPoint l p

/-- Execute a history of calls on an empty list. -/
def runCalls (h : List ListCall) : List Interval := h.foldl ListCall.run []

end Samurai

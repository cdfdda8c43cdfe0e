import Mathlib.Data.Rat.Defs
import Mathlib.Algebra.Order.Field.Rat

/-!
# The timers

Models /repo/include/samurai/timers.hpp, and the way the library uses the timers around its
own work.  Times are integers: the clock in nanoseconds, the accumulated times in microseconds
(`std::chrono::microseconds`), as in the build without MPI.  The clock only advances by the work
that the program does: the time that the bookkeeping of the timers itself takes is not counted.
-/

namespace Samurai.Timers

/-- timers.hpp:22-32, `Timer`: the last start (nanoseconds), the accumulated time
(microseconds), the number of stops (`uint32_t`; its wrap-around after 2^32 stops is not
modelled). -/
structure Timer where
  start : Nat
  elapsed : Nat
  ntimes : Nat
deriving DecidableEq, Repr

/-- timers.hpp:259, `std::map<std::string, Timer> _times`, as a list of pairs; the order of the
list is the order of the first starts, where the map sorts by name. -/
abbrev Times := List (String × Timer)

/-- timers.hpp:43-59, `_times.find(tname)`. -/
def find (ts : Times) (n : String) : Option Timer :=
  (ts.find? (fun p => p.1 == n)).map Prod.snd

/-- timers.hpp:65 and 77-84, `_times.at(tname)`: writes the timer `n`, which exists. -/
def set (ts : Times) (n : String) (t : Timer) : Times :=
  ts.map (fun p => if p.1 == n then (n, t) else p)

/-- timers.hpp:61-71, `start`: the start of a known timer is overwritten, an unknown timer is
created with no accumulated time. -/
def start (now : Nat) (n : String) (ts : Times) : Times :=
  match find ts n with
  | some t => set ts n { t with start := now }
  | none => ts ++ [(n, ⟨now, 0, 0⟩)]

/-- timers.hpp:73-90, `stop` (without MPI): the duration since the last start, cut to whole
microseconds, is added.  An unknown timer fails (the assertion, or `at`, which throws): `none`. -/
def stop (now : Nat) (n : String) (ts : Times) : Option Times :=
  match find ts n with
  | some t => some (set ts n { t with elapsed := t.elapsed + (now - t.start) / 1000,
                                      ntimes := t.ntimes + 1 })
  | none => none

/-- timers.hpp:43-59, `getElapsedTime`: zero for an unknown timer (in release mode). -/
def getElapsedTime (ts : Times) (n : String) : Nat :=
  match find ts n with
  | some t => t.elapsed
  | none => 0

/-- timers.hpp:84, the number of stops of a timer, zero for an unknown one. -/
def getStops (ts : Times) (n : String) : Nat :=
  match find ts n with
  | some t => t.ntimes
  | none => 0

/-- A program that uses the timers: it works for some nanoseconds, one part after the other;
`timed` is a part between `start` and `stop` (as in algorithm/update.hpp:96-142,
FV_scheme.hpp:172-175, mr/adapt.hpp:141-154, petsc/linear_solver.hpp:175-185,
hdf5.hpp:973-977, samurai.hpp:35-55); `paused` is a part between `stop` and `start` inside a
timed part (as in mr/adapt.hpp:217-219 and 344-346, petsc/nonlinear_solver.hpp:159-184). -/
inductive Prog where
  | skip
  | work (d : Nat)
  | seq (p q : Prog)
  | timed (n : String) (p : Prog)
  | paused (n : String) (p : Prog)
deriving DecidableEq, Repr

/-- timers.hpp:259 and 267-283: the state of a run: the clock and the timers. -/
structure State where
  now : Nat
  times : Times
deriving DecidableEq, Repr

/-- The run of a program (the calls of timers.hpp:61-90 in the order of the program). -/
def exec : Prog → State → Option State
  | .skip, s => some s
  | .work d, s => some { s with now := s.now + d }
  | .seq p q, s => (exec p s).bind (exec q)
  | .timed n p, s => do
      let s1 ← exec p { s with times := start s.now n s.times }
      let ts ← stop s1.now n s1.times
      pure { s1 with times := ts }
  | .paused n p, s => do
      let ts ← stop s.now n s.times
      let s1 ← exec p { s with times := ts }
      pure { s1 with times := start s1.now n s1.times }

/-- timers.hpp:159-176, the totals that `print` computes: the total run time if that timer
exists, and the sum of all the other timers. -/
def totalMeasured (ts : Times) : Nat :=
  ((ts.filter (fun p => p.1 != "total runtime")).map (fun p => p.2.elapsed)).sum

/-- timers.hpp:223-229, the line "(untimed)" that `print` writes, in microseconds. -/
def untimed (ts : Times) : Int :=
  (getElapsedTime ts "total runtime" : Int) - (totalMeasured ts : Int)

/-- timers.hpp:146-152: what `print` writes for a timer under MPI. -/
structure Stats where
  min : Rat
  minrank : Int
  max : Rat
  maxrank : Int
  ave : Rat
  /-- the square of the printed standard deviation: the square root is not modelled -/
  var : Rat
deriving DecidableEq, Repr

/-- timers.hpp:118-122: the loop for the smallest time; `i` is the rank of the head. -/
def minLoop : List Rat → Nat → Rat × Int → Rat × Int
  | [], _, a => a
  | x :: xs, i, a => minLoop xs (i + 1) (if x < a.1 then (x, (i : Int)) else a)

/-- timers.hpp:124-128: the loop for the largest time. -/
def maxLoop : List Rat → Nat → Rat × Int → Rat × Int
  | [], _, a => a
  | x :: xs, i, a => maxLoop xs (i + 1) (if x > a.1 then (x, (i : Int)) else a)

/-- timers.hpp:109-140, the statistics of one timer: `own` is the time of the process that
prints, `all` the times gathered from the processes, `dblMax` and `dblMin` are
`numeric_limits<double>::max()` and `min()` (the smallest positive normal number).  Real
numbers are rationals without rounding. -/
def mpiStats (dblMax dblMin own : Rat) (all : List Rat) : Stats :=
  let mn := minLoop all 0 (dblMax, -1)
  let mx := maxLoop all 0 (dblMin, -1)
  let ave := (all.foldl (fun a _ => a + own) 0) / all.length
  let var := (all.foldl (fun _ x => (x - ave) * (x - ave)) 0) / all.length
  ⟨mn.1, mn.2, mx.1, mx.2, ave, var⟩

end Samurai.Timers

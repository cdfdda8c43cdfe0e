import Verif.Model.Timers

/-!
# What the timers should measure

Independent of how they are implemented: the time of the work done while a section is open.
-/

namespace Samurai.Timers

/-- The duration of a program. -/
def duration : Prog → Nat
  | .skip => 0
  | .work d => d
  | .seq p q => duration p + duration q
  | .timed _ p => duration p
  | .paused _ p => duration p

/-- The time (nanoseconds) that a program works while the section `n` is open; `on` says whether
it is open at the beginning. -/
def spent (n : String) : Bool → Prog → Nat
  | _, .skip => 0
  | on, .work d => if on then d else 0
  | on, .seq p q => spent n on p + spent n on q
  | on, .timed m p => spent n (on || m == n) p
  | on, .paused m p => spent n (on && m != n) p

/-- How often the section `n` is closed: at its ends, and at its pauses. -/
def closings (n : String) : Prog → Nat
  | .skip => 0
  | .work _ => 0
  | .seq p q => closings n p + closings n q
  | .timed m p => closings n p + if m = n then 1 else 0
  | .paused m p => closings n p + if m = n then 1 else 0

/-- The program opens no section that is open, and pauses only open ones; `r` are the sections
open at the beginning. -/
def Bracketed : List String → Prog → Prop
  | _, .skip => True
  | _, .work _ => True
  | r, .seq p q => Bracketed r p ∧ Bracketed r q
  | r, .timed n p => n ∉ r ∧ Bracketed (n :: r) p
  | r, .paused n p => n ∈ r ∧ Bracketed (r.filter (· != n)) p

/-- The program never has two sections open at the same time; `o` is the one open at the
beginning. -/
def OneAtATime : Option String → Prog → Prop
  | _, .skip => True
  | _, .work _ => True
  | o, .seq p q => OneAtATime o p ∧ OneAtATime o q
  | o, .timed n p => o = none ∧ n ≠ "total runtime" ∧ OneAtATime (some n) p
  | o, .paused n p => o = some n ∧ OneAtATime none p

/-- The average of the times. -/
def average (l : List Rat) : Rat := l.sum / l.length

/-- The variance of the times (the square of the standard deviation). -/
def variance (l : List Rat) : Rat := (l.map (fun x => (x - average l) ^ 2)).sum / l.length

end Samurai.Timers

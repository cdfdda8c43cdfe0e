/-
Model of `include/samurai/interval.hpp`.
`value_t` (int) and `index_t` (long long) are unbounded `Int`.
-/
namespace Samurai

/-- C++ `x >> k` on a signed integer: arithmetic shift, i.e. floor division by `2^k`
(interval.hpp:206-209 relies on this reading; subset_node.hpp:22-26). -/
def shr (x : Int) (k : Nat) : Int := x / 2 ^ k

/-- C++ `x << k` on a signed integer: multiplication by `2^k` (interval.hpp:230-234).
Simplification: no overflow. -/
def shl (x : Int) (k : Nat) : Int := x * 2 ^ k

/-- `samurai::Interval` (interval.hpp:54-66): half-open `[start, stop)` (the C++ field `end` is
called `stop`), a step, and a storage index. Default member initialisers as in lines 60-63. -/
structure Interval where
  start : Int := 0
  stop : Int := 0
  step : Int := 1
  index : Int := 0
deriving Repr, DecidableEq, Inhabited

namespace Interval

/-- Constructor `Interval(start, end, index = 0)` (interval.hpp:101-107). -/
def mk' (s e : Int) (idx : Int := 0) : Interval := { start := s, stop := e, step := 1, index := idx }

/-- `contains` (interval.hpp:112-116). -/
def contains (i : Interval) (x : Int) : Bool := decide (x ≥ i.start) && decide (x < i.stop)

/-- `size` (interval.hpp:121-125). Simplification: the cast to `size_t` of a negative
difference is 0 here (it is a huge number in C++); only valid intervals are ever asked. -/
def size (i : Interval) : Nat := (i.stop - i.start).toNat

/-- `is_valid` (interval.hpp:130-134). -/
def isValid (i : Interval) : Bool := decide (i.start < i.stop)

/-- `even_elements` (interval.hpp:141-150). `x & 1` is `x % 2` (non-negative remainder). -/
def evenElements (i : Interval) : Interval :=
  { i with
    start := i.start + (if i.start % 2 = 1 then 1 else 0)
    stop := i.stop - (if i.stop % 2 = 1 then 0 else 1)
    step := 2 }

/-- `odd_elements` (interval.hpp:157-166). -/
def oddElements (i : Interval) : Interval :=
  { i with
    start := i.start + (if i.start % 2 = 1 then 0 else 1)
    stop := i.stop - (if i.stop % 2 = 1 then 1 else 0)
    step := 2 }

/-- `operator*=` (interval.hpp:168-175). -/
def mul (i : Interval) (n : Int) : Interval :=
  { i with start := i.start * n, stop := i.stop * n, step := i.step * n }

/-- `operator/=` (interval.hpp:177-188). `std::floor(a / (double) n)` is floor division
(exact for 32-bit operands). -/
def div (i : Interval) (n : Int) : Interval :=
  let s := Int.fdiv i.start n
  let e := Int.fdiv i.stop n
  { i with start := s, stop := if s = e then e + 1 else e, step := 1 }

/-- `operator>>=` (interval.hpp:217-224). -/
def shiftRight (i : Interval) (k : Nat) : Interval :=
  { i with start := shr i.start k, stop := shr (i.stop - 1) k + 1, step := 1 }

/-- `operator<<=` (interval.hpp:242-249). -/
def shiftLeft (i : Interval) (k : Nat) : Interval :=
  { i with start := shl i.start k, stop := shl i.stop k, step := 1 }

/-- `operator+=` (interval.hpp:251-257). -/
def addAssign (i : Interval) (v : Int) : Interval := { i with start := i.start + v, stop := i.stop + v }

/-- `operator-=` (interval.hpp:259-265). -/
def subAssign (i : Interval) (v : Int) : Interval := { i with start := i.start - v, stop := i.stop - v }

/-- `operator+(interval, value)` (interval.hpp:333-339). -/
def addRight (i : Interval) (v : Int) : Interval := i.addAssign v

/-- `operator+(value, interval)` (interval.hpp:325-331). -/
def addLeft (v : Int) (i : Interval) : Interval := i.addAssign v

/-- `operator-(interval, value)` (interval.hpp:349-355). -/
def subRight (i : Interval) (v : Int) : Interval := i.subAssign v

/-- `operator-(value, interval)` (interval.hpp:341-347): it computes `interval - value`. -/
def subLeft (v : Int) (i : Interval) : Interval := i.subAssign v

end Interval
end Samurai

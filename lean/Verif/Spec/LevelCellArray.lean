/-
Meaning of the compressed storage of a level cell array, and well-formedness.
A point of dimension `n + 1` is a list of `n + 1` integers, outermost coordinate first.
-/
import Verif.Model.LevelCellArray
import Verif.Spec.Basic

namespace Samurai

/-- The point `p` (with `d + 1` coordinates) is stored in the row made of the intervals `lo .. hi-1`
of direction `d`: its outermost coordinate `c` is in one of these intervals `i`, and the remaining
coordinates are stored in the row of direction `d - 1` delimited by the offsets number
`i.index + c` and `i.index + c + 1`. -/
def MemRow (L : LCA) : Nat → Nat → Nat → List Int → Prop
  | 0, lo, hi, [x] => MemList x (slice (L.cells 0) lo hi)
  | d + 1, lo, hi, c :: p =>
    ∃ i ∈ slice (L.cells (d + 1)) lo hi, c ∈ i ∧ 0 ≤ i.index + c ∧
      ∃ a b, (L.offsets d)[(i.index + c).toNat]? = some a ∧
        (L.offsets d)[(i.index + c).toNat + 1]? = some b ∧ MemRow L d a b p
  | _, _, _, _ => False

/-- The cells of a level cell array of dimension `n + 1`. -/
def LCA.Mem (n : Nat) (L : LCA) (p : List Int) : Prop := MemRow L n 0 (L.cells n).length p

/-- Total number of coordinates of a list of intervals. -/
def totalSize (l : List Interval) : Nat := (l.map Interval.size).sum

/-- `index + start` of the intervals are the running counts of coordinates. -/
def IndexFrom : Int → List Interval → Prop
  | _, [] => True
  | a, i :: l => i.index + i.start = a ∧ IndexFrom (a + i.size) l

/-- `offs` cuts `cells` into consecutive non-empty canonical rows. -/
def SegOK (cells : List Interval) (offs : List Nat) : Prop :=
  offs[0]? = some 0 ∧
  ∀ j a b, offs[j]? = some a → offs[j + 1]? = some b →
    a < b ∧ b ≤ cells.length ∧ Canonical (slice cells a b)

/-- Well-formed level cell array of dimension `n + 1`: either all its vectors are empty, or the top
row is non-empty and canonical and each inner direction is a correct compressed storage. -/
structure LCA.WF (n : Nat) (L : LCA) : Prop where
  top : Canonical (L.cells n)
  empty : L.cells n = [] → (∀ d ≤ n, L.cells d = []) ∧ ∀ d < n, L.offsets d = []
  index : ∀ d < n, IndexFrom 0 (L.cells (d + 1))
  count : ∀ d < n, L.cells n ≠ [] → (L.offsets d).length = totalSize (L.cells (d + 1)) + 1
  last : ∀ d < n, L.cells n ≠ [] → (L.offsets d).getLast? = some (L.cells d).length
  seg : ∀ d < n, L.cells n ≠ [] → SegOK (L.cells d) (L.offsets d)

/-- The coordinates of an interval in increasing order. -/
def coords (i : Interval) : List Int := (List.range i.size).map fun (k : Nat) => i.start + (k : Int)

/-- All the x-intervals stored below the row `lo .. hi-1` of direction `d`, each with the outer
coordinates (outermost first) of its row, in the natural nested-loop order. -/
def rowList (L : LCA) : Nat → Nat → Nat → List (List Int × Interval)
  | 0, lo, hi => (slice (L.cells 0) lo hi).map fun i => ([], i)
  | d + 1, lo, hi =>
    (slice (L.cells (d + 1)) lo hi).flatMap fun i =>
      (coords i).flatMap fun c =>
        match (L.offsets d)[(i.index + c).toNat]?, (L.offsets d)[(i.index + c).toNat + 1]? with
        | some a, some b => (rowList L d a b).map fun e => (c :: e.1, e.2)
        | _, _ => []

/-- All the x-intervals of an array of dimension `n + 1`, with the coordinates of their rows. -/
def LCA.rows (n : Nat) (L : LCA) : List (List Int × Interval) := rowList L n 0 (L.cells n).length

/-- All the cells of an array of dimension `n + 1` in nested-loop order, with their number
`interval.index + x`. -/
def LCA.numbered (n : Nat) (L : LCA) : List (List Int × Int) :=
  (L.rows n).flatMap fun e => (coords e.2).map fun x => (e.1 ++ [x], e.2.index + x)

end Samurai

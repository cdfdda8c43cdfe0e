/-
Model of `include/samurai/subset/subset_node.hpp`, `subset_op_base.hpp` and `subset_op.hpp`: the
sweep that evaluates a set expression.
-/
import Verif.Model.Node

namespace Samurai

/-! ### subset_node -/

/-- The state of a `subset_node` for one direction (subset_node.hpp:80-93). `ipos` 0/1 is a `Bool`. -/
structure LeafDim where
  index : Nat := 0
  ipos : Bool := false
  start : Nat := 0
  stop : Nat := 0
  startOff : Nat := 0
  endOff : Nat := 0
  cur : Int := 0
  work : List Interval := []
  workOffs : List (Nat × Nat) := []

/-- `subset_node` (subset_node.hpp:65-95). -/
structure Leaf where
  node : Node
  shift : Int := 0
  d : Nat := 0
  dims : Nat → LeafDim := fun _ => {}

namespace Leaf

/-- The state of the current direction. -/
def st (l : Leaf) : LeafDim := l.dims l.d

/-- Overwrite the state of direction `d`. -/
def setDim (l : Leaf) (d : Nat) (s : LeafDim) : Leaf :=
  { l with dims := fun d' => if d' = d then s else l.dims d' }

/-- `is_valid` (subset_node.hpp:116-120). -/
def isValid (l : Leaf) : Bool := !(decide (l.st.stop = l.st.start))

/-- `reset` (subset_node.hpp:135-157), dimension `n + 1`. -/
def reset (n : Nat) (l : Leaf) : Option Leaf :=
  let s := { l.dims n with start := 0, stop := l.node.size n, startOff := 0, endOff := l.node.size n,
                           index := 0, ipos := false }
  if l.node.size n ≠ 0 then
    match l.node.start n 0 with
    | none => none
    | some v => some ({ l with d := n }.setDim n { s with cur := shiftValue v l.shift })
  else some ({ l with d := n }.setDim n { s with cur := INT_MAX })

/-- `eval` (subset_node.hpp:163-176). -/
def eval (scan : Int) (l : Leaf) : Bool := !(Bool.xor (decide (scan < l.st.cur)) l.st.ipos) && l.isValid

/-- The inner loop over `o` in `decrement_dim` (subset_node.hpp:309-318, 339-348): add the projections
of the intervals `o .. o + cnt - 1` of direction `d`. -/
def addProjected (node : Node) (k d : Nat) : Nat → Nat → List Interval → Option (List Interval)
  | 0, _, acc => some acc
  | cnt + 1, o, acc =>
    match node.start d o, node.stop d o with
    | some a, some b =>
      let start := shr a k
      let stop := shr (b - 1) k + 1
      let stop := if start = stop then stop + 1 else stop
      addProjected node k d cnt (o + 1) (addInterval acc (Interval.mk' start stop))
    | _, _ => none

/-- The body of the loop on `s` in `decrement_dim` (subset_node.hpp:300-320, 328-350) for one row
`lo .. hi-1` of direction `d + 1` and the coordinate `c` = `transform(shift_i + s)`. -/
def collectOne (node : Node) (k d : Nat) (lo hi : Nat) (c : Int)
    (acc : List (Nat × Nat) × List Interval) : Option (List (Nat × Nat) × List Interval) :=
  match node.find (d + 1) lo hi c with
  | none => none
  | some none => some acc
  | some (some index) =>
    match node.interval (d + 1) index with
    | none => none
    | some i =>
      if i.index + c < 0 then none
      else
        match node.offset (d + 1) (i.index + c).toNat, node.offset (d + 1) ((i.index + c).toNat + 1) with
        | some a, some b =>
          match addProjected node k d (b - a) a acc.2 with
          | none => none
          | some l => some (acc.1 ++ [(a, b)], l)
        | _, _ => none

/-- The double loop of `decrement_dim` over the rows and over `s < 2^k`
(subset_node.hpp:297-352). In the top direction the only row is `(start_offset, end_offset)`
(lines 297-321), below it is each pair of `m_work_offsets` (322-352); the two branches are the same
code otherwise. `base` is `shift_i`. -/
def collect (node : Node) (k d : Nat) (base : Int) (rows : List (Nat × Nat)) :
    Option (List (Nat × Nat) × List Interval) :=
  rows.foldlM (fun acc r =>
    (List.range (2 ^ k)).foldlM (fun acc (s : Nat) =>
      collectOne node k d r.1 r.2 (node.transform (d + 1) (base + s)) acc) acc) ([], [])

/-- The state given to the direction below by an invalid leaf (subset_node.hpp:184-189, 251-257,
366-370); `m_index` gets `size_t` max. The offsets and work vectors keep their old content. -/
def invalid (s : LeafDim) : LeafDim :=
  { s with start := 0, stop := 0, cur := INT_MAX, index := 18446744073709551615, ipos := false }

/-- `decrement_dim` (subset_node.hpp:178-379), dimension `n + 1`; only called with `m_d > 0`. -/
def decrementDim (n : Nat) (i : Int) (l : Leaf) : Option Leaf :=
  match l.d with
  | 0 => none
  | d + 1 =>
    let up := l.dims (d + 1)
    let lo := l.dims d
    let down (s : LeafDim) : Leaf := { (l.setDim d s) with d := d }
    if up.cur = INT_MAX then some (down (invalid lo))
    else if 0 ≤ l.shift then
      let c := l.node.transform (d + 1) (shiftValue i (-l.shift))
      match l.node.find (d + 1) up.startOff up.endOff c with
      | none => none
      | some none => some (down (invalid lo))
      | some (some index) =>
        match l.node.interval (d + 1) index with
        | none => none
        | some itv =>
          if itv.index + c < 0 then none
          else
            match l.node.offset (d + 1) (itv.index + c).toNat, l.node.offset (d + 1) ((itv.index + c).toNat + 1) with
            | some a, some b =>
              match l.node.start d a with
              | none => none
              | some v =>
                some (down { lo with start := a, stop := b, startOff := a, endOff := b,
                                     cur := shiftValue v l.shift, index := a, ipos := false })
            | _, _ => none
    else
      match collect l.node (-l.shift).toNat d (shiftValue i (-l.shift))
          (if d + 1 = n then [(up.startOff, up.endOff)] else up.workOffs) with
      | none => none
      | some (offs, work) =>
        match work with
        | [] => some (down { invalid lo with work := [], workOffs := offs })
        | w :: ws =>
          some (down { lo with start := 0, stop := (w :: ws).length, cur := w.start, index := 0, ipos := false,
                               work := w :: ws, workOffs := offs })

/-- `increment_dim` (subset_node.hpp:381-385). -/
def incrementDim (l : Leaf) : Leaf := { l with d := l.d + 1 }

/-- The loop merging the next intervals in `update` (subset_node.hpp:430-445); `fuel` bounds the
number of intervals left. -/
def mergeLoop (l : Leaf) (stop : Nat) : Nat → Nat → Int → Option (Nat × Int)
  | 0, _, _ => none
  | fuel + 1, index, value =>
    if index + 1 < stop then
      match l.node.start l.d (index + 1) with
      | none => none
      | some a =>
        if value ≥ shiftValue a l.shift then
          match l.node.stop l.d (index + 1) with
          | none => none
          | some b => mergeLoop l stop fuel (index + 1) (shiftValue (b - 1) l.shift + 1)
        else some (index, value)
    else some (index, value)

/-- The start of the interval number `index` of the current direction, as read by `update`
(subset_node.hpp:399-407). -/
def startAt (n : Nat) (l : Leaf) (index : Nat) : Option Int :=
  if 0 ≤ l.shift ∨ l.d = n then (l.node.start l.d index).map (shiftValue · l.shift)
  else (l.st.work[index]?).map (·.start)

/-- `update` (subset_node.hpp:387-461), dimension `n + 1`. -/
def update (n : Nat) (scan sentinel : Int) (l : Leaf) : Option Leaf :=
  let s := l.st
  if scan = s.cur then
    if s.ipos then
      if s.index + 1 ≥ s.stop then
        some (l.setDim l.d { s with index := s.index + 1, ipos := false, cur := sentinel })
      else
        match l.startAt n (s.index + 1) with
        | none => none
        | some v => some (l.setDim l.d { s with index := s.index + 1, ipos := false, cur := v })
    else if 0 ≤ l.shift then
      match l.node.stop l.d s.index with
      | none => none
      | some e => some (l.setDim l.d { s with cur := shiftValue e l.shift, ipos := true })
    else if l.d = n then
      match l.node.stop l.d s.index with
      | none => none
      | some e =>
        let value := shiftValue (e - 1) l.shift + 1
        let value := if s.cur = value then value + 1 else value
        match mergeLoop l s.stop (s.stop - s.index + 1) s.index value with
        | none => none
        | some (index, value) => some (l.setDim l.d { s with index := index, cur := value, ipos := true })
    else
      match s.work[s.index]? with
      | none => none
      | some w => some (l.setDim l.d { s with cur := w.stop, ipos := true })
  else some l

/-- `min` (subset_node.hpp:463-467). -/
def min (l : Leaf) : Int := l.st.cur

/-- `max` (subset_node.hpp:469-490); `x & 1` is `x % 2`. -/
def max (n : Nat) (l : Leaf) : Option Int :=
  let s := l.st
  if s.start ≠ s.stop then
    if 0 ≤ l.shift then
      match l.node.stop l.d (s.stop - 1) with
      | none => none
      | some e => some (shiftValue (e + e % 2) l.shift)
    else if l.d = n then
      match l.node.stop l.d (s.stop - 1) with
      | none => none
      | some e => some (shiftValue (e - 1) l.shift + 1)
    else
      match s.work.getLast? with
      | some w => some w.stop
      | none => some INT_MIN
  else some INT_MIN

/-- `set_shift` (subset_node.hpp:498-509): the minimum of the two shifts. -/
def setShift (ref common : Nat) (l : Leaf) : Leaf :=
  let sr : Int := (ref : Int) - l.node.level
  let sc : Int := (common : Int) - l.node.level
  { l with shift := if sc < sr then sc else sr }

end Leaf

/-! ### subset_op -/

/-- The functors `intersect_fn`, `union_fn`, `difference_fn` (subset_op.hpp). -/
inductive Fn
  | inter
  | union
  | diff
deriving DecidableEq

/-- `operator()(dim, a, b)` of the functors with two arguments (subset_op.hpp:15-26, 50-61, 103-116).
With more arguments the C++ functors are right folds of the binary case (for the difference, the
union of the other arguments is subtracted). -/
def Fn.eval (f : Fn) (d : Nat) (a b : Bool) : Bool :=
  match f with
  | .inter => a && b
  | .union => a || b
  | .diff => if d > 0 then a || b else a && !b

/-- `is_empty(a, b)` of the functors (subset_op.hpp:28-37, 63-72, 118-122). -/
def Fn.isEmpty (f : Fn) (a b : Bool) : Bool :=
  match f with
  | .inter => a || b
  | .union => a && b
  | .diff => a

/-! ### subset_operator -/

/-- A nest of `subset_operator`s (subset_op_base.hpp:29-90); the leaves are `subset_node`s. -/
inductive Expr (α : Type)
  | leaf (a : α)
  | op (f : Fn) (a b : Expr α)

namespace Expr

/-- Apply a function to each leaf, left to right (`std::apply` over `m_e`). -/
def map {α β : Type} (f : α → β) : Expr α → Expr β
  | leaf a => leaf (f a)
  | op g a b => op g (a.map f) (b.map f)

/-- Same with a function that can fail. -/
def mapM {α β : Type} (f : α → Option β) : Expr α → Option (Expr β)
  | leaf a => (f a).map leaf
  | op g a b =>
    match a.mapM f, b.mapM f with
    | some a, some b => some (op g a b)
    | _, _ => none

/-- `common_level` (subset_op_base.hpp:299-308, subset_node.hpp:492-496). -/
def commonLevel (lvl : α → Nat) : Expr α → Nat
  | leaf a => lvl a
  | op _ a b => if a.commonLevel lvl < b.commonLevel lvl then b.commonLevel lvl else a.commonLevel lvl

/-- `eval` (subset_op_base.hpp:174-183). -/
def eval (d : Nat) (f : α → Bool) : Expr α → Bool
  | leaf a => f a
  | op g a b => g.eval d (a.eval d f) (b.eval d f)

/-- `is_empty` (subset_op_base.hpp:224-233). -/
def isEmpty (f : α → Bool) : Expr α → Bool
  | leaf a => f a
  | op g a b => g.isEmpty (a.isEmpty f) (b.isEmpty f)

/-- `min` (subset_op_base.hpp:269-278, utils.hpp:270-280). -/
def min (f : α → Int) : Expr α → Int
  | leaf a => f a
  | op _ a b => if a.min f < b.min f then a.min f else b.min f

/-- `max` (subset_op_base.hpp:284-293, utils.hpp:249-268). -/
def max (f : α → Option Int) : Expr α → Option Int
  | leaf a => f a
  | op _ a b =>
    match a.max f, b.max f with
    | some x, some y => some (if x < y then y else x)
    | _, _ => none

/-- Number of boundary values still to be met, used as fuel of the sweep loop. -/
def weight (f : α → Nat) : Expr α → Nat
  | leaf a => f a
  | op _ a b => a.weight f + b.weight f

end Expr

/-- A call of the user's functor: the coordinates of the row (outermost first) and the interval. -/
abbrev Call := List Int × Interval

/-- Boundary values left for a leaf in the current direction. -/
def Leaf.weight (l : Leaf) : Nat := 2 * (l.st.stop - l.st.start) + 1

/-- The body of the `while` of `apply` before the update (subset_op_base.hpp:419-453): what becomes of
the leaves, of `r_ipos`, of `result.start`, and the calls made. -/
def sweepBody (d : Nat) (sub : Interval → Expr Leaf → Option (Expr Leaf × List Call))
    (t : Expr Leaf) (scan : Int) (rip : Bool) (rs : Int) : Option (Expr Leaf × Bool × Int × List Call) :=
  if Bool.xor (t.eval d (Leaf.eval scan)) rip then
    if rip = false then some (t, true, scan, [])
    else
      let r := Interval.mk' rs scan
      if r.isValid then
        match sub r t with
        | none => none
        | some (t', o) => some (t', false, rs, o)
      else some (t, false, rs, [])
  else some (t, rip, rs, [])

/-- The `while` loop of `apply` (subset_op_base.hpp:417-461), dimension `n + 1`, direction `d`. -/
def sweepLoop (n d : Nat) (sentinel : Int) (sub : Interval → Expr Leaf → Option (Expr Leaf × List Call)) :
    Nat → Expr Leaf → Int → Bool → Int → Option (Expr Leaf × List Call)
  | 0, _, _, _, _ => none
  | fuel + 1, t, scan, rip, rs =>
    if scan < sentinel then
      match sweepBody d sub t scan rip rs with
      | none => none
      | some (t1, rip', rs', o) =>
        match t1.mapM (Leaf.update n scan sentinel) with
        | none => none
        | some t2 =>
          match sweepLoop n d sentinel sub fuel t2 (t2.min Leaf.min) rip' rs' with
          | none => none
          | some (t3, o') => some (t3, o ++ o')
    else some (t, [])

/-- `apply` for direction `d` (subset_op_base.hpp:396-462), given `sub_apply`. -/
def applyWith (n d : Nat) (sub : Interval → Expr Leaf → Option (Expr Leaf × List Call)) (t : Expr Leaf) :
    Option (Expr Leaf × List Call) :=
  if t.isEmpty (fun l => l.node.isEmpty) then some (t, [])
  else
    match t.max (Leaf.max n) with
    | none => none
    | some m => sweepLoop n d (m + 1) sub (t.weight Leaf.weight + 1) t (t.min Leaf.min) false 0

/-- The loop of `sub_apply` for `d > 0` (subset_op_base.hpp:341-351). -/
def subLoop (n : Nat) (inner : Int → Expr Leaf → Option (Expr Leaf × List Call)) :
    Nat → Int → Expr Leaf → Option (Expr Leaf × List Call)
  | 0, _, t => some (t, [])
  | k + 1, i, t =>
    match t.mapM (Leaf.decrementDim n i) with
    | none => none
    | some t1 =>
      match inner i t1 with
      | none => none
      | some (t2, o) =>
        match subLoop n inner k (i + 1) (t2.map Leaf.incrementDim) with
        | none => none
        | some (t3, o') => some (t3, o ++ o')

/-- The indices visited by `static_nested_loop<m>(0, K, 1, f)` (static_algorithm.hpp:54-90), outermost
coordinate first, in order. -/
def nestedIndices (K : Nat) : Nat → List (List Int)
  | 0 => [[]]
  | m + 1 => (List.range K).flatMap fun (i : Nat) => (nestedIndices K m).map fun st => (i : Int) :: st

/-- `sub_apply` for `d = 0` (subset_op_base.hpp:357-389): the calls of the functor. -/
def emit (ref common : Nat) (yz : List Int) (r : Interval) : List Call :=
  if ref ≤ common then [(yz, r)]
  else
    (nestedIndices (2 ^ (ref - common)) yz.length).map fun st =>
      (List.zipWith (fun y s => shl y (ref - common) + s) yz st, r.shiftLeft (ref - common))

/-- `apply`/`sub_apply` (subset_op_base.hpp:334-462). `m_index_yz` is the argument `yz`. -/
def applySet (n ref common : Nat) : Nat → List Int → Expr Leaf → Option (Expr Leaf × List Call)
  | 0, yz, t => applyWith n 0 (fun r t => some (t, emit ref common yz r)) t
  | d + 1, yz, t =>
    applyWith n (d + 1)
      (fun r t => subLoop n (fun i t => applySet n ref common d (yz ++ [i]) t) r.size r.start t) t

/-- A `subset_operator` object. -/
structure SetObj where
  tree : Expr Leaf
  ref : Nat

namespace SetObj

/-- `common_level()` of the object. -/
def common (o : SetObj) : Nat := o.tree.commonLevel (fun l => l.node.level)

/-- `init(ref_level)` (subset_op_base.hpp:156-167). -/
def init (o : SetObj) (ref : Nat) : SetObj :=
  { tree := o.tree.map (Leaf.setShift ref o.common), ref := ref }

/-- `on(ref_level)` (subset_op_base.hpp:143-149): a copy re-initialised. -/
def on (o : SetObj) (ref : Nat) : SetObj := o.init ref

/-- The constructor (subset_op_base.hpp:102-108). -/
def make (e : Expr Leaf) : SetObj :=
  let o : SetObj := { tree := e, ref := 0 }
  o.init o.common

/-- `operator()(func)` (subset_op_base.hpp:114-120), dimension `n + 1`: the object afterwards and the
calls of `func` in order. `none` is an out of bounds access or a loop that does not end. -/
def call (n : Nat) (o : SetObj) : Option (SetObj × List Call) :=
  match o.tree.mapM (Leaf.reset n) with
  | none => none
  | some t =>
    match applySet n o.ref o.common n [] t with
    | none => none
    | some (t', calls) => some ({ o with tree := t' }, calls)

end SetObj

/-- A fresh set expression over nodes: `intersection(...)`, `union_(...)`, `difference(...)`. -/
def mkSet (e : Expr Node) : SetObj := SetObj.make (e.map fun node => { node := node })

/-- `LevelCellArray(subset)` and `subset(func)` at a level: the calls of `expr.on(ref)`. -/
def runSet (n : Nat) (e : Expr Node) (ref : Nat) : Option (List Call) :=
  (((mkSet e).on ref).call n).map Prod.snd

end Samurai

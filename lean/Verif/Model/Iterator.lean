/-
Model of the iterators of a level cell array, of `for_each_interval`, `for_each_cell` and of
`update_index` (include/samurai/level_cell_array.hpp and algorithm.hpp).
Vector iterators are positions in the vector; every dereference of a position outside the vector,
and every decrement of a `begin()`, gives `none` (undefined behaviour in the code).
-/
import Verif.Model.LevelCellArray
import Mathlib.Logic.Function.Basic

namespace Samurai

/-- `LevelCellArray_iterator`: `m_current_index`, `m_offset_index`, `m_index`
(level_cell_array.hpp:227-229). -/
structure LCAIter where
  cur : Nat → Nat
  off : Nat → Nat
  idx : Nat → Int

/-- `begin()` (level_cell_array.hpp:385-403), dimension `n + 1`: dereferences the first interval of
every direction but the first. -/
def iterBegin (L : LCA) (n : Nat) : Option LCAIter :=
  if (List.range n).all fun d => !(L.cells (d + 1)).isEmpty then
    some { cur := fun _ => 0
           off := fun _ => 0
           idx := fun d => match (L.cells (d + 1))[0]? with | some i => i.start | none => 0 }
  else none

/-- `end()` (level_cell_array.hpp:405-425): the position one past the last x-interval, but the last
interval and the last offset pair of the other directions. -/
def iterEnd (L : LCA) (n : Nat) : Option LCAIter :=
  if ((List.range (n + 1)).all fun d => !(L.cells d).isEmpty) &&
      ((List.range n).all fun d => decide (2 ≤ (L.offsets d).length)) then
    some { cur := fun d => if d = 0 then (L.cells 0).length else (L.cells d).length - 1
           off := fun d => (L.offsets d).length - 2
           idx := fun d => match (L.cells (d + 1))[(L.cells (d + 1)).length - 1]? with
                           | some i => i.stop - 1 | none => 0 }
  else none

/-- The loop of `operator++` (level_cell_array.hpp:969-990), `m` directions remaining from `d`. -/
def iterNextLoop (L : LCA) : Nat → Nat → LCAIter → Option LCAIter
  | 0, _, it => some it
  | m + 1, d, it =>
    match (L.offsets d)[it.off d + 1]? with
    | none => none
    | some b =>
      if it.cur d = b then
        match (L.cells (d + 1))[it.cur (d + 1)]? with
        | none => none
        | some i =>
          let it1 : LCAIter := { it with off := Function.update it.off d (it.off d + 1),
                                         idx := Function.update it.idx d (it.idx d + 1) }
          if it1.idx d = i.stop then
            let it2 : LCAIter := { it1 with cur := Function.update it1.cur (d + 1) (it1.cur (d + 1) + 1) }
            match (L.cells (d + 1))[it2.cur (d + 1)]? with
            | some i' => iterNextLoop L m (d + 1) { it2 with idx := Function.update it2.idx d i'.start }
            | none => iterNextLoop L m (d + 1) it2
          else iterNextLoop L m (d + 1) it1
      else some it

/-- `operator++` (level_cell_array.hpp:960-992). -/
def iterNext (L : LCA) (n : Nat) (it : LCAIter) : Option LCAIter :=
  if it.cur 0 = (L.cells 0).length then some it
  else iterNextLoop L n 0 { it with cur := Function.update it.cur 0 (it.cur 0 + 1) }

/-- The loop of `operator--` (level_cell_array.hpp:1004-1028). The test
`dst == *m_offset_index[d] - 1` is in `size_t`: it is false when the offset is 0. -/
def iterPrevLoop (L : LCA) : Nat → Nat → LCAIter → Option LCAIter
  | 0, _, it => some it
  | m + 1, d, it =>
    match (L.offsets d)[it.off d]? with
    | none => none
    | some a =>
      if it.cur d + 1 = a then
        if it.off d = 0 then none
        else
          match (L.cells (d + 1))[it.cur (d + 1)]? with
          | none => none
          | some i =>
            let it1 : LCAIter := { it with off := Function.update it.off d (it.off d - 1) }
            if it1.idx d = i.start then
              if it1.cur (d + 1) ≠ 0 then
                match (L.cells (d + 1))[it1.cur (d + 1) - 1]? with
                | none => none
                | some i' =>
                  iterPrevLoop L m (d + 1)
                    { it1 with cur := Function.update it1.cur (d + 1) (it1.cur (d + 1) - 1)
                               idx := Function.update it1.idx d (i'.stop - 1) }
              else iterPrevLoop L m (d + 1) it1
            else iterPrevLoop L m (d + 1) { it1 with idx := Function.update it1.idx d (it1.idx d - 1) }
      else some it

/-- `operator--` (level_cell_array.hpp:994-1030); decrementing `begin()` is undefined. -/
def iterPrev (L : LCA) (n : Nat) (it : LCAIter) : Option LCAIter :=
  if it.cur 0 = 0 then none
  else iterPrevLoop L n 0 { it with cur := Function.update it.cur 0 (it.cur 0 - 1) }

/-- `k` applications of `operator++`, `operator+=` (level_cell_array.hpp:1032-1040). -/
def iterAdd (L : LCA) (n : Nat) : Nat → LCAIter → Option LCAIter
  | 0, it => some it
  | k + 1, it => match iterNext L n it with | none => none | some it' => iterAdd L n k it'

/-- `k` applications of `operator--`, `operator-=` (level_cell_array.hpp:1042-1050). -/
def iterSub (L : LCA) (n : Nat) : Nat → LCAIter → Option LCAIter
  | 0, it => some it
  | k + 1, it => match iterPrev L n it with | none => none | some it' => iterSub L n k it'

/-- What an iterator shows: `index()` (outermost coordinate first) and `*it`
(level_cell_array.hpp:1058-1074). -/
def iterIndex (n : Nat) (it : LCAIter) : List Int := ((List.range n).map it.idx).reverse

/-- `index()` and `*it` together. -/
def iterDeref (L : LCA) (n : Nat) (it : LCAIter) : Option (List Int × Interval) :=
  match (L.cells 0)[it.cur 0]? with
  | none => none
  | some i => some (iterIndex n it, i)

/-- `equal` (level_cell_array.hpp:1082-1086): only the x position is compared. -/
def iterEqual (it it' : LCAIter) : Bool := it.cur 0 == it'.cur 0

/-- Replace the element `k` of the x-intervals: a callback taking the interval by reference. -/
def LCA.setX (L : LCA) (k : Nat) (i : Interval) : LCA :=
  { L with cells := Function.update L.cells 0 ((L.cells 0).set k i) }

/-- The loop `for (auto it = begin(); it != end(); ++it) f(level, *it, it.index())`
(algorithm.hpp:85-88), `f` threading a state and possibly changing the interval. `fuel` bounds the
number of turns; running out of it is `none`. -/
def forEachLoop {σ : Type} (n : Nat) (f : σ → List Int → Interval → σ × Interval) :
    Nat → LCA → LCAIter → σ → Option (LCA × σ)
  | 0, _, _, _ => none
  | fuel + 1, L, it, s =>
    match iterEnd L n with
    | none => none
    | some e =>
      if iterEqual it e then some (L, s)
      else match iterDeref L n it with
        | none => none
        | some (yz, i) =>
          let r := f s yz i
          let L' := L.setX (it.cur 0) r.2
          match iterNext L' n it with
          | none => none
          | some it' => forEachLoop n f fuel L' it' r.1

/-- `for_each_interval(lca, f)` (algorithm.hpp:80-90). -/
def forEachInterval {σ : Type} (n : Nat) (f : σ → List Int → Interval → σ × Interval) (L : LCA) (s : σ) :
    Option (LCA × σ) :=
  if (L.cells 0).isEmpty then some (L, s)
  else match iterBegin L n with
    | none => none
    | some it => forEachLoop n f ((L.cells 0).length + 1) L it s

/-- The x loop of `for_each_cell` (algorithm.hpp:219-224): calls on `i.start .. i.end-1` with the
cell number `i.index + x`. -/
def forEachX {σ : Type} (f : σ → List Int → Int → σ) (yz : List Int) (i : Interval) (s : σ) : σ :=
  (List.range (i.stop - i.start).toNat).foldl (fun s (k : Nat) => f s (yz ++ [i.start + k]) (i.index + (i.start + k))) s

/-- `for_each_cell(lca, f)` (algorithm.hpp:205-226): the iterator loop, not guarded by `empty()`. -/
def forEachCell {σ : Type} (n : Nat) (f : σ → List Int → Int → σ) (L : LCA) (s : σ) : Option σ :=
  match iterBegin L n with
  | none => none
  | some it =>
    (forEachLoop n (fun s yz i => (forEachX f yz i s, i)) ((L.cells 0).length + 1) L it s).map Prod.snd

/-- `update_index()` (level_cell_array.hpp:600-610). -/
def updateIndex (n : Nat) (L : LCA) : Option LCA :=
  (forEachInterval n (fun (acc : Nat) _ i => (acc + i.size, { i with index := (acc : Int) - i.start })) L 0).map
    Prod.fst

end Samurai

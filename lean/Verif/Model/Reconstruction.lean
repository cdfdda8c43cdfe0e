/-
Model of `include/samurai/reconstruction.hpp`: prediction maps, the memoised `prediction<order>`, `portion` and
`reconstruction`. Values are in a field `K` (exact arithmetic instead of `double`: simplification). The keys, of type
`std::array<index_t, dim>`, are lists of integers of length `dim`.
-/
import Verif.Model.Prediction

namespace Samurai

section
variable {K : Type} [Field K]

/-- `prediction_map` (reconstruction.hpp:17-119): the coefficients by key. Simplification: a list in insertion order
instead of a `std::map` sorted by key; the order of the keys has no effect in exact arithmetic. -/
abbrev PMap (K : Type) := List (List Int × K)

/-- `prediction_map(key)` (reconstruction.hpp:26-29). -/
def PMap.single (k : List Int) : PMap K := [(k, 1)]

/-- `(*this)(key) += v` (reconstruction.hpp:31-39): the entry is created at 0 if needed. -/
def PMap.addAt : PMap K → List Int → K → PMap K
  | [], k, v => [(k, 0 + v)]
  | (k', w) :: m, k, v => if k' = k then (k', w + v) :: m else (k', w) :: PMap.addAt m k v

/-- `operator+=(prediction_map)` (reconstruction.hpp:56-63). -/
def PMap.add (m : PMap K) (p : PMap K) : PMap K := p.foldl (fun m c => m.addAt c.1 c.2) m

/-- `operator*(double, prediction_map)` (reconstruction.hpp:74-81, 145-151). -/
def PMap.scale (x : K) (m : PMap K) : PMap K := m.map fun c => (c.1, c.2 * x)

/-- The static map `values` of `prediction<order>` (reconstruction.hpp:163, 195, 239) for one dimension and one order,
by level and index. -/
abbrev PredCache (K : Type) := Nat → List Int → Option (PMap K)

/-- `values[{order, level, idx}] = m`. -/
def PredCache.set (c : PredCache K) (level : Nat) (idx : List Int) (m : PMap K) : PredCache K := fun l i =>
  if l = level ∧ i = idx then some m else c l i

/-- `values[{order, level, idx}]`: default constructed (empty) if absent. -/
def PredCache.get (c : PredCache K) (level : Nat) (idx : List Int) : PMap K := (c level idx).getD []

/-- The nested loops over `ci, cj, ck` (reconstruction.hpp:180, 218-220, 265-269): the lists of `n` positions below
`m`, the first one in the outermost loop. -/
def loops (m : Nat) : Nat → List (List Nat)
  | 0 => [[]]
  | n + 1 => (List.range m).flatMap fun c => (loops m n).map fun cs => c :: cs

/-- `interpx[ci] * interpy[cj] * interpz[ck]` with the sign of each index (reconstruction.hpp:175-179, 210-216,
255-263). -/
def loopWeight (order : Nat) : List Int → List Nat → K
  | x :: xs, c :: cs => (interpCoeffs order (if x % 2 = 1 then -1 else 1)).getD c 0 * loopWeight order xs cs
  | _, _ => 1

/-- `(ig + ci - order, jg + cj - order, ...)` with `ig = i >> 1` (reconstruction.hpp:184, 225-227, 274-277). -/
def loopIndex (order : Nat) : List Int → List Nat → List Int
  | x :: xs, c :: cs => (shr x 1 + ((c : Int) - (order : Int))) :: loopIndex order xs cs
  | _, _ => []

/-- The body of the loops: `values[key] += weight * prediction(level - 1, ...)`, for the positions that are not all
central. `rec` is the recursive call. -/
def predLoop (order level : Nat) (idx : List Int) (rec : List Int → PredCache K → PMap K × PredCache K) :
    List (List Nat) → PredCache K → PredCache K
  | [], c => c
  | cs :: rest, c =>
    if cs.all (· == order) then predLoop order level idx rec rest c
    else
      let r := rec (loopIndex order idx cs) c
      let c' := r.2.set level idx ((r.2.get level idx).add (PMap.scale (loopWeight order idx cs) r.1))
      predLoop order level idx rec rest c'

/-- `prediction<order>(level, i, j, k)` (reconstruction.hpp:160-285) with its static map: value returned and map
after the call. The dimension is the length of `idx`. -/
def prediction (order : Nat) : Nat → List Int → PredCache K → PMap K × PredCache K
  | 0, idx, c => (PMap.single idx, c)
  | level + 1, idx, c =>
    match c (level + 1) idx with
    | some m => (m, c)
    | none =>
      let r := prediction order level (idx.map (shr · 1)) c
      let c1 := r.2.set (level + 1) idx r.1
      let c2 := predLoop order (level + 1) idx (prediction order level) (loops (2 * order + 1) idx.length) c1
      (c2.get (level + 1) idx, c2)

/-- Calls of `prediction` one after the other. -/
def runPredictions (order : Nat) : List (Nat × List Int) → PredCache K → PredCache K
  | [], c => c
  | q :: qs, c => runPredictions order qs (prediction order q.1 q.2 c).2

/-- The sum over the entries of a prediction map `Σ kv.second * f(i + kv.first)` (reconstruction.hpp:311-316, 344-347,
442-446). -/
def applyMap (m : PMap K) (f : List Int → K) (i : List Int) : K :=
  (m.map fun kv => kv.2 * f (List.zipWith (· + ·) i kv.1)).sum

/-- `portion(f, level, i, delta_l, ii)` with values (reconstruction.hpp:430-448, 480-499, and 2D, 3D) at the cell
`i`. -/
def portionAt (order : Nat) (f : List Int → K) (i : List Int) (deltaL : Nat) (ii : List Int) (c : PredCache K) :
    K × PredCache K :=
  let r := prediction order deltaL ii c
  (applyMap r.1 f i, r.2)

/-- The static maps used by `portion` with intervals: the one of `prediction` and `values`, whose key is
`{order, level, ii, jj, kk}` (reconstruction.hpp:459, 509, 567, 626). -/
structure PortionCache (K : Type) where
  preds : PredCache K
  portions : Nat → List Interval → Option (PMap K)

/-- All points of a product of intervals, first coordinate in the outermost loop (reconstruction.hpp:464, 514,
575-577, 634-636, 699-703). -/
def boxPoints : List Interval → List (List Int)
  | [] => [[]]
  | ii :: rest => (coords1 ii).flatMap fun x => (boxPoints rest).map fun xs => x :: xs

/-- The loop `values[key] += prediction(delta_l, ii_, ...)`: sum of the prediction maps. -/
def sumPredictions (order deltaL : Nat) : List (List Int) → PMap K → PredCache K → PMap K × PredCache K
  | [], m, c => (m, c)
  | x :: xs, m, c =>
    let r := prediction order deltaL x c
    sumPredictions order deltaL xs (m.add r.1) r.2

/-- `portion(f, level, i, delta_l, ii)` with intervals `ii` (reconstruction.hpp:450-478, 501-528, 555-591, 616-650,
679-718), at the cell `i`. `delta_l` is not in the key of `values`. -/
def portionBox (order : Nat) (f : List Int → K) (level : Nat) (i : List Int) (deltaL : Nat) (ii : List Interval)
    (c : PortionCache K) : K × PortionCache K :=
  match c.portions level ii with
  | some m => (applyMap m f i, c)
  | none =>
    let r := sumPredictions order deltaL (boxPoints ii) [] c.preds
    (applyMap r.1 f i,
      { preds := r.2, portions := fun l jj => if l = level ∧ jj = ii then some r.1 else c.portions l jj })

/-- The nested loops over `kk, jj, ii` in `[0, nb_cells)` (reconstruction.hpp:308, 335-338, 367-373): the last
coordinate in the outermost loop. -/
def fineOffsets (m : Nat) : Nat → List (List Int)
  | 0 => [[]]
  | n + 1 => (List.range m).flatMap fun (k : Nat) => (fineOffsets m n).map fun o => o ++ [(k : Int)]

/-- `(i << delta_l) + ii` in each direction (reconstruction.hpp:313, 337, 341). -/
def fineCell (delta : Nat) (i o : List Int) : List Int := List.zipWith (fun a b => shl a delta + b) i o

/-- The loop over the fine cells of one cell `i` in `reconstruction_op_`: `dest(...) += Σ kv.second * src(level, i +
kv.first)`. Simplification: the terms of the sum are added at once. -/
def reconstructOffsets (order delta : Nat) (src : List Int → K) (i : List Int) :
    List (List Int) → (List Int → K) × PredCache K → (List Int → K) × PredCache K
  | [], s => s
  | o :: os, s =>
    let r := prediction order delta o s.2
    reconstructOffsets order delta src i os
      ((fun q => if q = fineCell delta i o then s.1 q + applyMap r.1 src i else s.1 q), r.2)

/-- `reconstruction_op_` (reconstruction.hpp:287-389) at the cell `i` of level `level`; `s` is the destination field at
`reconstruct_level` and the static map. -/
def reconstructCell (order rl level : Nat) (src : List Int → K) (i : List Int)
    (s : (List Int → K) × PredCache K) : (List Int → K) × PredCache K :=
  let delta := rl - level
  if delta = 0 then ((fun q => if q = i then src q else s.1 q), s.2)
  else reconstructOffsets order delta src i (fineOffsets (2 ^ delta) i.length) s

/-- The loops over the levels and the cells of each level (reconstruction.hpp:419-423). Simplification: the leaves, in
the order of the visit, are given as a list of (level, cell); the sets are the subject of `Model/Subset.lean`. -/
def reconstructLeaves (order rl : Nat) (src : Nat → List Int → K) :
    List (Nat × List Int) → (List Int → K) × PredCache K → (List Int → K) × PredCache K
  | [], s => s
  | c :: cs, s => reconstructLeaves order rl src cs (reconstructCell order rl c.1 (src c.1) c.2 s)

/-- `reconstruction(field)` (reconstruction.hpp:399-425): the destination is filled with 0 first. -/
def reconstruction (order rl : Nat) (src : Nat → List Int → K) (leaves : List (Nat × List Int)) (c : PredCache K) :
    (List Int → K) × PredCache K :=
  reconstructLeaves order rl src leaves (fun _ => 0, c)

end
end Samurai

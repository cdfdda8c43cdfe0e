/-
Model of `include/samurai/cell_array.hpp`: one level cell array per level.
-/
import Verif.Model.Iterator

namespace Samurai

/-- `CellArray<dim, interval_t, max_size>` (cell_array.hpp:154): `max_size + 1` level cell arrays. -/
structure CA where
  maxSize : Nat
  lca : Nat → LCA

/-- `max_level()` (cell_array.hpp:390-401): scans from `max_size` down; 0 when all is empty. -/
def CA.maxLevel (c : CA) : Nat :=
  match ((List.range (c.maxSize + 1)).reverse).find? fun l => !(c.lca l).isEmpty with
  | some l => l
  | none => 0

/-- `min_level()` (cell_array.hpp:406-417): `max_size + 1` when all is empty. -/
def CA.minLevel (c : CA) : Nat :=
  match (List.range (c.maxSize + 1)).find? fun l => !(c.lca l).isEmpty with
  | some l => l
  | none => c.maxSize + 1

/-- `nb_cells()` (cell_array.hpp:364-373). -/
def CA.nbCells (c : CA) : Nat := (List.range (c.maxSize + 1)).foldl (fun s l => s + (c.lca l).nbCells) 0

/-- The levels of the loop `for (level = min_level(); level <= max_level(); ++level)`
(algorithm.hpp:48, 95, 104). -/
def CA.levels (c : CA) : List Nat := List.range' c.minLevel (c.maxLevel + 1 - c.minLevel)

/-- One turn of the loop of `for_each_interval(ca, f)`. -/
def forEachStep {σ : Type} (n : Nat) (f : σ → Nat → List Int → Interval → σ × Interval) (st : CA × σ) (l : Nat) :
    Option (CA × σ) :=
  match forEachInterval n (fun s => f s l) (st.1.lca l) st.2 with
  | none => none
  | some r => some ({ st.1 with lca := Function.update st.1.lca l r.1 }, r.2)

/-- `for_each_interval(ca, f)` (algorithm.hpp:101-108); the bounds of the loop are those of the
initial array (the callback cannot empty a level). -/
def forEachIntervalCA {σ : Type} (n : Nat) (f : σ → Nat → List Int → Interval → σ × Interval) (c : CA) (s : σ) :
    Option (CA × σ) :=
  c.levels.foldlM (forEachStep n f) (c, s)

/-- `update_index()` (cell_array.hpp:459-469). -/
def updateIndexCA (n : Nat) (c : CA) : Option CA :=
  (forEachIntervalCA n (fun (acc : Nat) _ _ i => (acc + i.size, { i with index := (acc : Int) - i.start })) c 0).map
    Prod.fst

/-- `for_each_cell(ca, f)` (algorithm.hpp:290-306): guarded by `empty()` at each level. -/
def forEachCellCA {σ : Type} (n : Nat) (f : σ → Nat → List Int → Int → σ) (c : CA) (s : σ) : Option σ :=
  c.levels.foldlM (fun s l => if (c.lca l).isEmpty then some s else forEachCell n (fun s => f s l) (c.lca l) s) s

/-- `operator==` (cell_array.hpp:570-586). -/
def CA.beq (n : Nat) (a b : CA) : Bool :=
  decide (a.maxLevel = b.maxLevel) && decide (a.minLevel = b.minLevel) &&
  a.levels.all fun l => (a.lca l).beq n (b.lca l)

/-- `CellArray_iterator` (cell_array.hpp:189-231): a level and an iterator of this level. -/
structure CAIter where
  level : Nat
  it : LCAIter

/-- Comparison of level iterators (level_cell_array.hpp:1083-1086): `p_lca` is the level. -/
def caEqual (a b : CAIter) : Bool := a.level == b.level && iterEqual a.it b.it

/-- `ca[l].begin()` as a level iterator. -/
def caBeginAt (c : CA) (n l : Nat) : Option CAIter := (iterBegin (c.lca l) n).map fun it => ⟨l, it⟩

/-- `ca[l].end()` as a level iterator. -/
def caEndAt (c : CA) (n l : Nat) : Option CAIter := (iterEnd (c.lca l) n).map fun it => ⟨l, it⟩

/-- `begin()` (cell_array.hpp:491-495): `m_cells[min_level()].begin()`. -/
def caBegin (c : CA) (n : Nat) : Option CAIter := caBeginAt c n c.minLevel

/-- `end()` (cell_array.hpp:497-501): `m_cells[max_level()].end()`. -/
def caEnd (c : CA) (n : Nat) : Option CAIter := caEndAt c n c.maxLevel

/-- `CellArray_iterator::operator++` (cell_array.hpp:599-613). -/
def caNext (c : CA) (n : Nat) (a : CAIter) : Option CAIter :=
  match caEnd c n with
  | none => none
  | some e =>
    if caEqual a e then some a
    else match iterNext (c.lca a.level) n a.it with
      | none => none
      | some it' =>
        if a.level < c.maxLevel then
          match caEndAt c n a.level with
          | none => none
          | some e' =>
            if caEqual ⟨a.level, it'⟩ e' then caBeginAt c n (a.level + 1)
            else some ⟨a.level, it'⟩
        else some ⟨a.level, it'⟩

/-- `for (auto it = ca.begin(); it != ca.end(); ++it)`: the list of what `level()`, `index()` and `*it`
show at each turn; `none` for undefined behaviour or when `fuel` turns are not enough. -/
def caWalk (c : CA) (n : Nat) : Nat → CAIter → Option (List (Nat × List Int × Interval))
  | 0, _ => none
  | fuel + 1, a =>
    match caEnd c n with
    | none => none
    | some e =>
      if caEqual a e then some []
      else match iterDeref (c.lca a.level) n a.it with
        | none => none
        | some r =>
          match caNext c n a with
          | none => none
          | some a' => (caWalk c n fuel a').map ((a.level, r.1, r.2) :: ·)

end Samurai

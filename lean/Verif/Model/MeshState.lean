/-
Model of parts of `include/samurai/mesh.hpp` and `mr/mesh.hpp` that handle a whole mesh: `swap`, `serialize`, `partition_mesh`, `exists`;
and of `for_each_cell(lca, set, f)` (algorithm.hpp).
-/
import Verif.Model.Mesh

namespace Samurai

/-! ### State of a mesh -/

/-- A `LevelCellArray` with its geometry (level_cell_array.hpp:205-215): `m_origin_point` and `m_scaling_factor`. -/
structure GLCA where
  lca : LCA := {}
  origin : Nat → Rat := fun _ => 0
  scaling : Rat := 1

/-- A `CellArray` (cell_array.hpp) with the geometry of its levels. -/
structure GCA where
  maxSize : Nat
  lca : Nat → GLCA

/-- The attributes of `Mesh_base` (mesh.hpp:172-181). `cells` is the array of the sub-meshes. -/
structure MeshState where
  domain : GLCA
  subdomain : GLCA
  minLevel : Nat
  maxLevel : Nat
  periodic : List Bool
  cells : List GCA
  union : GCA
  neighbourhood : List Nat

/-- `Mesh_base::swap` (mesh.hpp:515-526): the new values of `*this` and of the argument. -/
def MeshState.swap (a b : MeshState) : MeshState × MeshState :=
  ({ a with cells := b.cells, domain := b.domain, subdomain := b.subdomain, neighbourhood := b.neighbourhood, union := b.union,
            maxLevel := b.maxLevel, minLevel := b.minLevel },
   { b with cells := a.cells, domain := a.domain, subdomain := a.subdomain, neighbourhood := a.neighbourhood, union := a.union,
            maxLevel := a.maxLevel, minLevel := a.minLevel })

/-! ### Serialisation

The archive is a list of integers. `save` is `serialize` on an output archive; `load` is `serialize` on an input archive, which assigns the
attributes of an existing object (`none`: the archive is too short). -/

/-- A saved integer. -/
def loadInt : List Int → Option (Int × List Int)
  | [] => none
  | x :: ar => some (x, ar)

/-- `Interval::serialize` (interval.hpp:86-93). -/
def saveInterval (i : Interval) : List Int := [i.start, i.stop, i.step, i.index]

/-- `Interval::serialize` on an input archive. -/
def loadInterval : List Int → Option (Interval × List Int)
  | a :: b :: c :: d :: ar => some (⟨a, b, c, d⟩, ar)
  | _ => none

/-- `k` elements. -/
def loadN {α : Type} (load : List Int → Option (α × List Int)) : Nat → List Int → Option (List α × List Int)
  | 0, ar => some ([], ar)
  | k + 1, ar =>
    match load ar with
    | none => none
    | some (x, ar) =>
      match loadN load k ar with
      | none => none
      | some (l, ar) => some (x :: l, ar)

/-- A `std::vector`: its size, then its elements. -/
def saveVec {α : Type} (save : α → List Int) (l : List α) : List Int := (l.length : Int) :: l.flatMap save

/-- A `std::vector` on an input archive. -/
def loadVec {α : Type} (load : List Int → Option (α × List Int)) : List Int → Option (List α × List Int)
  | [] => none
  | k :: ar => loadN load k.toNat ar

/-- A loop `for (d = 0; d < k; ++d) ar & a[d]` on an input archive, from the index `d`. -/
def loadArr {α : Type} (load : α → List Int → Option (α × List Int)) : Nat → Nat → (Nat → α) → List Int → Option ((Nat → α) × List Int)
  | 0, _, a, ar => some (a, ar)
  | k + 1, d, a, ar =>
    match load (a d) ar with
    | none => none
    | some (x, ar) => loadArr load k (d + 1) (Function.update a d x) ar

/-- The same loop on an output archive. -/
def saveArr {α : Type} (save : α → List Int) (k : Nat) (a : Nat → α) : List Int := (List.range k).flatMap fun d => save (a d)

/-- A saved `std::size_t`. -/
def loadNat (ar : List Int) : Option (Nat × List Int) := (loadInt ar).map fun r => (r.1.toNat, r.2)

/-- `LevelCellArray::serialize` (level_cell_array.hpp:182-194), dimension `n + 1`: the intervals, the offsets, the level. -/
def saveGLCA (n : Nat) (L : GLCA) : List Int :=
  saveArr (saveVec saveInterval) (n + 1) L.lca.cells ++ saveArr (saveVec fun k : Nat => [(k : Int)]) n L.lca.offsets ++ [(L.lca.level : Int)]

/-- `LevelCellArray::serialize` on an input archive. -/
def loadGLCA (n : Nat) (L : GLCA) (ar : List Int) : Option (GLCA × List Int) :=
  match loadArr (fun _ => loadVec loadInterval) (n + 1) 0 L.lca.cells ar with
  | none => none
  | some (cells, ar) =>
    match loadArr (fun _ => loadVec loadNat) n 0 L.lca.offsets ar with
    | none => none
    | some (offsets, ar) =>
      match loadNat ar with
      | none => none
      | some (level, ar) => some ({ L with lca := ⟨level, cells, offsets⟩ }, ar)

/-- `CellArray::serialize` (cell_array.hpp:159-163): the array of `max_size + 1` levels. -/
def saveGCA (n : Nat) (c : GCA) : List Int := saveArr (saveGLCA n) (c.maxSize + 1) c.lca

/-- `CellArray::serialize` on an input archive. -/
def loadGCA (n : Nat) (c : GCA) (ar : List Int) : Option (GCA × List Int) :=
  (loadArr (loadGLCA n) (c.maxSize + 1) 0 c.lca ar).map fun r => ({ c with lca := r.1 }, r.2)

/-- The loop on the sub-meshes (mesh.hpp:188-191) on an input archive. -/
def loadGCAs (n : Nat) : List GCA → List Int → Option (List GCA × List Int)
  | [], ar => some ([], ar)
  | c :: cs, ar =>
    match loadGCA n c ar with
    | none => none
    | some (c, ar) =>
      match loadGCAs n cs ar with
      | none => none
      | some (cs, ar) => some (c :: cs, ar)

/-- `Mesh_base::serialize` (mesh.hpp:185-198); `m_min_level` is written twice. -/
def saveMesh (n : Nat) (m : MeshState) : List Int :=
  m.cells.flatMap (saveGCA n) ++ saveGLCA n m.domain ++ saveGLCA n m.subdomain ++ saveGCA n m.union ++ [(m.minLevel : Int)] ++ [(m.minLevel : Int)]

/-- `Mesh_base::serialize` on an input archive: `m_min_level` is read twice. -/
def loadMesh (n : Nat) (m : MeshState) (ar : List Int) : Option (MeshState × List Int) :=
  match loadGCAs n m.cells ar with
  | none => none
  | some (cells, ar) =>
    match loadGLCA n m.domain ar with
    | none => none
    | some (domain, ar) =>
      match loadGLCA n m.subdomain ar with
      | none => none
      | some (subdomain, ar) =>
        match loadGCA n m.union ar with
        | none => none
        | some (union, ar) =>
          match loadNat ar with
          | none => none
          | some (_, ar) =>
            match loadNat ar with
            | none => none
            | some (minLevel, ar) => some ({ m with cells := cells, domain := domain, subdomain := subdomain, union := union, minLevel := minLevel }, ar)

/-! ### partition_mesh -/

/-- The callback of `partition_mesh` (mesh.hpp:724-731); the state is `k` and the rows added to `subdomain_cells`. -/
def partitionStep (lo hi : Nat) (st : Nat × List Call) (yz : List Int) (i : Interval) : Nat × List Call :=
  (st.1 + 1, if lo ≤ st.1 ∧ st.1 < hi then st.2 ++ [(yz, i)] else st.2)

/-- `partition_mesh` (mesh.hpp:717-733) on the process `rank` of `size`: the cells of `start_level`. -/
def partitionMesh (n startLevel : Nat) (domain : LCA) (rank size : Nat) : Option LCA :=
  let nb := domain.nbIntervals n / size
  (forEachInterval n (fun st yz i => (partitionStep (rank * nb) ((rank + 1) * nb) st yz i, i)) domain (0, [])).map fun r =>
    lcaOfCalls n startLevel r.2.2

/-! ### exists -/

/-- `MRMesh::exists` (mr/mesh.hpp:338-359): the entries of the returned array, `none` for an entry that is not initialised. The loop
returns at the end of its first turn; without any turn the function has no return statement. -/
def meshExists (n : Nat) (ca : CA) (level : Nat) (i : Interval) (yz : List Int) : Option (List (Option Bool)) :=
  let size := (i.size : Int) / i.step
  if i.start < i.stop then
    match size.toNat, find (ca.lca level) n (yz ++ [i.start]) with
    | k + 1, some r => some (some (decide (r ≠ -1)) :: List.replicate k none)
    | _, _ => none
  else none

/-! ### for_each_cell(lca, set, f) -/

/-- The callback of `for_each_cell(lca, set, f)` (algorithm.hpp:275-286). `prev` is the row of the variable `index`, not initialised (`none`)
before the first call: the number of the first cell is looked up with it, before the row of the call is assigned. Returns the row and the
cells on which `f` is called (level, row, x, number). -/
def setCellStep (n : Nat) (L : LCA) (level : Nat) (prev : Option (List Int)) (c : Call) : Option (List Int × List (Nat × List Int × Int × Int)) :=
  match (if n = 0 then some [] else prev) with
  | none => none
  | some yz =>
    match getIndex L n yz c.2.start with
    | none => none
    | some v => some (c.1, (List.range c.2.size).map fun k : Nat => (level, c.1, c.2.start + (k : Int), v + (k : Int)))

/-- The calls of the set in sequence. -/
def setCellLoop (n : Nat) (L : LCA) (level : Nat) : Option (List Int) → List Call → Option (List (Nat × List Int × Int × Int))
  | _, [] => some []
  | prev, c :: cs =>
    match setCellStep n L level prev c with
    | none => none
    | some (yz, cells) =>
      match setCellLoop n L level (some yz) cs with
      | none => none
      | some l => some (cells ++ l)

/-- `for_each_cell(lca, set, f)` (algorithm.hpp:267-288); `level` is `set.level()`, `calls` the intervals of the set in order (C15). -/
def forEachCellSet (n : Nat) (L : LCA) (level : Nat) (calls : List Call) : Option (List (Nat × List Int × Int × Int)) :=
  setCellLoop n L level none calls

end Samurai

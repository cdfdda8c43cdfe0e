/-
Model of the life of the fields: construction, copies, `resize`, `fill`, exchange of arrays, assignment of expressions, and what the adaptation
of a mesh does to the fields (include/samurai/field.hpp, include/samurai/mesh_holder.hpp, include/samurai/algorithm/update.hpp:683-743,865-890).
A mesh is seen through the numbers of its cells: the list of the cells of the reference mesh in the order of their numbers, and its leaves
(C08, C32). A field keeps a pointer to a mesh object and an array; the value of a cell is read at the number the cell has in the mesh object
at that time. Simplified: one component, exact values, no moves; a value that was never set is `none`, and to read it, to read out of an array or
through a mesh that no longer exists is an error (`none`).
-/
namespace Samurai.FieldLife

variable {C K B : Type}

/-- What a field uses of a mesh: `mesh[reference]` in the order of the numbers and `mesh[cells]` (mesh.hpp:534-552). -/
structure MeshVal (C : Type) where
  cells : List C
  leaves : List C
  deriving DecidableEq

/-- A field: the pointer to its mesh (mesh_holder.hpp:43-81), `m_data` and the attached conditions `p_bc` (field.hpp:510-512). -/
structure FieldObj (K B : Type) where
  mesh : Nat
  data : List (Option K)
  bcs : List B

/-- The objects of a program. -/
structure World (C K B : Type) where
  meshes : Nat → Option (MeshVal C)
  fields : Nat → Option (FieldObj K B)

/-- No object. -/
def World.init : World C K B := ⟨fun _ => none, fun _ => none⟩

def World.setMesh (W : World C K B) (m : Nat) (v : Option (MeshVal C)) : World C K B :=
  { W with meshes := fun i => if i = m then v else W.meshes i }

def World.setField (W : World C K B) (f : Nat) (v : FieldObj K B) : World C K B :=
  { W with fields := fun i => if i = f then some v else W.fields i }

/-- The statements of a program. `set g c reads F` is the effect of an operator on one cell: the value of `g` on the cell `c` becomes `F` of the
values read (field, cell); `assign` is the assignment of an expression. `transfer c` gives, for a leaf `c` of a new mesh, the cells of the old mesh that
the copy, the projection or the prediction reads, and the value they give. -/
inductive FieldOp (C K B : Type) where
  | newMesh (m : Nat) (v : MeshVal C)
  | endMesh (m : Nat)
  | newField (f m : Nat)
  | copyField (g f : Nat)
  | attachBc (f : Nat) (b : B)
  | resize (f : Nat)
  | fill (f : Nat) (v : K)
  | swapArrays (f g : Nat)
  | set (g : Nat) (c : C) (reads : List (Nat × C)) (F : List K → K)
  | assign (g : Nat) (fs : List Nat) (F : C → List K → K)
  | adapt (f : Nat) (others : List Nat) (new : MeshVal C) (transfer : C → List C × (List K → K))

section
variable [DecidableEq C]

/-- `get_index`: the number of a cell; to look for a cell that is not in the mesh is an error. -/
def MeshVal.number (M : MeshVal C) (c : C) : Option Nat := if c ∈ M.cells then some (M.cells.idxOf c) else none

/-- `field[cell]`, `field(level, i, index)` as a value (field.hpp:96-148). -/
def readData (M : MeshVal C) (data : List (Option K)) (c : C) : Option K :=
  match M.number c with
  | none => none
  | some i => match data[i]? with
    | some (some v) => some v
    | _ => none

/-- `field[cell] = v`, the same on the left. -/
def writeData (M : MeshVal C) (data : List (Option K)) (c : C) (v : K) : Option (List (Option K)) :=
  match M.number c with
  | none => none
  | some i => if i < data.length then some (data.set i (some v)) else none

/-- The value of a field on a cell, through its mesh (`inner_mesh_type::mesh()`, mesh_holder.hpp:63-71). -/
def World.read (W : World C K B) (f : Nat) (c : C) : Option K :=
  match W.fields f with
  | none => none
  | some F => match W.meshes F.mesh with
    | none => none
    | some M => readData M F.data c

/-- Writing through the mesh of the field. -/
def World.write (W : World C K B) (f : Nat) (c : C) (v : K) : Option (World C K B) :=
  match W.fields f with
  | none => none
  | some F => match W.meshes F.mesh with
    | none => none
    | some M => match writeData M F.data c v with
      | none => none
      | some d => some (W.setField f { F with data := d })

/-- `Field::resize()` (field.hpp:150-153) on the array: xtensor keeps the content when the size does not change, and leaves it unspecified otherwise. -/
def resizeData (M : MeshVal C) (data : List (Option K)) : List (Option K) :=
  if data.length = M.cells.length then data else List.replicate M.cells.length none

/-- `detail::update_fields(new_mesh, field)` (update.hpp:685-719): a new array of zeros for the new mesh, whose leaves get the copies, the means and the
predictions of values of the field on its mesh. -/
def transferData [Zero K] (old new : MeshVal C) (transfer : C → List C × (List K → K)) (data : List (Option K)) : Option (List (Option K)) :=
  new.leaves.foldlM (fun (d : List (Option K)) c =>
    match (transfer c).1.mapM (readData old data) with
    | none => none
    | some vs => writeData new d c ((transfer c).2 vs)) (List.replicate new.cells.length (some 0))

/-- `update_fields` on one of the fields, with the exchange of the arrays (update.hpp:719). -/
def transferField [Zero K] (new : MeshVal C) (transfer : C → List C × (List K → K)) (W : World C K B) (g : Nat) : Option (World C K B) :=
  match W.fields g with
  | none => none
  | some G => match W.meshes G.mesh with
    | none => none
    | some M => match transferData M new transfer G.data with
      | none => none
      | some d => some (W.setField g { G with data := d })

/-- The end of `update_field_mr(tag, field, other_fields...)` (update.hpp:870-889; the same in `update_field`, 799-814): nothing if the leaves do not change (`operator==`, mesh.hpp:867-885), otherwise
the transfer of the fields passed and the exchange of the contents of the mesh object of the first field. -/
def adaptFields [Zero K] (W : World C K B) (f : Nat) (others : List Nat) (new : MeshVal C) (transfer : C → List C × (List K → K)) : Option (World C K B) :=
  match W.fields f with
  | none => none
  | some F => match W.meshes F.mesh with
    | none => none
    | some old =>
      if old.leaves = new.leaves then some W
      else match (f :: others).foldlM (transferField new transfer) W with
        | none => none
        | some W' => some (W'.setMesh F.mesh (some new))

/-- One statement. -/
def step [Zero K] (W : World C K B) : FieldOp C K B → Option (World C K B)
  -- a new mesh object (or a new content assigned to it)
  | .newMesh m v => some (W.setMesh m (some v))
  -- the end of the life of a mesh object
  | .endMesh m => some (W.setMesh m none)
  -- `Field(name, mesh)` (field.hpp:621-627)
  | .newField f m => match W.meshes m with
    | none => none
    | some M => some (W.setField f ⟨m, List.replicate M.cells.length none, []⟩)
  -- the copy constructor and the assignment of a field (field.hpp:638-666): the pointer to the mesh, the array and clones of the conditions
  | .copyField g f => match W.fields f with
    | none => none
    | some F => some (W.setField g F)
  -- `attach_bc` (field.hpp:780-786)
  | .attachBc f b => match W.fields f with
    | none => none
    | some F => some (W.setField f { F with bcs := F.bcs ++ [b] })
  -- `resize()` (field.hpp:150-153)
  | .resize f => match W.fields f with
    | none => none
    | some F => match W.meshes F.mesh with
      | none => none
      | some M => some (W.setField f { F with data := resizeData M F.data })
  -- `fill` (field.hpp:614-619)
  | .fill f v => match W.fields f with
    | none => none
    | some F => some (W.setField f { F with data := F.data.map fun _ => some v })
  -- `std::swap(f.array(), g.array())` (field.hpp:731-741)
  | .swapArrays f g => match W.fields f, W.fields g with
    | some F, some G => some ((W.setField f { F with data := G.data }).setField g (if f = g then F else { G with data := F.data }))
    | _, _ => none
  | .set g c reads F => match reads.mapM fun r => W.read r.1 r.2 with
    | none => none
    | some vs => W.write g c (F vs)
  -- `operator=(const field_expression&)` (field.hpp:668-681)
  | .assign g fs F => match W.fields g with
    | none => none
    | some G => match W.meshes G.mesh with
      | none => none
      | some M => M.leaves.foldlM (fun (W : World C K B) c =>
          match fs.mapM fun f => W.read f c with
          | none => none
          | some vs => W.write g c (F c vs)) W
  | .adapt f others new transfer => adaptFields W f others new transfer

/-- A program. -/
def run [Zero K] (W : World C K B) (prog : List (FieldOp C K B)) : Option (World C K B) := prog.foldlM step W

end

end Samurai.FieldLife

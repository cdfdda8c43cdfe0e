/-
What the fields mean for a user (C119): a field is a map from the cells of its mesh to values. A field whose mesh has changed without it
is out of date: it has no values until it is resized or assigned anew.
-/
import Verif.Model.FieldLife

namespace Samurai.FieldLife

variable {C K B : Type}

/-- A field: its mesh, its values (`none`: out of date; a cell without value was never set) and its conditions. -/
structure FieldMap (C K B : Type) where
  mesh : Nat
  val : Option (C → Option K)
  bcs : List B

/-- The meaning of the objects of a program. -/
structure Maps (C K B : Type) where
  meshes : Nat → Option (MeshVal C)
  fields : Nat → Option (FieldMap C K B)

def Maps.init : Maps C K B := ⟨fun _ => none, fun _ => none⟩

def Maps.setField (A : Maps C K B) (f : Nat) (v : FieldMap C K B) : Maps C K B :=
  { A with fields := fun i => if i = f then some v else A.fields i }

/-- The mesh object `m` changes: its fields are out of date, except those for which `kept` gives values. -/
def Maps.setMesh (A : Maps C K B) (m : Nat) (v : Option (MeshVal C)) (kept : Nat → Option (C → Option K)) : Maps C K B where
  meshes i := if i = m then v else A.meshes i
  fields i := (A.fields i).map fun a => if a.mesh = m then { a with val := kept i } else a

/-- The value of a field on a cell. -/
def Maps.value (A : Maps C K B) (f : Nat) (c : C) : Option K := (A.fields f).bind fun a => a.val.bind fun val => val c

/-- The leaves are cells of the mesh, each once. -/
def MeshVal.Good (M : MeshVal C) : Prop := M.leaves.Nodup ∧ ∀ c ∈ M.leaves, c ∈ M.cells

section
variable [DecidableEq C]

/-- The values of a field after the adaptation of its mesh. -/
def transferred [Zero K] (new : MeshVal C) (transfer : C → List C × (List K → K)) (val : C → Option K) (c : C) : Option K :=
  if c ∈ new.leaves then ((transfer c).1.mapM val).map (transfer c).2 else if c ∈ new.cells then some 0 else none

instance (M : MeshVal C) : Decidable M.Good := inferInstanceAs (Decidable (_ ∧ _))

/-- The field `g` is on the mesh object `m`, is up to date, and has a value on all the cells that are read for the leaves. -/
def Maps.ready (A : Maps C K B) (m : Nat) (leaves : List C) (reads : C → List C) (g : Nat) : Bool :=
  match A.fields g with
  | none => false
  | some b => b.mesh = m && match b.val with
    | none => false
    | some val => leaves.all fun c => ((reads c).mapM val).isSome

/-- The meaning of a statement; `none` is a misuse: a field that does not exist, a field out of date or a value that was never set is read, arrays of fields of
different meshes are exchanged, a field that is not on the adapted mesh, or is out of date, or is given twice, is passed to an adaptation. -/
def mean [Zero K] (A : Maps C K B) : FieldOp C K B → Option (Maps C K B)
  | .newMesh m v => if v.Good then some (A.setMesh m (some v) fun _ => none) else none
  | .endMesh m => some (A.setMesh m none fun _ => none)
  | .newField f m => if (A.meshes m).isSome then some (A.setField f ⟨m, some fun _ => none, []⟩) else none
  | .copyField g f => (A.fields f).map (A.setField g)
  | .attachBc f b => (A.fields f).map fun a => A.setField f { a with bcs := a.bcs ++ [b] }
  | .resize f => (A.fields f).bind fun a => (A.meshes a.mesh).bind fun _ =>
      some (A.setField f { a with val := some (a.val.getD fun _ => none) })
  | .fill f v => (A.fields f).bind fun a => (A.meshes a.mesh).bind fun M =>
      some (A.setField f { a with val := a.val.map fun _ c => if c ∈ M.cells then some v else none })
  | .swapArrays f g => (A.fields f).bind fun a => (A.fields g).bind fun b =>
      if a.mesh = b.mesh then some ((A.setField f { a with val := b.val }).setField g { (if f = g then a else b) with val := a.val }) else none
  | .set g c reads F => (reads.mapM fun r => A.value r.1 r.2).bind fun vs => (A.fields g).bind fun b => (A.meshes b.mesh).bind fun M =>
      b.val.bind fun val => if c ∈ M.cells then some (A.setField g { b with val := some fun c' => if c' = c then some (F vs) else val c' }) else none
  | .assign g fs F => (A.fields g).bind fun b => (A.meshes b.mesh).bind fun M => b.val.bind fun val =>
      if ∀ c ∈ M.leaves, (fs.mapM fun f => A.value f c).isSome then
        some (A.setField g { b with val := some fun c => if c ∈ M.leaves then (fs.mapM fun f => A.value f c).map (F c) else val c })
      else none
  | .adapt f others new transfer => (A.fields f).bind fun a => (A.meshes a.mesh).bind fun old =>
      if old.leaves = new.leaves then some A
      else if new.Good ∧ (f :: others).Nodup ∧ ∀ g ∈ f :: others, A.ready a.mesh new.leaves (fun c => (transfer c).1) g then
        some (A.setMesh a.mesh (some new) fun g => if g ∈ f :: others then some (transferred new transfer fun c => A.value g c) else none)
      else none

/-- The meaning of a program. -/
def meaning [Zero K] (A : Maps C K B) (prog : List (FieldOp C K B)) : Option (Maps C K B) := prog.foldlM mean A

/-- One step of a time loop: the mesh the adaptation finds and the transfer to it, the values given to ghosts (cell, cells read, combination) and the scheme: the cells
read for a leaf and the new value of the leaf. -/
structure LoopStep (C K : Type) where
  new : MeshVal C
  transfer : C → List C × (List K → K)
  ghosts : List (C × List C × (List K → K))
  reads : C → List C
  scheme : C → List K → K

/-- The program of a step, as in the demos (e.g. demos/FiniteVolume/advection_2d.cpp:240-261): adaptation of `u` alone, ghosts of `u`, `unp1.resize()`,
`unp1 = scheme(u)` and the exchange of the arrays. -/
def LoopStep.prog (u unp1 : Nat) (s : LoopStep C K) : List (FieldOp C K B) :=
  .adapt u [] s.new s.transfer :: s.ghosts.map (fun g => .set u g.1 (g.2.1.map fun c => (u, c)) g.2.2) ++
    .resize unp1 :: s.new.leaves.map (fun c => .set unp1 c ((s.reads c).map fun c' => (u, c')) (s.scheme c)) ++ [.swapArrays u unp1]

/-- The ghosts of a map get their values one after the other; `none`: a cell without value is read, or the cell is not in the mesh. -/
def ghostFill (cells : List C) (val : C → Option K) (ghosts : List (C × List C × (List K → K))) : Option (C → Option K) :=
  ghosts.foldlM (fun (val : C → Option K) g => if g.1 ∈ cells then (g.2.1.mapM val).map fun vs c => if c = g.1 then some (g.2.2 vs) else val c else none) val

/-- What a step of a time loop means: the values on the leaves of the mesh after the step, from those before. -/
def LoopStep.next [Zero K] (s : LoopStep C K) (p : MeshVal C × (C → Option K)) : Option (MeshVal C × (C → Option K)) :=
  let q := if p.1.leaves = s.new.leaves then p else (s.new, transferred s.new s.transfer p.2)
  if s.new.leaves.Nodup ∧ (∀ c ∈ s.new.leaves, c ∈ s.new.cells) ∧
      (p.1.leaves = s.new.leaves ∨ ∀ c ∈ s.new.leaves, ((s.transfer c).1.mapM p.2).isSome) then
    (ghostFill q.1.cells q.2 s.ghosts).bind fun v =>
      if ∀ c ∈ s.new.leaves, ((s.reads c).mapM v).isSome then
        some (q.1, fun c => if c ∈ s.new.leaves then ((s.reads c).mapM v).map (s.scheme c) else none)
      else none
  else none

end

end Samurai.FieldLife

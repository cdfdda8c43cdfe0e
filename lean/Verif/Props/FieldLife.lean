/-
C119: the fields of a program are maps from the cells of their meshes to values, whatever is created, copied, exchanged, resized and adapted, and the time loops
compute what they say.
-/
import Verif.Lemmas.FieldLoop

namespace Samurai.FieldLife

variable {C K B : Type} [DecidableEq C] [Zero K]

/-- C119. A program in which no field out of date and no value never set is used, in which the arrays of fields of different meshes are not exchanged and in which the
adaptations get different up to date fields of their mesh runs without any access out of an array or to a mesh that no longer exists; at the end the value of
every field on every cell, its mesh and its conditions are those of the maps. -/
theorem C119_fields_are_maps (prog : List (FieldOp C K B)) (A : Maps C K B) (h : meaning Maps.init prog = some A) :
    ∃ W, run World.init prog = some W ∧ W.meshes = A.meshes ∧ (∀ f c v, A.value f c = some v → W.read f c = some v) ∧
      ∀ f a, A.fields f = some a → ∃ F, W.fields f = some F ∧ F.mesh = a.mesh ∧ F.bcs = a.bcs := by
  obtain ⟨W, hW, hR⟩ := Rel.run prog Rel.init h
  refine ⟨W, hW, hR.meshes.symm, fun f c v hv => hR.read hv, fun f a ha => ?_⟩
  obtain ⟨F, hF, h1, h2, -⟩ := hR.some_left ha
  exact ⟨F, hF, h1.symm, h2.symm⟩

/-- The beginning of a program: a mesh, the fields `u` and `unp1` on it, and the initial values of `u` on the leaves. -/
def startProg (u unp1 m : Nat) (M : MeshVal C) (v₀ : C → K) : List (FieldOp C K B) :=
  [.newMesh m M, .newField u m, .newField unp1 m] ++ M.leaves.map fun c => .set u c [] fun _ => v₀ c

/-- C119. The time loops of the demos, in which `u` alone is adapted and `unp1` is resized and exchanged with `u`: for all sequences of steps (the mesh found by the adaptation, the
transfer, the ghosts and the scheme of each are arbitrary) that read only values that are known, the loop runs without any access out of an array and at its end the values of `u` are those
that the steps define one after the other. -/
theorem C119_time_loop (u unp1 m : Nat) (hne : u ≠ unp1) (M : MeshVal C) (hM : M.Good) (v₀ : C → K) (steps : List (LoopStep C K))
    (M' : MeshVal C) (val : C → Option K)
    (h : steps.foldlM (fun p s => s.next p) (M, fun c => if c ∈ M.leaves then some (v₀ c) else none) = some (M', val)) :
    ∃ W, run (B := B) World.init (startProg u unp1 m M v₀ ++ steps.flatMap fun s => s.prog u unp1) = some W ∧ W.meshes m = some M' ∧
      ∀ c v, val c = some v → W.read u c = some v := by
  have hstart : ∃ A : Maps C K B, meaning Maps.init (startProg u unp1 m M v₀) = some A ∧
      LoopInv u unp1 m A (M, fun c => if c ∈ M.leaves then some (v₀ c) else none) := by
    rw [startProg, List.cons_append, List.cons_append, List.cons_append, List.nil_append]
    obtain ⟨A, hA, hm, hw, b, val, hb, hbm, hv, hd⟩ := loop_scheme (B := B) (u := unp1) (w := u) (m := m) (Ne.symm hne) (M := M) (fun _ => []) (fun c _ => v₀ c) (fun _ => none)
      M.leaves [] (((Maps.init.setMesh m (some M) fun _ => none).setField u ⟨m, some fun _ => none, []⟩).setField unp1 ⟨m, some fun _ => none, []⟩)
      (if_pos rfl) hM.2 (fun _ _ => rfl) ⟨_, _, fields_setField_self _ _ _, rfl, rfl, fun _ _ h => by cases h⟩
      ⟨⟨m, some fun _ => none, []⟩, fun _ => none, by
        show (if u = unp1 then _ else if u = u then _ else _) = _
        rw [if_neg hne, if_pos rfl], rfl, rfl, by simp⟩
    refine ⟨A, ?_, ?_, hM, ⟨b, val, hb, hbm, hv, ?_⟩, ⟨_, hw.trans (fields_setField_self _ _ _), rfl⟩⟩
    · rw [meaning_cons]
      simp only [mean, hM, if_true, Option.bind_some]
      rw [meaning_cons]
      have h1 : ((Maps.init : Maps C K B).setMesh m (some M) fun _ => none).meshes m = some M := if_pos rfl
      simp only [mean, h1, Option.isSome_some, if_true, Option.bind_some]
      rw [meaning_cons]
      have h2 : (((Maps.init : Maps C K B).setMesh m (some M) fun _ => none).setField u ⟨m, some fun _ => none, []⟩).meshes m = some M := if_pos rfl
      simp only [mean, h2, Option.isSome_some, if_true, Option.bind_some]
      exact hA
    · rw [hm]; exact if_pos rfl
    · intro c v hv
      dsimp only at hv
      split at hv
      · rename_i hc
        rw [hd c (by simpa using hc)]; exact hv
      · cases hv
  obtain ⟨A, hA, hI⟩ := hstart
  obtain ⟨A', hA', hI'⟩ := loop_steps hne steps A _ _ hI h
  obtain ⟨W, hW, hmesh, hread, -⟩ := C119_fields_are_maps (startProg u unp1 m M v₀ ++ steps.flatMap fun s => s.prog u unp1) A' (by
    rw [meaning_append, hA, Option.bind_some]; exact hA')
  obtain ⟨a, val', ha, -, hval, hle⟩ := hI'.u
  refine ⟨W, hW, by rw [hmesh]; exact hI'.mesh, fun c v hv => hread u c v ?_⟩
  rw [value_of ha hval]
  exact hle c v hv

section Examples

/-- A mesh of the cells 0, 1, 2 (0 is a ghost), and the mesh in which the cell 1 is replaced with 3 and 4. -/
def coarse : MeshVal Nat := ⟨[0, 1, 2], [1, 2]⟩
def fine : MeshVal Nat := ⟨[0, 3, 4, 1, 2], [3, 4, 2]⟩
/-- A transfer to the finer mesh: copies and constant predictions. -/
def toFine (c : Nat) : List Nat × (List Int → Int) := (if c = 2 then [2] else [1], List.sum)
/-- A transfer back: sums. -/
def toCoarse (c : Nat) : List Nat × (List Int → Int) := (if c = 2 then [2] else [3, 4], List.sum)
private def demoSteps : List (LoopStep Nat Int) :=
  [⟨fine, toFine, [(1, [3, 4], List.sum)], fun c => [c, 1], fun c vs => vs.sum + c⟩,
   ⟨fine, toFine, [(0, [2], List.sum)], fun c => [c, 0], fun _ vs => vs.sum⟩,
   ⟨coarse, toCoarse, [], fun c => [c], fun _ vs => vs.sum * 2⟩]

/-- A refinement, a step without change of the mesh and a coarsening meet the hypotheses of `C119_time_loop`, with values that change at each step. -/
example : coarse.Good ∧ ∃ val, demoSteps.foldlM (fun p s => s.next p) (coarse, fun c => if c ∈ coarse.leaves then some (10 * (c : Int)) else none) =
    some (coarse, val) ∧ val 1 = some 302 ∧ val 2 = some 168 := by
  refine ⟨⟨by decide, by decide⟩, _, rfl, by decide +kernel, by decide +kernel⟩

/-- A program with a copy, a condition and an adaptation of two fields meets the hypothesis of `C119_fields_are_maps`. -/
private def demoProg : List (FieldOp Nat Int Nat) :=
  [.newMesh 0 coarse, .newField 0 0, .fill 0 5, .attachBc 0 8, .copyField 1 0, .attachBc 1 9, .set 0 1 [(0, 1), (1, 2)] List.sum, .adapt 0 [1] fine toFine,
   .assign 1 [0, 1] fun c vs => vs.sum * c]

example : (meaning Maps.init demoProg).bind (fun A => A.value 0 3) = some 10 ∧ (meaning Maps.init demoProg).bind (fun A => A.value 1 3) = some 45 ∧
    (meaning Maps.init demoProg).bind (fun A => A.value 1 2) = some 20 ∧
    (meaning Maps.init demoProg).bind (fun A => (A.fields 1).map FieldMap.bcs) = some [8, 9] := by
  decide +kernel

/-- Without the hypotheses of C119: a field of the adapted mesh that is not passed to the adaptation keeps its array. Nothing fails, and on a cell that is a leaf before and after it now has
the value of another cell. -/
theorem C119_forgotten_refuted : ∃ (prog : List (FieldOp Nat Int Unit)) (W W' : World Nat Int Unit) (M M' : MeshVal Nat) (c : Nat) (v v' : Int),
    M.Good ∧ M'.Good ∧ c ∈ M.leaves ∧ c ∈ M'.leaves ∧ run World.init prog = some W ∧ W.meshes 0 = some M ∧
    step W (.adapt 0 [] M' toCoarse) = some W' ∧ W'.meshes 0 = some M' ∧ W.read 1 c = some v ∧ W'.read 1 c = some v' ∧ v ≠ v' := by
  refine ⟨[.newMesh 0 fine, .newField 0 0, .fill 0 5, .newField 1 0, .set 1 2 [] fun _ => 22, .set 1 4 [] fun _ => 44], _, _, fine, coarse, 2, 22, 44,
    by decide, by decide, by decide, by decide, rfl, rfl, rfl, rfl, by decide +kernel, by decide +kernel, by decide⟩

/-- Nor when the mesh is refined: the array is too small, and reading the field on a leaf is an access out of its array. -/
theorem C119_too_small_refuted : ∃ (prog : List (FieldOp Nat Int Unit)) (W W' : World Nat Int Unit) (M M' : MeshVal Nat) (c : Nat) (F : FieldObj Int Unit),
    M.Good ∧ M'.Good ∧ c ∈ M'.leaves ∧ run World.init prog = some W ∧ W.meshes 0 = some M ∧
    step W (.adapt 0 [] M' toFine) = some W' ∧ W'.meshes 0 = some M' ∧ W'.fields 1 = some F ∧ F.data.length ≤ M'.cells.idxOf c := by
  refine ⟨[.newMesh 0 coarse, .newField 0 0, .fill 0 5, .newField 1 0, .fill 1 6], _, _, coarse, fine, 2, _, by decide, by decide, by decide, rfl, rfl, rfl, rfl, rfl, by decide +kernel⟩

/-- The same field given twice to an adaptation (`make_MRAdapt(u, u)`) is transferred twice, the second time from the new array read with the old numbers: its values are not those
of the transfer. -/
theorem C119_twice_refuted : ∃ (prog : List (FieldOp Nat Int Unit)) (W W' W'' : World Nat Int Unit) (M M' : MeshVal Nat) (c : Nat) (v v' : Int),
    M.Good ∧ M'.Good ∧ c ∈ M'.leaves ∧ run World.init prog = some W ∧ W.meshes 0 = some M ∧
    step W (.adapt 0 [] M' toFine) = some W' ∧ step W (.adapt 0 [0] M' toFine) = some W'' ∧
    W'.read 0 c = some v ∧ W''.read 0 c = some v' ∧ v ≠ v' := by
  refine ⟨[.newMesh 0 coarse, .newField 0 0, .set 0 1 [] fun _ => 10, .set 0 2 [] fun _ => 20], _, _, _, coarse, fine, 2, 20, 10,
    by decide, by decide, by decide, rfl, rfl, rfl, rfl, by decide +kernel, by decide +kernel, by decide⟩

/-- A field of another mesh passed with the fields of an adaptation gets an array for the new mesh, while its own mesh does not change: it loses its values on its own cells. -/
theorem C119_other_mesh_refuted : ∃ (prog : List (FieldOp Nat Int Unit)) (W W' : World Nat Int Unit) (M M' : MeshVal Nat) (c : Nat) (v v' : Int),
    M.Good ∧ M'.Good ∧ c ∈ M.leaves ∧ run World.init prog = some W ∧ W.meshes 1 = some M ∧
    step W (.adapt 0 [1] M' toFine) = some W' ∧ W'.meshes 1 = some M ∧ W.read 1 c = some v ∧ W'.read 1 c = some v' ∧ v ≠ v' := by
  refine ⟨[.newMesh 0 coarse, .newMesh 1 coarse, .newField 0 0, .newField 1 1, .fill 0 5, .set 1 1 [] fun _ => 10, .set 1 2 [] fun _ => 20], _, _, coarse, fine, 2, 20, 10,
    by decide, by decide, by decide, rfl, rfl, rfl, rfl, by decide +kernel, by decide +kernel, by decide⟩

end Examples

end Samurai.FieldLife

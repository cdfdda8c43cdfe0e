/-
Lemmas for C119: the arrays of the fields hold the values of the maps.
-/
import Verif.Spec.FieldLife
import Mathlib.Data.List.Nodup
import Mathlib.Data.List.Basic

namespace Samurai.FieldLife

variable {C K B : Type} [DecidableEq C]

/-- An array of the size of the mesh that holds the values of a map at the numbers of the cells. -/
def Holds (M : MeshVal C) (val : C → Option K) (data : List (Option K)) : Prop :=
  data.length = M.cells.length ∧ ∀ c v, val c = some v → c ∈ M.cells ∧ data[M.cells.idxOf c]? = some (some v)

def Agrees (meshes : Nat → Option (MeshVal C)) (a : FieldMap C K B) (F : FieldObj K B) : Prop :=
  a.mesh = F.mesh ∧ a.bcs = F.bcs ∧ ∀ val, a.val = some val → ∃ M, meshes a.mesh = some M ∧ Holds M val F.data

def RelF (meshes : Nat → Option (MeshVal C)) : Option (FieldMap C K B) → Option (FieldObj K B) → Prop
  | none, none => True
  | some a, some F => Agrees meshes a F
  | _, _ => False

structure Rel (A : Maps C K B) (W : World C K B) : Prop where
  meshes : A.meshes = W.meshes
  good : ∀ m M, A.meshes m = some M → M.Good
  fields : ∀ f, RelF A.meshes (A.fields f) (W.fields f)

theorem number_of_mem {M : MeshVal C} {c : C} (h : c ∈ M.cells) : M.number c = some (M.cells.idxOf c) := by
  simp [MeshVal.number, h]

theorem Holds.read {M : MeshVal C} {val : C → Option K} {data : List (Option K)} (h : Holds M val data) {c : C} {v : K}
    (hv : val c = some v) : readData M data c = some v := by
  obtain ⟨hm, hd⟩ := h.2 c v hv
  simp [readData, number_of_mem hm, hd]

theorem Holds.write {M : MeshVal C} {val : C → Option K} {data : List (Option K)} (h : Holds M val data) {c : C} (hc : c ∈ M.cells) (v : K) :
    ∃ d, writeData M data c v = some d ∧ Holds M (fun c' => if c' = c then some v else val c') d := by
  have hi : M.cells.idxOf c < data.length := by rw [h.1]; exact List.idxOf_lt_length_of_mem hc
  refine ⟨data.set (M.cells.idxOf c) (some v), by simp [writeData, number_of_mem hc, hi], by simp [h.1], ?_⟩
  intro c' w hw
  by_cases e : c' = c
  · subst e
    simp only [if_true, Option.some.injEq] at hw
    subst hw
    exact ⟨hc, by simp [hi]⟩
  · simp only [e, if_false] at hw
    obtain ⟨hm, hd⟩ := h.2 c' w hw
    refine ⟨hm, ?_⟩
    rw [List.getElem?_set_ne, hd]
    intro he
    exact e ((List.idxOf_inj hc).mp he).symm

theorem Holds.weaken {M : MeshVal C} {val val' : C → Option K} {data : List (Option K)} (h : Holds M val data)
    (hv : ∀ c v, val' c = some v → val c = some v) : Holds M val' data :=
  ⟨h.1, fun c v hc => h.2 c v (hv c v hc)⟩

theorem mapM_some_of {α β : Type} {f g : α → Option β} : ∀ {l : List α} {vs : List β}, (∀ a ∈ l, ∀ v, f a = some v → g a = some v) →
    l.mapM f = some vs → l.mapM g = some vs
  | [], vs, _, h => by simpa using h
  | a :: l, vs, hfg, h => by
    rw [List.mapM_cons] at h ⊢
    cases hf : f a with
    | none => rw [hf] at h; simp at h
    | some v =>
      rw [hf] at h
      cases hl : l.mapM f with
      | none => rw [hl] at h; simp at h
      | some ws =>
        rw [hl] at h
        rw [hfg a (by simp) v hf, mapM_some_of (fun b hb => hfg b (by simp [hb])) hl]
        exact h

section Rels
variable {A : Maps C K B} {W : World C K B}

theorem Rel.some_left (h : Rel A W) {f : Nat} {a : FieldMap C K B} (ha : A.fields f = some a) :
    ∃ F, W.fields f = some F ∧ Agrees A.meshes a F := by
  have := h.fields f
  rw [ha] at this
  cases hF : W.fields f with
  | none => rw [hF] at this; exact this.elim
  | some F => rw [hF] at this; exact ⟨F, rfl, this⟩

theorem Rel.read (h : Rel A W) {f : Nat} {c : C} {v : K} (hv : A.value f c = some v) : W.read f c = some v := by
  unfold Maps.value at hv
  cases ha : A.fields f with
  | none => rw [ha] at hv; simp at hv
  | some a =>
    rw [ha] at hv
    simp only [Option.bind_some] at hv
    cases hval : a.val with
    | none => rw [hval] at hv; simp at hv
    | some val =>
      rw [hval] at hv
      simp only [Option.bind_some] at hv
      obtain ⟨F, hF, hm, -, hd⟩ := h.some_left ha
      obtain ⟨M, hM, hH⟩ := hd val hval
      rw [h.meshes] at hM
      simp only [World.read, hF, ← hm, hM]
      exact hH.read hv

theorem Rel.setField (h : Rel A W) (f : Nat) {a : FieldMap C K B} {F : FieldObj K B} (ha : Agrees A.meshes a F) :
    Rel (A.setField f a) (W.setField f F) where
  meshes := h.meshes
  good := h.good
  fields g := by
    show RelF A.meshes (if g = f then some a else A.fields g) (if g = f then some F else W.fields g)
    split
    · exact ha
    · exact h.fields g

/-- A change of a mesh object: the fields of the mesh for which nothing is kept lose their values. -/
theorem Rel.setMesh (h : Rel A W) (m : Nat) (v : Option (MeshVal C)) (hv : ∀ M, v = some M → M.Good) :
    Rel (A.setMesh m v fun _ => none) (W.setMesh m v) where
  meshes := by show (fun i => if i = m then v else A.meshes i) = _; rw [h.meshes]; rfl
  good i M hM := by
    change (if i = m then v else A.meshes i) = some M at hM
    split at hM
    · exact hv M hM
    · exact h.good i M hM
  fields g := by
    have := h.fields g
    show RelF _ ((A.fields g).map _) (W.fields g)
    cases ha : A.fields g with
    | none => rw [ha] at this; cases hF : W.fields g with
      | none => trivial
      | some F => rw [hF] at this; exact this.elim
    | some a =>
      obtain ⟨F, hF, hm, hb, hd⟩ := h.some_left ha
      rw [hF]
      simp only [Option.map_some]
      split
      · exact ⟨hm, hb, fun val hval => by simp at hval⟩
      · rename_i hne
        refine ⟨hm, hb, fun val hval => ?_⟩
        obtain ⟨M, hM, hH⟩ := hd val hval
        refine ⟨M, ?_, hH⟩
        show (if a.mesh = m then v else A.meshes a.mesh) = some M
        rw [if_neg hne, hM]

/-- One cell of a field gets a value. -/
theorem Rel.write (h : Rel A W) {g : Nat} {b : FieldMap C K B} {val : C → Option K} {M : MeshVal C} (hb : A.fields g = some b) (hval : b.val = some val)
    (hM : A.meshes b.mesh = some M) {c : C} (hc : c ∈ M.cells) (v : K) :
    ∃ W', W.write g c v = some W' ∧ Rel (A.setField g { b with val := some fun c' => if c' = c then some v else val c' }) W' := by
  obtain ⟨F, hF, hm, hbc, hd⟩ := h.some_left hb
  obtain ⟨M', hM', hH⟩ := hd val hval
  rw [hM] at hM'
  obtain rfl := Option.some.inj hM'
  obtain ⟨d, hw, hH'⟩ := hH.write hc v
  refine ⟨W.setField g { F with data := d }, ?_, h.setField g ⟨hm, hbc, ?_⟩⟩
  · have hM2 := hM
    rw [h.meshes, hm] at hM2
    simp only [World.write, hF, hM2, hw]
  · intro val' hv
    cases hv
    exact ⟨M, hM, hH'⟩

omit [DecidableEq C] in
theorem Maps.setField_setField (A : Maps C K B) (g : Nat) (b b' : FieldMap C K B) : (A.setField g b).setField g b' = A.setField g b' := by
  simp only [Maps.setField, Maps.mk.injEq, true_and]
  funext i
  split <;> rfl

omit [DecidableEq C] in
theorem Maps.setField_self {A : Maps C K B} {g : Nat} {b : FieldMap C K B} (hb : A.fields g = some b) : A.setField g b = A := by
  cases A
  simp only [Maps.setField, Maps.mk.injEq, true_and]
  funext i
  split
  · rename_i e; rw [e, ← hb]
  · rfl

omit [DecidableEq C] in
theorem Maps.value_setField_ne (A : Maps C K B) {f g : Nat} (b : FieldMap C K B) (h : f ≠ g) (c : C) : (A.setField g b).value f c = A.value f c := by
  simp [Maps.value, Maps.setField, h]

omit [DecidableEq C] in
theorem Maps.value_setField_self (A : Maps C K B) (g : Nat) (b : FieldMap C K B) (val : C → Option K) (hb : b.val = some val) (c : C) :
    (A.setField g b).value g c = val c := by
  simp [Maps.value, Maps.setField, hb]

/-- The loop of the assignment of an expression, after the leaves `done`. -/
theorem assign_loop {g : Nat} {b : FieldMap C K B} {val : C → Option K} {M : MeshVal C} (hb : A.fields g = some b)
    (hval : b.val = some val) (hM : A.meshes b.mesh = some M) (fs : List Nat) (F : C → List K → K) :
    ∀ (todo done : List C) (W : World C K B), (∀ c ∈ todo, c ∈ M.cells) → todo.Nodup → (∀ c ∈ todo, c ∉ done) →
      (∀ c ∈ todo, (fs.mapM fun f => A.value f c).isSome) →
      Rel (A.setField g { b with val := some fun c => if c ∈ done then (fs.mapM fun f => A.value f c).map (F c) else val c }) W →
      ∃ W', todo.foldlM (fun (W : World C K B) c => match fs.mapM fun f => W.read f c with
          | none => none
          | some vs => W.write g c (F c vs)) W = some W' ∧
        Rel (A.setField g { b with val := some fun c => if c ∈ done ++ todo then (fs.mapM fun f => A.value f c).map (F c) else val c }) W'
  | [], done, W, _, _, _, _, h => ⟨W, rfl, by simpa using h⟩
  | c :: todo, done, W, hc, hn, hd, hs, h => by
    obtain ⟨vs, hvs⟩ := Option.isSome_iff_exists.mp (hs c (by simp))
    have hr : (fs.mapM fun f => W.read f c) = some vs := by
      refine mapM_some_of ?_ hvs
      intro f _ v hv
      apply h.read
      by_cases e : f = g
      · subst e
        rw [Maps.value_setField_self _ _ _ _ rfl, if_neg (hd c (by simp))]
        rw [← hv]
        simp [Maps.value, hb, hval]
      · rw [Maps.value_setField_ne _ _ e]; exact hv
    obtain ⟨W1, hW1, hR1⟩ := h.write (g := g) (val := fun c => if c ∈ done then (fs.mapM fun f => A.value f c).map (F c) else val c)
      (b := { b with val := some fun c => if c ∈ done then (fs.mapM fun f => A.value f c).map (F c) else val c })
      (by simp [Maps.setField]) rfl hM (hc c (by simp)) (F c vs)
    rw [Maps.setField_setField] at hR1
    have hn' := List.nodup_cons.mp hn
    obtain ⟨W', hW', hR'⟩ := assign_loop hb hval hM fs F todo (done ++ [c]) W1 (fun x hx => hc x (by simp [hx])) hn'.2
      (fun x hx hx' => by
        rcases List.mem_append.mp hx' with hx' | hx'
        · exact hd x (by simp [hx]) hx'
        · exact hn'.1 (by simpa using (List.mem_singleton.mp hx') ▸ hx))
      (fun x hx => hs x (by simp [hx])) (by
        convert hR1 using 5
        rename_i x
        by_cases e : x = c
        · subst e; simp [hvs]
        · simp [e])
    refine ⟨W', ?_, by simpa using hR'⟩
    rw [List.foldlM_cons]
    simp only [hr, hW1]
    exact hW'

theorem transfer_loop [Zero K] {old new : MeshVal C} {transfer : C → List C × (List K → K)} {val : C → Option K} {data : List (Option K)}
    (hH : Holds old val data) : ∀ (todo done : List C) (d : List (Option K)), (∀ c ∈ todo, c ∈ new.cells) →
      (∀ c ∈ todo, ((transfer c).1.mapM val).isSome) →
      Holds new (fun c => if c ∈ done then ((transfer c).1.mapM val).map (transfer c).2 else if c ∈ new.cells then some 0 else none) d →
      ∃ d', todo.foldlM (fun (d : List (Option K)) c => match (transfer c).1.mapM (readData old data) with
          | none => none
          | some vs => writeData new d c ((transfer c).2 vs)) d = some d' ∧
        Holds new (fun c => if c ∈ done ++ todo then ((transfer c).1.mapM val).map (transfer c).2 else if c ∈ new.cells then some 0 else none) d'
  | [], done, d, _, _, h => ⟨d, rfl, by simpa using h⟩
  | c :: todo, done, d, hc, hs, h => by
    obtain ⟨vs, hvs⟩ := Option.isSome_iff_exists.mp (hs c (by simp))
    have hr : (transfer c).1.mapM (readData old data) = some vs := mapM_some_of (fun _ _ _ hv => hH.read hv) hvs
    obtain ⟨d1, hd1, hH1⟩ := h.write (hc c (by simp)) ((transfer c).2 vs)
    obtain ⟨d', hd', hH'⟩ := transfer_loop hH todo (done ++ [c]) d1 (fun x hx => hc x (by simp [hx])) (fun x hx => hs x (by simp [hx])) (by
      convert hH1 using 2
      rename_i x
      by_cases e : x = c
      · subst e; simp [hvs]
      · simp [e])
    refine ⟨d', ?_, by simpa using hH'⟩
    rw [List.foldlM_cons]
    simp only [hr, hd1]
    exact hd'

theorem transferData_holds [Zero K] {old new : MeshVal C} {transfer : C → List C × (List K → K)} {val : C → Option K} {data : List (Option K)}
    (hH : Holds old val data) (hg : new.Good) (hs : ∀ c ∈ new.leaves, ((transfer c).1.mapM val).isSome) :
    ∃ d, transferData old new transfer data = some d ∧ Holds new (transferred new transfer val) d := by
  obtain ⟨d, hd, hH'⟩ := transfer_loop hH new.leaves [] (List.replicate new.cells.length (some 0)) hg.2 hs (by
    refine ⟨by simp, fun c v hv => ?_⟩
    simp only [List.not_mem_nil, if_false] at hv
    split at hv
    · rename_i hm
      cases hv
      exact ⟨hm, by simp [List.idxOf_lt_length_of_mem hm]⟩
    · cases hv)
  exact ⟨d, hd, by rw [List.nil_append] at hH'; exact hH'⟩

theorem transfer_fields [Zero K] {new : MeshVal C} {transfer : C → List C × (List K → K)} (hg : new.Good) (val : Nat → C → Option K) :
    ∀ (gs : List Nat) (W : World C K B), gs.Nodup →
      (∀ g ∈ gs, ∃ G M, W.fields g = some G ∧ W.meshes G.mesh = some M ∧ Holds M (val g) G.data ∧
        ∀ c ∈ new.leaves, ((transfer c).1.mapM (val g)).isSome) →
      ∃ W', gs.foldlM (transferField new transfer) W = some W' ∧ W'.meshes = W.meshes ∧ (∀ g, g ∉ gs → W'.fields g = W.fields g) ∧
        ∀ g ∈ gs, ∃ G d, W.fields g = some G ∧ W'.fields g = some { G with data := d } ∧ Holds new (transferred new transfer (val g)) d
  | [], W, _, _ => ⟨W, rfl, rfl, fun _ _ => rfl, fun _ h => by simp at h⟩
  | g :: gs, W, hn, h => by
    obtain ⟨G, M, hG, hM, hH, hs⟩ := h g (by simp)
    obtain ⟨d, hd, hH'⟩ := transferData_holds hH hg hs
    have hn' := List.nodup_cons.mp hn
    have hne : ∀ x ∈ gs, x ≠ g := fun x hx e => hn'.1 (e ▸ hx)
    have hkeep : ∀ x, x ≠ g → (W.setField g { G with data := d }).fields x = W.fields x := fun x hx => by
      show (if x = g then _ else _) = _
      rw [if_neg hx]
    obtain ⟨W', hW', hm, ho, hi⟩ := transfer_fields hg val gs (W.setField g { G with data := d }) hn'.2 (fun x hx => by
      obtain ⟨X, N, hX, hN, h1, h2⟩ := h x (by simp [hx])
      exact ⟨X, N, by rw [hkeep x (hne x hx)]; exact hX, hN, h1, h2⟩)
    refine ⟨W', ?_, hm, ?_, ?_⟩
    · rw [List.foldlM_cons]
      simp only [transferField, hG, hM, hd]
      exact hW'
    · intro x hx
      rw [ho x (fun h => hx (by simp [h])), hkeep x (fun e => hx (by simp [e]))]
    · intro x hx
      rcases List.mem_cons.mp hx with e | hx
      · subst e
        refine ⟨G, d, hG, ?_, hH'⟩
        rw [ho x hn'.1]
        show (if x = x then _ else _) = _
        rw [if_pos rfl]
      · obtain ⟨X, e, hX, hX', h1⟩ := hi x hx
        exact ⟨X, e, by rw [← hkeep x (hne x hx)]; exact hX, hX', h1⟩

omit [DecidableEq C] in
theorem ready_iff {m : Nat} {leaves : List C} {reads : C → List C} {g : Nat} : A.ready m leaves reads g = true ↔
    ∃ b val, A.fields g = some b ∧ b.mesh = m ∧ b.val = some val ∧ ∀ c ∈ leaves, ((reads c).mapM val).isSome := by
  simp only [Maps.ready]
  cases ha : A.fields g with
  | none => simp
  | some b => cases hv : b.val <;> simp [hv]

theorem Rel.adapt [Zero K] (h : Rel A W) {f : Nat} {others : List Nat} {new : MeshVal C} {transfer : C → List C × (List K → K)} {A' : Maps C K B}
    (hm : mean A (.adapt f others new transfer) = some A') : ∃ W', adaptFields W f others new transfer = some W' ∧ Rel A' W' := by
  simp only [mean] at hm
  cases ha : A.fields f with
  | none => rw [ha] at hm; simp at hm
  | some a =>
  rw [ha, Option.bind_some] at hm
  cases hold : A.meshes a.mesh with
  | none => rw [hold] at hm; simp at hm
  | some old =>
  rw [hold, Option.bind_some] at hm
  obtain ⟨F, hF, hFm, hFb, hFd⟩ := h.some_left ha
  have hold' : W.meshes F.mesh = some old := by rw [← hFm, ← h.meshes]; exact hold
  simp only [adaptFields, hF, hold']
  split at hm
  · rename_i e
    cases hm
    rw [if_pos e]
    exact ⟨W, rfl, h⟩
  · rename_i e
    rw [if_neg e]
    split at hm
    · rename_i hc
      obtain ⟨hg, hn, hall⟩ := hc
      cases hm
      obtain ⟨W', hW', hmesh, ho, hi⟩ := transfer_fields (transfer := transfer) hg (fun g c => A.value g c) (f :: others) W hn (fun g hgm => by
        obtain ⟨b, val, hb, hbm, hbv, hs⟩ := ready_iff.mp (hall g hgm)
        obtain ⟨G, hG, hGm, -, hGd⟩ := h.some_left hb
        obtain ⟨M, hM, hH⟩ := hGd val hbv
        have hval : (fun c => A.value g c) = val := by funext c; simp [Maps.value, hb, hbv]
        refine ⟨G, M, hG, by rw [← hGm, ← h.meshes]; exact hM, by rw [hval]; exact hH, by rw [hval]; exact hs⟩)
      rw [hW']
      refine ⟨_, rfl, ?_, ?_, ?_⟩
      · show (fun i => if i = a.mesh then some new else A.meshes i) = fun i => if i = F.mesh then some new else W'.meshes i
        rw [hmesh, h.meshes, hFm]
      · intro i M hM
        change (if i = a.mesh then some new else A.meshes i) = some M at hM
        split at hM
        · cases hM; exact hg
        · exact h.good i M hM
      · intro g
        show RelF _ ((A.fields g).map _) (W'.fields g)
        by_cases hgm : g ∈ f :: others
        · obtain ⟨b, val, hb, hbm, hbv, hs⟩ := ready_iff.mp (hall g hgm)
          obtain ⟨G, hG, hGm, hGb, hGd⟩ := h.some_left hb
          obtain ⟨G', d, hG', hW'g, hH⟩ := hi g hgm
          rw [hG] at hG'
          obtain rfl := Option.some.inj hG'
          rw [hb, hW'g, Option.map_some, if_pos hbm]
          refine ⟨hGm, hGb, fun val' hv => ⟨new, ?_, ?_⟩⟩
          · show (if b.mesh = a.mesh then some new else _) = _
            rw [if_pos hbm]
          · simp only [hgm, if_true] at hv
            cases hv
            exact hH
        · rw [ho g hgm]
          have := h.fields g
          cases hb : A.fields g with
          | none => rw [hb] at this; cases hG : W.fields g with
            | none => trivial
            | some G => rw [hG] at this; exact this.elim
          | some b =>
            obtain ⟨G, hG, hGm, hGb, hGd⟩ := h.some_left hb
            rw [hG, Option.map_some]
            split
            · exact ⟨hGm, hGb, fun val hv => by simp [hgm] at hv⟩
            · rename_i hne
              refine ⟨hGm, hGb, fun val hv => ?_⟩
              obtain ⟨M, hM, hH⟩ := hGd val hv
              refine ⟨M, ?_, hH⟩
              show (if b.mesh = a.mesh then some new else A.meshes b.mesh) = some M
              rw [if_neg hne, hM]
    · cases hm

theorem Rel.step [Zero K] (h : Rel A W) (op : FieldOp C K B) {A' : Maps C K B} (hm : mean A op = some A') :
    ∃ W', FieldLife.step W op = some W' ∧ Rel A' W' := by
  cases op with
  | newMesh m v =>
    simp only [mean] at hm
    split at hm
    · rename_i hg
      cases hm
      exact ⟨_, rfl, h.setMesh m (some v) (fun M e => by cases e; exact hg)⟩
    · cases hm
  | endMesh m =>
    simp only [mean] at hm
    cases hm
    exact ⟨_, rfl, h.setMesh m none (fun M e => by cases e)⟩
  | newField f m =>
    simp only [mean] at hm
    split at hm
    · rename_i hs
      obtain ⟨M, hM⟩ := Option.isSome_iff_exists.mp hs
      cases hm
      have hM' := hM
      rw [h.meshes] at hM'
      simp only [FieldLife.step, hM']
      refine ⟨_, rfl, h.setField f ⟨rfl, rfl, fun val hv => ⟨M, hM, ?_⟩⟩⟩
      cases hv
      exact ⟨by simp, fun c v hv => by cases hv⟩
    · cases hm
  | copyField g f =>
    simp only [mean] at hm
    cases ha : A.fields f with
    | none => rw [ha] at hm; simp at hm
    | some a =>
      rw [ha, Option.map_some] at hm
      cases hm
      obtain ⟨F, hF, hA⟩ := h.some_left ha
      simp only [FieldLife.step, hF]
      exact ⟨_, rfl, h.setField g hA⟩
  | attachBc f b =>
    simp only [mean] at hm
    cases ha : A.fields f with
    | none => rw [ha] at hm; simp at hm
    | some a =>
      rw [ha, Option.map_some] at hm
      cases hm
      obtain ⟨F, hF, h1, h2, h3⟩ := h.some_left ha
      simp only [FieldLife.step, hF]
      exact ⟨_, rfl, h.setField f ⟨h1, by rw [h2], h3⟩⟩
  | resize f =>
    simp only [mean] at hm
    cases ha : A.fields f with
    | none => rw [ha] at hm; simp at hm
    | some a =>
      rw [ha, Option.bind_some] at hm
      cases hM : A.meshes a.mesh with
      | none => rw [hM] at hm; simp at hm
      | some M =>
        rw [hM, Option.bind_some] at hm
        cases hm
        obtain ⟨F, hF, h1, h2, h3⟩ := h.some_left ha
        have hM' : W.meshes F.mesh = some M := by rw [← h1, ← h.meshes]; exact hM
        simp only [FieldLife.step, hF, hM']
        refine ⟨_, rfl, h.setField f ⟨h1, h2, fun val hv => ⟨M, hM, ?_⟩⟩⟩
        cases hv
        cases hval : a.val with
        | none =>
          refine ⟨?_, fun c v hv => by cases hv⟩
          simp only [resizeData]
          split
          · assumption
          · simp
        | some val =>
          obtain ⟨M2, hM2, hH⟩ := h3 val hval
          rw [hM] at hM2
          obtain rfl := Option.some.inj hM2
          simp only [resizeData, hH.1, if_true]
          exact hH
  | fill f v =>
    simp only [mean] at hm
    cases ha : A.fields f with
    | none => rw [ha] at hm; simp at hm
    | some a =>
      rw [ha, Option.bind_some] at hm
      cases hM : A.meshes a.mesh with
      | none => rw [hM] at hm; simp at hm
      | some M =>
        rw [hM, Option.bind_some] at hm
        cases hm
        obtain ⟨F, hF, h1, h2, h3⟩ := h.some_left ha
        simp only [FieldLife.step, hF]
        refine ⟨_, rfl, h.setField f ⟨h1, h2, fun val hv => ⟨M, hM, ?_⟩⟩⟩
        cases hval : a.val with
        | none => simp [hval] at hv
        | some val0 =>
          simp only [hval, Option.map_some, Option.some.injEq] at hv
          subst hv
          obtain ⟨M2, hM2, hH⟩ := h3 val0 hval
          rw [hM] at hM2
          obtain rfl := Option.some.inj hM2
          refine ⟨by simp [hH.1], fun c w hw => ?_⟩
          dsimp only at hw
          split at hw
          · rename_i hc
            cases hw
            refine ⟨hc, ?_⟩
            have hi : M.cells.idxOf c < F.data.length := by rw [hH.1]; exact List.idxOf_lt_length_of_mem hc
            simp [List.getElem?_replicate, hi]
          · cases hw
  | swapArrays f g =>
    simp only [mean] at hm
    cases ha : A.fields f with
    | none => rw [ha] at hm; simp at hm
    | some a =>
      rw [ha, Option.bind_some] at hm
      cases hb : A.fields g with
      | none => rw [hb] at hm; simp at hm
      | some b =>
        rw [hb, Option.bind_some] at hm
        split at hm
        · rename_i e
          cases hm
          obtain ⟨F, hF, h1, h2, h3⟩ := h.some_left ha
          obtain ⟨G, hG, k1, k2, k3⟩ := h.some_left hb
          simp only [FieldLife.step, hF, hG]
          have hA : Agrees A.meshes { a with val := b.val } { F with data := G.data } := by
            refine ⟨h1, h2, fun val hv => ?_⟩
            show ∃ M, A.meshes a.mesh = some M ∧ _
            rw [e]
            exact k3 val hv
          refine ⟨_, rfl, (h.setField f hA).setField g ?_⟩
          · split
            · exact ⟨h1, h2, h3⟩
            · refine ⟨k1, k2, fun val hv => ?_⟩
              show ∃ M, A.meshes b.mesh = some M ∧ _
              rw [← e]
              exact h3 val hv
        · cases hm
  | set g c reads F =>
    simp only [mean] at hm
    cases hr : reads.mapM fun r => A.value r.1 r.2 with
    | none => rw [hr] at hm; simp at hm
    | some vs =>
      rw [hr, Option.bind_some] at hm
      cases hb : A.fields g with
      | none => rw [hb] at hm; simp at hm
      | some b =>
        rw [hb, Option.bind_some] at hm
        cases hM : A.meshes b.mesh with
        | none => rw [hM] at hm; simp at hm
        | some M =>
          rw [hM, Option.bind_some] at hm
          cases hval : b.val with
          | none => rw [hval] at hm; simp at hm
          | some val =>
            rw [hval, Option.bind_some] at hm
            split at hm
            · rename_i hc
              cases hm
              have hr' : (reads.mapM fun r => W.read r.1 r.2) = some vs := mapM_some_of (fun _ _ _ hv => h.read hv) hr
              obtain ⟨W', hW', hR⟩ := h.write hb hval hM hc (F vs)
              refine ⟨W', ?_, ?_⟩
              · simp only [FieldLife.step, hr', hW']
              · convert hR using 5
            · cases hm
  | assign g fs F =>
    simp only [mean] at hm
    cases hb : A.fields g with
    | none => rw [hb] at hm; simp at hm
    | some b =>
      rw [hb, Option.bind_some] at hm
      cases hM : A.meshes b.mesh with
      | none => rw [hM] at hm; simp at hm
      | some M =>
        rw [hM, Option.bind_some] at hm
        cases hval : b.val with
        | none => rw [hval] at hm; simp at hm
        | some val =>
          rw [hval, Option.bind_some] at hm
          split at hm
          · rename_i hs
            cases hm
            have hg := h.good _ _ hM
            obtain ⟨G, hG, k1, k2, k3⟩ := h.some_left hb
            have hM' : W.meshes G.mesh = some M := by rw [← k1, ← h.meshes]; exact hM
            obtain ⟨W', hW', hR⟩ := assign_loop hb hval hM fs F M.leaves [] W hg.2 hg.1 (by simp) hs (by
              have : A.setField g { b with val := some fun c => if c ∈ ([] : List C) then (fs.mapM fun f => A.value f c).map (F c) else val c } = A := by
                apply Maps.setField_self
                rw [hb]
                cases b
                simp only at hval
                simp [hval]
              rw [this]; exact h)
            refine ⟨W', ?_, ?_⟩
            · simp only [FieldLife.step, hG, hM']
              exact hW'
            · simp only [List.nil_append] at hR
              convert hR using 5
          · cases hm
  | adapt f others new transfer => exact h.adapt hm

theorem Rel.run [Zero K] : ∀ (prog : List (FieldOp C K B)) {A : Maps C K B} {W : World C K B}, Rel A W → ∀ {A'}, meaning A prog = some A' →
    ∃ W', FieldLife.run W prog = some W' ∧ Rel A' W'
  | [], A, W, h, A', hm => by
    obtain rfl : A = A' := Option.some.inj hm
    exact ⟨W, rfl, h⟩
  | op :: prog, A, W, h, A', hm => by
    simp only [meaning, List.foldlM_cons] at hm
    cases h1 : mean A op with
    | none => rw [h1] at hm; cases hm
    | some A1 =>
      rw [h1] at hm
      obtain ⟨W1, hW1, hR1⟩ := h.step op h1
      obtain ⟨W', hW', hR'⟩ := Rel.run prog hR1 hm
      refine ⟨W', ?_, hR'⟩
      simp only [FieldLife.run, List.foldlM_cons, hW1]
      exact hW'

theorem Rel.init : Rel (Maps.init : Maps C K B) World.init where
  meshes := rfl
  good := fun _ _ h => by cases h
  fields := fun _ => trivial

end Rels

end Samurai.FieldLife

import Verif.Lemmas.Sparsity
import Verif.Lemmas.PetscFree

/-! The places of a flux-based scheme. -/

namespace Samurai

section
variable {K : Type} [Field K] {n : Nat} {L : MatLayout} {rec : GhostMap K} {m p : Nat} {cells ref : CA} {dom sub : LCA} {minL maxL w : Nat}

/-- The place is one of an interior interface. -/
def FacePlace (n : Nat) (L : MatLayout) (rec : GhostMap K) (cells ref : CA) (maxL d : Nat) (S : List (Nat → Int)) (e : Int × Int) : Prop :=
  ∃ fs, interiorFaces n ref cells maxL (unitDir d) S = some fs ∧ ∃ f ∈ fs, e ∈ facePlaces L rec f

/-- The place is one of a boundary interface. -/
def BdryPlace (n : Nat) (L : MatLayout) (cells ref : CA) (sub : LCA) (d : Nat) (S : List (Nat → Int)) (level : Nat) (e : Int × Int) : Prop :=
  ∃ fs, (bdryFaces n ref sub cells (unitDir d) S level = some fs ∨ bdryFacesOpp n ref sub cells (unitDir d) S level = some fs) ∧ ∃ f ∈ fs, e ∈ bdryPlaces L f

/-- The place is one of the scheme. -/
def FluxPlace (n : Nat) (L : MatLayout) (rec : GhostMap K) (cells ref : CA) (sub : LCA) (maxL : Nat) (S : Nat → List (Nat → Int)) (e : Int × Int) : Prop :=
  ∃ d ≤ n, FacePlace n L rec cells ref maxL d (S d) e ∨ ∃ l ∈ cells.usedLevels, BdryPlace n L cells ref sub d (S d) l e

/-- All the places of the scheme are counted. -/
theorem fluxPattern_spec (g : FVMesh n cells ref dom minL maxL w) (hsub : constructSubdomain n cells maxL = some sub) (hin : 1 ≤ L.inSize)
    {S : Nat → List (Nat → Int)} (hS : ∀ d ≤ n, StencilOK n w (unitDir d) (S d)) :
    ∃ P Q, fluxPattern n L rec ref sub cells maxL true S = some P ∧ Counts P Q ∧ ∀ e, FluxPlace n L rec cells ref sub maxL S e → e ∈ Q := by
  obtain ⟨P, Q, h1, h2, h3⟩ := overLevels_counts (f := fun d =>
    match interiorFaces n ref cells maxL (cartesianDir d) (S d),
      (if true then overLevels (bdryLevelPattern n L ref sub cells (cartesianDir d) (S d)) cells.usedLevels else some []) with
    | some fs, some b => some (fs.flatMap (facePattern L rec) ++ b)
    | _, _ => none)
    (C := fun d e => FacePlace n L rec cells ref maxL d (S d) e ∨ ∃ l ∈ cells.usedLevels, BdryPlace n L cells ref sub d (S d) l e) (List.range (n + 1)) (by
      intro d hd
      have hd' : d ≤ n := by have := List.mem_range.1 hd; omega
      obtain ⟨fs, i1, -⟩ := C38_interior_interfaces n cells ref dom minL maxL w d (S d) g hd' (hS d hd')
      obtain ⟨P, Q, b1, b2, b3⟩ := overLevels_counts (f := bdryLevelPattern n L ref sub cells (unitDir d) (S d)) (C := BdryPlace n L cells ref sub d (S d)) cells.usedLevels (by
        intro l hl
        obtain ⟨p, hp⟩ := (mem_usedLevels g.leaves.wf).1 hl
        obtain ⟨⟨gs, j1, -, -, j3⟩, gs', j1', -, -, j3'⟩ := C41_boundary_calls n cells ref dom sub minL maxL w d l (S d) g hd' (hS d hd') (g.leaves.between _ _ hp).2 hsub
        refine ⟨(gs ++ gs').flatMap (bdryPattern L (S d).length), (gs ++ gs').flatMap (bdryPlaces L), by unfold bdryLevelPattern; rw [j1, j1'], Counts.flatMap fun f hf => ?_, ?_⟩
        · refine bdry_counts hin ?_
          rcases List.mem_append.1 hf with hf | hf
          · exact (j3 f hf).2.length_eq.symm
          · obtain ⟨-, q, -, h⟩ := j3' f hf
            exact h.length_eq.symm
        · rintro e ⟨fs', h | h, f, hf, he⟩
          · rw [j1] at h
            cases h
            exact List.mem_flatMap.2 ⟨f, List.mem_append_left _ hf, he⟩
          · rw [j1'] at h
            cases h
            exact List.mem_flatMap.2 ⟨f, List.mem_append_right _ hf, he⟩)
      refine ⟨fs.flatMap (facePattern L rec) ++ P, fs.flatMap (facePlaces L rec) ++ Q, ?_, (Counts.flatMap fun f _ => face_counts hin f).append b2, ?_⟩
      · show (match interiorFaces n ref cells maxL (unitDir d) (S d), (if true then overLevels (bdryLevelPattern n L ref sub cells (unitDir d) (S d)) cells.usedLevels else some []) with
          | some fs, some b => some (fs.flatMap (facePattern L rec) ++ b)
          | _, _ => none) = _
        rw [i1, if_pos rfl, b1]
      · rintro e (⟨fs', h, f, hf, he⟩ | ⟨l, hl, he⟩)
        · rw [i1] at h
          cases h
          exact List.mem_append_left _ (List.mem_flatMap.2 ⟨f, hf, he⟩)
        · exact List.mem_append_right _ (b3 l hl e he))
  refine ⟨P, Q, h1, h2, ?_⟩
  rintro e ⟨d, hd, he⟩
  exact h3 d (List.mem_range.2 (by omega)) e he

/-! ### the assembly -/

theorem faceEntries_place {A B : List ((Fin m → K) →ₗ[K] (Fin p → K))} (hm : L.inSize = m) (hp : L.outSize = p) {f : FaceCall} {e : MatEntry K}
    (he : e ∈ faceEntries L rec A B f) : (e.1, e.2.1) ∈ facePlaces L rec f := by
  unfold faceEntries at he
  obtain ⟨i, -, he⟩ := List.mem_flatMap.1 he
  obtain ⟨j, -, he⟩ := List.mem_flatMap.1 he
  obtain ⟨a, b, c, hc, he⟩ := stencilLoop_mem he
  unfold facePlaces
  refine List.mem_flatMap.2 ⟨i, List.mem_range.2 (by rw [hp]; exact i.2), List.mem_flatMap.2 ⟨j, List.mem_range.2 (by rw [hm]; exact j.2), List.mem_flatMap.2 ⟨c, hc, ?_⟩⟩⟩
  unfold terms
  cases hf : rec.find c.index with
  | none =>
    rw [hf] at he
    simp only [List.mem_cons, List.not_mem_nil, or_false] at he
    rcases he with rfl | rfl <;> simp
  | some l =>
    rw [hf] at he
    obtain ⟨t, ht, he⟩ := List.mem_flatMap.1 he
    simp only [List.mem_cons, List.not_mem_nil, or_false] at he
    refine List.mem_flatMap.2 ⟨t.1, List.mem_map.2 ⟨t, ht, rfl⟩, ?_⟩
    rcases he with rfl | rfl <;> simp

theorem bdryEntries_place {A : List ((Fin m → K) →ₗ[K] (Fin p → K))} (hm : L.inSize = m) (hp : L.outSize = p) {f : BdryCall} {e : MatEntry K}
    (he : e ∈ bdryEntries L A f) : (e.1, e.2.1) ∈ bdryPlaces L f := by
  unfold bdryEntries at he
  obtain ⟨i, -, he⟩ := List.mem_flatMap.1 he
  obtain ⟨j, -, he⟩ := List.mem_flatMap.1 he
  obtain ⟨a, b, c, hc, he⟩ := stencilLoop_mem he
  unfold bdryPlaces
  refine List.mem_flatMap.2 ⟨i, List.mem_range.2 (by rw [hp]; exact i.2), List.mem_flatMap.2 ⟨j, List.mem_range.2 (by rw [hm]; exact j.2), List.mem_map.2 ⟨c, hc, ?_⟩⟩⟩
  simp only [List.mem_cons, List.not_mem_nil, or_false] at he
  rw [he]

theorem overLevels_all {α : Type} {f : Nat → Option (List α)} {C : α → Prop} : ∀ (ls : List Nat) (E : List α), (∀ l ∈ ls, ∀ E, f l = some E → ∀ e ∈ E, C e) →
    overLevels f ls = some E → ∀ e ∈ E, C e := by
  intro ls
  induction ls with
  | nil => intro E _ h; cases h; intro e he; simp at he
  | cons l ls ih =>
    intro E h hE
    rw [overLevels] at hE
    cases h1 : f l with
    | none => rw [h1] at hE; simp at hE
    | some a =>
      cases h2 : overLevels f ls with
      | none => rw [h1, h2] at hE; simp at hE
      | some b =>
        rw [h1, h2] at hE
        cases hE
        intro e he
        rcases List.mem_append.1 he with he | he
        · exact h l List.mem_cons_self a h1 e he
        · exact ih b (fun l' hl' => h l' (List.mem_cons_of_mem _ hl')) h2 e he

/-- The calls that write in the matrix write at the places of the scheme. -/
theorem assembleScheme_places (g : FVMesh n cells ref dom minL maxL w) (hm : L.inSize = m) (hp : L.outSize = p) {h0 : K} {bdry : Bool}
    {S : Nat → List (Nat → Int)} (hS : ∀ d ≤ n, StencilOK n w (unitDir d) (S d))
    {C : Nat → Nat → List MCell → List ((Fin m → K) →ₗ[K] (Fin p → K))} {E : List (MatEntry K)}
    (h : assembleScheme n h0 L rec ref sub cells maxL bdry S C = some E) : ∀ e ∈ E, FluxPlace n L rec cells ref sub maxL S (e.1, e.2.1) := by
  unfold assembleScheme at h
  cases h1 : overLevels (fun d => asmInterior n h0 L rec ref cells maxL (cartesianDir d) (S d) (C d)) (List.range (n + 1)) with
  | none => rw [h1] at h; simp at h
  | some a =>
    rw [h1] at h
    have ha : ∀ e ∈ a, FluxPlace n L rec cells ref sub maxL S (e.1, e.2.1) := by
      refine overLevels_all _ _ (fun d hd E hE => ?_) h1
      have hd' : d ≤ n := by have := List.mem_range.1 hd; omega
      obtain ⟨fs, i1, i2⟩ := g.interior hd' (hS d hd')
      have hface : ∀ f : FaceCall, f.Right n ref (unitDir d) (S d) → Interface n cells (unitDir d) f.ends.1 f.ends.2 → ∀ A B, ∀ e ∈ faceEntries (m := m) (p := p) L rec A B f,
          FluxPlace n L rec cells ref sub maxL S (e.1, e.2.1) := by
        intro f hf hi A B e he
        obtain ⟨f', hf', hfe⟩ := List.mem_map.1 ((i2.mem f.ends).2 hi)
        have := face_unique g.refWF (i2.right f' hf') hf hfe
        subst this
        exact ⟨d, hd', Or.inl ⟨fs, i1, f', hf', faceEntries_place hm hp he⟩⟩
      have hif := fun e => g.interface_iff (unitDir_axis n d).small e
      have hE : asmInterior n h0 L rec ref cells maxL (unitDir d) (S d) (C d) = some E := hE
      unfold asmInterior at hE
      cases h1 : overLevels (asmSame n h0 L rec ref cells (unitDir d) (S d) (C d)) cells.levels with
      | none => rw [h1] at hE; simp at hE
      | some a =>
        cases h2 : overLevels (asmJump n h0 L rec ref cells maxL (unitDir d) (S d) (C d)) (List.range' cells.minLevel (cells.maxLevel - cells.minLevel)) with
        | none => rw [h1, h2] at hE; simp at hE
        | some b =>
          rw [h1, h2] at hE
          cases hE
          intro e he
          have hused : ∀ {l : Nat} {q : List Int}, cells.Mem n l q → l ∈ cells.usedLevels := fun h => (mem_usedLevels g.leaves.wf).2 ⟨_, h⟩
          rcases List.mem_append.1 he with he | he
          · refine overLevels_all (C := fun e : MatEntry K => FluxPlace n L rec cells ref sub maxL S (e.1, e.2.1)) _ _ (fun l hl E hE => ?_) h1 e he
            obtain ⟨fs, j1, j2⟩ := g.sameOK (fun k => (unitDir_le d k).2) (hS d hd') (g.levels_le l hl)
            unfold asmSame at hE
            rw [j1] at hE
            cases hE
            intro e he
            obtain ⟨f, hf, he⟩ := List.mem_flatMap.1 he
            refine hface f (j2.right f hf) ?_ _ _ e he
            have hP := (j2.mem f.ends).1 (List.mem_map.2 ⟨f, hf, rfl⟩)
            exact (hif _).1 ⟨l, by obtain ⟨q, h1, -⟩ := hP; exact hused h1, Or.inl hP⟩
          · refine overLevels_all (C := fun e : MatEntry K => FluxPlace n L rec cells ref sub maxL S (e.1, e.2.1)) _ _ (fun l _ E hE => ?_) h2 e he
            obtain ⟨a, a1, a2⟩ := g.jumpOK (fun k => (unitDir_le d k).2) (unitDir_axis n d) ((hS d hd').pos hd') (hS d hd') l
            obtain ⟨b, b1, b2⟩ := g.oppOK (fun k => (unitDir_le d k).1) (unitDir_axis_neg n d) ((hS d hd').pos hd') (hS d hd') l
            unfold asmJump at hE
            rw [a1, b1] at hE
            cases hE
            intro e he
            rcases List.mem_append.1 he with he | he
            · obtain ⟨f, hf, he⟩ := List.mem_flatMap.1 he
              refine hface f (a2.right f hf) ?_ _ _ e he
              have hP := (a2.mem f.ends).1 (List.mem_map.2 ⟨f, hf, rfl⟩)
              exact (hif _).1 ⟨l, by obtain ⟨q, h1, -⟩ := hP; exact hused h1, Or.inr (Or.inl hP)⟩
            · obtain ⟨f, hf, he⟩ := List.mem_flatMap.1 he
              refine hface f (b2.right f hf) ?_ _ _ e he
              have hP := (b2.mem f.ends).1 (List.mem_map.2 ⟨f, hf, rfl⟩)
              exact (hif _).1 ⟨l, by obtain ⟨q, -, h1, -⟩ := hP; exact hused h1, Or.inr (Or.inr hP)⟩
    cases hb : bdry with
    | false =>
      rw [hb] at h
      cases h
      simpa using ha
    | true =>
      rw [hb, if_pos rfl] at h
      cases h2 : overLevels (fun d => overLevels (asmBdry n h0 L ref sub cells (cartesianDir d) (S d) (C d)) cells.usedLevels) (List.range (n + 1)) with
      | none => rw [h2] at h; simp at h
      | some b =>
        rw [h2] at h
        cases h
        intro e he
        rcases List.mem_append.1 he with he | he
        · exact ha e he
        · refine overLevels_all (C := fun e : MatEntry K => FluxPlace n L rec cells ref sub maxL S (e.1, e.2.1)) _ _ (fun d hd E hE => ?_) h2 e he
          have hd' : d ≤ n := by have := List.mem_range.1 hd; omega
          refine overLevels_all _ _ (fun l hl E hE => ?_) hE
          have hE : asmBdry n h0 L ref sub cells (unitDir d) (S d) (C d) l = some E := hE
          unfold asmBdry at hE
          cases h3 : bdryFaces n ref sub cells (unitDir d) (S d) l with
          | none => rw [h3] at hE; simp at hE
          | some fs =>
            cases h4 : bdryFacesOpp n ref sub cells (unitDir d) (S d) l with
            | none => rw [h3, h4] at hE; simp at hE
            | some fs' =>
              rw [h3, h4] at hE
              cases hE
              intro e he
              rcases List.mem_append.1 he with he | he
              · obtain ⟨f, hf, he⟩ := List.mem_flatMap.1 he
                exact ⟨d, hd', Or.inr ⟨l, hl, fs, Or.inl h3, f, hf, bdryEntries_place hm hp he⟩⟩
              · obtain ⟨f, hf, he⟩ := List.mem_flatMap.1 he
                exact ⟨d, hd', Or.inr ⟨l, hl, fs', Or.inr h4, f, hf, bdryEntries_place hm hp he⟩⟩

end

end Samurai

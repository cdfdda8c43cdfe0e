import Verif.Lemmas.PetscScheme

/-! The columns of the eliminated ghosts. -/

namespace Samurai

section
variable {K : Type} [Field K] {n : Nat} {L : MatLayout} {rec : GhostMap K} {m p : Nat} {cells ref : CA} {dom sub : LCA} {minL maxL w : Nat}

/-- No entry is in the column of an eliminated ghost. -/
def FreeCols (L : MatLayout) (rec : GhostMap K) (m : Nat) (E : List (MatEntry K)) : Prop := ∀ e ∈ E, ∃ (k : Int) (j : Fin m), e.2.1 = L.col k j ∧ (0 ≤ k ∧ k < L.nCells) ∧ rec.find k = none

theorem FreeCols.append {a b : List (MatEntry K)} (ha : FreeCols L rec m a) (hb : FreeCols L rec m b) : FreeCols L rec m (a ++ b) := by
  intro e he
  rcases List.mem_append.1 he with h | h
  · exact ha e h
  · exact hb e h

theorem FreeCols.flatMap {α : Type} {f : α → List (MatEntry K)} {l : List α} (h : ∀ a ∈ l, FreeCols L rec m (f a)) : FreeCols L rec m (l.flatMap f) := by
  intro e he
  obtain ⟨a, ha, he⟩ := List.mem_flatMap.1 he
  exact h a ha e he

theorem faceEntries_free (hr : ∀ e ∈ rec, ∀ t ∈ e.2, (0 ≤ t.1 ∧ t.1 < L.nCells) ∧ rec.find t.1 = none) (hN : ∀ l q k, (l, q, k) ∈ ref.numbered n → 0 ≤ k ∧ k < L.nCells)
    (A B : List ((Fin m → K) →ₗ[K] (Fin p → K))) {dir : Nat → Int} {S : List (Nat → Int)} {f : FaceCall} (hf : f.Right n ref dir S) :
    FreeCols L rec m (faceEntries L rec A B f) := by
  intro e he
  unfold faceEntries at he
  obtain ⟨i, -, he⟩ := List.mem_flatMap.1 he
  obtain ⟨j, -, he⟩ := List.mem_flatMap.1 he
  obtain ⟨a, b, c, hc, he⟩ := stencilLoop_mem he
  have hc' : 0 ≤ c.index ∧ c.index < L.nCells := by
    obtain ⟨-, -, q, -, h2⟩ := hf
    obtain ⟨s, -, hs⟩ := forall₂_mem h2 hc
    exact hN _ _ _ hs.2.2
  cases hf : rec.find c.index with
  | none =>
    rw [hf] at he
    simp only [List.mem_cons, List.not_mem_nil, or_false] at he
    rcases he with rfl | rfl <;> exact ⟨_, j, rfl, hc', hf⟩
  | some l =>
    rw [hf] at he
    obtain ⟨t, ht, he⟩ := List.mem_flatMap.1 he
    have := hr _ (find_mem hf) t ht
    simp only [List.mem_cons, List.not_mem_nil, or_false] at he
    rcases he with rfl | rfl <;> exact ⟨_, j, rfl, this⟩

theorem overLevels_free {f : Nat → Option (List (MatEntry K))} : ∀ (ls : List Nat) (E : List (MatEntry K)), (∀ l ∈ ls, ∀ E, f l = some E → FreeCols L rec m E) →
    overLevels f ls = some E → FreeCols L rec m E := by
  intro ls
  induction ls with
  | nil => intro E _ h; cases h; intro e he; simp at he
  | cons l ls ih =>
    intro E h hE
    rw [overLevels] at hE
    cases h1 : f l with
    | none => rw [h1] at hE; simp at hE
    | some a =>
      cases h2 : overLevels f ls with
      | none => rw [h1, h2] at hE; simp at hE
      | some b =>
        rw [h1, h2] at hE
        cases hE
        exact (h l List.mem_cons_self a h1).append (ih b (fun l' hl' => h l' (List.mem_cons_of_mem _ hl')) h2)

theorem FVMesh.levels_le (g : FVMesh n cells ref dom minL maxL w) : ∀ l ∈ cells.levels, l ≤ maxL := by
  intro l hl
  unfold CA.levels at hl
  rw [List.mem_range'_1] at hl
  rcases cells.level_cases with ⟨_, h1, h2⟩ | ⟨h1, _, _, h2, _, _⟩
  · omega
  · obtain ⟨p, hp⟩ := (mem_usedLevels g.leaves.wf (l := cells.maxLevel)).1 (List.mem_filter.2 ⟨by
      unfold CA.levels
      rw [List.mem_range'_1]
      omega, by rw [h2]; rfl⟩)
    have := (g.leaves.between _ _ hp).2
    omega

variable (hr : ∀ e ∈ rec, ∀ t ∈ e.2, (0 ≤ t.1 ∧ t.1 < L.nCells) ∧ rec.find t.1 = none) (hN : ∀ l q k, (l, q, k) ∈ ref.numbered n → 0 ≤ k ∧ k < L.nCells)
  (g : FVMesh n cells ref dom minL maxL w)
include hr hN g

theorem asmInterior_free {h0 : K} {d : Nat} (hd : d ≤ n) {S : List (Nat → Int)} (hS : StencilOK n w (unitDir d) S)
    {C : Nat → List MCell → List ((Fin m → K) →ₗ[K] (Fin p → K))} {E : List (MatEntry K)}
    (h : asmInterior n h0 L rec ref cells maxL (unitDir d) S C = some E) : FreeCols L rec m E := by
  unfold asmInterior at h
  cases h1 : overLevels (asmSame n h0 L rec ref cells (unitDir d) S C) cells.levels with
  | none => rw [h1] at h; simp at h
  | some a =>
    cases h2 : overLevels (asmJump n h0 L rec ref cells maxL (unitDir d) S C) (List.range' cells.minLevel (cells.maxLevel - cells.minLevel)) with
    | none => rw [h1, h2] at h; simp at h
    | some b =>
      rw [h1, h2] at h
      cases h
      refine (overLevels_free _ _ (fun l hl E hE => ?_) h1).append (overLevels_free _ _ (fun l _ E hE => ?_) h2)
      · obtain ⟨fs, j1, j2⟩ := g.sameOK (fun k => (unitDir_le d k).2) hS (g.levels_le l hl)
        unfold asmSame at hE
        rw [j1] at hE
        cases hE
        exact FreeCols.flatMap fun f hf => faceEntries_free hr hN _ _ (j2.right f hf)
      · obtain ⟨a, a1, a2⟩ := g.jumpOK (fun k => (unitDir_le d k).2) (unitDir_axis n d) (hS.pos hd) hS l
        obtain ⟨b, b1, b2⟩ := g.oppOK (fun k => (unitDir_le d k).1) (unitDir_axis_neg n d) (hS.pos hd) hS l
        unfold asmJump at hE
        rw [a1, b1] at hE
        cases hE
        exact (FreeCols.flatMap fun f hf => faceEntries_free hr hN _ _ (a2.right f hf)).append (FreeCols.flatMap fun f hf => faceEntries_free hr hN _ _ (b2.right f hf))

theorem assembleScheme_free {h0 : K} {S : Nat → List (Nat → Int)} (hS : ∀ d ≤ n, StencilOK n w (unitDir d) (S d))
    {C : Nat → Nat → List MCell → List ((Fin m → K) →ₗ[K] (Fin p → K))} {E : List (MatEntry K)}
    (h : assembleScheme n h0 L rec ref sub cells maxL false S C = some E) : FreeCols L rec m E := by
  unfold assembleScheme at h
  simp only [Bool.false_eq_true, if_false] at h
  cases h1 : overLevels (fun d => asmInterior n h0 L rec ref cells maxL (cartesianDir d) (S d) (C d)) (List.range (n + 1)) with
  | none => rw [h1] at h; simp at h
  | some a =>
    rw [h1] at h
    cases h
    refine (overLevels_free _ _ (fun d hd E hE => ?_) h1).append fun e he => by simp at he
    have hd' : d ≤ n := by have := List.mem_range.1 hd; omega
    exact asmInterior_free hr hN g hd' (hS d hd') hE

omit hr hN g in
/-- The product with a vector depends only on the columns of the entries. -/
theorem rowSum_congr {E : List (MatEntry K)} {x y : Int → K} (h : ∀ e ∈ E, x e.2.1 = y e.2.1) (r : Int) : rowSum E x r = rowSum E y r := by
  unfold rowSum
  refine congrArg List.sum (List.map_congr_left fun e he => ?_)
  rw [h e he]

end

end Samurai

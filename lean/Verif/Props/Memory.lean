/-
C121: `memory_usage` is determined by the sets of cells: the intervals and the offsets that they need.
-/
import Verif.Lemmas.Memory
import Verif.Props.LevelCellArray

namespace Samurai

/-- C121 (level). The memory of every well-formed level of any dimension is that of one interval for each run of cells along each axis and of one offset for each point seen from the axes 1, 2, ... outwards. -/
theorem C121_level (n szI szO : Nat) (L : LCA) (h : L.WF n) : LevelBytes n szI szO (L.Mem n) (L.memoryUsage n szI szO) := by
  rw [LCA.memoryUsage_eq]
  rcases h.empty_or with ⟨h0, h1⟩ | ⟨h0, h1⟩
  · obtain ⟨hc, ho⟩ := h.empty h0
    refine Or.inl ⟨h1, ?_⟩
    rw [List.map_congr_left (g := fun _ => 0) fun d hd => by
        have := List.mem_range.1 hd
        rw [hc d (by omega), List.length_nil],
      List.map_congr_left (l := List.range n) (g := fun _ => 0) fun d hd => by rw [ho d (List.mem_range.1 hd), List.length_nil]]
    simp
  · refine Or.inr ⟨h1, fun d => (L.cells d).length, fun d => totalSize (L.cells d), fun d hd => numberOf_runs h hd, fun d _ hd => numberOf_points h hd, ?_⟩
    rw [List.map_congr_left (l := List.range n) (f := fun d => (L.offsets d).length) fun d hd => h.count d (List.mem_range.1 hd) h0]

/-- C121 (array). The memory of an array is the sum of those of its levels from the coarsest one with cells to the finest one with cells, and 0 if it has no cell. -/
theorem C121_array (n szI szO : Nat) (c : CA) (h : c.WF n) : ArrayBytes n szI szO (c.Mem n) (c.memoryUsage n szI szO) := by
  unfold CA.memoryUsage
  rw [memory_foldl (fun l => (c.lca l).memoryUsage n szI szO), Nat.zero_add]
  have hno : ∀ {l p}, c.Mem n l p → (c.lca l).isEmpty = true → False := by
    intro l p hp he
    rcases (h l hp.1).empty_or with ⟨-, h1⟩ | ⟨h0, -⟩
    · exact h1 p hp.2
    · exact h0 ((isEmpty_iff (h l hp.1)).1 he)
  have hyes : ∀ {l}, l ≤ c.maxSize → (c.lca l).isEmpty = false → ∃ p, c.Mem n l p := by
    intro l hl he
    rcases (h l hl).empty_or with ⟨h0, -⟩ | ⟨-, p, hp⟩
    · rw [(isEmpty_iff (h l hl)).2 h0] at he
      simp at he
    · exact ⟨p, hl, hp⟩
  rcases c.level_cases with ⟨h1, h2, h3⟩ | ⟨h1, h2, h3, h4, h5, h6⟩
  · refine Or.inl ⟨fun l p hp => hno hp (h1 l hp.1), ?_⟩
    unfold CA.levels
    rw [h2, h3, show 0 + 1 - (c.maxSize + 1) = 0 by omega]
    rfl
  · refine Or.inr ⟨c.minLevel, c.maxLevel, hyes (by omega) h3, hyes h2 h4, fun l p hp => ⟨?_, ?_⟩, _, fun l hl hl' => ?_, rfl⟩
    · exact Nat.le_of_not_lt fun hlt => hno hp (h5 l hlt)
    · exact Nat.le_of_not_lt fun hlt => hno hp (h6 l hlt hp.1)
    · have hS : c.Mem n l = (c.lca l).Mem n := funext fun p => propext ⟨fun hp => hp.2, fun hp => ⟨by omega, hp⟩⟩
      rw [hS]
      exact C121_level n szI szO _ (h l (by omega))

/-- C121 (mesh). The memory of a mesh is the sum of those of its arrays. -/
theorem C121_mesh (n szI szO : Nat) (meshes : List CA) (h : ∀ c ∈ meshes, c.WF n) : ∃ bytes : CA → Nat,
    (∀ c ∈ meshes, ArrayBytes n szI szO (c.Mem n) (bytes c)) ∧ meshMemoryUsage n szI szO meshes = (meshes.map bytes).sum := by
  refine ⟨_, fun c hc => C121_array n szI szO c (h c hc), ?_⟩
  unfold meshMemoryUsage
  rw [memory_foldl (fun c : CA => c.memoryUsage n szI szO), Nat.zero_add]

/-- C121 (same cells). The memory does not depend on the way in which the cells were added. -/
theorem C121_same_cells (n szI szO : Nat) (a b : CA) (ha : a.WF n) (hb : b.WF n) (h : ∀ l p, a.Mem n l p ↔ b.Mem n l p) :
    a.memoryUsage n szI szO = b.memoryUsage n szI szO := by
  have := C121_array n szI szO b hb
  rw [← funext fun l => funext fun p => propext (h l p)] at this
  exact (C121_array n szI szO a ha).unique this

/-- C121 is false if it is read as a measure of the number of cells: with 24 bytes for an interval and 8 for an offset, two separate cells take more memory than the three cells of a row. -/
theorem C121_monotone_refuted : ¬ ∀ L L' : LCA, L.WF 0 → L'.WF 0 → (∀ p, L.Mem 0 p → L'.Mem 0 p) → L.memoryUsage 0 24 8 ≤ L'.memoryUsage 0 24 8 := by
  intro H
  have := H (LCA.ofList (runCellCalls 0 0 [.cell [] 0, .cell [] 2])) (LCA.ofList (runCellCalls 0 0 [.cell [] 0, .cell [] 2, .cell [] 1]))
    (C06_wellformed 0 0 _ (by simp [CellCall.idx]) (by simp [CellCall.Valid])) (C06_wellformed 0 0 _ (by simp [CellCall.idx]) (by simp [CellCall.Valid])) (fun p hp => by
      rw [C06_content 0 0 _ (by simp [CellCall.idx])] at hp ⊢
      obtain ⟨c, hc, hcp⟩ := hp
      exact ⟨c, by simp only [List.mem_cons, List.not_mem_nil, or_false] at hc ⊢; tauto, hcp⟩)
  revert this
  decide

section Examples

/-- The L-shaped level of C06 meets the hypotheses: 3 runs along the axis 0, 2 runs along the axis 1 with 3 points. -/
example : (LCA.ofList (runCellCalls 1 3 exampleHistory)).WF 1 ∧
    (LCA.ofList (runCellCalls 1 3 exampleHistory)).memoryUsage 1 24 8 = (3 + 2) * 24 + (3 + 1) * 8 + 8 := by
  refine ⟨C06_wellformed 1 3 exampleHistory (by simp [exampleHistory, CellCall.idx]) ?_, by decide⟩
  simp [exampleHistory, CellCall.Valid, Interval.mk']

/-- An array with an empty level between two others. -/
def gapMemory : CA := ⟨3, fun l => if l = 0 ∨ l = 2 then LCA.ofList (runCellCalls 0 l [.cell [] (4 * l)]) else LCA.ofList (runCellCalls 0 l [])⟩

example : gapMemory.WF 0 ∧ gapMemory.memoryUsage 0 24 8 = (24 + 8) + 8 + (24 + 8) := by
  refine ⟨fun l _ => ?_, by decide⟩
  show LCA.WF 0 (if _ then _ else _)
  split
  · exact C06_wellformed 0 l _ (by simp [CellCall.idx]) (by simp [CellCall.Valid])
  · exact C06_wellformed 0 l [] (by simp) (by simp)

/-- The two sides of `C121_same_cells` may have been built by different calls. -/
example : let a : CA := ⟨0, fun l => LCA.ofList (runCellCalls 0 l [.cell [] 0, .cell [] 1])⟩
    let b : CA := ⟨0, fun l => LCA.ofList (runCellCalls 0 l [.cell [] 1, .cell [] 0, .cell [] 1])⟩
    a.WF 0 ∧ b.WF 0 ∧ (∀ l p, a.Mem 0 l p ↔ b.Mem 0 l p) ∧ a.memoryUsage 0 24 8 = 32 := by
  refine ⟨fun l _ => C06_wellformed 0 l [.cell [] 0, .cell [] 1] (by simp [CellCall.idx]) (by simp [CellCall.Valid]),
    fun l _ => C06_wellformed 0 l [.cell [] 1, .cell [] 0, .cell [] 1] (by simp [CellCall.idx]) (by simp [CellCall.Valid]),
    fun l p => and_congr_right fun _ => ?_, by decide⟩
  rw [C06_content 0 l _ (by simp [CellCall.idx]), C06_content 0 l _ (by simp [CellCall.idx])]
  simp only [List.mem_cons, List.not_mem_nil, or_false, exists_eq_or_imp, exists_eq_left]
  tauto

end Examples

end Samurai

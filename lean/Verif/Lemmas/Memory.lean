/-
Lemmas for C121: the sizes of the vectors of a level.
-/
import Verif.Model.Memory
import Verif.Spec.Memory
import Verif.Lemmas.Statistics

namespace Samurai

theorem memory_foldl {α : Type} (f : α → Nat) : ∀ (l : List α) (a : Nat), l.foldl (fun m x => m + f x) a = a + (l.map f).sum
  | [], a => by simp
  | x :: l, a => by
    rw [List.foldl_cons, memory_foldl f l, List.map_cons, List.sum_cons, Nat.add_assoc]

theorem memory_mul {α : Type} (f : α → Nat) (k : Nat) : ∀ l : List α, (l.map fun x => f x * k).sum = (l.map f).sum * k
  | [] => by simp
  | x :: l => by rw [List.map_cons, List.sum_cons, List.map_cons, List.sum_cons, memory_mul f k l, Nat.add_mul]

theorem LCA.memoryUsage_eq (n szI szO : Nat) (L : LCA) : L.memoryUsage n szI szO =
    ((List.range (n + 1)).map fun d => (L.cells d).length).sum * szI + ((List.range n).map fun d => (L.offsets d).length).sum * szO + szO := by
  unfold LCA.memoryUsage LCA.nbIntervals
  rw [memory_foldl (fun d => (L.offsets (d - 1)).length * szO), memory_foldl (fun d => (L.cells d).length), Nat.zero_add, memory_mul (fun d => (L.offsets (d - 1)).length),
    show List.range' 1 n = (List.range n).map (1 + ·) by rw [List.range_eq_range', List.map_add_range'], List.map_map]
  congr 3
  exact congrArg List.sum (List.map_congr_left fun d _ => by simp)

theorem LCA.WF.empty_or {n : Nat} {L : LCA} (h : L.WF n) : (L.cells n = [] ∧ ∀ p, ¬ L.Mem n p) ∨ (L.cells n ≠ [] ∧ ∃ p, L.Mem n p) := by
  by_cases he : L.isEmpty = true
  · refine Or.inl ⟨(isEmpty_iff h).1 he, fun p hp => ?_⟩
    rw [mem_iff_rows h, (rows_eq_nil_iff h).2 he] at hp
    simp at hp
  · refine Or.inr ⟨fun h0 => he ((isEmpty_iff h).2 h0), ?_⟩
    obtain ⟨e, h1⟩ := List.exists_mem_of_ne_nil _ fun h0 => he ((rows_eq_nil_iff h).1 h0)
    have h2 := rows_valid h h1
    exact ⟨e.1 ++ [e.2.start], (mem_iff_rows h _).2 ⟨e, h1, e.2.start, Interval.mem_def.2 ⟨by omega, by omega⟩, rfl⟩⟩

/-- The number of intervals of an axis is the number of runs. -/
theorem numberOf_runs {n : Nat} {L : LCA} (h : L.WF n) {d : Nat} (hd : d ≤ n) : NumberOf (IsRun (Shadow d (L.Mem n))) (L.cells d).length := by
  obtain ⟨m, rfl⟩ : ∃ m, n = m + d := ⟨n - d, by omega⟩
  obtain ⟨h1, h2, h3⟩ := outer_iterate d m L h
  have hS : (LCA.outer^[d] L).Mem m = Shadow d (L.Mem (m + d)) := funext fun q => propext (h2 q)
  have hc : (LCA.outer^[d] L).cells 0 = L.cells d := by rw [h3, Nat.zero_add]
  rw [← hS, ← hc]
  exact ⟨_, runs_nodup h1, mem_runs h1, runs_length h1⟩

/-- The number of points of an axis. -/
theorem numberOf_points {n : Nat} {L : LCA} (h : L.WF n) {d : Nat} (hd : d ≤ n) : NumberOf (Shadow d (L.Mem n)) (totalSize (L.cells d)) := by
  obtain ⟨m, rfl⟩ : ∃ m, n = m + d := ⟨n - d, by omega⟩
  obtain ⟨h1, h2, h3⟩ := outer_iterate d m L h
  have hS : (LCA.outer^[d] L).Mem m = Shadow d (L.Mem (m + d)) := funext fun q => propext (h2 q)
  have hc : (LCA.outer^[d] L).cells 0 = L.cells d := by rw [h3, Nat.zero_add]
  rw [← hS, ← hc]
  refine ⟨_, numbered_nodup h1, fun p => numbered_mem h1 p, ?_⟩
  have := congrArg List.length (numbered_snd h1)
  rw [List.length_map] at this
  rw [List.length_map, this, List.length_flatMap]
  unfold totalSize
  congr 1
  apply List.map_congr_left
  intro i _
  simp [coords]

theorem LevelBytes.unique {n szI szO : Nat} {S : List Int → Prop} {a b : Nat} (ha : LevelBytes n szI szO S a) (hb : LevelBytes n szI szO S b) : a = b := by
  rcases ha with ⟨h1, rfl⟩ | ⟨⟨p, hp⟩, r, q, h1, h2, rfl⟩ <;> rcases hb with ⟨g1, rfl⟩ | ⟨⟨p', hp'⟩, r', q', g1, g2, rfl⟩
  · rfl
  · exact (h1 p' hp').elim
  · exact (g1 p hp).elim
  · have e1 : (List.range (n + 1)).map r = (List.range (n + 1)).map r' := List.map_congr_left fun d hd => by
      have := List.mem_range.1 hd
      exact (h1 d (by omega)).unique (g1 d (by omega))
    have e2 : ((List.range n).map fun d => q (d + 1) + 1) = (List.range n).map fun d => q' (d + 1) + 1 := List.map_congr_left fun d hd => by
      have := List.mem_range.1 hd
      rw [(h2 (d + 1) (by omega) (by omega)).unique (g2 (d + 1) (by omega) (by omega))]
    rw [e1, e2]

theorem ArrayBytes.unique {n szI szO : Nat} {S : Nat → List Int → Prop} {a b : Nat} (ha : ArrayBytes n szI szO S a) (hb : ArrayBytes n szI szO S b) : a = b := by
  rcases ha with ⟨h1, rfl⟩ | ⟨lo, hi, ⟨p, hp⟩, ⟨q, hq⟩, h1, v, h2, rfl⟩ <;> rcases hb with ⟨g1, rfl⟩ | ⟨lo', hi', ⟨p', hp'⟩, ⟨q', hq'⟩, g1, v', g2, rfl⟩
  · rfl
  · exact (h1 _ _ hp').elim
  · exact (g1 _ _ hp).elim
  · have := h1 _ _ hp'
    have := h1 _ _ hq'
    have := g1 _ _ hp
    have := g1 _ _ hq
    obtain rfl : lo = lo' := by omega
    obtain rfl : hi = hi' := by omega
    refine congrArg List.sum (List.map_congr_left fun l hl => ?_)
    have := List.mem_range'_1.1 hl
    exact (h2 l (by omega) (by omega)).unique (g2 l (by omega) (by omega))

end Samurai

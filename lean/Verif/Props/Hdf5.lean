/-
C80: the arrays written by `save` describe the cells of the mesh and carry the values of the field on them.
-/
import Verif.Lemmas.Hdf5
import Verif.Lemmas.UpdateIntegral
import Verif.Lemmas.Update
import Verif.Model.Box
import Mathlib.Data.Rat.Defs

namespace Samurai

variable {R : Type} [Field R] [DecidableEq R]

theorem foldl_append_map {α β : Type} (g : α → β) (l : List α) (t : List β) : l.foldl (fun s e => s ++ [g e]) t = t ++ l.map g := by
  induction l generalizing t with
  | nil => simp
  | cons e l ih => rw [List.foldl_cons, ih]; simp

/-- C80, whole mesh: in dimensions 1, 2 and 3, saving succeeds; the arrays have one entry per cell, in the same order for the connectivity and for the
field, all the cells are there, once. The row of a cell in the connectivity gives its corners, in the order of the element, the row of a cell in the data is the value of the
field for this cell; the points are not duplicated and all are used. -/
theorem C80_save (n : Nat) (hn : n + 1 ≤ 3) (origin : Nat → R) (scaling : R) (c : CA) (h : c.WF n) {α : Type} (f : Int → α) :
    ∃ cells : List (Nat × List Int × Int),
      (∀ l p, (∃ k, (l, p, k) ∈ cells) ↔ c.Mem n l p) ∧ (cells.map fun e => (e.1, e.2.1)).Nodup ∧ (∀ e ∈ cells, e ∈ c.numbered n) ∧
      (∃ coords conn, extractCA n origin scaling c = some (coords, conn) ∧ Describes (n + 1) origin scaling (cells.map fun e => (e.1, e.2.1)) coords conn) ∧
      extractDataCA n f c = some (cells.map fun e => f e.2.2) := by
  have hlen := numberedCA_length h
  refine ⟨c.numbered n, ?_, leaves_nodup h, fun e he => he, ?_, ?_⟩
  · intro l p
    constructor
    · rintro ⟨k, hk⟩
      exact CA.mem_of_numbered h hk
    · intro hm
      exact CA.exists_number h hm
  · unfold extractCA
    split
    · rename_i h0
      have hnil : c.numbered n = [] := List.length_eq_zero_iff.1 (hlen.trans h0)
      rw [hnil]
      exact ⟨[], [], rfl, rfl, by simp, by simp, by simp⟩
    · obtain ⟨hg, -, -⟩ := getElement_spec (Nat.succ_le_succ (Nat.zero_le n)) hn
      rw [hg]
      simp only []
      rw [forEachCellCA_spec h]
      simp only []
      obtain ⟨k, hk, hd⟩ := describes_of (origin := origin) (scaling := scaling) (Nat.succ_le_succ (Nat.zero_le n)) hn (cs := c.numbered n) (by
        rintro ⟨l, p, k⟩ he
        exact mem_length (CA.mem_of_numbered h he).2)
      rw [hk]
      exact ⟨_, _, rfl, hd⟩
  · unfold extractDataCA
    split
    · rename_i h0
      have hnil : c.numbered n = [] := List.length_eq_zero_iff.1 (hlen.trans h0)
      rw [hnil]
      rfl
    · rw [forEachCellCA_spec h, foldl_append_map (fun e : Nat × List Int × Int => f e.2.2)]
      rfl

/-- C80, one level (option `by_level`): the same for the cells of a level. -/
theorem C80_save_level (n : Nat) (hn : n + 1 ≤ 3) (origin : Nat → R) (scaling : R) (L : LCA) (h : L.WF n) {α : Type} (f : Int → α) :
    ∃ cells : List (List Int × Int),
      (∀ p, (∃ k, (p, k) ∈ cells) ↔ L.Mem n p) ∧ (cells.map Prod.fst).Nodup ∧ (∀ e ∈ cells, e ∈ L.numbered n) ∧
      (∃ coords conn, extractLCA n origin scaling L = some (coords, conn) ∧ Describes (n + 1) origin scaling (cells.map fun e => (L.level, e.1)) coords conn) ∧
      extractDataLCA n f L = some (cells.map fun e => f e.2) := by
  have hlen := numbered_length h
  have hne : L.nbCells ≠ 0 → L.cells n ≠ [] := by
    intro h0 h1
    apply h0
    rw [← hlen, numbered_nil h ((isEmpty_iff h).2 h1)]
    rfl
  refine ⟨L.numbered n, ?_, (numbered_sorted h).imp (fun hlt => ne_of_lt hlt), fun e he => he, ?_, ?_⟩
  · intro p
    rw [← numbered_mem h p, List.mem_map]
    constructor
    · rintro ⟨k, hk⟩
      exact ⟨_, hk, rfl⟩
    · rintro ⟨⟨q, k⟩, he, rfl⟩
      exact ⟨k, he⟩
  · unfold extractLCA
    split
    · rename_i h0
      have hnil : L.numbered n = [] := List.length_eq_zero_iff.1 (hlen.trans h0)
      rw [hnil]
      exact ⟨[], [], rfl, rfl, by simp, by simp, by simp⟩
    · rename_i h0
      obtain ⟨hg, -, -⟩ := getElement_spec (Nat.succ_le_succ (Nat.zero_le n)) hn
      rw [hg]
      simp only []
      rw [forEachCell_spec h (hne h0)]
      simp only []
      obtain ⟨k, hk, hd⟩ := describes_of (origin := origin) (scaling := scaling) (Nat.succ_le_succ (Nat.zero_le n)) hn
        (cs := (L.numbered n).map fun e => (L.level, e.1, e.2)) (by
        intro e he
        obtain ⟨⟨p, k⟩, hm, rfl⟩ := List.mem_map.1 he
        exact numbered_point h hm)
      rw [List.foldl_map] at hk hd
      rw [List.map_map] at hd
      rw [hk]
      exact ⟨_, _, rfl, hd⟩
  · unfold extractDataLCA
    split
    · rename_i h0
      have hnil : L.numbered n = [] := List.length_eq_zero_iff.1 (hlen.trans h0)
      rw [hnil]
      rfl
    · rename_i h0
      rw [forEachCell_spec h (hne h0), foldl_append_map (fun e : List Int × Int => f e.2)]
      rfl

/-- The order of the corners: all of them once, each one joined to the next one by an edge, and from the last one of a quadrilateral to its first one;
the hexahedron is made of two quadrilaterals. -/
theorem C80_element :
    (∀ x ∈ [0, 1], [x] ∈ xdmfCorners 1) ∧
    (∀ x ∈ [0, 1], ∀ y ∈ [0, 1], [x, y] ∈ xdmfCorners 2) ∧ (∀ x ∈ [0, 1], ∀ y ∈ [0, 1], ∀ z ∈ [0, 1], [x, y, z] ∈ xdmfCorners 3) ∧
    (∀ d ∈ [1, 2, 3], (xdmfCorners d).Nodup ∧ (xdmfCorners d).length = 2 ^ d) ∧
    (∀ i < 4, ∃ a b, (xdmfCorners 2)[i]? = some a ∧ (xdmfCorners 2)[(i + 1) % 4]? = some b ∧ (List.zipWith (fun x y => decide (x ≠ y)) a b).count true = 1 ∧
      (xdmfCorners 3)[i]? = some (a ++ [0]) ∧ (xdmfCorners 3)[i + 4]? = some (a ++ [1])) := by
  refine ⟨by decide, by decide, by decide, by decide, ?_⟩
  intro i hi
  interval_cases i <;> exact ⟨_, _, rfl, rfl, by decide, by decide, by decide⟩

/-- A mesh with two coarse cells and the four children of another one. -/
def savedArray : CA :=
  { maxSize := 2, lca := fun l => if l = 0 then LCA.ofBox 1 0 ⟨fun _ => 0, fun d => if d = 0 then 2 else 1⟩
      else if l = 1 then LCA.ofBox 1 1 ⟨fun d => if d = 0 then 4 else 0, fun d => if d = 0 then 6 else 2⟩ else { level := l } }

example : savedArray.WF 1 := by
  intro l _
  have : savedArray.lca l = (if l = 0 then LCA.ofBox 1 0 ⟨fun _ => 0, fun d => if d = 0 then 2 else 1⟩
      else if l = 1 then LCA.ofBox 1 1 ⟨fun d => if d = 0 then 4 else 0, fun d => if d = 0 then 6 else 2⟩ else { level := l }) := rfl
  rw [this]
  split
  · exact ofBox_wf 0 (by intro d _; by_cases h : d = 0 <;> simp [h])
  · split
    · exact ofBox_wf 1 (by intro d _; by_cases h : d = 0 <;> simp [h])
    · exact emptyLCA_wf 1 l

/-- The corner shared by the coarse cell and the fine ones has one number. -/
example : (extractCA 1 (fun _ => (0 : Rat)) 1 savedArray).map (fun r => (r.1.length, r.2)) =
    some (13, [[0, 1, 2, 3], [1, 4, 5, 2], [4, 6, 7, 8], [6, 9, 10, 7], [8, 7, 11, 5], [7, 10, 12, 11]]) := by
  decide +kernel

end Samurai

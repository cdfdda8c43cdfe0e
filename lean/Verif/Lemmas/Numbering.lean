import Verif.Lemmas.ForEach
import Verif.Model.CellArray

namespace Samurai

/-- The callback of `update_index`. -/
def indexer : Nat → List Int → Interval → Nat × Interval :=
  fun acc _ i => (acc + i.size, { i with index := (acc : Int) - i.start })

theorem visit_indexer (l : List (List Int × Interval)) (acc : Nat) :
    IndexFrom acc (visit indexer l acc).1 ∧ bounds (visit indexer l acc).1 = bounds (l.map Prod.snd) ∧
    (visit indexer l acc).2 = acc + totalSize (l.map Prod.snd) := by
  induction l generalizing acc with
  | nil => exact ⟨trivial, rfl, rfl⟩
  | cons e l ih =>
    obtain ⟨h1, h2, h3⟩ := ih (acc + e.2.size)
    refine ⟨⟨by simp [indexer], ?_⟩, ?_, ?_⟩
    · have : (indexer acc e.1 e.2).2.size = e.2.size := rfl
      rw [this]
      exact_mod_cast h1
    · simp only [bounds, List.map_cons, visit] at h2 ⊢
      rw [← h2]; rfl
    · simp only [visit, List.map_cons, totalSize_cons]
      have : (indexer acc e.1 e.2).1 = acc + e.2.size := rfl
      rw [this, h3]; omega

theorem totalSize_bounds {l m : List Interval} (h : bounds l = bounds m) : totalSize l = totalSize m := by
  induction l generalizing m with
  | nil => cases m with
    | nil => rfl
    | cons => simp [bounds] at h
  | cons i l ih => cases m with
    | nil => simp [bounds] at h
    | cons j m =>
      simp only [bounds, List.map_cons, List.cons.injEq, Prod.mk.injEq] at h
      rw [totalSize_cons, totalSize_cons, ih h.2]
      unfold Interval.size
      rw [h.1.1, h.1.2]

theorem canonical_bounds {l m : List Interval} (h : bounds l = bounds m) (hc : Canonical l) : Canonical m := by
  rw [canonical_iff] at hc ⊢
  obtain ⟨b, hb⟩ := hc
  refine ⟨b, ?_⟩
  induction l generalizing m b with
  | nil => cases m with
    | nil => trivial
    | cons => simp [bounds] at h
  | cons i l ih => cases m with
    | nil => simp [bounds] at h
    | cons j m =>
      simp only [bounds, List.map_cons, List.cons.injEq, Prod.mk.injEq] at h
      have := ih h.2 _ hb.2.2
      refine ⟨?_, ?_, ?_⟩
      · rw [← h.1.1]; exact hb.1
      · rw [← h.1.1, ← h.1.2]; exact hb.2.1
      · rw [← h.1.2]; exact this

theorem memList_bounds {l m : List Interval} (h : bounds l = bounds m) (x : Int) : MemList x l ↔ MemList x m := by
  have key : ∀ l, MemList x l ↔ ∃ e ∈ bounds l, e.1 ≤ x ∧ x < e.2 := by
    intro l
    unfold MemList bounds
    simp [Interval.mem_def]
  rw [key, key, h]

theorem slice_map {α β : Type} (f : α → β) (l : List α) (lo hi : Nat) :
    (slice l lo hi).map f = slice (l.map f) lo hi := by
  unfold slice
  rw [List.map_drop, List.map_take]

theorem bounds_slice {l m : List Interval} (h : bounds l = bounds m) (lo hi : Nat) :
    bounds (slice l lo hi) = bounds (slice m lo hi) := by
  unfold bounds at *
  rw [slice_map, slice_map, h]

/-- Changing the numbers of the x-intervals keeps the array well formed with the same cells. -/
theorem reindex {n : Nat} {L L' : LCA} (h : L.WF n) (ho : L'.offsets = L.offsets)
    (hc : ∀ d, L'.cells (d + 1) = L.cells (d + 1)) (hb : bounds (L'.cells 0) = bounds (L.cells 0)) :
    L'.WF n ∧ ∀ p, L'.Mem n p ↔ L.Mem n p := by
  have hlen : (L'.cells 0).length = (L.cells 0).length := by
    have := congrArg List.length hb
    simpa [bounds] using this
  have hnil : ∀ d, L'.cells d = [] ↔ L.cells d = [] := by
    intro d
    cases d with
    | zero => rw [← List.length_eq_zero_iff, hlen, List.length_eq_zero_iff]
    | succ d => rw [hc]
  have hlend : ∀ d, (L'.cells d).length = (L.cells d).length := by
    intro d; cases d with
    | zero => exact hlen
    | succ d => rw [hc]
  refine ⟨⟨?_, ?_, ?_, ?_, ?_, ?_⟩, ?_⟩
  · cases n with
    | zero => exact canonical_bounds hb.symm h.top
    | succ n => rw [hc]; exact h.top
  · intro he
    have := h.empty ((hnil n).1 he)
    exact ⟨fun d hd => (hnil d).2 (this.1 d hd), fun d hd => by rw [ho]; exact this.2 d hd⟩
  · intro d hd; rw [hc]; exact h.index d hd
  · intro d hd hne; rw [hc, ho]; exact h.count d hd (fun he => hne ((hnil n).2 he))
  · intro d hd hne; rw [ho, hlend]; exact h.last d hd (fun he => hne ((hnil n).2 he))
  · intro d hd hne
    have := h.seg d hd (fun he => hne ((hnil n).2 he))
    rw [ho]
    cases d with
    | zero =>
      refine ⟨this.1, fun j a b ha hb' => ?_⟩
      obtain ⟨h1, h2, h3⟩ := this.2 j a b ha hb'
      exact ⟨h1, by omega, canonical_bounds (bounds_slice hb.symm a b) h3⟩
    | succ d => rw [hc]; exact this
  · have key : ∀ d lo hi p, MemRow L' d lo hi p ↔ MemRow L d lo hi p := by
      intro d
      induction d with
      | zero =>
        intro lo hi p
        match p with
        | [] => simp [MemRow]
        | [x] => exact memList_bounds (bounds_slice hb lo hi) x
        | _ :: _ :: _ => simp [MemRow]
      | succ d ih =>
        intro lo hi p
        match p with
        | [] => simp [MemRow]
        | c :: p => simp only [MemRow, hc, ho, ih]
    intro p
    unfold LCA.Mem
    rw [hlend, key]

theorem indexFrom_numbers {l : List Interval} {a : Int} (h : IndexFrom a l) :
    (l.flatMap fun i => (coords i).map fun x => i.index + x) =
      (List.range (totalSize l)).map fun (k : Nat) => a + (k : Int) := by
  induction l generalizing a with
  | nil => rfl
  | cons i l ih =>
    rw [List.flatMap_cons, ih h.2, totalSize_cons, List.range_add, List.map_append]
    congr 1
    · unfold coords
      rw [List.map_map]
      apply List.map_congr_left
      intro k _
      have := h.1
      simp only [Function.comp]
      omega
    · rw [List.map_map]
      apply List.map_congr_left
      intro k _
      simp only [Function.comp]
      push_cast
      ring

theorem nbCells_eq (L : LCA) : L.nbCells = totalSize (L.cells 0) := by
  unfold LCA.nbCells totalSize
  rw [← List.foldl_map (f := Interval.size) (g := fun acc s => acc + s), List.sum_eq_foldl]

theorem numbered_snd {n : Nat} {L : LCA} (h : L.WF n) :
    (L.numbered n).map Prod.snd = (L.cells 0).flatMap fun i => (coords i).map fun x => i.index + x := by
  unfold LCA.numbered
  rw [List.map_flatMap, ← rows_map_snd h, List.flatMap_map]
  congr 1
  funext e
  rw [List.map_map]
  rfl

theorem numbered_sorted {n : Nat} {L : LCA} (h : L.WF n) : ((L.numbered n).map Prod.fst).Pairwise (· < ·) := by
  unfold LCA.numbered
  rw [List.map_flatMap, List.pairwise_flatMap]
  constructor
  · intro e _
    rw [List.map_map, List.pairwise_map]
    refine (coords_sorted e.2).imp ?_
    intro x y hxy
    simp only [Function.comp]
    clear h
    induction e.1 with
    | nil => exact List.Lex.rel hxy
    | cons c q ih => exact List.Lex.cons ih
  · refine (rows_sorted h).imp ?_
    intro e e' hee x hx y hy
    simp only [List.map_map, List.mem_map, Function.comp] at hx hy
    obtain ⟨x, hx, rfl⟩ := hx
    obtain ⟨y, hy, rfl⟩ := hy
    exact hee x (coords_mem.1 hx) y (coords_mem.1 hy)

theorem numbered_mem {n : Nat} {L : LCA} (h : L.WF n) (p : List Int) :
    p ∈ (L.numbered n).map Prod.fst ↔ L.Mem n p := by
  rw [mem_iff_rows h]
  unfold LCA.numbered
  simp only [List.mem_map, List.mem_flatMap]
  constructor
  · rintro ⟨_, ⟨e, he, x, hx, rfl⟩, rfl⟩
    exact ⟨e, he, x, coords_mem.1 hx, rfl⟩
  · rintro ⟨e, he, x, hx, rfl⟩
    exact ⟨_, ⟨e, he, x, coords_mem.2 hx, rfl⟩, rfl⟩

theorem updateIndex_spec {n : Nat} {L : LCA} (h : L.WF n) :
    ∃ L', updateIndex n L = some L' ∧ L'.WF n ∧ L'.level = L.level ∧ (∀ p, L'.Mem n p ↔ L.Mem n p) ∧
      L'.nbCells = L.nbCells ∧ IndexFrom 0 (L'.cells 0) := by
  obtain ⟨L', h1, h2, h3, h4, h5⟩ := forEachInterval_spec h indexer 0
  obtain ⟨v1, v2, v3⟩ := visit_indexer (L.rows n) 0
  rw [rows_map_snd h, ← h5] at v2
  obtain ⟨w1, w2⟩ := reindex h h3 h4 v2
  refine ⟨L', ?_, w1, h2, w2, ?_, ?_⟩
  · unfold updateIndex
    change Option.map Prod.fst (forEachInterval n indexer L 0) = _
    rw [h1]; rfl
  · rw [nbCells_eq, nbCells_eq, totalSize_bounds v2]
  · rw [h5]; exact_mod_cast v1

end Samurai

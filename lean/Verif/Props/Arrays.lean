/-
Properties of level cell arrays and cell arrays: numbering (C08), lookup (C09), traversal (C10),
iterators (C11), boxes (C12), iteration over the levels (C13).
-/
import Verif.Lemmas.Box
import Verif.Lemmas.CellArray
import Verif.Props.LevelCellArray

namespace Samurai

/-- The 2D array of three rows used in the examples below (see `exampleHistory`). -/
def exampleArray : LCA := LCA.ofList (runCellCalls 1 3 exampleHistory)

theorem exampleArray_wf : exampleArray.WF 1 :=
  C06_wellformed 1 3 exampleHistory (by simp [exampleHistory, CellCall.idx])
    (by simp [exampleHistory, CellCall.Valid, Interval.mk'])

/-! ### C08 -/

/-- C08: after `update_index`, the cells enumerated in lexicographic order are numbered
`0, 1, ..., nb_cells - 1`; the set of cells is unchanged. `LCA.numbered` lists the cells in
nested-loop order with `interval.index + x`. -/
theorem C08_level (n : Nat) (L : LCA) (h : L.WF n) :
    ∃ L', updateIndex n L = some L' ∧
      (∀ p, p ∈ (L'.numbered n).map Prod.fst ↔ L.Mem n p) ∧
      ((L'.numbered n).map Prod.fst).Pairwise (· < ·) ∧
      (L'.numbered n).map Prod.snd = (List.range L.nbCells).map (fun (k : Nat) => (k : Int)) ∧
      L'.nbCells = L.nbCells := by
  obtain ⟨L', h1, h2, _, h4, h5, h6⟩ := updateIndex_spec h
  refine ⟨L', h1, fun p => (numbered_mem h2 p).trans (h4 p), numbered_sorted h2, ?_, h5⟩
  rw [numbered_snd h2, indexFrom_numbers h6, ← nbCells_eq, h5]
  simp

/-- C08 for a cell array: the numbers run through `0 .. nb_cells - 1` level after level. -/
theorem C08_levels (n : Nat) (c : CA) (h : c.WF n) :
    ∃ c', updateIndexCA n c = some c' ∧ c'.maxSize = c.maxSize ∧ c'.WF n ∧
      (∀ l p, c'.Mem n l p ↔ c.Mem n l p) ∧ c'.nbCells = c.nbCells ∧
      ((c'.numbered n).map fun e => e.2.2) = (List.range c.nbCells).map (fun (k : Nat) => (k : Int)) := by
  obtain ⟨c', s', h1, h2, h3, h4, h5⟩ := forEachLevels_spec (n := n) c.levels c.levels_nodup c 0
    (fun l hl => h l (CA.levels_le hl))
  have hmem : ∀ l p, c'.Mem n l p ↔ c.Mem n l p := by
    intro l p
    unfold CA.Mem
    rw [h2]
    by_cases hl : l ∈ c.levels
    · rw [(h4 l hl).2.2.1]
    · rw [h3 l hl]
  have hwf : c'.WF n := by
    intro l hl
    rw [h2] at hl
    by_cases hl' : l ∈ c.levels
    · exact (h4 l hl').1
    · rw [h3 l hl']; exact h l hl
  have hempty : ∀ l ≤ c.maxSize, (c'.lca l).isEmpty = (c.lca l).isEmpty := by
    intro l _
    by_cases hl' : l ∈ c.levels
    · exact (h4 l hl').2.2.2.2
    · rw [h3 l hl']
  have hnb : ∀ l, (c'.lca l).nbCells = (c.lca l).nbCells := by
    intro l
    by_cases hl' : l ∈ c.levels
    · exact (h4 l hl').2.2.2.1
    · rw [h3 l hl']
  refine ⟨c', ?_, h2, hwf, hmem, ?_, ?_⟩
  · unfold updateIndexCA forEachIntervalCA
    change Option.map Prod.fst (c.levels.foldlM (forEachStep n fun acc _ => indexer acc) (c, 0)) = _
    rw [h1]; rfl
  · unfold CA.nbCells
    rw [h2]
    simp only [hnb]
  · have e1 : ((c'.numbered n).map fun e => e.2.2) =
        (List.range (c.maxSize + 1)).flatMap fun l => ((c'.lca l).numbered n).map Prod.snd := by
      unfold CA.numbered
      rw [List.map_flatMap, h2]
      congr 1
      funext l
      rw [List.map_map]
      rfl
    rw [e1, flatMap_levels c, h5, CA.nbCells_levels]
    · simp
    · intro l hl he
      rw [← hempty l hl] at he
      unfold LCA.numbered
      rw [(rows_eq_nil_iff (hwf l (by rw [h2]; exact hl))).2 he]
      rfl

/-- The example array has rows of several intervals; its numbers before are not a numbering. -/
example : exampleArray.WF 1 ∧ exampleArray.nbCells = 8 ∧
    (exampleArray.numbered 1).map Prod.snd ≠ [0, 1, 2, 3, 4, 5, 6, 7] :=
  ⟨exampleArray_wf, by decide, by decide⟩

/-! ### C09 -/

/-- C09: `find` gives the position of the x-interval holding the point: the row list at that position
is the row of the point, and its interval contains the x coordinate. -/
theorem C09_find_present (n : Nat) (L : LCA) (h : L.WF n) (yz : List Int) (x : Int)
    (hm : L.Mem n (yz ++ [x])) :
    ∃ (k : Nat) (i : Interval), find L n (yz ++ [x]) = some (k : Int) ∧ (L.rows n)[k]? = some (yz, i) ∧ x ∈ i := by
  have hne : L.cells n ≠ [] := by
    intro h0
    obtain ⟨e, he, _⟩ := (mem_iff_rows h _).1 hm
    rw [rows_empty h0] at he
    simp at he
  have hlen : (yz ++ [x]).length = n + 1 := by
    obtain ⟨e, he, x', hx', heq⟩ := (mem_iff_rows h _).1 hm
    obtain ⟨k, hk⟩ := List.mem_iff_getElem?.1 he
    have hc := ((rows_good h hne).2 k e hk).2
    have hcl : ∀ m d k p, Chain L m d k p → p.length = m := by
      intro m
      induction m with
      | zero => intro d k p hp; rw [hp.1]; rfl
      | succ m ih =>
        rintro d k p ⟨k', i, c, p', a, b, rfl, hp, _⟩
        simp [ih _ _ _ hp]
    have := hcl _ _ _ _ hc
    rw [heq]
    simpa using this
  rcases findImpl_spec (n := n) (LCA.WF.rowOK h hne) (m := 0) (q := []) (fun k _ hk => ⟨rfl, hk⟩) hlen (by omega) with
    ⟨k, i, r, y, e1, e2, e3, e4, e5, _⟩ | ⟨_, e2⟩
  · obtain ⟨rfl, hxy⟩ := List.append_inj' e3 rfl
    simp only [List.cons.injEq, and_true] at hxy
    subst hxy
    exact ⟨k, i, e1, rows_getElem? h hne e2 (by simpa using e5), e4⟩
  · exact absurd hm e2

/-- C09: `find` gives -1 for a point that is not in the array, without reading out of bounds. -/
theorem C09_find_absent (n : Nat) (L : LCA) (h : L.WF n) (p : List Int) (hp : p.length = n + 1)
    (hm : ¬ L.Mem n p) : find L n p = some (-1) := by
  by_cases hne : L.cells n = []
  · unfold find
    rw [hne]
    have hs : ∀ v, myBinarySearch [] 0 0 v = some (-1) := by
      intro v; unfold myBinarySearch lowerBound lowerBoundLoop; simp
    cases n with
    | zero =>
      obtain ⟨x, rfl⟩ := List.length_eq_one_iff.1 hp
      simp [findImpl, hne, hs]
    | succ n =>
      match p, hp with
      | c :: p, _ => simp [findImpl, hne, hs]
  · rcases findImpl_spec (n := n) (LCA.WF.rowOK h hne) (m := 0) (q := []) (fun k _ hk => ⟨rfl, hk⟩) hp (by omega) with
      ⟨_, _, _, _, _, _, _, _, _, e6⟩ | ⟨e1, _⟩
    · exact absurd e6 hm
    · exact e1

/-- C09: `get_index` of a present cell is the number of this cell in the enumeration of the cells. -/
theorem C09_get_index (n : Nat) (L : LCA) (h : L.WF n) (yz : List Int) (x : Int) (hm : L.Mem n (yz ++ [x])) :
    ∃ v, getIndex L n yz x = some v ∧ (yz ++ [x], v) ∈ L.numbered n := by
  obtain ⟨k, i, h1, h2, h3⟩ := C09_find_present n L h yz x hm
  have hx : (L.cells 0)[k]? = some i := by
    rw [← rows_map_snd h, List.getElem?_map, h2]; rfl
  refine ⟨i.index + x, ?_, ?_⟩
  · unfold getIndex getInterval
    rw [h1]
    simp only []
    rw [if_neg (by omega)]
    simp [hx]
  · unfold LCA.numbered
    rw [List.mem_flatMap]
    exact ⟨(yz, i), List.mem_of_getElem? h2, List.mem_map.2 ⟨x, coords_mem.2 h3, rfl⟩⟩

/-- C09: `get_interval`/`get_index` of an absent cell read out of bounds (no check in the code). -/
theorem C09_get_index_absent (n : Nat) (L : LCA) (h : L.WF n) (yz : List Int) (x : Int)
    (hl : yz.length = n) (hm : ¬ L.Mem n (yz ++ [x])) : getIndex L n yz x = none := by
  have := C09_find_absent n L h (yz ++ [x]) (by simp [hl]) hm
  unfold getIndex getInterval
  rw [this]
  rfl

/-- C09: the search needs the gap between intervals: on two touching intervals the first coordinate
of the second one is not found. Arrays built from lists never have touching intervals (C06). -/
theorem C09_touching_refuted : MemList 3 [Interval.mk' 0 3, Interval.mk' 3 5] ∧
    myBinarySearch [Interval.mk' 0 3, Interval.mk' 3 5] 0 2 3 = some (-1) := by
  refine ⟨⟨Interval.mk' 3 5, by simp, by decide⟩, ?_⟩
  decide

example : exampleArray.Mem 1 ([0] ++ [5]) ∧ ¬ exampleArray.Mem 1 [2, 6] := by
  have h := exampleArray_wf
  rw [← numbered_mem h, ← numbered_mem h]
  decide

/-! ### C10 -/

/-- C10: `for_each_interval` calls the functor once on each x-interval with the coordinates of its row,
in the order of the list of rows, and leaves the array unchanged if the functor does. -/
theorem C10_for_each_interval (n : Nat) (L : LCA) (h : L.WF n) :
    (∃ L', forEachInterval n (fun (trace : List (List Int × Interval)) yz i => (trace ++ [(yz, i)], i)) L [] =
      some (L', L.rows n) ∧ L'.cells = L.cells ∧ L'.offsets = L.offsets) ∧
    (L.rows n).map Prod.snd = L.cells 0 ∧
    (L.rows n).Pairwise (fun e e' => ∀ x ∈ e.2, ∀ y ∈ e'.2, e.1 ++ [x] < e'.1 ++ [y]) ∧
    (∀ p, L.Mem n p ↔ ∃ e ∈ L.rows n, ∃ x ∈ e.2, p = e.1 ++ [x]) := by
  refine ⟨?_, rows_map_snd h, rows_sorted h, mem_iff_rows h⟩
  obtain ⟨L', h1, h2, h3, h4, h5⟩ := forEachInterval_spec h
    (fun (trace : List (List Int × Interval)) yz i => (trace ++ [(yz, i)], i)) []
  have key : ∀ (l : List (List Int × Interval)) t,
      visit (fun (trace : List (List Int × Interval)) yz i => (trace ++ [(yz, i)], i)) l t
        = (l.map Prod.snd, t ++ l) := by
    intro l
    induction l with
    | nil => intro t; simp [visit]
    | cons e l ih => intro t; simp [visit, ih]
  rw [key] at h1 h5
  refine ⟨L', by rw [h1]; rfl, ?_, h3⟩
  funext d
  cases d with
  | zero => rw [h5]; exact rows_map_snd h
  | succ d => exact h4 d

/-- C10: `for_each_cell` on a non-empty array visits the cells in strictly increasing lexicographic
order (hence each of them once), all of them, with their numbers. -/
theorem C10_for_each_cell (n : Nat) (L : LCA) (h : L.WF n) (hne : L.isEmpty = false) :
    forEachCell n (fun (trace : List (List Int × Int)) p k => trace ++ [(p, k)]) L [] = some (L.numbered n) ∧
    ((L.numbered n).map Prod.fst).Pairwise (· < ·) ∧
    (∀ p, p ∈ (L.numbered n).map Prod.fst ↔ L.Mem n p) ∧
    (∀ p k, (p, k) ∈ L.numbered n → ∃ e ∈ L.rows n, ∃ x ∈ e.2, p = e.1 ++ [x] ∧ k = e.2.index + x) := by
  have hne' : L.cells n ≠ [] := fun h0 => by
    rw [(isEmpty_iff h).2 h0] at hne; simp at hne
  refine ⟨?_, numbered_sorted h, numbered_mem h, ?_⟩
  · rw [forEachCell_spec h hne']
    congr 1
    have key : ∀ (l : List (List Int × Int)) t, l.foldl (fun s e => s ++ [(e.1, e.2)]) t = t ++ l := by
      intro l
      induction l with
      | nil => intro t; simp
      | cons e l ih => intro t; rw [List.foldl_cons, ih]; simp
    simpa using key (L.numbered n) []
  · intro p k hpk
    unfold LCA.numbered at hpk
    rw [List.mem_flatMap] at hpk
    obtain ⟨e, he, hx⟩ := hpk
    obtain ⟨x, hx, heq⟩ := List.mem_map.1 hx
    simp only [Prod.mk.injEq] at heq
    exact ⟨e, he, x, coords_mem.1 hx, heq.1.symm, heq.2.symm⟩

/-- C10: `for_each_cell` is not guarded: on an empty array in dimension 2 and more it is undefined. -/
theorem C10_for_each_cell_empty_refuted (n : Nat) (L : LCA) (h : L.WF (n + 1)) (he : L.isEmpty = true) :
    forEachCell (n + 1) (fun (s : Unit) _ _ => s) L () = none := by
  have h0 := (isEmpty_iff h).1 he
  have : iterBegin L (n + 1) = none := by
    unfold iterBegin
    rw [if_neg]
    intro hall
    rw [List.all_eq_true] at hall
    have := hall n (by simp)
    rw [h0] at this
    simp at this
  unfold forEachCell
  rw [this]

example : exampleArray.rows 1 =
    [([-1], .mk' (-2) 0), ([0], .mk' 1 6), ([2], .mk' 7 8)] ∧ exampleArray.isEmpty = false := by decide

/-! ### C11 -/

/-- C11: incrementing `begin()` `k` times shows the row number `k`; after `nb` increments the iterator
equals `end()`, and it stays there. -/
theorem C11_increment (n : Nat) (L : LCA) (h : L.WF n) (hne : L.isEmpty = false) :
    ∃ it, iterBegin L n = some it ∧
      (∀ k, k < (L.rows n).length → ∃ it', iterAdd L n k it = some it' ∧ iterDeref L n it' = (L.rows n)[k]?) ∧
      (∀ k, (L.rows n).length ≤ k → ∃ it' e, iterAdd L n k it = some it' ∧ iterEnd L n = some e ∧
        iterEqual it' e = true) := by
  have hne' : L.cells n ≠ [] := fun h0 => by
    rw [(isEmpty_iff h).2 h0] at hne; simp at hne
  obtain ⟨it, hb, hit⟩ := iterBegin_spec h hne'
  obtain ⟨e, he, hec⟩ := iterEnd_spec h hne'
  have hsnoc : ∀ k it, iterAdd L n (k + 1) it = (iterAdd L n k it).bind fun it' => iterNext L n it' := by
    intro k
    induction k with
    | zero =>
      intro it
      simp only [iterAdd, Option.bind_some]
      cases iterNext L n it <;> rfl
    | succ k ih =>
      intro it
      rw [iterAdd]
      cases hx : iterNext L n it with
      | none => simp [iterAdd, hx]
      | some it' =>
        simp only []
        rw [ih, iterAdd, hx]
  have hstep : ∀ k, k < (L.cells 0).length → ∃ it', iterAdd L n k it = some it' ∧ IterAt L n k it' := by
    intro k
    induction k with
    | zero => intro _; exact ⟨it, rfl, hit⟩
    | succ k ih =>
      intro hk
      obtain ⟨it', h1, h2⟩ := ih (by omega)
      obtain ⟨it'', h3, h4⟩ := iterNext_spec h hne' h2 hk
      exact ⟨it'', by rw [hsnoc, h1]; exact h3, h4⟩
  rw [rows_length h]
  refine ⟨it, hb, fun k hk => ?_, fun k hk => ?_⟩
  · obtain ⟨it', h1, h2⟩ := hstep k hk
    exact ⟨it', h1, (iterDeref_spec h hne' h2).1⟩
  · have hend : ∀ j, ∃ it', iterAdd L n ((L.cells 0).length + j) it = some it' ∧ it'.cur 0 = (L.cells 0).length := by
      intro j
      induction j with
      | zero =>
        have hpos := hit.2.1
        obtain ⟨it', h1, h2⟩ := hstep ((L.cells 0).length - 1) (by omega)
        obtain ⟨it'', h3, h4⟩ := iterNext_last h hne' h2 (by omega)
        refine ⟨it'', ?_, h4⟩
        rw [show (L.cells 0).length + 0 = ((L.cells 0).length - 1) + 1 by omega, hsnoc, h1]
        exact h3
      | succ j ih =>
        obtain ⟨it', h1, h2⟩ := ih
        refine ⟨it', ?_, h2⟩
        rw [← Nat.add_assoc, hsnoc, h1]
        simp only [Option.bind_some]
        unfold iterNext
        rw [if_pos h2]
    obtain ⟨it', h1, h2⟩ := hend (k - (L.cells 0).length)
    rw [show (L.cells 0).length + (k - (L.cells 0).length) = k by omega] at h1
    refine ⟨it', e, h1, he, ?_⟩
    unfold iterEqual
    rw [h2, hec.1]
    simp

/-- C11: decrementing `end()` `k + 1` times shows the row number `nb - 1 - k`. -/
theorem C11_decrement (n : Nat) (L : LCA) (h : L.WF n) (hne : L.isEmpty = false) :
    ∃ e, iterEnd L n = some e ∧
      ∀ k, k < (L.rows n).length → ∃ it', iterSub L n (k + 1) e = some it' ∧
        iterDeref L n it' = (L.rows n)[(L.rows n).length - 1 - k]? := by
  have hne' : L.cells n ≠ [] := fun h0 => by
    rw [(isEmpty_iff h).2 h0] at hne; simp at hne
  obtain ⟨e, he, hec⟩ := iterEnd_spec h hne'
  have hsnoc : ∀ k it, iterSub L n (k + 1) it = (iterSub L n k it).bind fun it' => iterPrev L n it' := by
    intro k
    induction k with
    | zero =>
      intro it
      simp only [iterSub, Option.bind_some]
      cases iterPrev L n it <;> rfl
    | succ k ih =>
      intro it
      rw [iterSub]
      cases hx : iterPrev L n it with
      | none => simp [iterSub, hx]
      | some it' =>
        simp only []
        rw [ih, iterSub, hx]
  have hpos : 0 < (L.cells 0).length := List.length_pos_iff.2 (h.cells_ne_nil hne' (by omega))
  have hstep : ∀ k, k < (L.cells 0).length → ∃ it', iterSub L n (k + 1) e = some it' ∧
      IterAt L n ((L.cells 0).length - 1 - k) it' := by
    intro k
    induction k with
    | zero =>
      intro hk
      obtain ⟨it', h1, h2⟩ := iterPrev_spec h hne' (k := (L.cells 0).length - 1)
        (by rw [show (L.cells 0).length - 1 + 1 = (L.cells 0).length by omega]; exact hec)
      refine ⟨it', ?_, by simpa using h2⟩
      simp [iterSub, h1]
    | succ k ih =>
      intro hk
      obtain ⟨it', h1, h2⟩ := ih (by omega)
      obtain ⟨it'', h3, h4⟩ := iterPrev_spec h hne' (k := (L.cells 0).length - 1 - (k + 1))
        (by rw [show (L.cells 0).length - 1 - (k + 1) + 1 = (L.cells 0).length - 1 - k by omega]; exact h2.can)
      exact ⟨it'', by rw [hsnoc, h1]; exact h3, h4⟩
  refine ⟨e, he, ?_⟩
  rw [rows_length h]
  intro k hk
  obtain ⟨it', h1, h2⟩ := hstep k hk
  exact ⟨it', h1, (iterDeref_spec h hne' h2).1⟩

/-- C11: `++` then `--` comes back to the same interval and coordinates, as long as the increment does
not reach the end. -/
theorem C11_roundtrip_partial (n : Nat) (L : LCA) (h : L.WF n) (k : Nat) (hk : k + 1 < (L.rows n).length) :
    ∃ it it1 it2 it3, iterBegin L n = some it ∧ iterAdd L n k it = some it1 ∧ iterNext L n it1 = some it2 ∧
      iterPrev L n it2 = some it3 ∧ iterDeref L n it3 = iterDeref L n it1 ∧
      iterDeref L n it1 = (L.rows n)[k]? := by
  have hne' : L.cells n ≠ [] := fun h0 => by rw [rows_empty h0] at hk; simp at hk
  rw [rows_length h] at hk
  obtain ⟨it, hb, hit⟩ := iterBegin_spec h hne'
  have hstep : ∀ k it j, IterAt L n j it → j + k < (L.cells 0).length →
      ∃ it', iterAdd L n k it = some it' ∧ IterAt L n (j + k) it' := by
    intro k
    induction k with
    | zero => intro it j hit _; exact ⟨it, rfl, hit⟩
    | succ k ih =>
      intro it j hit hk
      obtain ⟨it', h1, h2⟩ := iterNext_spec h hne' hit (by omega)
      obtain ⟨it'', h3, h4⟩ := ih it' (j + 1) h2 (by omega)
      refine ⟨it'', by simp only [iterAdd, h1, h3], ?_⟩
      rw [show j + (k + 1) = j + 1 + k by omega]; exact h4
  obtain ⟨it1, a1, a2⟩ := hstep k it 0 hit (by omega)
  rw [Nat.zero_add] at a2
  obtain ⟨it2, b1, b2⟩ := iterNext_spec h hne' a2 hk
  obtain ⟨it3, c1, c2⟩ := iterPrev_spec h hne' b2.can
  exact ⟨it, it1, it2, it3, hb, a1, b1, c1,
    (iterDeref_spec h hne' c2).1.trans (iterDeref_spec h hne' a2).1.symm, (iterDeref_spec h hne' a2).1⟩

/-- C11: but `--` after having reached the end with `++` is undefined in dimension 2, although the
iterator compares equal to `end()`, from which `--` is defined. -/
theorem C11_roundtrip_end_refuted :
    exampleArray.WF 1 ∧
    ∃ it it1 e, iterBegin exampleArray 1 = some it ∧ iterAdd exampleArray 1 3 it = some it1 ∧
      iterEnd exampleArray 1 = some e ∧ iterEqual it1 e = true ∧
      (iterPrev exampleArray 1 e).isSome = true ∧ iterPrev exampleArray 1 it1 = none :=
  ⟨exampleArray_wf, _, _, _, rfl, rfl, rfl, rfl, rfl, rfl⟩

/-! ### C12 -/

/-- C12: an array built from a valid box contains exactly the integer points of the box, is well formed,
and its cells are numbered `0 .. nb_cells - 1` with `nb_cells` the product of the side lengths. -/
theorem C12_box (n level : Nat) (b : Box) (hv : b.isValid n = true) :
    (∀ p, (LCA.ofBox n level b).Mem n p ↔ InBox b n p) ∧
    (LCA.ofBox n level b).WF n ∧
    (LCA.ofBox n level b).level = level ∧
    (LCA.ofBox n level b).nbCells = boxVolume b n ∧
    ((LCA.ofBox n level b).numbered n).map Prod.snd = (List.range (boxVolume b n)).map (fun (k : Nat) => (k : Int)) := by
  have hv := box_isValid hv
  have hwf := ofBox_wf level hv
  obtain ⟨hc, _, hl⟩ := ofBox_spec b n level
  have h0 := hc 0 (by omega)
  rw [Nat.sub_zero] at h0
  have hnb : totalSize ((LCA.ofBox n level b).cells 0) = boxVolume b n := by
    rw [h0, boxCells_totalSize, rowsAbove_volume]
  refine ⟨ofBox_mem level, hwf, hl, by rw [nbCells_eq, hnb], ?_⟩
  have hidx : IndexFrom 0 ((LCA.ofBox n level b).cells 0) := by rw [h0]; exact boxCells_index _ _ _
  rw [numbered_snd hwf, indexFrom_numbers hidx, hnb]
  simp

example : (Box.isValid ⟨fun d => [-1, 2, 0].getD d 0, fun d => [4, 5, 2].getD d 0⟩ 2 = true) := by decide

/-! ### C13 -/

/-- C13, proved part: when no level between `min_level` and `max_level` is empty, range-for over the cell
array visits every x-interval of every level once, level after level. Missing: levels with a gap, for which
the property is false (`C13_gap_refuted`). -/
theorem C13_iterate_partial (n : Nat) (c : CA) (h : c.WF n) (hne : ∃ l ≤ c.maxSize, (c.lca l).isEmpty = false)
    (hgap : ∀ l, c.minLevel ≤ l → l ≤ c.maxLevel → (c.lca l).isEmpty = false) :
    ∃ it fuel, caBegin c n = some it ∧ caWalk c n fuel it = some (c.rows n) := by
  rcases c.level_cases with ⟨h1, _⟩ | ⟨h1, h2, h3, h4, h5, h6⟩
  · obtain ⟨l, hl, he⟩ := hne
    rw [h1 l hl] at he
    simp at he
  · have hwm := h c.minLevel (by omega)
    have hnem : (c.lca c.minLevel).cells n ≠ [] := fun h0 => by
      rw [(isEmpty_iff hwm).2 h0] at h3; simp at h3
    obtain ⟨it, hb, hit⟩ := iterBegin_spec hwm hnem
    refine ⟨⟨c.minLevel, it⟩, ((c.lca c.minLevel).cells 0).length - 0 + (c.rest n c.minLevel).length + 1,
      by unfold caBegin caBeginAt; rw [hb]; rfl, ?_⟩
    rw [caWalk_spec h hgap h1 h2 _ c.minLevel 0 it le_rfl h1 (fun _ => hit) hit.1 (Or.inl hit.2.1) (by omega)]
    congr 1
    unfold CA.rows
    rw [flatMap_levels c]
    · unfold CA.levels CA.rest
      rw [show c.maxLevel + 1 - c.minLevel = (c.maxLevel - c.minLevel) + 1 by omega, List.range'_succ,
        List.flatMap_cons, List.drop_zero]
    · intro l hl he
      rw [(rows_eq_nil_iff (h l hl)).2 he]
      rfl

/-- A cell array with cells at levels 0 and 2 only. -/
def gapArray : CA :=
  { maxSize := 3, lca := fun l => if l = 0 ∨ l = 2 then LCA.ofBox 1 l ⟨fun _ => 0, fun _ => 2⟩ else { level := l } }

theorem emptyLCA_wf (n level : Nat) : LCA.WF n { level := level } :=
  ⟨trivial, fun _ => ⟨fun _ _ => rfl, fun _ _ => rfl⟩, fun _ _ => trivial, fun _ _ h => absurd rfl h,
    fun _ _ h => absurd rfl h, fun _ _ h => absurd rfl h⟩

/-- C13 is false in general: with an empty level between two non-empty ones the walk is undefined. -/
theorem C13_gap_refuted : gapArray.WF 1 ∧ (gapArray.lca 0).isEmpty = false ∧ (gapArray.lca 2).isEmpty = false ∧
    ∃ it, caBegin gapArray 1 = some it ∧ ∀ fuel, caWalk gapArray 1 fuel it = none := by
  refine ⟨?_, by decide, by decide, _, rfl, ?_⟩
  · intro l hl
    unfold gapArray
    simp only []
    split
    · exact ofBox_wf l (fun d _ => by simp)
    · exact emptyLCA_wf 1 l
  · intro fuel
    match fuel with
    | 0 => rfl
    | 1 => rfl
    | k + 2 => rfl

/-- A cell array with cells at levels 1 and 2. -/
def contiguousArray : CA :=
  { maxSize := 3, lca := fun l => if l = 1 ∨ l = 2 then LCA.ofBox 1 l ⟨fun _ => 0, fun _ => 2⟩ else { level := l } }

example : (∃ l ≤ contiguousArray.maxSize, (contiguousArray.lca l).isEmpty = false) ∧
    contiguousArray.minLevel = 1 ∧ contiguousArray.maxLevel = 2 ∧
    (contiguousArray.lca 1).isEmpty = false ∧ (contiguousArray.lca 2).isEmpty = false :=
  ⟨⟨1, by decide, by decide⟩, by decide, by decide, by decide, by decide⟩

/-- C10 for a cell array: `for_each_cell` visits all the cells, level after level. -/
theorem C10_for_each_cell_levels (n : Nat) (c : CA) (h : c.WF n) :
    forEachCellCA n (fun (trace : List (Nat × List Int × Int)) l p k => trace ++ [(l, p, k)]) c [] =
      some (c.numbered n) := by
  unfold forEachCellCA CA.numbered
  rw [flatMap_levels c]
  · have key : ∀ ls : List Nat, (∀ l ∈ ls, l ≤ c.maxSize) → ∀ t : List (Nat × List Int × Int),
        ls.foldlM (fun s l => if (c.lca l).isEmpty then some s else
          forEachCell n (fun (trace : List (Nat × List Int × Int)) p k => trace ++ [(l, p, k)]) (c.lca l) s) t
          = some (t ++ ls.flatMap fun l => ((c.lca l).numbered n).map fun e => (l, e.1, e.2)) := by
      intro ls
      induction ls with
      | nil => intro _ t; simp
      | cons l ls ih =>
        intro hls t
        have hwl := h l (hls l List.mem_cons_self)
        rw [List.foldlM_cons, List.flatMap_cons, ← List.append_assoc]
        have hstep : (if (c.lca l).isEmpty then some t else
            forEachCell n (fun (trace : List (Nat × List Int × Int)) p k => trace ++ [(l, p, k)]) (c.lca l) t)
            = some (t ++ ((c.lca l).numbered n).map fun e => (l, e.1, e.2)) := by
          split
          · rename_i he
            unfold LCA.numbered
            rw [(rows_eq_nil_iff hwl).2 he]
            simp
          · rename_i he
            rw [forEachCell_spec hwl (fun h0 => he ((isEmpty_iff hwl).2 h0))]
            congr 1
            generalize (c.lca l).numbered n = m
            induction m generalizing t with
            | nil => simp
            | cons e m ih => rw [List.foldl_cons, ih]; simp
        rw [hstep]
        exact ih (fun l hl => hls l (List.mem_cons_of_mem _ hl)) _
    simpa using key c.levels (fun l hl => CA.levels_le hl) []
  · intro l hl he
    unfold LCA.numbered
    rw [(rows_eq_nil_iff (h l hl)).2 he]
    rfl

end Samurai

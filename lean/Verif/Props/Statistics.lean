/-
C120: the statistics of a mesh are those of its cells, and the file has all the records.
-/
import Verif.Lemmas.Statistics
import Verif.Props.LevelCellArray
import Mathlib.Data.List.Perm.Subperm

namespace Samurai

/-- C120 (for one level). For every non-empty well-formed level of any dimension the record is computed without an error; the number of cells is the number of
cells of the level; for every axis the number of intervals is the number of runs of the level seen from this axis outwards, and the extreme sizes are those of the shortest and of the longest run; the
extreme numbers of intervals per component of the axis 1 are the extreme numbers of runs along the first axis for given other coordinates.
Missing from C120: "number of intervals per component" of the axes from 2 on, which is wrong (`C120_axis2_refuted`). -/
theorem C120_level_partial (n : Nat) (L : LCA) (h : L.WF n) (hne : L.cells n ≠ []) : ∃ s, levelStats n L = some s ∧
    NumberOf (L.Mem n) s.cells ∧ s.axes.length = n + 1 ∧
    (∀ d a, s.axes[d]? = some a → NumberOf (IsRun (Shadow d (L.Mem n))) a.intervals ∧
      Extremes (fun k => ∃ r, IsRun (Shadow d (L.Mem n)) r ∧ (k : Int) = r.2.2 - r.2.1) a.shortest a.longest) ∧
    s.perComponent.length = n ∧
    ∀ m, s.perComponent[0]? = some m →
      Extremes (fun k => ∃ q, Shadow 1 (L.Mem n) q ∧ NumberOf (fun r => IsRun (L.Mem n) r ∧ r.1 = q) k) m.1 m.2 := by
  have hcell : ∀ d ≤ n, L.cells d ≠ [] ∧ NumberOf (IsRun (Shadow d (L.Mem n))) (L.cells d).length ∧
      ∀ k, k ∈ (L.cells d).map Interval.size ↔ ∃ r, IsRun (Shadow d (L.Mem n)) r ∧ (k : Int) = r.2.2 - r.2.1 := by
    intro d hd
    obtain ⟨m, rfl⟩ : ∃ m, n = m + d := ⟨n - d, by omega⟩
    obtain ⟨h1, h2, h3⟩ := outer_iterate d m L h
    have hS : (LCA.outer^[d] L).Mem m = Shadow d (L.Mem (m + d)) := funext fun q => propext (h2 q)
    have hc : (LCA.outer^[d] L).cells 0 = L.cells d := by rw [h3, Nat.zero_add]
    rw [← hS, ← hc]
    refine ⟨?_, ⟨_, runs_nodup h1, mem_runs h1, runs_length h1⟩, ?_⟩
    · intro h0
      have hr : (LCA.outer^[d] L).rows m = [] := by
        have := rows_length h1
        rw [h0] at this
        exact List.length_eq_zero_iff.1 this
      have htop : (LCA.outer^[d] L).cells m ≠ [] := by rw [h3]; exact hne
      obtain ⟨i, l, hil⟩ := List.exists_cons_of_ne_nil htop
      have hcan := h1.top
      rw [hil] at hcan
      have hv := hcan.cons.1
      obtain ⟨q, hq⟩ := rowOK_mem m 0 _ (LCA.WF.rowOK h1 htop) i (by rw [slice_full, hil]; simp) i.start (Interval.mem_def.2 ⟨le_rfl, hv⟩)
      have hq' : (LCA.outer^[d] L).Mem m (i.start :: q) := hq
      rw [mem_iff_rows h1, hr] at hq'
      simp at hq'
    · intro k
      rw [← rows_map_snd h1, List.map_map, List.mem_map]
      constructor
      · rintro ⟨e, he, rfl⟩
        have hv := (rows_valid h1 he).2
        refine ⟨(e.1, e.2.start, e.2.stop), (mem_runs h1 _).1 (List.mem_map.2 ⟨e, he, rfl⟩), ?_⟩
        simp only [Function.comp, Interval.size]
        omega
      · rintro ⟨r, hr, hk⟩
        obtain ⟨e, he, rfl⟩ := List.mem_map.1 ((mem_runs h1 _).2 hr)
        refine ⟨e, he, ?_⟩
        have hv := (rows_valid h1 he).2
        simp only [Function.comp, Interval.size] at hk ⊢
        omega
  obtain ⟨axes, ha1, ha2, ha3⟩ := stats_mapM (l := List.range (n + 1))
    (f := fun d => (minMax ((L.cells d).map Interval.size)).map fun m => (⟨(L.cells d).length, m.1, m.2⟩ : AxisStats)) (fun d hd => by
      rw [List.mem_range] at hd
      obtain ⟨m, M, hm, -⟩ := minMax_spec (l := (L.cells d).map Interval.size) (by simpa using (hcell d (by omega)).1)
      exact ⟨_, by rw [hm]; rfl⟩)
  have hcomp : ∀ m', n = m' + 1 → ∃ m M, minMax ((adjacentDifference (L.offsets 0)).drop 1) = some (m, M) ∧
      Extremes (fun k => ∃ q, Shadow 1 (L.Mem n) q ∧ NumberOf (fun r => IsRun (L.Mem n) r ∧ r.1 = q) k) m M := by
    rintro m' rfl
    have hpos : totalSize (L.cells 1) ≠ 0 := by
      intro h0
      have hs := h.seg 0 (by omega) hne
      have hlen : (L.offsets 0).length = totalSize (L.cells 1) + 1 := h.count 0 (by omega) hne
      have hlast := h.last 0 (by omega) hne
      rw [h0] at hlen
      obtain ⟨a, ha⟩ := List.length_eq_one_iff.1 hlen
      have h00 := hs.1
      rw [ha] at hlast h00
      simp only [List.getLast?_singleton, Option.some.injEq, List.getElem?_cons_zero] at hlast h00
      exact (hcell 0 (by omega)).1 (List.length_eq_zero_iff.1 (by omega))
    obtain ⟨m, M, hm, hE⟩ := minMax_spec (l := (adjacentDifference (L.offsets 0)).drop 1) (by
      rw [differences h hne]
      simpa using hpos)
    refine ⟨m, M, hm, hE.congr fun k => ?_⟩
    rw [differences h hne, List.mem_map]
    have hsh : ∀ q, Shadow 1 (L.Mem (m' + 1)) q ↔ ∃ e ∈ L.outer.numbered m', e.1 = q := by
      intro q
      obtain ⟨-, h2, -⟩ := outer_iterate 1 m' L h
      rw [← h2]
      show L.outer.Mem m' q ↔ _
      rw [← numbered_mem (outer_wf h), List.mem_map]
    constructor
    · rintro ⟨j, hj, rfl⟩
      have : (j : Int) ∈ (L.outer.numbered m').map Prod.snd := by
        rw [outer_numbers h]
        exact List.mem_map.2 ⟨j, hj, rfl⟩
      obtain ⟨e, he, hej⟩ := List.mem_map.1 this
      refine ⟨e.1, (hsh _).2 ⟨e, he, rfl⟩, ?_⟩
      have := numberOf_row h hne he
      rw [hej, Int.toNat_natCast] at this
      exact this
    · rintro ⟨q, hq, hk⟩
      obtain ⟨e, he, rfl⟩ := (hsh q).1 hq
      obtain ⟨j, hj, hej⟩ := outer_number h he
      refine ⟨j, List.mem_range.2 hj, ?_⟩
      have := numberOf_row h hne he
      rw [hej, Int.toNat_natCast] at this
      exact this.unique hk
  obtain ⟨comps, hc1, hc2, hc3⟩ := stats_mapM (l := List.range n) (f := fun _ => minMax ((adjacentDifference (L.offsets 0)).drop 1)) (fun d hd => by
    rw [List.mem_range] at hd
    obtain ⟨m, M, hm, -⟩ := hcomp (n - 1) (by omega)
    exact ⟨_, hm⟩)
  refine ⟨⟨L.nbCells, axes, comps⟩, by simp only [levelStats, ha1, hc1], ?_, by simpa using ha2, ?_, by simpa using hc2, ?_⟩
  · refine ⟨(L.numbered n).map Prod.fst, numbered_nodup h, fun p => numbered_mem h p, ?_⟩
    show _ = L.nbCells
    have := congrArg List.length (numbered_snd h)
    rw [List.length_map] at this
    rw [List.length_map, this, nbCells_eq, List.length_flatMap]
    unfold totalSize
    congr 1
    apply List.map_congr_left
    intro i _
    simp [coords]
  · intro d a hda
    have hd : d < n + 1 := by
      have := (List.getElem?_eq_some_iff.1 hda).1
      rw [ha2] at this
      simpa using this
    have h1 := ha3 d d (by simp [hd])
    obtain ⟨m, M, hm, hE⟩ := minMax_spec (l := (L.cells d).map Interval.size) (by simpa using (hcell d (by omega)).1)
    rw [hm] at h1
    simp only at hda
    rw [h1] at hda
    simp only [Option.map_some, Option.some.injEq] at hda
    subst hda
    exact ⟨(hcell d (by omega)).2.1, hE.congr (hcell d (by omega)).2.2⟩
  · intro m hm
    simp only at hm
    have hn : 0 < n := by
      have := (List.getElem?_eq_some_iff.1 hm).1
      rw [hc2] at this
      simpa using this
    have h1 := hc3 0 0 (by simp [hn])
    obtain ⟨a, b, hab, hE⟩ := hcomp (n - 1) (by omega)
    rw [hab] at h1
    rw [h1] at hm
    simp only [Option.some.injEq] at hm
    subst hm
    exact hE

/-- C120. The statistics of a mesh without empty level between its coarsest and its finest level are computed without an error, and those of each level are its own. -/
theorem C120_mesh_partial (n : Nat) (c : CA) (h : ∀ l ∈ c.levels, (c.lca l).WF n ∧ (c.lca l).cells n ≠ []) :
    ∃ st, meshStats n c = some st ∧ st.map Prod.fst = c.levels ∧ ∀ l s, (l, s) ∈ st → levelStats n (c.lca l) = some s := by
  obtain ⟨st, h1, h2, h3⟩ := stats_mapM (l := c.levels) (f := fun l => (levelStats n (c.lca l)).map fun s => (l, s)) (fun l hl => by
    obtain ⟨s, hs, -⟩ := C120_level_partial n (c.lca l) (h l hl).1 (h l hl).2
    exact ⟨_, by rw [hs]; rfl⟩)
  have key : ∀ (k : Nat) (e : Nat × LevelStats), st[k]? = some e → ∃ l, c.levels[k]? = some l ∧ e.1 = l ∧ levelStats n (c.lca l) = some e.2 := by
    intro k e hk
    have hlt : k < c.levels.length := by rw [← h2]; exact (List.getElem?_eq_some_iff.1 hk).1
    have := h3 k _ (List.getElem?_eq_getElem hlt)
    rw [hk] at this
    cases hs : levelStats n (c.lca c.levels[k]) with
    | none => rw [hs] at this; simp at this
    | some s =>
      rw [hs] at this
      simp only [Option.map_some, Option.some.injEq] at this
      subst this
      exact ⟨_, List.getElem?_eq_getElem hlt, rfl, hs⟩
  refine ⟨st, h1, ?_, ?_⟩
  · apply List.ext_getElem?
    intro k
    rw [List.getElem?_map]
    cases hk : st[k]? with
    | none =>
      rw [List.getElem?_eq_none_iff, h2] at hk
      rw [List.getElem?_eq_none hk]; rfl
    | some e =>
      obtain ⟨l, hl, he, -⟩ := key k e hk
      rw [hl, ← he]; rfl
  · intro l s hls
    obtain ⟨k, hk⟩ := List.mem_iff_getElem?.1 hls
    obtain ⟨l', -, he, hs⟩ := key k _ hk
    simp only at he
    subst he
    exact hs

/-- C120 (file). At any moment of any sequence of calls the file has the records of all the calls up to the last multiple of `save_all`, each in the list of its test case in the order of the
calls, and once the object is destroyed those of all the calls. -/
theorem C120_file {R : Type} (saveAll : Nat) (hs : 0 < saveAll) (calls : List (String × R)) :
    (calls.foldl StatsState.call (StatsState.new R saveAll)).file =
      (if calls.length < saveAll then none else some (recordsOf (calls.take (saveAll * (calls.length / saveAll))))) ∧
    (calls.foldl StatsState.call (StatsState.new R saveAll)).finish.file = some (recordsOf calls) := by
  have key : ∀ calls : List (String × R), let s := calls.foldl StatsState.call (StatsState.new R saveAll)
      s.saveAll = saveAll ∧ s.icurrent = calls.length % saveAll ∧ s.stats = recordsOf calls ∧
      s.file = if calls.length < saveAll then none else some (recordsOf (calls.take (saveAll * (calls.length / saveAll)))) := by
    intro calls
    induction calls using List.reverseRecOn with
    | nil =>
      refine ⟨rfl, by simp [StatsState.new], ?_, ?_⟩
      · funext t; simp [StatsState.new, recordsOf]
      · simp [StatsState.new, hs]
    | append_singleton calls e ih =>
      obtain ⟨h1, h2, h3, h4⟩ := ih
      simp only [List.foldl_append, List.foldl_cons, List.foldl_nil]
      generalize calls.foldl StatsState.call (StatsState.new R saveAll) = s at h1 h2 h3 h4
      have hdm := Nat.div_add_mod calls.length saveAll
      have hlt := Nat.mod_lt calls.length hs
      simp only [StatsState.call, h1, h2, h3, ← recordsOf_snoc, List.length_append, List.length_cons, List.length_nil, Nat.zero_add]
      by_cases hc : calls.length % saveAll + 1 = saveAll
      · have hq : calls.length + 1 = saveAll * (calls.length / saveAll + 1) := by rw [Nat.mul_add]; omega
        rw [if_pos (by exact_mod_cast hc)]
        refine ⟨rfl, ?_, rfl, ?_⟩
        · rw [hq]; simp
        · have hge : ¬ calls.length + 1 < saveAll := by
            rw [hq, Nat.mul_add]; omega
          rw [if_neg hge]
          have hd : (calls.length + 1) / saveAll = calls.length / saveAll + 1 := by
            rw [hq, Nat.mul_div_cancel_left _ hs]
          rw [hd, ← hq, List.take_of_length_le (by simp)]
      · have hlt' : calls.length % saveAll + 1 < saveAll := by omega
        have hdiv : (calls.length + 1) / saveAll = calls.length / saveAll := by
          rw [← hdm, Nat.add_assoc, Nat.mul_add_div hs, Nat.mul_add_div hs, Nat.div_eq_of_lt hlt', Nat.div_eq_of_lt hlt]
        have hmod : (calls.length + 1) % saveAll = calls.length % saveAll + 1 := by
          rw [← hdm, Nat.add_assoc, Nat.mul_add_mod, Nat.mul_add_mod, Nat.mod_eq_of_lt hlt', Nat.mod_mod]
        rw [if_neg (by exact_mod_cast hc)]
        refine ⟨rfl, hmod.symm, rfl, ?_⟩
        rw [hdiv]
        simp only [h4]
        have hle : saveAll * (calls.length / saveAll) ≤ calls.length := by omega
        rw [List.take_append_of_le_length hle]
        by_cases hsm : calls.length < saveAll
        · have : calls.length % saveAll = calls.length := Nat.mod_eq_of_lt hsm
          rw [if_pos hsm, if_pos (by omega)]
        · rw [if_neg hsm, if_neg (by omega)]
  obtain ⟨-, -, h3, h4⟩ := key calls
  exact ⟨h4, by simp only [StatsState.finish, h3]⟩

section Examples

/-- The L-shaped level of C06 meets the hypotheses of `C120_level_partial`; its record. -/
example : (LCA.ofList (runCellCalls 1 3 exampleHistory)).WF 1 ∧ (LCA.ofList (runCellCalls 1 3 exampleHistory)).cells 1 ≠ [] ∧
    levelStats 1 (LCA.ofList (runCellCalls 1 3 exampleHistory)) = some ⟨8, [⟨3, 1, 5⟩, ⟨2, 1, 2⟩], [(1, 1)]⟩ := by
  refine ⟨C06_wellformed 1 3 exampleHistory (by simp [exampleHistory, CellCall.idx]) ?_, by decide, by decide⟩
  simp [exampleHistory, CellCall.Valid, Interval.mk']

/-- Two cells of a row of a level of dimension 3, with a hole between them. -/
def twoRuns : LCA := LCA.ofList (runCellCalls 2 0 [.cell [0, 0] 0, .cell [0, 0] 2])

theorem twoRuns_wf : twoRuns.WF 2 := C06_wellformed 2 0 _ (by simp [CellCall.idx]) (by simp [CellCall.Valid])

/-- C120 is false of the axis 2: in dimension 3 the record "number of intervals per component" of the axis 2 is that of the axis 1. For two cells of a row separated by a hole it is 2,
although there is only one run along the axis 1. -/
theorem C120_axis2_refuted : ¬ ∀ (L : LCA) (s : LevelStats) (m : Nat × Nat), L.WF 2 → L.cells 2 ≠ [] → levelStats 2 L = some s → s.perComponent[1]? = some m →
    Extremes (fun k => ∃ q, Shadow 2 (L.Mem 2) q ∧ NumberOf (fun r => IsRun (Shadow 1 (L.Mem 2)) r ∧ r.1 = q) k) m.1 m.2 := by
  intro H
  have hne : twoRuns.cells 2 ≠ [] := by decide
  have hs : levelStats 2 twoRuns = some ⟨2, [⟨2, 1, 1⟩, ⟨1, 1, 1⟩, ⟨1, 1, 1⟩], [(2, 2), (2, 2)]⟩ := by decide
  obtain ⟨⟨⟨q, -, l, h1, h2, h3⟩, -⟩, -⟩ := H twoRuns _ (2, 2) twoRuns_wf hne hs rfl
  obtain ⟨s, hs', -, -, hax, -⟩ := C120_level_partial 2 twoRuns twoRuns_wf hne
  rw [hs] at hs'
  obtain rfl := Option.some.inj hs'
  obtain ⟨⟨l', -, k2, k3⟩, -⟩ := hax 1 ⟨1, 1, 1⟩ rfl
  have := (h1.subperm (fun x hx => (k2 x).2 ((h2 x).1 hx).1)).length_le
  simp only at h3 k3
  omega

/-- C120 is false of meshes with an empty level between two others: the statistics read the end of an empty vector. -/
theorem C120_empty_level_refuted : ¬ ∀ (n : Nat) (c : CA), c.WF n → (∃ l p, c.Mem n l p) → (meshStats n c).isSome := by
  intro H
  have hwf : CA.WF 0 ⟨2, fun l => if l = 1 then LCA.ofList (runCellCalls 0 l []) else LCA.ofList (runCellCalls 0 l [.cell [] (4 * l)])⟩ := by
    intro l _
    simp only
    split
    · exact C06_wellformed 0 l [] (by simp) (by simp)
    · exact C06_wellformed 0 l _ (by simp [CellCall.idx]) (by simp [CellCall.Valid])
  have := H 0 _ hwf ⟨0, [0], by decide, (C06_content 0 0 [.cell [] 0] (by simp [CellCall.idx]) [0]).2 ⟨_, List.mem_singleton.2 rfl, by simp [CellCall.Adds]⟩⟩
  revert this
  decide

/-- A mesh of two levels meets the hypotheses of `C120_mesh_partial`. -/
example : let c : CA := ⟨2, fun l => if l = 0 then LCA.ofList (runCellCalls 0 l []) else LCA.ofList (runCellCalls 0 l [.cell [] (4 * l)])⟩
    c.levels = [1, 2] ∧ ∀ l ∈ c.levels, (c.lca l).WF 0 ∧ (c.lca l).cells 0 ≠ [] := by
  intro c
  have hl : c.levels = [1, 2] := by decide
  refine ⟨hl, fun l hlm => ⟨?_, ?_⟩⟩
  · show LCA.WF 0 (if l = 0 then _ else _)
    split
    · exact C06_wellformed 0 l [] (by simp) (by simp)
    · exact C06_wellformed 0 l _ (by simp [CellCall.idx]) (by simp [CellCall.Valid])
  · rw [hl] at hlm
    rcases List.mem_cons.1 hlm with rfl | hlm
    · decide
    · rw [List.mem_singleton.1 hlm]; decide

/-- Five calls with `save_all` 2: the file has the first four until the end. -/
example : recordsOf [("a", 1), ("b", 2), ("a", 3), ("a", 4)] "a" = some [1, 3, 4] ∧
    ((([("a", 1), ("b", 2), ("a", 3), ("a", 4), ("b", 5)].foldl StatsState.call (StatsState.new Nat 2)).file.getD fun _ => none) "b") = some [2] := by
  decide

end Examples

end Samurai

/-
C42: partition of the domain. C43: swap. C44: serialisation. C48: existence test. C49: iteration on the cells of a set.
-/
import Verif.Lemmas.MeshState
import Verif.Props.Arrays

namespace Samurai

/-! ### C42 -/

/-- C42, partial: the cells given to two processes are disjoint and belong to the domain, and each cell of the domain is given to a process
if the number of x-intervals is at most the number of processes times the quotient used. Missing: without this condition, which
`partition_mesh` does not ensure, cells are given to no process. -/
theorem C42_partition_partial (n startLevel size : Nat) (domain : LCA) (h : domain.WF n) :
    ∃ part : Nat → LCA, (∀ r, partitionMesh n startLevel domain r size = some (part r)) ∧ (∀ r, (part r).WF n) ∧
      (∀ r p, (part r).Mem n p → domain.Mem n p) ∧ (∀ r r' p, (part r).Mem n p → (part r').Mem n p → r = r') ∧
      ((domain.rows n).length ≤ size * (domain.nbIntervals n / size) → ∀ p, domain.Mem n p → ∃ r < size, (part r).Mem n p) := by
  choose part h1 h2 h3 using fun r => partition_spec h startLevel r size
  refine ⟨part, h1, h2, fun r p hp => ?_, fun r r' p hp hp' => ?_, fun hc p hp => ?_⟩
  · obtain ⟨j, c, h4, -, -, x, hx, e⟩ := (h3 r p).1 hp
    exact (mem_iff_rows h p).2 ⟨c, List.mem_of_getElem? h4, x, hx, e⟩
  · obtain ⟨j, c, h4, h5, h6, x, hx, e⟩ := (h3 r p).1 hp
    obtain ⟨j', c', h4', h5', h6', x', hx', e'⟩ := (h3 r' p).1 hp'
    have := rows_cell_unique h h4 h4' hx hx' (e ▸ e')
    subst this
    by_contra hne
    rcases Nat.lt_or_gt_of_ne hne with hlt | hlt
    · have := Nat.mul_le_mul_right (domain.nbIntervals n / size) (show r + 1 ≤ r' from hlt)
      omega
    · have := Nat.mul_le_mul_right (domain.nbIntervals n / size) (show r' + 1 ≤ r from hlt)
      omega
  · obtain ⟨c, hc', x, hx, e⟩ := (mem_iff_rows h p).1 hp
    obtain ⟨j, hj⟩ := List.mem_iff_getElem?.1 hc'
    have hjl := (List.getElem?_eq_some_iff.1 hj).1
    have hq : 0 < domain.nbIntervals n / size := by
      by_contra h0
      have : domain.nbIntervals n / size = 0 := Nat.eq_zero_of_not_pos h0
      rw [this, Nat.mul_zero] at hc
      omega
    refine ⟨j / (domain.nbIntervals n / size), ?_, (h3 _ p).2 ⟨j, c, hj, ?_, ?_, x, hx, e⟩⟩
    · rw [Nat.div_lt_iff_lt_mul hq]; omega
    · exact Nat.div_mul_le_self _ _
    · rw [Nat.mul_comm]; exact Nat.lt_mul_div_succ _ hq

example : exampleArray.WF 1 ∧ (exampleArray.rows 1).length ≤ 2 * (exampleArray.nbIntervals 1 / 2) := ⟨exampleArray_wf, by decide +kernel⟩

/-- C42 fails: a box in dimension 1 (one x-interval) and two processes: no process owns any cell. -/
theorem C42_partition_refuted : ∃ L : LCA, L.WF 0 ∧ L.Mem 0 [0] ∧ ∀ r, ∃ part, partitionMesh 0 1 L r 2 = some part ∧ ∀ p, ¬ part.Mem 0 p := by
  have hv : (⟨fun _ => 0, fun _ => 8⟩ : Box).isValid 0 = true := by decide
  obtain ⟨a1, a2, -⟩ := C12_box 0 1 ⟨fun _ => 0, fun _ => 8⟩ hv
  refine ⟨_, a2, ?_, fun r => ?_⟩
  · rw [← numbered_mem a2]; decide +kernel
  · obtain ⟨part, h1, h2, h3⟩ := partition_spec a2 1 r 2
    refine ⟨part, h1, fun p hp => ?_⟩
    obtain ⟨j, c, -, h4, h5, -⟩ := (h3 p).1 hp
    have : (LCA.ofBox 0 1 ⟨fun _ => 0, fun _ => 8⟩).nbIntervals 0 / 2 = 0 := by decide +kernel
    rw [this] at h4 h5
    omega

/-! ### C43 -/

/-- C43, partial: `swap` exchanges all the attributes but the periodicity, which it leaves in place; so it exchanges the meshes if their
periodicities are equal, and doing it twice changes nothing. Missing: the periodicity. -/
theorem C43_swap_partial (a b : MeshState) :
    (a.swap b).1 = { b with periodic := a.periodic } ∧ (a.swap b).2 = { a with periodic := b.periodic } ∧
      (a.periodic = b.periodic → a.swap b = (b, a)) ∧ (a.swap b).1.swap (a.swap b).2 = (a, b) := by
  refine ⟨rfl, rfl, fun h => ?_, rfl⟩
  cases a; cases b
  simp only at h
  subst h
  rfl

/-- A mesh without cells. -/
def emptyState (maxLevel : Nat) (periodic : List Bool) : MeshState := ⟨{}, {}, 0, maxLevel, periodic, [], ⟨0, fun _ => {}⟩, []⟩

/-- C43 fails: the periodicity is not exchanged. -/
theorem C43_swap_refuted : ∃ a b : MeshState, (a.swap b).1.periodic ≠ b.periodic ∧ (a.swap b).2.periodic ≠ a.periodic :=
  ⟨emptyState 1 [true], emptyState 1 [false], by decide, by decide⟩

/-! ### C44 -/

/-- C44, partial: reading a saved array of a level into any array gives its intervals, offsets and level, hence its cells and their numbers, and
consumes exactly what was written. Missing: the origin point and the scaling factor stay those of the array read into. -/
theorem C44_level_partial (n : Nat) (old L : GLCA) (ar : List Int) :
    ∃ R, loadGLCA n old (saveGLCA n L ++ ar) = some (R, ar) ∧ LCA.beq n R.lca L.lca = true ∧ R.origin = old.origin ∧ R.scaling = old.scaling := by
  refine ⟨_, loadGLCA_save n old L ar, ?_, rfl, rfl⟩
  have h1 : ∀ d < n + 1, (readGLCA n old L).lca.cells d = L.lca.cells d := fun d hd => if_pos hd
  have h2 : ∀ d < n, (readGLCA n old L).lca.offsets d = L.lca.offsets d := fun d hd => if_pos hd
  unfold LCA.beq
  rw [Bool.and_eq_true, Bool.and_eq_true, Bool.and_eq_true, List.all_eq_true, List.all_eq_true, List.all_eq_true]
  refine ⟨⟨⟨decide_eq_true rfl, fun d hd => ?_⟩, fun d hd => ?_⟩, fun d hd => ?_⟩
  · rw [h1 d (List.mem_range.1 hd)]; exact decide_eq_true rfl
  · rw [h1 d (List.mem_range.1 hd)]; exact decide_eq_true rfl
  · rw [h2 d (List.mem_range.1 hd)]; exact decide_eq_true rfl

/-- C44, partial: reading a saved mesh into a mesh of the same type gives the same sub-meshes, domain, subdomain, union (`LCA.beq` level by level) and
minimum level. Missing: the maximum level, the periodicity and the geometry stay those of the mesh read into. -/
theorem C44_mesh_partial (n : Nat) (old m : MeshState) (ar : List Int) (hc : List.Forall₂ (fun (o c : GCA) => c.maxSize = o.maxSize) old.cells m.cells)
    (hu : m.union.maxSize = old.union.maxSize) :
    ∃ R, loadMesh n old (saveMesh n m ++ ar) = some (R, ar) ∧
      List.Forall₂ (fun (r c : GCA) => r.maxSize = c.maxSize ∧ ∀ l ≤ c.maxSize, LCA.beq n (r.lca l).lca (c.lca l).lca = true) R.cells m.cells ∧
      LCA.beq n R.domain.lca m.domain.lca = true ∧ LCA.beq n R.subdomain.lca m.subdomain.lca = true ∧
      (∀ l ≤ m.union.maxSize, LCA.beq n (R.union.lca l).lca (m.union.lca l).lca = true) ∧ R.minLevel = m.minLevel ∧
      R.maxLevel = old.maxLevel ∧ R.periodic = old.periodic := by
  have key : ∀ o L : GLCA, LCA.beq n (readGLCA n o L).lca L.lca = true := by
    intro o L
    obtain ⟨R, h1, h2, -⟩ := C44_level_partial n o L []
    rw [loadGLCA_save] at h1
    cases h1
    exact h2
  have key' : ∀ o c : GCA, c.maxSize = o.maxSize → ∀ l ≤ c.maxSize, LCA.beq n ((readGCA n o c).lca l).lca (c.lca l).lca = true := by
    intro o c h l hl
    have : (readGCA n o c).lca l = readGLCA n (o.lca l) (c.lca l) := if_pos (by omega)
    rw [this]
    exact key _ _
  refine ⟨⟨readGLCA n old.domain m.domain, readGLCA n old.subdomain m.subdomain, m.minLevel, old.maxLevel, old.periodic,
    List.zipWith (readGCA n) old.cells m.cells, readGCA n old.union m.union, old.neighbourhood⟩, ?_, ?_, key _ _, key _ _, key' _ _ hu, rfl, rfl, rfl⟩
  · unfold loadMesh saveMesh
    simp only [List.append_assoc]
    rw [loadGCAs_save n _ _ hc]
    simp only []
    rw [loadGLCA_save]
    simp only []
    rw [loadGLCA_save]
    simp only []
    rw [loadGCA_save n _ _ hu]
    simp only []
    rw [loadNat_save]
    simp only []
    rw [loadNat_save]
  · show List.Forall₂ _ (List.zipWith (readGCA n) old.cells m.cells) m.cells
    generalize old.cells = oc at hc
    generalize m.cells = mc at hc
    induction hc with
    | nil => exact List.Forall₂.nil
    | cons h1 _ ih => exact List.Forall₂.cons ⟨h1.symm, key' _ _ h1⟩ ih

example : ∃ old m : MeshState, List.Forall₂ (fun (o c : GCA) => c.maxSize = o.maxSize) old.cells m.cells ∧ m.union.maxSize = old.union.maxSize ∧ m.cells ≠ [] :=
  ⟨⟨{}, {}, 0, 0, [], [⟨3, fun _ => {}⟩], ⟨0, fun _ => {}⟩, []⟩, ⟨{}, {}, 0, 0, [], [⟨3, fun _ => { lca := exampleArray }⟩], ⟨0, fun _ => {}⟩, []⟩,
    List.Forall₂.cons rfl List.Forall₂.nil, rfl, by simp⟩

/-- C44 fails: the maximum level and the periodicity are lost, even when the mesh is read into a mesh of the same type. -/
theorem C44_mesh_refuted : ∃ old m R : MeshState, loadMesh 0 old (saveMesh 0 m) = some (R, []) ∧ R.maxLevel ≠ m.maxLevel ∧ R.periodic ≠ m.periodic := by
  obtain ⟨R, h1, -, -, -, -, -, h2, h3⟩ := C44_mesh_partial 0 (emptyState 0 [false]) (emptyState 4 [true]) [] List.Forall₂.nil rfl
  refine ⟨_, _, R, (List.append_nil _) ▸ h1, ?_, ?_⟩
  · rw [h2]; decide
  · rw [h3]; decide

/-- C44 fails: the scaling factor of a level is lost. -/
theorem C44_geometry_refuted : ∃ old L R : GLCA, loadGLCA 0 old (saveGLCA 0 L) = some (R, []) ∧ R.scaling ≠ L.scaling := by
  obtain ⟨R, h1, -, -, h2⟩ := C44_level_partial 0 {} { scaling := 2 } []
  exact ⟨_, _, R, (List.append_nil _) ▸ h1, by rw [h2]; decide⟩

/-! ### C48 -/

/-- C48, partial: on a non-empty interval of step 1 the first entry of the result tells whether its first cell belongs to the sub-mesh, and it is the only
entry that is initialised: on one cell the test is right. Missing: the other cells. -/
theorem C48_exists_partial (n : Nat) (ca : CA) (level : Nat) (h : (ca.lca level).WF n) (i : Interval) (yz : List Int) (hv : i.start < i.stop) (hs : i.step = 1)
    (hl : yz.length = n) :
    ∃ b, meshExists n ca level i yz = some (some b :: List.replicate (i.size - 1) none) ∧ (b = true ↔ (ca.lca level).Mem n (yz ++ [i.start])) := by
  have hsz : ((i.size : Int) / i.step).toNat = (i.size - 1) + 1 := by
    rw [hs]
    unfold Interval.size
    omega
  by_cases hm : (ca.lca level).Mem n (yz ++ [i.start])
  · obtain ⟨k, j, h1, -⟩ := C09_find_present n _ h yz i.start hm
    refine ⟨decide ((k : Int) ≠ -1), ?_, by simp [hm]⟩
    unfold meshExists
    simp only [if_pos hv, hsz, h1]
  · have h1 := C09_find_absent n _ h (yz ++ [i.start]) (by simp [hl]) hm
    refine ⟨decide ((-1 : Int) ≠ -1), ?_, by simp [hm]⟩
    unfold meshExists
    simp only [if_pos hv, hsz, h1]

example : ((⟨3, fun _ => exampleArray⟩ : CA).lca 3).WF 1 ∧ meshExists 1 ⟨3, fun _ => exampleArray⟩ 3 (Interval.mk' 5 6) [0] = some [some true] :=
  ⟨exampleArray_wf, by decide +kernel⟩

/-- C48 fails: on two cells of the mesh the second entry of the result is not initialised, and on an empty interval the function returns nothing. -/
theorem C48_exists_refuted : exampleArray.Mem 1 [0, 4] ∧ exampleArray.Mem 1 [0, 5] ∧
    meshExists 1 ⟨3, fun _ => exampleArray⟩ 3 (Interval.mk' 4 6) [0] = some [some true, none] ∧
    meshExists 1 ⟨3, fun _ => exampleArray⟩ 3 (Interval.mk' 5 5) [0] = none := by
  have h := exampleArray_wf
  rw [← numbered_mem h, ← numbered_mem h]
  decide +kernel

/-! ### C49 -/

/-- C49, partial: in dimension 1, if the cells of the set belong to the array, `f` is called on the cells of the set in order, with the level of the set, the
coordinates of the cell and its number in the array. Missing: the other dimensions, where it fails. -/
theorem C49_restricted_cells_partial (L : LCA) (level : Nat) (h : L.WF 0) (calls : List Call) (hl : ∀ c ∈ calls, c.1.length = 0 ∧ c.2.start < c.2.stop)
    (hin : ∀ p, Covers calls p → L.Mem 0 p) :
    ∃ out, forEachCellSet 0 L level calls = some out ∧
      out.map (fun e => e.2.1 ++ [e.2.2.1]) = (calls.flatMap fun c => (coords c.2).map fun x => c.1 ++ [x]) ∧
      ∀ e ∈ out, e.1 = level ∧ (e.2.1 ++ [e.2.2.1], e.2.2.2) ∈ L.numbered 0 := by
  unfold forEachCellSet
  have key : ∀ prev, ∃ out, setCellLoop 0 L level prev calls = some out ∧
      out.map (fun e => e.2.1 ++ [e.2.2.1]) = (calls.flatMap fun c => (coords c.2).map fun x => c.1 ++ [x]) ∧
      ∀ e ∈ out, e.1 = level ∧ (e.2.1 ++ [e.2.2.1], e.2.2.2) ∈ L.numbered 0 := by
    induction calls with
    | nil => intro prev; exact ⟨[], rfl, rfl, fun e he => absurd he List.not_mem_nil⟩
    | cons c cs ih =>
      intro prev
      obtain ⟨out, i1, i2, i3⟩ := ih (fun c' hc' => hl c' (List.mem_cons_of_mem _ hc')) (fun p ⟨c', hc', hx⟩ => hin p ⟨c', List.mem_cons_of_mem _ hc', hx⟩) (some c.1)
      obtain ⟨l1, l2⟩ := hl c List.mem_cons_self
      have e0 : c.1 = [] := List.length_eq_zero_iff.1 l1
      have hc : ∀ x ∈ c.2, L.Mem 0 (c.1 ++ [x]) := fun x hx => hin _ ⟨c, List.mem_cons_self, x, hx, rfl⟩
      obtain ⟨j, hj, hjx⟩ := same_interval h hc l2
      have hst : c.2.start ∈ c.2 := Interval.mem_def.2 ⟨le_rfl, l2⟩
      have hg : getIndex L 0 [] c.2.start = some (j.index + c.2.start) := by
        unfold getIndex
        rw [show ([] : List Int) ++ [c.2.start] = c.1 ++ [c.2.start] by rw [e0], getInterval_row h hj (hjx _ hst)]
        rfl
      refine ⟨((List.range c.2.size).map fun k : Nat => (level, c.1, c.2.start + (k : Int), j.index + c.2.start + (k : Int))) ++ out, ?_, ?_, ?_⟩
      · unfold setCellLoop setCellStep
        simp only [if_true, hg, i1]
      · rw [List.map_append, List.flatMap_cons, i2, List.map_map]
        congr 1
        unfold coords
        rw [List.map_map]
        rfl
      · intro e he
        rcases List.mem_append.1 he with he | he
        · obtain ⟨k, hk, rfl⟩ := List.mem_map.1 he
          rw [List.mem_range] at hk
          unfold Interval.size at hk
          refine ⟨rfl, ?_⟩
          unfold LCA.numbered
          have hx : c.2.start + (k : Int) ∈ c.2 := Interval.mem_def.2 ⟨by omega, by omega⟩
          refine List.mem_flatMap.2 ⟨_, hj, List.mem_map.2 ⟨c.2.start + (k : Int), ?_, ?_⟩⟩
          · exact coords_mem.2 (hjx _ hx)
          · simp only [Prod.mk.injEq, true_and]; omega
        · exact i3 e he
  exact key none

/-- C49 fails from dimension 2 on: the number of the first cell is looked up with coordinates that are not initialised. -/
theorem C49_restricted_cells_refuted (n : Nat) (hn : 1 ≤ n) (L : LCA) (level : Nat) (c : Call) (cs : List Call) : forEachCellSet n L level (c :: cs) = none := by
  unfold forEachCellSet setCellLoop setCellStep
  rw [if_neg (by omega)]

/-- C49 fails on the next rows too: the number is looked up in the row of the previous interval. On the 2 × 2 box, after the row 0, the cell (0, 1) of number 2
is handed over with the number of the cell (0, 0). -/
theorem C49_stale_row_refuted : (LCA.ofBox 1 1 ⟨fun _ => 0, fun _ => 2⟩).WF 1 ∧ ([1, 0], 2) ∈ (LCA.ofBox 1 1 ⟨fun _ => 0, fun _ => 2⟩).numbered 1 ∧
    setCellStep 1 (LCA.ofBox 1 1 ⟨fun _ => 0, fun _ => 2⟩) 1 (some [0]) ([1], Interval.mk' 0 2) = some ([1], [(1, [1], 0, 0), (1, [1], 1, 1)]) := by
  have hv : (⟨fun _ => 0, fun _ => 2⟩ : Box).isValid 1 = true := by decide
  obtain ⟨a1, a2, -⟩ := C12_box 1 1 ⟨fun _ => 0, fun _ => 2⟩ hv
  refine ⟨a2, ?_⟩
  decide +kernel

end Samurai

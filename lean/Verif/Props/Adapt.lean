/-
C28, C57, C58, C59: the mesh adaptation. (Examples: Verif/Props/AdaptWidth.lean.)
-/
import Verif.Lemmas.AdaptStep

namespace Samurai

variable {K : Type} [Field K]

theorem hasFlag_bit (v : BitVec 32) (i : Nat) (hi : i < 32) : v &&& BitVec.twoPow 32 i ≠ 0#32 ↔ v.getLsbD i = true := by
  rw [← flagged_bit v i hi]
  simp [flagged]

/-- C28. `maximum` on a set of cells of level `level`, for every tag field: for every cell `p` of the set, the `2^dim` children are all tagged
`coarsen` or none is, and they are if they were all before; if a child was tagged `keep`, all the children and `p` are; if all the children were tagged
`coarsen`, `p` is kept; no `keep` is lost; the `refine` flags are unchanged; the tags that are neither those of cells of the set nor those of children of
cells of the set are unchanged. (1, 2 and 4 are the values of `keep`, `coarsen` and `refine`.) -/
theorem C28_maximum (level : Nat) (calls : List Call) (t : TagField) :
    (∀ p, Covers calls p →
      ((∀ c, Anc 1 p c → tagCells (maximumCell level) calls t (level + 1) c &&& 2#32 ≠ 0#32) ↔ ∀ c, Anc 1 p c → t (level + 1) c &&& 2#32 ≠ 0#32) ∧
      ((∀ c, Anc 1 p c → tagCells (maximumCell level) calls t (level + 1) c &&& 2#32 ≠ 0#32) ∨
        ∀ c, Anc 1 p c → tagCells (maximumCell level) calls t (level + 1) c &&& 2#32 = 0#32) ∧
      (∀ c, Anc 1 p c → t (level + 1) c &&& 1#32 ≠ 0#32 →
        tagCells (maximumCell level) calls t level p &&& 1#32 ≠ 0#32 ∧
        ∀ c', Anc 1 p c' → tagCells (maximumCell level) calls t (level + 1) c' &&& 1#32 ≠ 0#32) ∧
      ((∀ c, Anc 1 p c → t (level + 1) c &&& 2#32 ≠ 0#32) → tagCells (maximumCell level) calls t level p &&& 1#32 ≠ 0#32)) ∧
    (∀ l q, t l q &&& 1#32 ≠ 0#32 → tagCells (maximumCell level) calls t l q &&& 1#32 ≠ 0#32) ∧
    (∀ l q, tagCells (maximumCell level) calls t l q &&& 4#32 ≠ 0#32 ↔ t l q &&& 4#32 ≠ 0#32) ∧
    ∀ l q, ¬ (l = level ∧ Covers calls q) → ¬ (l = level + 1 ∧ ∃ p, Covers calls p ∧ Anc 1 p q) →
      tagCells (maximumCell level) calls t l q = t l q := by
  have b0 : ∀ v : BitVec 32, v &&& 1#32 ≠ 0#32 ↔ v.getLsbD 0 = true := fun v => hasFlag_bit v 0 (by omega)
  have b1 : ∀ v : BitVec 32, v &&& 2#32 ≠ 0#32 ↔ v.getLsbD 1 = true := fun v => hasFlag_bit v 1 (by omega)
  have b2 : ∀ v : BitVec 32, v &&& 4#32 ≠ 0#32 ↔ v.getLsbD 2 = true := fun v => hasFlag_bit v 2 (by omega)
  obtain ⟨m1, m2, m3⟩ := tagMaximum (level := level) (calls := calls) (t := t)
  refine ⟨fun p hp => ?_, fun l q h => (b0 _).2 ((m1 l q).2 (Or.inl ((b0 _).1 h))), fun l q => (b2 _).trans ((m3 l q).trans (b2 _).symm), ?_⟩
  · have hall : (∀ c, Anc 1 p c → tagCells (maximumCell level) calls t (level + 1) c &&& 2#32 ≠ 0#32) ↔
        ∀ c, Anc 1 p c → t (level + 1) c &&& 2#32 ≠ 0#32 := by
      constructor
      · exact fun h c hc => (b1 _).2 ((m2 _ _).1 ((b1 _).1 (h c hc))).1
      · refine fun h c hc => (b1 _).2 ((m2 _ _).2 ⟨(b1 _).1 (h c hc), fun _ _ c' hc' => (b1 _).1 (h c' (anc_one.2 ?_))⟩)
        rw [hc', anc_one.1 hc]
    refine ⟨hall, ?_, fun c hc h => ?_, fun h => ?_⟩
    · by_cases h : ∀ c, Anc 1 p c → t (level + 1) c &&& 2#32 ≠ 0#32
      · exact Or.inl (hall.2 h)
      · refine Or.inr fun c hc => ?_
        by_contra hne
        have h3 := ((m2 _ _).1 ((b1 _).1 hne)).2 rfl (by rw [anc_one.1 hc]; exact hp)
        exact h fun c' hc' => (b1 _).2 (h3 c' (by rw [anc_one.1 hc, anc_one.1 hc']))
    · have ha : AnyKeep t level p := ⟨c, anc_one.1 hc, (b0 _).1 h⟩
      exact ⟨(b0 _).2 ((m1 _ _).2 (Or.inr (Or.inr ⟨rfl, hp, Or.inl ha⟩))), fun c' hc' =>
        (b0 _).2 ((m1 _ _).2 (Or.inr (Or.inl ⟨rfl, by rw [anc_one.1 hc']; exact hp, by rw [anc_one.1 hc']; exact ha⟩)))⟩
    · exact (b0 _).2 ((m1 _ _).2 (Or.inr (Or.inr ⟨rfl, hp, Or.inr fun c hc => (b1 _).1 (h c (anc_one.2 hc))⟩)))
  · intro l q h1 h2
    have h1' : ¬ (l = level ∧ q ∈ callCells calls) := by rw [mem_callCells]; exact h1
    have h2' : ¬ (l = level + 1 ∧ parentOf q ∈ callCells calls) := fun h => h2 ⟨h.1, _, mem_callCells.1 h.2, anc_one.2 rfl⟩
    unfold tagCells
    generalize callCells calls = L at h1' h2'
    induction L generalizing t with
    | nil => rfl
    | cons p L ih =>
      have n1 : ¬ (l = level + 1 ∧ parentOf q = p) := fun h => h2' ⟨h.1, by rw [h.2]; exact List.mem_cons_self⟩
      have n2 : ¬ (l = level ∧ q = p) := fun h => h1' ⟨h.1, by rw [h.2]; exact List.mem_cons_self⟩
      rw [List.foldl_cons, ih (maximumCell level t p) tagMaximum.1 tagMaximum.2.1 tagMaximum.2.2 (fun h => h1' ⟨h.1, List.mem_cons_of_mem _ h.2⟩)
        (fun h => h2' ⟨h.1, List.mem_cons_of_mem _ h.2⟩), maximumCell_apply, if_neg n1, if_neg n2]

theorem GoodLeaves.congr {n : Nat} {c c' : CA} {dom : LCA} {minL maxL : Nat} (g : GoodLeaves n c dom minL maxL) (hw : c'.WF n)
    (hl : c'.Leveled) (hs : c'.maxSize = c.maxSize) (hm : ∀ l p, c'.Mem n l p ↔ c.Mem n l p) : GoodLeaves n c' dom minL maxL := by
  refine ⟨hw, hl, by rw [hs]; exact g.size, fun l p h => g.between l p ((hm l p).1 h),
    fun l p l' p' h h' => g.noOverlap l p l' p' ((hm l p).1 h) ((hm l' p').1 h'),
    fun l p l' p' q h h' => g.graded l p l' p' q ((hm l p).1 h) ((hm l' p').1 h'), fun m => ?_⟩
  rw [← g.tiles]
  unfold CA.Tiles
  simp only [hm]

theorem adaptInv_init' {n : Nat} {cfg : MeshConfig} {dom : LCA} {minL maxL margin : Nat} {cells : CA}
    (hd : GoodDomain n dom minL maxL margin) (hm : cfg.maxStencilWidth + cfg.predictionOrder + 1 ≤ margin)
    (g : GoodLeaves n cells dom minL maxL) :
    ∃ m u, mrMesh n cfg cells minL maxL = some (m, u) ∧ AdaptInv n cfg dom minL maxL m u ∧ ∀ l p, m.cells.Mem n l p ↔ cells.Mem n l p := by
  obtain ⟨D, d1, d2, d3⟩ := hd.range
  have hp : cells.Proper n minL maxL (cfg.maxStencilWidth + cfg.predictionOrder + 1) :=
    CA.Proper.sub ⟨g.wf, g.leveled, g.between, g.size, D, d1, d2, g.below d3⟩ hm
  obtain ⟨m, u, h1, h2⟩ := mrMesh_spec hp
  obtain ⟨_, _, c2, _⟩ := h2.content
  exact ⟨m, u, h1, ⟨⟨cells, h2⟩, g.congr h2.wf.1 h2.cellsLevels.2 h2.cellsLevels.1 c2⟩, c2⟩

theorem adaptInv_init {n : Nat} {cfg : MeshConfig} {dom : LCA} {minL maxL margin : Nat} {cells : CA}
    (hd : GoodDomain n dom minL maxL margin) (hm : cfg.maxStencilWidth + cfg.predictionOrder + 1 ≤ margin)
    (g : GoodLeaves n cells dom minL maxL) :
    ∃ m u, mrMesh n cfg cells minL maxL = some (m, u) ∧ AdaptInv n cfg dom minL maxL m u := by
  obtain ⟨m, u, h1, h2, -⟩ := adaptInv_init' hd hm g
  exact ⟨m, u, h1, h2⟩

/-- C57. One adaptation step, for every graduation width, every outcome of the detail criteria, every iteration number and every
field, on a mesh whose leaves tile the domain and are graded: it succeeds, every leaf gets a tag, siblings are coarsened together and the new
leaves tile the same domain without overlap, with levels in `[min_level, max_level]`. -/
theorem C57_step (n : Nat) (cfg : MeshConfig) (gw minL maxL ite : Nat) (dom : LCA) (cells : CA) (enlarge : Bool) (D : DetailMasks)
    (f : CellField K) (hd : GoodDomain n dom minL maxL (cfg.maxStencilWidth + cfg.predictionOrder + gw + 3)) (hmin : 1 ≤ minL)
    (hmm : minL ≤ maxL) (hite : ite ≤ maxL - minL) (g : GoodLeaves n cells dom minL maxL) :
    ∃ m u b m' u' f', mrMesh n cfg cells minL maxL = some (m, u) ∧
      harten n cfg gw minL maxL ite enlarge D dom m u f = some (b, m', u', f') ∧
      m'.cells.Between n minL maxL ∧ m'.cells.NoOverlap n ∧ ∀ c, m'.cells.Tiles n maxL c ↔ InDomain n dom maxL c := by
  obtain ⟨m, u, h1, h2⟩ := adaptInv_init (cfg := cfg) hd (by omega) g
  obtain ⟨t, b, m', u', f', _, _, _, k1, _, k3, k4, k5, _⟩ := harten_spec h2 hd hmin hmm hite enlarge D f
  exact ⟨m, u, b, m', u', f', h1, k1, k3, k4, k5⟩

theorem adaptLoop_inv {n : Nat} (hn : n ≤ 2) {cfg : MeshConfig} {minL maxL : Nat} {dom : LCA} {enlarge : Bool}
    {ghosts : SubMeshes → CellField K → CellField K} {details : SubMeshes → CellField K → Nat → DetailMasks}
    (hd : GoodDomain n dom minL maxL (cfg.maxStencilWidth + cfg.predictionOrder + 1 + 3)) (hmin : 1 ≤ minL) (hmm : minL ≤ maxL) :
    ∀ (is : List Nat), (∀ i ∈ is, i ≤ maxL - minL) → ∀ m u f, AdaptInv n cfg dom minL maxL m u →
      ∃ m' u' f', adaptLoop n cfg 1 minL maxL enlarge ghosts details dom is m u f = some (m', u', f') ∧ AdaptInv n cfg dom minL maxL m' u' := by
  intro is
  induction is with
  | nil => exact fun _ m u f h => ⟨m, u, f, rfl, h⟩
  | cons i is ih =>
    intro hi m u f h
    obtain ⟨t, b, m', u', f', _, _, _, k1, _, _, _, _, k6⟩ := harten_spec h hd hmin hmm (hi i List.mem_cons_self) enlarge
      (details m (ghosts m f) i) (ghosts m f)
    have k6 := k6 hn rfl
    unfold adaptLoop
    rw [k1]
    simp only []
    cases b
    · exact ih (fun j hj => hi j (List.mem_cons_of_mem _ hj)) m' u' f' k6
    · exact ⟨m', u', f', rfl, k6⟩

theorem adapt_inv {n : Nat} (hn : n ≤ 2) {cfg : MeshConfig} {minL maxL : Nat} {dom : LCA} {enlarge : Bool}
    {ghosts : SubMeshes → CellField K → CellField K} {details : SubMeshes → CellField K → Nat → DetailMasks}
    (hd : GoodDomain n dom minL maxL (cfg.maxStencilWidth + cfg.predictionOrder + 1 + 3)) (hmin : 1 ≤ minL) (hmm : minL ≤ maxL)
    {m : SubMeshes} {u : CA} (f : CellField K) (h : AdaptInv n cfg dom minL maxL m u) :
    ∃ m' u' f', adapt n cfg 1 minL maxL enlarge ghosts details dom m u f = some (m', u', f') ∧ AdaptInv n cfg dom minL maxL m' u' := by
  unfold adapt
  by_cases heq : minL = maxL
  · rw [if_pos heq]
    exact ⟨m, u, f, rfl, h⟩
  · rw [if_neg heq]
    exact adaptLoop_inv hn hd hmin hmm _ (fun i hi => by have := List.mem_range.1 hi; omega) m u _ h

/-- A sequence of adaptations keeps the invariant. -/
theorem runAdapt_inv {n : Nat} (hn : n ≤ 2) {cfg : MeshConfig} {minL maxL : Nat} {dom : LCA}
    (hd : GoodDomain n dom minL maxL (cfg.maxStencilWidth + cfg.predictionOrder + 4)) (hmin : 1 ≤ minL) (hmm : minL ≤ maxL) :
    ∀ (calls : List (AdaptCall K)) m u, AdaptInv n cfg dom minL maxL m u →
      ∃ m' u', runAdapt n cfg 1 minL maxL dom calls m u = some (m', u') ∧ AdaptInv n cfg dom minL maxL m' u' := by
  intro calls
  induction calls with
  | nil => exact fun m u h => ⟨m, u, rfl, h⟩
  | cons c cs ih =>
    intro m u h
    obtain ⟨m', u', f', k1, k2⟩ := adapt_inv hn (enlarge := c.enlarge) (ghosts := c.ghosts) (details := c.details) hd hmin hmm c.field h
    obtain ⟨m'', u'', k3, k4⟩ := ih m' u' k2
    refine ⟨m'', u'', ?_, k4⟩
    unfold runAdapt
    rw [k1]
    exact k3

/-- C58. With `graduation_width = 1` (the default), in dimension 1, 2 and 3, for every sequence of calls of `Adapt::operator()` — with any
fields, any outcomes of the criteria, with or without `enlarge` — starting from leaves that tile the domain and are graded: every call succeeds
and the leaves always tile the domain without overlap, are graded, and have levels in `[min_level, max_level]`. -/
theorem C58_history (n : Nat) (hn : n ≤ 2) (cfg : MeshConfig) (minL maxL : Nat) (dom : LCA) (cells : CA) (calls : List (AdaptCall K))
    (hd : GoodDomain n dom minL maxL (cfg.maxStencilWidth + cfg.predictionOrder + 4)) (hmin : 1 ≤ minL) (hmm : minL ≤ maxL)
    (g : GoodLeaves n cells dom minL maxL) :
    ∃ m u m' u', mrMesh n cfg cells minL maxL = some (m, u) ∧ runAdapt n cfg 1 minL maxL dom calls m u = some (m', u') ∧
      GoodLeaves n m'.cells dom minL maxL := by
  obtain ⟨m, u, h1, h2⟩ := adaptInv_init (cfg := cfg) hd (by omega) g
  obtain ⟨m', u', k1, k2⟩ := runAdapt_inv hn hd hmin hmm calls m u h2
  exact ⟨m, u, m', u', h1, k1, k2.leaves⟩

/-- C59. An adaptation conserves the integral of the field: over all iterations of `Adapt::operator()`, when `update_ghost_mr` leaves the values of the
leaves as they are. -/
theorem C59_integral [CharZero K] (n : Nat) (hn : n ≤ 2) (cfg : MeshConfig) (minL maxL : Nat) (dom : LCA) (cells : CA) (c : AdaptCall K)
    (hd : GoodDomain n dom minL maxL (cfg.maxStencilWidth + cfg.predictionOrder + 4)) (hmin : 1 ≤ minL) (hmm : minL ≤ maxL)
    (g : GoodLeaves n cells dom minL maxL)
    (hg : ∀ (m : SubMeshes) (f : CellField K) l p, m.cells.Mem n l p → c.ghosts m f l p = f l p) :
    ∃ m u m' u' f', mrMesh n cfg cells minL maxL = some (m, u) ∧
      adapt n cfg 1 minL maxL c.enlarge c.ghosts c.details dom m u c.field = some (m', u', f') ∧
      integral n m'.cells f' = integral n m.cells c.field := by
  obtain ⟨m, u, h1, h2⟩ := adaptInv_init (cfg := cfg) hd (by omega) g
  refine ⟨m, u, ?_⟩
  have hghost : ∀ m u (f : CellField K), AdaptInv n cfg dom minL maxL m u → integral n m.cells (c.ghosts m f) = integral n m.cells f := by
    intro m u f h
    unfold integral
    congr 1
    apply List.map_congr_left
    intro e he
    rw [hg m f e.1 e.2.1 (CA.mem_of_numbered h.leaves.wf (v := e.2.2) he)]
  have key : ∀ (is : List Nat), (∀ i ∈ is, i ≤ maxL - minL) → ∀ m u f, AdaptInv n cfg dom minL maxL m u →
      ∃ m' u' f', adaptLoop n cfg 1 minL maxL c.enlarge c.ghosts c.details dom is m u f = some (m', u', f') ∧
        integral n m'.cells f' = integral n m.cells f := by
    intro is
    induction is with
    | nil => exact fun _ m u f _ => ⟨m, u, f, rfl, rfl⟩
    | cons i is ih =>
      intro hi m u f h
      obtain ⟨t, b, m', u', f', _, k2, k3, k1, k4, _, _, _, k6⟩ := harten_spec h hd hmin hmm (hi i List.mem_cons_self) c.enlarge
        (c.details m (c.ghosts m f) i) (c.ghosts m f)
      have k6 := k6 hn rfl
      obtain ⟨b2, m2, u2, f2, j1, _, _, _, j2⟩ := C33_integral n hn cfg minL maxL (tagArray n m.all t) m u (c.ghosts m f) hmm
        (h.proper hd (by omega)) h.leaves.noOverlap k2 k3
      rw [k4] at j1
      simp only [Option.some.injEq, Prod.mk.injEq] at j1
      obtain ⟨rfl, rfl, rfl, rfl⟩ := j1
      rw [hghost m u f h] at j2
      unfold adaptLoop
      rw [k1]
      simp only []
      cases b
      · obtain ⟨m2, u2, f2, i1, i2⟩ := ih (fun j hj => hi j (List.mem_cons_of_mem _ hj)) m' u' f' k6
        exact ⟨m2, u2, f2, i1, i2.trans j2⟩
      · exact ⟨m', u', f', rfl, j2⟩
  unfold adapt
  by_cases heq : minL = maxL
  · rw [if_pos heq]
    exact ⟨m, u, c.field, h1, rfl, rfl⟩
  · rw [if_neg heq]
    obtain ⟨m', u', f', k1, k2⟩ := key (List.range (maxL - minL)) (fun i hi => by have := List.mem_range.1 hi; omega) m u (c.ghosts m c.field) h2
    exact ⟨m', u', f', h1, k1, k2.trans (hghost m u c.field h2)⟩

/-- `harten` on a mesh with `min_level = 0`, for every mesh and every outcome of the criteria: the first turn of the first loop reads the level `-1` of the
reference mesh (undefined behaviour). -/
theorem C57_min_level_0_refuted (n : Nat) (cfg : MeshConfig) (gw maxL ite : Nat) (dom : LCA) (enlarge : Bool) (D : DetailMasks) (m : SubMeshes) (u : CA)
    (f : CellField K) : harten n cfg gw 0 maxL ite enlarge D dom m u f = none := by
  have h : (List.range' 0 (maxL - ite + 1 - 0)).foldlM (criteriaLevel n 0 maxL D m.cells m.all) (tagLeaves n m.cells) = none := by
    rw [Nat.sub_zero, List.range'_succ, List.foldlM_cons]
    rfl
  unfold harten hartenTags
  rw [h]

end Samurai

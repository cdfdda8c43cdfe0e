import Verif.Lemmas.Renumber

namespace Samurai

/-! ### facts on the reference mesh of the multiresolution -/

theorem near_refl (w : Nat) (p : List Int) : Near w p p := by
  induction p with
  | nil => exact List.Forall₂.nil
  | cons a p ih => exact List.Forall₂.cons ⟨by omega, by omega⟩ ih

theorem MRBase.all {n : Nat} {cfg : MeshConfig} {cells : CA} {minL l : Nat} {p : List Int}
    (h : MRBase n cfg cells l p) : MRAll n cfg cells minL l p := by
  cases l with
  | zero => exact h
  | succ l => exact Or.inl h

theorem CA.Proper.sub {n : Nat} {cells : CA} {minL maxL margin margin' : Nat} (h : cells.Proper n minL maxL margin)
    (hm : margin' ≤ margin) : cells.Proper n minL maxL margin' := by
  obtain ⟨D, h1, h2, h3⟩ := h.range
  refine ⟨h.wf, h.leveled, h.between, h.size, D, h1, ?_, h3⟩
  have hp := pow_two_pos maxL
  have : (margin' : Int) * 2 ^ maxL ≤ margin * 2 ^ maxL := Int.mul_le_mul_of_nonneg_right (by omega) (le_of_lt hp)
  omega

theorem CA.Proper.union {n : Nat} {cells : CA} {minL maxL margin : Nat} (h : cells.Proper n minL maxL margin) :
    ∃ u, constructUnion n cells minL maxL = some u ∧ UnionOK n cells u minL := by
  obtain ⟨D, h1, h2, h3⟩ := (h.sub (Nat.zero_le _)).range
  exact constructUnion_spec h.wf h.leveled h.between h.size h1 (by simpa using h2) h3

/-- The contents of the meshes of a multiresolution mesh and their numbering. -/
structure MRMeshOK (n : Nat) (cfg : MeshConfig) (cells : CA) (minL maxL : Nat) (m : SubMeshes) (u : CA) : Prop where
  union : UnionOK n cells u minL
  content : ∃ m0, MROK n cfg cells minL maxL m0 ∧
    (∀ l p, m.cells.Mem n l p ↔ cells.Mem n l p) ∧ (∀ l p, m.ghosts.Mem n l p ↔ m0.ghosts.Mem n l p) ∧
    (∀ l p, m.proj.Mem n l p ↔ m0.proj.Mem n l p) ∧ (∀ l p, m.all.Mem n l p ↔ m0.all.Mem n l p)
  wf : m.cells.WF n ∧ m.ghosts.WF n ∧ m.proj.WF n ∧ m.all.WF n
  size : m.all.maxSize = cells.maxSize
  cellsLevels : m.cells.maxSize = cells.maxSize ∧ m.cells.Leveled
  ghostsLevels : m.ghosts.maxSize = cells.maxSize ∧ m.ghosts.Leveled
  projLevels : m.proj.maxSize = cells.maxSize ∧ m.proj.Leveled
  allLevels : m.all.Leveled
  numbers : ((m.all.numbered n).map fun e => e.2.2) = (List.range m.all.nbCells).map (fun (k : Nat) => (k : Int))
  index : ∀ sub ∈ [m.cells, m.ghosts, m.proj], ∀ l yz x, sub.Mem n l (yz ++ [x]) →
    getIndex (sub.lca l) n yz x = getIndex (m.all.lca l) n yz x

theorem MROK.ghosts_all {n : Nat} {cfg : MeshConfig} {cells : CA} {minL maxL : Nat} {m : SubMeshes}
    (h : MROK n cfg cells minL maxL m) {l : Nat} {p : List Int} (hp : m.ghosts.Mem n l p) : m.all.Mem n l p := by
  by_cases heq : minL = maxL
  · exact ((h.flat heq).1 l p).2 hp
  · exact (h.all heq l p).2 (MRBase.all (Or.inl ((h.ghosts l p).1 hp)))

theorem MROK.cells_all {n : Nat} {cfg : MeshConfig} {cells : CA} {minL maxL : Nat} {m : SubMeshes}
    (h : MROK n cfg cells minL maxL m) {l : Nat} {p : List Int} (hp : cells.Mem n l p) : m.all.Mem n l p :=
  h.ghosts_all ((h.ghosts l p).2 ⟨p, hp, near_refl _ _⟩)

theorem MROK.proj_all {n : Nat} {cfg : MeshConfig} {cells : CA} {minL maxL : Nat} {m : SubMeshes}
    (h : MROK n cfg cells minL maxL m) {l : Nat} {p : List Int} (hp : m.proj.Mem n l p) : m.all.Mem n l p := by
  by_cases heq : minL = maxL
  · exact absurd hp ((h.flat heq).2 l p)
  · exact (h.all heq l p).2 ((h.proj heq l p).1 hp).1

theorem updateIndexCA_leveled {n : Nat} {c c' : CA} (h : c.WF n) (hl : c.Leveled) (he : updateIndexCA n c = some c') : c'.Leveled := by
  obtain ⟨d, s', h1, h2, h3, h4, _⟩ := forEachLevels_spec (n := n) c.levels c.levels_nodup c 0 (fun l hl => h l (CA.levels_le hl))
  have hd : updateIndexCA n c = some d := by
    unfold updateIndexCA forEachIntervalCA
    change Option.map Prod.fst (c.levels.foldlM (forEachStep n fun acc _ => indexer acc) (c, 0)) = _
    rw [h1]; rfl
  rw [he] at hd
  obtain rfl := Option.some.inj hd
  intro l hlt
  rw [h2] at hlt
  by_cases hm : l ∈ c.levels
  · rw [(h4 l hm).2.1]; exact hl l hlt
  · rw [h3 l hm]; exact hl l hlt

theorem mrMesh_spec {n : Nat} {cfg : MeshConfig} {cells : CA} {minL maxL : Nat}
    (h : cells.Proper n minL maxL (cfg.maxStencilWidth + cfg.predictionOrder + 1)) :
    ∃ m u, mrMesh n cfg cells minL maxL = some (m, u) ∧ MRMeshOK n cfg cells minL maxL m u := by
  obtain ⟨u, u1, u2⟩ := h.union
  obtain ⟨D, d1, d2, d3⟩ := h.range
  obtain ⟨m0, m1, m2⟩ := mrUpdateSubMesh_spec (cfg := cfg) h.wf h.leveled h.between h.size d1 (by push_cast at d2; exact d2) d3 u2
  obtain ⟨w1, w2, w3⟩ := m2.wf
  obtain ⟨all, a1, a2, a3, a4, a5, a6⟩ := C08_levels n m0.all w3
  have hc : m0.cells = cells := m2.cells_eq
  obtain ⟨c, c1, c2, c3, c6, c4, c5⟩ := renumberSub_spec (n := n) (ref := all) (c := m0.cells) a3 (by rw [hc]; exact h.wf)
    (fun l p hp => (a4 l p).2 (m2.cells_all (by rw [hc] at hp; exact hp)))
  obtain ⟨g, g1, g2, g3, g6, g4, g5⟩ := renumberSub_spec a3 w1 (fun l p hp => (a4 l p).2 (m2.ghosts_all hp))
  obtain ⟨q, q1, q2, q3, q6, q4, q5⟩ := renumberSub_spec a3 w2 (fun l p hp => (a4 l p).2 (m2.proj_all hp))
  refine ⟨⟨c, g, q, all⟩, u, ?_, u2, ⟨m0, m2, fun l p => ?_, g4, q4, a4⟩, ⟨c3, g3, q3, a3⟩, ?_, ⟨?_, ?_⟩, ⟨?_, ?_⟩, ⟨?_, ?_⟩,
    updateIndexCA_leveled w3 m2.leveled.2.2 a1, ?_, ?_⟩
  · unfold mrMesh
    rw [u1]
    simp only []
    rw [m1]
    simp only []
    unfold renumbering
    rw [a1]
    simp only []
    rw [c1, g1, q1]
  · rw [← hc]; exact c4 l p
  · show all.maxSize = _
    rw [a2, m2.size.2.2]
  · show c.maxSize = _
    rw [c2, hc]
  · intro l hl
    have hl' : l ≤ cells.maxSize := by
      have : c.maxSize = cells.maxSize := by rw [c2, hc]
      rw [← this]; exact hl
    show (c.lca l).level = l
    rw [c6 l (by rw [hc]; exact hl'), hc]
    exact h.leveled l hl'
  · show g.maxSize = _
    rw [g2, m2.size.1]
  · intro l hl
    have hl' : l ≤ m0.ghosts.maxSize := by rw [← g2]; exact hl
    show (g.lca l).level = l
    rw [g6 l hl']
    exact m2.leveled.1 l hl'
  · show q.maxSize = _
    rw [q2, m2.size.2.1]
  · intro l hl
    have hl' : l ≤ m0.proj.maxSize := by rw [← q2]; exact hl
    show (q.lca l).level = l
    rw [q6 l hl']
    exact m2.leveled.2.1 l hl'
  · show ((all.numbered n).map fun e => e.2.2) = _
    rw [a6, a5]
  · intro sub hs l yz x hx
    simp only [List.mem_cons, List.not_mem_nil, or_false] at hs
    rcases hs with rfl | rfl | rfl
    · exact c5 l yz x ((c4 l _).1 hx)
    · exact g5 l yz x ((g4 l _).1 hx)
    · exact q5 l yz x ((q4 l _).1 hx)

/-! ### uniform mesh -/

theorem forEach_const {σ : Type} {n : Nat} {L : LCA} (h : L.WF n) (g : σ → List Int → Interval → σ) (s : σ) :
    ∃ L', forEachInterval n (fun s yz i => (g s yz i, i)) L s = some (L', (L.rows n).foldl (fun s e => g s e.1 e.2) s) := by
  obtain ⟨L', h1, _⟩ := forEachInterval_spec h (fun s yz i => (g s yz i, i)) s
  rw [visit_const] at h1
  exact ⟨L', h1⟩

theorem uniformGhosts_spec {n w : Nat} {cells : LCA} (h : cells.WF n) :
    ∃ g, uniformGhosts n w cells = some g ∧ g.WF n ∧ g.level = cells.level ∧
      ∀ p, g.Mem n p ↔ ∃ q, cells.Mem n q ∧ Near w p q := by
  obtain ⟨L', h1⟩ := forEach_const h (fun acc yz i => acc ++ grow w yz i) []
  have key : ∀ (l : List (List Int × Interval)) t,
      l.foldl (fun s e => s ++ grow w e.1 e.2) t = t ++ l.flatMap fun e => grow w e.1 e.2 := by
    intro l
    induction l with
    | nil => intro t; simp
    | cons e l ih => intro t; rw [List.foldl_cons, ih, List.flatMap_cons, List.append_assoc]
  rw [key, List.nil_append] at h1
  have hi : ∀ c ∈ (cells.rows n).flatMap (fun e => grow w e.1 e.2), c.idx.length = n := by
    intro c hc
    obtain ⟨e, he, hc⟩ := List.mem_flatMap.1 hc
    rw [grow_idx hc, (rows_valid h he).1]
  have hv : ∀ c ∈ (cells.rows n).flatMap (fun e => grow w e.1 e.2), c.Valid := by
    intro c hc
    obtain ⟨e, he, hc⟩ := List.mem_flatMap.1 hc
    exact grow_valid (rows_valid h he).2 hc
  refine ⟨LCA.ofList (runCellCalls n cells.level ((cells.rows n).flatMap fun e => grow w e.1 e.2)), ?_,
    C06_wellformed n _ _ hi hv, ?_, fun p => ?_⟩
  · unfold uniformGhosts
    rw [h1]
  · rw [ofList_level]
    exact (runCellCalls_spec n cells.level _ hi).2.2.2.2
  · rw [C06_content n _ _ hi]
    constructor
    · rintro ⟨c, hc, ha⟩
      obtain ⟨e, he, hc⟩ := List.mem_flatMap.1 hc
      obtain ⟨x, hx, hn⟩ := (grow_adds (rows_valid h he).2).1 ⟨c, hc, ha⟩
      exact ⟨_, (mem_iff_rows h _).2 ⟨e, he, x, hx, rfl⟩, hn⟩
    · rintro ⟨q, hq, hn⟩
      obtain ⟨e, he, x, hx, rfl⟩ := (mem_iff_rows h _).1 hq
      obtain ⟨c, hc, ha⟩ := (grow_adds (rows_valid h he).2).2 ⟨x, hx, hn⟩
      exact ⟨c, List.mem_flatMap.2 ⟨e, he, hc⟩, ha⟩

/-! ### subdomain -/

theorem shiftLeft_mem_shift {i : Interval} {k : Nat} {x : Int} :
    x ∈ i.shiftLeft k ↔ shr x k ∈ i := mem_shiftLeft

theorem constructSubdomain_spec {n : Nat} {cells : CA} (h : cells.WF n) {minL maxL : Nat} (hb : cells.Between n minL maxL) :
    ∃ S, constructSubdomain n cells maxL = some S ∧ S.WF n ∧ S.level = maxL ∧
      ∀ p, S.Mem n p ↔ ∃ l q, cells.Mem n l q ∧ Anc (maxL - l) q p := by
  let g : Nat → List Int → Interval → List (Nat × CellCall) := fun l yz i =>
      (nestedIndices (2 ^ (maxL - l)) yz.length).map fun st =>
        (l, .interval (List.zipWith (fun y s => shl y (maxL - l) + s) yz st) (i.shiftLeft (maxL - l)))
  have h1 : collectCalls n g cells = _ := collectCalls_spec h g
  have hrow : ∀ l yz i, (l, yz, i) ∈ cells.rows n → l ≤ cells.maxSize ∧ yz.length = n ∧ i.start < i.stop ∧
      ∀ x ∈ i, cells.Mem n l (yz ++ [x]) := by
    intro l yz i hr
    obtain ⟨hl, hr'⟩ := CA.mem_rows.1 hr
    have := rows_valid (h l hl) hr'
    exact ⟨hl, this.1, this.2, fun x hx => ⟨hl, (mem_iff_rows (h l hl) _).2 ⟨_, hr', x, hx, rfl⟩⟩⟩
  have hle : ∀ e ∈ (cells.rows n).flatMap (fun e => g e.1 e.2.1 e.2.2), e.1 ≤ maxL ∧ e.2.idx.length = n ∧ e.2.Valid := by
    intro e he
    obtain ⟨⟨l, yz, i⟩, hr, he⟩ := List.mem_flatMap.1 he
    obtain ⟨st, hst, rfl⟩ := List.mem_map.1 he
    obtain ⟨_, r1, r2, r3⟩ := hrow l yz i hr
    have hs := (mem_nestedIndices.1 hst).1
    have := (hb l _ (r3 i.start (Interval.mem_def.2 ⟨le_rfl, r2⟩))).2
    refine ⟨this, ?_, ?_⟩
    · simp only [CellCall.idx, List.length_zipWith]
      simp only at hs
      omega
    · show (i.shiftLeft (maxL - l)).start < (i.shiftLeft (maxL - l)).stop
      simp only [Interval.shiftLeft]
      exact (shl_lt_shl (maxL - l)).2 r2
  let hist := (cells.rows n).flatMap (fun e => g e.1 e.2.1 e.2.2)
  have hi : ∀ c ∈ hist.map Prod.snd, c.idx.length = n := by
    intro c hc
    obtain ⟨e, he, rfl⟩ := List.mem_map.1 hc
    exact (hle e he).2.1
  have hv : ∀ c ∈ hist.map Prod.snd, c.Valid := by
    intro c hc
    obtain ⟨e, he, rfl⟩ := List.mem_map.1 hc
    exact (hle e he).2.2
  refine ⟨LCA.ofList (runCellCalls n maxL (hist.map Prod.snd)), ?_, C06_wellformed n _ _ hi hv, ?_, fun p => ?_⟩
  · unfold constructSubdomain
    show (match collectCalls n g cells with | none => none | some h => _) = _
    rw [h1]
    simp only []
    rw [if_pos]
    rw [List.all_eq_true]
    intro e he
    simpa using (hle e he).1
  · rw [ofList_level]
    exact (runCellCalls_spec n maxL _ hi).2.2.2.2
  · rw [C06_content n _ _ hi]
    constructor
    · rintro ⟨c, hc, ha⟩
      obtain ⟨e, he, rfl⟩ := List.mem_map.1 hc
      obtain ⟨⟨l, yz, i⟩, hr, he⟩ := List.mem_flatMap.1 he
      obtain ⟨st, hst, rfl⟩ := List.mem_map.1 he
      obtain ⟨x, x1, x2, rfl⟩ := ha
      obtain ⟨_, r1, r2, r3⟩ := hrow l yz i hr
      have hx : x ∈ i.shiftLeft (maxL - l) := ⟨x1, x2⟩
      rw [mem_shiftLeft] at hx
      refine ⟨l, _, r3 _ hx, anc_iff.2 ?_⟩
      rw [List.map_append, ← forall₂_ancestor.1 (zipWith_ancestor.1 ⟨st, hst, rfl⟩)]
      rfl
    · rintro ⟨l, q, hq, ha⟩
      obtain ⟨yz, i, x, hr, hx, rfl⟩ := (CA.mem_iff_rows h).1 hq
      have ha := anc_iff.1 ha
      have hl : p.length = yz.length + 1 := by
        have := congrArg List.length ha
        simpa using this.symm
      obtain ⟨r, y, rfl⟩ : ∃ r y, p = r ++ [y] := by
        rcases List.eq_nil_or_concat p with rfl | ⟨r, y, rfl⟩
        · simp at hl
        · exact ⟨r, y, by simp⟩
      rw [List.map_append, List.map_singleton] at ha
      obtain ⟨a1, rfl⟩ := snoc_inj ha
      obtain ⟨st, hst, hz⟩ := zipWith_ancestor.2 (forall₂_ancestor.2 a1)
      have hy := mem_shiftLeft.2 hx
      refine ⟨_, List.mem_map.2 ⟨_, List.mem_flatMap.2 ⟨(l, yz, i), hr, List.mem_map.2 ⟨st, hst, rfl⟩⟩, rfl⟩, y, hy.1, hy.2, ?_⟩
      rw [hz]


theorem uniformMesh_spec {n w : Nat} {cells : LCA} (h : cells.WF n) :
    ∃ c ref, uniformMesh n w cells = some (c, ref) ∧ c.WF n ∧ ref.WF n ∧ (∀ p, c.Mem n p ↔ cells.Mem n p) ∧
      (∀ p, ref.Mem n p ↔ ∃ q, cells.Mem n q ∧ Near w p q) ∧
      (ref.numbered n).map Prod.snd = (List.range ref.nbCells).map (fun (k : Nat) => (k : Int)) ∧
      ∀ yz x, cells.Mem n (yz ++ [x]) → getIndex c n yz x = getIndex ref n yz x := by
  obtain ⟨g, g1, g2, g3, g4⟩ := uniformGhosts_spec (w := w) h
  obtain ⟨ref, r1, r2, _, r4, r5, r6⟩ := updateIndex_spec g2
  have hsub : ∀ p, cells.Mem n p → ref.Mem n p := fun p hp => (r4 p).2 ((g4 p).2 ⟨p, hp, near_refl _ _⟩)
  let f : Bool → List Int → Interval → Bool × Interval := fun ok yz i =>
    match getInterval ref n (yz ++ [i.start]) with
    | none => (false, i)
    | some r => (ok, { i with index := r.index })
  let t : List Int × Interval → Interval := fun e => (f true e.1 e.2).2
  have hin : ∀ e ∈ cells.rows n, ∃ j, (e.1, j) ∈ ref.rows n ∧ (∀ x ∈ e.2, x ∈ j) ∧
      f true e.1 e.2 = (true, { e.2 with index := j.index }) := by
    intro e he
    have hv := (rows_valid h he).2
    obtain ⟨j, h1, h2⟩ := same_interval r2 (fun x hx => hsub _ ((mem_iff_rows h _).2 ⟨e, he, x, hx, rfl⟩)) hv
    have := getInterval_row r2 h1 (h2 _ (Interval.mem_def.2 ⟨le_rfl, hv⟩))
    exact ⟨j, h1, h2, by simp only [f, this]⟩
  obtain ⟨L', v1, v2, v3, v4, v5⟩ := forEachInterval_spec h f true
  rw [visit_pure f true t _ (by
    intro e he
    obtain ⟨j, _, _, hj⟩ := hin e he
    simp only [t, hj])] at v1 v5
  have hb : bounds (L'.cells 0) = bounds (cells.cells 0) := by
    rw [v5, ← rows_map_snd h]
    unfold bounds
    rw [List.map_map, List.map_map]
    apply List.map_congr_left
    intro e he
    obtain ⟨j, _, _, hj⟩ := hin e he
    simp only [Function.comp, t, hj]
  obtain ⟨w1, w2⟩ := reindex h v3 v4 hb
  have hrows := rows_reindex h w1 v3 v4 t v5
  refine ⟨L', ref, ?_, w1, r2, w2, fun p => (r4 p).trans (g4 p), ?_, ?_⟩
  · have hu : uniformRenumber n ref cells = some L' := by
      unfold uniformRenumber
      show (match forEachInterval n f cells true with | some (c, true) => some c | _ => none) = _
      rw [v1]
    unfold uniformMesh
    rw [g1]
    simp only []
    rw [r1]
    simp only []
    rw [hu]
  · rw [numbered_snd r2, indexFrom_numbers r6, ← nbCells_eq]
    simp
  · intro yz x hx
    obtain ⟨e, he, y, hy, heq⟩ := (mem_iff_rows h _).1 hx
    obtain ⟨h4, rfl⟩ := snoc_inj heq
    obtain ⟨j, e1, e2, e3⟩ := hin e he
    have ht : t e = { e.2 with index := j.index } := by simp only [t, e3]
    have hrow : (yz, t e) ∈ L'.rows n := by
      rw [hrows, h4]
      exact List.mem_map.2 ⟨e, he, rfl⟩
    unfold getIndex
    rw [getInterval_row w1 hrow (by rw [ht]; exact hy), h4, getInterval_row r2 e1 (e2 _ hy), ht]
    rfl

end Samurai

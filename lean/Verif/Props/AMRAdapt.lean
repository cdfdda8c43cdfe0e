/-
C79: mesh adaptation of AMR meshes (`graduation` then `update_field`).
-/
import Verif.Lemmas.AMRStep
import Verif.Props.Adapt
import Verif.Props.Graduation
import Verif.Props.Interface
import Verif.Props.AdaptWidth

namespace Samurai

variable {K : Type} [Field K]

/-- An AMR mesh on good leaves. -/
structure AMRInv (n : Nat) (cfg : MeshConfig) (near : List Int → List Int → Prop) (dom : LCA) (minL maxL : Nat) (m : AMRMeshes) (u : CA) : Prop where
  mesh : ∃ c0, AMRMeshOK n cfg c0 dom minL m u ∧ c0.WF n
  leaves : AMRLeaves n near m.cells dom minL maxL

section step

variable {n gw g : Nat} {cfg : MeshConfig} {near : List Int → List Int → Prop} {S : List (Nat → Int)} {dom : LCA} {minL maxL : Nat}
  {m : AMRMeshes} {u : CA}

theorem AMRInv.sets (h : AMRInv n cfg near dom minL maxL m u) (hS : GradStencilOK n g S)
    (hd : GoodDomain n dom minL maxL (cfg.ghostWidth + cfg.predictionOrder + g + 4)) : AMRSets n S m.cells m.all maxL := by
  obtain ⟨c0, hc, hw⟩ := h.mesh
  obtain ⟨D, d1, d2, d3⟩ := hd.range
  have b0 := h.leaves.below d3
  have b1 := hc.below hw b0 h.leaves.between
  have hp := pow_two_pos maxL
  have h0 : (0 : Int) ≤ ((cfg.ghostWidth : Int) + cfg.predictionOrder + 1) * 2 ^ maxL := by positivity
  refine amrSets (g := g) h.leaves.wf hc.wf h.leaves.leveled hc.allLevels.2 h.leaves.size
    (by rw [hc.allLevels.1, ← hc.cellsLevels.1]; exact h.leaves.size)
    (D := D + ((cfg.ghostWidth : Int) + cfg.predictionOrder + 1) * 2 ^ maxL) (by omega) ?_ (fun l p hp x hx => ?_) b1
    fun s hs d => (hS s hs d).1
  · push_cast at d2
    linarith
  · have := b0 l p hp x hx
    omega

theorem AMRInv.graduation (h : AMRInv n cfg near dom minL maxL m u) (hS : GradStencilOK n g S)
    (hd : GoodDomain n dom minL maxL (cfg.ghostWidth + cfg.predictionOrder + g + 4)) (hmin : 1 ≤ minL) (h1 : 1 ≤ cfg.ghostWidth) (hg : gw ≤ cfg.ghostWidth)
    (t : TagField) : ∃ t', graduation n gw maxL S m.cells m.all t = some t' ∧ GraduatedTags n gw S m.cells m.all t t' := by
  obtain ⟨c0, hc, hw⟩ := h.mesh
  obtain ⟨t', e1, e2, e3, e4⟩ := graduation_spec (gw := gw) (h.sets hS hd) (hc.room h.leaves.noOverlap h1 hg) (fun hn s hs => (hS s hs 0).2.2 hn)
    (fun p hp => by have := (h.leaves.between 0 p hp).1; omega) (fun l p hl hp => by have := (h.leaves.between l p hp).2; omega) t
  exact ⟨t', e1, e2, e3, e4⟩

theorem amr_step (hn : near = FaceNeighbours ∨ near = Near 1) (h : AMRInv n cfg near dom minL maxL m u) (hS : GradStencilOK n g S) (hR : Reaches n near S)
    (hd : GoodDomain n dom minL maxL (cfg.ghostWidth + cfg.predictionOrder + g + 4)) (hmin : 1 ≤ minL) (hmm : minL ≤ maxL) (hgw : 1 ≤ gw)
    (hg : gw ≤ cfg.ghostWidth) {t : TagField} (ht : AllTagged n m.cells t) (f : CellField K) :
    ∃ b m' u' f', amrAdapt n cfg gw minL maxL S dom t m u f = some (b, m', u', f') ∧ AMRInv n cfg near dom minL maxL m' u' ∧
      (∀ l p, m'.cells.Mem n l p ↔ ∃ l' q, m.cells.Mem n l' q ∧
        NewLeaf minL maxL (MustRefine n S m.cells t l' q) (MustKeep n gw S m.cells m.all t l' q) l' q l p) ∧
      Transferred n cfg.predictionOrder m.cells m'.cells f f' ∧ (n ≤ 2 → CharZero K → integral n m'.cells f' = integral n m.cells f) ∧
      (b = true → m' = m ∧ u' = u ∧ f' = f) := by
  have hr := nearRel_of hn
  have L := h.leaves
  obtain ⟨c0, hc, hw⟩ := h.mesh
  obtain ⟨t', e1, e2⟩ := h.graduation hS hd hmin (by omega) hg t
  obtain ⟨D, d1, d2, d3⟩ := hd.range
  have room := hc.room L.noOverlap (by omega) hg
  have hset : TagsSet n m.cells (tagArray n m.all t') := by
    intro l p v hv
    obtain ⟨hm, rfl⟩ := (hc.leafTag t').1 hv
    rw [asks_refine, asks_keep, asks_coarsen]
    have h1 := ht l p hm
    rw [hasKeep_iff, hasRefine_iff, hasCoarsen_iff] at h1
    have h2 : t.Keep l p → t'.Keep l p := fun h => (e2.keep _ _).2 (.criterion (hasKeep_iff.2 h))
    have h3 : t.Refine l p → t'.Refine l p := fun h => (e2.refine _ _).2 (.criterion (hasRefine_iff.2 h))
    have h4 := (e2.coarsen l p).2
    tauto
  have hsib : SiblingsAgree n m.cells minL (tagArray n m.all t') := by
    intro l p v hl hv ha r q hr' hq
    obtain ⟨hm, rfl⟩ := (hc.leafTag t').1 hv
    obtain ⟨a1, a2, a3⟩ := asks_coarsen.1 ha
    obtain ⟨k1, k2, k3⟩ := graduated_siblings hr L room hd.whole e2 hl hm a2 (q := q) (by rw [anc_one.1 hr', anc_one.1 hq])
    refine ⟨t' l q, (hc.leafTag t').2 ⟨k1, rfl⟩, asks_coarsen.2 ⟨k3, k2, ?_⟩⟩
    rcases hset l q _ ((hc.leafTag t').2 ⟨k1, rfl⟩) with k | k | k
    · exact absurd (asks_refine.1 k) k3
    · exact absurd (asks_keep.1 k).2 k2
    · exact (asks_coarsen.1 k).2.2
  obtain ⟨b, m', u', f', k1, k2, k3, k4, k5, k6, k7⟩ := updateField_spec (cfg := cfg) (u := u) L.wf L.leveled L.size L.between hmin hmm hd.wf hd.level d1
    (by
      push_cast at d2
      have hp := pow_two_pos maxL
      have : (0 : Int) ≤ (g : Int) * 2 ^ maxL := by positivity
      linarith) (L.below d3) (GoodDomain.belowAt d3) L.noOverlap L.some hset f
  obtain ⟨t1, t2, t3⟩ := update_tiling L.wf L.between L.noOverlap hset hsib k3
  have htile : ∀ c, m'.cells.Tiles n maxL c ↔ InDomain n dom maxL c := fun c => (t3 maxL c le_rfl).trans (L.tiles c)
  have hgr := graduated_graded hr L hgw hR e2 (fun l p v => hc.leafTag t') hsib t1 k3
  refine ⟨b, m', u', f', ?_, ?_, fun l p => ?_, k4 t2, fun hn2 _ => ?_, k6⟩
  · unfold amrAdapt
    rw [e1]
    exact k1
  · rcases k7 with ⟨rfl, rfl⟩ | ⟨new, r1, r2, r3⟩
    · exact ⟨⟨c0, hc, hw⟩, ⟨L.wf, L.leveled, L.size, t1, t2, hgr, htile, k5⟩⟩
    · exact ⟨⟨new, r1, r2⟩, ⟨k2, r1.cellsLevels.2, by rw [r1.cellsLevels.1, r3]; exact L.size, t1, t2, hgr, htile, k5⟩⟩
  · rw [k3]
    constructor
    · rintro ⟨l', q, v, hv, hbc⟩
      obtain ⟨hm, rfl⟩ := (hc.leafTag t').1 hv
      refine ⟨l', q, hm, ?_⟩
      unfold NewLeaf
      rw [← e2.refine, ← e2.keep]
      rcases hbc with ⟨b1, b2, b3, b4⟩ | ⟨b1, b2, b3, b4⟩ | ⟨b1, b2, b3⟩
      · exact Or.inl ⟨asks_refine.1 b1, b2, b3, b4⟩
      · exact Or.inr (Or.inl ⟨(asks_coarsen.1 b1).1, (asks_coarsen.1 b1).2.1, b2, b3, b4⟩)
      · refine Or.inr (Or.inr ⟨fun k => ?_, fun k k' => ?_, b2, b3⟩)
        · rcases b1 with b1 | b1 | b1
          · exact b1.2
          · exact absurd k (asks_keep.1 b1).1
          · exact absurd k (asks_coarsen.1 b1.1).1
        · rcases b1 with b1 | b1 | b1
          · exact absurd (asks_refine.1 b1.1) k
          · exact absurd (asks_keep.1 b1).2 k'
          · exact b1.2
    · rintro ⟨l', q, hm, hnl⟩
      refine ⟨l', q, _, (hc.leafTag t').2 ⟨hm, rfl⟩, ?_⟩
      unfold NewLeaf at hnl
      rw [← e2.refine, ← e2.keep] at hnl
      have hc3 : ¬ t'.Refine l' q → ¬ t'.Keep l' q → AsksCoarsen (t' l' q) := by
        intro k k'
        rcases hset l' q _ ((hc.leafTag t').2 ⟨hm, rfl⟩) with h | h | h
        · exact absurd (asks_refine.1 h) k
        · exact absurd (asks_keep.1 h).2 k'
        · exact h
      rcases hnl with ⟨b1, b2, b3, b4⟩ | ⟨b1, b1', b2, b3, b4⟩ | ⟨b1, b1', b2, b3⟩
      · exact Or.inl ⟨asks_refine.2 b1, b2, b3, b4⟩
      · exact Or.inr (Or.inl ⟨hc3 b1 b1', b2, b3, b4⟩)
      · refine Or.inr (Or.inr ⟨?_, b2, b3⟩)
        by_cases hrf : t'.Refine l' q
        · exact Or.inl ⟨asks_refine.2 hrf, b1 hrf⟩
        · by_cases hk : t'.Keep l' q
          · exact Or.inr (Or.inl (asks_keep.2 ⟨hrf, hk⟩))
          · exact Or.inr (Or.inr ⟨hc3 hrf hk, b1' hrf hk⟩)
  · exact integral_transferred hn2 L.wf k2 L.between L.noOverlap hset hsib k3 (k4 t2)

theorem amr_run (hn : near = FaceNeighbours ∨ near = Near 1) (hS : GradStencilOK n g S) (hR : Reaches n near S)
    (hd : GoodDomain n dom minL maxL (cfg.ghostWidth + cfg.predictionOrder + g + 4)) (hmin : 1 ≤ minL) (hmm : minL ≤ maxL) (hgw : 1 ≤ gw)
    (hg : gw ≤ cfg.ghostWidth) : ∀ (turns : List (AMRTurn K)) (_ : ∀ c ∈ turns, ∀ m f, AllTagged n m.cells (c.tags m f)) (m : AMRMeshes) (u : CA)
      (f : CellField K), AMRInv n cfg near dom minL maxL m u →
      ∃ m' u' f', runAmr n cfg gw minL maxL S dom turns m u f = some (m', u', f') ∧ AMRInv n cfg near dom minL maxL m' u'
  | [], _, m, u, f, h => ⟨m, u, f, rfl, h⟩
  | c :: turns, ht, m, u, f, h => by
    obtain ⟨b, m1, u1, f1, e1, e2, _⟩ := amr_step hn h hS hR hd hmin hmm hgw hg (ht c (by simp) m f) (c.field m f)
    obtain ⟨m', u', f', k1, k2⟩ := amr_run hn hS hR hd hmin hmm hgw hg turns (fun c hc => ht c (by simp [hc])) m1 u1 f1 e2
    refine ⟨m', u', f', ?_, k2⟩
    unfold runAmr
    rw [e1]
    exact k1

theorem amr_start {cells : CA} (hd : GoodDomain n dom minL maxL (cfg.ghostWidth + cfg.predictionOrder + g + 4)) (hmin : 1 ≤ minL)
    (hc : AMRLeaves n near cells dom minL maxL) : ∃ m u, amrMesh n cfg cells dom minL maxL = some (m, u) ∧ AMRInv n cfg near dom minL maxL m u := by
  obtain ⟨D, d1, d2, d3⟩ := hd.range
  have hp := pow_two_pos maxL
  obtain ⟨m, u, r1, r2⟩ := amrMesh_spec (cfg := cfg) (dom := dom) (minL := minL) hc.wf hc.leveled hc.between hc.size d1 (by
    push_cast at d2
    have : (0 : Int) ≤ (g : Int) * 2 ^ maxL := by positivity
    linarith) (hc.below d3) hd.wf hd.level (GoodDomain.belowAt d3) hc.some (fun l p hp => by have := (hc.between l p hp).1; omega)
  obtain ⟨m0, c1, c2, _⟩ := r2.content
  refine ⟨m, u, r1, ⟨cells, r2, hc.wf⟩, ⟨r2.cellsWF, r2.cellsLevels.2, by rw [r2.cellsLevels.1]; exact hc.size, ?_, ?_, ?_, ?_, ?_⟩⟩
  · exact fun l p hp => hc.between l p ((c2 l p).1 hp)
  · exact fun l p l' p' h1 h2 h3 h4 => hc.noOverlap l p l' p' ((c2 _ _).1 h1) ((c2 _ _).1 h2) h3 h4
  · exact fun l p l' p' q h1 h2 h3 h4 h5 => hc.graded l p l' p' q ((c2 _ _).1 h1) ((c2 _ _).1 h2) h3 h4 h5
  · intro c
    rw [← hc.tiles]
    unfold CA.Tiles
    simp only [c2]
  · obtain ⟨l, p, hp⟩ := hc.some
    exact ⟨l, p, (c2 l p).2 hp⟩

end step

/-- C79. Any number of turns of the adaptation loop, with any tags that flag every leaf and any changes of the field between them, succeed on an AMR
mesh and keep it a mesh of leaves that tile the domain, without overlap, with levels in `[min_level, max_level]`, graded for the neighbours that the
stencil reaches. -/
theorem C79_history (n gw g : Nat) (cfg : MeshConfig) (near : List Int → List Int → Prop) (hn : near = FaceNeighbours ∨ near = Near 1)
    (S : List (Nat → Int)) (hS : GradStencilOK n g S) (hR : Reaches n near S) (dom : LCA) (minL maxL : Nat)
    (hd : GoodDomain n dom minL maxL (cfg.ghostWidth + cfg.predictionOrder + g + 4)) (hmin : 1 ≤ minL) (hmm : minL ≤ maxL) (hgw : 1 ≤ gw)
    (hg : gw ≤ cfg.ghostWidth) (cells : CA) (hc : AMRLeaves n near cells dom minL maxL) (f : CellField K) (turns : List (AMRTurn K))
    (ht : ∀ c ∈ turns, ∀ m f, AllTagged n m.cells (c.tags m f)) :
    ∃ m0 u0 m u f', amrMesh n cfg cells dom minL maxL = some (m0, u0) ∧ runAmr n cfg gw minL maxL S dom turns m0 u0 f = some (m, u, f') ∧
      AMRLeaves n near m.cells dom minL maxL := by
  obtain ⟨m0, u0, e1, e2⟩ := amr_start hd hmin hc
  obtain ⟨m, u, f', e3, e4⟩ := amr_run hn hS hR hd hmin hmm hgw hg turns ht m0 u0 f e2
  exact ⟨m0, u0, m, u, f', e1, e3, e4.leaves⟩

/-- C79. What `graduation` does to the tags of the mesh after any history: it never takes a flag away, the flags `refine` and `keep` are the least sets
closed under its rules, the flags `coarsen` do not change. -/
theorem C79_tags (n gw g : Nat) (cfg : MeshConfig) (near : List Int → List Int → Prop) (hn : near = FaceNeighbours ∨ near = Near 1)
    (S : List (Nat → Int)) (hS : GradStencilOK n g S) (hR : Reaches n near S) (dom : LCA) (minL maxL : Nat)
    (hd : GoodDomain n dom minL maxL (cfg.ghostWidth + cfg.predictionOrder + g + 4)) (hmin : 1 ≤ minL) (hmm : minL ≤ maxL) (hgw : 1 ≤ gw)
    (hg : gw ≤ cfg.ghostWidth) (cells : CA) (hc : AMRLeaves n near cells dom minL maxL) (f : CellField K) (turns : List (AMRTurn K))
    (ht : ∀ c ∈ turns, ∀ m f, AllTagged n m.cells (c.tags m f)) :
    ∃ m0 u0 m u f', amrMesh n cfg cells dom minL maxL = some (m0, u0) ∧ runAmr n cfg gw minL maxL S dom turns m0 u0 f = some (m, u, f') ∧
      ∀ t, ∃ t', graduation n gw maxL S m.cells m.all t = some t' ∧ ∀ l p, (HasCoarsen t' l p ↔ HasCoarsen t l p) ∧
        (HasRefine t' l p ↔ MustRefine n S m.cells t l p) ∧ (HasKeep t' l p ↔ MustKeep n gw S m.cells m.all t l p) := by
  obtain ⟨m0, u0, e1, e2⟩ := amr_start hd hmin hc
  obtain ⟨m, u, f', e3, e4⟩ := amr_run hn hS hR hd hmin hmm hgw hg turns ht m0 u0 f e2
  refine ⟨m0, u0, m, u, f', e1, e3, fun t => ?_⟩
  obtain ⟨t', k1, k2⟩ := e4.graduation hS hd hmin (by omega) hg t
  refine ⟨t', k1, fun l p => ?_⟩
  rw [hasCoarsen_iff, hasCoarsen_iff, hasRefine_iff, hasKeep_iff]
  exact ⟨k2.coarsen l p, k2.refine l p, k2.keep l p⟩

/-- C79. One turn of the adaptation loop after any history: the new leaves are those the completed flags ask for; a leaf that stays keeps its value, a
coarsened leaf gets the mean of its children, a refined leaf gives its children the predicted values; the integral of the field does not change; the
returned value `true` means that nothing changed. -/
theorem C79_step [CharZero K] (n gw g : Nat) (hn2 : n ≤ 2) (cfg : MeshConfig) (near : List Int → List Int → Prop)
    (hn : near = FaceNeighbours ∨ near = Near 1) (S : List (Nat → Int)) (hS : GradStencilOK n g S) (hR : Reaches n near S) (dom : LCA) (minL maxL : Nat)
    (hd : GoodDomain n dom minL maxL (cfg.ghostWidth + cfg.predictionOrder + g + 4)) (hmin : 1 ≤ minL) (hmm : minL ≤ maxL) (hgw : 1 ≤ gw)
    (hg : gw ≤ cfg.ghostWidth) (cells : CA) (hc : AMRLeaves n near cells dom minL maxL) (f : CellField K) (turns : List (AMRTurn K))
    (ht : ∀ c ∈ turns, ∀ m f, AllTagged n m.cells (c.tags m f)) :
    ∃ m0 u0 m u f1, amrMesh n cfg cells dom minL maxL = some (m0, u0) ∧ runAmr n cfg gw minL maxL S dom turns m0 u0 f = some (m, u, f1) ∧
      ∀ t, AllTagged n m.cells t → ∀ f : CellField K, ∃ b m' u' f', amrAdapt n cfg gw minL maxL S dom t m u f = some (b, m', u', f') ∧
        AMRLeaves n near m'.cells dom minL maxL ∧
        (∀ l p, m'.cells.Mem n l p ↔ ∃ l' q, m.cells.Mem n l' q ∧
          NewLeaf minL maxL (MustRefine n S m.cells t l' q) (MustKeep n gw S m.cells m.all t l' q) l' q l p) ∧
        (∀ l p, m.cells.Mem n l p → m'.cells.Mem n l p → f' l p = f l p) ∧
        (∀ l p q, m'.cells.Mem n l p → m.cells.Mem n (l + 1) q → Anc 1 p q →
          f' l p = (1 / 2) ^ (n + 1) * ((childrenOf p).map fun c => f (l + 1) c).sum) ∧
        (∀ l p q, m.cells.Mem n l p → m'.cells.Mem n (l + 1) q → Anc 1 p q →
          f' (l + 1) q = predictChild (n + 1) cfg.predictionOrder (f.at (n + 1) l) (toPt p) fun d => isOdd (toPt q d)) ∧
        integral n m'.cells f' = integral n m.cells f ∧ (b = true → m' = m ∧ u' = u ∧ f' = f) := by
  obtain ⟨m0, u0, e1, e2⟩ := amr_start hd hmin hc
  obtain ⟨m, u, f1, e3, e4⟩ := amr_run hn hS hR hd hmin hmm hgw hg turns ht m0 u0 f e2
  refine ⟨m0, u0, m, u, f1, e1, e3, fun t htt f => ?_⟩
  obtain ⟨b, m', u', f', k1, k2, k3, k4, k5, k6⟩ := amr_step hn e4 hS hR hd hmin hmm hgw hg htt f
  refine ⟨b, m', u', f', k1, k2.leaves, k3, k4.kept, fun l p q j1 j2 j3 => ?_, fun l p q j1 j2 j3 => ?_, k5 hn2 inferInstance, k6⟩
  · rw [k4.coarse l p q j1 j2 j3, project_mean n hn2 f l (mem_length j1.2)]
  · rw [k4.fine l p q j1 j2 j3]
    unfold predicted
    rw [← anc_iff.1 j3]

/-! ### stencils -/

theorem reaches_of {n : Nat} {near : List Int → List Int → Prop} {S : List (Nat → Int)}
    (h : ∀ y z, y.length = n + 1 → near z y → ∃ s ∈ S, parentOf (shiftPoint s n y) = parentOf z) : Reaches n near S := by
  intro y z hy hz _
  obtain ⟨s, h1, h2⟩ := h y z hy hz
  exact ⟨s, h1, _, anc_one.2 rfl, anc_one.2 h2⟩

/-- C79. The star stencil of radius one, dimensions 1 to 3: the meshes stay graded through faces. -/
theorem C79_star (n : Nat) (S : List (Nat → Int)) (hS : starStencil n 1 = some S) :
    GradStencilOK n 1 S ∧ Reaches n FaceNeighbours S ∧ ∀ c : CA, c.GradedBy n FaceNeighbours ↔ c.FaceGraded n := by
  refine ⟨fun s hs d => ?_, reaches_of fun y z hy hz => ?_, fun _ => Iff.rfl⟩
  · have := star_unit hS s hs d
    push_cast
    exact ⟨by omega, by omega, fun _ => by omega⟩
  · obtain ⟨s, h1, rfl⟩ := (star_reaches hS hy).2 (Or.inr hz)
    exact ⟨s, h1, rfl⟩

/-- C79. The stencil of the diagonals, dimensions 1 to 3: the meshes stay graded through faces, edges and corners. -/
theorem C79_diagonals (n : Nat) (hn : n ≤ 2) :
    GradStencilOK n 1 (gradStencils n 1) ∧ Reaches n (Near 1) (gradStencils n 1) ∧ ∀ c : CA, c.GradedBy n (Near 1) ↔ c.Graded n := by
  refine ⟨fun s hs d => ?_, reaches_of fun y z hy hz => ?_, fun _ => Iff.rfl⟩
  · have hb : ∀ s ∈ gradStencils n 1, ∀ d, s d ≤ 1 ∧ -1 ≤ s d := by
      intro s hs d
      obtain ⟨v, hv, rfl⟩ := List.mem_map.1 hs
      have key : ∀ L : List Int, (∀ x ∈ L, x ≤ 1 ∧ -1 ≤ x) → L.getD d 0 ≤ 1 ∧ -1 ≤ L.getD d 0 := by
        intro L hL
        rw [List.getD_eq_getElem?_getD]
        rcases h : L[d]? with _ | x
        · simp
        · simpa using hL x (List.mem_of_getElem? h)
      rcases n with _ | _ | n <;> unfold boxDir at hv <;> simp only [List.mem_cons, List.not_mem_nil, or_false] at hv
      · rcases hv with rfl | rfl <;> simp
      · rcases hv with rfl | rfl | rfl | rfl <;> simpa using key _ (by decide)
      · rcases hv with rfl | rfl | rfl | rfl | rfl | rfl | rfl | rfl <;> simpa using key _ (by decide)
    have := hb s hs d
    push_cast
    exact ⟨by omega, by omega, fun _ => by omega⟩
  · obtain ⟨s, h1, h2, _⟩ := exists_dir hn hy hz
    exact ⟨s, h1, h2⟩

/-! ### meshes meeting the hypotheses -/

theorem GoodLeaves.amr {n : Nat} {cells : CA} {dom : LCA} {minL maxL : Nat} (h : GoodLeaves n cells dom minL maxL) {near : List Int → List Int → Prop}
    (hn : near = FaceNeighbours ∨ near = Near 1) (hne : ∃ l p, cells.Mem n l p) : AMRLeaves n near cells dom minL maxL :=
  ⟨h.wf, h.leveled, h.size, h.between, h.noOverlap, fun l p l' p' q h1 h2 h3 h4 h5 => h.graded l p l' p' q h1 h2 h3 ((nearRel_of hn).touch h4) h5,
    h.tiles, hne⟩

/-- The tags of the examples: refine a level, keep the others. -/
def refineTags (k : Nat) : TagField := fun l _ => if l = k then 4#32 else 1#32

theorem refineTags_all (n : Nat) (cells : CA) (k : Nat) : AllTagged n cells (refineTags k) := by
  intro l p _
  unfold HasKeep HasRefine refineTags
  by_cases h : l = k
  · right; left; rw [if_pos h]; decide
  · left; rw [if_neg h]; decide

/-- In 2D, the L-shaped mesh with leaves of levels 1 and 2 and the star stencil meet the hypotheses; with the leaves of level 1 to refine the mesh
changes. -/
example : ∃ S, starStencil 1 1 = some S ∧ ∃ m u m' u' f', amrMesh 1 ⟨1, 1⟩ exampleMesh exampleDomain 1 2 = some (m, u) ∧
    amrAdapt 1 ⟨1, 1⟩ 1 1 2 S exampleDomain (refineTags 1) m u (fun _ _ => (1 : ℚ)) = some (false, m', u', f') ∧ m'.cells.Mem 1 2 [1, 0] := by
  refine ⟨_, rfl, ?_⟩
  obtain ⟨s1, s2, _⟩ := C79_star 1 _ rfl
  obtain ⟨m, u, m1, u1, f1, e1, e2, e3⟩ := C79_step (K := ℚ) 1 1 1 (by omega) ⟨1, 1⟩ FaceNeighbours (Or.inl rfl) _ s1 s2 exampleDomain 1 2
    (exampleDomain_good 7 (by omega)) (by omega) (by omega) (by omega) (by decide) exampleMesh
    (exampleLeaves_good.amr (Or.inl rfl) ⟨1, [0, 0], (exampleMesh_leaves _ _).2 (by simp)⟩) (fun _ _ => 1) [] (by simp)
  simp only [runAmr, Option.some.injEq, Prod.mk.injEq] at e2
  obtain ⟨rfl, rfl, rfl⟩ := e2
  obtain ⟨b, m', u', f', k1, k2, k3, _, _, _, _, k8⟩ := e3 (refineTags 1) (refineTags_all _ _ _) (fun _ _ => 1)
  obtain ⟨_, _, e4, e5⟩ := C24_amr_ghosts 1 ⟨1, 1⟩ exampleMesh exampleDomain 1 2 (by
    have hp := exampleMesh_proper
    obtain ⟨D, d1, d2, d3⟩ := (exampleDomain_good 5 (by omega)).range
    exact ⟨hp.wf, hp.leveled, hp.between, hp.size, (exampleDomain_good 5 (by omega)).wf, (exampleDomain_good 5 (by omega)).level, D, d1, d2,
      exampleLeaves_good.below d3, GoodDomain.belowAt d3⟩) ⟨1, [0, 0], (exampleMesh_leaves _ _).2 (by simp)⟩
    (fun p hp => by have := (exampleMesh_proper.between 0 p hp).1; omega)
  rw [e1] at e4
  simp only [Option.some.injEq, Prod.mk.injEq] at e4
  obtain ⟨rfl, rfl⟩ := e4
  have hm : m'.cells.Mem 1 2 [1, 0] := (k3 _ _).2 ⟨1, [0, 0], (e5.1 _ _).2 ((exampleMesh_leaves _ _).2 (by simp)),
    Or.inl ⟨.criterion (by unfold HasRefine refineTags; decide), by omega, rfl, anc_iff.2 (by decide)⟩⟩
  have hb : b = false := by
    cases b with
    | false => rfl
    | true =>
      obtain ⟨rfl, -⟩ := k8 rfl
      have := (e5.1 _ _).1 hm
      rw [exampleMesh_leaves] at this
      simp at this
  exact ⟨m, u, m', u', f', e1, by rw [← hb]; exact k1, hm⟩

/-- In 1D, the leaves of levels 2, 3, 4 and the stencil of AMR_Burgers_Hat.cpp; the leaf of level 3 is to be refined: its neighbour of level 2 is refined
too. -/
example : ∃ m u b m' u' f', amrMesh 0 ⟨1, 1⟩ widthLeaves widthDomain 1 4 = some (m, u) ∧
    amrAdapt 0 ⟨1, 1⟩ 1 1 4 [vec [1], vec [-1]] widthDomain (refineTags 3) m u (fun _ _ => (1 : ℚ)) = some (b, m', u', f') ∧ m'.cells.Mem 0 3 [0] := by
  have s1 : GradStencilOK 0 1 [vec [1], vec [-1]] := by
    intro s hs d
    simp only [List.mem_cons, List.not_mem_nil, or_false] at hs
    rcases hs with rfl | rfl <;> rcases d with _ | d <;> simp [vec]
  have s2 : Reaches 0 FaceNeighbours [vec [1], vec [-1]] := reaches_of fun y z hy hz => by
    match y, hy with
    | [y], _ =>
      have hl := faceNeighbours_length hz
      match z, hl with
      | [z], _ =>
        simp only [FaceNeighbours] at hz
        rcases hz with ⟨_, h⟩ | ⟨rfl | rfl, _⟩
        · exact h.elim
        · exact ⟨vec [1], by simp, by simp [shiftPoint, vec]⟩
        · exact ⟨vec [-1], by simp, by simp [shiftPoint, vec]⟩
  obtain ⟨m, u, m1, u1, f1, e1, e2, e3⟩ := C79_step (K := ℚ) 0 1 1 (by omega) ⟨1, 1⟩ FaceNeighbours (Or.inl rfl) _ s1 s2 widthDomain 1 4
    (widthDomain_good 7 (by omega)) (by omega) (by omega) (by omega) (by decide) widthLeaves
    (widthLeaves_good.amr (Or.inl rfl) ⟨2, [0], (widthLeaves_mem _ _).2 (by simp)⟩) (fun _ _ => 1) [] (by simp)
  simp only [runAmr, Option.some.injEq, Prod.mk.injEq] at e2
  obtain ⟨rfl, rfl, rfl⟩ := e2
  obtain ⟨b, m', u', f', k1, k2, k3, _⟩ := e3 (refineTags 3) (refineTags_all _ _ _) (fun _ _ => 1)
  obtain ⟨_, _, e4, e5⟩ := amr_start (cfg := ⟨1, 1⟩) (g := 1) (widthDomain_good 7 (by omega)) (by omega)
    (widthLeaves_good.amr (near := FaceNeighbours) (Or.inl rfl) ⟨2, [0], (widthLeaves_mem _ _).2 (by simp)⟩)
  have hw := widthLeaves_good
  obtain ⟨D, d1, d2, d3⟩ := (widthDomain_good 5 (by omega)).range
  obtain ⟨_, _, e4, e5⟩ := C24_amr_ghosts 0 ⟨1, 1⟩ widthLeaves widthDomain 1 4
    ⟨hw.wf, hw.leveled, hw.between, hw.size, (widthDomain_good 5 (by omega)).wf, (widthDomain_good 5 (by omega)).level, D, d1, d2,
      hw.below d3, GoodDomain.belowAt d3⟩ ⟨2, [0], (widthLeaves_mem _ _).2 (by simp)⟩
    (fun p hp => by have := (hw.between 0 p hp).1; omega)
  rw [e1] at e4
  simp only [Option.some.injEq, Prod.mk.injEq] at e4
  obtain ⟨rfl, rfl⟩ := e4
  refine ⟨m, u, b, m', u', f', e1, k1, (k3 _ _).2 ⟨2, [0], (e5.1 _ _).2 ((widthLeaves_mem _ _).2 (by simp)), Or.inl ⟨?_, by omega, rfl, anc_iff.2 (by decide)⟩⟩⟩
  exact .neighbour (c := [2]) (s := vec [-1]) ((e5.1 _ _).2 ((widthLeaves_mem _ _).2 (by simp))) (by simp)
    (.criterion (by unfold HasRefine refineTags; decide)) (anc_iff.2 (by decide)) ((e5.1 _ _).2 ((widthLeaves_mem _ _).2 (by simp)))

end Samurai

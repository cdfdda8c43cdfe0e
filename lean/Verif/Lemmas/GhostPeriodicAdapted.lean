import Verif.Lemmas.GhostPeriodic
import Verif.Lemmas.PeriodicGeo

namespace Samurai

section
variable {K : Type} [Field K] {n : Nat}

/-- The directions of a domain that is periodic in all the directions are skipped. -/
theorem updateBc_periodic {M : BcMesh K} (hP : ∀ d ≤ n, M.periodic d = true) (bcs : List (BcCond K)) {level : Nat} (hl : level ≤ M.dom.level) (u : Int → K) :
    updateBc n M bcs level u = some u := by
  have hfold : ∀ {α : Type} (L : List α) (f : (Int → K) → α → Option (Int → K)), (∀ u x, f u x = some u) → ∀ u, L.foldlM f u = some u := by
    intro α L
    induction L with
    | nil => intro f _ u; rfl
    | cons x L ih =>
      intro f hf u
      rw [List.foldlM_cons, hf u x]
      exact ih f hf u
  have htouch : ∀ dir : Nat → Int, numberOfOne n dir ≠ 0 → touchesPeriodic n M.periodic dir = true := by
    intro dir h
    unfold touchesPeriodic
    rw [List.any_eq_true]
    by_contra hc
    push Not at hc
    refine h ?_
    unfold numberOfOne
    refine List.sum_eq_zero fun x hx => ?_
    obtain ⟨d, hd, rfl⟩ := List.mem_map.1 hx
    have := hc d hd
    rw [hP d (by have := List.mem_range.1 hd; omega)] at this
    simpa using this
  have hdir : ∀ (c : BcCond K) (u : Int → K) (d : (Nat → Int) × LCA), applyBcDir n M c level u d = some u := by
    intro c u d
    unfold applyBcDir
    by_cases h : numberOfOne n d.1 = 0
    · have : isCartesian n d.1 = false := by
        unfold isCartesian
        unfold numberOfOne at h
        rw [h]; rfl
      rw [this, if_pos (by simp)]
    · rw [htouch d.1 h, if_pos (by simp)]
  have hex : ∀ size dg og (u : Int → K), applyExtrapolationBc n M size level dg og u = some u := by
    intro size dg og u
    unfold applyExtrapolationBc
    rw [if_neg (by omega)]
    refine hfold _ _ (fun u dir => ?_) u
    unfold applyExtrapolationDir
    by_cases h : numberOfOne n dir = 0
    · rw [if_pos (by simp [h])]
    · rw [if_pos (by simp [htouch dir h])]
  have hlayer : ∀ layers (dg : Nat → Bool) og (u : Int → K) layer, extrapolationLayer n M level layers dg og u layer = some u := by
    intro layers dg og u layer
    unfold extrapolationLayer
    split
    · exact hex _ _ _ u
    · rfl
  have h1 : updateBcGhosts n M level u = some u := by
    unfold updateBcGhosts
    split
    · exact hfold _ _ (hlayer _ _ _) u
    · rfl
  have h2 : updateBcUser n M bcs level u = some u := by
    unfold updateBcUser
    refine hfold _ _ (fun u c => ?_) u
    split
    · exact hfold _ _ (hdir c) u
    · rfl
  unfold updateBc
  rw [h1]
  simp only []
  rw [h2]
  exact hfold _ _ (hlayer _ _ _) u

variable {cells : CA} {dom : LCA} {minL maxL base : Nat} {b : Box} {P : Nat → Bool}

theorem perGrow_levels {cfg : MeshConfig} (hw : cells.WF n) (hb : cells.Between n minL maxL) {l : Nat} {p : List Int}
    (h : MRGrow n cells minL (PerBase n cfg cells base b P) l p) : minL ≤ l + 2 ∧ l ≤ maxL := by
  have key : ∀ l p, PerBase n cfg cells base b P l p → minL ≤ l + 2 ∧ l ≤ maxL := by
    intro l p hp
    obtain ⟨q, q1, _⟩ := perDirs_class (fun d hd => (mem_perDirs.1 hd).2) (fun p hp => mrBase_length hw hp) hp
    exact mrBase_level hb q1
  cases l with
  | zero => exact key 0 p h
  | succ l =>
    rcases h with h | ⟨_, h1, l', x, h2, hx, _⟩
    · exact key _ p h
    · have := hb _ x hx; omega

/-- What `update_ghost_mr` reads from a multiresolution mesh with the periodic directions `P`. -/
def mrGhostMeshPer (m : SubMeshes) (S dom : LCA) (minL maxL : Nat) (P : Nat → Bool) (h0 : K) (cfg : MeshConfig) : GhostMesh K :=
  ⟨⟨m.cells, m.all, dom, minL, maxL, P, h0, cfg⟩, m.proj, S⟩

theorem PerLeaves.inBox (g : PerLeaves n P base b cells dom minL maxL) {margin : Nat} (hB : ∃ D : Int, 0 ≤ D ∧ D + (margin : Int) * 2 ^ maxL + 2 < INT_MAX ∧
    ∀ d ≤ n, b.hi d * 2 ^ (maxL - base) ≤ D) : LeavesInBox n cells minL maxL base b margin :=
  ⟨g.good.wf, g.good.leveled, g.good.between, g.good.size, by have := g.coarse; omega, fun _ _ hp => g.leafIn hp, hB⟩

/-- The prediction stencil of a cell of the mesh that lies in a coarser leaf. -/
theorem PerLeaves.stencil (g : PerLeaves n P base b cells dom minL maxL) {cfg : MeshConfig} (hs : cfg.predictionOrder = 1) (hw : cfg.maxStencilWidth = 1)
    {l l0 : Nat} {p c : List Int} (hp : MRGrow n cells minL (PerBase n cfg cells base b P) l p) (h3 : l0 < l) (h4 : cells.Mem n l0 c)
    (h5 : Anc (l - l0) c p) : l = l0 + 1 ∧ cells.Mem n (l - 1) (p.map fun y => shr y 1) := by
  have hl : l = l0 + 1 := by
    cases l with
    | zero => omega
    | succ L =>
      rcases hp with hp | ⟨_, _, l', x, h6, hx, hax⟩
      · exact g.parent hs hw hp h3 (PLeaf.of h4) h5
      · exfalso
        have e1 : Anc (L - l0) c (p.map fun y => shr y 1) := by
          have := anc_of_anc (by omega) h5 (anc_iff.2 rfl : Anc 1 _ p)
          rwa [show L + 1 - l0 - 1 = L - l0 by omega] at this
        have e2 := anc_trans e1 hax
        rw [show L - l0 + (l' - L) = l' - l0 by omega] at e2
        have := (g.good.noOverlap l0 c l' x h4 hx (by omega) e2).1
        omega
  refine ⟨hl, ?_⟩
  subst hl
  rw [show l0 + 1 - l0 = 1 by omega] at h5
  rw [← anc_iff.1 h5]
  exact h4

/-- Every adapted multiresolution mesh periodic in all the directions, with the default configuration, meets `GhostPer`. -/
theorem ghostPer_adapted {cfg : MeshConfig} (hs : cfg.predictionOrder = 1) (hw : cfg.maxStencilWidth = 1) (g : PerLeaves n P base b cells dom minL maxL)
    (hne : minL ≠ maxL) (hB : ∃ D : Int, 0 ≤ D ∧ D + 5 * 2 ^ maxL + 2 < INT_MAX ∧ ∀ d ≤ n, b.hi d * 2 ^ (maxL - base) ≤ D) (h0 : K) (bcs : List (BcCond K))
    {m : SubMeshes} {u : CA} (hm : mrMeshPeriodic n cfg dom P cells minL maxL = some (m, u)) {S : LCA} (hS : constructSubdomain n cells maxL = some S) :
    GhostPer n (mrGhostMeshPer m S dom minL maxL P h0 cfg) (fun l => b.refined (l - base)) 1 bcs ∧
      (∀ l p, m.cells.Mem n l p ↔ cells.Mem n l p) ∧
      (∀ l p, m.all.Mem n l p ↔ MRGrow n cells minL (PerBase n cfg cells base b P) l p) ∧
      (∀ l p, m.proj.Mem n l p ↔ MRGrow n cells minL (PerBase n cfg cells base b P) l p ∧ minL ≤ l + 1 ∧ CoveredBy n cells l p) ∧
      (∀ l p, minL ≤ l + 3 → l ≤ maxL → (AtLevel S.level l (S.Mem n) p ↔ InBox (b.refined (l - base)) n p)) := by
  have hgwe : cfg.ghostWidth = 1 := by unfold MeshConfig.ghostWidth; rw [hs, hw]; rfl
  have hco := g.coarse
  have hdl := g.level
  obtain ⟨D, D1, D2, D3⟩ := hB
  have hp2 := pow_two_pos maxL
  have hbox : LeavesInBox n cells minL maxL base b (cfg.maxStencilWidth + cfg.predictionOrder + 1) := by
    refine g.inBox ⟨D, D1, ?_, D3⟩
    rw [hs, hw]; push_cast; omega
  obtain ⟨m', u', r1, r2⟩ := mrMeshPeriodic_spec (P := P) hbox g.box (le_of_eq hdl.symm) (by omega)
  rw [hm] at r1
  obtain ⟨rfl, rfl⟩ : m = m' ∧ u = u' := by simpa using r1
  obtain ⟨S', s1, s2, s3, s4⟩ := constructSubdomain_spec g.good.wf g.good.between
  rw [hS] at s1
  obtain rfl : S = S' := by simpa using s1
  obtain ⟨m0, c1, c2⟩ := id r2.content
  have hcells : ∀ l p, m.cells.Mem n l p ↔ cells.Mem n l p := fun l p => by rw [c2.mem.1, c1.cells_eq]
  have hall : ∀ l p, m.all.Mem n l p ↔ MRGrow n cells minL (PerBase n cfg cells base b P) l p := fun l p => by rw [c2.mem.2.2.2, c1.all hne]
  have hproj : ∀ l p, m.proj.Mem n l p ↔ MRGrow n cells minL (PerBase n cfg cells base b P) l p ∧ minL ≤ l + 1 ∧ CoveredBy n cells l p := fun l p => by
    rw [c2.mem.2.2.1, c1.proj hne]
  have hlev : ∀ l p, MRGrow n cells minL (PerBase n cfg cells base b P) l p → minL ≤ l + 2 ∧ l ≤ maxL := fun l p h =>
    perGrow_levels g.good.wf g.good.between h
  have hdl' : dom.level ≤ maxL := by omega
  have hcells_all : ∀ l p, cells.Mem n l p → MRGrow n cells minL (PerBase n cfg cells base b P) l p := fun l p hp =>
    mrGrow_sub (perDirs_sub (Or.inl ⟨p, hp, near_refl _ _⟩))
  -- a leaf
  obtain ⟨l1, q1, hq1⟩ : ∃ l q, cells.Mem n l q := by
    have : InBox b n (ptOf n b.lo) := inBox_iff.2 ⟨ptOf_length _ _, fun d hd' => by
      rw [toPt_ptOf _ hd']
      exact ⟨le_rfl, g.box.pos d hd'⟩⟩
    obtain ⟨x, hx⟩ := anc_exists (maxL - base) (ptOf n b.lo)
    obtain ⟨l, q, _, h, _⟩ := box_tiled g.good g.box hdl' this hx
    exact ⟨l, q, h⟩
  have hmm : minL ≤ maxL := by have := g.good.between l1 q1 hq1; omega
  have hwf := c2.wf
  have hlv := CA.mem_levels hwf.2.2.2 ((hall _ _).2 (hcells_all _ _ hq1))
  have hms : m.all.maxLevel ≤ m.all.maxSize ∧ (m.all.lca m.all.minLevel).isEmpty = false ∧ (m.all.lca m.all.maxLevel).isEmpty = false := by
    rcases m.all.level_cases with ⟨_, h1, h2⟩ | ⟨_, h1, h2, h3, _⟩
    · have := ((hall _ _).2 (hcells_all _ _ hq1)).1
      omega
    · exact ⟨h1, h2, h3⟩
  have hmin : minL ≤ m.all.minLevel + 2 := by
    obtain ⟨p, hp⟩ := CA.some_mem hwf.2.2.2 (l := m.all.minLevel) (by omega) hms.2.1
    exact (hlev _ _ ((hall _ _).1 hp)).1
  have hmaxl : m.all.maxLevel ≤ maxL := by
    obtain ⟨p, hp⟩ := CA.some_mem hwf.2.2.2 (l := m.all.maxLevel) (by omega) hms.2.2
    exact (hlev _ _ ((hall _ _).1 hp)).2
  have hSm : ∀ q, S.Mem n q ↔ InBox (b.refined (maxL - base)) n q := by
    intro q
    have hfin := (g.dom' (l := maxL) (by omega) le_rfl).mem q
    rw [hdl, Nat.sub_self, show (b.refined (maxL - base)).refined 0 = b.refined (maxL - base) by rw [Box.refined_refined, Nat.add_zero]] at hfin
    rw [← hfin, s4]
    constructor
    · rintro ⟨l', x, h5, h6⟩
      have hl' := (g.good.between l' x h5).2
      obtain ⟨d, d1, d2⟩ := (g.good.tiles q).1 ⟨l', x, hl', h5, h6⟩
      rw [hdl, Nat.sub_self] at d2
      obtain rfl := anc_zero.1 d2
      exact d1
    · intro hq
      obtain ⟨l', x, _, h5, h6⟩ := (g.good.tiles q).2 ⟨q, hq, by rw [hdl, Nat.sub_self]; exact anc_zero.2 rfl⟩
      exact ⟨l', x, h5, h6⟩
  have hsub : ∀ l p, minL ≤ l + 3 → l ≤ maxL → (AtLevel S.level l (S.Mem n) p ↔ InBox (b.refined (l - base)) n p) := by
    intro l p h1 h2
    have hex : AtLevel S.level l (S.Mem n) p ↔ ∃ q, S.Mem n q ∧ Anc (maxL - l) p q := by
      rw [s3]
      rcases Nat.eq_or_lt_of_le h2 with rfl | h2
      · rw [atLevel_self, Nat.sub_self]
        constructor
        · exact fun h => ⟨p, h, anc_zero.2 rfl⟩
        · rintro ⟨q, h, ha⟩
          obtain rfl := anc_zero.1 ha
          exact h
      · unfold AtLevel
        rw [if_neg (by omega)]
        rfl
    rw [hex]
    constructor
    · rintro ⟨q, h3, h4⟩
      refine box_of_desc h4 ?_
      rw [refined_at (by omega) h2]
      exact (hSm q).1 h3
    · intro hp
      obtain ⟨q, hq⟩ := anc_exists (maxL - l) p
      refine ⟨q, (hSm q).2 ?_, hq⟩
      have := desc_in_box hq hp
      rwa [refined_at (by omega) h2] at this
  have hpred : ∀ l p, m.all.minLevel < l → Pred n (mrGhostMeshPer m S dom minL maxL P h0 cfg) l p →
      MRGrow n cells minL (PerBase n cfg cells base b P) l p ∧ InBox (b.refined (l - base)) n p ∧ ∃ l0 c, l0 < l ∧ cells.Mem n l0 c ∧ Anc (l - l0) c p := by
    rintro l p hl ⟨h1, h2, h3, h4, _⟩
    have h1 := (hall _ _).1 h1
    have := hlev _ _ h1
    have hin := (hsub l p (by omega) (by omega)).1 h4
    refine ⟨h1, hin, ?_⟩
    rcases box_cases g.good (g.dom' (by omega) (by omega)) hdl' hin with h | h | h
    · exact absurd ((hcells _ _).2 h) h2
    · exact absurd ((hproj _ _).2 ⟨h1, by omega, h⟩) h3
    · exact h
  have hbelow : ∀ l p, MRGrow n cells minL (PerBase n cfg cells base b P) l p → ∀ x ∈ p, x * 2 ^ (maxL - l) < D + 3 * 2 ^ maxL := by
    have := (hbox.topOf (cfg := cfg) (P := P) D3).2.2 g.box.pos
    rwa [hs, hw, show ((1 : Nat) : Int) + ((1 : Nat) : Int) + 1 = 3 by norm_num] at this
  have ssz := c2.size
  have ssz0 := c1.size
  have szall : m.all.maxSize = cells.maxSize := ssz.2.2.2.trans ssz0.2.2
  have szproj : m.proj.maxSize = cells.maxSize := ssz.2.2.1.trans ssz0.2.1
  have szcells : m.cells.maxSize = cells.maxSize := by rw [ssz.1, c1.cells_eq]
  have slv := c2.leveled
  have numbers : m.all.NumbersDiffer n := by
    unfold CA.NumbersDiffer
    rw [c2.numbers]
    exact List.nodup_range.map fun a b h => by exact_mod_cast h
  refine ⟨{
      refWF := hwf.2.2.2
      projWF := hwf.2.2.1
      cellsWF := hwf.1
      refLeveled := slv.2.2.2
      projLeveled := slv.2.2.1
      cellsLeveled := slv.1
      sizes := ⟨szproj.trans szall.symm, szcells.trans szall.symm⟩
      numbers := numbers
      some := ⟨hlv.1.trans hlv.2, hms.1⟩
      subWF := s2
      subLevel := by show m.all.maxLevel ≤ S.level; rw [s3]; exact hmaxl
      range := ?_
      cellsRef := fun l p hp => (hall _ _).2 (hcells_all _ _ ((hcells _ _).1 hp))
      projRef := fun l p hp => (hall _ _).2 ((hproj _ _).1 hp).1
      projIn := ?_
      projChild := ?_
      predIn := fun l p hl hp => (hpred l p hl hp).2.1
      predNear := ?_
      noBc := fun level hl v => updateBc_periodic (M := (mrGhostMeshPer m S dom minL maxL P h0 cfg).toBcMesh) g.per bcs (by
        show level ≤ dom.level
        have : level ≤ m.all.maxLevel := hl
        omega) v
      cellsIn := fun l p hp => g.leafIn ((hcells _ _).1 hp)
      around := ?_ }, hcells, hall, hproj, hsub⟩
  · refine ⟨D + 3 * 2 ^ maxL, by omega, ?_, ?_, fun l hl => ⟨?_, ?_, ?_⟩⟩
    · show D + 3 * 2 ^ maxL + 2 * 2 ^ S.level + 2 < INT_MAX
      rw [s3]
      omega
    · show S.BelowAt n S.level _
      intro p hp x hx
      have hin := (hSm p).1 hp
      obtain ⟨d, hd', _, h⟩ := inBox_coord hin x hx
      rw [s3, Nat.sub_self, pow_zero]
      have e1 := D3 d hd'
      have e2 : x < b.hi d * 2 ^ (maxL - base) := h
      omega
    · show (m.all.lca l).BelowAt n S.level _
      intro p hp x hx
      have hl' : l ≤ m.all.maxSize := hl.trans hms.1
      rw [slv.2.2.2 l hl', s3]
      exact hbelow l p ((hall _ _).1 ⟨hl', hp⟩) x hx
    · show (m.proj.lca l).BelowAt n S.level _
      intro p hp x hx
      have hl' : l ≤ m.proj.maxSize := by rw [szproj, ← szall]; exact hl.trans hms.1
      rw [slv.2.2.1 l hl', s3]
      exact hbelow l p ((hproj _ _).1 ⟨hl', hp⟩).1 x hx
    · show (m.cells.lca l).BelowAt n S.level _
      intro p hp x hx
      have hl' : l ≤ m.cells.maxSize := by rw [szcells, ← szall]; exact hl.trans hms.1
      rw [slv.1 l hl', s3]
      exact hbelow l p (hcells_all _ _ ((hcells _ _).1 ⟨hl', hp⟩)) x hx
  · intro l p hp
    obtain ⟨h1, _, hc⟩ := (hproj _ _).1 hp
    have := hlev _ _ h1
    exact covered_inBox hbox (by omega) hc
  · intro l p q hp hq
    obtain ⟨h1, h1', hcov⟩ := (hproj _ _).1 hp
    obtain ⟨l', x, h2, h3, h4⟩ := id hcov
    have hx := (g.good.between l' x h3).2
    have hlv' := hlev _ _ h1
    have haq : Anc 1 p q := anc_iff.2 hq.symm
    have hqb : InBox (b.refined (l + 1 - base)) n q := by
      have := desc_in_box haq (covered_inBox hbox (by omega) hcov)
      rwa [Box.refined_refined, show l - base + 1 = l + 1 - base by omega] at this
    rcases box_cases g.good (g.dom' (l := l + 1) (by omega) (by omega)) hdl' hqb with h | h | ⟨l0, c, e1, e2, e3⟩
    · exact .inl ((hcells _ _).2 h)
    · exact .inr ((hproj _ _).2 ⟨.inr (by rw [hq]; exact ⟨h1, h1', l', x, h2, h3, h4⟩), by omega, h⟩)
    · exfalso
      have e4 := anc_of_anc (by omega) e3 haq
      have e5 := anc_trans e4 h4
      rw [show l + 1 - l0 - 1 + (l' - l) = l' - l0 by omega] at e5
      have := (g.good.noOverlap l0 c l' x e2 h3 (by omega) e5).1
      omega
  · intro l p q hl hp hq
    obtain ⟨h1, h2, l0, c, h3, h4, h5⟩ := hpred l p hl hp
    have hq : Near cfg.predictionOrder q (p.map fun y => shr y 1) := hq
    have := (g.stencil hs hw h1 h3 h4 h5).2
    rw [hs] at hq
    exact (hall _ _).2 (mrGrow_sub (perDirs_sub (Or.inl ⟨_, this, by rw [hw]; exact hq⟩)))
  · intro level h1 h2 v
    have h1 : m.all.minLevel - 1 ≤ level := h1
    have h2 : level ≤ m.all.maxLevel := h2
    have hready := r2.ready hbox g.box.pos (by omega) (fun h => absurd h hne) (l := level) (by omega) (by omega) (fun d hd _ => by
      have := (g.dom' (l := level) (by omega) (by omega)).pos d hd
      rw [hgwe]; push_cast; omega)
    obtain ⟨v', v1, v2, v3⟩ := updateGhostPeriodic_spec (M := (mrGhostMeshPer m S dom minL maxL P h0 cfg).toBcMesh) (l := level)
      (g.dom' (by omega) (by omega)) hready v
    have e : (mrGhostMeshPer m S dom minL maxL P h0 cfg).toBcMesh.cfg.ghostWidth = 1 := hgwe
    rw [e] at v2 v3
    exact ⟨v', v1, v2, v3⟩

end

end Samurai

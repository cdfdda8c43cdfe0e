/-
The update of the ghosts on multiresolution meshes of a domain that is periodic in all the directions.
-/
import Verif.Lemmas.GhostPeriodicAdapted
import Verif.Props.Periodic

namespace Samurai

section
variable {K : Type} [Field K] [CharZero K] {n : Nat}

/-- C78. `update_ghost_mr` on every adapted multiresolution mesh (leaves that tile the domain, graded also across the periodic boundaries, default
configuration, a domain which is a box of cells of a level at least three below `min_level`, or of level 0) that is periodic in all the directions,
for any field and any list of boundary conditions: it succeeds (every cell it reads is in the mesh), and after it
* the leaves have the values they had;
* each cell of the mesh that is covered by finer leaves (from the level `min_level - 1`) has the mean of the values of its children, all in the mesh;
* each cell of the mesh inside a coarser leaf has the value predicted from the level below, from cells of the mesh;
* there is no other cell inside the domain;
* each cell of the mesh next to the domain has the value of the cell of the domain that periodicity identifies with it, on every level.
The values in these relations are all final ones: nothing computed early is invalidated by a later step. The boundary conditions have no effect. -/
theorem C78_update_ghosts (hn : n ≤ 2) (cfg : MeshConfig) (hs : cfg.predictionOrder = 1) (hw : cfg.maxStencilWidth = 1) (cells : CA) (dom : LCA)
    (minL maxL base : Nat) (b : Box) (P : Nat → Bool) (hP : ∀ d ≤ n, P d = true) (g : GoodLeaves n cells dom minL maxL)
    (hgr : cells.GradedPeriodic n P base b) (hne : minL ≠ maxL) (hd : BoxDomain n dom base b) (hdl : dom.level = maxL) (hbase : base ≤ minL - 3)
    (hB : ∃ D : Int, 0 ≤ D ∧ D + 5 * 2 ^ maxL + 2 < INT_MAX ∧ ∀ d ≤ n, b.hi d * 2 ^ (maxL - base) ≤ D)
    (h0 : K) (bcs : List (BcCond K)) (u : Int → K) :
    ∃ m x S u' val, mrMeshPeriodic n cfg dom P cells minL maxL = some (m, x) ∧ constructSubdomain n cells maxL = some S ∧
      updateGhostMr n ⟨⟨m.cells, m.all, dom, minL, maxL, P, h0, cfg⟩, m.proj, S⟩ bcs u = some u' ∧ FieldIs n m.all u' val ∧
      (∀ l p i, cells.Mem n l p → (l, p, i) ∈ m.all.numbered n → u' i = u i) ∧
      (∀ l p, m.all.Mem n l p → minL ≤ l + 1 → CoveredBy n cells l p →
        MeanOfChildren n val l p ∧ ∀ q ∈ childrenOf p, m.all.Mem n (l + 1) q) ∧
      (∀ l p, m.all.Mem n l p → (∃ l0 c, l0 < l ∧ cells.Mem n l0 c ∧ Anc (l - l0) c p) →
        PredictedFromBelow n 1 val l p ∧ ∀ q, Near 1 q (p.map fun y => shr y 1) → m.all.Mem n (l - 1) q) ∧
      (∀ l p, m.all.Mem n l p → InBox (b.refined (l - base)) n p →
        cells.Mem n l p ∨ CoveredBy n cells l p ∨ ∃ l0 c, l0 < l ∧ cells.Mem n l0 c ∧ Anc (l - l0) c p) ∧
      (∀ l p, m.all.Mem n l p → AroundBox n 1 (b.refined (l - base)) p →
        ∃ q, PeriodicImage n P (b.refined (l - base)) p q ∧ m.all.Mem n l q ∧ val l p = val l q) := by
  have gl : PerLeaves n P base b cells dom minL maxL := ⟨g, hd, hdl, hbase, hP, hgr⟩
  obtain ⟨D, D1, D2, D3⟩ := id hB
  have hp2 := pow_two_pos maxL
  have hgw : cfg.ghostWidth = 1 := by unfold MeshConfig.ghostWidth; rw [hs, hw]; rfl
  have hbox : LeavesInBox n cells minL maxL base b (cfg.maxStencilWidth + cfg.predictionOrder + 1) :=
    gl.inBox ⟨D, D1, by rw [hs, hw]; push_cast; omega, D3⟩
  obtain ⟨m, x, r1, -⟩ := mrMeshPeriodic_spec (P := P) hbox hd (le_of_eq hdl.symm) (by omega)
  obtain ⟨S, s1, -, -, -⟩ := constructSubdomain_spec g.wf g.between
  obtain ⟨gr, hcells, hall, hproj, hsub⟩ := ghostPer_adapted hs hw gl hne hB h0 bcs r1 s1
  obtain ⟨u', e1, e2, e3, e4, e5⟩ := updateGhostMr_periodic gr u
  have hlev : ∀ l p, m.all.Mem n l p → minL ≤ l + 2 ∧ l ≤ maxL := fun l p h => perGrow_levels g.wf g.between ((hall l p).1 h)
  have hpred : ∀ l p, m.all.Mem n l p → (∃ l0 c, l0 < l ∧ cells.Mem n l0 c ∧ Anc (l - l0) c p) →
      m.all.minLevel < l ∧ Pred n (mrGhostMeshPer m S dom minL maxL P h0 cfg) l p ∧ ∀ q, Near 1 q (p.map fun y => shr y 1) → m.all.Mem n (l - 1) q := by
    rintro l p hp ⟨l0, c, h1, h2, h3⟩
    have hl := hlev l p hp
    have hmin : m.all.minLevel ≤ l0 := (gr.levels (gr.cellsRef l0 c ((hcells _ _).2 h2))).1
    have hin : InBox (b.refined (l - base)) n p := by
      have := desc_in_box h3 (gl.leafIn h2)
      have hb := g.between l0 c h2
      rwa [refined_at (by omega) (by omega)] at this
    have hst : ∀ q, Near 1 q (p.map fun y => shr y 1) → m.all.Mem n (l - 1) q := fun q hq =>
      (hall _ _).2 (mrGrow_sub (perDirs_sub (Or.inl ⟨_, (gl.stencil hs hw ((hall _ _).1 hp) h1 h2 h3).2, by rw [hw]; exact hq⟩)))
    refine ⟨by omega, ⟨hp, fun h => ?_, fun h => ?_, (hsub l p (by omega) (by omega)).2 hin, hst _ (near_refl _ _)⟩, hst⟩
    · have := (g.noOverlap l0 c l p h2 ((hcells _ _).1 h) (by omega) h3).1
      omega
    · obtain ⟨_, _, l', y, h4, h5, h6⟩ := (hproj _ _).1 h
      have h7 := anc_trans h3 h6
      rw [show l - l0 + (l' - l) = l' - l0 by omega] at h7
      have := (g.noOverlap l0 c l' y h2 h5 (by omega) h7).1
      omega
  refine ⟨m, x, S, u', fun l p => u' (numOf n m.all l p), r1, s1, e1, fieldIs_numOf gr.refWF u', fun l p i hc hi => ?_, fun l p hp hl hc => ?_,
    fun l p hp hc => ?_, fun l p hp hin => ?_, fun l p hp ha => ?_⟩
  · obtain ⟨h1, rfl⟩ := numbered_numOf gr.refWF hi
    refine e2.at gr.refWF gr.numbers h1 ?_
    rintro (h | ⟨_, _, h, _⟩ | h)
    · obtain ⟨_, _, l', y, h4, h5, h6⟩ := (hproj _ _).1 h
      have := (g.noOverlap l p l' y hc h5 (by omega) h6).1
      omega
    · exact h ((hcells _ _).2 hc)
    · exact h.out (gl.leafIn hc)
  · have hpr := (hproj l p).2 ⟨(hall _ _).1 hp, hl, hc⟩
    refine ⟨?_, fun q hq => gr.child hpr (mem_childrenOf.1 hq).symm⟩
    have := e3 l p hpr
    have hp' := project_mean n hn (fun l q => u' (numOf n m.all l q)) l (mem_length hp.2)
    have := this.trans hp'
    unfold MeanOfChildren
    show 2 ^ (n + 1) * u' (numOf n m.all l p) = _
    rw [show u' (numOf n m.all l p) = _ from this, ← mul_assoc, ← mul_pow]
    norm_num
  · obtain ⟨h1, h2, h3⟩ := hpred l p hp hc
    refine ⟨?_, h3⟩
    have := e4 l p h1 h2
    rw [show (mrGhostMeshPer m S dom minL maxL P h0 cfg).cfg.predictionOrder = 1 from hs] at this
    exact this
  · have := hlev l p hp
    exact box_cases g (gl.dom' (by omega) (by omega)) (by omega) hin
  · have := gr.levels hp
    exact e5 l this.1 this.2 p hp ha

/-- C78. The values after `update_ghost_mr` are functions of the values on the leaves, in every dimension: two fields with the same values on the leaves
get the same value on each cell of the mesh inside the domain or next to it (from the level `min_level - 1`), whatever values the other cells had before. -/
theorem C78_leaves_determine (hn : n ≤ 2) (cfg : MeshConfig) (hs : cfg.predictionOrder = 1) (hw : cfg.maxStencilWidth = 1) (cells : CA) (dom : LCA)
    (minL maxL base : Nat) (b : Box) (P : Nat → Bool) (hP : ∀ d ≤ n, P d = true) (g : GoodLeaves n cells dom minL maxL)
    (hgr : cells.GradedPeriodic n P base b) (hne : minL ≠ maxL) (hd : BoxDomain n dom base b) (hdl : dom.level = maxL) (hbase : base ≤ minL - 3)
    (hB : ∃ D : Int, 0 ≤ D ∧ D + 5 * 2 ^ maxL + 2 < INT_MAX ∧ ∀ d ≤ n, b.hi d * 2 ^ (maxL - base) ≤ D)
    (h0 : K) (bcs1 bcs2 : List (BcCond K)) (m : SubMeshes) (x : CA) (hm : mrMeshPeriodic n cfg dom P cells minL maxL = some (m, x)) (S : LCA)
    (hS : constructSubdomain n cells maxL = some S) (u1 u2 : Int → K) (hu : ∀ l p i, cells.Mem n l p → (l, p, i) ∈ m.all.numbered n → u1 i = u2 i) :
    ∃ u1' u2', updateGhostMr n ⟨⟨m.cells, m.all, dom, minL, maxL, P, h0, cfg⟩, m.proj, S⟩ bcs1 u1 = some u1' ∧
      updateGhostMr n ⟨⟨m.cells, m.all, dom, minL, maxL, P, h0, cfg⟩, m.proj, S⟩ bcs2 u2 = some u2' ∧
      ∀ l p i, (l, p, i) ∈ m.all.numbered n → minL ≤ l + 1 → AroundBox n 1 (b.refined (l - base)) p → u1' i = u2' i := by
  obtain ⟨m1, x1, S1, u1', v1, a1, a2, a3, a4, a5, a6, a7, a8, a9⟩ :=
    C78_update_ghosts hn cfg hs hw cells dom minL maxL base b P hP g hgr hne hd hdl hbase hB h0 bcs1 u1
  obtain ⟨m2, x2, S2, u2', v2, b1, b2, b3, b4, b5, b6, b7, -, b9⟩ :=
    C78_update_ghosts hn cfg hs hw cells dom minL maxL base b P hP g hgr hne hd hdl hbase hB h0 bcs2 u2
  rw [hm] at a1 b1
  rw [hS] at a2 b2
  obtain ⟨rfl, rfl⟩ : m = m1 ∧ x = x1 := by simpa using a1
  obtain ⟨rfl, rfl⟩ : m = m2 ∧ x = x2 := by simpa using b1
  obtain rfl : S = S1 := by simpa using a2
  obtain rfl : S = S2 := by simpa using b2
  have gl : PerLeaves n P base b cells dom minL maxL := ⟨g, hd, hdl, hbase, hP, hgr⟩
  obtain ⟨gr, hcells, hall, hproj, hsub⟩ := ghostPer_adapted hs hw gl hne hB h0 bcs1 hm hS
  have hlev : ∀ l p, m.all.Mem n l p → minL ≤ l + 2 ∧ l ≤ maxL := fun l p h => perGrow_levels g.wf g.between ((hall l p).1 h)
  have inner := inner_determined (n := n) (cells := cells) (minL := minL) (maxL := maxL) (m := m) (val := v1) (val' := v2)
    (fun l p h => (g.between l p h).2) (fun l p q hp hl hc hq => by
      rcases gr.projChild l p q ((hproj l p).2 ⟨(hall _ _).1 hp, hl, hc⟩) (mem_childrenOf.1 hq).symm with h | h
      · exact .inl ((hcells _ _).1 h)
      · exact .inr ((hproj _ _).1 h).2.2)
    (fun l p hp hc => by
      have hi := numOf_numbered gr.refWF hp
      rw [a4.at gr.refWF hp, b4.at gr.refWF hp]
      exact (a5 l p _ hc hi).trans ((hu l p _ hc hi).trans (b5 l p _ hc hi).symm)) a6 (fun l p hp hl hc => (b6 l p hp hl hc).1)
  have up : ∀ l p, m.all.Mem n l p → minL ≤ l + 1 → AroundBox n 1 (b.refined (l - base)) p → v1 l p = v2 l p := by
    intro l
    induction l using Nat.strong_induction_on with
    | _ l ih =>
      have inside : ∀ p, m.all.Mem n l p → minL ≤ l + 1 → InBox (b.refined (l - base)) n p → v1 l p = v2 l p := by
        intro p hp hl hin
        have hlv := hlev l p hp
        rcases a8 l p hp hin with h | h | ⟨l0, c, e1, e2, e3⟩
        · exact inner _ l p le_rfl hp hl (.inl h)
        · exact inner _ l p le_rfl hp hl (.inr h)
        · obtain ⟨f1, f2⟩ := a7 l p hp ⟨l0, c, e1, e2, e3⟩
          have hl0 := g.between l0 c e2
          refine predicted_congr (mem_length hp.2) (fun q hq => ih (l - 1) (by omega) q (f2 q hq) (by omega) ?_) f1
            (b7 l p hp ⟨l0, c, e1, e2, e3⟩).1
          have hpar : InBox (b.refined (l - 1 - base)) n (p.map fun y => shr y 1) := by
            refine box_of_desc (k := 1) (anc_iff.2 rfl) ?_
            rw [Box.refined_refined, show l - 1 - base + 1 = l - base by omega]
            exact hin
          obtain ⟨k1, k2⟩ := inBox_iff.1 hpar
          refine ⟨hq.length_eq.trans k1, fun d hd' => ?_⟩
          have := near_toPt hq k1 hd'
          have := k2 d hd'
          push_cast at *
          omega
      intro p hp hl ha
      obtain ⟨q, q1, q2, q3⟩ := a9 l p hp ha
      obtain ⟨q', q1', q2', q3'⟩ := b9 l p hp ha
      obtain rfl := periodicImage_unique q1 q1'
      rw [q3, q3']
      refine inside q q2 hl (inBox_iff.2 ⟨q1.1, fun d hd' => ?_⟩)
      have := q1.2 d hd'
      rw [if_pos (hP d hd')] at this
      exact this.1
  refine ⟨u1', u2', a3, b3, fun l p i hi hl ha => ?_⟩
  rw [a4 l p i hi, b4 l p i hi]
  exact up l p (numbered_numOf gr.refWF hi).1 hl ha

end

/-! ### the bar of dimension 3, periodic in the three directions -/

/-- Leaves of two successive levels are graded. -/
theorem gradedPeriodic_two {n : Nat} {P : Nat → Bool} {base : Nat} {b : Box} {cells : CA} {minL : Nat} (h : cells.Between n minL (minL + 1)) :
    cells.GradedPeriodic n P base b := fun l p l' p' _ _ h1 h2 _ _ _ _ => by
  have := h l p h1
  have := h l' p' h2
  omega

/-- The hypotheses are met by the bar of dimension 3 on which the dependence on old values was found (C77): with periodic directions there is none. -/
example (u1 u2 : Int → Rat) : ∃ m x S, mrMeshPeriodic 2 ⟨1, 1⟩ barDomain (fun _ => true) barMesh 1 2 = some (m, x) ∧
    constructSubdomain 2 barMesh 2 = some S ∧ ((∀ l p i, barMesh.Mem 2 l p → (l, p, i) ∈ m.all.numbered 2 → u1 i = u2 i) →
      ∃ u1' u2', updateGhostMr 2 ⟨⟨m.cells, m.all, barDomain, 1, 2, fun _ => true, 1, ⟨1, 1⟩⟩, m.proj, S⟩ [] u1 = some u1' ∧
        updateGhostMr 2 ⟨⟨m.cells, m.all, barDomain, 1, 2, fun _ => true, 1, ⟨1, 1⟩⟩, m.proj, S⟩ [] u2 = some u2' ∧
        u1' (numOf 2 m.all 1 [-1, -1, 1]) = u2' (numOf 2 m.all 1 [-1, -1, 1])) := by
  have hgr : barMesh.GradedPeriodic 2 (fun _ => true) 0 barBase := gradedPeriodic_two barLeaves_good.between
  have hB : ∃ D : Int, 0 ≤ D ∧ D + 5 * 2 ^ 2 + 2 < INT_MAX ∧ ∀ d ≤ 2, barBase.hi d * 2 ^ (2 - 0) ≤ D :=
    ⟨8, by omega, by norm_num [INT_MAX], fun d _ => by simp only [barBase]; split <;> norm_num⟩
  obtain ⟨m, x, S, _, _, a1, a2, -⟩ := C78_update_ghosts le_rfl ⟨1, 1⟩ rfl rfl barMesh barDomain 1 2 0 barBase (fun _ => true) (fun _ _ => rfl) barLeaves_good
    hgr (by decide) barDomain_box rfl (by omega) hB (1 : Rat) [] u1
  refine ⟨m, x, S, a1, a2, fun hu => ?_⟩
  obtain ⟨u1', u2', b1, b2, b3⟩ := C78_leaves_determine le_rfl ⟨1, 1⟩ rfl rfl barMesh barDomain 1 2 0 barBase (fun _ => true) (fun _ _ => rfl) barLeaves_good
    hgr (by decide) barDomain_box rfl (by omega) hB (1 : Rat) [] [] m x a1 S a2 u1 u2 hu
  refine ⟨u1', u2', b1, b2, b3 1 [-1, -1, 1] _ ?_ (by omega) ⟨rfl, fun d hd => ?_⟩⟩
  · have gl : PerLeaves 2 (fun _ => true) 0 barBase barMesh barDomain 1 2 := ⟨barLeaves_good, barDomain_box, rfl, by omega, fun _ _ => rfl, hgr⟩
    obtain ⟨gr, -, hall, -, -⟩ := ghostPer_adapted (cfg := ⟨1, 1⟩) rfl rfl gl (by decide) hB (1 : Rat) [] a1 a2
    refine numOf_numbered gr.refWF ((hall _ _).2 (mrGrow_sub (perDirs_sub (Or.inl ⟨[0, 0, 1], ?_, ?_⟩))))
    · exact (barMesh_mem _ _).2 (by simp)
    · exact near3.2 (by omega)
  · interval_cases d <;> simp [toPt, Box.refined, barBase]

end Samurai

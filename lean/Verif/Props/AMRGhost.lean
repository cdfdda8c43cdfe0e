/-
The update of the ghosts of a field on an AMR mesh.
-/
import Verif.Spec.GhostUpdate
import Verif.Lemmas.AMRAdapted
import Verif.Props.GhostExample
import Verif.Props.AMRMesh

namespace Samurai

section
variable {K : Type} [Field K] [CharZero K] {n : Nat}

omit [CharZero K] in
/-- The construction of the mesh. -/
theorem amrMesh_box {cfg : MeshConfig} {cells : CA} {dom : LCA} {minL maxL : Nat} {b : Box} (g : TilingLeaves n cells dom minL maxL) (hmin : 1 ≤ minL)
    (hd : BoxDomain n dom 0 b) (hdl : dom.level = maxL) {B : Int} (hB0 : 0 ≤ B) (hB : B + (2 * cfg.ghostWidth + 9) * 2 ^ maxL + 2 < INT_MAX)
    (hhi : ∀ d ≤ n, b.hi d * 2 ^ maxL ≤ B) : ∃ m x, amrMesh n cfg cells dom minL maxL = some (m, x) ∧ AMRMeshOK n cfg cells dom minL m x := by
  have hpo : cfg.predictionOrder ≤ cfg.ghostWidth := Nat.le_max_right _ _
  have hpow := pow_two_pos maxL
  have hmul : ((cfg.ghostWidth : Int) + cfg.predictionOrder + 3) * 2 ^ maxL ≤ (2 * cfg.ghostWidth + 9) * 2 ^ maxL :=
    Int.mul_le_mul_of_nonneg_right (by omega) (le_of_lt hpow)
  have hdb : ∀ m, InDomain n dom maxL m → ∀ x ∈ m, x < B := by
    rintro m ⟨q, hq, ha⟩ x hx
    rw [hdl, Nat.sub_self] at ha
    obtain rfl := anc_zero.1 ha
    rw [hd.mem] at hq
    obtain ⟨d, hd', _, h⟩ := inBox_coord hq x hx
    have := hhi d hd'
    simp only [Box.refined, Nat.sub_zero] at h
    rw [hdl] at h
    omega
  obtain ⟨q, hq⟩ : ∃ q, InBox b n q := ⟨ptOf n b.lo, inBox_iff.2 ⟨ptOf_length _ _, fun d hd' => by
    rw [toPt_ptOf _ hd']
    exact ⟨le_rfl, hd.pos d hd'⟩⟩⟩
  obtain ⟨x, hx⟩ := anc_exists (maxL - 0) q
  obtain ⟨l, c, _, h, _⟩ := g.tiled hd (by omega) hq hx
  exact amrMesh_spec g.wf g.leveled g.between g.size hB0 (by omega) (g.below hdb) hd.wf (by omega) (GoodDomain.belowAt hdb) ⟨l, c, h⟩
    (fun l p hp => by have := g.between l p hp; omega)

/-- `update_ghost` on a mesh made from leaves that tile a box. -/
theorem amr_ghosts_tiling (hn : n ≤ 2) (cfg : MeshConfig) (cells : CA) (dom : LCA)
    (minL maxL : Nat) (b : Box) (g : TilingLeaves n cells dom minL maxL) (hmin : 1 ≤ minL) (hd : BoxDomain n dom 0 b) (hdl : dom.level = maxL)
    {B : Int} (hB0 : 0 ≤ B) (hB : B + (2 * cfg.ghostWidth + 9) * 2 ^ maxL + 2 < INT_MAX) (hhi : ∀ d ≤ n, b.hi d * 2 ^ maxL ≤ B)
    (h0 : K) {m : AMRMeshes} {x : CA} (r2 : AMRMeshOK n cfg cells dom minL m x) (bcs : List (BcCond K))
    (hbc : ∀ c ∈ bcs, GoodBc n dom cfg.ghostWidth c) (u : Int → K) :
    ∃ u', updateGhostAmr n ⟨⟨m.cells, m.all, dom, minL, maxL, fun _ => false, h0, cfg⟩, m.proj, m.pred⟩ bcs u = some u' ∧
      FieldIs n m.all u' (fun l p => u' (numOf n m.all l p)) ∧
      (∀ l p i, cells.Mem n l p → (l, p, i) ∈ m.all.numbered n → u' i = u i) ∧
      (∀ l p, m.all.Mem n l p → InBox (b.refined l) n p → ¬ NearLeaf n cfg.ghostWidth cells l p → ¬ AMRProj n cfg cells l p →
        u' (numOf n m.all l p) = u (numOf n m.all l p)) ∧
      (∀ l p, NearLeaf n cfg.ghostWidth cells l p ∨ AMRProj n cfg cells l p → CoveredBy n cells l p →
        MeanOfChildren n (fun l p => u' (numOf n m.all l p)) l p ∧ ∀ q ∈ childrenOf p, m.all.Mem n (l + 1) q) ∧
      (∀ l p, NearLeaf n cfg.ghostWidth cells l p ∨ AMRProj n cfg cells l p → (∃ l0 c, l0 < l ∧ cells.Mem n l0 c ∧ Anc (l - l0) c p) →
        PredictedFromBelow n cfg.predictionOrder (fun l p => u' (numOf n m.all l p)) l p ∧
          ∀ q, Near cfg.predictionOrder q (p.map fun y => shr y 1) → m.all.Mem n (l - 1) q) ∧
      (∀ l p, m.all.Mem n l p → BoundaryHolds n ⟨m.cells, m.all, dom, minL, maxL, fun _ => false, h0, cfg⟩ bcs l (b.refined l)
        (fun l p => u' (numOf n m.all l p))) := by
  have gr := amrReady_ok g hmin hd hdl hB0 hB hhi h0 r2
  have geo := amrGeo_ok (cfg := cfg) g hd hdl
  obtain ⟨u', e1, e2, e3, e4, e5⟩ := updateGhostAmr_spec gr (bcs := bcs) hbc u
  obtain ⟨m0, c1, c2, c3, c4, c5, c6⟩ := r2.content
  have hall : ∀ l p, m.all.Mem n l p ↔ AMRGhost n cfg cells dom l p ∨ AMRProj n cfg cells l p := fun l p => by rw [c6, c1.all]
  have hproj : ∀ l p, m.proj.Mem n l p ↔ AMRProj n cfg cells l p := fun l p => by rw [c4, c1.proj]
  have hpred : ∀ l p, m.pred.Mem n l p ↔ AMRPred n cfg cells dom l p := fun l p => by rw [c5, c1.pred]
  have hdom : ∀ l, l ≤ maxL → BoxDomain n dom l (b.refined l) := fun l h2 => by
    have := hd.finer (Nat.zero_le l) (by omega)
    rwa [Nat.sub_zero] at this
  refine ⟨u', e1, fieldIs_numOf gr.refWF u', fun l p i hc hi => ?_, fun l p hp hin h1 h2 => ?_, fun l p hp hc => ?_,
    fun l p hp hc => ?_, fun l p hp => ?_⟩
  · obtain ⟨h1, rfl⟩ := numbered_numOf gr.refWF hi
    refine e2.at gr.refWF gr.numbers h1 ?_
    rintro (⟨q, rfl, h⟩ | h | h)
    · exact leaf_not_covered g hc (geo.projIn l q ((hproj _ _).1 h)).1
    · exact ((hpred _ _).1 h).2.2.2.1 hc
    · exact h.out (g.inBox (hdom l (g.between l p hc).2) (by omega) hc le_rfl (by rw [Nat.sub_self]; exact anc_zero.2 rfl))
  · refine e2.at gr.refWF gr.numbers hp ?_
    rintro (⟨q, rfl, h⟩ | h | h)
    · exact (geo.projRef l q ((hproj _ _).1 h)).elim h1 h2
    · exact h1 ((hpred _ _).1 h).2.1
    · exact h.out hin
  · have hch : ∀ q, (q.map fun y => shr y 1) = p → m.proj.Mem n (l + 1) q := fun q hq => (hproj _ _).2 (geo.projd l p q hp hc hq)
    refine ⟨?_, fun q hq => (hall _ _).2 (.inr ((hproj _ _).1 (hch q (mem_childrenOf.1 hq).symm)))⟩
    have := e3 l p ⟨_, double_half p, hch _ (double_half p)⟩
    have hpl : p.length = n + 1 := by
      rcases hp with ⟨q, h1, h2⟩ | h
      · rw [h2.length_eq, mem_length h1.2]
      · exact mem_length ((hproj _ _).2 h).2
    have hp' := project_mean n hn (fun l q => u' (numOf n m.all l q)) l hpl
    have := this.trans hp'
    unfold MeanOfChildren
    show 2 ^ (n + 1) * u' (numOf n m.all l p) = _
    rw [show u' (numOf n m.all l p) = _ from this, ← mul_assoc, ← mul_pow]
    norm_num
  · have hpr : m.pred.Mem n l p := (hpred _ _).2 ((geo.pred l p).2 ⟨hp, hc⟩)
    exact ⟨e4 l p hpr, fun q hq => gr.predNear l p q hpr hq⟩
  · have hl := gr.levels hp
    exact afterBc_ready (gr.bc l (.inr hl.1) hl.2) hbc (e5 l hl.1 hl.2)

/-- `update_ghost` on a mesh made from good leaves. -/
theorem amr_ghosts_ok (hn : n ≤ 2) (cfg : MeshConfig) (horder : 2 * cfg.predictionOrder ≤ cfg.ghostWidth + 1) (cells : CA) (dom : LCA)
    (minL maxL : Nat) (b : Box) (g : GoodLeaves n cells dom minL maxL) (hmin : 1 ≤ minL) (hd : BoxDomain n dom 0 b) (hdl : dom.level = maxL)
    {B : Int} (hB0 : 0 ≤ B) (hB : B + (2 * cfg.ghostWidth + 9) * 2 ^ maxL + 2 < INT_MAX) (hhi : ∀ d ≤ n, b.hi d * 2 ^ maxL ≤ B)
    (h0 : K) {m : AMRMeshes} {x : CA} (r2 : AMRMeshOK n cfg cells dom minL m x) (bcs : List (BcCond K))
    (hbc : ∀ c ∈ bcs, GoodBc n dom cfg.ghostWidth c) (u : Int → K) :
    ∃ u', updateGhostAmr n ⟨⟨m.cells, m.all, dom, minL, maxL, fun _ => false, h0, cfg⟩, m.proj, m.pred⟩ bcs u = some u' ∧
      FieldIs n m.all u' (fun l p => u' (numOf n m.all l p)) ∧
      (∀ l p i, cells.Mem n l p → (l, p, i) ∈ m.all.numbered n → u' i = u i) ∧
      (∀ l p, m.all.Mem n l p → CoveredBy n cells l p →
        MeanOfChildren n (fun l p => u' (numOf n m.all l p)) l p ∧ ∀ q ∈ childrenOf p, m.all.Mem n (l + 1) q) ∧
      (∀ l p, m.all.Mem n l p → (∃ l0 c, l0 < l ∧ cells.Mem n l0 c ∧ Anc (l - l0) c p) →
        PredictedFromBelow n cfg.predictionOrder (fun l p => u' (numOf n m.all l p)) l p ∧
          ∀ q, Near cfg.predictionOrder q (p.map fun y => shr y 1) → m.all.Mem n (l - 1) q) ∧
      (∀ l p, m.all.Mem n l p → InBox (b.refined l) n p ∧
          (cells.Mem n l p ∨ CoveredBy n cells l p ∨ ∃ l0 c, l0 < l ∧ cells.Mem n l0 c ∧ Anc (l - l0) c p) ∨
        ¬ InBox (b.refined l) n p ∧ ∃ q, cells.Mem n l q ∧ Near cfg.ghostWidth p q) ∧
      (∀ l p, m.all.Mem n l p → BoundaryHolds n ⟨m.cells, m.all, dom, minL, maxL, fun _ => false, h0, cfg⟩ bcs l (b.refined l)
        (fun l p => u' (numOf n m.all l p))) := by
  have gr := amrReady_ok g.tiling hmin hd hdl hB0 hB hhi h0 r2
  have geo := amrGeo_ok (cfg := cfg) g.tiling hd hdl
  obtain ⟨m0, c1, c2, c3, c4, c5, c6⟩ := r2.content
  have hall : ∀ l p, m.all.Mem n l p ↔ AMRGhost n cfg cells dom l p ∨ AMRProj n cfg cells l p := fun l p => by rw [c6, c1.all]
  have hnear : ∀ l p, m.all.Mem n l p → NearLeaf n cfg.ghostWidth cells l p ∨ AMRProj n cfg cells l p := fun l p hp =>
    ((hall l p).1 hp).imp (ghost_near g hd hdl horder l p) id
  obtain ⟨u', e1, e2, e3, -, e4, e5, e6⟩ := amr_ghosts_tiling hn cfg cells dom minL maxL b g.tiling hmin hd hdl hB0 hB hhi h0 r2 bcs hbc u
  refine ⟨u', e1, e2, e3, fun l p hp => e4 l p (hnear l p hp), fun l p hp => e5 l p (hnear l p hp), fun l p hp => ?_, e6⟩
  have hl := gr.high l p hp
  have hdom : BoxDomain n dom l (b.refined l) := by
    have := hd.finer (Nat.zero_le l) (by rw [hdl]; exact hl)
    rwa [Nat.sub_zero] at this
  by_cases hin : InBox (b.refined l) n p
  · exact .inl ⟨hin, box_cases g hdom (by omega) hin⟩
  · refine .inr ⟨hin, ?_⟩
    rcases hnear l p hp with h | h
    · exact h
    · cases l with
      | zero => exact h.elim
      | succ l => exact absurd (geo.projIn l p h).2 hin

/-- C103. `update_ghost` on every AMR mesh whose leaves, of level at least 1, are graded and tile a box of cells of level 0, without periodic direction,
for any number of ghosts, any prediction order at most `(ghost_width + 1) / 2`, any field and any list of boundary conditions: it succeeds (every cell
it reads is in the mesh), and after it
* the leaves have the values they had;
* each cell of the mesh that is covered by finer leaves has the mean of the values of its children, all in the mesh;
* each cell of the mesh inside a coarser leaf has the value predicted from the level below, from cells of the mesh;
* there is no other cell inside the domain, and the cells outside are within `ghost_width` of a leaf of their level;
* on every level of the mesh the ghosts outside the domain satisfy the boundary conditions with the final values of the cells inside.
The values in these relations are all final ones. -/
theorem C103_update_ghost_amr (hn : n ≤ 2) (cfg : MeshConfig) (horder : 2 * cfg.predictionOrder ≤ cfg.ghostWidth + 1) (cells : CA) (dom : LCA)
    (minL maxL : Nat) (b : Box) (g : GoodLeaves n cells dom minL maxL) (hmin : 1 ≤ minL) (hd : BoxDomain n dom 0 b) (hdl : dom.level = maxL)
    (hB : ∃ B : Int, 0 ≤ B ∧ B + (2 * cfg.ghostWidth + 9) * 2 ^ maxL + 2 < INT_MAX ∧ ∀ d ≤ n, b.hi d * 2 ^ maxL ≤ B)
    (h0 : K) (bcs : List (BcCond K)) (hbc : ∀ c ∈ bcs, GoodBc n dom cfg.ghostWidth c) (u : Int → K) :
    ∃ m x u' val, amrMesh n cfg cells dom minL maxL = some (m, x) ∧
      updateGhostAmr n ⟨⟨m.cells, m.all, dom, minL, maxL, fun _ => false, h0, cfg⟩, m.proj, m.pred⟩ bcs u = some u' ∧ FieldIs n m.all u' val ∧
      (∀ l p i, cells.Mem n l p → (l, p, i) ∈ m.all.numbered n → u' i = u i) ∧
      (∀ l p, m.all.Mem n l p → CoveredBy n cells l p → MeanOfChildren n val l p ∧ ∀ q ∈ childrenOf p, m.all.Mem n (l + 1) q) ∧
      (∀ l p, m.all.Mem n l p → (∃ l0 c, l0 < l ∧ cells.Mem n l0 c ∧ Anc (l - l0) c p) →
        PredictedFromBelow n cfg.predictionOrder val l p ∧ ∀ q, Near cfg.predictionOrder q (p.map fun y => shr y 1) → m.all.Mem n (l - 1) q) ∧
      (∀ l p, m.all.Mem n l p → InBox (b.refined l) n p ∧
          (cells.Mem n l p ∨ CoveredBy n cells l p ∨ ∃ l0 c, l0 < l ∧ cells.Mem n l0 c ∧ Anc (l - l0) c p) ∨
        ¬ InBox (b.refined l) n p ∧ ∃ q, cells.Mem n l q ∧ Near cfg.ghostWidth p q) ∧
      (∀ l p, m.all.Mem n l p → BoundaryHolds n ⟨m.cells, m.all, dom, minL, maxL, fun _ => false, h0, cfg⟩ bcs l (b.refined l) val) := by
  obtain ⟨B, hB0, hB1, hB2⟩ := hB
  obtain ⟨m, x, r1, r2⟩ := amrMesh_box (cfg := cfg) g.tiling hmin hd hdl hB0 hB1 hB2
  obtain ⟨u', h⟩ := amr_ghosts_ok hn cfg horder cells dom minL maxL b g hmin hd hdl hB0 hB1 hB2 h0 r2 bcs hbc u
  exact ⟨m, x, u', _, r1, h⟩

/-- The layer of ghosts around the domain is a function of the cells inside, on each level. -/
theorem amr_layer_unique (hn : n ≤ 1) (cfg : MeshConfig) (hgw : 1 ≤ cfg.ghostWidth) {dom : LCA} {minL maxL : Nat} (hne : minL ≠ maxL) {b : Box}
    (h0 : K) {bcs : List (BcCond K)} (hbc : ∀ c ∈ bcs, GoodBc n dom 1 c) (hcov : CoversBoundary n dom bcs) {m : AMRMeshes}
    (gr : AmrReady n (amrGhostMesh m dom minL maxL h0 cfg) (fun l => b.refined l) cfg.ghostWidth) {v1 v2 : Nat → List Int → K} {l : Nat}
    (a9 : BoundaryHolds n ⟨m.cells, m.all, dom, minL, maxL, fun _ => false, h0, cfg⟩ bcs l (b.refined l) v1)
    (b9 : BoundaryHolds n ⟨m.cells, m.all, dom, minL, maxL, fun _ => false, h0, cfg⟩ bcs l (b.refined l) v2)
    (inside : ∀ p, m.all.Mem n l p → InBox (b.refined l) n p → v1 l p = v2 l p) :
    ∀ p, m.all.Mem n l p → (∃ q, InBox (b.refined l) n q ∧ Near 1 p q) → v1 l p = v2 l p := by
  have hbc' : ∀ c ∈ bcs, GoodBc n dom cfg.ghostWidth c := fun c hc => ⟨(hbc c hc).known, (hbc c hc).width.trans hgw, (hbc c hc).region⟩
  have hk1 : ∀ c ∈ bcs, c.kind.ghosts = 1 := fun c hc => by
    have a := (hbc c hc).width
    have := (hbc c hc).known.ghosts_pos
    omega
  rintro p hp ⟨q, hq, hnear⟩
  by_cases hin : InBox (b.refined l) n p
  · exact inside p hp hin
  · obtain ⟨p', v, ho, rfl⟩ := layer_outward hq hnear hin
    have hlv := gr.levels hp
    have hr := gr.bc l (.inr hlv.1) hlv.2
    by_cases hax : OneAxis n v
    · exact axis_determined_ready (M := (amrGhostMesh m dom minL maxL h0 cfg).toGhost) hr hne hbc' hk1 (fun _ => rfl) hcov a9 b9
        (fun p' h1 h2 => inside p' h2 h1) ho hax hp
    · have hv : n = 1 ∧ v 0 ≠ 0 ∧ v 1 ≠ 0 := by
        obtain ⟨-, k, k1, k2⟩ := ho.2.1
        rcases (by omega : n = 0 ∨ n = 1) with rfl | rfl
        · exact absurd ⟨k, k1, k2, fun j hj hjk => by omega⟩ hax
        · refine ⟨rfl, fun h => hax ⟨1, le_rfl, fun h1 => ?_, fun j hj hj1 => ?_⟩, fun h => hax ⟨0, by omega, fun h1 => ?_, fun j hj hj1 => ?_⟩⟩
          · rcases (by omega : k = 0 ∨ k = 1) with rfl | rfl <;> exact k2 (by assumption)
          · obtain rfl : j = 0 := by omega
            exact h
          · rcases (by omega : k = 0 ∨ k = 1) with rfl | rfl <;> exact k2 (by assumption)
          · obtain rfl : j = 1 := by omega
            exact h
      have hp' : m.all.Mem n l p' := by
        have := hr.lines p' v 1 ho le_rfl (by exact hgw.trans (Nat.le_max_right _ _)) hp v (fun _ _ => .inl rfl) 0 (by omega) (by omega)
        rwa [walk_zero] at this
      have const : ∀ f : Int → K, Extrapolated f 1 → f 1 = f 0 := by
        rintro f ⟨P, d1, d2⟩
        obtain ⟨c, rfl⟩ := Polynomial.natDegree_eq_zero.1 (Nat.le_zero.1 d1)
        rw [d2 1 (by simp) (by simp), d2 0 (by simp) (by simp), Polynomial.eval_C, Polynomial.eval_C]
      have t1 := const _ (a9.extrapolated p' v 1 ho (fun _ _ _ => rfl) hp le_rfl (by omega) hgw (.inr hv))
      have t2 := const _ (b9.extrapolated p' v 1 ho (fun _ _ _ => rfl) hp le_rfl (by omega) hgw (.inr hv))
      simp only [walk_zero] at t1 t2
      rw [t1, t2]
      exact inside p' hp' ho.1

/-- What C104 and C106 need: the values on the leaves determine the values that satisfy the relations of C103. -/
theorem amr_values_unique (hn : n ≤ 1) (cfg : MeshConfig) (hs : cfg.predictionOrder = 1) {cells : CA} {dom : LCA}
    {minL maxL : Nat} (hne : minL ≠ maxL) {b : Box} (g : GoodLeaves n cells dom minL maxL) (hd : BoxDomain n dom 0 b) (hdl : dom.level = maxL)
    (h0 : K) {bcs : List (BcCond K)} (hbc : ∀ c ∈ bcs, GoodBc n dom 1 c) (hcov : CoversBoundary n dom bcs) {m : AMRMeshes}
    (gr : AmrReady n (amrGhostMesh m dom minL maxL h0 cfg) (fun l => b.refined l) cfg.ghostWidth) {v1 v2 : Nat → List Int → K}
    (hleaf : ∀ l p, m.all.Mem n l p → cells.Mem n l p → v1 l p = v2 l p)
    (a6 : ∀ l p, m.all.Mem n l p → CoveredBy n cells l p → MeanOfChildren n v1 l p ∧ ∀ q ∈ childrenOf p, m.all.Mem n (l + 1) q)
    (b6 : ∀ l p, m.all.Mem n l p → CoveredBy n cells l p → MeanOfChildren n v2 l p)
    (a7 : ∀ l p, m.all.Mem n l p → (∃ l0 c, l0 < l ∧ cells.Mem n l0 c ∧ Anc (l - l0) c p) →
      PredictedFromBelow n cfg.predictionOrder v1 l p ∧ ∀ q, Near cfg.predictionOrder q (p.map fun y => shr y 1) → m.all.Mem n (l - 1) q)
    (b7 : ∀ l p, m.all.Mem n l p → (∃ l0 c, l0 < l ∧ cells.Mem n l0 c ∧ Anc (l - l0) c p) → PredictedFromBelow n cfg.predictionOrder v2 l p)
    (a8 : ∀ l p, m.all.Mem n l p → InBox (b.refined l) n p ∧
        (cells.Mem n l p ∨ CoveredBy n cells l p ∨ ∃ l0 c, l0 < l ∧ cells.Mem n l0 c ∧ Anc (l - l0) c p) ∨
      ¬ InBox (b.refined l) n p ∧ ∃ q, cells.Mem n l q ∧ Near cfg.ghostWidth p q)
    (a9 : ∀ l p, m.all.Mem n l p → BoundaryHolds n ⟨m.cells, m.all, dom, minL, maxL, fun _ => false, h0, cfg⟩ bcs l (b.refined l) v1)
    (b9 : ∀ l p, m.all.Mem n l p → BoundaryHolds n ⟨m.cells, m.all, dom, minL, maxL, fun _ => false, h0, cfg⟩ bcs l (b.refined l) v2) :
    ∀ l p, m.all.Mem n l p → (∃ q, InBox (b.refined l) n q ∧ Near 1 p q) → v1 l p = v2 l p := by
  have hgw : 1 ≤ cfg.ghostWidth := by
    have : cfg.predictionOrder ≤ cfg.ghostWidth := Nat.le_max_right _ _
    omega
  have hdom : ∀ l, l ≤ maxL → BoxDomain n dom l (b.refined l) := fun l h2 => by
    have := hd.finer (Nat.zero_le l) (by omega)
    rwa [Nat.sub_zero] at this
  have hlev : ∀ l p, m.all.Mem n l p → 1 ≤ l ∧ l ≤ maxL := fun l p hp => by
    have := gr.levels hp
    have h2 := gr.low
    exact ⟨h2.1.trans this.1, this.2⟩
  have inner := inner_determined (n := n) (cells := cells) (minL := 0) (maxL := maxL) (m := ⟨m.cells, m.ghosts, m.proj, m.all⟩) (val := v1) (val' := v2)
    (fun l p h => (g.between l p h).2) (fun l p q hp _ hc hq => by
      have hqm := (a6 l p hp hc).2 q hq
      have hl := hlev _ _ hqm
      have e : p = q.map fun y => shr y 1 := mem_childrenOf.1 hq
      have hpb : InBox (b.refined l) n p := by
        obtain ⟨l', y, h1, h2, h3⟩ := hc
        exact leaf_inBox g (hdom l (by omega)) (by omega) h2 (by omega) h3
      have hqb : InBox (b.refined (l + 1)) n q := by
        have := desc_in_box (anc_iff.2 e : Anc 1 p q) hpb
        rwa [Box.refined_refined] at this
      exact child_cases g.tiling (hdom (l + 1) hl.2) (by omega) (by omega) hqb (by rw [← e]; exact hc))
    hleaf (fun l p hp _ hc => a6 l p hp hc) (fun l p hp _ hc => b6 l p hp hc)
  intro l
  induction l using Nat.strong_induction_on with
  | _ l ih =>
    have inside : ∀ p, m.all.Mem n l p → InBox (b.refined l) n p → v1 l p = v2 l p := by
      intro p hp hin
      have hlv := hlev l p hp
      rcases a8 l p hp with ⟨_, h | h | ⟨l0, c, e1, e2, e3⟩⟩ | ⟨h, _⟩
      · exact inner _ l p le_rfl hp (by omega) (.inl h)
      · exact inner _ l p le_rfl hp (by omega) (.inr h)
      · obtain ⟨f1, f2⟩ := a7 l p hp ⟨l0, c, e1, e2, e3⟩
        have f3 := b7 l p hp ⟨l0, c, e1, e2, e3⟩
        rw [hs] at f1 f2 f3
        refine predicted_congr (mem_length hp.2) (fun q hq => ih (l - 1) (by omega) q (f2 q hq) ⟨_, ?_, hq⟩) f1 f3
        refine box_of_desc (k := 1) (anc_iff.2 rfl) ?_
        rw [Box.refined_refined, show l - 1 + 1 = l by omega]
        exact hin
      · exact absurd hin h
    intro p hp hq
    exact amr_layer_unique hn cfg hgw hne h0 hbc hcov gr (a9 l p hp) (b9 l p hp) inside p hp hq

/-- C104. In dimensions 1 and 2, with conditions of one ghost on the whole boundary and the prediction of order 1, the values after `update_ghost` on an AMR
mesh are functions of the values on the leaves: two fields with the same values on the leaves get the same value on each cell of the mesh inside the
domain or next to it (so on each cell of the mesh when `ghost_width` is 1), whatever values the other cells had before. -/
theorem C104_leaves_determine_amr (hn : n ≤ 1) (cfg : MeshConfig) (hs : cfg.predictionOrder = 1) (cells : CA) (dom : LCA)
    (minL maxL : Nat) (hne : minL ≠ maxL) (b : Box) (g : GoodLeaves n cells dom minL maxL) (hmin : 1 ≤ minL) (hd : BoxDomain n dom 0 b) (hdl : dom.level = maxL)
    (hB : ∃ B : Int, 0 ≤ B ∧ B + (2 * cfg.ghostWidth + 9) * 2 ^ maxL + 2 < INT_MAX ∧ ∀ d ≤ n, b.hi d * 2 ^ maxL ≤ B)
    (h0 : K) (bcs : List (BcCond K)) (hbc : ∀ c ∈ bcs, GoodBc n dom 1 c) (hcov : CoversBoundary n dom bcs)
    (m : AMRMeshes) (x : CA) (hm : amrMesh n cfg cells dom minL maxL = some (m, x))
    (u1 u2 : Int → K) (hu : ∀ l p i, cells.Mem n l p → (l, p, i) ∈ m.all.numbered n → u1 i = u2 i) :
    ∃ u1' u2', updateGhostAmr n ⟨⟨m.cells, m.all, dom, minL, maxL, fun _ => false, h0, cfg⟩, m.proj, m.pred⟩ bcs u1 = some u1' ∧
      updateGhostAmr n ⟨⟨m.cells, m.all, dom, minL, maxL, fun _ => false, h0, cfg⟩, m.proj, m.pred⟩ bcs u2 = some u2' ∧
      ∀ l p i, (l, p, i) ∈ m.all.numbered n → (cfg.ghostWidth = 1 ∨ ∃ q, InBox (b.refined l) n q ∧ Near 1 p q) → u1' i = u2' i := by
  obtain ⟨B, hB0, hB1, hB2⟩ := hB
  have hgw : 1 ≤ cfg.ghostWidth := by
    have : cfg.predictionOrder ≤ cfg.ghostWidth := Nat.le_max_right _ _
    omega
  have horder : 2 * cfg.predictionOrder ≤ cfg.ghostWidth + 1 := by omega
  obtain ⟨m', x', r1, r2⟩ := amrMesh_box (cfg := cfg) g.tiling hmin hd hdl hB0 hB1 hB2
  rw [hm] at r1
  obtain ⟨rfl, rfl⟩ : m = m' ∧ x = x' := by simpa using r1
  have hbc' : ∀ c ∈ bcs, GoodBc n dom cfg.ghostWidth c := fun c hc => ⟨(hbc c hc).known, (hbc c hc).width.trans hgw, (hbc c hc).region⟩
  obtain ⟨u1', a3, a4, a5, a6, a7, a8, a9⟩ := amr_ghosts_ok (by omega : n ≤ 2) cfg horder cells dom minL maxL b g hmin hd hdl hB0 hB1 hB2 h0 r2 bcs hbc' u1
  obtain ⟨u2', b3, b4, b5, b6, b7, -, b9⟩ := amr_ghosts_ok (by omega : n ≤ 2) cfg horder cells dom minL maxL b g hmin hd hdl hB0 hB1 hB2 h0 r2 bcs hbc' u2
  have gr := amrReady_ok g.tiling hmin hd hdl hB0 hB1 hB2 h0 r2
  obtain ⟨m0, c1, c2, c3, c4, c5, c6⟩ := r2.content
  obtain ⟨v1, hv1⟩ : ∃ v : Nat → List Int → K, v = fun l p => u1' (numOf n m.all l p) := ⟨_, rfl⟩
  obtain ⟨v2, hv2⟩ : ∃ v : Nat → List Int → K, v = fun l p => u2' (numOf n m.all l p) := ⟨_, rfl⟩
  rw [← hv1] at a4 a6 a7 a9
  rw [← hv2] at b4 b6 b7 b9
  have hdom : ∀ l, l ≤ maxL → BoxDomain n dom l (b.refined l) := fun l h2 => by
    have := hd.finer (Nat.zero_le l) (by omega)
    rwa [Nat.sub_zero] at this
  have hlev : ∀ l p, m.all.Mem n l p → 1 ≤ l ∧ l ≤ maxL := fun l p hp => by
    have := gr.levels hp
    have h2 := gr.low
    exact ⟨h2.1.trans this.1, this.2⟩
  have hleaf : ∀ l p, m.all.Mem n l p → cells.Mem n l p → v1 l p = v2 l p := fun l p hp hc => by
    have hi := numOf_numbered gr.refWF hp
    rw [hv1, hv2]
    exact (a5 l p _ hc hi).trans ((hu l p _ hc hi).trans (b5 l p _ hc hi).symm)
  have up := amr_values_unique hn cfg hs hne g hd hdl h0 hbc hcov gr hleaf a6 (fun l p hp hc => (b6 l p hp hc).1) a7 (fun l p hp hc => (b7 l p hp hc).1) a8 a9 b9
  refine ⟨u1', u2', a3, b3, fun l p i hi hnear => ?_⟩
  rw [a4 l p i hi, b4 l p i hi]
  have hp := (numbered_numOf gr.refWF hi).1
  rcases hnear with h1 | h1
  · refine up l p hp ?_
    rcases a8 l p hp with ⟨h, _⟩ | ⟨_, q, h2, h3⟩
    · exact ⟨p, h, near_refl _ _⟩
    · rw [h1] at h3
      exact ⟨q, leaf_inBox g (hdom l (hlev l p hp).2) (by omega) h2 le_rfl (by rw [Nat.sub_self]; exact anc_zero.2 rfl), h3⟩
  · exact up l p hp h1

end

/-- C103 and C104 on the square with four leaves of level 2 in a corner and three leaves of level 1, `Dirichlet<1>` on the whole boundary. The cell (1, 1) of
level 1 has the mean of the four leaves; two fields that agree on the leaves agree after the update on the ghost (1, 2) of level 2 inside a leaf. -/
example (u1 u2 : Int → Rat) : ∃ m x R, amrMesh 1 ⟨1, 1⟩ cornerMesh squareDomain 1 2 = some (m, x) ∧
    everywhereRegion 1 squareDomain = some R ∧ ∀ value : (Nat → Int) → MCell → Rat,
      (∃ u' val, updateGhostAmr 1 ⟨⟨m.cells, m.all, squareDomain, 1, 2, fun _ => false, 1, ⟨1, 1⟩⟩, m.proj, m.pred⟩ [⟨.dirichlet 1, value, R⟩] u1 = some u' ∧
        FieldIs 1 m.all u' val ∧ 4 * val 1 [1, 1] = val 2 [2, 2] + val 2 [2, 3] + val 2 [3, 2] + val 2 [3, 3]) ∧
      ((∀ l p i, cornerMesh.Mem 1 l p → (l, p, i) ∈ m.all.numbered 1 → u1 i = u2 i) → ∃ u1' u2',
        updateGhostAmr 1 ⟨⟨m.cells, m.all, squareDomain, 1, 2, fun _ => false, 1, ⟨1, 1⟩⟩, m.proj, m.pred⟩ [⟨.dirichlet 1, value, R⟩] u1 = some u1' ∧
        updateGhostAmr 1 ⟨⟨m.cells, m.all, squareDomain, 1, 2, fun _ => false, 1, ⟨1, 1⟩⟩, m.proj, m.pred⟩ [⟨.dirichlet 1, value, R⟩] u2 = some u2' ∧
        ∃ i, (2, [2, 1], i) ∈ m.all.numbered 1 ∧ u1' i = u2' i) := by
  obtain ⟨R, r1, r2⟩ := everywhere_covers (n := 1) (by omega) squareDomain_box.wf squareRange
  have g := cornerLeaves_good
  have hhi : ∀ d ≤ 1, (⟨fun _ => 0, fun _ => 1⟩ : Box).hi d * 2 ^ 2 ≤ 4 := fun _ _ => by show (1 : Int) * 2 ^ 2 ≤ 4; decide
  have hB : (4 : Int) + (2 * (⟨1, 1⟩ : MeshConfig).ghostWidth + 9) * 2 ^ 2 + 2 < INT_MAX := by decide
  obtain ⟨m, x, q1, q2⟩ := amrMesh_box (cfg := ⟨1, 1⟩) g.tiling (by omega) cornerDomain_box rfl (by omega) hB hhi
  obtain ⟨m0, c1, c2, c3, c4, c5, c6⟩ := q2.content
  have hnear : ∀ l p q, cornerMesh.Mem 1 l q → Near 1 p q → m.all.Mem 1 l p := fun l p q hq h => (c6 l p).2 ((c1.all l p).2 (.inl (.inl ⟨q, hq, h⟩)))
  have hfine : ∀ y x : Int, 2 ≤ y → y < 4 → 2 ≤ x → x < 4 → cornerMesh.Mem 1 2 [y, x] := fun y x y1 y2 x1 x2 =>
    (cornerMesh_mem _ _).2 (.inr ⟨rfl, y, x, y1, y2, x1, x2, rfl⟩)
  refine ⟨m, x, R, q1, r1, fun value => ?_⟩
  have hbc : ∀ c ∈ [(⟨.dirichlet 1, value, R⟩ : BcCond Rat)], GoodBc 1 squareDomain 1 c := fun c hc => by
    rw [List.mem_singleton] at hc
    subst hc
    exact (r2 (.dirichlet 1) value 1 ⟨by omega, by omega⟩ (by simp [BcKind.ghosts, BcKind.stencilSize])).1
  have hcov := (r2 (.dirichlet 1) value 1 ⟨by omega, by omega⟩ (by simp [BcKind.ghosts, BcKind.stencilSize])).2
  constructor
  · obtain ⟨m', x', u', val, a1, a3, a4, a5, a6, a7, a8, a9⟩ := C103_update_ghost_amr (n := 1) (by omega) ⟨1, 1⟩ (by decide) cornerMesh squareDomain 1 2 _ g
      (by omega) cornerDomain_box rfl ⟨4, by omega, hB, hhi⟩ (1 : Rat) [⟨.dirichlet 1, value, R⟩] hbc u1
    rw [q1] at a1
    obtain ⟨rfl, rfl⟩ : m = m' ∧ x = x' := by simpa using a1
    refine ⟨u', val, a3, a4, ?_⟩
    have hc : CoveredBy 1 cornerMesh 1 [1, 1] := ⟨2, [2, 2], by omega, hfine 2 2 (by omega) (by omega) (by omega) (by omega), anc_pair.2 ⟨2, 2, rfl, by norm_num, by norm_num⟩⟩
    have hm : m.all.Mem 1 1 [1, 1] := hnear 1 [1, 1] [1, 0] ((cornerMesh_mem _ _).2 (.inl ⟨rfl, 1, 0, by omega, by omega, by omega, by omega, by omega, rfl⟩))
      (.cons (by norm_num) (.cons (by norm_num) .nil))
    have := (a6 1 [1, 1] hm hc).1
    simp only [MeanOfChildren, childrenOf] at this
    norm_num at this
    rw [this]
    ring
  · intro hu
    obtain ⟨u1', u2', t1, t2, t3⟩ := C104_leaves_determine_amr (n := 1) (by omega) ⟨1, 1⟩ rfl cornerMesh squareDomain 1 2 (by omega) _ g
      (by omega) cornerDomain_box rfl ⟨4, by omega, hB, hhi⟩ (1 : Rat) [⟨.dirichlet 1, value, R⟩] hbc hcov m x q1 u1 u2 hu
    have hm : m.all.Mem 1 2 [2, 1] := hnear 2 [2, 1] [2, 2] (hfine 2 2 (by omega) (by omega) (by omega) (by omega)) (.cons (by norm_num) (.cons (by norm_num) .nil))
    obtain ⟨i, hi⟩ := CA.exists_number q2.wf hm
    exact ⟨u1', u2', t1, t2, i, hi, t3 2 [2, 1] i hi (.inl rfl)⟩

end Samurai

/-
The update of the ghosts of a field on an adapted multiresolution mesh.
-/
import Verif.Spec.GhostUpdate
import Verif.Lemmas.GhostAdapted
import Verif.Lemmas.UpdateIntegral
import Verif.Lemmas.GhostDetermined
import Verif.Props.BcAdapted

namespace Samurai

section
variable {K : Type} [Field K] [CharZero K] {n : Nat}

omit [CharZero K] in
theorem satisfied_congr {kd : BcKind} (hk : kd.Exists) {h0 : K} {level : Nat} {f f' : Int → K} {i : Nat} (hi : i ≤ kd.ghosts) {x : K}
    (hf : ∀ j : Int, - (kd.ghosts : Int) < j → j ≤ kd.ghosts → f j = f' j) (h : kd.Satisfied h0 level f i x) : kd.Satisfied h0 level f' i x := by
  match kd, hk with
  | .dirichlet order, hk =>
    have hg : (BcKind.dirichlet order).ghosts = order := by simp [BcKind.ghosts, BcKind.stencilSize]
    rw [hg] at hf hi
    have hk : 1 ≤ order ∧ order ≤ 4 := hk
    obtain ⟨P, h1, h2, h3, h4⟩ := h
    refine ⟨P, h1, fun j hj => ?_, h3, ?_⟩
    · rw [← hf _ (by omega) (by omega)]; exact h2 j hj
    · rw [← hf _ (by omega) (by omega)]; exact h4
  | .neumann, _ =>
    have hg : BcKind.neumann.ghosts = 1 := by simp [BcKind.ghosts, BcKind.stencilSize]
    rw [hg] at hf
    obtain ⟨h1, h2⟩ := h
    refine ⟨h1, ?_⟩
    rw [← hf 1 (by simp) (by simp), ← hf 0 (by simp) (by simp)]
    exact h2

/-- The values after `update_bc` on a level are those of the conditions. -/
theorem afterBc_ready {M : GhostMesh K} {B : Box} {w l : Nat} (hr : BcReady n M.toBcMesh l B w) {bcs : List (BcCond K)} (hbc : ∀ c ∈ bcs, GoodBc n M.dom w c)
    {u : Int → K} (h : AfterBc n M bcs l u) : BoundaryHolds n M.toBcMesh bcs l B fun l p => u (numOf n M.ref l p) := by
  obtain ⟨ua, ub, e1, e2⟩ := h
  obtain ⟨u1, v1, a1, a2, a3⟩ := C71_imposed hr bcs hbc ua
  obtain ⟨u2, v2, b1, b2, b3⟩ := C74_extrapolated hr bcs hbc ua
  rw [e1] at a1 b1
  obtain rfl : ub = u1 := by simpa using a1
  obtain rfl : ub = u2 := by simpa using b1
  constructor
  · intro l1 c d l2 hl p i q hi hq hw hlast
    have hx := mem_bcEntries.1 (show (c, d) ∈ bcEntries bcs by rw [hl]; simp)
    have hgood := hbc c hx.1
    refine satisfied_congr hgood.known hi.2.2.2.2.2.2 (fun j j1 j2 => ?_) (a3 l1 c d l2 hl p i q hi hq hw hlast)
    have hm := (imposes_line hr hgood hx.2 hi).2 j j1 j2
    exact (a2.at hr.refWF hm).trans (e2 _ hm).symm
  · intro p v k ho hper hm k1 k3 kg hv
    obtain ⟨P, p1, p2⟩ := b3 p v k ho hper hm k1 k3 kg hv
    refine ⟨P, p1, fun j j1 j2 => ?_⟩
    rw [← p2 j j1 j2]
    have hmem := hr.lines p v k ho k1 (kg.trans (Nat.le_max_right _ _)) hm v (fun _ _ => .inl rfl) j j1 j2
    exact (e2 _ hmem).trans (b2.at hr.refWF hmem).symm

theorem afterBc_holds {M : GhostMesh K} {b : Nat → Box} {w : Nat} (g : GhostReady n M b w) {bcs : List (BcCond K)} (hbc : ∀ c ∈ bcs, GoodBc n M.dom w c)
    {l : Nat} (h1 : M.ref.minLevel - 1 ≤ l) (h2 : l ≤ M.ref.maxLevel) {u : Int → K} (h : AfterBc n M bcs l u) :
    BoundaryHolds n M.toBcMesh bcs l (b l) fun l p => u (numOf n M.ref l p) := afterBc_ready (g.bc l h1 h2) hbc h

/-- `update_ghost_mr` on a mesh made from good leaves. -/
theorem ghosts_ok (hn : n ≤ 2) (cfg : MeshConfig) (hs : cfg.predictionOrder = 1) (hw : cfg.maxStencilWidth = 1) (cells : CA) (dom : LCA)
    (minL maxL base : Nat) (b : Box) (g : GoodLeaves n cells dom minL maxL)
    (hgd : GoodDomain n dom minL maxL (cfg.maxStencilWidth + cfg.predictionOrder + 1)) (hne : minL ≠ maxL) (hd : BoxDomain n dom base b)
    (hdl : dom.level = maxL) (hbase : base ≤ minL - 3)
    (hB : ∃ B : Int, 0 ≤ B ∧ B + 11 * 2 ^ dom.level + 2 < INT_MAX ∧ ∀ d ≤ n, b.hi d * 2 ^ (dom.level - base) ≤ B)
    (h0 : K) {m : SubMeshes} {x : CA} (r2 : MRMeshOK n cfg cells minL maxL m x) {S : LCA} (s2 : S.WF n) (s3 : S.level = maxL)
    (s4 : ∀ p, S.Mem n p ↔ ∃ l q, cells.Mem n l q ∧ Anc (maxL - l) q p) (bcs : List (BcCond K)) (hbc : ∀ c ∈ bcs, GoodBc n dom cfg.maxStencilWidth c) (u : Int → K) :
    ∃ u',
      updateGhostMr n ⟨⟨m.cells, m.all, dom, minL, maxL, fun _ => false, h0, cfg⟩, m.proj, S⟩ bcs u = some u' ∧ FieldIs n m.all u' (fun l p => u' (numOf n m.all l p)) ∧
      (∀ l p i, cells.Mem n l p → (l, p, i) ∈ m.all.numbered n → u' i = u i) ∧
      (∀ l p, m.all.Mem n l p → minL ≤ l + 1 → CoveredBy n cells l p →
        MeanOfChildren n (fun l p => u' (numOf n m.all l p)) l p ∧ ∀ q ∈ childrenOf p, m.all.Mem n (l + 1) q) ∧
      (∀ l p, m.all.Mem n l p → (∃ l0 c, l0 < l ∧ cells.Mem n l0 c ∧ Anc (l - l0) c p) →
        PredictedFromBelow n 1 (fun l p => u' (numOf n m.all l p)) l p ∧ ∀ q, Near 1 q (p.map fun y => shr y 1) → m.all.Mem n (l - 1) q) ∧
      (∀ l p, m.all.Mem n l p → InBox (b.refined (l - base)) n p →
        cells.Mem n l p ∨ CoveredBy n cells l p ∨ ∃ l0 c, l0 < l ∧ cells.Mem n l0 c ∧ Anc (l - l0) c p) ∧
      (∀ l p, m.all.Mem n l p → BoundaryHolds n ⟨m.cells, m.all, dom, minL, maxL, fun _ => false, h0, cfg⟩ bcs l (b.refined (l - base)) (fun l p => u' (numOf n m.all l p))) := by
  obtain ⟨B, hB0, hB1, hB2⟩ := hB
  have gr := ghostReady_ok hs hw g hgd hne hd hdl hbase hB0 hB1 hB2 h0 r2 s2 s3 s4
  obtain ⟨u', e1, e2, e3, e4, e5⟩ := updateGhostMr_spec gr (bcs := bcs) hbc u
  obtain ⟨m0, c1, c2, c3, c4, c5⟩ := r2.content
  have hall : ∀ l p, m.all.Mem n l p ↔ MRAll n cfg cells minL l p := fun l p => by rw [c5, c1.all hne]
  have hproj : ∀ l p, m.proj.Mem n l p ↔ MRAll n cfg cells minL l p ∧ minL ≤ l + 1 ∧ CoveredBy n cells l p := fun l p => by rw [c4, c1.proj hne]
  have hlev : ∀ l p, m.all.Mem n l p → minL ≤ l + 2 ∧ l ≤ maxL := fun l p h => mrAll_levels g.between ((hall l p).1 h)
  have hdom : ∀ l, base ≤ l → l ≤ maxL → BoxDomain n dom l (b.refined (l - base)) := fun l h1 h2 => hd.finer h1 (by omega)
  have hpred : ∀ l p, m.all.Mem n l p → (∃ l0 c, l0 < l ∧ cells.Mem n l0 c ∧ Anc (l - l0) c p) →
      m.all.minLevel < l ∧ Pred n (mrGhostMesh m S dom minL maxL h0 cfg) l p ∧ ∀ q, Near 1 q (p.map fun y => shr y 1) → m.all.Mem n (l - 1) q := by
    rintro l p hp ⟨l0, c, h1, h2, h3⟩
    have hl := hlev l p hp
    have hmin : m.all.minLevel ≤ l0 := (gr.levels (gr.cellsRef l0 c ((c2 _ _).2 h2))).1
    have hin : InBox (b.refined (l - base)) n p := by
      have hc := leaf_inBox g (hdom l0 (by have := g.between l0 c h2; omega) (by omega)) (by omega) h2 le_rfl (by rw [Nat.sub_self]; exact anc_zero.2 rfl)
      have := desc_in_box h3 hc
      have hb := g.between l0 c h2
      rwa [Box.refined_refined, show l0 - base + (l - l0) = l - base by omega] at this
    have hst : ∀ q, Near 1 q (p.map fun y => shr y 1) → m.all.Mem n (l - 1) q := by
      intro q hq
      obtain ⟨L, rfl⟩ : ∃ L, l = L + 1 := ⟨l - 1, by omega⟩
      exact (hall _ _).2 (pred_stencil hs hw g (hdom (L + 1) (by omega) (by omega)) (by omega) hin ((hall _ _).1 hp) (by omega) h2 h3 hq)
    refine ⟨by omega, ⟨hp, fun h => ?_, fun h => ?_, ?_, hst _ (near_refl _ _)⟩, hst⟩
    · have := (g.noOverlap l0 c l p h2 ((c2 _ _).1 h) (by omega) h3).1
      omega
    · obtain ⟨_, _, l', y, h4, h5, h6⟩ := (hproj _ _).1 h
      have h7 := anc_trans h3 h6
      rw [show l - l0 + (l' - l) = l' - l0 by omega] at h7
      have := (g.noOverlap l0 c l' y h2 h5 (by omega) h7).1
      omega
    · show AtLevel S.level l (S.Mem n) p
      obtain ⟨q, hq⟩ := anc_exists (maxL - l) p
      have h8 := anc_trans h3 hq
      rw [show l - l0 + (maxL - l) = maxL - l0 by omega] at h8
      have hS : S.Mem n q := (s4 q).2 ⟨l0, c, h2, h8⟩
      rw [s3]
      unfold AtLevel
      split
      · obtain rfl : l = maxL := by omega
        rw [Nat.sub_self] at hq ⊢
        exact ⟨q, hS, by rw [← anc_zero.1 hq]; exact anc_zero.2 rfl⟩
      · exact ⟨q, hS, hq⟩
  refine ⟨u', e1, fieldIs_numOf gr.refWF u', fun l p i hc hi => ?_, fun l p hp hl hc => ?_,
    fun l p hp hc => ?_, fun l p hp hin => ?_, fun l p hp => ?_⟩
  · obtain ⟨h1, rfl⟩ := numbered_numOf gr.refWF hi
    refine e2.at gr.refWF gr.numbers h1 ?_
    rintro (h | ⟨_, _, h, _⟩ | h)
    · obtain ⟨_, _, l', y, h4, h5, h6⟩ := (hproj _ _).1 h
      have := (g.noOverlap l p l' y hc h5 (by omega) h6).1
      omega
    · exact h ((c2 _ _).2 hc)
    · exact h.out (leaf_inBox g (hdom l (by have := g.between l p hc; omega) (hlev l p h1).2) (by omega) hc le_rfl (by rw [Nat.sub_self]; exact anc_zero.2 rfl))
  · have hpr := (hproj l p).2 ⟨(hall _ _).1 hp, hl, hc⟩
    refine ⟨?_, fun q hq => gr.child hpr (mem_childrenOf.1 hq).symm⟩
    have := e3 l p hpr
    have hp' := project_mean n hn (fun l q => u' (numOf n m.all l q)) l (mem_length hp.2)
    have := this.trans hp'
    unfold MeanOfChildren
    show 2 ^ (n + 1) * u' (numOf n m.all l p) = _
    rw [show u' (numOf n m.all l p) = _ from this, ← mul_assoc, ← mul_pow]
    norm_num
  · obtain ⟨h1, h2, h3⟩ := hpred l p hp hc
    refine ⟨?_, h3⟩
    have := e4 l p h1 h2
    rw [show (mrGhostMesh m S dom minL maxL h0 cfg).cfg.predictionOrder = 1 from hs] at this
    exact this
  · have := hlev l p hp
    exact box_cases g (hdom l (by omega) (by omega)) (by omega) hin
  · have := gr.levels hp
    exact afterBc_holds gr hbc (by omega) this.2 (e5 l this.1 this.2)

/-- C76. `update_ghost_mr` on every adapted multiresolution mesh (leaves that tile the domain and are graded, default configuration, no periodic
direction, a domain which is a box of cells of a level at least three below `min_level`, or of level 0), for any field and any list of boundary
conditions: it succeeds (every cell it reads is in the mesh), and after it
* the leaves have the values they had;
* each cell of the mesh that is covered by finer leaves (from the level `min_level - 1`) has the mean of the values of its children, all in the mesh;
* each cell of the mesh inside a coarser leaf has the value predicted from the level below, from cells of the mesh;
* there is no other cell inside the domain, from the level `min_level - 1`;
* on every level of the mesh the ghosts outside the domain satisfy the boundary conditions with the final values of the cells inside.
The values in these relations are all final ones: nothing computed early is invalidated by a later step. -/
theorem C76_update_ghosts (hn : n ≤ 2) (cfg : MeshConfig) (hs : cfg.predictionOrder = 1) (hw : cfg.maxStencilWidth = 1) (cells : CA) (dom : LCA)
    (minL maxL base : Nat) (b : Box) (g : GoodLeaves n cells dom minL maxL)
    (hgd : GoodDomain n dom minL maxL (cfg.maxStencilWidth + cfg.predictionOrder + 1)) (hne : minL ≠ maxL) (hd : BoxDomain n dom base b)
    (hdl : dom.level = maxL) (hbase : base ≤ minL - 3)
    (hB : ∃ B : Int, 0 ≤ B ∧ B + 11 * 2 ^ dom.level + 2 < INT_MAX ∧ ∀ d ≤ n, b.hi d * 2 ^ (dom.level - base) ≤ B)
    (h0 : K) (bcs : List (BcCond K)) (hbc : ∀ c ∈ bcs, GoodBc n dom cfg.maxStencilWidth c) (u : Int → K) :
    ∃ m x S u' val, mrMesh n cfg cells minL maxL = some (m, x) ∧ constructSubdomain n cells maxL = some S ∧
      updateGhostMr n ⟨⟨m.cells, m.all, dom, minL, maxL, fun _ => false, h0, cfg⟩, m.proj, S⟩ bcs u = some u' ∧ FieldIs n m.all u' val ∧
      (∀ l p i, cells.Mem n l p → (l, p, i) ∈ m.all.numbered n → u' i = u i) ∧
      (∀ l p, m.all.Mem n l p → minL ≤ l + 1 → CoveredBy n cells l p →
        MeanOfChildren n val l p ∧ ∀ q ∈ childrenOf p, m.all.Mem n (l + 1) q) ∧
      (∀ l p, m.all.Mem n l p → (∃ l0 c, l0 < l ∧ cells.Mem n l0 c ∧ Anc (l - l0) c p) →
        PredictedFromBelow n 1 val l p ∧ ∀ q, Near 1 q (p.map fun y => shr y 1) → m.all.Mem n (l - 1) q) ∧
      (∀ l p, m.all.Mem n l p → InBox (b.refined (l - base)) n p →
        cells.Mem n l p ∨ CoveredBy n cells l p ∨ ∃ l0 c, l0 < l ∧ cells.Mem n l0 c ∧ Anc (l - l0) c p) ∧
      (∀ l p, m.all.Mem n l p → BoundaryHolds n ⟨m.cells, m.all, dom, minL, maxL, fun _ => false, h0, cfg⟩ bcs l (b.refined (l - base)) val) := by
  obtain ⟨D0, D1, D2, D3⟩ := hgd.range
  obtain ⟨m, x, r1, r2⟩ := mrMesh_spec (cells := cells) (cfg := cfg) (n := n) (minL := minL) (maxL := maxL)
    ⟨g.wf, g.leveled, g.between, g.size, D0, D1, D2, g.below D3⟩
  obtain ⟨S, s1, s2, s3, s4⟩ := constructSubdomain_spec g.wf g.between
  obtain ⟨u', h⟩ := ghosts_ok hn cfg hs hw cells dom minL maxL base b g hgd hne hd hdl hbase hB h0 r2 s2 s3 s4 bcs hbc u
  exact ⟨m, x, S, u', _, r1, s1, h⟩

omit [CharZero K] in
theorem predicted_congr {val val' : Nat → List Int → K} {l : Nat} {p : List Int} (hp : p.length = n + 1)
    (h : ∀ q, Near 1 q (p.map fun y => shr y 1) → val (l - 1) q = val' (l - 1) q) (h1 : PredictedFromBelow n 1 val l p)
    (h2 : PredictedFromBelow n 1 val' l p) : val l p = val' l p := by
  rw [show val l p = _ from h1, show val' l p = _ from h2]
  refine predictFine_congr fun s hs => h _ ?_
  refine (near_iff_toPt (ofPt_length _ _) (by simpa using hp)).2 fun d hd => ?_
  have := (mem_offsetsFrom.1 hs).1 d hd
  rw [toPt_half hp (by omega), toPt_ofPt _ (by omega), show parentPt (toPt p) d = toPt p d / 2 from shr_one_eq _]
  push_cast at this
  omega

/-- What both theorems below need: the cells inside the domain that are leaves or covered by leaves have values determined by the leaves. -/
theorem inner_determined {cells : CA} {minL maxL : Nat} {m : SubMeshes} {val val' : Nat → List Int → K}
    (hb : ∀ l p, cells.Mem n l p → l ≤ maxL)
    (hsplit : ∀ l p q, m.all.Mem n l p → minL ≤ l + 1 → CoveredBy n cells l p → q ∈ childrenOf p → cells.Mem n (l + 1) q ∨ CoveredBy n cells (l + 1) q)
    (hleaf : ∀ l p, m.all.Mem n l p → cells.Mem n l p → val l p = val' l p)
    (h : ∀ l p, m.all.Mem n l p → minL ≤ l + 1 → CoveredBy n cells l p → MeanOfChildren n val l p ∧ ∀ q ∈ childrenOf p, m.all.Mem n (l + 1) q)
    (h' : ∀ l p, m.all.Mem n l p → minL ≤ l + 1 → CoveredBy n cells l p → MeanOfChildren n val' l p) :
    ∀ j l p, maxL - l ≤ j → m.all.Mem n l p → minL ≤ l + 1 → cells.Mem n l p ∨ CoveredBy n cells l p → val l p = val' l p := by
  intro j
  induction j with
  | zero =>
    intro l p hj hp hl hc
    rcases hc with hc | ⟨l', q, h1, h2, _⟩
    · exact hleaf l p hp hc
    · have := hb l' q h2
      omega
  | succ j ih =>
    intro l p hj hp hl hc
    rcases hc with hc | hc
    · exact hleaf l p hp hc
    · obtain ⟨a1, a2⟩ := h l p hp hl hc
      have a3 := h' l p hp hl hc
      have e : ((childrenOf p).map fun q => val (l + 1) q) = (childrenOf p).map fun q => val' (l + 1) q := by
        refine List.map_congr_left fun q hq => ih (l + 1) q (by omega) (a2 q hq) (by omega) (hsplit l p q hp hl hc hq)
      unfold MeanOfChildren at a1 a3
      rw [e, ← a3] at a1
      exact mul_left_cancel₀ (pow_ne_zero _ two_ne_zero) a1

/-- Two values of a field that satisfy the relations of `update_ghost_mr` and agree on the leaves agree on each cell of the mesh inside the domain or next
to it. -/
theorem values_unique (hn : n ≤ 1) (cfg : MeshConfig) (hs : cfg.predictionOrder = 1) (hw : cfg.maxStencilWidth = 1) {cells : CA} {dom : LCA}
    {minL maxL base : Nat} {b : Box} (g : GoodLeaves n cells dom minL maxL)
    (hne : minL ≠ maxL) (hd : BoxDomain n dom base b)
    (hdl : dom.level = maxL) (hbase : base ≤ minL - 3)
    (h0 : K) {bcs : List (BcCond K)} (hbc : ∀ c ∈ bcs, GoodBc n dom 1 c) (hcov : CoversBoundary n dom bcs)
    {m : SubMeshes} {x : CA} (r2 : MRMeshOK n cfg cells minL maxL m x) {S : LCA}
    (gr : GhostReady n (mrGhostMesh m S dom minL maxL h0 cfg) (fun l => b.refined (l - base)) 1) {v1 v2 : Nat → List Int → K}
    (hleaf : ∀ l p, m.all.Mem n l p → cells.Mem n l p → v1 l p = v2 l p)
    (a6 : ∀ l p, m.all.Mem n l p → minL ≤ l + 1 → CoveredBy n cells l p → MeanOfChildren n v1 l p ∧ ∀ q ∈ childrenOf p, m.all.Mem n (l + 1) q)
    (b6 : ∀ l p, m.all.Mem n l p → minL ≤ l + 1 → CoveredBy n cells l p → MeanOfChildren n v2 l p)
    (a7 : ∀ l p, m.all.Mem n l p → (∃ l0 c, l0 < l ∧ cells.Mem n l0 c ∧ Anc (l - l0) c p) →
      PredictedFromBelow n 1 v1 l p ∧ ∀ q, Near 1 q (p.map fun y => shr y 1) → m.all.Mem n (l - 1) q)
    (b7 : ∀ l p, m.all.Mem n l p → (∃ l0 c, l0 < l ∧ cells.Mem n l0 c ∧ Anc (l - l0) c p) → PredictedFromBelow n 1 v2 l p)
    (a8 : ∀ l p, m.all.Mem n l p → InBox (b.refined (l - base)) n p →
      cells.Mem n l p ∨ CoveredBy n cells l p ∨ ∃ l0 c, l0 < l ∧ cells.Mem n l0 c ∧ Anc (l - l0) c p)
    (a9 : ∀ l p, m.all.Mem n l p → BoundaryHolds n ⟨m.cells, m.all, dom, minL, maxL, fun _ => false, h0, cfg⟩ bcs l (b.refined (l - base)) v1)
    (b9 : ∀ l p, m.all.Mem n l p → BoundaryHolds n ⟨m.cells, m.all, dom, minL, maxL, fun _ => false, h0, cfg⟩ bcs l (b.refined (l - base)) v2) :
    ∀ l p, m.all.Mem n l p → minL ≤ l + 1 → (∃ q, InBox (b.refined (l - base)) n q ∧ Near 1 p q) → v1 l p = v2 l p := by
  obtain ⟨m0, c1, c2, c3, c4, c5⟩ := r2.content
  have hall : ∀ l p, m.all.Mem n l p ↔ MRAll n cfg cells minL l p := fun l p => by rw [c5, c1.all hne]
  have hproj : ∀ l p, m.proj.Mem n l p ↔ MRAll n cfg cells minL l p ∧ minL ≤ l + 1 ∧ CoveredBy n cells l p := fun l p => by rw [c4, c1.proj hne]
  have hlev : ∀ l p, m.all.Mem n l p → minL ≤ l + 2 ∧ l ≤ maxL := fun l p h => mrAll_levels g.between ((hall l p).1 h)
  have hdom : ∀ l, base ≤ l → l ≤ maxL → BoxDomain n dom l (b.refined (l - base)) := fun l h1 h2 => hd.finer h1 (by omega)
  have inner := inner_determined (n := n) (cells := cells) (minL := minL) (maxL := maxL) (m := m) (val := v1) (val' := v2)
    (fun l p h => (g.between l p h).2) (fun l p q hp hl hc hq => by
      rcases gr.projChild l p q ((hproj l p).2 ⟨(hall _ _).1 hp, hl, hc⟩) (mem_childrenOf.1 hq).symm with h | h
      · exact .inl ((c2 _ _).1 h)
      · exact .inr ((hproj _ _).1 h).2.2)
    hleaf a6 b6
  intro l
  induction l using Nat.strong_induction_on with
  | _ l ih =>
    have inside : ∀ p, m.all.Mem n l p → minL ≤ l + 1 → InBox (b.refined (l - base)) n p → v1 l p = v2 l p := by
      intro p hp hl hin
      have hlv := hlev l p hp
      rcases a8 l p hp hin with h | h | ⟨l0, c, e1, e2, e3⟩
      · exact inner _ l p le_rfl hp hl (.inl h)
      · exact inner _ l p le_rfl hp hl (.inr h)
      · obtain ⟨f1, f2⟩ := a7 l p hp ⟨l0, c, e1, e2, e3⟩
        have hl0 := g.between l0 c e2
        refine predicted_congr (mem_length hp.2) (fun q hq => ih (l - 1) (by omega) q (f2 q hq) (by omega) ⟨_, ?_, hq⟩) f1
          (b7 l p hp ⟨l0, c, e1, e2, e3⟩)
        refine box_of_desc (k := 1) (anc_iff.2 rfl) ?_
        rw [Box.refined_refined, show l - 1 - base + 1 = l - base by omega]
        exact hin
    rintro p hp hl ⟨q, hq, hnear⟩
    by_cases hin : InBox (b.refined (l - base)) n p
    · exact inside p hp hl hin
    · obtain ⟨p', v, ho, rfl⟩ := layer_outward hq hnear hin
      have hlv := gr.levels hp
      have hr := gr.bc l (by omega) hlv.2
      by_cases hax : OneAxis n v
      · exact axis_determined gr hne hbc (fun _ => rfl) hcov (by omega) hlv.2 (a9 l _ hp) (b9 l _ hp) (fun p' h1 h2 => inside p' h2 hl h1) ho hax hp
      · have hv : n = 1 ∧ v 0 ≠ 0 ∧ v 1 ≠ 0 := by
          obtain ⟨-, k, k1, k2⟩ := ho.2.1
          rcases (by omega : n = 0 ∨ n = 1) with rfl | rfl
          · exact absurd ⟨k, k1, k2, fun j hj hjk => by omega⟩ hax
          · refine ⟨rfl, fun h => hax ⟨1, le_rfl, fun h1 => ?_, fun j hj hj1 => ?_⟩, fun h => hax ⟨0, by omega, fun h1 => ?_, fun j hj hj1 => ?_⟩⟩
            · rcases (by omega : k = 0 ∨ k = 1) with rfl | rfl <;> exact k2 (by assumption)
            · obtain rfl : j = 0 := by omega
              exact h
            · rcases (by omega : k = 0 ∨ k = 1) with rfl | rfl <;> exact k2 (by assumption)
            · obtain rfl : j = 1 := by omega
              exact h
        have hgw : 1 ≤ cfg.ghostWidth := by simp only [MeshConfig.ghostWidth, hs, hw]; decide
        have hp' : m.all.Mem n l p' := by
          have := hr.lines p' v 1 ho le_rfl (by exact hgw.trans (Nat.le_max_right _ _)) hp v (fun _ _ => .inl rfl) 0 (by omega) (by omega)
          rwa [walk_zero] at this
        have const : ∀ f : Int → K, Extrapolated f 1 → f 1 = f 0 := by
          rintro f ⟨P, d1, d2⟩
          obtain ⟨c, rfl⟩ := Polynomial.natDegree_eq_zero.1 (Nat.le_zero.1 d1)
          rw [d2 1 (by simp) (by simp), d2 0 (by simp) (by simp), Polynomial.eval_C, Polynomial.eval_C]
        have t1 := const _ ((a9 l _ hp).extrapolated p' v 1 ho (fun _ _ _ => rfl) hp le_rfl (by omega) hgw (.inr hv))
        have t2 := const _ ((b9 l _ hp).extrapolated p' v 1 ho (fun _ _ _ => rfl) hp le_rfl (by omega) hgw (.inr hv))
        simp only [walk_zero] at t1 t2
        rw [t1, t2]
        exact inside p' hp' hl ho.1

/-- C77. In dimensions 1 and 2, with boundary conditions on the whole boundary, the values after `update_ghost_mr` are functions of the values on the
leaves: two fields with the same values on the leaves get the same value on each cell of the mesh inside the domain or next to it (from the level
`min_level - 1`), whatever values the other cells had before. -/
theorem C77_leaves_determine (hn : n ≤ 1) (cfg : MeshConfig) (hs : cfg.predictionOrder = 1) (hw : cfg.maxStencilWidth = 1) (cells : CA) (dom : LCA)
    (minL maxL base : Nat) (b : Box) (g : GoodLeaves n cells dom minL maxL)
    (hgd : GoodDomain n dom minL maxL (cfg.maxStencilWidth + cfg.predictionOrder + 1)) (hne : minL ≠ maxL) (hd : BoxDomain n dom base b)
    (hdl : dom.level = maxL) (hbase : base ≤ minL - 3)
    (hB : ∃ B : Int, 0 ≤ B ∧ B + 11 * 2 ^ dom.level + 2 < INT_MAX ∧ ∀ d ≤ n, b.hi d * 2 ^ (dom.level - base) ≤ B)
    (h0 : K) (bcs : List (BcCond K)) (hbc : ∀ c ∈ bcs, GoodBc n dom cfg.maxStencilWidth c) (hcov : CoversBoundary n dom bcs)
    (m : SubMeshes) (x : CA) (hm : mrMesh n cfg cells minL maxL = some (m, x)) (S : LCA) (hS : constructSubdomain n cells maxL = some S)
    (u1 u2 : Int → K) (hu : ∀ l p i, cells.Mem n l p → (l, p, i) ∈ m.all.numbered n → u1 i = u2 i) :
    ∃ u1' u2', updateGhostMr n ⟨⟨m.cells, m.all, dom, minL, maxL, fun _ => false, h0, cfg⟩, m.proj, S⟩ bcs u1 = some u1' ∧
      updateGhostMr n ⟨⟨m.cells, m.all, dom, minL, maxL, fun _ => false, h0, cfg⟩, m.proj, S⟩ bcs u2 = some u2' ∧
      ∀ l p i, (l, p, i) ∈ m.all.numbered n → minL ≤ l + 1 → (∃ q, InBox (b.refined (l - base)) n q ∧ Near 1 p q) → u1' i = u2' i := by
  have r2 := mrMesh_ok g hgd hm
  obtain ⟨S', s1, s2, s3, s4⟩ := constructSubdomain_spec g.wf g.between
  rw [hS] at s1
  obtain rfl : S = S' := by simpa using s1
  obtain ⟨u1', a3, a4, a5, a6, a7, a8, a9⟩ :=
    ghosts_ok (by omega : n ≤ 2) cfg hs hw cells dom minL maxL base b g hgd hne hd hdl hbase hB h0 r2 s2 s3 s4 bcs hbc u1
  obtain ⟨u2', b3, b4, b5, b6, b7, -, b9⟩ :=
    ghosts_ok (by omega : n ≤ 2) cfg hs hw cells dom minL maxL base b g hgd hne hd hdl hbase hB h0 r2 s2 s3 s4 bcs hbc u2
  obtain ⟨B, hB0, hB1, hB2⟩ := hB
  have gr := ghostReady_ok hs hw g hgd hne hd hdl hbase hB0 hB1 hB2 h0 r2 s2 s3 s4
  rw [hw] at gr hbc
  have up := values_unique hn cfg hs hw g hne hd hdl hbase h0 hbc hcov r2 gr (v1 := fun l p => u1' (numOf n m.all l p)) (v2 := fun l p => u2' (numOf n m.all l p)) (fun l p hp hc => by
    have hi := numOf_numbered gr.refWF hp
    exact (a5 l p _ hc hi).trans ((hu l p _ hc hi).trans (b5 l p _ hc hi).symm)) a6 (fun l p hp hl hc => (b6 l p hp hl hc).1) a7
    (fun l p hp h => (b7 l p hp h).1) a8 a9 b9
  refine ⟨u1', u2', a3, b3, fun l p i hi hl hnear => ?_⟩
  rw [a4 l p i hi, b4 l p i hi]
  exact up l p (numbered_numOf gr.refWF hi).1 hl hnear

end

end Samurai

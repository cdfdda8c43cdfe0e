import Verif.Spec.Details
import Verif.Lemmas.Details
import Verif.Props.GhostUpdate
import Verif.Props.Criteria
import Verif.Lemmas.GraduationLoop

namespace Samurai

section
variable {n : Nat} {cfg : MeshConfig} {c0 : CA} {dom : LCA} {minL maxL : Nat} {m : SubMeshes} {x : CA}

theorem coveredBy_congr {a b : CA} (h : ∀ l p, a.Mem n l p ↔ b.Mem n l p) (l : Nat) (p : List Int) : CoveredBy n a l p ↔ CoveredBy n b l p := by
  unfold CoveredBy
  simp only [h]

theorem mrBase_congr {a b : CA} (h : ∀ l p, a.Mem n l p ↔ b.Mem n l p) (l : Nat) (p : List Int) : MRBase n cfg a l p ↔ MRBase n cfg b l p := by
  unfold MRBase
  simp only [h, coveredBy_congr h]

theorem mrAll_congr {a b : CA} (h : ∀ l p, a.Mem n l p ↔ b.Mem n l p) : ∀ (l : Nat) (p : List Int), MRAll n cfg a minL l p ↔ MRAll n cfg b minL l p
  | 0, p => mrBase_congr h 0 p
  | l + 1, p => by
    unfold MRAll
    simp only [mrBase_congr h, coveredBy_congr h, mrAll_congr h l]

/-- The mesh is the one of its own leaves. -/
theorem MRMeshOK.self (h : MRMeshOK n cfg c0 minL maxL m x) : MRMeshOK n cfg m.cells minL maxL m x := by
  obtain ⟨m0, c1, c2, c3, c4, c5⟩ := h.content
  have hs := h.cellsLevels.1
  refine ⟨⟨h.union.size.trans hs.symm, h.union.wf, h.union.leveled, fun l p => ?_⟩, ⟨{ m0 with cells := m.cells }, ?_, fun _ _ => Iff.rfl, c3, c4, c5⟩,
    h.wf, h.size.trans hs.symm, ⟨rfl, h.cellsLevels.2⟩, ⟨h.ghostsLevels.1.trans hs.symm, h.ghostsLevels.2⟩, ⟨h.projLevels.1.trans hs.symm, h.projLevels.2⟩,
    h.allLevels, h.numbers, h.index⟩
  · rw [h.union.mem, coveredBy_congr c2]
  · refine ⟨rfl, ?_, c1.wf, c1.leveled, fun l p => ?_, fun hne l p => ?_, fun hne l p => ?_, c1.flat⟩
    · rw [hs]; exact c1.size
    · show m0.ghosts.Mem n l p ↔ _
      rw [c1.ghosts]
      simp only [c2]
    · show m0.proj.Mem n l p ↔ _
      rw [c1.proj hne, mrAll_congr c2, coveredBy_congr c2]
    · show m0.all.Mem n l p ↔ _
      rw [c1.all hne, mrAll_congr c2]

variable {K : Type} [Field K]

/-- The array of a field has its values. -/
theorem fieldArray_numOf [LinearOrder K] [IsStrictOrderedRing K] (h : MRMeshOK n cfg c0 minL maxL m x) (f : CellField K) {l : Nat} {p : List Int} (hp : m.all.Mem n l p) :
    fieldArray n m.all f (numOf n m.all l p) = f l p := by
  have hin := numOf_numbered h.wf.2.2.2 hp
  have hnd : ((m.all.numbered n).map fun e => e.2.2).Nodup := by
    rw [h.numbers]
    refine (List.nodup_map_iff ?_).2 List.nodup_range
    intro a b hab
    simpa using hab
  unfold fieldArray
  cases hf : (m.all.numbered n).find? fun e => e.2.2 == numOf n m.all l p with
  | none =>
    rw [List.find?_eq_none] at hf
    exact absurd (by simp) (hf _ hin)
  | some e =>
    have he := List.find?_some hf
    have hem := List.mem_of_find?_eq_some hf
    have : e = (l, p, numOf n m.all l p) := List.inj_on_of_nodup_map hnd hem hin (by simpa using he)
    rw [this]

theorem fieldAt_eq (ref : CA) (u : Int → K) (l : Nat) (p : List Int) : fieldAt n ref u l p = u (numOf n ref l p) := rfl

theorem detailOf_eq (order : Nat) (ref : CA) (u : Int → K) (l : Nat) (p : List Int) : detailOf n order ref u l p = detailAt n order (fieldAt n ref u) l p := rfl

/-- The details, cell by cell. -/
theorem details_values (h : AdaptInv n cfg dom minL maxL m x) {gw : Nat}
    (hd : GoodDomain n dom minL maxL (cfg.maxStencilWidth + cfg.predictionOrder + gw + 3)) (hlt : minL < maxL) (hn : n ≤ 2) (ho : 1 ≤ cfg.predictionOrder)
    (ite : Nat) (u : Int → K) :
    ∃ dt, computeDetails n cfg.predictionOrder minL maxL ite m.cells m.all u = some dt ∧
      (∀ l p, HasDetail n m.cells maxL ite l p → m.all.Mem n l p ∧ fieldAt n m.all dt l p = detailAt n cfg.predictionOrder (fieldAt n m.all u) l p) ∧
      ∀ l p, m.all.Mem n l p → ¬ HasDetail n m.cells maxL ite l p → fieldAt n m.all dt l p = 0 := by
  obtain ⟨c0, hc⟩ := h.mesh
  obtain ⟨dt, a1, a2⟩ := computeDetails_ok h hd hlt hn ho ite u
  have hiff : ∀ l p, (∃ level, (minL - 1 ≤ level ∧ level < maxL - ite) ∧ RowDetails level (LeafParent n m.cells level) l p) ↔ HasDetail n m.cells maxL ite l p := by
    intro l p
    constructor
    · rintro ⟨level, h1, ⟨rfl, c, h2, h3⟩ | ⟨h2, rfl, c, h3, h4⟩⟩
      · exact ⟨by omega, .inl ⟨by omega, c, parentOf p, h2, anc_one.2 h3, anc_one.2 rfl⟩⟩
      · exact ⟨by omega, .inr ⟨by omega, c, h3, anc_one.2 h4⟩⟩
    · rintro ⟨h0, ⟨h1, c, q, h2, h3, h4⟩ | ⟨h1, c, h2, h3⟩⟩
      · have hb := h.leaves.between l c h2
        obtain ⟨L, rfl⟩ : ∃ L, l = L + 1 := ⟨l - 1, by omega⟩
        exact ⟨L, ⟨by omega, by omega⟩, .inl ⟨rfl, c, h2, (anc_one.1 h3).trans (anc_one.1 h4).symm⟩⟩
      · have hb := h.leaves.between (l + 1) c h2
        exact ⟨l, ⟨by omega, by omega⟩, .inr ⟨h0, rfl, c, h2, anc_one.1 h3⟩⟩
  refine ⟨dt, a1, fun l p hp => ?_, fun l p hp hno => ?_⟩
  · have := (hiff l p).2 hp
    exact ⟨a2.mem l p this, a2.value l p this⟩
  · refine a2.keeps _ fun l' p' h' he => hno ?_
    have hm := a2.mem l' p' h'
    have := numOf_level hc.wf.2.2.2 (mrNumbers hc) hp hm he
    obtain ⟨rfl, rfl⟩ := this
    exact (hiff _ _).1 h'

end

section
variable {K : Type} [Field K] [LinearOrder K] [IsStrictOrderedRing K]
variable {n : Nat} {cfg : MeshConfig} {dom : LCA} {minL maxL : Nat} {m : SubMeshes} {x : CA}

theorem epsLevel_eq {eps : K} (h : (n + 1) * (maxL - minL) < 31) {l : Nat} (hl : minL ≤ l) : epsLevel n maxL eps l = some (threshold n maxL eps l) := by
  unfold epsLevel threshold
  rw [if_pos]
  exact lt_of_le_of_lt (Nat.mul_le_mul_left _ (by omega)) h

/-- The values after `update_ghost_mr` of a field of the mesh. -/
theorem ghostArray_ok (hn : n ≤ 2) {base : Nat} {b : Box} (st : BoxSetup n cfg dom minL maxL base b) (h : AdaptInv n cfg dom minL maxL m x)
    (hgd : GoodDomain n dom minL maxL (cfg.maxStencilWidth + cfg.predictionOrder + 1)) (hne : minL ≠ maxL) (h0 : K) (bcs : List (BcCond K))
    (hbc : ∀ c ∈ bcs, GoodBc n dom cfg.maxStencilWidth c) (f : CellField K) :
    ∃ u S, ghostArray n cfg minL maxL dom h0 bcs m f = some u ∧
      GhostReady n (mrGhostMesh m S dom minL maxL h0 cfg) (fun l => b.refined (l - base)) cfg.maxStencilWidth ∧
      (∀ l p, m.cells.Mem n l p → fieldAt n m.all u l p = f l p) ∧
      (∀ l p, m.all.Mem n l p → minL ≤ l + 1 → CoveredBy n m.cells l p →
        MeanOfChildren n (fieldAt n m.all u) l p ∧ ∀ q ∈ childrenOf p, m.all.Mem n (l + 1) q) ∧
      (∀ l p, m.all.Mem n l p → (∃ l0 c, l0 < l ∧ m.cells.Mem n l0 c ∧ Anc (l - l0) c p) →
        PredictedFromBelow n 1 (fieldAt n m.all u) l p ∧ ∀ q, Near 1 q (p.map fun y => shr y 1) → m.all.Mem n (l - 1) q) ∧
      (∀ l p, m.all.Mem n l p → InBox (b.refined (l - base)) n p →
        m.cells.Mem n l p ∨ CoveredBy n m.cells l p ∨ ∃ l0 c, l0 < l ∧ m.cells.Mem n l0 c ∧ Anc (l - l0) c p) ∧
      (∀ l p, m.all.Mem n l p → BoundaryHolds n ⟨m.cells, m.all, dom, minL, maxL, fun _ => false, h0, cfg⟩ bcs l (b.refined (l - base)) (fieldAt n m.all u)) := by
  obtain ⟨c0, hc⟩ := h.mesh
  have r2 := hc.self
  have g := h.leaves
  obtain ⟨S, s1, s2, s3, s4⟩ := constructSubdomain_spec g.wf g.between
  obtain ⟨u, e1, e2, e3, e4⟩ := ghosts_ok hn cfg st.order st.width m.cells dom minL maxL base b g hgd hne st.box st.level st.coarse st.range h0 r2 s2 s3 s4 bcs hbc
    (fieldArray n m.all f)
  obtain ⟨B, hB0, hB1, hB2⟩ := st.range
  have gr := ghostReady_ok st.order st.width g hgd hne st.box st.level st.coarse hB0 hB1 hB2 h0 r2 s2 s3 s4
  refine ⟨u, S, ?_, gr, fun l p hp => ?_, e4⟩
  · unfold ghostArray
    rw [s1]
    exact e1
  · have hm := hc.cells_all hp
    have := e3 l p _ hp (numOf_numbered hc.wf.2.2.2 hm)
    rw [fieldArray_numOf hc f hm] at this
    exact this

/-- A step is a step of the criteria with the masks of the details. -/
theorem adaptStep_eq (hn : n ≤ 2) (h : AdaptInv n cfg dom minL maxL m x) {gw : Nat}
    (hd : GoodDomain n dom minL maxL (cfg.maxStencilWidth + cfg.predictionOrder + gw + 3)) (hlt : minL < maxL) (ho : 1 ≤ cfg.predictionOrder)
    (hsh : (n + 1) * (maxL - minL) < 31) {h0 : K} {bcs : List (BcCond K)} {f : CellField K} {u : Int → K}
    (hu : ghostArray n cfg minL maxL dom h0 bcs m f = some u) (enlarge : Bool) (eps factor : K) (ite : Nat) :
    ∃ dt, adaptStep n cfg gw minL maxL enlarge dom h0 bcs eps factor ite m x f =
        harten n cfg gw minL maxL ite enlarge (detailMasks n maxL eps factor m.all dt) dom m x (fieldAt n m.all u) ∧
      (∀ l p, HasDetail n m.cells maxL ite l p → m.all.Mem n l p ∧ fieldAt n m.all dt l p = detailAt n cfg.predictionOrder (fieldAt n m.all u) l p) ∧
      ∀ l p, m.all.Mem n l p → ¬ HasDetail n m.cells maxL ite l p → fieldAt n m.all dt l p = 0 := by
  obtain ⟨dt, a1, a2⟩ := details_values h hd hlt hn ho ite u
  refine ⟨dt, ?_, a2⟩
  unfold adaptStep
  rw [hu]
  simp only []
  rw [a1]
  simp only []
  rw [if_pos]
  rw [List.all_eq_true]
  intro l hl
  rw [List.mem_range'_1] at hl
  rw [epsLevel_eq hsh hl.1]
  rfl

theorem mask_large (hsh : (n + 1) * (maxL - minL) < 31) {eps factor : K} {all : CA} {dt : Int → K} {l : Nat} (hl : minL ≤ l) (p : List Int) :
    (detailMasks n maxL eps factor all dt).large l p = true ↔ factor * threshold n maxL eps l < |fieldAt n all dt l p| := by
  unfold detailMasks
  simp only [epsLevel_eq hsh hl, Option.getD_some, decide_eq_true_eq, gt_iff_lt]

theorem mask_small (hsh : (n + 1) * (maxL - minL) < 31) {eps factor : K} {all : CA} {dt : Int → K} {l : Nat} (hl : minL ≤ l) (p : List Int) :
    (detailMasks n maxL eps factor all dt).small l p = true ↔ |fieldAt n all dt l p| < threshold n maxL eps l := by
  unfold detailMasks
  simp only [epsLevel_eq hsh hl, Option.getD_some, decide_eq_true_eq]

theorem mask_parent (hsh : (n + 1) * (maxL - minL) < 31) {eps factor : K} {all : CA} {dt : Int → K} {l : Nat} (hl : minL ≤ l) (p : List Int) :
    (detailMasks n maxL eps factor all dt).largeParent l p = true ↔ factor * threshold n maxL eps (l + 1) / 2 ^ (n + 1) < |fieldAt n all dt l p| := by
  unfold detailMasks
  simp only [epsLevel_eq hsh (show minL ≤ l + 1 by omega), Option.getD_some, decide_eq_true_eq, gt_iff_lt]

/-- `factor * eps_{l+1} / 2^dim` is `factor * eps_l`. -/
theorem threshold_parent (eps factor : K) {l : Nat} (hl : l + 1 ≤ maxL) :
    factor * threshold n maxL eps (l + 1) / 2 ^ (n + 1) = factor * threshold n maxL eps l := by
  unfold threshold
  rw [show maxL - l = maxL - (l + 1) + 1 by omega, Nat.mul_add, Nat.mul_one, pow_add (2 : K) ((n + 1) * (maxL - (l + 1)))]
  rw [mul_div_assoc, div_div]

/-- In dimension 1 the details of two siblings are opposite. -/
theorem details_opposite {order : Nat} (ho : 1 ≤ order) {v : Nat → List Int → K} {l : Nat} {y : Int} (h : MeanOfChildren 0 v l [y]) :
    detailAt 0 order v (l + 1) [2 * y + 1] = - detailAt 0 order v (l + 1) [2 * y] := by
  have h1 := C32_mean_zero 1 order (by omega) ho (fun q => v (l + 1) (ofPt 1 q)) (fun q => v l (ofPt 1 q))
    (detailSelf 1 order (fun q => v (l + 1) (ofPt 1 q)) (fun q => v l (ofPt 1 q))) (toPt [y]) ?_ fun a => C32_self 1 order (by omega) ho _ _ _ a
  · have e : ∀ a : Bool, (childPt (toPt [y]) fun d => if d = 0 then a else if d = 1 then false else if d = 2 then false else false) =
        toPt [2 * y + if a then 1 else 0] := by
      intro a
      funext d
      match d with
      | 0 => simp [childPt, toPt]
      | d + 1 => simp [childPt, toPt]
    have e0 := e false
    have e1 := e true
    simp only [project, e0, e1] at h1
    simp only [Bool.false_eq_true, if_false, if_true, add_zero] at h1
    have key : ∀ z : Int, detailSelf 1 order (fun q => v (l + 1) (ofPt 1 q)) (fun q => v l (ofPt 1 q)) (toPt [z]) = detailAt 0 order v (l + 1) [z] := by
      intro z
      unfold detailSelf detailAt
      simp [ofPt, toPt, List.range_succ]
    rw [key, key] at h1
    linarith
  · simp [MeanOfChildren, childrenOf] at h
    simp [project, childPt, ofPt, toPt, List.range_succ]
    linarith

/-! ### uniform fields -/

theorem predictFine_const (hn : n ≤ 2) (k : K) (q : Pt) : predictFine (n + 1) 1 (fun _ => k) q = k := by
  have h := C30_affine (n + 1) 1 (by omega) (by omega) k 1 (fun _ => 0) (fun _ => 0) (fun _ => k) (fun q => by simp) (parentPt q) fun d => isOdd (q d)
  rw [← C53_same_value (n + 1) 1 (by omega)] at h
  have hq : childPt (parentPt q) (fun d => isOdd (q d)) = q := by
    funext d
    show 2 * shr (q d) 1 + (if isOdd (q d) = true then 1 else 0) = q d
    rw [shr_one_eq]
    unfold isOdd
    by_cases h : q d % 2 = 1
    · rw [if_pos (by simpa using h)]; omega
    · rw [if_neg (by simpa using h)]; omega
  rw [hq] at h
  rw [h]
  simp

omit [LinearOrder K] [IsStrictOrderedRing K] in
theorem mean_const (k : K) {l : Nat} {p : List Int} (hp : p.length = n + 1) : MeanOfChildren n (fun _ _ => k) l p := by
  unfold MeanOfChildren
  rw [List.map_const', List.sum_replicate, childrenOf_length, hp, nsmul_eq_mul]
  push_cast
  ring

omit [LinearOrder K] [IsStrictOrderedRing K] in
theorem boundary_const {M : BcMesh K} {bcs : List (BcCond K)} {k : K} (hk : ∀ c ∈ bcs, c.HoldsFor k) (hg : ∀ c ∈ bcs, c.kind.ghosts ≤ 1) (l : Nat) (b : Box) :
    BoundaryHolds n M bcs l b fun _ _ => k := by
  constructor
  · intro l1 c d l2 hl p i q hi hq hw hlast
    have hx := mem_bcEntries.1 (show (c, d) ∈ bcEntries bcs by rw [hl]; simp)
    have h1 := hk c hx.1
    have h3 := hi.2.2.2.2.2
    unfold BcCond.HoldsFor at h1
    cases hc : c.kind with
    | dirichlet order =>
      rw [hc] at h1
      exact ⟨Polynomial.C k, by simp, fun j _ => by simp, by simp [h1], by simp⟩
    | neumann =>
      rw [hc] at h1
      have := hg c hx.1
      refine ⟨by omega, by simp [h1]⟩
  · intro p v j ho hper hm k1 k3 kg hv
    exact ⟨Polynomial.C k, by simp, fun j _ _ => by simp⟩

/-- What the detail of a cell reads is in the reference mesh. -/
theorem hasDetail_reads (h : AdaptInv n cfg dom minL maxL m x) (hlt : minL < maxL) {ite l : Nat} {p : List Int} (hp : HasDetail n m.cells maxL ite l p) :
    m.all.Mem n l p ∧ ∀ q, Near cfg.predictionOrder q (parentOf p) → m.all.Mem n (l - 1) q := by
  obtain ⟨h0, ⟨h1, c, q, h2, h3, h4⟩ | ⟨h1, c, h2, h3⟩⟩ := hp
  · obtain ⟨L, rfl⟩ : ∃ L, l = L + 1 := ⟨l - 1, by omega⟩
    obtain ⟨a1, a2, a3⟩ := leafParent_reads (level := L) h hlt ⟨c, h2, (anc_one.1 h3).trans (anc_one.1 h4).symm⟩
    exact ⟨a2 _ rfl, a1⟩
  · obtain ⟨a1, a2, a3⟩ := leafParent_reads (level := l) h hlt ⟨c, h2, anc_one.1 h3⟩
    exact ⟨a1 _ (near_refl _ _), a3 h0⟩

/-- A cell with a detail is inside the domain. -/
theorem hasDetail_inBox (h : AdaptInv n cfg dom minL maxL m x) {base : Nat} {b : Box} (hd : BoxDomain n dom base b) (hdl : dom.level = maxL)
    (hbase : base ≤ minL - 3) {ite l : Nat} {p : List Int} (hp : HasDetail n m.cells maxL ite l p) (hl : minL ≤ l) :
    InBox (b.refined (l - base)) n p ∧ InBox (b.refined (l - 1 - base)) n (parentOf p) := by
  have key : l ≤ maxL → InBox (b.refined (l - 1 - base)) n (parentOf p) → InBox (b.refined (l - base)) n p ∧ InBox (b.refined (l - 1 - base)) n (parentOf p) := by
    intro hlM hq
    refine ⟨?_, hq⟩
    have := desc_in_box (anc_one.2 rfl : Anc 1 (parentOf p) p) hq
    have h0 := hp.1
    rwa [Box.refined_refined, show l - 1 - base + 1 = l - base by omega] at this
  have h0 := hp.1
  obtain ⟨-, ⟨h1, c, q, h2, h3, h4⟩ | ⟨h1, c, h2, h3⟩⟩ := hp
  · have hb := h.leaves.between l c h2
    refine key hb.2 ?_
    rw [anc_one.1 h4]
    exact leaf_inBox h.leaves (hd.finer (by omega) (by omega)) (by omega) h2 (by omega) (by rw [show l - (l - 1) = 1 by omega]; exact h3)
  · have hb := h.leaves.between (l + 1) c h2
    refine key (by omega) ?_
    refine leaf_inBox h.leaves (hd.finer (by omega) (by omega)) (by omega) h2 (by omega) ?_
    rw [show l + 1 - (l - 1) = 1 + 1 by omega]
    exact anc_trans (anc_one.2 rfl) h3

/-- After `update_ghost_mr` a field uniform on the leaves is uniform inside the domain and next to it. -/
theorem uniform_values (hn : n ≤ 1) {base : Nat} {b : Box} (st : BoxSetup n cfg dom minL maxL base b) (h : AdaptInv n cfg dom minL maxL m x)
    (hgd : GoodDomain n dom minL maxL (cfg.maxStencilWidth + cfg.predictionOrder + 1)) (hne : minL ≠ maxL) (h0 : K) (bcs : List (BcCond K))
    (hbc : ∀ c ∈ bcs, GoodBc n dom cfg.maxStencilWidth c) (hcov : CoversBoundary n dom bcs) {k : K} (hk : ∀ c ∈ bcs, c.HoldsFor k) (f : CellField K)
    (hf : ∀ l p, m.cells.Mem n l p → f l p = k) :
    ∃ u, ghostArray n cfg minL maxL dom h0 bcs m f = some u ∧ (∀ l p, m.cells.Mem n l p → fieldAt n m.all u l p = k) ∧
      ∀ l p, m.all.Mem n l p → minL ≤ l + 1 → (∃ q, InBox (b.refined (l - base)) n q ∧ Near 1 p q) → fieldAt n m.all u l p = k := by
  obtain ⟨u, S, e1, gr, e2, e3, e4, e5, e6⟩ := ghostArray_ok (by omega : n ≤ 2) st h hgd hne h0 bcs hbc f
  obtain ⟨c0, hc⟩ := h.mesh
  rw [st.width] at gr hbc
  refine ⟨u, e1, fun l p hp => (e2 l p hp).trans (hf l p hp), ?_⟩
  exact values_unique hn cfg st.order st.width h.leaves hne st.box st.level st.coarse h0 hbc hcov hc.self gr (v1 := fieldAt n m.all u) (v2 := fun _ _ => k)
    (fun l p _ hp => (e2 l p hp).trans (hf l p hp)) e3 (fun l p hp _ _ => mean_const k (mem_length hp.2)) e4
    (fun l p _ _ => (predictFine_const (by omega) k _).symm) e5 e6 (fun l p _ => boundary_const hk (fun c hc => (hbc c hc).width) l _)

/-- The details of a uniform field are zero. -/
theorem uniform_details (hn : n ≤ 1) {base : Nat} {b : Box} (st : BoxSetup n cfg dom minL maxL base b) (h : AdaptInv n cfg dom minL maxL m x)
    (hlt : minL < maxL) {u : Int → K} {k : K}
    (hu : ∀ l p, m.all.Mem n l p → minL ≤ l + 1 → (∃ q, InBox (b.refined (l - base)) n q ∧ Near 1 p q) → fieldAt n m.all u l p = k)
    {ite l : Nat} {p : List Int} (hp : HasDetail n m.cells maxL ite l p) (hl : minL ≤ l) : detailAt n cfg.predictionOrder (fieldAt n m.all u) l p = 0 := by
  obtain ⟨a1, a2⟩ := hasDetail_reads h hlt hp
  obtain ⟨b1, b2⟩ := hasDetail_inBox h st.box st.level st.coarse hp hl
  rw [st.order] at a2 ⊢
  unfold detailAt
  rw [hu l p a1 (by omega) ⟨p, b1, near_refl _ _⟩]
  have h1 := hp.1
  have : predictFine (n + 1) 1 (fun q => fieldAt n m.all u (l - 1) (ofPt (n + 1) q)) (toPt p) = predictFine (n + 1) 1 (fun _ => k) (toPt p) := by
    refine predictFine_congr fun s hs => ?_
    have hpl := mem_length a1.2
    have hnear : Near 1 (ofPt (n + 1) fun d => parentPt (toPt p) d + s d) (parentOf p) := by
      refine (near_iff_toPt (ofPt_length _ _) (by simpa [parentOf] using hpl)).2 fun d hd => ?_
      have := (mem_offsetsFrom.1 hs).1 d hd
      rw [show parentOf p = p.map fun y => shr y 1 from rfl, toPt_half hpl (by omega), toPt_ofPt _ (by omega),
        show parentPt (toPt p) d = toPt p d / 2 from shr_one_eq _]
      push_cast at this
      omega
    exact hu _ _ (a2 _ hnear) (by omega) ⟨_, b2, hnear⟩
  rw [this, predictFine_const (by omega), sub_self]

end

end Samurai

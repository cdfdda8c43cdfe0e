/-
C60, C61, C62, C63: the effect of the detail criteria on the mesh.
-/
import Verif.Lemmas.AdaptCriteria
import Verif.Props.AdaptWidth

namespace Samurai

variable {K : Type} [Field K]

/-- One step from a mesh on good leaves: the leaves with a large detail are refined. -/
theorem large_refined {n : Nat} {cfg : MeshConfig} {gw minL maxL ite : Nat} {dom : LCA} {m : SubMeshes} {u : CA} (h2 : AdaptInv n cfg dom minL maxL m u)
    (enlarge : Bool) (D : DetailMasks) (f : CellField K) (hd : GoodDomain n dom minL maxL (cfg.maxStencilWidth + cfg.predictionOrder + gw + 3))
    (hmin : 1 ≤ minL) (hmm : minL < maxL) (hite : ite ≤ maxL - minL) :
    ∃ b m' u' f', harten n cfg gw minL maxL ite enlarge D dom m u f = some (b, m', u', f') ∧
      ∀ l p, m.cells.Mem n l p → l < maxL → l ≤ maxL - ite → D.large l p = true → ∀ c, Anc 1 p c → m'.cells.Mem n (l + 1) c := by
  have g := h2.leaves
  have h3 : ∀ l p, m.cells.Mem n l p ↔ m.cells.Mem n l p := fun _ _ => Iff.rfl
  obtain ⟨c0, hc⟩ := h2.mesh
  have S := h2.sets hd
  obtain ⟨t0, e1, e2⟩ := criteria_exact S hmin (ite := ite) (by omega) D
  obtain ⟨t, r1, r2, -, -⟩ := harten_mono S (by omega) enlarge D e1
  obtain ⟨b, m', u', f', k1, k2⟩ := harten_criteria h2 hd (by omega) enlarge D f r1
  refine ⟨b, m', u', f', k1, fun l p hp hl hi hlarge c hcp => ?_⟩
  have hm := (h3 l p).2 hp
  have hb := g.between l p hp
  refine (k2 _ _).2 ⟨l, p, hm, Or.inl ⟨asks_refine.2 (r2 l p ?_), hl, rfl, hcp⟩⟩
  unfold TagField.Refine
  rw [e2, if_pos ⟨hb.1, hi, ⟨p, hm, rfl⟩, hc.parent' (by omega) h2.leaves.noOverlap (by omega) hm⟩]
  unfold criteriaTag refinedTag
  rw [show l - 1 + 1 = l by omega, if_pos ⟨hl, hlarge⟩]
  decide

/-- C60. One adaptation step, for every outcome of the criteria: a leaf whose detail is above the refinement threshold, of a level below `max_level` that
this iteration looks at, is replaced by its `2^dim` children. -/
theorem C60_large_details_refined (n : Nat) (cfg : MeshConfig) (gw minL maxL ite : Nat) (dom : LCA) (cells : CA) (enlarge : Bool)
    (D : DetailMasks) (f : CellField K) (hd : GoodDomain n dom minL maxL (cfg.maxStencilWidth + cfg.predictionOrder + gw + 3))
    (hmin : 1 ≤ minL) (hmm : minL < maxL) (hite : ite ≤ maxL - minL) (g : GoodLeaves n cells dom minL maxL) :
    ∃ m u b m' u' f', mrMesh n cfg cells minL maxL = some (m, u) ∧
      harten n cfg gw minL maxL ite enlarge D dom m u f = some (b, m', u', f') ∧
      ∀ l p, cells.Mem n l p → l < maxL → l ≤ maxL - ite → D.large l p = true → ∀ c, Anc 1 p c → m'.cells.Mem n (l + 1) c := by
  obtain ⟨m, u, h1, h2, h3⟩ := adaptInv_init' (cfg := cfg) hd (by omega) g
  obtain ⟨b, m', u', f', k1, k2⟩ := large_refined h2 enlarge D f hd hmin hmm hite
  exact ⟨m, u, b, m', u', f', h1, k1, fun l p hp => k2 l p ((h3 l p).2 hp)⟩

/-- One step from a mesh on good leaves: only families with small details are coarsened. -/
theorem small_coarsened {n : Nat} {cfg : MeshConfig} {gw minL maxL ite : Nat} {dom : LCA} {m : SubMeshes} {u : CA} (h2 : AdaptInv n cfg dom minL maxL m u)
    (enlarge : Bool) (D : DetailMasks) (f : CellField K) (hd : GoodDomain n dom minL maxL (cfg.maxStencilWidth + cfg.predictionOrder + gw + 3))
    (hmin : 1 ≤ minL) (hmm : minL < maxL) (hite : ite ≤ maxL - minL) :
    ∃ b m' u' f', harten n cfg gw minL maxL ite enlarge D dom m u f = some (b, m', u', f') ∧
      ∀ l p c, m'.cells.Mem n l p → m.cells.Mem n (l + 1) c → Anc 1 p c →
        minL ≤ l ∧ l + 1 ≤ maxL - ite ∧ FamilySmall n D l p ∧ D.largeParent l p = false ∧ (l + 1 < maxL → D.large (l + 1) c = false) := by
  have g := h2.leaves
  have h3 : ∀ l p, m.cells.Mem n l p ↔ m.cells.Mem n l p := fun _ _ => Iff.rfl
  obtain ⟨c0, hc⟩ := h2.mesh
  have S := h2.sets hd
  obtain ⟨t0, e1, e2⟩ := criteria_exact S hmin (ite := ite) (by omega) D
  obtain ⟨t, r1, r2, r3, r4⟩ := harten_mono S (by omega) enlarge D e1
  obtain ⟨t', s1, -, s2, s3⟩ := harten_tags h2 hd hmin (by omega) hite enlarge D
  rw [r1] at s1
  obtain rfl := Option.some.inj s1
  obtain ⟨b, m', u', f', k1, k2⟩ := harten_criteria h2 hd (by omega) enlarge D f r1
  refine ⟨b, m', u', f', k1, fun l p c hp hcm hcp => ?_⟩
  have hcm' := (h3 _ _).2 hcm
  have hno := g.noOverlap
  obtain ⟨l', q, k3, k4⟩ := (k2 l p).1 hp
  have k3' := (h3 _ _).1 k3
  -- the new leaf comes from the coarsening of a leaf, and `c` is coarsened too
  obtain ⟨a1, a2, a3⟩ : AsksCoarsen (t (l + 1) q) ∧ minL < l + 1 ∧ parentOf q = p ∧ l' = l + 1 := by
    rcases k4 with ⟨_, _, rfl, k5⟩ | ⟨k5, k6, rfl, k7⟩ | ⟨_, rfl, rfl⟩
    · have := (hno l' q (l' + 1 + 1) c k3' hcm (by omega) (by
        rw [show l' + 1 + 1 - l' = 1 + 1 by omega]; exact anc_trans k5 hcp)).1
      omega
    · exact ⟨k5, k6, anc_one.1 k7, rfl⟩
    · have := (hno l p (l + 1) c k3' hcm (by omega) (by rw [show l + 1 - l = 1 by omega]; exact hcp)).1
      omega
  obtain ⟨a3, rfl⟩ := a3
  obtain ⟨v, b1, b2⟩ := s3 (l + 1) q _ a2 ((hc.leafTag t).2 ⟨k3, rfl⟩) a1 p c (anc_one.2 a3) hcp
  obtain ⟨-, rfl⟩ := (hc.leafTag t).1 b1
  obtain ⟨b3, b4, b5⟩ := asks_coarsen.1 b2
  have d1 : t0.Coarsen (l + 1) c := r4 _ _ b5
  have d2 : ¬ t0.Keep (l + 1) c := fun h => b4 (r3 _ _ h)
  unfold TagField.Coarsen at d1
  unfold TagField.Keep at d2
  rw [e2] at d1 d2
  by_cases hcov : minL ≤ l + 1 ∧ l + 1 ≤ maxL - ite ∧ (∃ d, m.cells.Mem n (l + 1) d ∧ parentOf d = parentOf c) ∧ m.all.Mem n (l + 1 - 1) (parentOf c)
  · rw [if_pos hcov] at d1 d2
    unfold criteriaTag at d1 d2
    rw [show l + 1 - 1 = l by omega] at d1 d2
    rw [anc_one.1 hcp] at d1 d2
    obtain ⟨d3, d4⟩ := refinedTag_coarsen.1 d1
    have hlen : p.length = n + 1 := by
      have := mem_length hcm.2
      rw [← anc_one.1 hcp]
      unfold parentOf
      rw [List.length_map]
      exact this
    refine ⟨by omega, hcov.2.1, (familySmall_iff hlen).1 ?_, ?_, fun hlt => ?_⟩
    · by_contra hs
      rw [if_neg (fun h => hs h.2), tagLeaves_apply hc.wf.1] at d3
      split at d3 <;> exact absurd d3 (by decide)
    · by_contra hlp
      apply d2
      unfold refinedTag
      rw [if_neg d4, anc_one.1 hcp, if_pos (by simpa using hlp), (bits_keep _).1]
    · by_contra hl
      exact d4 ⟨hlt, by simpa using hl⟩
  · rw [if_neg hcov, tagLeaves_apply hc.wf.1] at d1
    split at d1 <;> exact absurd d1 (by decide)

/-- C61. One adaptation step, for every outcome of the criteria: a leaf is replaced by its parent only if it is of a level above `min_level` that this
iteration looks at, the details of the family are below the coarsening threshold, the detail of the parent is below its threshold and the detail of
the leaf is not above the refinement threshold. -/
theorem C61_only_small_details_coarsened (n : Nat) (cfg : MeshConfig) (gw minL maxL ite : Nat) (dom : LCA) (cells : CA) (enlarge : Bool)
    (D : DetailMasks) (f : CellField K) (hd : GoodDomain n dom minL maxL (cfg.maxStencilWidth + cfg.predictionOrder + gw + 3))
    (hmin : 1 ≤ minL) (hmm : minL < maxL) (hite : ite ≤ maxL - minL) (g : GoodLeaves n cells dom minL maxL) :
    ∃ m u b m' u' f', mrMesh n cfg cells minL maxL = some (m, u) ∧
      harten n cfg gw minL maxL ite enlarge D dom m u f = some (b, m', u', f') ∧
      ∀ l p c, m'.cells.Mem n l p → cells.Mem n (l + 1) c → Anc 1 p c →
        minL ≤ l ∧ l + 1 ≤ maxL - ite ∧ FamilySmall n D l p ∧ D.largeParent l p = false ∧ (l + 1 < maxL → D.large (l + 1) c = false) := by
  obtain ⟨m, u, h1, h2, h3⟩ := adaptInv_init' (cfg := cfg) hd (by omega) g
  obtain ⟨b, m', u', f', k1, k2⟩ := small_coarsened h2 enlarge D f hd hmin hmm hite
  exact ⟨m, u, b, m', u', f', h1, k1, fun l p c hp hc => k2 l p c hp ((h3 _ _).2 hc)⟩

/-- What the step does when no leaf has a detail above the refinement threshold, from a mesh on good leaves. -/
theorem quiet_inv {n : Nat} {cfg : MeshConfig} {minL maxL ite : Nat} {dom : LCA} {m : SubMeshes} {u : CA} (h2 : AdaptInv n cfg dom minL maxL m u)
    (D : DetailMasks) (f : CellField K)
    (hd : GoodDomain n dom minL maxL (cfg.maxStencilWidth + cfg.predictionOrder + 1 + 3)) (hmin : 1 ≤ minL) (hmm : minL < maxL)
    (hite : ite ≤ maxL - minL) (hquiet : ∀ l p, m.cells.Mem n l p → D.large l p = false) :
    ∃ b m' u' f', harten n cfg 1 minL maxL ite false D dom m u f = some (b, m', u', f') ∧
      (∀ l p, m'.cells.Mem n l p → m.cells.Mem n l p ∨ ∃ c, Anc 1 p c ∧ m.cells.Mem n (l + 1) c) ∧
      ∀ l p, minL ≤ l → l + 1 ≤ maxL - ite → (∀ c, Anc 1 p c → m.cells.Mem n (l + 1) c) → FamilySmall n D l p → D.largeParent l p = false →
        (∀ c d e, Anc 1 p c → Near 1 c d → Anc 1 d e → ¬ m.cells.Mem n (l + 2) e) → m'.cells.Mem n l p := by
  have g := h2.leaves
  have h3 : ∀ l p, m.cells.Mem n l p ↔ m.cells.Mem n l p := fun _ _ => Iff.rfl
  obtain ⟨c0, hc⟩ := h2.mesh
  have S := h2.sets hd
  have g' := h2.leaves
  obtain ⟨t0, e1, e2⟩ := criteria_exact S hmin (ite := ite) (by omega) D
  have hK : ∀ l q, t0.Keep l q → ∃ c, m.cells.Mem n l c ∧ parentOf c = parentOf q := by
    intro l q hk
    unfold TagField.Keep at hk
    rw [e2] at hk
    split at hk
    · rename_i h; exact h.2.2.1
    · rw [tagLeaves_apply hc.wf.1] at hk
      split at hk
      · rename_i h; exact ⟨q, h, rfl⟩
      · exact absurd hk (by decide)
  have hR : ∀ l q, t0.Refine l q → ¬ m.cells.Mem n l q := by
    intro l q hk hm
    unfold TagField.Refine at hk
    have hb := g'.between _ _ hm
    have hv : ∀ v, v = tagLeaves n m.cells l q → v.getLsbD 2 = false := by
      rintro v rfl
      rw [tagLeaves_apply hc.wf.1]
      split <;> decide
    rw [e2] at hk
    split at hk
    · unfold criteriaTag at hk
      rw [refinedTag_refine (by split; · decide
                                · exact hv _ rfl)] at hk
      rw [show l - 1 + 1 = l by omega, hquiet l q ((h3 l q).1 hm)] at hk
      exact absurd hk.2 (by decide)
    · rw [hv _ rfl] at hk
      exact absurd hk (by decide)
  obtain ⟨t, r1, r2, r3, r4, -, r5⟩ := harten_bounds S (quiet_closed hd g' hK) (by omega) e1
    (fun l q hk => Or.inr ⟨q, rfl, Or.inr hk⟩) hR
  obtain ⟨b, m', u', f', k1, k2⟩ := harten_criteria h2 hd (by omega) false D f r1
  refine ⟨b, m', u', f', k1, fun l p hp => ?_, fun l p hl1 hl2 hfam hsmall hlp hfar => ?_⟩
  · obtain ⟨l', q, k3, k4⟩ := (k2 l p).1 hp
    rcases k4 with ⟨k4, _⟩ | ⟨_, _, rfl, k5⟩ | ⟨_, rfl, rfl⟩
    · exact absurd k3 (r3 l' q (asks_refine.1 k4))
    · exact Or.inr ⟨q, k5, (h3 _ _).1 k3⟩
    · exact Or.inl ((h3 _ _).1 k3)
  · obtain ⟨c, hcp⟩ := anc_exists 1 p
    have hm : ∀ c, Anc 1 p c → m.cells.Mem n (l + 1) c := fun c h => (h3 _ _).2 (hfam c h)
    have hlen : p.length = n + 1 := by
      have := mem_length (hfam c hcp).2
      rw [← anc_one.1 hcp]
      unfold parentOf
      rw [List.length_map]
      exact this
    have htag : ∀ c, Anc 1 p c → t0 (l + 1) c = CellFlag.coarsen := by
      intro c hcp
      rw [e2, if_pos ⟨by omega, hl2, ⟨c, hm c hcp, rfl⟩, hc.parent' (by omega) g'.noOverlap (by omega) (hm c hcp)⟩]
      unfold criteriaTag
      rw [show l + 1 - 1 = l by omega, anc_one.1 hcp, if_pos ⟨by omega, (familySmall_iff hlen).2 hsmall⟩]
      unfold refinedTag
      rw [hquiet _ _ (hfam c hcp), if_neg (by simp), anc_one.1 hcp, hlp, if_neg (by decide)]
    refine (k2 _ _).2 ⟨l + 1, c, hm c hcp, Or.inr (Or.inl ⟨asks_coarsen.2 ⟨fun hr => r3 _ _ hr (hm c hcp), fun hk => ?_, ?_⟩, by omega, rfl, hcp⟩)⟩
    · rcases r2 _ _ hk with h | ⟨c', h4, ⟨d, h5, h6⟩ | h5⟩
      · omega
      · exact hfar c' (parentOf d) d (anc_one.2 (h4.trans (anc_one.1 hcp))) h6 (anc_one.2 rfl) ((h3 _ _).1 h5)
      · unfold TagField.Keep at h5
        rw [htag c' (anc_one.2 (h4.trans (anc_one.1 hcp)))] at h5
        exact absurd h5 (by decide)
    · refine r5 l p (fun c' h => ?_) c (anc_one.1 hcp)
      unfold TagField.Coarsen
      rw [htag c' (anc_one.2 h)]
      decide

/-- What the step does when no leaf has a detail above the refinement threshold. -/
theorem quiet_step {n : Nat} {cfg : MeshConfig} {minL maxL ite : Nat} {dom : LCA} {cells : CA} (D : DetailMasks) (f : CellField K)
    (hd : GoodDomain n dom minL maxL (cfg.maxStencilWidth + cfg.predictionOrder + 1 + 3)) (hmin : 1 ≤ minL) (hmm : minL < maxL)
    (hite : ite ≤ maxL - minL) (g : GoodLeaves n cells dom minL maxL) (hquiet : ∀ l p, cells.Mem n l p → D.large l p = false) :
    ∃ m u b m' u' f', mrMesh n cfg cells minL maxL = some (m, u) ∧
      harten n cfg 1 minL maxL ite false D dom m u f = some (b, m', u', f') ∧
      (∀ l p, m'.cells.Mem n l p → cells.Mem n l p ∨ ∃ c, Anc 1 p c ∧ cells.Mem n (l + 1) c) ∧
      ∀ l p, minL ≤ l → l + 1 ≤ maxL - ite → (∀ c, Anc 1 p c → cells.Mem n (l + 1) c) → FamilySmall n D l p → D.largeParent l p = false →
        (∀ c d e, Anc 1 p c → Near 1 c d → Anc 1 d e → ¬ cells.Mem n (l + 2) e) → m'.cells.Mem n l p := by
  obtain ⟨m, u, h1, h2, h3⟩ := adaptInv_init' (cfg := cfg) hd (by omega) g
  obtain ⟨b, m', u', f', k1, k2, k3⟩ := quiet_inv h2 D f hd hmin hmm hite fun l p hp => hquiet l p ((h3 l p).1 hp)
  refine ⟨m, u, b, m', u', f', h1, k1, fun l p hp => ?_, fun l p a1 a2 a3 a4 a5 a6 => k3 l p a1 a2 (fun c hc => (h3 _ _).2 (a3 c hc)) a4 a5
    fun c d e e1 e2 e3 he => a6 c d e e1 e2 e3 ((h3 _ _).1 he)⟩
  rcases k2 l p hp with h | ⟨c, hc, h⟩
  · exact Or.inl ((h3 _ _).1 h)
  · exact Or.inr ⟨c, hc, (h3 _ _).1 h⟩

/-- C62. No spurious refinement (`graduation_width = 1`, without `enlarge`): when no leaf has a detail above the refinement threshold, no leaf is refined.
Every leaf of the new mesh is a leaf of the old one or the parent of one. -/
theorem C62_nothing_refined (n : Nat) (cfg : MeshConfig) (minL maxL ite : Nat) (dom : LCA) (cells : CA)
    (D : DetailMasks) (f : CellField K) (hd : GoodDomain n dom minL maxL (cfg.maxStencilWidth + cfg.predictionOrder + 4))
    (hmin : 1 ≤ minL) (hmm : minL < maxL) (hite : ite ≤ maxL - minL) (g : GoodLeaves n cells dom minL maxL)
    (hquiet : ∀ l p, cells.Mem n l p → D.large l p = false) :
    ∃ m u b m' u' f', mrMesh n cfg cells minL maxL = some (m, u) ∧
      harten n cfg 1 minL maxL ite false D dom m u f = some (b, m', u', f') ∧
      ∀ l p, m'.cells.Mem n l p → cells.Mem n l p ∨ ∃ c, Anc 1 p c ∧ cells.Mem n (l + 1) c := by
  obtain ⟨m, u, b, m', u', f', h1, h2, h3, -⟩ := quiet_step D f hd hmin hmm hite g hquiet
  exact ⟨m, u, b, m', u', f', h1, h2, h3⟩

/-- C63. Coarsening does happen (`graduation_width = 1`, without `enlarge`): when no leaf has a detail above the refinement threshold, a family of leaves,
of a level above `min_level` that this iteration looks at, whose details are below the thresholds, is replaced by its parent, unless there is a finer
leaf close to it: a leaf two levels finer than the parent, in a cell that touches one of the family. -/
theorem C63_small_families_coarsened (n : Nat) (cfg : MeshConfig) (minL maxL ite : Nat) (dom : LCA) (cells : CA)
    (D : DetailMasks) (f : CellField K) (hd : GoodDomain n dom minL maxL (cfg.maxStencilWidth + cfg.predictionOrder + 4))
    (hmin : 1 ≤ minL) (hmm : minL < maxL) (hite : ite ≤ maxL - minL) (g : GoodLeaves n cells dom minL maxL)
    (hquiet : ∀ l p, cells.Mem n l p → D.large l p = false) :
    ∃ m u b m' u' f', mrMesh n cfg cells minL maxL = some (m, u) ∧
      harten n cfg 1 minL maxL ite false D dom m u f = some (b, m', u', f') ∧
      ∀ l p, minL ≤ l → l + 1 ≤ maxL - ite → (∀ c, Anc 1 p c → cells.Mem n (l + 1) c) → FamilySmall n D l p → D.largeParent l p = false →
        (∀ c d e, Anc 1 p c → Near 1 c d → Anc 1 d e → ¬ cells.Mem n (l + 2) e) → m'.cells.Mem n l p := by
  obtain ⟨m, u, b, m', u', f', h1, h2, -, h3⟩ := quiet_step D f hd hmin hmm hite g hquiet
  exact ⟨m, u, b, m', u', f', h1, h2, h3⟩

/-! ### examples -/

/-- All the details are small. -/
def smallMasks : DetailMasks := ⟨fun _ _ => true, fun _ _ => false, fun _ _ => false⟩

/-- The detail of the cell 2 of level 3 is large. -/
example : ∃ m u b m' u' f', mrMesh 0 ⟨1, 1⟩ widthLeaves 1 4 = some (m, u) ∧
    harten 0 ⟨1, 1⟩ 1 1 4 0 false widthMasks1 widthDomain m u (fun _ _ => (0 : Rat)) = some (b, m', u', f') ∧
    m'.cells.Mem 0 4 [4] ∧ m'.cells.Mem 0 4 [5] := by
  obtain ⟨m, u, b, m', u', f', h1, h2, h3⟩ := C60_large_details_refined (K := Rat) 0 ⟨1, 1⟩ 1 1 4 0 widthDomain widthLeaves false widthMasks1
    (fun _ _ => 0) (widthDomain_good _ (by decide)) (by omega) (by omega) (by omega) widthLeaves_good
  have h4 := h3 3 [2] ((widthLeaves_mem _ _).2 (by simp)) (by omega) (by omega) (by decide)
  exact ⟨m, u, b, m', u', f', h1, h2, h4 _ (anc_single.2 (by norm_num)), h4 _ (anc_single.2 (by norm_num))⟩

/-- In the same step, only families with small details are coarsened. -/
example := C61_only_small_details_coarsened (K := Rat) 0 ⟨1, 1⟩ 1 1 4 0 widthDomain widthLeaves true widthMasks1
  (fun _ _ => 0) (widthDomain_good _ (by decide)) (by omega) (by omega) (by omega) widthLeaves_good

/-- When all the details are small, nothing is refined. -/
example := C62_nothing_refined (K := Rat) 0 ⟨1, 1⟩ 1 4 0 widthDomain widthLeaves smallMasks
  (fun _ _ => 0) (widthDomain_good _ (by decide)) (by omega) (by omega) (by omega) widthLeaves_good (fun _ _ _ => rfl)

/-- When all the details are small, the cells 6 and 7 of level 4 are coarsened. -/
example : ∃ m u b m' u' f', mrMesh 0 ⟨1, 1⟩ widthLeaves 1 4 = some (m, u) ∧
    harten 0 ⟨1, 1⟩ 1 1 4 0 false smallMasks widthDomain m u (fun _ _ => (0 : Rat)) = some (b, m', u', f') ∧
    m'.cells.Mem 0 3 [3] := by
  obtain ⟨m, u, b, m', u', f', h1, h2, h3⟩ := C63_small_families_coarsened (K := Rat) 0 ⟨1, 1⟩ 1 4 0 widthDomain widthLeaves smallMasks
    (fun _ _ => 0) (widthDomain_good _ (by decide)) (by omega) (by omega) (by omega) widthLeaves_good (fun _ _ _ => rfl)
  refine ⟨m, u, b, m', u', f', h1, h2, h3 3 [3] (by omega) (by omega) (fun c hc => ?_) (fun _ _ _ => rfl) rfl fun c d e _ _ _ he => ?_⟩
  · obtain ⟨x, rfl, h⟩ := anc_of_single hc
    rw [widthLeaves_mem]
    have : x = 6 ∨ x = 7 := by omega
    rcases this with rfl | rfl <;> simp
  · have := (widthLeaves_good.between _ _ he).2
    omega

end Samurai

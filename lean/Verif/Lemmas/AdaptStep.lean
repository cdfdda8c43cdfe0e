import Verif.Lemmas.AdaptGeo
import Verif.Props.Update

namespace Samurai

variable {K : Type} [Field K]

/-! ### the tag array -/

theorem MRMeshOK.tagArray {n : Nat} {cfg : MeshConfig} {c0 : CA} {minL maxL : Nat} {m : SubMeshes} {u : CA}
    (h : MRMeshOK n cfg c0 minL maxL m u) (t : TagField) {l : Nat} {p : List Int} {v : Int} (hv : (l, p, v) ∈ m.cells.numbered n) :
    tagArray n m.all t v = t l p := by
  obtain ⟨w1, _, _, w4⟩ := h.wf
  obtain ⟨yz, i, x, h1, h2, rfl, rfl⟩ := CA.mem_numbered.1 hv
  obtain ⟨h3, h4⟩ := CA.mem_rows.1 h1
  have hm : m.cells.Mem n l (yz ++ [x]) := CA.mem_of_numbered w1 hv
  have hidx := h.index m.cells (by simp) l yz x hm
  have hg : getIndex (m.cells.lca l) n yz x = some (i.index + x) := by
    unfold getIndex
    rw [getInterval_row (w1 l h3) h4 h2]
    rfl
  have hma : m.all.Mem n l (yz ++ [x]) := by
    obtain ⟨m0, c1, c2, _, _, c5⟩ := h.content
    exact (c5 l _).2 (c1.cells_all ((c2 l _).1 hm))
  obtain ⟨v, g1, g2⟩ := C09_get_index n (m.all.lca l) (w4 l hma.1) yz x hma.2
  rw [← hidx, hg] at g1
  obtain rfl := Option.some.inj g1
  have hin : (l, yz ++ [x], i.index + x) ∈ m.all.numbered n := by
    unfold CA.numbered
    exact List.mem_flatMap.2 ⟨l, List.mem_range.2 (by have := hma.1; omega), List.mem_map.2 ⟨_, g2, rfl⟩⟩
  have hnd : ((m.all.numbered n).map fun e => e.2.2).Nodup := by
    rw [h.numbers]
    refine (List.nodup_map_iff ?_).2 List.nodup_range
    intro a b hab
    simpa using hab
  unfold Samurai.tagArray
  cases hf : (m.all.numbered n).find? fun e => e.2.2 == i.index + x with
  | none =>
    rw [List.find?_eq_none] at hf
    exact absurd (by simp) (hf _ hin)
  | some e =>
    have he := List.find?_some hf
    have hem := List.mem_of_find?_eq_some hf
    have : e = (l, yz ++ [x], i.index + x) := List.inj_on_of_nodup_map hnd hem hin (by simpa using he)
    rw [this]

theorem MRMeshOK.leafTag {n : Nat} {cfg : MeshConfig} {c0 : CA} {minL maxL : Nat} {m : SubMeshes} {u : CA}
    (h : MRMeshOK n cfg c0 minL maxL m u) (t : TagField) {l : Nat} {p : List Int} {v : BitVec 32} :
    LeafTag n m.cells (Samurai.tagArray n m.all t) l p v ↔ m.cells.Mem n l p ∧ t l p = v := by
  constructor
  · intro hv
    refine ⟨hv.mem h.wf.1, ?_⟩
    obtain ⟨w, hw, rfl⟩ := hv
    rw [h.tagArray t hw]
  · rintro ⟨hm, rfl⟩
    obtain ⟨w, hw⟩ := CA.exists_number h.wf.1 hm
    exact ⟨w, hw, h.tagArray t hw⟩

/-! ### the reference mesh around the leaves -/

theorem MRMeshOK.cells_all {n : Nat} {cfg : MeshConfig} {c0 : CA} {minL maxL : Nat} {m : SubMeshes} {u : CA}
    (h : MRMeshOK n cfg c0 minL maxL m u) {l : Nat} {p : List Int} (hp : m.cells.Mem n l p) : m.all.Mem n l p := by
  obtain ⟨m0, c1, c2, _, _, c5⟩ := h.content
  exact (c5 l _).2 (c1.cells_all ((c2 l _).1 hp))

theorem MRMeshOK.below {n : Nat} {cfg : MeshConfig} {c0 : CA} {minL maxL : Nat} {m : SubMeshes} {u : CA}
    (h : MRMeshOK n cfg c0 minL maxL m u) {D : Int} (hb : m.cells.Below n maxL D) (hm : m.cells.Between n minL maxL) :
    m.all.Below n maxL (D + ((cfg.maxStencilWidth : Int) + cfg.predictionOrder + 1) * 2 ^ maxL) ∧
    m.ghosts.Below n maxL (D + ((cfg.maxStencilWidth : Int) + cfg.predictionOrder + 1) * 2 ^ maxL) := by
  obtain ⟨m0, c1, c2, c3, _, c5⟩ := h.content
  have hg : m.ghosts.Below n maxL (D + ((cfg.maxStencilWidth : Int) + cfg.predictionOrder + 1) * 2 ^ maxL) := by
    intro l p hp x hx
    obtain ⟨q, h1, h2⟩ := (c1.ghosts l p).1 ((c3 l p).1 hp)
    have h1 := (c2 l q).2 h1
    have h3 := near_below h2 (hb l q h1) x hx
    have h4 : (2 : Int) ^ (maxL - l) ≤ 2 ^ maxL := pow_mono_two (by omega)
    have h5 : (cfg.maxStencilWidth : Int) * 2 ^ (maxL - l) ≤ cfg.maxStencilWidth * 2 ^ maxL :=
      Int.mul_le_mul_of_nonneg_left h4 (by omega)
    have h6 : (0 : Int) ≤ ((cfg.predictionOrder : Int) + 1) * 2 ^ maxL := by
      have := pow_two_pos maxL
      positivity
    have e : ((cfg.maxStencilWidth : Int) + cfg.predictionOrder + 1) * 2 ^ maxL =
      cfg.maxStencilWidth * 2 ^ maxL + ((cfg.predictionOrder : Int) + 1) * 2 ^ maxL := by ring
    omega
  refine ⟨?_, hg⟩
  by_cases heq : minL = maxL
  · intro l p hp
    exact hg l p ((c3 l p).2 (((c1.flat heq).1 l p).1 ((c5 l p).1 hp)))
  · intro l p hp
    refine (mrAll_below (cells := c0) (fun l p hp => hb l p ((c2 l p).2 hp)) (fun l p hp => (hm l p ((c2 l p).2 hp)).2)
      ((c1.all heq l p).1 ((c5 l p).1 hp))).2

theorem MRMeshOK.parent {n : Nat} {cfg : MeshConfig} {c0 : CA} {minL maxL : Nat} {m : SubMeshes} {u : CA}
    (h : MRMeshOK n cfg c0 minL maxL m u) (hno : m.cells.NoOverlap n) (hb : m.cells.Between n minL maxL) {l : Nat} {q : List Int}
    (hl : minL < l) (hq : m.cells.Mem n l q) : m.all.Mem n (l - 1) (parentOf q) := by
  obtain ⟨m0, c1, c2, c3, _, c5⟩ := h.content
  have := (hb l q hq).2
  refine (c5 _ _).2 ((c1.all (by omega) _ _).2 (MRBase.all (Or.inr (Or.inl ⟨q, ⟨q, ?_, near_refl _ _⟩, ?_, near_refl _ _⟩))))
  · rw [show l - 1 + 1 = l by omega]
    exact (c2 l q).1 hq
  · rw [show l - 1 + 1 = l by omega]
    rintro ⟨l', q', h1, h2, h3⟩
    have := (hno l q l' q' hq ((c2 l' q').2 h2) (by omega) h3).1
    omega

/-! ### one step -/

/-- A multiresolution mesh on good leaves. -/
structure AdaptInv (n : Nat) (cfg : MeshConfig) (dom : LCA) (minL maxL : Nat) (m : SubMeshes) (u : CA) : Prop where
  mesh : ∃ c0, MRMeshOK n cfg c0 minL maxL m u
  leaves : GoodLeaves n m.cells dom minL maxL

theorem AdaptInv.proper {n : Nat} {cfg : MeshConfig} {dom : LCA} {minL maxL margin margin' : Nat} {m : SubMeshes} {u : CA}
    (h : AdaptInv n cfg dom minL maxL m u) (hd : GoodDomain n dom minL maxL margin) (hm : margin' ≤ margin) :
    m.cells.Proper n minL maxL margin' := by
  obtain ⟨D, d1, d2, d3⟩ := hd.range
  exact CA.Proper.sub ⟨h.leaves.wf, h.leaves.leveled, h.leaves.between, h.leaves.size, D, d1, d2, h.leaves.below d3⟩ hm

theorem AdaptInv.families {n : Nat} {cfg : MeshConfig} {dom : LCA} {minL maxL margin : Nat} {m : SubMeshes} {u : CA}
    (h : AdaptInv n cfg dom minL maxL m u) (hd : GoodDomain n dom minL maxL margin) : Families n m.cells m.all minL maxL := by
  obtain ⟨c0, hc⟩ := h.mesh
  exact ⟨h.leaves.between, fun l q s h1 h2 h3 => h.leaves.siblings hd.whole h1 h2 h3,
    fun l q h1 h2 => hc.parent h.leaves.noOverlap h.leaves.between h1 h2⟩

theorem MRMeshOK.sets {n gw : Nat} {cfg : MeshConfig} {dom : LCA} {c0 : CA} {minL maxL : Nat} {m : SubMeshes} {u : CA}
    (hc : MRMeshOK n cfg c0 minL maxL m u) (hbt : m.cells.Between n minL maxL) (hs : maxL ≤ m.cells.maxSize) (hw : dom.WF n)
    (hl : dom.level ≤ maxL) {D : Int} (d1 : 0 ≤ D)
    (d2 : D + ((cfg.maxStencilWidth + cfg.predictionOrder + gw + 3 : Nat) : Int) * 2 ^ maxL + 2 < INT_MAX)
    (hb : m.cells.Below n maxL D) (hbd : dom.BelowAt n maxL D) : AdaptSets n gw m.cells m.ghosts m.all dom maxL := by
  obtain ⟨b1, b2⟩ := hc.below hb hbt
  have h0 : (0 : Int) ≤ ((cfg.maxStencilWidth : Int) + cfg.predictionOrder + 1) * 2 ^ maxL := by
    have := pow_two_pos maxL
    positivity
  refine adaptSets hc.wf.1 hc.wf.2.1 hc.wf.2.2.2 hw hc.cellsLevels.2 hc.ghostsLevels.2 hc.allLevels hl hs
    (by rw [hc.ghostsLevels.1, ← hc.cellsLevels.1]; exact hs) (by rw [hc.size, ← hc.cellsLevels.1]; exact hs)
    (D := D + ((cfg.maxStencilWidth : Int) + cfg.predictionOrder + 1) * 2 ^ maxL) (by omega) ?_ ?_ b2 b1 ?_
  · push_cast at d2
    have : ((cfg.maxStencilWidth : Int) + cfg.predictionOrder + gw + 3) * 2 ^ maxL =
      ((cfg.maxStencilWidth : Int) + cfg.predictionOrder + 1) * 2 ^ maxL + ((gw : Int) + 2) * 2 ^ maxL := by ring
    omega
  · intro l p hp x hx
    have := hb l p hp x hx
    omega
  · intro p hp x hx
    have := hbd p hp x hx
    omega

theorem AdaptInv.sets {n gw : Nat} {cfg : MeshConfig} {dom : LCA} {minL maxL : Nat} {m : SubMeshes} {u : CA}
    (h : AdaptInv n cfg dom minL maxL m u)
    (hd : GoodDomain n dom minL maxL (cfg.maxStencilWidth + cfg.predictionOrder + gw + 3)) :
    AdaptSets n gw m.cells m.ghosts m.all dom maxL := by
  obtain ⟨c0, hc⟩ := h.mesh
  obtain ⟨D, d1, d2, d3⟩ := hd.range
  exact hc.sets h.leaves.between h.leaves.size hd.wf hd.level d1 d2 (h.leaves.below d3) (GoodDomain.belowAt d3)

theorem asks_refine {t : TagField} {l : Nat} {p : List Int} : AsksRefine (t l p) ↔ t.Refine l p := by
  rw [← flagged_refine, flagged_refine_bit]; rfl

theorem asks_keep {t : TagField} {l : Nat} {p : List Int} : AsksKeep (t l p) ↔ ¬ t.Refine l p ∧ t.Keep l p := by
  unfold AsksKeep
  rw [asks_refine]
  have : t l p &&& 1#32 ≠ 0#32 ↔ t.Keep l p := by
    unfold TagField.Keep
    rw [← flagged_keep_bit]
    simp [flagged, CellFlag.keep]
  rw [this]

theorem asks_coarsen {t : TagField} {l : Nat} {p : List Int} :
    AsksCoarsen (t l p) ↔ ¬ t.Refine l p ∧ ¬ t.Keep l p ∧ t.Coarsen l p := by
  unfold AsksCoarsen
  rw [asks_refine, asks_keep]
  have : t l p &&& 2#32 ≠ 0#32 ↔ t.Coarsen l p := by
    unfold TagField.Coarsen
    rw [← flagged_coarsen_bit]
    simp [flagged, CellFlag.coarsen]
  rw [this]
  tauto

theorem harten_tags {n gw : Nat} {cfg : MeshConfig} {dom : LCA} {minL maxL ite : Nat} {m : SubMeshes} {u : CA}
    (h : AdaptInv n cfg dom minL maxL m u)
    (hd : GoodDomain n dom minL maxL (cfg.maxStencilWidth + cfg.predictionOrder + gw + 3)) (hmin : 1 ≤ minL)
    (hmm : minL ≤ maxL) (hite : ite ≤ maxL - minL) (enlarge : Bool) (D : DetailMasks) :
    ∃ t, hartenTags n gw minL maxL ite enlarge D m dom = some t ∧ HartenTags n gw m.cells m.all dom minL maxL t ∧
      TagsSet n m.cells (tagArray n m.all t) ∧ SiblingsAgree n m.cells minL (tagArray n m.all t) := by
  have F := h.families hd
  obtain ⟨t, h1, h2⟩ := hartenTags_spec (h.sets hd) h.leaves.wf F hmin (ite := ite) (by omega) enlarge D
  obtain ⟨c0, hc⟩ := h.mesh
  refine ⟨t, h1, h2, fun l p v hv => ?_, fun l p v hl hv ha r q hr hq => ?_⟩
  · obtain ⟨hm, rfl⟩ := (hc.leafTag t).1 hv
    rw [asks_refine, asks_keep, asks_coarsen]
    have := h2.ready l p hm
    tauto
  · obtain ⟨hm, rfl⟩ := (hc.leafTag t).1 hv
    obtain ⟨a1, a2, a3⟩ := asks_coarsen.1 ha
    have hs : parentOf q = parentOf p := by rw [anc_one.1 hr, anc_one.1 hq]
    obtain ⟨f1, f2⟩ := h2.family l p q (by omega) hl hm hs
    have hk : ¬ t.Keep l q := fun hk => a2 (f1 hk)
    have hmq : m.cells.Mem n l q := by
      rcases F.siblings l p q hl hm hs with h3 | ⟨c, h3, h4⟩
      · exact h3
      · exfalso
        apply hk
        have := h2.parents (l + 1) c (by omega) (by omega) h3
        rwa [h4] at this
    refine ⟨t l q, (hc.leafTag t).2 ⟨hmq, rfl⟩, asks_coarsen.2 ⟨fun hr' => hk ?_, hk, f2 a3⟩⟩
    exact h2.refKept l q (by omega) (by have := (h.leaves.between l q hmq).2; omega) hmq hr' q (near_refl 1 q)

/-- The new mesh is graded. -/
theorem harten_graded {n : Nat} (hn : n ≤ 2) {cfg : MeshConfig} {dom : LCA} {minL maxL margin : Nat} {m : SubMeshes} {u : CA}
    (h : AdaptInv n cfg dom minL maxL m u) (hd : GoodDomain n dom minL maxL margin) {t : TagField}
    (ht : HartenTags n 1 m.cells m.all dom minL maxL t) (hs : SiblingsAgree n m.cells minL (tagArray n m.all t)) {new : CA}
    (hb : new.Between n minL maxL)
    (hnew : ∀ l p, new.Mem n l p ↔ ∃ l' q v, LeafTag n m.cells (tagArray n m.all t) l' q v ∧ Becomes minL maxL v l' q l p) :
    new.Graded n := by
  obtain ⟨c0, hc⟩ := h.mesh
  have F := h.families hd
  have hbt := h.leaves.between
  refine graded_of_fine (M := maxL) (fun l p hp => (hb l p hp).2) fun l p l' p' a b hp hp' ha hb' hab => ?_
  have hlM := (hb l p hp).2
  have hlM' := (hb l' p' hp').2
  have old : ∀ l p a, new.Mem n l p → l ≤ maxL → Anc (maxL - l) p a → ∃ a0 x0, m.cells.Mem n a0 x0 ∧ Anc (maxL - a0) x0 a ∧
      Becomes minL maxL (t a0 x0) a0 x0 l p := by
    intro l p a hp hl ha
    obtain ⟨a0, x1, v, k1, k2⟩ := (hnew l p).1 hp
    have hm1 := k1.mem hc.wf.1
    obtain ⟨x0, v', k3, k4, k5⟩ := becomes_above hc.wf.1 hs k1 k2 (hbt a0 x1 hm1).2 hl ha
    obtain ⟨k6, rfl⟩ := (hc.leafTag t).1 k3
    exact ⟨a0, x0, k6, k5, k4⟩
  obtain ⟨a0, x0, x1, x2, x3⟩ := old l p a hp hlM ha
  obtain ⟨b0, y0, y1, y2, y3⟩ := old l' p' b hp' hlM' hb'
  have hx := hbt a0 x0 x1
  have hy := hbt b0 y0 y1
  have g1 := graded_fine h.leaves.graded x1 y1 hx.2 hy.2 x2 y2 hab
  have g2 := graded_fine h.leaves.graded y1 x1 hy.2 hx.2 y2 x2 (near_symm hab)
  -- what the tags say
  have X : (t.Refine a0 x0 ∧ a0 < maxL ∧ l = a0 + 1) ∨ (¬ t.Refine a0 x0 ∧ ¬ t.Keep a0 x0 ∧ minL < a0 ∧ l + 1 = a0) ∨
      ((t.Refine a0 x0 → maxL ≤ a0) ∧ l = a0) := by
    rcases x3 with ⟨e1, e2, e3, _⟩ | ⟨e1, e2, e3, _⟩ | ⟨e1, e2, _⟩
    · exact Or.inl ⟨asks_refine.1 e1, e2, e3⟩
    · exact Or.inr (Or.inl ⟨(asks_coarsen.1 e1).1, (asks_coarsen.1 e1).2.1, e2, e3.symm⟩)
    · refine Or.inr (Or.inr ⟨fun hr => ?_, e2⟩)
      rcases e1 with e1 | e1 | e1
      · exact e1.2
      · exact absurd hr (asks_keep.1 e1).1
      · exact absurd hr (asks_coarsen.1 e1.1).1
  have Y : (t.Refine b0 y0 ∧ b0 < maxL ∧ l' = b0 + 1) ∨ l' ≤ b0 := by
    rcases y3 with ⟨e1, e2, e3, _⟩ | ⟨e1, e2, e3, _⟩ | ⟨e1, e2, _⟩
    · exact Or.inl ⟨asks_refine.1 e1, e2, e3⟩
    · exact Or.inr (by omega)
    · exact Or.inr (by omega)
  by_contra hcon
  rcases Nat.lt_trichotomy b0 a0 with hlt | heq | hgt
  · omega
  · -- same level: `y0` is refined and `x0` is coarsened
    subst heq
    rcases Y with ⟨r1, r2, r3⟩ | r
    swap
    · omega
    rcases X with ⟨s1, s2, s3⟩ | ⟨s1, s2, s3, s4⟩ | ⟨s1, s2⟩
    · omega
    · exact s2 (ht.refKept b0 y0 (by omega) (by omega) y1 r1 x0 (near_up' hab x2 y2))
    · omega
  · obtain rfl : b0 = a0 + 1 := by omega
    rcases Y with ⟨r1, r2, r3⟩ | r
    · -- `y0` is refined, `x0` is not
      have hnr : ¬ t.Refine a0 x0 := by
        intro hr
        rcases X with ⟨s1, s2, s3⟩ | ⟨s1, s2, s3, s4⟩ | ⟨s1, s2⟩
        · omega
        · exact s1 hr
        · have := s1 hr; omega
      have hxa : Anc 1 x0 (a.map fun x => shr x (maxL - (a0 + 1))) := by
        have := anc_of_anc (by omega) x2 (anc_iff.2 rfl : Anc (maxL - (a0 + 1)) _ a)
        rwa [show maxL - a0 - (maxL - (a0 + 1)) = 1 by omega] at this
      obtain ⟨s, s1, s2, s3⟩ := exists_dir hn (mem_length y1.2) (near_up' hab (anc_iff.2 rfl) y2)
      rw [anc_one.1 hxa] at s2
      have := ht.graduated (a0 + 1) y0 s (by omega) (by omega) y1 r1 s1 s3 (by
        rw [s2, show a0 + 1 - 1 = a0 by omega]; exact hc.cells_all x1) (by
        -- the cell `z` is in the domain
        obtain ⟨z, hz⟩ := anc_exists (maxL - (a0 + 1)) (shiftPoint s n y0)
        have hxz : Anc (maxL - a0) x0 z := by
          have := anc_trans (anc_one.2 s2) hz
          rwa [show 1 + (maxL - (a0 + 1)) = maxL - a0 by omega] at this
        obtain ⟨d, d1, d2⟩ := (h.leaves.tiles z).1 ⟨a0, x0, hx.2, x1, hxz⟩
        have hdl := hd.level
        unfold AtLevel
        split
        · refine ⟨d, d1, ?_⟩
          have := anc_of_anc (by omega) d2 hz
          rwa [show maxL - dom.level - (maxL - (a0 + 1)) = a0 + 1 - dom.level by omega] at this
        · refine ⟨d, d1, ?_⟩
          have := anc_of_anc (by omega) hz d2
          rwa [show maxL - (a0 + 1) - (maxL - dom.level) = dom.level - (a0 + 1) by omega] at this)
      rw [s2, show a0 + 1 - 1 = a0 by omega] at this
      exact hnr this
    · -- `y0` is kept, `x0` is coarsened
      rcases X with ⟨s1, s2, s3⟩ | ⟨s1, s2, s3, s4⟩ | ⟨s1, s2⟩
      · omega
      · have hPb : Anc (maxL - a0) (parentOf y0) b := by
          have := anc_trans (anc_one.2 rfl : Anc 1 (parentOf y0) y0) y2
          rwa [show 1 + (maxL - (a0 + 1)) = maxL - a0 by omega] at this
        have hnear : Near 1 x0 (parentOf y0) := near_up' hab x2 hPb
        obtain ⟨s, t1, t2⟩ := exists_dir_sub hn (y := parentOf y0) (by unfold parentOf; rw [List.length_map]; exact mem_length y1.2) hnear
        have hall : m.all.Mem n a0 (subPoint s n (parentOf y0)) := by
          rcases F.siblings a0 x0 _ s3 x1 t2 with k | ⟨c, k1, k2⟩
          · exact hc.cells_all k
          · have := F.parent (a0 + 1) c (by omega) k1
            rwa [k2] at this
        have hk := ht.balanced (a0 + 1) y0 s (by omega) (by omega) y1 t1 hall
        rw [show a0 + 1 - 1 = a0 by omega] at hk
        exact s2 ((ht.family a0 x0 _ (by omega) s3 x1 t2).1 hk)
      · omega

theorem harten_spec {n gw : Nat} {cfg : MeshConfig} {dom : LCA} {minL maxL ite : Nat} {m : SubMeshes} {u : CA}
    (h : AdaptInv n cfg dom minL maxL m u)
    (hd : GoodDomain n dom minL maxL (cfg.maxStencilWidth + cfg.predictionOrder + gw + 3)) (hmin : 1 ≤ minL)
    (hmm : minL ≤ maxL) (hite : ite ≤ maxL - minL) (enlarge : Bool) (D : DetailMasks) (f : CellField K) :
    ∃ t b m' u' f', hartenTags n gw minL maxL ite enlarge D m dom = some t ∧
      TagsSet n m.cells (tagArray n m.all t) ∧ SiblingsAgree n m.cells minL (tagArray n m.all t) ∧
      harten n cfg gw minL maxL ite enlarge D dom m u f = some (b, m', u', f') ∧
      updateFieldMr n cfg minL maxL (tagArray n m.all t) m u f = some (b, m', u', f') ∧
      m'.cells.Between n minL maxL ∧ m'.cells.NoOverlap n ∧ (∀ c, m'.cells.Tiles n maxL c ↔ InDomain n dom maxL c) ∧
      (n ≤ 2 → gw = 1 → AdaptInv n cfg dom minL maxL m' u') := by
  obtain ⟨t, h1, h2, h3, h4⟩ := harten_tags h hd hmin hmm hite enlarge D
  obtain ⟨b, m', u', f', k1, k2, k3, _, k5⟩ := updateFieldMr_spec (cfg := cfg) (tag := tagArray n m.all t) (u := u) hmm (h.proper hd (by omega)) h.leaves.noOverlap f
  obtain ⟨t1, t2, t3⟩ := update_tiling h.leaves.wf h.leaves.between h.leaves.noOverlap h3 h4 k3
  have htile : ∀ c, m'.cells.Tiles n maxL c ↔ InDomain n dom maxL c := fun c => (t3 maxL c le_rfl).trans (h.leaves.tiles c)
  refine ⟨t, b, m', u', f', h1, h3, h4, ?_, k1, t1, t2, htile, fun hn hg => ?_⟩
  · unfold harten
    rw [h1]
    exact k1
  · subst hg
    have hgr := harten_graded hn h hd h2 h4 t1 k3
    rcases k5 with ⟨rfl, rfl⟩ | ⟨new, k6, k7⟩
    · exact ⟨h.mesh, ⟨h.leaves.wf, h.leaves.leveled, h.leaves.size, t1, t2, hgr, htile⟩⟩
    · exact ⟨⟨new, k6⟩, ⟨k2, k6.cellsLevels.2, by rw [k6.cellsLevels.1, k7]; exact h.leaves.size, t1, t2, hgr, htile⟩⟩

end Samurai

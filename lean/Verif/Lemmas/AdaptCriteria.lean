import Verif.Lemmas.AdaptBounds
import Verif.Lemmas.AdaptStep

namespace Samurai

variable {K : Type} [Field K]

/-- The tag of a child of a family that the criteria look at. -/
noncomputable def criteriaTag (n minL maxL : Nat) (D : DetailMasks) (l : Nat) (q : List Int) (v : BitVec 32) : BitVec 32 :=
  open Classical in
  refinedTag maxL D (l - 1) q (if minL < l ∧ SmallFamily n D (l - 1) (parentOf q) then CellFlag.coarsen else v)

open Classical in
/-- The tags after the criteria, exactly. -/
theorem criteria_exact {n gw : Nat} {dom : LCA} {minL maxL ite : Nat} {m : SubMeshes} (S : AdaptSets n gw m.cells m.ghosts m.all dom maxL)
    (hmin : 1 ≤ minL) (hite : minL ≤ maxL - ite + 1) (D : DetailMasks) :
    ∃ t0, (List.range' minL (maxL - ite + 1 - minL)).foldlM (criteriaLevel n minL maxL D m.cells m.all) (tagLeaves n m.cells) = some t0 ∧
      ∀ l q, t0 l q = if minL ≤ l ∧ l ≤ maxL - ite ∧ (∃ c, m.cells.Mem n l c ∧ parentOf c = parentOf q) ∧ m.all.Mem n (l - 1) (parentOf q) then
        criteriaTag n minL maxL D l q (tagLeaves n m.cells l q) else tagLeaves n m.cells l q := by
  obtain ⟨t0, h1, h2⟩ := foldRange (criteriaLevel n minL maxL D m.cells m.all) (fun k t => ∀ l q,
      t l q = if minL ≤ l ∧ l < k ∧ (∃ c, m.cells.Mem n l c ∧ parentOf c = parentOf q) ∧ m.all.Mem n (l - 1) (parentOf q) then
        criteriaTag n minL maxL D l q (tagLeaves n m.cells l q) else tagLeaves n m.cells l q) minL (maxL - ite + 1 - minL) (by
    intro k t k1 k2 hk
    obtain ⟨calls, c1, c2⟩ := S.parents k (by omega) (by omega)
    unfold criteriaLevel
    rw [c1]
    refine ⟨_, rfl, fun l q => ?_⟩
    rw [tagToRefine, tagToCoarsen, show k - 1 + 1 = k by omega]
    by_cases hl : l = k
    · subst hl
      have ht : t l q = tagLeaves n m.cells l q := by rw [hk, if_neg (by omega)]
      by_cases hc : Covers calls (parentOf q)
      · obtain ⟨c3, c4⟩ := (c2 _).1 hc
        rw [if_pos ⟨rfl, hc⟩, if_pos (show minL ≤ l ∧ l < l + 1 ∧ (∃ c, m.cells.Mem n l c ∧ parentOf c = parentOf q) ∧ m.all.Mem n (l - 1) (parentOf q) from
          ⟨k1, by omega, c3, c4⟩), ht]
        unfold criteriaTag
        congr 1
        by_cases hs : minL < l ∧ SmallFamily n D (l - 1) (parentOf q)
        · rw [if_pos hs, if_pos ⟨rfl, hc, hs⟩]
        · rw [if_neg hs, if_neg (fun h => hs h.2.2)]
      · rw [if_neg (fun h => hc h.2), if_neg (fun h => hc h.2.1), if_neg (fun h => hc ((c2 _).2 h.2.2)), ht]
    · rw [if_neg (fun h => hl h.1), if_neg (fun h => hl h.1), hk]
      by_cases h : minL ≤ l ∧ l < k ∧ (∃ c, m.cells.Mem n l c ∧ parentOf c = parentOf q) ∧ m.all.Mem n (l - 1) (parentOf q)
      · rw [if_pos h, if_pos ⟨h.1, by omega, h.2.2⟩]
      · rw [if_neg h, if_neg (fun h' => h ⟨h'.1, by omega, h'.2.2⟩)]) (tagLeaves n m.cells)
    (fun l q => by rw [if_neg (by omega)])
  refine ⟨t0, h1, fun l q => ?_⟩
  rw [h2]
  by_cases h : minL ≤ l ∧ l < minL + (maxL - ite + 1 - minL) ∧ (∃ c, m.cells.Mem n l c ∧ parentOf c = parentOf q) ∧ m.all.Mem n (l - 1) (parentOf q)
  · rw [if_pos h, if_pos ⟨h.1, by omega, h.2.2⟩]
  · rw [if_neg h, if_neg (fun h' => h ⟨h'.1, by omega, h'.2.2⟩)]

/-- The parent of a leaf is in the reference mesh, also for the leaves of `min_level`. -/
theorem MRMeshOK.parent' {n : Nat} {cfg : MeshConfig} {c0 : CA} {minL maxL : Nat} {m : SubMeshes} {u : CA}
    (h : MRMeshOK n cfg c0 minL maxL m u) (hne : minL ≠ maxL) (hno : m.cells.NoOverlap n) {l : Nat} {q : List Int}
    (hl : 1 ≤ l) (hq : m.cells.Mem n l q) : m.all.Mem n (l - 1) (parentOf q) := by
  obtain ⟨m0, c1, c2, c3, _, c5⟩ := h.content
  refine (c5 _ _).2 ((c1.all hne _ _).2 (MRBase.all (Or.inr (Or.inl ⟨q, ⟨q, ?_, near_refl _ _⟩, ?_, near_refl _ _⟩))))
  · rw [show l - 1 + 1 = l by omega]
    exact (c2 l q).1 hq
  · rw [show l - 1 + 1 = l by omega]
    rintro ⟨l', q', h1, h2, h3⟩
    have := (hno l q l' q' hq ((c2 l' q').2 h2) (by omega) h3).1
    omega

/-- The passes after the criteria do not remove a `refine` or a `keep` and do not add a `coarsen`. -/
theorem harten_mono {n gw : Nat} {dom : LCA} {minL maxL ite : Nat} {m : SubMeshes} (S : AdaptSets n gw m.cells m.ghosts m.all dom maxL)
    (hite : minL ≤ maxL - ite + 1) (enlarge : Bool) (D : DetailMasks) {t0 : TagField}
    (h0 : (List.range' minL (maxL - ite + 1 - minL)).foldlM (criteriaLevel n minL maxL D m.cells m.all) (tagLeaves n m.cells) = some t0) :
    ∃ t, hartenTags n gw minL maxL ite enlarge D m dom = some t ∧
      (∀ l q, t0.Refine l q → t.Refine l q) ∧ (∀ l q, t0.Keep l q → t.Keep l q) ∧ ∀ l q, t.Coarsen l q → t0.Coarsen l q := by
  have more : ∀ t t' : TagField, MoreKeep t t' → ((∀ l q, t0.Refine l q → t.Refine l q) ∧ (∀ l q, t0.Keep l q → t.Keep l q) ∧ ∀ l q, t.Coarsen l q → t0.Coarsen l q) →
      (∀ l q, t0.Refine l q → t'.Refine l q) ∧ (∀ l q, t0.Keep l q → t'.Keep l q) ∧ ∀ l q, t'.Coarsen l q → t0.Coarsen l q :=
    fun t t' h i => ⟨fun l q k => (h.2.2 l q).2 (i.1 l q k), fun l q k => h.1 l q (i.2.1 l q k), fun l q k => i.2.2 l q ((h.2.1 l q).1 k)⟩
  refine harten_passes S (fun t => (∀ l q, t0.Refine l q → t.Refine l q) ∧ (∀ l q, t0.Keep l q → t.Keep l q) ∧ ∀ l q, t.Coarsen l q → t0.Coarsen l q)
    ?_ ?_ ?_ ?_ ?_ hite h0 ⟨fun _ _ h => h, fun _ _ h => h, fun _ _ h => h⟩
  · rintro level calls t - - ⟨i1, i2, i3⟩
    obtain ⟨m1, m2, m3⟩ := tagMaximum (level := level - 1) (calls := calls) (t := t)
    exact ⟨fun l q h => (m3 l q).2 (i1 l q h), fun l q h => (m1 l q).2 (Or.inl (i2 l q h)), fun l q h => i3 l q ((m2 l q).1 h).1⟩
  · rintro level calls t - i
    exact more _ _ (moreKeep_around t) i
  · rintro - level calls calls' t i
    exact more _ _ ((moreKeep_enlarge t).trans (moreKeep_tagToKeep _)) i
  · rintro level s calls t - - - i
    exact more _ _ (tagBalance).1 i
  · rintro level s calls t - - - ⟨i1, i2, i3⟩
    obtain ⟨m1, m2, m3⟩ := tagGraduate (level := level) (calls := calls) (t := t)
    exact ⟨fun l q h => (m3 l q).2 (Or.inl (i1 l q h)), fun l q h => (m1 l q).2 (i2 l q h), fun l q h => i3 l q ((m2 l q).1 h)⟩

/-- One step, with the tags after the criteria. -/
theorem harten_criteria {n gw : Nat} {cfg : MeshConfig} {dom : LCA} {minL maxL ite : Nat} {m : SubMeshes} {u : CA}
    (h : AdaptInv n cfg dom minL maxL m u)
    (hd : GoodDomain n dom minL maxL (cfg.maxStencilWidth + cfg.predictionOrder + gw + 3))
    (hmm : minL ≤ maxL) (enlarge : Bool) (D : DetailMasks) (f : CellField K) {t : TagField}
    (ht : hartenTags n gw minL maxL ite enlarge D m dom = some t) :
    ∃ b m' u' f', harten n cfg gw minL maxL ite enlarge D dom m u f = some (b, m', u', f') ∧
      ∀ l p, m'.cells.Mem n l p ↔ ∃ l' q, m.cells.Mem n l' q ∧ Becomes minL maxL (t l' q) l' q l p := by
  obtain ⟨c0, hc⟩ := h.mesh
  obtain ⟨b, m', u', f', k1, k2, k3, _, _⟩ := updateFieldMr_spec (cfg := cfg) (tag := tagArray n m.all t) (u := u) hmm (h.proper hd (by omega)) h.leaves.noOverlap f
  refine ⟨b, m', u', f', ?_, fun l p => ?_⟩
  · unfold harten
    rw [ht]
    exact k1
  · rw [k3]
    constructor
    · rintro ⟨l', q, v, h1, h2⟩
      obtain ⟨h3, rfl⟩ := (hc.leafTag t).1 h1
      exact ⟨l', q, h3, h2⟩
    · rintro ⟨l', q, h1, h2⟩
      exact ⟨l', q, _, (hc.leafTag t).2 ⟨h1, rfl⟩, h2⟩

/-! ### when no detail is large -/

/-- In a graded mesh there is no leaf of level `l + 1` in a cell of level `l` that touches a child of a leaf of level `l - 1`. -/
theorem GoodLeaves.no_jump {n : Nat} {cells : CA} {dom : LCA} {minL maxL : Nat} (g : GoodLeaves n cells dom minL maxL)
    (hw : ∀ p m m', Anc (maxL - minL) p m → Anc (maxL - minL) p m' → InDomain n dom maxL m → InDomain n dom maxL m') {l : Nat}
    {q d : List Int} (hl : 1 ≤ l) (hx : cells.Mem n (l - 1) (parentOf q)) (hd : cells.Mem n (l + 1) d) (hn : Near 1 q (parentOf d)) : False := by
  have b1 := g.between _ _ hx
  have b2 := g.between _ _ hd
  obtain ⟨a, b, h1, h2, h3⟩ := touch_down (maxL - l) hn
  obtain ⟨e, he⟩ := anc_exists (maxL - (l + 1)) d
  have hPd : Anc 1 (parentOf d) d := anc_one.2 rfl
  have hPe : Anc (maxL - l) (parentOf d) e := by
    have := anc_trans hPd he
    rwa [show 1 + (maxL - (l + 1)) = maxL - l by omega] at this
  have up : ∀ z, Anc (maxL - l) (parentOf d) z → Anc (maxL - minL) ((parentOf d).map fun x => shr x (l - minL)) z := by
    intro z hz
    have := anc_trans (anc_iff.2 rfl : Anc (l - minL) _ (parentOf d)) hz
    rwa [show l - minL + (maxL - l) = maxL - minL by omega] at this
  obtain ⟨l', p', g1, g2, g3⟩ := (g.tiles b).2 (hw _ _ _ (up e hPe) (up b h2) ((g.tiles e).1 ⟨l + 1, d, b2.2, hd, he⟩))
  have hxa : Anc (maxL - (l - 1)) (parentOf q) a := by
    have := anc_trans (anc_one.2 rfl : Anc 1 (parentOf q) q) h1
    rwa [show 1 + (maxL - l) = maxL - (l - 1) by omega] at this
  have hle := graded_fine g.graded hx g2 b1.2 g1 hxa g3 h3
  have hanc : Anc (l - l') p' (parentOf d) := by
    have := anc_of_anc (j := maxL - l') (k := maxL - l) (by omega) g3 h2
    rwa [show maxL - l' - (maxL - l) = l - l' by omega] at this
  have := anc_trans hanc hPd
  rw [show l - l' + 1 = l + 1 - l' by omega] at this
  have := (g.noOverlap l' p' (l + 1) d g2 hd (by omega) this).1
  omega

theorem boxDir_ge {n : Nat} {s : Nat → Int} (h : s ∈ boxDir n) (d : Nat) : -1 ≤ s d := by
  have : - s d ≤ 1 := boxDir_le (boxDir_neg h) d
  omega

theorem sub_near {s : Nat → Int} (h1 : ∀ d, s d ≤ 1) (h2 : ∀ d, -1 ≤ s d) (p : List Int) : ∀ d, Near 1 (subPoint s d p) p := by
  induction p with
  | nil => exact fun d => List.Forall₂.nil
  | cons c p ih =>
    intro d
    refine near_one_cons.2 ⟨?_, ih _⟩
    have := h1 d
    have := h2 d
    constructor <;> omega

theorem anc_noOverlap {n : Nat} {cells : CA} (h : cells.NoOverlap n) {l : Nat} {c q : List Int} (hl : 1 ≤ l) (hc : cells.Mem n l c)
    (hq : parentOf c = parentOf q) (hp : cells.Mem n (l - 1) (parentOf q)) : False := by
  have := (h (l - 1) (parentOf q) l c hp hc (by omega) (by rw [show l - (l - 1) = 1 by omega]; exact anc_one.2 hq)).1
  omega

/-- The cells that may be kept when no leaf is refined. -/
def QuietKeep (n : Nat) (cells : CA) (minL : Nat) (t0 : TagField) (l : Nat) (q : List Int) : Prop :=
  l ≤ minL ∨ ∃ c, parentOf c = parentOf q ∧ ((∃ d, cells.Mem n (l + 1) d ∧ Near 1 c (parentOf d)) ∨ t0.Keep l c)

theorem quiet_closed {n : Nat} {cells : CA} {dom : LCA} {minL maxL margin : Nat} (hd : GoodDomain n dom minL maxL margin)
    (g : GoodLeaves n cells dom minL maxL) {t0 : TagField}
    (hk : ∀ l q, t0.Keep l q → ∃ c, cells.Mem n l c ∧ parentOf c = parentOf q) :
    Closed n 1 minL cells (QuietKeep n cells minL t0) (fun l p => ¬ cells.Mem n l p) := by
  refine ⟨fun l p q h h' => absurd h h', ?_, ?_, ?_, ?_⟩
  · rintro l d c c' hd' h1 h2 h3
    rcases h2 with h2 | ⟨e, h4, h5⟩
    · exact Or.inl h2
    · exact Or.inr ⟨e, by rw [h4, h1, h3], h5⟩
  · intro l c hl hc
    refine Or.inr ⟨_, rfl, Or.inl ⟨c, by rw [show l - 1 + 1 = l by omega]; exact hc, near_refl 1 _⟩⟩
  · intro l c s hl hs hc
    refine Or.inr ⟨_, rfl, Or.inl ⟨c, by rw [show l - 1 + 1 = l by omega]; exact hc, ?_⟩⟩
    unfold gradStencils at hs
    obtain ⟨s', h1, rfl⟩ := List.mem_map.1 hs
    refine sub_near (fun d => ?_) (fun d => ?_) _ _
    · have := boxDir_le h1 d
      show ((1 : Nat) : Int) * s' d ≤ 1
      omega
    · have := boxDir_ge h1 d
      show -1 ≤ ((1 : Nat) : Int) * s' d
      omega
  · rintro l p s hl hs h1 (h2 | ⟨c, h2, h3⟩) hm
    · omega
    · rcases h3 with ⟨d, h4, h5⟩ | h3
      · exact g.no_jump hd.whole (by omega) (by rw [h2]; exact hm) h4 h5
      · obtain ⟨e, h4, h5⟩ := hk l c h3
        exact anc_noOverlap g.noOverlap (by omega) h4 (h5.trans h2) hm

theorem refinedTag_keep {maxL : Nat} {D : DetailMasks} {level : Nat} {q : List Int} {v : BitVec 32}
    (h : (refinedTag maxL D level q v).getLsbD 0 = true) : v.getLsbD 0 = true ∨ D.largeParent level (parentOf q) = true := by
  unfold refinedTag at h
  split at h
  · exact absurd h (by decide)
  · split at h
    · rename_i h'; exact Or.inr h'
    · exact Or.inl h

theorem refinedTag_refine {maxL : Nat} {D : DetailMasks} {level : Nat} {q : List Int} {v : BitVec 32} (hv : v.getLsbD 2 = false) :
    (refinedTag maxL D level q v).getLsbD 2 = true ↔ level + 1 < maxL ∧ D.large (level + 1) q = true := by
  unfold refinedTag
  split
  · rename_i h; exact ⟨fun _ => h, fun _ => by decide⟩
  · rename_i h
    split
    · rw [(bits_keep _).2.2, hv]; exact ⟨fun h' => absurd h' (by decide), fun h' => absurd h' h⟩
    · rw [hv]; exact ⟨fun h' => absurd h' (by decide), fun h' => absurd h' h⟩

theorem refinedTag_coarsen {maxL : Nat} {D : DetailMasks} {level : Nat} {q : List Int} {v : BitVec 32} :
    (refinedTag maxL D level q v).getLsbD 1 = true ↔ v.getLsbD 1 = true ∧ ¬ (level + 1 < maxL ∧ D.large (level + 1) q = true) := by
  unfold refinedTag
  split
  · rename_i h; exact ⟨fun h' => absurd h' (by decide), fun h' => absurd h h'.2⟩
  · rename_i h
    split
    · rw [(bits_keep _).2.1]; exact ⟨fun h' => ⟨h', h⟩, fun h' => h'.1⟩
    · exact ⟨fun h' => ⟨h', h⟩, fun h' => h'.1⟩

theorem familySmall_iff {n : Nat} {D : DetailMasks} {l : Nat} {p : List Int} (hp : p.length = n + 1) :
    SmallFamily n D l p ↔ FamilySmall n D l p := by
  unfold SmallFamily FamilySmall
  by_cases hn : n = 0
  · subst hn
    obtain ⟨x, rfl⟩ := List.length_eq_one_iff.1 hp
    rw [if_pos rfl]
    have e : childrenOf [x] = [[2 * x], [2 * x + 1]] := by simp [childrenOf]
    rw [e]
    simp only [List.take_succ_cons, List.take_zero, List.all_cons, List.all_nil, Bool.and_true, List.map_cons, List.map_nil]
    constructor
    · intro h c _ hc
      rw [hc trivial]; exact h
    · intro h
      refine h _ (anc_one.2 ?_) fun _ => rfl
      unfold parentOf shr
      simp
  · rw [if_neg hn, List.all_eq_true]
    constructor
    · intro h c hc _
      exact h c (mem_children.2 (anc_one.1 hc))
    · intro h c hc
      exact h c (anc_one.2 (mem_children.1 hc)) fun h => absurd h hn

end Samurai

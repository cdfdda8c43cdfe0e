import Verif.Spec.Update
import Verif.Lemmas.MeshFull

namespace Samurai

/-! ### the leaves after an update -/

theorem CA.mem_numbered {n : Nat} {c : CA} {l : Nat} {p : List Int} {v : Int} :
    (l, p, v) ∈ c.numbered n ↔ ∃ yz i x, (l, yz, i) ∈ c.rows n ∧ x ∈ i ∧ p = yz ++ [x] ∧ v = i.index + x := by
  unfold CA.numbered LCA.numbered
  constructor
  · intro h
    obtain ⟨l', hl', h⟩ := List.mem_flatMap.1 h
    obtain ⟨e, he, heq⟩ := List.mem_map.1 h
    obtain ⟨r, hr, he⟩ := List.mem_flatMap.1 he
    obtain ⟨x, hx, rfl⟩ := List.mem_map.1 he
    simp only [Prod.mk.injEq] at heq
    obtain ⟨rfl, rfl, rfl⟩ := heq
    refine ⟨r.1, r.2, x, CA.mem_rows.2 ⟨?_, hr⟩, coords_mem.1 hx, rfl, rfl⟩
    have := List.mem_range.1 hl'
    omega
  · rintro ⟨yz, i, x, h1, h2, rfl, rfl⟩
    obtain ⟨h3, h4⟩ := CA.mem_rows.1 h1
    exact List.mem_flatMap.2 ⟨l, List.mem_range.2 (by omega), List.mem_map.2 ⟨_, List.mem_flatMap.2 ⟨_, h4,
      List.mem_map.2 ⟨x, coords_mem.2 h2, rfl⟩⟩, rfl⟩⟩

theorem CA.mem_of_numbered {n : Nat} {c : CA} (h : c.WF n) {l : Nat} {p : List Int} {v : Int}
    (hp : (l, p, v) ∈ c.numbered n) : c.Mem n l p := by
  obtain ⟨yz, i, x, h1, h2, rfl, _⟩ := CA.mem_numbered.1 hp
  exact (CA.mem_iff_rows h).2 ⟨yz, i, x, h1, h2, rfl⟩

theorem CA.exists_number {n : Nat} {c : CA} (h : c.WF n) {l : Nat} {p : List Int} (hp : c.Mem n l p) :
    ∃ v, (l, p, v) ∈ c.numbered n := by
  obtain ⟨yz, i, x, h1, h2, rfl⟩ := (CA.mem_iff_rows h).1 hp
  exact ⟨_, CA.mem_numbered.2 ⟨yz, i, x, h1, h2, rfl, rfl⟩⟩

theorem CA.number_unique {n : Nat} {c : CA} (h : c.WF n) {l : Nat} {p : List Int} {v w : Int}
    (hv : (l, p, v) ∈ c.numbered n) (hw : (l, p, w) ∈ c.numbered n) : v = w := by
  obtain ⟨yz, i, x, h1, h2, rfl, rfl⟩ := CA.mem_numbered.1 hv
  obtain ⟨yz', i', x', g1, g2, g3, rfl⟩ := CA.mem_numbered.1 hw
  obtain ⟨rfl, rfl⟩ := snoc_inj g3
  obtain ⟨h3, h4⟩ := CA.mem_rows.1 h1
  obtain ⟨g3, g4⟩ := CA.mem_rows.1 g1
  have : i = i' := row_unique (h l h3) h4 g4 h2 g2
  rw [this]

theorem LeafTag.unique {n : Nat} {c : CA} (h : c.WF n) {tag : Int → BitVec 32} {l : Nat} {p : List Int} {t t' : BitVec 32}
    (h1 : LeafTag n c tag l p t) (h2 : LeafTag n c tag l p t') : t = t' := by
  obtain ⟨v, hv, rfl⟩ := h1
  obtain ⟨w, hw, rfl⟩ := h2
  rw [CA.number_unique h hv hw]

theorem LeafTag.mem {n : Nat} {c : CA} (h : c.WF n) {tag : Int → BitVec 32} {l : Nat} {p : List Int} {t : BitVec 32}
    (h1 : LeafTag n c tag l p t) : c.Mem n l p := by
  obtain ⟨v, hv, _⟩ := h1
  exact CA.mem_of_numbered h hv

theorem LeafTag.exists {n : Nat} {c : CA} (h : c.WF n) (tag : Int → BitVec 32) {l : Nat} {p : List Int}
    (hp : c.Mem n l p) : ∃ t, LeafTag n c tag l p t := by
  obtain ⟨v, hv⟩ := CA.exists_number h hp
  exact ⟨_, v, hv, rfl⟩

theorem flagged_refine {t : BitVec 32} : flagged t CellFlag.refine = true ↔ AsksRefine t := by
  simp [flagged, CellFlag.refine, AsksRefine]

theorem flagged_keep {t : BitVec 32} (h : ¬ AsksRefine t) : flagged t CellFlag.keep = true ↔ AsksKeep t := by
  simp [flagged, CellFlag.keep, AsksKeep, h]

theorem flagged_coarsen {t : BitVec 32} (h : ¬ AsksRefine t) (h' : ¬ AsksKeep t) :
    flagged t CellFlag.coarsen = true ↔ AsksCoarsen t := by
  simp [flagged, CellFlag.coarsen, AsksCoarsen, h, h']

theorem adds_cell {yz : List Int} {x : Int} {p : List Int} : (CellCall.cell yz x).Adds p ↔ p = yz ++ [x] := Iff.rfl

theorem child_adds {yz : List Int} {x : Int} {p : List Int} :
    (∃ st ∈ nestedIndices 2 yz.length,
      (CellCall.interval (List.zipWith (fun y s => 2 * y + s) yz st) (Interval.mk' (2 * x) (2 * x + 2))).Adds p) ↔
      Anc 1 (yz ++ [x]) p := by
  have e : (fun y s : Int => 2 * y + s) = fun y s => shl y 1 + s := by
    funext y s; simp [shl]; ring
  have hx : ∀ y : Int, (2 * x ≤ y ∧ y < 2 * x + 2) ↔ shr y 1 = x := by
    intro y; unfold shr; omega
  rw [e, anc_iff]
  constructor
  · rintro ⟨st, hst, y, h1, h2, rfl⟩
    simp only [Interval.mk'] at h1 h2
    rw [List.map_append, ← forall₂_ancestor.1 (zipWith_ancestor (k := 1).1 ⟨st, hst, rfl⟩), ← (hx y).1 ⟨h1, h2⟩]
    rfl
  · intro h
    have hl : p.length = yz.length + 1 := by
      have := congrArg List.length h
      simpa using this.symm
    obtain ⟨r, y, rfl⟩ : ∃ r y, p = r ++ [y] := by
      rcases List.eq_nil_or_concat p with rfl | ⟨r, y, rfl⟩
      · simp at hl
      · exact ⟨r, y, by simp⟩
    rw [List.map_append, List.map_singleton] at h
    obtain ⟨h1, h2⟩ := snoc_inj h
    obtain ⟨st, hst, hr⟩ := zipWith_ancestor.2 (forall₂_ancestor.2 h1)
    have h3 := (hx y).2 h2.symm
    refine ⟨st, hst, y, h3.1, h3.2, ?_⟩
    rw [hr]

theorem updateCell_adds {minL maxL : Nat} {t : BitVec 32} {l : Nat} {yz : List Int} {x : Int} {l' : Nat} {p : List Int} :
    (∃ c, (l', c) ∈ updateCell minL maxL t l yz x ∧ c.Adds p) ↔ Becomes minL maxL t l (yz ++ [x]) l' p := by
  have single : ∀ (k : Nat) (yz : List Int) (x : Int), (∃ c, (l', c) ∈ [(k, CellCall.cell yz x)] ∧ c.Adds p) ↔
      l' = k ∧ p = yz ++ [x] := by
    intro k yz x
    constructor
    · rintro ⟨c, hc, ha⟩
      simp only [List.mem_singleton, Prod.mk.injEq] at hc
      obtain ⟨rfl, rfl⟩ := hc
      exact ⟨rfl, ha⟩
    · rintro ⟨rfl, h⟩
      exact ⟨_, List.mem_singleton.2 rfl, h⟩
  unfold updateCell Becomes
  by_cases hr : AsksRefine t
  · have hk : ¬ AsksKeep t := fun h => h.1 hr
    have hc : ¬ AsksCoarsen t := fun h => h.1 hr
    rw [if_pos (flagged_refine.2 hr)]
    by_cases hl : l < maxL
    · rw [if_pos hl]
      simp only [hr, hk, hc, true_and, false_and, false_or, or_false, hl, not_le.2 hl]
      constructor
      · rintro ⟨c, hc, ha⟩
        obtain ⟨st, hst, heq⟩ := List.mem_map.1 hc
        simp only [Prod.mk.injEq] at heq
        obtain ⟨rfl, rfl⟩ := heq
        exact ⟨rfl, child_adds.1 ⟨st, hst, ha⟩⟩
      · rintro ⟨rfl, h⟩
        obtain ⟨st, hst, ha⟩ := child_adds.2 h
        exact ⟨_, List.mem_map.2 ⟨st, hst, rfl⟩, ha⟩
    · rw [if_neg hl, single]
      simp [hr, hk, hc, hl, not_lt.1 hl]
  · rw [if_neg (fun h => hr (flagged_refine.1 h))]
    by_cases hk : AsksKeep t
    · have hc : ¬ AsksCoarsen t := fun h => h.2.1 hk
      rw [if_pos ((flagged_keep hr).2 hk), single]
      simp [hr, hk, hc]
    · rw [if_neg (fun h => hk ((flagged_keep hr).1 h))]
      by_cases hc : AsksCoarsen t
      · rw [if_pos ((flagged_coarsen hr hk).2 hc)]
        by_cases hl : l > minL
        · rw [if_pos hl, single]
          simp only [hr, hk, hc, hl, not_le.2 hl, true_and, false_and, false_or, or_false, anc_iff, List.map_append,
            List.map_singleton]
          constructor
          · rintro ⟨rfl, h⟩; exact ⟨by omega, h⟩
          · rintro ⟨h1, h⟩; exact ⟨by omega, h⟩
        · rw [if_neg hl, single]
          simp [hr, hk, hc, hl, not_lt.1 hl]
      · rw [if_neg (fun h => hc ((flagged_coarsen hr hk).1 h))]
        simp [hr, hk, hc]

theorem updateCell_ok {minL maxL n : Nat} {t : BitVec 32} {l : Nat} {yz : List Int} {x : Int} (hy : yz.length = n)
    {m : Nat} (hm : maxL ≤ m) (hl : l ≤ m) : ∀ e ∈ updateCell minL maxL t l yz x, e.1 ≤ m ∧ e.2.idx.length = n ∧ e.2.Valid := by
  intro e he
  unfold updateCell at he
  have hs : ∀ k ≤ m, ∀ (yz' : List Int) (x' : Int), yz'.length = n → e ∈ [(k, CellCall.cell yz' x')] →
      e.1 ≤ m ∧ e.2.idx.length = n ∧ e.2.Valid := by
    intro k hk yz' x' h1 h2
    rw [List.mem_singleton] at h2
    subst h2
    exact ⟨hk, h1, trivial⟩
  split at he
  · split at he
    · obtain ⟨st, hst, rfl⟩ := List.mem_map.1 he
      have h1 := (mem_nestedIndices.1 hst).1
      refine ⟨by simp only; omega, by simp [CellCall.idx, h1, hy], ?_⟩
      show 2 * x < 2 * x + 2
      omega
    · exact hs l hl yz x hy he
  · split at he
    · exact hs l hl yz x hy he
    · split at he
      · split at he
        · exact hs (l - 1) (by omega) _ _ (by simpa using hy) he
        · exact hs l hl yz x hy he
      · simp at he

theorem updateLeaves_spec {n minL maxL : Nat} {tag : Int → BitVec 32} {cells : CA} (hw : cells.WF n)
    (hm : maxL ≤ cells.maxSize) :
    ∃ new, updateLeaves n minL maxL tag cells = some new ∧ new.maxSize = cells.maxSize ∧ new.WF n ∧ new.Leveled ∧
      ∀ l p, new.Mem n l p ↔ ∃ l' q t, LeafTag n cells tag l' q t ∧ Becomes minL maxL t l' q l p := by
  have hcol := collectCalls_spec hw (updateInterval minL maxL tag)
  have hmem : ∀ e, e ∈ ((cells.rows n).flatMap fun e => updateInterval minL maxL tag e.1 e.2.1 e.2.2) ↔
      ∃ l yz i x, (l, yz, i) ∈ cells.rows n ∧ x ∈ i ∧ e ∈ updateCell minL maxL (tag (i.index + x)) l yz x := by
    intro e
    constructor
    · intro he
      obtain ⟨⟨l, yz, i⟩, hr, he⟩ := List.mem_flatMap.1 he
      obtain ⟨k, hk, he⟩ := List.mem_flatMap.1 he
      rw [List.mem_range] at hk
      refine ⟨l, yz, i, i.start + k, hr, Interval.mem_def.2 ⟨by omega, by simp only at hk; omega⟩, ?_⟩
      rw [show i.index + (i.start + (k : Int)) = i.start + i.index + (k : Int) by ring]
      exact he
    · rintro ⟨l, yz, i, x, hr, hx, he⟩
      have hx := Interval.mem_def.1 hx
      refine List.mem_flatMap.2 ⟨(l, yz, i), hr, List.mem_flatMap.2 ⟨(x - i.start).toNat, List.mem_range.2 (by simp only; omega), ?_⟩⟩
      simp only
      rw [show i.start + i.index + ((x - i.start).toNat : Int) = i.index + x by omega,
        show i.start + ((x - i.start).toNat : Int) = x by omega]
      exact he
  obtain ⟨cl, h1, h2⟩ := (hist_new n cells.maxSize).calls
    (k := (cells.rows n).flatMap fun e => updateInterval minL maxL tag e.1 e.2.1 e.2.2) (by
      intro e he
      obtain ⟨l, yz, i, x, hr, hx, he⟩ := (hmem e).1 he
      obtain ⟨g1, g2⟩ := CA.mem_rows.1 hr
      exact updateCell_ok (rows_valid (hw l g1) g2).1 hm g1 e he)
  obtain ⟨a1, a2, a3, -, a5⟩ := h2.array
  refine ⟨CA.ofCL cl, ?_, a1, a2, a3, fun l p => ?_⟩
  · unfold updateLeaves
    rw [hcol]
    simp only []
    rw [h1]
  · rw [a5]
    simp only [false_or]
    constructor
    · rintro ⟨c, hc, ha⟩
      obtain ⟨l', yz, i, x, hr, hx, he⟩ := (hmem _).1 hc
      exact ⟨l', yz ++ [x], _, ⟨_, CA.mem_numbered.2 ⟨yz, i, x, hr, hx, rfl, rfl⟩, rfl⟩, updateCell_adds.1 ⟨c, he, ha⟩⟩
    · rintro ⟨l', q, t, ⟨v, hv, rfl⟩, hb⟩
      obtain ⟨yz, i, x, hr, hx, rfl, rfl⟩ := CA.mem_numbered.1 hv
      obtain ⟨c, hc, ha⟩ := updateCell_adds.2 hb
      exact ⟨c, (hmem _).2 ⟨l', yz, i, x, hr, hx, hc⟩, ha⟩

/-! ### tilings -/

/-- The descendants of a cell. -/
theorem anc_exists (k : Nat) (p : List Int) : ∃ q, Anc k p q := by
  refine ⟨p.map fun x => shl x k, anc_iff.2 ?_⟩
  rw [List.map_map]
  conv_lhs => rw [← List.map_id p]
  apply List.map_congr_left
  intro x _
  simp [shr_shl]

theorem anc_of_anc {j k : Nat} {p q m : List Int} (h : k ≤ j) (hp : Anc j p m) (hq : Anc k q m) : Anc (j - k) p q := by
  rw [anc_iff] at *
  subst hp hq
  rw [map_shr_add]
  congr 1
  funext c
  congr 1
  omega

/-- Two leaves above the same cell are the same. -/
theorem CA.NoOverlap.same {n : Nat} {c : CA} (h : c.NoOverlap n) {M l l' : Nat} {p p' m : List Int} (hp : c.Mem n l p)
    (hp' : c.Mem n l' p') (hl : l ≤ M) (hl' : l' ≤ M) (ha : Anc (M - l) p m) (ha' : Anc (M - l') p' m) : l = l' ∧ p = p' := by
  rcases Nat.le_total l l' with hle | hle
  · refine h l p l' p' hp hp' hle ?_
    have := anc_of_anc (by omega) ha ha'
    rwa [show M - l - (M - l') = l' - l by omega] at this
  · have := h l' p' l p hp' hp hle (by
      have := anc_of_anc (by omega) ha' ha
      rwa [show M - l' - (M - l) = l - l' by omega] at this)
    exact ⟨this.1.symm, this.2.symm⟩

/-- A new leaf above `m` comes from the old leaf above `m`. -/
theorem becomes_above {n minL maxL : Nat} {tag : Int → BitVec 32} {cells : CA} (hw : cells.WF n)
    (hs : SiblingsAgree n cells minL tag) {M l l' : Nat} {q p m : List Int} {t : BitVec 32}
    (ht : LeafTag n cells tag l' q t) (hb : Becomes minL maxL t l' q l p) (hM : l' ≤ M) (hl : l ≤ M) (ha : Anc (M - l) p m) :
    ∃ q' t', LeafTag n cells tag l' q' t' ∧ Becomes minL maxL t' l' q' l p ∧ Anc (M - l') q' m := by
  rcases hb with ⟨h1, h2, rfl, h4⟩ | ⟨h1, h2, h3, h4⟩ | ⟨h1, rfl, rfl⟩
  · refine ⟨q, t, ht, Or.inl ⟨h1, h2, rfl, h4⟩, ?_⟩
    have := anc_trans h4 ha
    rwa [show 1 + (M - (l' + 1)) = M - l' by omega] at this
  · rw [show M - l = 1 + (M - l') by omega] at ha
    obtain ⟨r, hr1, hr2⟩ := anc_split ha
    obtain ⟨t', g1, g2⟩ := hs l' q t h2 ht h1 p r h4 hr1
    exact ⟨r, t', g1, Or.inr (Or.inl ⟨g2, h2, h3, hr1⟩), hr2⟩
  · exact ⟨p, t, ht, Or.inr (Or.inr ⟨h1, rfl, rfl⟩), ha⟩

/-- One leaf gives one new leaf above `m`. -/
theorem becomes_unique {minL maxL : Nat} {t : BitVec 32} {M l l1 l2 : Nat} {q p1 p2 m : List Int}
    (h1 : Becomes minL maxL t l q l1 p1) (h2 : Becomes minL maxL t l q l2 p2) (a1 : Anc (M - l1) p1 m) (a2 : Anc (M - l2) p2 m) :
    l1 = l2 ∧ p1 = p2 := by
  have hkr : ∀ {t}, AsksKeep t → ¬ AsksRefine t := fun h => h.1
  have hcr : ∀ {t}, AsksCoarsen t → ¬ AsksRefine t := fun h => h.1
  have hck : ∀ {t}, AsksCoarsen t → ¬ AsksKeep t := fun h => h.2.1
  rcases h1 with ⟨b1, b2, rfl, b4⟩ | ⟨b1, b2, b3, b4⟩ | ⟨b1, rfl, rfl⟩ <;>
    rcases h2 with ⟨c1, c2, rfl, c4⟩ | ⟨c1, c2, c3, c4⟩ | ⟨c1, rfl, rfl⟩
  · exact ⟨rfl, anc_unique a1 a2⟩
  · exact absurd b1 (hcr c1)
  · rcases c1 with c1 | c1 | c1
    · omega
    · exact absurd b1 (hkr c1)
    · exact absurd b1 (hcr c1.1)
  · exact absurd c1 (hcr b1)
  · obtain rfl : l1 = l2 := by omega
    exact ⟨rfl, anc_unique b4 c4⟩
  · rcases c1 with c1 | c1 | c1
    · exact absurd c1.1 (hcr b1)
    · exact absurd c1 (hck b1)
    · omega
  · rcases b1 with b1 | b1 | b1
    · omega
    · exact absurd c1 (hkr b1)
    · exact absurd c1 (hcr b1.1)
  · rcases b1 with b1 | b1 | b1
    · exact absurd b1.1 (hcr c1)
    · exact absurd b1 (hck c1)
    · omega
  · exact ⟨rfl, rfl⟩

/-- Every leaf gives a new leaf above `m`. -/
theorem becomes_exists {minL maxL : Nat} {t : BitVec 32} (ht : AsksRefine t ∨ AsksKeep t ∨ AsksCoarsen t) {M l : Nat}
    {q m : List Int} (hl : l ≤ M) (hM : maxL ≤ M) (ha : Anc (M - l) q m) :
    ∃ l' p, Becomes minL maxL t l q l' p ∧ l' ≤ M ∧ Anc (M - l') p m := by
  have stay : ((AsksRefine t ∧ maxL ≤ l) ∨ AsksKeep t ∨ (AsksCoarsen t ∧ l ≤ minL)) →
      ∃ l' p, Becomes minL maxL t l q l' p ∧ l' ≤ M ∧ Anc (M - l') p m :=
    fun h => ⟨l, q, Or.inr (Or.inr ⟨h, rfl, rfl⟩), hl, ha⟩
  rcases ht with h | h | h
  · rcases Nat.lt_or_ge l maxL with h1 | h1
    · rw [show M - l = 1 + (M - (l + 1)) by omega] at ha
      obtain ⟨r, hr1, hr2⟩ := anc_split ha
      exact ⟨l + 1, r, Or.inl ⟨h, h1, rfl, hr1⟩, by omega, hr2⟩
    · exact stay (Or.inl ⟨h, h1⟩)
  · exact stay (Or.inr (Or.inl h))
  · rcases Nat.lt_or_ge minL l with h1 | h1
    · refine ⟨l - 1, q.map fun y => shr y 1, Or.inr (Or.inl ⟨h, h1, by omega, anc_iff.2 rfl⟩), by omega, ?_⟩
      have : Anc 1 (q.map fun y => shr y 1) q := anc_iff.2 rfl
      have := anc_trans this ha
      rwa [show 1 + (M - l) = M - (l - 1) by omega] at this
    · exact stay (Or.inr (Or.inr ⟨h, h1⟩))

theorem becomes_level {minL maxL : Nat} {t : BitVec 32} {l l' : Nat} {q p : List Int} (h : Becomes minL maxL t l q l' p)
    (hl : minL ≤ l ∧ l ≤ maxL) : minL ≤ l' ∧ l' ≤ maxL := by
  rcases h with ⟨_, h2, rfl, _⟩ | ⟨_, h2, h3, _⟩ | ⟨_, rfl, _⟩ <;> omega

/-- The new leaves tile what the old ones tile, without overlap. -/
theorem update_tiling {n minL maxL : Nat} {tag : Int → BitVec 32} {cells new : CA} (hw : cells.WF n)
    (hb : cells.Between n minL maxL) (hno : cells.NoOverlap n) (ht : TagsSet n cells tag) (hs : SiblingsAgree n cells minL tag)
    (hnew : ∀ l p, new.Mem n l p ↔ ∃ l' q t, LeafTag n cells tag l' q t ∧ Becomes minL maxL t l' q l p) :
    new.Between n minL maxL ∧ new.NoOverlap n ∧ ∀ M m, maxL ≤ M → (new.Tiles n M m ↔ cells.Tiles n M m) := by
  have hlev : new.Between n minL maxL := by
    intro l p hp
    obtain ⟨l', q, t, h1, h2⟩ := (hnew l p).1 hp
    exact becomes_level h2 (hb l' q (h1.mem hw))
  refine ⟨hlev, fun l p l' p' hp hp' hle ha => ?_, fun M m hM => ⟨?_, ?_⟩⟩
  · obtain ⟨l1, q1, t1, g1, g2⟩ := (hnew l p).1 hp
    obtain ⟨l2, q2, t2, k1, k2⟩ := (hnew l' p').1 hp'
    have e1 := hlev l p hp
    have e2 := hlev l' p' hp'
    have f1 := hb l1 q1 (g1.mem hw)
    have f2 := hb l2 q2 (k1.mem hw)
    obtain ⟨m, hm⟩ := anc_exists (maxL - l') p'
    have hm1 : Anc (maxL - l) p m := by
      have := anc_trans ha hm
      rwa [show l' - l + (maxL - l') = maxL - l by omega] at this
    obtain ⟨q1', t1', u1, u2, u3⟩ := becomes_above hw hs g1 g2 f1.2 e1.2 hm1
    obtain ⟨q2', t2', v1, v2, v3⟩ := becomes_above hw hs k1 k2 f2.2 e2.2 hm
    obtain ⟨rfl, rfl⟩ := hno.same (u1.mem hw) (v1.mem hw) f1.2 f2.2 u3 v3
    have := u1.unique hw v1
    subst this
    exact becomes_unique u2 v2 hm1 hm
  · rintro ⟨l, p, hl, hp, ha⟩
    obtain ⟨l1, q1, t1, g1, g2⟩ := (hnew l p).1 hp
    have f1 := hb l1 q1 (g1.mem hw)
    obtain ⟨q', t', u1, u2, u3⟩ := becomes_above hw hs g1 g2 (by omega) hl ha
    exact ⟨l1, q', by omega, u1.mem hw, u3⟩
  · rintro ⟨l, p, hl, hp, ha⟩
    obtain ⟨t, h1⟩ := LeafTag.exists hw tag hp
    obtain ⟨l', p', g1, g2, g3⟩ := becomes_exists (ht l p t h1) hl hM ha
    exact ⟨l', p', g2, (hnew l' p').2 ⟨l, p, t, h1, g1⟩, g3⟩

end Samurai

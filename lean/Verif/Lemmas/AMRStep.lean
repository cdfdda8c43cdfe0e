import Verif.Lemmas.AMRGeo
import Verif.Props.AMRMesh

namespace Samurai

variable {K : Type} [Field K] {n gw g : Nat} {cfg : MeshConfig} {near : List Int → List Int → Prop} {S : List (Nat → Int)} {dom : LCA} {minL maxL : Nat}
  {m : AMRMeshes} {u c0 : CA}

theorem CA.maxLevel_le {n : Nat} {c : CA} {M : Nat} (hw : c.WF n) (h : ∀ l p, c.Mem n l p → l ≤ M) : c.maxLevel ≤ M := by
  rcases c.level_cases with ⟨_, _, g1⟩ | ⟨_, g2, _, g4, _⟩
  · omega
  · have hr : (c.lca c.maxLevel).rows n ≠ [] := fun h => by
      rw [(rows_eq_nil_iff (hw _ g2)).1 h] at g4; simp at g4
    obtain ⟨e, he⟩ := List.exists_mem_of_ne_nil _ hr
    have hv := (rows_valid (hw _ g2) he).2
    exact h _ _ ⟨g2, (Samurai.mem_iff_rows (hw _ g2) _).2 ⟨e, he, e.2.start, Interval.mem_def.2 ⟨le_rfl, hv⟩, rfl⟩⟩

theorem AMRMeshOK.cells_all (h : AMRMeshOK n cfg c0 dom minL m u) {l : Nat} {p : List Int} (hp : m.cells.Mem n l p) : m.all.Mem n l p := by
  obtain ⟨m0, c1, c2, _, _, _, c6⟩ := h.content
  exact (c6 l _).2 (c1.cells_all ((c2 l _).1 hp))

theorem AMRMeshOK.around (h : AMRMeshOK n cfg c0 dom minL m u) {l : Nat} {c p : List Int} (hc : m.cells.Mem n l c) (hp : Near cfg.ghostWidth p c) :
    m.all.Mem n l p := by
  obtain ⟨m0, c1, c2, _, _, _, c6⟩ := h.content
  exact (c6 l _).2 ((c1.all l p).2 (Or.inl (Or.inl ⟨c, (c2 l c).1 hc, hp⟩)))

theorem AMRMeshOK.tagArray (h : AMRMeshOK n cfg c0 dom minL m u) (t : TagField) {l : Nat} {p : List Int} {v : Int} (hv : (l, p, v) ∈ m.cells.numbered n) :
    tagArray n m.all t v = t l p := by
  obtain ⟨yz, i, x, h1, h2, rfl, rfl⟩ := CA.mem_numbered.1 hv
  obtain ⟨h3, h4⟩ := CA.mem_rows.1 h1
  have hm : m.cells.Mem n l (yz ++ [x]) := CA.mem_of_numbered h.cellsWF hv
  have hidx := h.index m.cells (by simp) l yz x hm
  have hg : getIndex (m.cells.lca l) n yz x = some (i.index + x) := by
    unfold getIndex
    rw [getInterval_row (h.cellsWF l h3) h4 h2]
    rfl
  have hma := h.cells_all hm
  obtain ⟨v, g1, g2⟩ := C09_get_index n (m.all.lca l) (h.wf l hma.1) yz x hma.2
  rw [← hidx, hg] at g1
  obtain rfl := Option.some.inj g1
  have hin : (l, yz ++ [x], i.index + x) ∈ m.all.numbered n := by
    unfold CA.numbered
    exact List.mem_flatMap.2 ⟨l, List.mem_range.2 (by have := hma.1; omega), List.mem_map.2 ⟨_, g2, rfl⟩⟩
  have hnd : ((m.all.numbered n).map fun e => e.2.2).Nodup := by
    rw [h.numbers]
    refine (List.nodup_map_iff ?_).2 List.nodup_range
    intro a b hab
    simpa using hab
  unfold Samurai.tagArray
  cases hf : (m.all.numbered n).find? fun e => e.2.2 == i.index + x with
  | none =>
    rw [List.find?_eq_none] at hf
    exact absurd (by simp) (hf _ hin)
  | some e =>
    have he := List.find?_some hf
    have hem := List.mem_of_find?_eq_some hf
    have : e = (l, yz ++ [x], i.index + x) := List.inj_on_of_nodup_map hnd hem hin (by simpa using he)
    rw [this]

theorem AMRMeshOK.leafTag (h : AMRMeshOK n cfg c0 dom minL m u) (t : TagField) {l : Nat} {p : List Int} {v : BitVec 32} :
    LeafTag n m.cells (Samurai.tagArray n m.all t) l p v ↔ m.cells.Mem n l p ∧ t l p = v := by
  constructor
  · intro hv
    refine ⟨hv.mem h.cellsWF, ?_⟩
    obtain ⟨w, hw, rfl⟩ := hv
    rw [h.tagArray t hw]
  · rintro ⟨hm, rfl⟩
    obtain ⟨w, hw⟩ := CA.exists_number h.cellsWF hm
    exact ⟨w, hw, h.tagArray t hw⟩

theorem AMRMeshOK.below (h : AMRMeshOK n cfg c0 dom minL m u) (hw : c0.WF n) {D : Int} (hb : m.cells.Below n maxL D) (hm : m.cells.Between n minL maxL)
    : m.all.Below n maxL (D + ((cfg.ghostWidth : Int) + cfg.predictionOrder + 1) * 2 ^ maxL) := by
  obtain ⟨m0, c1, c2, _, _, _, c6⟩ := h.content
  have h0 := pow_two_pos maxL
  have nearB : ∀ l p, (∃ q, c0.Mem n l q ∧ Near cfg.ghostWidth p q) → ∀ x ∈ p, x * 2 ^ (maxL - l) < D + (cfg.ghostWidth : Int) * 2 ^ maxL := by
    rintro l p ⟨q, h1, h2⟩ x hx
    have h1 := (c2 l q).2 h1
    have h3 := near_below h2 (hb l q h1) x hx
    have h4 : (2 : Int) ^ (maxL - l) ≤ 2 ^ maxL := pow_mono_two (by omega)
    have h5 : (cfg.ghostWidth : Int) * 2 ^ (maxL - l) ≤ cfg.ghostWidth * 2 ^ maxL := Int.mul_le_mul_of_nonneg_left h4 (by omega)
    omega
  have e : ((cfg.ghostWidth : Int) + cfg.predictionOrder + 1) * 2 ^ maxL =
      cfg.ghostWidth * 2 ^ maxL + cfg.predictionOrder * 2 ^ maxL + 2 ^ maxL := by ring
  have p1 : (0 : Int) ≤ cfg.ghostWidth * 2 ^ maxL := by positivity
  have p2 : (0 : Int) ≤ cfg.predictionOrder * 2 ^ maxL := by positivity
  intro l p hp x hx
  rcases (c1.all l p).1 ((c6 l p).1 hp) with (k | ⟨q, k1, k2⟩) | k
  · have := nearB l p k x hx
    omega
  · have hl : l + 1 ≤ maxL := by
      obtain ⟨r, r1, _⟩ := k1.2.1
      exact (hm _ _ ((c2 _ _).2 r1)).2
    have h3 := up_below (k := 1) (nearB (l + 1) q k1.2.1)
    rw [show maxL - (l + 1) + 1 = maxL - l by omega] at h3
    have h5 := near_below k2 h3 x hx
    have h4 : (2 : Int) ^ (maxL - l) ≤ 2 ^ maxL := pow_mono_two (by omega)
    have h6 : (cfg.predictionOrder : Int) * 2 ^ (maxL - l) ≤ cfg.predictionOrder * 2 ^ maxL := Int.mul_le_mul_of_nonneg_left h4 (by omega)
    omega
  · have hmax : c0.maxLevel ≤ maxL := CA.maxLevel_le hw (fun l p hp => (hm l p ((c2 l p).2 hp)).2)
    have h3 := amrProj_below (fun l p hp => hb l p ((c2 l p).2 hp)) (fun l p hp => (hm l p ((c2 l p).2 hp)).2) hmax k x hx
    have h4 := pow_two_pos (maxL - l)
    have h5 : (x + 1) * 2 ^ (maxL - l) = x * 2 ^ (maxL - l) + 2 ^ (maxL - l) := by ring
    omega

theorem AMRMeshOK.room (h : AMRMeshOK n cfg c0 dom minL m u) (hno : m.cells.NoOverlap n) (h1 : 1 ≤ cfg.ghostWidth) (hg : gw ≤ cfg.ghostWidth) :
    AMRRoom n gw m.cells m.all :=
  ⟨h.wf, hno, fun _ _ _ hc hp => h.around hc (near_mono hg hp), fun _ _ _ hc hp => h.around hc (near_mono h1 hp)⟩

/-- What `update_field` gives on an AMR mesh. -/
theorem updateField_spec {tag : Int → BitVec 32} (hw : m.cells.WF n) (hl : m.cells.Leveled) (hsz : maxL ≤ m.cells.maxSize)
    (hb : m.cells.Between n minL maxL) (hmin : 1 ≤ minL) (hmm : minL ≤ maxL) (hdw : dom.WF n) (hdl : dom.level ≤ maxL) {D : Int} (d1 : 0 ≤ D)
    (d2 : D + ((cfg.ghostWidth : Int) + cfg.predictionOrder + 4) * 2 ^ maxL + 2 < INT_MAX) (d3 : m.cells.Below n maxL D) (d4 : dom.BelowAt n maxL D)
    (hno : m.cells.NoOverlap n) (hne : ∃ l p, m.cells.Mem n l p) (hts : TagsSet n m.cells tag) (f : CellField K) :
    ∃ b m' u' f', updateField n cfg minL maxL dom tag m u f = some (b, m', u', f') ∧ m'.cells.WF n ∧
      (∀ l p, m'.cells.Mem n l p ↔ ∃ l' q t, LeafTag n m.cells tag l' q t ∧ Becomes minL maxL t l' q l p) ∧
      ((m'.cells.NoOverlap n) → Transferred n cfg.predictionOrder m.cells m'.cells f f') ∧ (∃ l p, m'.cells.Mem n l p) ∧
      (b = true → m' = m ∧ u' = u ∧ f' = f) ∧
      ((m' = m ∧ u' = u) ∨ ∃ new, AMRMeshOK n cfg new dom minL m' u' ∧ new.WF n ∧ new.maxSize = m.cells.maxSize) := by
  obtain ⟨new, n1, n2, n3, n4, n5⟩ := updateLeaves_spec (minL := minL) (maxL := maxL) (tag := tag) hw hsz
  have hbt : new.Between n minL maxL := by
    intro l p hp
    obtain ⟨l', q, t, h1, h2⟩ := (n5 l p).1 hp
    exact becomes_level h2 (hb l' q (h1.mem hw))
  have hp0 := pow_two_pos maxL
  have hbl : new.Below n maxL (D + 2 ^ maxL) := by
    intro l p hp
    obtain ⟨l', q, t, h1, h2⟩ := (n5 l p).1 hp
    have h3 := h1.mem hw
    exact becomes_below h2 (hb l' q h3).2 (d3 l' q h3)
  have hnew : ∃ l p, new.Mem n l p := by
    obtain ⟨l, p, hp⟩ := hne
    obtain ⟨v, hv⟩ := CA.exists_number hw hp
    have hlt : LeafTag n m.cells tag l p (tag v) := ⟨v, hv, rfl⟩
    have keep : ∀ h : (AsksRefine (tag v) ∧ maxL ≤ l) ∨ AsksKeep (tag v) ∨ (AsksCoarsen (tag v) ∧ l ≤ minL), ∃ l p, new.Mem n l p :=
      fun h => ⟨l, p, (n5 l p).2 ⟨l, p, _, hlt, Or.inr (Or.inr ⟨h, rfl, rfl⟩)⟩⟩
    rcases hts l p _ hlt with h | h | h
    · by_cases hlm : l < maxL
      · obtain ⟨q, hq⟩ := anc_exists 1 p
        exact ⟨l + 1, q, (n5 _ _).2 ⟨l, p, _, hlt, Or.inl ⟨h, hlm, rfl, hq⟩⟩⟩
      · exact keep (Or.inl ⟨h, by omega⟩)
    · exact keep (Or.inr (Or.inl h))
    · by_cases hlm : minL < l
      · exact ⟨l - 1, parentOf p, (n5 _ _).2 ⟨l, p, _, hlt, Or.inr (Or.inl ⟨h, hlm, by omega, anc_one.2 rfl⟩)⟩⟩
      · exact keep (Or.inr (Or.inr ⟨h, by omega⟩))
  obtain ⟨m', u', r1, r2⟩ := amrMesh_spec (cfg := cfg) (dom := dom) n3 n4 hbt (by rw [n2]; exact hsz) (D := D + 2 ^ maxL) (by omega) (by linarith) hbl hdw hdl
    (fun p hp x hx => by have := d4 p hp x hx; omega) hnew (fun l p hp => by have := (hbt l p hp).1; omega)
  obtain ⟨m0, c1, c2, _⟩ := r2.content
  unfold updateField
  rw [n1]
  simp only []
  rw [r1]
  simp only []
  have s2 : maxL ≤ m'.cells.maxSize := by rw [r2.cellsLevels.1, n2]; exact hsz
  have heq : meshEq n minL maxL m.cells m'.cells = true → ∀ l p, m'.cells.Mem n l p ↔ m.cells.Mem n l p := by
    unfold meshEq
    rw [List.all_eq_true]
    intro he l p
    by_cases hl : minL ≤ l ∧ l ≤ maxL
    · have := (C07_sound n _ _ (he l (List.mem_range'_1.2 (by omega)))).2 p
      unfold CA.Mem
      rw [this]
      constructor <;> rintro ⟨_, k⟩ <;> exact ⟨by omega, k⟩
    · constructor
      · intro hp; exact absurd (hbt l p ((c2 l p).1 hp)) hl
      · intro hp; exact absurd (hb l p hp) hl
  by_cases he : meshEq n minL maxL m.cells m'.cells = true
  · rw [if_pos he]
    refine ⟨true, m, u, f, rfl, hw, fun l p => ?_, fun _ => ⟨fun _ _ _ _ => rfl, fun l p q h1 h2 h3 => ?_, fun l p q h1 h2 h3 => ?_⟩, hne,
      fun _ => ⟨rfl, rfl, rfl⟩, Or.inl ⟨rfl, rfl⟩⟩
    · rw [← n5, ← c2, heq he]
    · have := (hno l p (l + 1) q h1 h2 (by omega) (by rwa [show l + 1 - l = 1 by omega])).1
      omega
    · have := (hno l p (l + 1) q h1 h2 (by omega) (by rwa [show l + 1 - l = 1 by omega])).1
      omega
  · rw [if_neg he]
    have hbl' : m'.cells.Below n maxL (D + 2 ^ maxL) := fun l p hp => hbl l p ((c2 l p).1 hp)
    have hbl0 : m.cells.Below n maxL (D + 2 ^ maxL) := fun l p hp x hx => by
      have := d3 l p hp x hx
      omega
    have hfit : D + 2 ^ maxL + 2 * 2 ^ maxL + 2 < INT_MAX := by
      have : (0 : Int) ≤ ((cfg.ghostWidth : Int) + cfg.predictionOrder) * 2 ^ maxL := by positivity
      linarith
    obtain ⟨f', g1, g2⟩ := updateFields_spec (order := cfg.predictionOrder) (minL := minL) hw r2.cellsWF hl r2.cellsLevels.2
      hsz s2 (by omega) hfit hbl0 hbl' hmm f
    rw [g1]
    have hbt' : m'.cells.Between n minL maxL := fun l p hp => hbt l p ((c2 l p).1 hp)
    refine ⟨false, m', u', f', rfl, r2.cellsWF, fun l p => ?_, fun hno' => ?_, ?_, by simp, Or.inr ⟨new, r2, n3, n2⟩⟩
    · rw [← n5, ← c2]
    · have noCoarse : ∀ l p, m.cells.Mem n l p → ¬ GotCoarse n m.cells m'.cells l p := by
        rintro l p hp ⟨_, q, hq, ha⟩
        have := (hno l p (l + 1) q hp hq (by omega) (by rwa [show l + 1 - l = 1 by omega])).1
        omega
      have noFine : ∀ l p, m.cells.Mem n l p → ¬ GotFine n m.cells m'.cells l p := by
        rintro l p hp ⟨h1, h2, _⟩
        have := (hno (l - 1) _ l p h2 hp (by omega) (by rw [show l - (l - 1) = 1 by omega]; exact anc_iff.2 rfl)).1
        omega
      refine ⟨fun l p h1 h2 => ?_, fun l p q h1 h2 h3 => ?_, fun l p q h1 h2 h3 => ?_⟩
      · rw [g2 l p (hbt' l p h2).1 (hbt' l p h2).2, if_neg (fun k => noCoarse l p h1 k.2), if_neg (fun k => noFine l p h1 k.2),
          if_pos ⟨h1, h2⟩]
      · have k1 := hbt' l p h1
        have k2 := hb (l + 1) q h2
        rw [g2 l p k1.1 k1.2, if_pos ⟨by omega, h1, q, h2, h3⟩]
      · have k1 := hbt' (l + 1) q h2
        have k2 := hb l p h1
        have hpar : (q.map fun y => shr y 1) = p := (anc_iff.1 h3).symm
        rw [g2 (l + 1) q k1.1 k1.2, if_neg, if_pos]
        · rfl
        · refine ⟨by omega, by omega, ?_, q, h2, ?_⟩
          · rw [hpar]; exact h1
          · rw [hpar]; exact h3
        · rintro ⟨_, _, q', hq', ha'⟩
          have h4 : Anc 2 p q' := anc_trans h3 ha'
          have := (hno l p (l + 1 + 1) q' h1 hq' (by omega) (by rwa [show l + 1 + 1 - l = 2 by omega])).1
          omega
    · obtain ⟨l, p, hp⟩ := hnew
      exact ⟨l, p, (c2 l p).2 hp⟩

end Samurai

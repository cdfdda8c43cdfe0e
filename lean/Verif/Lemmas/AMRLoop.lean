import Verif.Spec.AMRLoop
import Verif.Props.AMRGhost
import Verif.Props.AMRAdapt
import Verif.Lemmas.DetailStep

namespace Samurai

section
variable {n : Nat} {cfg : MeshConfig} {c0 : CA} {dom : LCA} {minL maxL : Nat} {m : AMRMeshes} {x : CA}

theorem empty_iff {c : CA} (hw : c.WF n) {l : Nat} (hl : l ≤ c.maxSize) : (c.lca l).isEmpty = true ↔ ∀ p, ¬ c.Mem n l p := by
  constructor
  · intro he p hp
    obtain ⟨e, h, _⟩ := (mem_iff_rows (hw l hl) p).1 hp.2
    rw [(rows_eq_nil_iff (hw l hl)).2 he] at h
    simp at h
  · intro h
    by_contra he
    obtain ⟨p, hp⟩ := CA.some_mem hw hl (by simpa using he)
    exact h p hp

theorem levels_congr {a b : CA} (ha : a.WF n) (hb : b.WF n) (hs : a.maxSize = b.maxSize) (h : ∀ l p, a.Mem n l p ↔ b.Mem n l p) :
    a.minLevel = b.minLevel ∧ a.maxLevel = b.maxLevel := by
  have he : ∀ l ≤ a.maxSize, (!(a.lca l).isEmpty) = (!(b.lca l).isEmpty) := by
    intro l hl
    congr 1
    rw [Bool.eq_iff_iff, empty_iff ha hl, empty_iff hb (by omega)]
    simp only [h]
  have hf : ∀ L : List Nat, (∀ l ∈ L, l ≤ a.maxSize) → (L.find? fun l => !(a.lca l).isEmpty) = L.find? fun l => !(b.lca l).isEmpty := by
    intro L
    induction L with
    | nil => exact fun _ => rfl
    | cons l L ih =>
      intro hL
      rw [List.find?_cons, List.find?_cons, he l (hL l List.mem_cons_self), ih fun l' h' => hL l' (List.mem_cons_of_mem _ h')]
  constructor
  · unfold CA.minLevel
    rw [← hs, hf _ fun l hl => by have := List.mem_range.1 hl; omega]
  · unfold CA.maxLevel
    rw [← hs, hf _ fun l hl => by have := List.mem_range.1 (List.mem_reverse.1 hl); omega]

theorem amrProj_congr {a b : CA} (hl : a.minLevel = b.minLevel ∧ a.maxLevel = b.maxLevel) (h : ∀ l p, a.Mem n l p ↔ b.Mem n l p) :
    ∀ l p, AMRProj n cfg a l p ↔ AMRProj n cfg b l p
  | 0, _ => Iff.rfl
  | l + 1, p => by
    unfold AMRProj
    simp only [h, coveredBy_congr h, amrProj_congr hl h l, hl.1, hl.2]

theorem amrPred_congr {a b : CA} (hl : a.minLevel = b.minLevel ∧ a.maxLevel = b.maxLevel) (h : ∀ l p, a.Mem n l p ↔ b.Mem n l p) (l : Nat) (p : List Int) :
    AMRPred n cfg a dom l p ↔ AMRPred n cfg b dom l p := by
  unfold AMRPred
  simp only [h, coveredBy_congr h, hl.1]

theorem amrGhost_congr {a b : CA} (hl : a.minLevel = b.minLevel ∧ a.maxLevel = b.maxLevel) (h : ∀ l p, a.Mem n l p ↔ b.Mem n l p) (l : Nat) (p : List Int) :
    AMRGhost n cfg a dom l p ↔ AMRGhost n cfg b dom l p := by
  unfold AMRGhost
  simp only [h, amrPred_congr hl h]

/-- The mesh is the one of its own leaves. -/
theorem AMRMeshOK.self (h : AMRMeshOK n cfg c0 dom minL m x) (hw : c0.WF n) : AMRMeshOK n cfg m.cells dom minL m x := by
  obtain ⟨m0, c1, c2, c3, c4, c5, c6⟩ := h.content
  have hs := h.cellsLevels.1
  have hl := levels_congr h.cellsWF hw hs c2
  refine ⟨⟨h.union.size.trans hs.symm, h.union.wf, h.union.leveled, fun l p => ?_⟩, ⟨{ m0 with cells := m.cells }, ?_, fun _ _ => Iff.rfl, c3, c4, c5, c6⟩,
    h.wf, ⟨h.allLevels.1.trans hs.symm, h.allLevels.2⟩, h.cellsWF, ⟨rfl, h.cellsLevels.2⟩, h.projWF, ⟨h.projLevels.1.trans hs.symm, h.projLevels.2⟩,
    h.predWF, ⟨h.predLevels.1.trans hs.symm, h.predLevels.2⟩, h.numbers, h.index⟩
  · rw [h.union.mem, coveredBy_congr c2]
  · refine ⟨rfl, ?_, c1.leveled, ?_, c1.wf, fun l p => ?_, fun l p => ?_, fun l p => ?_, fun l p => ?_⟩
    · rw [hs]; exact c1.size
    · rw [hs]; exact c1.subLevels
    · show m0.ghosts.Mem n l p ↔ _
      rw [c1.ghosts, amrGhost_congr hl c2]
    · show m0.proj.Mem n l p ↔ _
      rw [c1.proj, amrProj_congr hl c2]
    · show m0.pred.Mem n l p ↔ _
      rw [c1.pred, amrPred_congr hl c2]
    · show m0.all.Mem n l p ↔ _
      rw [c1.all, amrGhost_congr hl c2, amrProj_congr hl c2]

variable {K : Type} [Field K] [LinearOrder K] [IsStrictOrderedRing K]

/-- The array of a field has its values. -/
theorem amrArray_numOf (h : AMRMeshOK n cfg c0 dom minL m x) (f : CellField K) {l : Nat} {p : List Int} (hp : m.all.Mem n l p) :
    fieldArray n m.all f (numOf n m.all l p) = f l p := by
  have hin := numOf_numbered h.wf hp
  have hnd : ((m.all.numbered n).map fun e => e.2.2).Nodup := by
    rw [h.numbers]
    refine (List.nodup_map_iff ?_).2 List.nodup_range
    intro a b hab
    simpa using hab
  unfold fieldArray
  cases hf : (m.all.numbered n).find? fun e => e.2.2 == numOf n m.all l p with
  | none =>
    rw [List.find?_eq_none] at hf
    exact absurd (by simp) (hf _ hin)
  | some e =>
    have he := List.find?_some hf
    have hem := List.mem_of_find?_eq_some hf
    have : e = (l, p, numOf n m.all l p) := List.inj_on_of_nodup_map hnd hem hin (by simpa using he)
    rw [this]

theorem AMRLeaves.tiling {near : List Int → List Int → Prop} {cells : CA} (g : AMRLeaves n near cells dom minL maxL) : TilingLeaves n cells dom minL maxL :=
  ⟨g.wf, g.leveled, g.size, g.between, g.noOverlap, g.tiles⟩

/-- `update_ghost` on the mesh of any turn: it succeeds and keeps the values of the leaves. -/
theorem amrGhostArray_ok (hn : n ≤ 2) {near : List Int → List Int → Prop} {b : Box} (h : AMRInv n cfg near dom minL maxL m x) (hmin : 1 ≤ minL)
    (hd : BoxDomain n dom 0 b) (hdl : dom.level = maxL)
    (hB : ∃ B : Int, 0 ≤ B ∧ B + (2 * cfg.ghostWidth + 9) * 2 ^ maxL + 2 < INT_MAX ∧ ∀ d ≤ n, b.hi d * 2 ^ maxL ≤ B)
    (h0 : K) (bcs : List (BcCond K)) (hbc : ∀ c ∈ bcs, GoodBc n dom cfg.ghostWidth c) (f : CellField K) :
    ∃ u, amrGhostArray n cfg minL maxL dom h0 bcs m f = some u ∧ ∀ l p, m.cells.Mem n l p → fieldAt n m.all u l p = f l p := by
  obtain ⟨c0, hc, hw⟩ := h.mesh
  have r2 := hc.self hw
  obtain ⟨B, hB0, hB1, hB2⟩ := hB
  obtain ⟨u, e1, -, e3, -⟩ := amr_ghosts_tiling hn cfg m.cells dom minL maxL b h.leaves.tiling hmin hd hdl hB0 hB1 hB2 h0 r2 bcs hbc (fieldArray n m.all f)
  refine ⟨u, e1, fun l p hp => ?_⟩
  obtain ⟨m0, c1, c2, c3, c4, c5, c6⟩ := r2.content
  have hm : m.all.Mem n l p := (c6 l p).2 ((c1.all l p).2 (.inl (.inl ⟨p, hp, near_refl _ _⟩)))
  rw [fieldAt_eq, e3 l p _ hp (numOf_numbered r2.wf hm), amrArray_numOf hc f hm]

end

end Samurai

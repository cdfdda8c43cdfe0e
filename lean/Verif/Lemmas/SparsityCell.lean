import Verif.Lemmas.SparsityWithin
import Verif.Props.Arrays

/-! The places of a cell-based scheme. -/

namespace Samurai

section
variable {K : Type} [Field K] [DecidableEq K] {n : Nat} {L : MatLayout} {m p : Nat} {cells ref : CA} {dom sub : LCA} {minL maxL w : Nat}

theorem subperm_map {α β : Type} (f : α → β) {l l' : List α} (h : l.Subperm l') : (l.map f).Subperm (l'.map f) := by
  obtain ⟨t, h1, h2⟩ := h
  exact ⟨t.map f, h1.map f, h2.map f⟩

/-- The place is one of a cell-based scheme. -/
def CellPlace (n : Nat) (L : MatLayout) (cells ref : CA) (S : List (Nat → Int)) (e : Int × Int) : Prop :=
  ∃ i < L.outSize, ∃ j < L.inSize, ∃ l q k, (l, q, k) ∈ cells.numbered n ∧ ∃ s ∈ S, ∃ x, CellIs n ref l (shiftPoint s n q) x ∧ e = (L.row k i, L.col x.index j)

theorem CellPlace.mono {S S' : List (Nat → Int)} (hS : ∀ s ∈ S', ∃ t ∈ S, ∀ k ≤ n, s k = t k) {e : Int × Int} (h : CellPlace n L cells ref S' e) : CellPlace n L cells ref S e := by
  obtain ⟨i, hi, j, hj, l, q, k, hk, s, hs, x, hx, he⟩ := h
  obtain ⟨t, ht, hst⟩ := hS s hs
  rw [shift_congr q n hst] at hx
  exact ⟨i, hi, j, hj, l, q, k, hk, t, ht, x, hx, he⟩

theorem CellPlace.row {S : List (Nat → Int)} {e : Int × Int} (h : CellPlace n L cells ref S e) : ∃ k, LeafNum n cells k ∧ ∃ i < L.outSize, e.1 = L.row k i := by
  obtain ⟨i, hi, j, hj, l, q, k, hk, s, hs, x, hx, rfl⟩ := h
  exact ⟨k, ⟨l, q, hk⟩, i, hi, rfl⟩

/-- The count of a row: all the stencil. -/
theorem cellRowNnz_full {start size : Nat} {cd : CellDef K (Fin m → K) (Fin p → K)} (hm : L.inSize = m) (hfull : PatOp.Full L.soa ⟨.cell cd, start, size⟩) (i : Fin p) :
    cellRowNnz L start size cd i = cd.stencil.length * L.inSize := by
  unfold cellRowNnz
  cases hs : L.soa with
  | false => rfl
  | true =>
    rw [if_pos rfl]
    rcases hfull with h | ⟨h1, h2⟩
    · rw [hs] at h; simp at h
    · have h1 : start + size ≤ cd.stencil.length := h1
      simp only []
      have : ∀ j : Fin m, ((List.range start).filter fun c => coeffAt (cd.coeffs (cellLength 1 0)) c i j ≠ 0).length +
          (if (List.range size).any fun c => coeffAt (cd.coeffs (cellLength 1 0)) c i j ≠ 0 then size else 0) +
          ((List.range' (start + size) (cd.stencil.length - (start + size))).filter fun c => coeffAt (cd.coeffs (cellLength 1 0)) c i j ≠ 0).length = cd.stencil.length := by
        intro j
        rw [List.filter_eq_self.2, List.filter_eq_self.2, List.length_range, List.length_range']
        · have : (if ((List.range size).any fun c => decide (coeffAt (cd.coeffs (cellLength 1 0)) c i j ≠ 0)) = true then size else 0) = size := by
            by_cases hz : size = 0
            · simp [hz]
            · rw [if_pos]
              refine List.any_eq_true.2 ⟨0, List.mem_range.2 (by omega), ?_⟩
              simpa using h2 0 (by show 0 < cd.stencil.length; omega) i j
          rw [this]
          omega
        · intro c hc
          rw [List.mem_range'_1] at hc
          simpa using h2 c (by show c < cd.stencil.length; omega) i j
        · intro c hc
          rw [List.mem_range] at hc
          simpa using h2 c (by show c < cd.stencil.length; omega) i j
      rw [List.map_congr_left fun j _ => this j, List.map_const', List.sum_replicate, List.length_finRange, hm, smul_eq_mul, mul_comm]

/-- All the places of a cell-based scheme are counted. -/
theorem cellPattern_spec (g : FVMesh n cells ref dom minL maxL w) (hN : FVNumbers n cells ref) (hm : L.inSize = m) (hp : L.outSize = p) {start size : Nat}
    {cd : CellDef K (Fin m → K) (Fin p → K)} (hS : CellStencilOK n w cd.stencil cd.center) (hfull : PatOp.Full L.soa ⟨.cell cd, start, size⟩) :
    ∃ P Q, cellPattern n L cells start size cd = some P ∧ Counts P Q ∧ ∀ e, CellPlace n L cells ref cd.stencil e → e ∈ Q := by
  obtain ⟨ps, l, h1, h2, h3, h4⟩ := g.cellCalls hN (0 : K) hS
  have hne : cd.stencil.length ≠ 0 := by
    obtain ⟨s, hs, -⟩ := hS.centre
    have := List.mem_of_getElem? hs
    intro h
    rw [List.length_eq_zero_iff.1 h] at this
    simp at this
  refine ⟨(List.finRange p).flatMap fun (i : Fin p) => (cells.numbered n).map fun e => (L.row e.2.2 i, cellRowNnz L start size cd i),
    (List.finRange p).flatMap fun (i : Fin p) => l.flatMap fun c => (c.1.flatMap fun x => (List.range L.inSize).map fun j => (x, j)).map fun y =>
      (L.row (cellAt c.1 cd.center).index i, L.col y.1.index y.2), ?_, Counts.flatMap fun i _ => ?_, ?_⟩
  · unfold cellPattern
    rw [if_neg hne, C10_for_each_cell_levels n cells g.leaves.wf]
    rfl
  · rw [cellRowNnz_full hm hfull]
    have hps : ps.Subperm (cells.numbered n) := List.subperm_of_subset (List.Nodup.of_map _ h3) fun e he => (h4 e).1 he
    refine Counts.perm ?_ (subperm_map (fun e : Nat × List Int × Int => (L.row e.2.2 (i : Nat), cd.stencil.length * L.inSize)) hps)
    clear hps h1 h3 h4
    induction h2 with
    | nil => exact Counts.nil
    | @cons e c ps l he _ ih =>
      rw [List.flatMap_cons, List.map_cons]
      refine Counts.append (P := [_]) ?_ ih
      rw [he.2.2.1]
      refine row_counts (α := MCell × Nat) _ (fun y => L.col y.1.index y.2) _ _ (le_of_eq ?_)
      rw [List.length_flatMap, List.map_congr_left (g := fun _ => L.inSize) fun x _ => by simp, List.map_const', List.sum_replicate, ← he.2.2.2.length_eq, smul_eq_mul]
  · rintro e ⟨i, hi, j, hj, lv, q, k, hk, s, hs, x, hx, rfl⟩
    obtain ⟨c, hc, he⟩ := forall₂_left h2 ((h4 _).2 hk)
    obtain ⟨x', hx', hxe⟩ := forall₂_left he.2.2.2 hs
    rw [cellIs_unique g.refWF hxe hx] at hx'
    refine List.mem_flatMap.2 ⟨⟨i, by omega⟩, List.mem_finRange _, List.mem_flatMap.2 ⟨c, hc, List.mem_map.2 ⟨(x, j), List.mem_flatMap.2 ⟨x, hx', List.mem_map.2 ⟨j, List.mem_range.2 hj, rfl⟩⟩, ?_⟩⟩⟩
    rw [he.2.2.1]

/-- The calls that write in the matrix write at the places of the scheme. -/
theorem cellPlaces_mem {c : List MCell × List ((Fin m → K) →ₗ[K] (Fin p → K))} {start size center : Nat} (h : start + size ≤ c.1.length) {e : Int × Int}
    (he : e ∈ cellPlaces L start size center c) : ∃ (i : Fin p) (j : Fin m), ∃ x ∈ c.1, e = (L.row (cellAt c.1 center).index i, L.col x.index j) := by
  have hat : ∀ k, k < c.1.length → cellAt c.1 k ∈ c.1 := by
    intro k hk
    unfold cellAt
    rw [List.getD_eq_getElem?_getD, List.getElem?_eq_getElem hk, Option.getD_some]
    exact List.getElem_mem hk
  unfold cellPlaces at he
  split at he
  · obtain ⟨i, -, he⟩ := List.mem_flatMap.1 he
    obtain ⟨j, -, he⟩ := List.mem_flatMap.1 he
    obtain ⟨k, hk, rfl⟩ := List.mem_map.1 he
    refine ⟨i, j, _, hat k ?_, rfl⟩
    simp only [List.mem_append, List.mem_filter, List.mem_range, List.mem_range'_1] at hk
    omega
  · obtain ⟨k, hk, he⟩ := List.mem_flatMap.1 he
    obtain ⟨i, -, he⟩ := List.mem_flatMap.1 he
    obtain ⟨j, -, rfl⟩ := List.mem_map.1 he
    exact ⟨i, j, _, hat k (List.mem_range.1 hk), rfl⟩

theorem cellCalls_places (g : FVMesh n cells ref dom minL maxL w) (hN : FVNumbers n cells ref) (hm : L.inSize = m) (hp : L.outSize = p) {start size : Nat} (h0 : K)
    {cd : CellDef K (Fin m → K) (Fin p → K)} (hS : CellStencilOK n w cd.stencil cd.center) (hin : start + size ≤ cd.stencil.length) :
    ∃ l, Samurai.cellCalls n h0 ref cells cd = some l ∧ ∀ e ∈ l.flatMap (cellPlaces L start size cd.center), CellPlace n L cells ref cd.stencil e := by
  obtain ⟨ps, l, h1, h2, h3, h4⟩ := g.cellCalls hN h0 hS
  refine ⟨l, h1, fun e he => ?_⟩
  obtain ⟨c, hc, he⟩ := List.mem_flatMap.1 he
  obtain ⟨a, ha, k1, k2, k3, k4⟩ := forall₂_mem h2 hc
  obtain ⟨i, j, x, hx, rfl⟩ := cellPlaces_mem (by rw [← k4.length_eq]; exact hin) he
  obtain ⟨s, hs, hxs⟩ := forall₂_mem k4 hx
  exact ⟨i, by rw [hp]; exact i.2, j, by rw [hm]; exact j.2, a.1, a.2.1, a.2.2, k1, s, hs, x, hxs, by rw [k3]⟩

/-- A coefficient that is not 0 is written. -/
theorem cellEntries_place {c : List MCell × List ((Fin m → K) →ₗ[K] (Fin p → K))} {start size center : Nat} {e : MatEntry K} (he : e ∈ cellEntries L center c) (hv : e.2.2 ≠ 0) :
    (e.1, e.2.1) ∈ cellPlaces L start size center c := by
  unfold cellEntries at he
  obtain ⟨i, -, he⟩ := List.mem_flatMap.1 he
  obtain ⟨j, -, he⟩ := List.mem_flatMap.1 he
  obtain ⟨⟨a, x⟩, hax, rfl⟩ := List.mem_map.1 he
  obtain ⟨k, hk, hka⟩ := List.mem_iff_getElem.1 hax
  have hk1 : k < c.1.length := by rw [List.length_zip] at hk; omega
  have hk2 : k < c.2.length := by rw [List.length_zip] at hk; omega
  rw [List.getElem_zip] at hka
  injection hka with ha hx
  have hx' : cellAt c.1 k = x := by unfold cellAt; rw [List.getD_eq_getElem?_getD, List.getElem?_eq_getElem hk1, Option.getD_some]; exact hx
  have ha' : coeffAt c.2 k i j ≠ 0 := by unfold coeffAt; rw [List.getD_eq_getElem?_getD, List.getElem?_eq_getElem hk2, Option.getD_some, ha]; exact hv
  unfold cellPlaces
  split
  · refine List.mem_flatMap.2 ⟨i, List.mem_finRange _, List.mem_flatMap.2 ⟨j, List.mem_finRange _, List.mem_map.2 ⟨k, ?_, by simp only [hx']⟩⟩⟩
    simp only [List.mem_append, List.mem_filter, List.mem_range, List.mem_range'_1, decide_eq_true_eq]
    by_cases h1 : k < start
    · exact Or.inl (Or.inl ⟨h1, Or.inl ha'⟩)
    · by_cases h2 : k < start + size
      · exact Or.inl (Or.inr ⟨by omega, h2⟩)
      · exact Or.inr ⟨by omega, Or.inl ha'⟩
  · refine List.mem_flatMap.2 ⟨k, List.mem_range.2 hk1, List.mem_flatMap.2 ⟨i, List.mem_finRange _, List.mem_map.2 ⟨j, List.mem_finRange _, by simp only [hx']⟩⟩⟩

end

end Samurai

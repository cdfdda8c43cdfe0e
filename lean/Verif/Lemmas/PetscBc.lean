import Verif.Model.PetscSystem
import Verif.Lemmas.BcDir
import Verif.Lemmas.BcAdapted
import Verif.Lemmas.GhostElim
import Verif.Props.Stencil

/-! The boundary conditions of the implicit schemes. -/

namespace Samurai

/-! ### the stencil of a direction -/

theorem numberOfOne_iff {n : Nat} {dir : Nat → Int} : numberOfOne n dir = 1 ↔ UnitVector n dir ∧ OneAxis n dir := by
  rw [← isCartesian_iff]
  unfold numberOfOne isCartesian
  rw [beq_iff_eq]

theorem bdryStencil_spec {n : Nat} (hn : n ≤ 2) {dir : Nat → Int} (hu : UnitVector n dir) (h1 : OneAxis n dir) :
    ∃ s0 s1 s2 : Nat → Int, bdryStencil n dir = some [s0, s1, s2] ∧ ∀ k ≤ n, s0 k = 0 ∧ s1 k = - dir k ∧ s2 k = dir k := by
  obtain ⟨D, S, c1, c2, c3⟩ := C52_directional n 1 hn le_rfl (by omega)
  obtain ⟨-, S', e1, -, e2⟩ := C52_directions n hn
  rw [c1] at e1
  cases e1
  obtain ⟨d, hd, hne, hz⟩ := h1
  obtain ⟨v, hv, hvd⟩ : ∃ v ∈ D, ∀ k ≤ n, dir k = v k := by
    rcases hu.1 d hd with h | h | h
    · refine ⟨axis d (-1), c2.mem_iff.2 ((e2 _).2 ⟨d, hd, Or.inr rfl⟩), fun k hk => ?_⟩
      unfold axis
      by_cases hkd : k = d
      · simp [hkd, h]
      · simp [hkd, hz k hk hkd]
    · exact absurd h hne
    · refine ⟨axis d 1, c2.mem_iff.2 ((e2 _).2 ⟨d, hd, Or.inl rfl⟩), fun k hk => ?_⟩
      unfold axis
      by_cases hkd : k = d
      · simp [hkd, h]
      · simp [hkd, hz k hk hkd]
  unfold bdryStencil
  rw [c3]
  simp only [List.filterMap_map]
  have : (List.filterMap (id ∘ fun dir : Nat → Int => some (dir, (fun _ => (0 : Int)) :: ((List.range 1).map fun i : Nat => fun k => - ((i : Int) + 1) * dir k) ++
        ((List.range 1).map fun i : Nat => fun k => ((i : Int) + 1) * dir k))) D) = D.map fun dir => (dir, (fun _ => (0 : Int)) :: ((List.range 1).map fun i : Nat => fun k => - ((i : Int) + 1) * dir k) ++
        ((List.range 1).map fun i : Nat => fun k => ((i : Int) + 1) * dir k)) := by
    rw [← List.filterMap_eq_map]
    rfl
  rw [this]
  obtain ⟨x, hx⟩ : ∃ x, (D.map fun dir => (dir, (fun _ => (0 : Int)) :: ((List.range 1).map fun i : Nat => fun k => - ((i : Int) + 1) * dir k) ++
        ((List.range 1).map fun i : Nat => fun k => ((i : Int) + 1) * dir k))).find? (fun e => (List.range (n + 1)).all fun k => dir k == e.1 k) = some x := by
    rw [← Option.isSome_iff_exists, List.find?_isSome]
    refine ⟨_, List.mem_map.2 ⟨v, hv, rfl⟩, ?_⟩
    rw [List.all_eq_true]
    intro k hk
    rw [beq_iff_eq]
    exact hvd k (by have := List.mem_range.1 hk; omega)
  rw [hx]
  obtain ⟨v', -, rfl⟩ := List.mem_map.1 (List.mem_of_find?_eq_some hx)
  have h3 := List.find?_some hx
  rw [List.all_eq_true] at h3
  refine ⟨_, _, _, rfl, fun k hk => ?_⟩
  have := h3 k (List.mem_range.2 (by omega))
  rw [beq_iff_eq] at this
  simp only [Nat.cast_zero, zero_add, one_mul]
  exact ⟨trivial, by rw [this]; ring, this.symm⟩

/-! ### the calls -/

section
variable {n : Nat} {cells ref : CA} {dom : LCA} {minL maxL w : Nat}

/-- The cells of the stencil of the boundary cell `p`. -/
def bcCells (n : Nat) (ref : CA) (level : Nat) (dir : Nat → Int) (p : List Int) : List MCell :=
  [mcell n ref level p, mcell n ref level (walk n p (-1) dir), mcell n ref level (walk n p 1 dir)]

theorem FVMesh.bcStencils (g : FVMesh n cells ref dom minL maxL w) (hw1 : 1 ≤ w) (hdl : dom.level = maxL) {dir : Nat → Int} {L : LCA} (hu : UnitVector n dir)
    (hL : BdryRegion n dom dir L) {s0 s1 s2 : Nat → Int} (hS : ∀ k ≤ n, s0 k = 0 ∧ s1 k = - dir k ∧ s2 k = dir k) {level : Nat} (hl : level ≤ maxL) :
    ∃ ls, stencilsOf n ref [s0, s1, s2] (.op .inter (.leaf (.mesh (cells.lca level))) (.leaf (.mesh L))) level = some ls ∧
      ∀ cs, cs ∈ ls ↔ ∃ p, cells.Mem n level p ∧ RegionAt n L level p ∧ cs = bcCells n ref level dir p := by
  obtain ⟨D, d1, d2, d3⟩ := g.domain.range
  have hs := g.leaves.size
  have hb := g.leaves.below d3
  have hp := pow_two_pos maxL
  have hlv := g.leaves.leveled level (by omega)
  have hLl : L.level = maxL := by rw [hL.level, hdl]
  have ha : (Expr.op .inter (.leaf (.mesh (cells.lca level))) (.leaf (.mesh L))).Admissible n := by
    refine usableT_admissible (M := maxL) (g := 0) (D := D) d1 ?_ ⟨⟨_, fun _ => 0, Or.inl rfl, g.leaves.wf level (by omega), by rw [hlv]; exact hl, fun p hp x hx => ?_⟩,
      ⟨_, fun _ => 0, Or.inl rfl, hL.wf, by omega, fun p hp x hx => ?_⟩⟩
    · have : (2 : Int) * 2 ^ maxL ≤ ((w + 3 : Nat) : Int) * 2 ^ maxL := Int.mul_le_mul_of_nonneg_right (by push_cast; omega) (le_of_lt hp)
      push_cast at this d2 ⊢
      omega
    · rw [hlv]
      exact hb level p ⟨by omega, hp⟩ x hx
    · rw [hLl, Nat.sub_self, pow_zero, mul_one]
      exact d3 p ⟨p, (hL.cells p hp).1, by rw [hdl, Nat.sub_self]; exact anc_zero.2 rfl⟩ x hx
  have hf : (Expr.op .inter (.leaf (.mesh (cells.lca level))) (.leaf (.mesh L))).finest = maxL := by
    show Nat.max (cells.lca level).level L.level = maxL
    rw [hlv, hLl]
    exact Nat.max_eq_right hl
  obtain ⟨calls, c1, c2, c3, c4⟩ := runSet_canon ha (ref := level) (by rw [hf]; exact hl)
  have hmem : ∀ p, p ∈ callCells calls ↔ cells.Mem n level p ∧ RegionAt n L level p := by
    intro p
    rw [mem_callCells, c4]
    show AtLevel (cells.lca level).level level ((cells.lca level).Mem n) p ∧ AtLevel L.level level (L.Mem n) p ↔ _
    rw [hlv, atLevel_same, atLevel_desc (by omega), g.mem_lca hl]
    exact Iff.rfl
  obtain ⟨fs, f1, f2⟩ := facesOf_spec (row := stencilRow n ref [s0, s1, s2] level) (R := CellsOf n ref level [s0, s1, s2]) (calls := calls) (by
    intro c hc
    have hlen := c3 c hc
    obtain ⟨hlt, _⟩ := c2.2 c hc
    have hleaf : ∀ x ∈ c.2, cells.Mem n level (c.1 ++ [x]) := fun x hx => ((hmem _).1 (mem_callCells.2 ⟨c, hc, x, hx, rfl⟩)).1
    have hw := (g.ref_level (hleaf c.2.start (Interval.mem_def.2 ⟨le_rfl, hlt⟩))).2
    obtain ⟨l, l1, l2⟩ := stencilInit_spec (S := [s0, s1, s2]) hw hlen hlt
      (g.avail (b := fun _ => 0) hlen (by simpa only [shift_zero] using hleaf) (fun k _ => by constructor <;> omega) (fun s hs k hk => by
        obtain ⟨a0, a1, a2⟩ := hS k hk
        have hb := hu.1 k hk
        simp only [List.mem_cons, List.not_mem_nil, or_false] at hs
        rcases hs with rfl | rfl | rfl
        · rw [a0]; constructor <;> omega
        · rw [a1]; constructor <;> omega
        · rw [a2]; constructor <;> omega)) ⟨s0, List.mem_cons_self, fun k hk => (hS k hk).1⟩
    refine ⟨_, by unfold stencilRow; rw [l1]; rfl, ?_⟩
    have hs := slide_of (next := stencilNext) (fun i => l.map fun m => m.at i) (fun i => stencilNext_at l i) c.2.size
    simp only [map_at_zero] at hs
    rw [hs, rowCells_eq]
    apply forall₂_range
    intro i hi
    exact slides_cells hlen l2 hi)
  refine ⟨fs, by unfold stencilsOf; rw [c1]; exact f1, fun cs => ?_⟩
  have key : ∀ p ∈ callCells calls, ∀ cs, CellsOf n ref level [s0, s1, s2] p cs → cs = bcCells n ref level dir p := by
    intro p hp cs h
    have hw := (g.ref_level ((hmem p).1 hp).1).2
    unfold CellsOf at h
    cases h with
    | @cons _ a _ _ ha h =>
    cases h with
    | @cons _ b _ _ hb h =>
    cases h with
    | @cons _ c _ _ hc h =>
    cases h
    unfold bcCells walk
    rw [cellNum_eq hw ha, cellNum_eq hw hb, cellNum_eq hw hc, shift_congr (s := s0) (t := fun _ => 0) _ _ (fun k hk => (hS k hk).1), shift_zero,
      shift_congr (s := s1) (t := fun d => -1 * dir d) _ _ (fun k hk => by rw [(hS k hk).2.1]; ring),
      shift_congr (s := s2) (t := fun d => 1 * dir d) _ _ (fun k hk => by rw [(hS k hk).2.2]; ring)]
  constructor
  · intro h
    obtain ⟨p, hp, hR⟩ := forall₂_mem f2 h
    exact ⟨p, ((hmem p).1 hp).1, ((hmem p).1 hp).2, key p hp cs hR⟩
  · rintro ⟨p, h1, h2, rfl⟩
    have hp := (hmem p).2 ⟨h1, h2⟩
    obtain ⟨cs, hcs, hR⟩ := forall₂_mem f2.flip hp
    rw [← key p hp cs hR]
    exact hcs

end

end Samurai

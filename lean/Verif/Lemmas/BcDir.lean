import Verif.Lemmas.BcUpdate

namespace Samurai

/-! ### directions -/

theorem range_sum_zero (f : Nat → Nat) (m : Nat) : ((List.range m).map f).sum = 0 ↔ ∀ d < m, f d = 0 := by
  rw [List.sum_eq_zero_iff]
  simp only [List.mem_map, List.mem_range]
  constructor
  · intro h d hd; exact h _ ⟨d, hd, rfl⟩
  · rintro h _ ⟨d, hd, rfl⟩; exact h d hd

theorem range_sum_one (f : Nat → Nat) (m : Nat) : ((List.range m).map f).sum = 1 ↔ ∃ d < m, f d = 1 ∧ ∀ k < m, k ≠ d → f k = 0 := by
  induction m with
  | zero => simp
  | succ m ih =>
    rw [List.range_succ, List.map_append, List.sum_append]
    simp only [List.map_cons, List.map_nil, List.sum_cons, List.sum_nil, Nat.add_zero]
    constructor
    · intro h
      rcases Nat.eq_zero_or_pos (f m) with h0 | h0
      · obtain ⟨d, h1, h2, h3⟩ := ih.1 (by omega)
        refine ⟨d, by omega, h2, fun k hk hne => ?_⟩
        rcases Nat.lt_or_ge k m with h4 | h4
        · exact h3 k h4 hne
        · rw [show k = m by omega]; exact h0
      · have h1 := (range_sum_zero f m).1 (by omega)
        exact ⟨m, by omega, by omega, fun k hk hne => h1 k (by omega)⟩
    · rintro ⟨d, h1, h2, h3⟩
      rcases Nat.lt_or_ge d m with h4 | h4
      · have := ih.2 ⟨d, h4, h2, fun k hk hne => h3 k (by omega) hne⟩
        have := h3 m (by omega) (by omega)
        omega
      · have e : d = m := by omega
        subst e
        have := (range_sum_zero f d).2 fun k hk => h3 k (by omega) (by omega)
        omega

theorem isCartesian_iff {n : Nat} {dir : Nat → Int} : isCartesian n dir = true ↔ UnitVector n dir ∧ OneAxis n dir := by
  unfold isCartesian
  rw [beq_iff_eq, range_sum_one (fun k => (dir k).natAbs)]
  constructor
  · rintro ⟨d, hd, h1, h2⟩
    have hz : ∀ k ≤ n, k ≠ d → dir k = 0 := fun k hk hne => Int.natAbs_eq_zero.1 (h2 k (by omega) hne)
    refine ⟨⟨fun k hk => ?_, d, by omega, by omega⟩, d, by omega, by omega, hz⟩
    by_cases h : k = d
    · subst h; omega
    · have := hz k hk h; omega
  · rintro ⟨⟨h1, _⟩, d, hd, h3, h4⟩
    refine ⟨d, by omega, ?_, fun k hk hne => ?_⟩
    · have := h1 d hd; omega
    · rw [h4 k (by omega) hne]; rfl

theorem touchesPeriodic_false {n : Nat} {periodic : Nat → Bool} {dir : Nat → Int} :
    touchesPeriodic n periodic dir = false ↔ ∀ k ≤ n, dir k ≠ 0 → periodic k = false := by
  unfold touchesPeriodic
  rw [List.any_eq_false]
  simp only [List.mem_range, Bool.and_eq_true, bne_iff_ne, ne_eq, not_and, Bool.not_eq_true]
  exact ⟨fun h k hk => h k (by omega), fun h k hk => h k (by omega)⟩

theorem boxDirections_unit {n : Nat} {dir : Nat → Int} (h : dir ∈ boxDirections n) : ∀ k ≤ n, dir k = -1 ∨ dir k = 0 ∨ dir k = 1 := by
  obtain ⟨st, h1, rfl⟩ := List.mem_map.1 h
  obtain ⟨h2, h3⟩ := mem_nestedIndices.1 h1
  intro k hk
  simp only [if_pos hk]
  have hk' : k < st.reverse.length := by rw [List.length_reverse]; omega
  rw [List.getD_eq_getElem?_getD, List.getElem?_eq_getElem hk', Option.getD_some]
  have := h3 _ (List.mem_reverse.1 (List.getElem_mem hk'))
  omega

theorem boxDirections_complete {n : Nat} {v : Nat → Int} (h : ∀ k ≤ n, v k = -1 ∨ v k = 0 ∨ v k = 1) : ∃ dir ∈ boxDirections n, ∀ k ≤ n, dir k = v k := by
  refine ⟨_, List.mem_map.2 ⟨((List.range (n + 1)).map fun k => v k + 1).reverse, mem_nestedIndices.2 ⟨by simp, ?_⟩, rfl⟩, ?_⟩
  · intro s hs
    obtain ⟨k, h1, rfl⟩ := List.mem_map.1 (List.mem_reverse.1 hs)
    have := h k (by have := List.mem_range.1 h1; omega)
    push_cast
    omega
  · intro k hk
    simp only [if_pos hk, List.reverse_reverse]
    rw [List.getD_eq_getElem?_getD, List.getElem?_map, List.getElem?_range (by omega)]
    simp

/-- The zero vector is the one that is left out. -/
theorem numberOfOne_unit {n : Nat} {dir : Nat → Int} (h : ∀ k ≤ n, dir k = -1 ∨ dir k = 0 ∨ dir k = 1) : numberOfOne n dir ≠ 0 ↔ UnitVector n dir := by
  unfold numberOfOne
  rw [ne_eq, range_sum_zero (fun k => (dir k).natAbs)]
  constructor
  · intro h0
    refine ⟨h, ?_⟩
    by_contra hc
    exact h0 fun k hk => by
      by_contra hne
      exact hc ⟨k, by omega, fun he => hne (by rw [he]; rfl)⟩
  · rintro ⟨_, d, hd, hne⟩ h0
    exact hne (Int.natAbs_eq_zero.1 (h0 d (by omega)))

/-! ### sets -/

section
variable {K : Type} {n : Nat} {M : BcMesh K} {level : Nat} {b : Box} {w : Nat}

/-- The ranges of the operands. -/
theorem BcReady.cells_operand (g : BcReady n M level b w) :
    (Node.mesh (M.cells.lca level)).Operand n ∧ (Node.mesh (M.cells.lca level)).InRange n M.dom.level := by
  obtain ⟨D, h0, h1, _, h3, _⟩ := g.range
  have hw := g.cellsWF level g.cellsLevels.1
  refine ⟨hw, inRange_mesh' hw h0 h3 ?_⟩
  rw [g.cellsLevels.2]
  have h4 : (2 : Int) ^ (M.dom.level - level) ≤ 2 ^ M.dom.level := pow_mono_two (by omega)
  have := pow_two_pos M.dom.level
  omega

theorem BcReady.dom_operand (g : BcReady n M level b w) : (Node.mesh M.dom).Operand n ∧ (Node.mesh M.dom).InRange n M.dom.level := by
  obtain ⟨D, h0, h1, h2, _, _⟩ := g.range
  refine ⟨g.dom.wf, inRange_mesh' g.dom.wf h0 h2 ?_⟩
  rw [Nat.sub_self]
  have := pow_two_pos M.dom.level
  omega

theorem BcReady.dom_shift_operand (g : BcReady n M level b w) {s : Nat → Int} (hs : ∀ d ≤ n, s d ≤ 2 ^ (M.dom.level - level)) :
    (Node.translate (.mesh M.dom) s).Operand n ∧ (Node.translate (.mesh M.dom) s).InRange n M.dom.level := by
  obtain ⟨D, h0, h1, h2, _, _⟩ := g.range
  refine ⟨g.dom.wf, inRange_shift (g := 2 ^ (M.dom.level - level)) g.dom.wf h0 h2 (by push_cast; exact hs) ?_⟩
  rw [Nat.sub_self]
  have h4 : (2 : Int) ^ (M.dom.level - level) ≤ 2 ^ M.dom.level := pow_mono_two (by omega)
  have := pow_two_pos M.dom.level
  push_cast
  omega

theorem BcReady.region_operand (g : BcReady n M level b w) {dir : Nat → Int} {L : LCA} (h : BdryRegion n M.dom dir L) :
    (Node.mesh L).Operand n ∧ (Node.mesh L).InRange n M.dom.level := by
  obtain ⟨D, h0, h1, h2, _, _⟩ := g.range
  refine ⟨h.wf, inRange_mesh' (D := D) h.wf h0 ?_ ?_⟩
  · intro p hp x hx
    have := h2 p (h.cells p hp).1 x hx
    rw [h.level]
    exact this
  · rw [h.level, Nat.sub_self]
    have := pow_two_pos M.dom.level
    omega

theorem BcReady.outer_operand (g : BcReady n M level b w) {k : Nat} (hk : k ≤ 4) {dir : Nat → Int} (hd : ∀ d ≤ n, dir d = -1 ∨ dir d = 0 ∨ dir d = 1) :
    (outerNeighbours M.ref level (2 * k) dir).All fun N => N.Operand n ∧ N.InRange n M.dom.level := by
  obtain ⟨D, h0, h1, _, _, h5⟩ := g.range
  have hw := g.refWF level g.refLevels.1
  refine ⟨hw, inRange_shift (g := 4) hw h0 h5 (fun d hd' => ?_) ?_⟩
  · rw [show 2 * k / 2 = k by omega]
    rcases hd d hd' with h | h | h <;> rw [h] <;> push_cast <;> omega
  · rw [g.refLevels.2]
    have h4 : (2 : Int) ^ (M.dom.level - level) ≤ 2 ^ M.dom.level := pow_mono_two (by omega)
    have := pow_two_pos M.dom.level
    push_cast
    omega

theorem outer_holds (hl : (M.ref.lca level).level = level) (hm : level ≤ M.ref.maxSize) {k : Nat} {dir : Nat → Int} {p : List Int} :
    (outerNeighbours M.ref level (2 * k) dir).HoldsAt n level p ↔ M.ref.Mem n level (walk n p k dir) := by
  show AtLevel (M.ref.lca level).level level (fun p => (M.ref.lca level).Mem n (subPoint (fun d => - ((2 * k / 2 : Nat) : Int) * dir d) n p)) p ↔ _
  rw [hl, atLevel_same, show 2 * k / 2 = k by omega]
  have e : subPoint (fun d => - (k : Int) * dir d) n p = walk n p k dir := by
    unfold walk
    rw [← sub_eq_shift]
    congr 1
    funext d
    ring
  rw [e]
  exact ⟨fun h => ⟨hm, h⟩, fun h => h.2⟩

theorem cells_holds (g : BcReady n M level b w) {p : List Int} :
    AtLevel (M.cells.lca level).level level ((M.cells.lca level).Mem n) p ↔ M.cells.Mem n level p := by
  rw [g.cellsLevels.2, atLevel_same]
  exact ⟨fun h => ⟨g.cellsLevels.1, h⟩, fun h => h.2⟩

theorem region_holds (g : BcReady n M level b w) {dir : Nat → Int} {L : LCA} (h : BdryRegion n M.dom dir L) {p : List Int} :
    AtLevel L.level level (L.Mem n) p ↔ RegionAt n L level p :=
  atLevel_desc (by rw [h.level]; exact g.dom.le)

theorem near_walk {v : Nat → Int} (hv : ∀ d ≤ n, v d = -1 ∨ v d = 0 ∨ v d = 1) : ∀ {m : Nat}, m ≤ n → ∀ {q : List Int}, q.length = m + 1 →
    ∀ {j : Int}, - (w : Int) ≤ j → j ≤ w → Near w (shiftPoint (fun d => j * v d) m q) q := by
  have key : ∀ d ≤ n, ∀ c j : Int, - (w : Int) ≤ j → j ≤ w → c + j * v d ≤ c + w ∧ c ≤ c + j * v d + w := by
    intro d hd c j h1 h2
    rcases hv d hd with h | h | h <;> rw [h] <;> constructor <;> omega
  intro m
  induction m with
  | zero =>
    intro hm q hq j h1 h2
    match q, hq with
    | [c], _ => exact List.Forall₂.cons (key 0 (by omega) c j h1 h2) List.Forall₂.nil
  | succ m ih =>
    intro hm q hq j h1 h2
    match q, hq with
    | c :: q, hq => exact List.Forall₂.cons (key (m + 1) hm c j h1 h2) (ih (by omega) (by simpa using hq) h1 h2)

end

end Samurai

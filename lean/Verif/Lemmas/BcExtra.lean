import Verif.Lemmas.BcLayer

namespace Samurai

theorem unionAll_all_nodes {P : Node → Prop} : ∀ (N : Node) (l : List Node), (∀ N' ∈ N :: l, P N') → (unionAll N l).All P := by
  intro N l
  induction l generalizing N with
  | nil => intro h; exact h N (by simp)
  | cons M l ih => intro h; exact ⟨h N (by simp), ih M fun N' hN' => h N' (List.mem_cons_of_mem _ hN')⟩

theorem unionAll_finest {m : Nat} : ∀ (N : Node) (l : List Node), (∀ N' ∈ N :: l, N'.level ≤ m) → (unionAll N l).finest ≤ m := by
  intro N l
  induction l generalizing N with
  | nil => intro h; exact h N (by simp)
  | cons M l ih => intro h; exact Nat.max_le.2 ⟨h N (by simp), ih M fun N' hN' => h N' (List.mem_cons_of_mem _ hN')⟩

section
variable {K : Type} [Field K] {n : Nat} {M : BcMesh K} {level : Nat} {b : Box} {w : Nat}

omit [Field K] in
theorem BcReady.faceSet_ok (g : BcReady n M level b w) {dir : Nat → Int} (hd : ∀ d ≤ n, dir d = -1 ∨ dir d = 0 ∨ dir d = 1) :
    ((faceSet M.dom (2 ^ (M.dom.level - level)) dir).All fun N => N.Operand n ∧ N.InRange n M.dom.level) ∧
      (faceSet M.dom (2 ^ (M.dom.level - level)) dir).finest = M.dom.level := by
  refine ⟨⟨g.dom_operand, g.dom_shift_operand fun d hd' => ?_⟩, Nat.max_self _⟩
  have := pow_two_pos (M.dom.level - level)
  rcases hd d hd' with h | h | h <;> rw [h] <;> omega

omit [Field K] in
theorem BcReady.cornerSet_ok (g : BcReady n M level b w) {dir : Nat → Int} (hd : ∀ d ≤ n, dir d = -1 ∨ dir d = 0 ∨ dir d = 1) :
    ((cornerSet n M.dom (2 ^ (M.dom.level - level)) dir).All fun N => N.Operand n ∧ N.InRange n M.dom.level) ∧
      (cornerSet n M.dom (2 ^ (M.dom.level - level)) dir).finest = M.dom.level := by
  constructor
  · refine ⟨g.dom_operand, unionAll_all_nodes _ _ fun N hN => ?_⟩
    obtain ⟨d, hd', rfl⟩ := cornerNodes.1 hN
    refine g.dom_shift_operand fun q hq => ?_
    have := pow_two_pos (M.dom.level - level)
    unfold axisPart
    split
    · rcases hd d hd' with h | h | h <;> rw [h] <;> omega
    · omega
  · apply le_antisymm
    · refine Nat.max_le.2 ⟨le_rfl, unionAll_finest _ _ fun N hN => ?_⟩
      obtain ⟨d, hd', rfl⟩ := cornerNodes.1 hN
      exact le_rfl
    · exact Nat.le_max_left _ _

/-- The two parts of the extrapolation in one direction. -/
theorem applyExtrapolationOn_spec (g : BcReady n M level b w) {k : Nat} (hk : 1 ≤ k) (h3 : k ≤ 3) (hgw : k ≤ Nat.max w M.cfg.ghostWidth) {dir : Nat → Int} (hu : UnitVector n dir)
    {subset : Expr Node} (hall : subset.All fun N => N.Operand n ∧ N.InRange n M.dom.level) (hfin : subset.finest = M.dom.level)
    {Q : List Int → Prop} (hQ : ∀ p, subset.HoldsAt n level p ↔ Q p) (hout : ∀ p, Q p → Outward n b p dir) (onlyGhosts : Bool) (u : Int → K) :
    ∃ u', applyExtrapolationOn n M (2 * k) level dir subset onlyGhosts u = some u' ∧
      Keeps n M.ref level (fun q => ∃ p, (Q p ∧ M.ref.Mem n level (walk n p k dir) ∧ (onlyGhosts = true → ¬ M.cells.Mem n level p)) ∧
        q = walk n p k (convDir n dir)) u u' ∧
      ∀ p, Q p ∧ M.ref.Mem n level (walk n p k dir) ∧ (onlyGhosts = true → ¬ M.cells.Mem n level p) →
        u' (numOf n M.ref level (walk n p k (convDir n dir))) =
          extrapolationRow (2 * k) fun j => u (numOf n M.ref level (walk n p ((j : Int) - k + 1) (convDir n dir))) := by
  have hS := convert_line n dir k
  have hcu : UnitVector n (convDir n dir) := by
    refine ⟨fun d hd => ?_, convDir_ne hu.2⟩
    rcases convDir_sub n dir d with h | h
    · rw [h]; exact hu.1 d hd
    · right; left; exact h
  have hline : ∀ p, Q p → M.ref.Mem n level (walk n p k dir) → ∀ j : Int, - (k : Int) < j → j ≤ k → M.ref.Mem n level (walk n p j (convDir n dir)) :=
    fun p hp hm => g.lines p dir k (hout p hp) hk hgw hm _ fun d _ => convDir_sub n dir d
  have hc1 : (Node.mesh (M.cells.lca level)).level ≤ M.dom.level := by show (M.cells.lca level).level ≤ _; rw [g.cellsLevels.2]; exact g.dom.le
  have hr1 : (outerNeighbours M.ref level (2 * k) dir).finest ≤ M.dom.level := by
    show (M.ref.lca level).level ≤ _; rw [g.refLevels.2]; exact g.dom.le
  have hr2 : level ≤ (outerNeighbours M.ref level (2 * k) dir).finest := by
    show level ≤ (M.ref.lca level).level; rw [g.refLevels.2]
  have ho := g.outer_operand (k := k) (by omega) hu.1
  have PB : ∀ p, (Expr.op .inter (.leaf (.mesh (M.cells.lca level))) subset : Expr Node).HoldsAt n level p ↔ M.cells.Mem n level p ∧ Q p :=
    fun p => and_congr (cells_holds g) (hQ p)
  -- the second part
  have part2 : ∀ u1 : Int → K, ∃ u2, applyOnSubset n M.ref level (convertForDirection n (lineStencil 0 (2 * k)) dir)
      (.op .diff (.op .inter (outerNeighbours M.ref level (2 * k) dir) subset) (.op .inter (.leaf (.mesh (M.cells.lca level))) subset))
      (fun u c _ => applyExtrapolation (2 * k) u c) (fun _ => 0) u1 = some u2 ∧
      Keeps n M.ref level (fun q => ∃ p, ((M.ref.Mem n level (walk n p k dir) ∧ Q p) ∧ ¬ (M.cells.Mem n level p ∧ Q p)) ∧ q = walk n p k (convDir n dir)) u1 u2 ∧
      ∀ p, (M.ref.Mem n level (walk n p k dir) ∧ Q p) ∧ ¬ (M.cells.Mem n level p ∧ Q p) → u2 (numOf n M.ref level (walk n p k (convDir n dir))) =
        extrapolationRow (2 * k) fun j => u1 (numOf n M.ref level (walk n p ((j : Int) - k + 1) (convDir n dir))) := by
    intro u1
    refine two_extrapolation g hk h3 hcu
      (e := .op .diff (.op .inter (outerNeighbours M.ref level (2 * k) dir) subset) (.op .inter (.leaf (.mesh (M.cells.lca level))) subset))
      (P := fun p => (M.ref.Mem n level (walk n p k dir) ∧ Q p) ∧ ¬ (M.cells.Mem n level p ∧ Q p))
      (admissible_of (M := M.dom.level) ?_ ⟨⟨ho, hall⟩, g.cells_operand, hall⟩) ?_
      (fun p => and_congr (and_congr (outer_holds g.refLevels.2 g.refLevels.1) (hQ p)) (not_congr (PB p)))
      (fun p hp => (hout p hp.1.2).conv) (fun p hp => hline p hp.1.2 hp.1.1) hS u1
    · exact Nat.max_le.2 ⟨Nat.max_le.2 ⟨hr1, hfin.le⟩, Nat.max_le.2 ⟨hc1, hfin.le⟩⟩
    · exact hr2.trans ((Nat.le_max_left _ _).trans (Nat.le_max_left _ _))
  cases onlyGhosts with
  | true =>
    obtain ⟨u2, e2, k2, v2⟩ := part2 u
    refine ⟨u2, by unfold applyExtrapolationOn; simp only [if_true]; exact e2, k2.mono ?_, fun p hp => v2 p ⟨⟨hp.2.1, hp.1⟩, fun h => hp.2.2 rfl h.1⟩⟩
    rintro q ⟨p, hp, rfl⟩
    exact ⟨p, ⟨hp.1.2, hp.1.1, fun _ h => hp.2 ⟨h, hp.1.2⟩⟩, rfl⟩
  | false =>
    obtain ⟨u1, e1, k1, v1⟩ := two_extrapolation g hk h3 hcu
      (e := .op .inter (outerNeighbours M.ref level (2 * k) dir) (.op .inter (.leaf (.mesh (M.cells.lca level))) subset))
      (admissible_of (M := M.dom.level) (Nat.max_le.2 ⟨hr1, Nat.max_le.2 ⟨hc1, hfin.le⟩⟩) ⟨ho, g.cells_operand, hall⟩)
      (hr2.trans (Nat.le_max_left _ _)) (fun p => and_congr (outer_holds g.refLevels.2 g.refLevels.1) (PB p))
      (fun p hp => (hout p hp.2.2).conv) (fun p hp => hline p hp.2.2 hp.1) hS u
    obtain ⟨u2, e2, k2, v2⟩ := part2 u1
    refine ⟨u2, ?_, (k1.mono ?_).trans (k2.mono ?_), fun p hp => ?_⟩
    · unfold applyExtrapolationOn
      simp only [Bool.false_eq_true, if_false, e1]
      exact e2
    · rintro q ⟨p, hp, rfl⟩
      exact ⟨p, ⟨hp.2.2, hp.1, fun h => absurd h (by decide)⟩, rfl⟩
    · rintro q ⟨p, hp, rfl⟩
      exact ⟨p, ⟨hp.1.2, hp.1.1, fun h => absurd h (by decide)⟩, rfl⟩
    · obtain ⟨h1, h2, _⟩ := hp
      have hp' := (hout p h1).conv
      have hl := hline p h1 h2
      by_cases hC : M.cells.Mem n level p
      · rw [← v1 p ⟨h2, hC, h1⟩]
        refine k2.at g.refWF g.numbers (hl k (by omega) le_rfl) ?_
        rintro ⟨q, hq, he⟩
        have := (hp'.unique (hout q hq.1.2).conv (by omega) (by omega) he).2.2
        exact hq.2 (by rw [← this]; exact ⟨hC, h1⟩)
      · rw [v2 p ⟨⟨h2, h1⟩, fun h => hC h.1⟩]
        refine extrapolationRow_congr hk h3 fun j hj => ?_
        refine k1.at g.refWF g.numbers (hl _ (by omega) (by omega)) ?_
        rintro ⟨q, hq, he⟩
        rcases le_or_gt ((j : Int) - k + 1) 0 with hle | hgt
        · exact (hout q hq.2.2).conv.inner hp' (by omega) hle he.symm
        · have := (hp'.unique (hout q hq.2.2).conv (by omega) (by omega) he).1
          omega

/-- The polynomial extrapolation of layer `k` writes the ghost of the boundary cell `p` in the direction `dir`. -/
def Extrapolates (n : Nat) (M : BcMesh K) (level : Nat) (b : Box) (k : Nat) (diagonalsOnly onlyGhosts : Bool) (dir : Nat → Int) (p : List Int) : Prop :=
  (∀ d ≤ n, dir d ≠ 0 → M.periodic d = false) ∧ (diagonalsOnly = true → ¬ OneAxis n dir) ∧ (OneAxis n dir ∨ (n = 1 ∨ n = 2) ∧ ∀ d ≤ n, dir d ≠ 0) ∧
    Outward n b p dir ∧ M.ref.Mem n level (walk n p k dir) ∧ (onlyGhosts = true → ¬ M.cells.Mem n level p)

theorem applyExtrapolationDir_spec (g : BcReady n M level b w) {k : Nat} (hk : 1 ≤ k) (h3 : k ≤ 3) (hgw : k ≤ Nat.max w M.cfg.ghostWidth) {dir : Nat → Int} (hdir : dir ∈ boxDirections n)
    (diagonalsOnly onlyGhosts : Bool) (u : Int → K) :
    ∃ u', applyExtrapolationDir n M (2 * k) level diagonalsOnly onlyGhosts u dir = some u' ∧
      Keeps n M.ref level (fun q => ∃ p, Extrapolates n M level b k diagonalsOnly onlyGhosts dir p ∧ q = walk n p k (convDir n dir)) u u' ∧
      ∀ p, Extrapolates n M level b k diagonalsOnly onlyGhosts dir p → u' (numOf n M.ref level (walk n p k (convDir n dir))) =
          extrapolationRow (2 * k) fun j => u (numOf n M.ref level (walk n p ((j : Int) - k + 1) (convDir n dir))) := by
  have hunit := boxDirections_unit hdir
  have none' : (∀ p, ¬ Extrapolates n M level b k diagonalsOnly onlyGhosts dir p) → ∃ u', some u = some u' ∧
      Keeps n M.ref level (fun q => ∃ p, Extrapolates n M level b k diagonalsOnly onlyGhosts dir p ∧ q = walk n p k (convDir n dir)) u u' ∧
      ∀ p, Extrapolates n M level b k diagonalsOnly onlyGhosts dir p → u' (numOf n M.ref level (walk n p k (convDir n dir))) =
          extrapolationRow (2 * k) fun j => u (numOf n M.ref level (walk n p ((j : Int) - k + 1) (convDir n dir))) :=
    fun h => ⟨u, rfl, Keeps.refl _ _, fun p hp => absurd hp (h p)⟩
  unfold applyExtrapolationDir
  by_cases hskip : (decide (numberOfOne n dir = 0) || touchesPeriodic n M.periodic dir) = true
  · rw [if_pos (by simpa using hskip)]
    refine none' ?_
    rintro p ⟨h1, _, _, h4, _⟩
    rw [Bool.or_eq_true, decide_eq_true_iff] at hskip
    rcases hskip with h | h
    · exact (numberOfOne_unit hunit).2 h4.2.1 h
    · rw [touchesPeriodic_false.2 h1] at h; exact absurd h (by decide)
  · rw [if_neg (by simpa using hskip)]
    rw [Bool.or_eq_true, not_or, decide_eq_true_iff] at hskip
    have hu := (numberOfOne_unit hunit).1 hskip.1
    have hper := touchesPeriodic_false.1 (by simpa using hskip.2 : touchesPeriodic n M.periodic dir = false)
    by_cases hax : OneAxis n dir
    · have hcart : isCartesian n dir = true := isCartesian_iff.2 ⟨hu, hax⟩
      rw [hcart]
      cases hdg : diagonalsOnly with
      | true =>
        subst hdg
        refine none' ?_
        rintro p ⟨_, h2, _⟩
        exact h2 rfl hax
      | false =>
        subst hdg
        obtain ⟨a1, a2⟩ := g.faceSet_ok hunit
        have hiff : ∀ p, (faceSet M.dom (2 ^ (M.dom.level - level)) dir).HoldsAt n level p ↔ Outward n b p dir := fun p => by
          rw [faceSet_holds g.dom]
          exact ⟨fun h => oneAxis_out hu hax h.1 h.2, fun h => ⟨h.1, outward_shift h⟩⟩
        obtain ⟨u', e, kk, v⟩ := applyExtrapolationOn_spec g hk h3 hgw hu a1 a2 hiff (fun p h => h) onlyGhosts u
        refine ⟨u', by simpa using e, kk.mono ?_, fun p hp => v p ⟨hp.2.2.2.1, hp.2.2.2.2⟩⟩
        rintro q ⟨p, ⟨h1, h2⟩, rfl⟩
        exact ⟨p, ⟨hper, fun h => absurd h (by decide), .inl hax, h1, h2⟩, rfl⟩
    · have hcart : isCartesian n dir = false := by
        rw [← Bool.not_eq_true, isCartesian_iff]
        exact fun h => hax h.2
      rw [hcart]
      simp only [Bool.and_false, Bool.false_eq_true, if_false]
      by_cases hn : n = 1 ∨ n = 2
      · rw [if_pos hn]
        obtain ⟨a1, a2⟩ := g.cornerSet_ok hunit
        obtain ⟨u', e, kk, v⟩ := applyExtrapolationOn_spec g hk h3 hgw hu a1 a2 (fun p => (cornerSet_holds g.dom).trans (corner_outward hu))
          (fun p h => h.1) onlyGhosts u
        refine ⟨u', e, kk.mono ?_, fun p hp => v p ⟨⟨hp.2.2.2.1, ?_⟩, hp.2.2.2.2⟩⟩
        · rintro q ⟨p, ⟨h1, h2⟩, rfl⟩
          exact ⟨p, ⟨hper, fun _ => hax, .inr ⟨hn, h1.2⟩, h1.1, h2⟩, rfl⟩
        · rcases hp.2.2.1 with h | h
          · exact absurd h hax
          · exact h.2
      · rw [if_neg hn]
        refine none' ?_
        rintro p ⟨_, _, h | h, _⟩
        · exact hax h
        · exact hn h.1

end

end Samurai

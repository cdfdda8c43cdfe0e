import Verif.Lemmas.BcDir

namespace Samurai

section
variable {K : Type} [Field K] {n : Nat} {M : BcMesh K} {level : Nat} {b : Box} {w : Nat}

theorem lineCells_congr {ref : CA} {k : Nat} {v v' : Nat → Int} (h : ∀ d ≤ n, v d = v' d) (p : List Int) :
    lineCells n ref level k v p = lineCells n ref level k v' p := by
  unfold lineCells
  refine List.map_congr_left fun i _ => ?_
  rw [walk_congr h]

theorem BcKind.row_congr {kd : BcKind} (hk : kd.Exists) (h0 : K) {i : Nat} (i1 : 1 ≤ i) (i2 : i ≤ kd.ghosts) (x : K) {a a' : Nat → K}
    (h : ∀ j < kd.ghosts, a j = a' j) : kd.row h0 level i x a = kd.row h0 level i x a' := by
  cases kd with
  | neumann => show _ + a 0 = _ + a' 0; rw [h 0 (by decide)]
  | dirichlet o =>
    have e : (BcKind.dirichlet o).ghosts = o := by show 2 * o / 2 = o; omega
    rw [e] at h i2
    exact dirichletRow_congr hk.1 hk.2 (by have := hk.1; omega) (by omega) x h

/-- The two passes of a boundary condition on the cells `P1` and `P2`. -/
theorem two_bc (g : BcReady n M level b w) {kd : BcKind} (hk : kd.Exists) {v : Nat → Int} (hv : UnitVector n v) {e : Expr Node} (ha : e.Admissible n)
    (hf : level ≤ e.finest) {P : List Int → Prop} (hP : ∀ p, e.HoldsAt n level p ↔ P p) (hout : ∀ p, P p → Outward n b p v)
    (hr : ∀ p, P p → ∀ j : Int, - (kd.ghosts : Int) < j → j ≤ kd.ghosts → M.ref.Mem n level (walk n p j v)) {S : List (Nat → Int)}
    (hS : S = (List.range (2 * kd.ghosts)).map fun i : Nat => fun d => ((i : Int) - kd.ghosts + 1) * v d) (value : MCell → K) (u : Int → K) :
    ∃ u', applyOnSubset n M.ref level S e (kd.apply M.h0) value u = some u' ∧
      Keeps n M.ref level (fun q => ∃ p, P p ∧ ∃ i : Nat, 1 ≤ i ∧ i ≤ kd.ghosts ∧ q = walk n p i v) u u' ∧
      ∀ p, P p → ∀ i : Nat, 1 ≤ i → i ≤ kd.ghosts → u' (numOf n M.ref level (walk n p i v)) =
        kd.row M.h0 level i (value (mcell n M.ref level p)) fun j => u (numOf n M.ref level (walk n p ((j : Int) - kd.ghosts + 1) v)) := by
  obtain ⟨ps, h1, h2, h3⟩ := applyOnSubset_spec g.refWF g.refLevels.1 hv hk.ghosts_pos.1 ha hf hP hr (kd.apply M.h0) value u
  obtain ⟨k1, k2⟩ := pass_bc (level := level) g.refWF g.numbers M.h0 hk h1 (fun p hp => hout p ((h2 p).1 hp)) (fun p hp => hr p ((h2 p).1 hp)) value u
  refine ⟨_, by rw [hS]; exact h3, ?_, fun p hp i i1 i2 => k2 p ((h2 p).2 hp) i i1 i2⟩
  exact k1.mono fun q => fun ⟨p, hp, h⟩ => ⟨p, (h2 p).1 hp, h⟩

theorem two_extrapolation (g : BcReady n M level b w) {k : Nat} (hk : 1 ≤ k) (h3 : k ≤ 3) {v : Nat → Int} (hv : UnitVector n v) {e : Expr Node}
    (ha : e.Admissible n) (hf : level ≤ e.finest) {P : List Int → Prop} (hP : ∀ p, e.HoldsAt n level p ↔ P p) (hout : ∀ p, P p → Outward n b p v)
    (hr : ∀ p, P p → ∀ j : Int, - (k : Int) < j → j ≤ k → M.ref.Mem n level (walk n p j v)) {S : List (Nat → Int)}
    (hS : S = (List.range (2 * k)).map fun i : Nat => fun d => ((i : Int) - k + 1) * v d) (u : Int → K) :
    ∃ u', applyOnSubset n M.ref level S e (fun u c _ => applyExtrapolation (2 * k) u c) (fun _ => 0) u = some u' ∧
      Keeps n M.ref level (fun q => ∃ p, P p ∧ q = walk n p k v) u u' ∧
      ∀ p, P p → u' (numOf n M.ref level (walk n p k v)) =
        extrapolationRow (2 * k) fun j => u (numOf n M.ref level (walk n p ((j : Int) - k + 1) v)) := by
  obtain ⟨ps, h1, h2, h4⟩ := applyOnSubset_spec g.refWF g.refLevels.1 hv hk ha hf hP hr (fun u c _ => applyExtrapolation (2 * k) u c) (fun _ => (0 : K)) u
  obtain ⟨k1, k2⟩ := pass_extrapolation (level := level) g.refWF g.numbers hk h3 h1 (fun p hp => hout p ((h2 p).1 hp)) (fun p hp => hr p ((h2 p).1 hp)) u
  refine ⟨_, by rw [hS]; exact h4, ?_, fun p hp => k2 p ((h2 p).2 hp)⟩
  exact k1.mono fun q => fun ⟨p, hp, h⟩ => ⟨p, (h2 p).1 hp, h⟩

/-- The cells of the line of an imposed ghost. -/
theorem imposes_line (g : BcReady n M level b w) {c : BcCond K} (hc : GoodBc n M.dom w c) {d : (Nat → Int) × LCA} (hd : d ∈ c.region) {p : List Int} {i : Nat}
    (h : Imposes n M level c d p i) : Outward n b p d.1 ∧ ∀ j : Int, - (c.kind.ghosts : Int) < j → j ≤ c.kind.ghosts → M.ref.Mem n level (walk n p j d.1) := by
  obtain ⟨h1, h2, _, h4, h5, _, _⟩ := h
  have ho := (hc.region d hd h1 h2).outward g.dom h1 h2 h4
  refine ⟨ho, fun j j1 j2 => ?_⟩
  have hw := hc.width
  rcases h5 with h5 | ⟨_, h5⟩
  · exact g.near _ p h5 (near_walk h1.1 le_rfl ho.length (by omega) (by omega))
  · exact g.lines p d.1 _ ho hc.known.ghosts_pos.1 (hw.trans (Nat.le_max_left _ _)) h5 d.1 (fun _ _ => .inl rfl) j j1 j2

theorem applyBcDir_spec (g : BcReady n M level b w) {c : BcCond K} (hc : GoodBc n M.dom w c) {d : (Nat → Int) × LCA} (hd : d ∈ c.region) (u : Int → K) :
    ∃ u', applyBcDir n M c level u d = some u' ∧ Keeps n M.ref level (fun q => ∃ p i, Imposes n M level c d p i ∧ q = walk n p i d.1) u u' ∧
      ∀ p i, Imposes n M level c d p i → u' (numOf n M.ref level (walk n p i d.1)) =
        c.kind.row M.h0 level i (c.value d.1 (mcell n M.ref level p)) fun j => u (numOf n M.ref level (walk n p ((j : Int) - c.kind.ghosts + 1) d.1)) := by
  unfold applyBcDir
  by_cases hact : (touchesPeriodic n M.periodic d.1 || !isCartesian n d.1) = true
  · rw [if_pos hact]
    have hno : ∀ p i, ¬ Imposes n M level c d p i := by
      rintro p i ⟨h1, h2, h3, _⟩
      rw [Bool.or_eq_true] at hact
      rcases hact with h | h
      · rw [touchesPeriodic_false.2 h3] at h; exact absurd h (by decide)
      · rw [isCartesian_iff.2 ⟨h1, h2⟩] at h; exact absurd h (by decide)
    exact ⟨u, rfl, Keeps.refl _ _, fun p i h => absurd h (hno p i)⟩
  · rw [if_neg hact]
    rw [Bool.or_eq_true, not_or] at hact
    have hper : ∀ k ≤ n, d.1 k ≠ 0 → M.periodic k = false := touchesPeriodic_false.1 (by simpa using hact.1)
    obtain ⟨hu, h1⟩ := isCartesian_iff.1 (by simpa using hact.2 : isCartesian n d.1 = true)
    have hreg := hc.region d hd hu h1
    have hg := hc.known.ghosts_pos
    have hcd := convDir_axis h1
    have hS : convertForDirection n (lineStencil 0 c.kind.stencilSize) d.1 =
        (List.range (2 * c.kind.ghosts)).map fun i : Nat => fun e => ((i : Int) - c.kind.ghosts + 1) * convDir n d.1 e := by
      rw [c.kind.size_eq]; exact convert_line n d.1 _
    have hcw : ∀ p j, walk n p j (convDir n d.1) = walk n p j d.1 := fun p j => walk_congr hcd
    have hcu : UnitVector n (convDir n d.1) := by
      obtain ⟨a, e, he, hne⟩ := hu
      exact ⟨fun q hq => by rw [hcd q hq]; exact a q hq, e, he, by rw [hcd e he]; exact hne⟩
    have hout : ∀ p, RegionAt n d.2 level p → Outward n b p d.1 := fun p hp => hreg.outward g.dom hu h1 hp
    have hout' : ∀ p, RegionAt n d.2 level p → Outward n b p (convDir n d.1) := fun p hp => (hout p hp).congr fun e he => (hcd e he).symm
    have hlev : max (M.cells.lca level).level d.2.level = M.dom.level := by
      rw [g.cellsLevels.2, hreg.level]; exact Nat.max_eq_right g.dom.le
    -- first pass
    have P1 : ∀ p, (Expr.op .inter (.leaf (.mesh (M.cells.lca level))) (.leaf (.mesh d.2)) : Expr Node).HoldsAt n level p ↔
        M.cells.Mem n level p ∧ RegionAt n d.2 level p := fun p => and_congr (cells_holds g) (region_holds g hreg)
    have imp1 : ∀ p, M.cells.Mem n level p ∧ RegionAt n d.2 level p → ∀ i : Nat, 1 ≤ i → i ≤ c.kind.ghosts → Imposes n M level c d p i :=
      fun p hp i i1 i2 => ⟨hu, h1, hper, hp.2, .inl hp.1, i1, i2⟩
    obtain ⟨u1, e1, k1, v1⟩ := two_bc g hc.known hcu
      (e := .op .inter (.leaf (.mesh (M.cells.lca level))) (.leaf (.mesh d.2)))
      (admissible_of (M := M.dom.level) (le_of_eq hlev) ⟨g.cells_operand, g.region_operand hreg⟩)
      (by show level ≤ max (M.cells.lca level).level d.2.level; rw [hlev]; exact g.dom.le) P1 (fun p hp => hout' p hp.2)
      (fun p hp j j1 j2 => by rw [hcw]; exact (imposes_line g hc hd (imp1 p hp 1 le_rfl hg.1)).2 j j1 j2) hS (c.value d.1) u
    simp only [hcw] at k1 v1
    simp only [e1]
    by_cases hm : M.minL ≠ M.maxL
    · rw [if_pos hm]
      have P2 : ∀ p, (Expr.op .diff (.op .inter (outerNeighbours M.ref level c.kind.stencilSize d.1) (.leaf (.mesh d.2)))
          (.op .inter (.leaf (.mesh (M.cells.lca level))) (.leaf (.mesh d.2))) : Expr Node).HoldsAt n level p ↔
          (M.ref.Mem n level (walk n p c.kind.ghosts d.1) ∧ RegionAt n d.2 level p) ∧ ¬ (M.cells.Mem n level p ∧ RegionAt n d.2 level p) := fun p => by
        rw [c.kind.size_eq]
        exact and_congr (and_congr (outer_holds g.refLevels.2 g.refLevels.1) (region_holds g hreg)) (not_congr (P1 p))
      have imp2 : ∀ p, (M.ref.Mem n level (walk n p c.kind.ghosts d.1) ∧ RegionAt n d.2 level p) ∧ ¬ (M.cells.Mem n level p ∧ RegionAt n d.2 level p) →
          ∀ i : Nat, 1 ≤ i → i ≤ c.kind.ghosts → Imposes n M level c d p i :=
        fun p hp i i1 i2 => ⟨hu, h1, hper, hp.1.2, .inr ⟨hm, hp.1.1⟩, i1, i2⟩
      obtain ⟨u2, e2, k2, v2⟩ := two_bc g hc.known hcu
        (e := .op .diff (.op .inter (outerNeighbours M.ref level c.kind.stencilSize d.1) (.leaf (.mesh d.2)))
          (.op .inter (.leaf (.mesh (M.cells.lca level))) (.leaf (.mesh d.2))))
        (admissible_of (M := M.dom.level)
          (by
            show max (max (M.ref.lca level).level d.2.level) (max (M.cells.lca level).level d.2.level) ≤ _
            rw [hlev, g.refLevels.2, hreg.level]; have := g.dom.le; omega)
          ⟨⟨by rw [c.kind.size_eq]; exact g.outer_operand hg.2 hu.1, g.region_operand hreg⟩, g.cells_operand, g.region_operand hreg⟩)
        (by
          show level ≤ max (max (M.ref.lca level).level d.2.level) (max (M.cells.lca level).level d.2.level)
          rw [g.refLevels.2]; omega)
        P2 (fun p hp => hout' p hp.1.2)
        (fun p hp j j1 j2 => by rw [hcw]; exact (imposes_line g hc hd (imp2 p hp 1 le_rfl hg.1)).2 j j1 j2) hS (c.value d.1) u1
      simp only [hcw] at k2 v2
      refine ⟨u2, e2, ?_, fun p i hp => ?_⟩
      · refine (k1.mono ?_).trans (k2.mono ?_)
        · rintro q ⟨p, hp, i, i1, i2, rfl⟩
          exact ⟨p, i, imp1 p hp i i1 i2, rfl⟩
        · rintro q ⟨p, hp, i, i1, i2, rfl⟩
          exact ⟨p, i, imp2 p hp i i1 i2, rfl⟩
      · obtain ⟨ho, hline⟩ := imposes_line g hc hd hp
        obtain ⟨_, _, _, hR, hor, i1, i2⟩ := hp
        by_cases hC : M.cells.Mem n level p
        · rw [← v1 p ⟨hC, hR⟩ i i1 i2]
          refine k2.at g.refWF g.numbers (hline i (by omega) (by omega)) ?_
          rintro ⟨q, hq, j, j1, j2, he⟩
          have := (ho.unique (hout q hq.1.2) (by omega) (by omega) he).2.2
          exact hq.2 (by rw [← this]; exact ⟨hC, hR⟩)
        · obtain ⟨_, hmem⟩ := hor.resolve_left hC
          rw [v2 p ⟨⟨hmem, hR⟩, fun h => hC h.1⟩ i i1 i2]
          refine BcKind.row_congr hc.known _ i1 i2 _ fun j hj => ?_
          refine k1.at g.refWF g.numbers (hline _ (by omega) (by omega)) ?_
          rintro ⟨q, hq, l, l1, l2, he⟩
          exact (hout q hq.2).inner ho (by omega) (by omega) he.symm
    · rw [if_neg hm]
      refine ⟨u1, rfl, k1.mono ?_, fun p i hp => ?_⟩
      · rintro q ⟨p, hp, i, i1, i2, rfl⟩
        exact ⟨p, i, imp1 p hp i i1 i2, rfl⟩
      · obtain ⟨_, _, _, hR, hor, i1, i2⟩ := hp
        exact v1 p ⟨hor.resolve_right fun h => hm h.1, hR⟩ i i1 i2

end

end Samurai

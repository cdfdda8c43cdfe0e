/-
Boundary conditions: values of the ghosts, regions, cells that change, ghosts left without a value.
-/
import Verif.Lemmas.BcRegion
import Verif.Props.Mesh
import Verif.Spec.Operators

namespace Samurai
open Polynomial

section
variable {K : Type} [Field K] {n : Nat} {M : BcMesh K} {level : Nat} {b : Box} {w : Nat}

/-! ### values by cells -/

omit [Field K] in
theorem numbered_numOf {ref : CA} (hw : ref.WF n) {l : Nat} {p : List Int} {i : Int} (h : (l, p, i) ∈ ref.numbered n) :
    ref.Mem n l p ∧ i = numOf n ref l p := by
  unfold CA.numbered at h
  obtain ⟨l', hl, h⟩ := List.mem_flatMap.1 h
  obtain ⟨⟨q, v⟩, h1, h2⟩ := List.mem_map.1 h
  obtain ⟨rfl, rfl, rfl⟩ : l' = l ∧ q = p ∧ v = i := by simpa using h2
  have hl' : l' ≤ ref.maxSize := by have := List.mem_range.1 hl; omega
  unfold LCA.numbered at h1
  obtain ⟨⟨yz, j⟩, h3, h4⟩ := List.mem_flatMap.1 h1
  obtain ⟨x, hx, h5⟩ := List.mem_map.1 h4
  obtain ⟨rfl, rfl⟩ : yz ++ [x] = q ∧ j.index + x = v := by simpa using h5
  have hnum : Num n (ref.lca l') yz x (j.index + x) := ⟨j, h3, coords_mem.1 hx, rfl⟩
  refine ⟨⟨hl', (mem_iff_rows (hw l' hl') _).2 ⟨(yz, j), h3, x, coords_mem.1 hx, rfl⟩⟩, ?_⟩
  unfold numOf
  simp [num_get (hw l' hl') hnum]

omit [Field K] in
theorem fieldIs_numOf {ref : CA} (hw : ref.WF n) (u : Int → K) : FieldIs n ref u fun l p => u (numOf n ref l p) := by
  intro l p i h
  rw [(numbered_numOf hw h).2]

omit [Field K] in
theorem FieldIs.at {ref : CA} (hw : ref.WF n) {u : Int → K} {val : Nat → List Int → K} (h : FieldIs n ref u val) {l : Nat} {p : List Int}
    (hp : ref.Mem n l p) : val l p = u (numOf n ref l p) := (h l p _ (numOf_numbered hw hp)).symm

/-! ### polynomials -/

variable [CharZero K]

/-- The row of a condition gives the value of the condition. -/
theorem row_satisfied {kd : BcKind} (hk : kd.Exists) (h0 : K) {i : Nat} (i1 : 1 ≤ i) (i2 : i ≤ kd.ghosts) (x : K) {f : Int → K}
    (h : f i = kd.row h0 level i x fun j => f ((j : Int) - kd.ghosts + 1)) : kd.Satisfied h0 level f i x := by
  cases kd with
  | neumann =>
    have e : i = 1 := by
      have : BcKind.neumann.ghosts = 1 := rfl
      omega
    subst e
    refine ⟨rfl, ?_⟩
    have h : f 1 = cellLength h0 level * x + f (((0 : Nat) : Int) - ((1 : Nat) : Int) + 1) := by exact_mod_cast h
    rw [show (((0 : Nat) : Int) - ((1 : Nat) : Int) + 1) = 0 by norm_num] at h
    rw [h]; ring
  | dirichlet o =>
    have e : (BcKind.dirichlet o).ghosts = o := by show 2 * o / 2 = o; omega
    rw [e] at h i2
    obtain ⟨o1, o4⟩ := hk
    obtain ⟨p, p1, p2, p3, p4⟩ := dirichletRow_poly o1 o4 x fun j => f ((j : Int) - o + 1)
    have hdeg : p.natDegree ≤ o := by
      rcases eq_or_ne p 0 with h0 | h0
      · subst h0; simp
      · have := (natDegree_lt_iff_degree_lt h0).2 p1; omega
    have hev : ∀ y : K, (p.comp (X + C ((o : K) - 1))).eval y = p.eval (y + ((o : K) - 1)) := fun y => by simp [eval_comp]
    refine ⟨p.comp (X + C ((o : K) - 1)), ?_, fun j hj => ?_, ?_, ?_⟩
    · refine natDegree_comp_le.trans ?_
      rw [natDegree_X_add_C, mul_one]
      exact hdeg
    · rw [hev]
      have := p2 (o - 1 - j) (by omega)
      rw [show (((o - 1 - j : Nat) : Int) - o + 1) = - (j : Int) by omega] at this
      rw [← this]
      congr 1
      rw [Nat.cast_sub (by omega), Nat.cast_sub (by omega)]
      push_cast; ring
    · rw [hev, ← p3]; congr 1; ring
    · rw [h, hev]
      show dirichletRow o (o - 1 + i) x _ = _
      rw [p4 (o - 1 + i) (by omega) (by omega)]
      congr 1
      rw [Nat.cast_add, Nat.cast_sub (by omega)]
      push_cast; ring

theorem row_extrapolated {k : Nat} (hk : 1 ≤ k) (h3 : k ≤ 3) {f : Int → K} (h : f k = extrapolationRow (2 * k) fun j => f ((j : Int) - k + 1)) :
    Extrapolated f k := by
  obtain ⟨p, p1, p2, p3⟩ := extrapolationRow_poly hk h3 fun j => f ((j : Int) - k + 1)
  have hdeg : p.natDegree ≤ 2 * k - 2 := by
    rcases eq_or_ne p 0 with h0 | h0
    · subst h0; simp
    · have := (natDegree_lt_iff_degree_lt h0).2 p1; omega
  have hev : ∀ y : K, (p.comp (X + C ((k : K) - 1))).eval y = p.eval (y + ((k : K) - 1)) := fun y => by simp [eval_comp]
  refine ⟨p.comp (X + C ((k : K) - 1)), ?_, fun j j1 j2 => ?_⟩
  · refine natDegree_comp_le.trans ?_
    rw [natDegree_X_add_C, mul_one]
    exact hdeg
  · rw [hev]
    rcases eq_or_lt_of_le j2 with rfl | j2
    · rw [h, p3]
      congr 1
      rw [Nat.cast_sub (by omega)]
      push_cast; ring
    · have := p2 (j + k - 1).toNat (by omega)
      rw [show (((j + k - 1).toNat : Int) - k + 1) = j by omega] at this
      rw [← this]
      congr 1
      have : (((j + k - 1).toNat : Int) : K) = ((j + k - 1 : Int) : K) := by rw [Int.toNat_of_nonneg (by omega)]
      push_cast at this
      rw [this]; ring

/-! ### C71 -/

/-- C71. `update_bc(level, field)`, for a domain that is a box: it succeeds, and every ghost of the level on which a boundary condition acts gets
the value of the last condition (in the order of the conditions of the field, and of the directions of their regions) that acts on it. For
`Dirichlet<order>` the ghost is on the polynomial of degree at most `order` through the boundary value and the `order` inner cells, for
`Neumann<1>` the difference quotient across the boundary has the given value. (Conditions on the domain: it has at least as many cells as the
condition has ghosts, in the direction of the condition.) -/
theorem C71_imposed (g : BcReady n M level b w) (bcs : List (BcCond K)) (hbc : ∀ c ∈ bcs, GoodBc n M.dom w c) (u : Int → K) :
    ∃ u' val, updateBc n M bcs level u = some u' ∧ FieldIs n M.ref u' val ∧
      ∀ l1 c d l2, bcEntries bcs = l1 ++ (c, d) :: l2 → ∀ p i m, Imposes n M level c d p i → CellIs n M.ref level p m → WideFor n b c.kind.ghosts d.1 →
        (∀ y ∈ l2, ¬ ImposesGhost n M level y (walk n p i d.1)) →
        c.kind.Satisfied M.h0 level (fun j => val level (walk n p j d.1)) i (c.value d.1 m) := by
  obtain ⟨u', e, _, h, _⟩ := updateBc_spec g hbc u
  refine ⟨u', _, e, fieldIs_numOf g.refWF u', fun l1 c d l2 hl p i m hi hm hw hlast => ?_⟩
  have hx := mem_bcEntries.1 (show (c, d) ∈ bcEntries bcs by rw [hl]; simp)
  obtain ⟨_, _, _, _, _, i1, i2⟩ := id hi
  refine row_satisfied (hbc c hx.1).known M.h0 i1 i2 _ ?_
  have := h l1 (c, d) l2 hl p i hi hw hlast
  have hmm : mcell n M.ref level p = m := by
    obtain ⟨ml, yz, x, idx⟩ := m
    obtain ⟨rfl, rfl, hnum⟩ := hm
    obtain ⟨_, he⟩ := numbered_numOf g.refWF hnum
    have he : idx = numOf n M.ref ml (yz ++ [x]) := he
    simp [mcell, MCell.pt, ← he]
  rw [hmm] at this
  exact this

/-! ### C73 -/

omit [CharZero K] in
/-- C73. `update_bc(level, field)` changes no leaf, no cell of another level and no cell of the domain: only the values of cells of its level outside
the domain can change. -/
theorem C73_only_ghosts (g : BcReady n M level b w) (bcs : List (BcCond K)) (hbc : ∀ c ∈ bcs, GoodBc n M.dom w c) (u : Int → K) :
    ∃ u', updateBc n M bcs level u = some u' ∧
      (∀ i, (∀ p, (level, p, i) ∈ M.ref.numbered n → InBox b n p) → u' i = u i) ∧
      (∀ l p i, (l, p, i) ∈ M.ref.numbered n → l ≠ level → u' i = u i) ∧
      ∀ p i, M.cells.Mem n level p → (level, p, i) ∈ M.ref.numbered n → u' i = u i := by
  obtain ⟨u', e, hk, _, _⟩ := updateBc_spec g hbc u
  have main : ∀ i, (∀ p, (level, p, i) ∈ M.ref.numbered n → InBox b n p) → u' i = u i := by
    intro i hi
    refine hk i ?_
    rintro q hq ⟨p, v, k, ho, _, k1, _, rfl⟩ rfl
    exact ho.out (by omega) (hi _ (numOf_numbered g.refWF hq))
  refine ⟨u', e, main, fun l p i hp hl => main i fun q hq => ?_, fun p i hp hn => main i fun q hq => ?_⟩
  · exact absurd (number_inj g.numbers hp hq).1 hl
  · rw [← (number_inj g.numbers hn hq).2]
    exact g.leaves p hp

/-! ### C74 -/

/-- C74. The ghosts beyond those of the boundary conditions, up to the third, and the ghosts on the diagonals of the corners in dimension 2, are
extrapolated: the ghost `k` steps from the boundary is on the polynomial of degree at most `2 k - 2` through the `2 k - 1` cells before it on the
line (ghosts and inner cells, with their final values). -/
theorem C74_extrapolated (g : BcReady n M level b w) (bcs : List (BcCond K)) (hbc : ∀ c ∈ bcs, GoodBc n M.dom w c) (u : Int → K) :
    ∃ u' val, updateBc n M bcs level u = some u' ∧ FieldIs n M.ref u' val ∧
      ∀ p v (k : Nat), Outward n b p v → (∀ d ≤ n, v d ≠ 0 → M.periodic d = false) → M.ref.Mem n level (walk n p k v) →
        1 ≤ k → k ≤ 3 → k ≤ M.cfg.ghostWidth → (OneAxis n v ∧ ∀ c ∈ bcs, c.kind.ghosts < k) ∨ (n = 1 ∧ v 0 ≠ 0 ∧ v 1 ≠ 0) →
        Extrapolated (fun j => val level (walk n p j v)) k := by
  obtain ⟨u', e, _, _, h⟩ := updateBc_spec g hbc u
  refine ⟨u', _, e, fieldIs_numOf g.refWF u', fun p v k ho hper hm k1 k3 kg hv => row_extrapolated k1 k3 ?_⟩
  obtain ⟨dir, hdir, hdv⟩ := boxDirections_complete ho.2.1.1
  have hcv : ∀ d ≤ n, convDir n dir d = v d := by
    rcases hv with ⟨hax, _⟩ | ⟨hn, _, _⟩
    · have hax' : OneAxis n dir := by
        obtain ⟨d, hd, hne, hz⟩ := hax
        exact ⟨d, hd, by rw [hdv d hd]; exact hne, fun q hq hqd => by rw [hdv q hq]; exact hz q hq hqd⟩
      intro d hd
      rw [convDir_axis hax' d hd, hdv d hd]
    · intro d hd
      rw [convDir_le_one (by omega) dir d hd, hdv d hd]
  have hE : Extrapolates n M level b k (decide (k ≤ maxStencilSize bcs / 2)) false dir p := by
    refine ⟨fun d hd hne => hper d hd (by rw [← hdv d hd]; exact hne), fun hdg hax => ?_, ?_, ho.congr fun d hd => (hdv d hd).symm, ?_, fun h => absurd h (by decide)⟩
    · rcases hv with ⟨_, hlt⟩ | ⟨hn, h0, h1⟩
      · have := maxStencil_lt k1 bcs hlt
        have hle : k ≤ maxStencilSize bcs / 2 := by simpa using hdg
        omega
      · obtain ⟨d, hd, _, hz⟩ := hax
        by_cases hd0 : d = 0
        · exact h1 (by rw [← hdv 1 (by omega)]; exact hz 1 (by omega) (by omega))
        · exact h0 (by rw [← hdv 0 (by omega)]; exact hz 0 (by omega) (by omega))
    · rcases hv with ⟨⟨d, hd, hne, hz⟩, _⟩ | ⟨hn, h0, h1⟩
      · exact .inl ⟨d, hd, by rw [hdv d hd]; exact hne, fun q hq hqd => by rw [hdv q hq]; exact hz q hq hqd⟩
      · refine .inr ⟨.inl hn, fun d hd => ?_⟩
        rw [hdv d hd]
        rcases (by omega : d = 0 ∨ d = 1) with rfl | rfl <;> assumption
    · rw [walk_congr hdv]; exact hm
  have := h k dir p k1 k3 kg hdir hE
  simp only [walk_congr hcv] at this
  exact this

/-! ### C75 -/

omit [CharZero K] in
/-- C75. The ghosts that `update_bc` never gives a value: those that are on no line that leaves the domain along an axis, or in dimensions 2 and 3
along a diagonal of the first two coordinates, and those more than three cells from the boundary and further than the ghosts of the conditions. -/
theorem C75_untouched (g : BcReady n M level b w) (bcs : List (BcCond K)) (hbc : ∀ c ∈ bcs, GoodBc n M.dom w c) (u : Int → K) :
    ∃ u', updateBc n M bcs level u = some u' ∧ ∀ q i, (level, q, i) ∈ M.ref.numbered n →
      (∀ p v (k : Nat), Outward n b p v → 1 ≤ k → q = walk n p k v →
        (3 < k ∧ ∀ c ∈ bcs, c.kind.ghosts < k) ∨ ¬ OneAxis n v ∧ ¬ (1 ≤ n ∧ n ≤ 2 ∧ v 0 ≠ 0 ∧ v 1 ≠ 0 ∧ ∀ d ≤ n, 2 ≤ d → v d = 0)) → u' i = u i := by
  obtain ⟨u', e, hk, _, _⟩ := updateBc_spec g hbc u
  refine ⟨u', e, fun q i hq hno => hk i ?_⟩
  rintro q' hq' ⟨p, v, k, ho, hline, k1, hk3, rfl⟩ rfl
  obtain ⟨_, rfl⟩ := number_inj g.numbers hq (numOf_numbered g.refWF hq')
  rcases hno p v k ho k1 rfl with ⟨h1, h2⟩ | ⟨h1, h2⟩
  · rcases hk3 with h | ⟨c, hc, h⟩
    · omega
    · have := h2 c hc; omega
  · rcases hline with h | ⟨hn, a, c, hz⟩
    · exact h1 h
    · exact h2 ⟨by omega, by omega, a, c, fun d _ hd => hz d hd⟩

end

/-! ### C72 -/

/-- C72, `OnDirection` and the default. The region of a boundary condition given by directions (dimensions 1 to 3): every nonzero direction of the list
has its region, in order; for a direction along an axis it is exactly the set of the cells of the domain whose neighbour in this direction is
outside the domain. The default, all the directions, has such a region for every direction along an axis. -/
theorem C72_directions (n : Nat) (hn : n ≤ 2) (dom : LCA) (hw : dom.WF n) (hr : ∃ D : Int, 0 ≤ D ∧ D + 8 < INT_MAX ∧ dom.BelowAt n dom.level D) :
    (∀ dirs : List (Nat → Int), (∀ v ∈ dirs, UnitVector n v) → ∃ R, onDirectionRegion n dom dirs = some R ∧ R.map Prod.fst = dirs ∧
      ∀ d ∈ R, d.2.WF n ∧ d.2.level = dom.level ∧ (OneAxis n d.1 → ∀ p, d.2.Mem n p ↔ dom.Mem n p ∧ ¬ dom.Mem n (shiftPoint d.1 n p))) ∧
    ∃ R, everywhereRegion n dom = some R ∧
      (∀ d ∈ R, OneAxis n d.1 → BdryRegion n dom d.1 d.2 ∧ ∀ p, d.2.Mem n p ↔ dom.Mem n p ∧ ¬ dom.Mem n (shiftPoint d.1 n p)) ∧
      ∀ v, UnitVector n v → OneAxis n v → ∃ d ∈ R, ∀ k ≤ n, d.1 k = v k := by
  obtain ⟨D, h0, hD, hb⟩ := hr
  constructor
  · intro dirs hd
    obtain ⟨R, r1, r2, r3, r4⟩ := onDirectionRegion_spec hw h0 hD hb hn dirs fun v hv => (hd v hv).1
    refine ⟨R, r1, ?_, fun d hd' => ⟨(r4 d hd').2.1, (r4 d hd').2.2.1, (r4 d hd').2.2.2.1⟩⟩
    have all : ∀ (dirs : List (Nat → Int)), (∀ v ∈ dirs, UnitVector n v) → ∀ R, onDirectionRegion n dom dirs = some R → R.map Prod.fst = dirs := by
      intro dirs
      induction dirs with
      | nil => intro _ R h; cases h; rfl
      | cons a dirs ih =>
        intro hl R h
        unfold onDirectionRegion at h
        rcases directionRegion_spec hw h0 hD hb hn (hl a (by simp)).1 with ⟨hz, _⟩ | ⟨_, L, e, _⟩
        · exact absurd (hl a (by simp)) hz
        · rw [e] at h
          cases hR : onDirectionRegion n dom dirs with
          | none => rw [hR] at h; simp at h
          | some R' =>
            rw [hR] at h
            simp only [Option.some.injEq] at h
            subst h
            simp only [List.cons_append, List.nil_append, List.map_cons]
            rw [ih (fun v hv => hl v (List.mem_cons_of_mem _ hv)) R' hR]
    exact all dirs hd R r1
  · obtain ⟨R, r1, r2, r3, r4⟩ := onDirectionRegion_spec hw h0 hD hb hn (boxDirections n) fun v hv => boxDirections_unit hv
    refine ⟨R, r1, fun d hd hax => ?_, fun v hv hax => ?_⟩
    · obtain ⟨a1, a2, a3, a4, _⟩ := r4 d hd
      exact ⟨⟨a2, a3, fun q hq => (a4 hax q).1 hq⟩, a4 hax⟩
    · obtain ⟨dir, hdir, he⟩ := boxDirections_complete hv.1
      have hu : UnitVector n dir := by
        obtain ⟨h1, d, hd, hne⟩ := hv
        exact ⟨fun q hq => by rw [he q hq]; exact h1 q hq, d, hd, by rw [he d hd]; exact hne⟩
      obtain ⟨d, hd, rfl⟩ := List.mem_map.1 (r3 dir hdir hu)
      exact ⟨d, hd, he⟩

/-- C72, `CoordsRegion`: a region given by a function of the coordinates holds, for each direction along an axis, the cells of the domain whose
neighbour in this direction is outside the domain and whose face satisfies the function, and nothing else. -/
theorem C72_coords (n : Nat) (dom : LCA) (hw : dom.WF n) (hr : ∃ D : Int, 0 ≤ D ∧ D + 8 < INT_MAX ∧ dom.BelowAt n dom.level D)
    (f : (Nat → Int) → List Int → Bool) (hf : ∀ v v' p, (∀ k ≤ n, v k = v' k) → f v p = f v' p) :
    ∃ R, coordsRegion n dom f (boxDirections n) = some R ∧
      (∀ d ∈ R, UnitVector n d.1 ∧ OneAxis n d.1 ∧ BdryRegion n dom d.1 d.2) ∧
      ∀ v p, UnitVector n v → OneAxis n v →
        ((∃ d ∈ R, (∀ k ≤ n, d.1 k = v k) ∧ d.2.Mem n p) ↔ dom.Mem n p ∧ ¬ dom.Mem n (shiftPoint v n p) ∧ f v p = true) := by
  obtain ⟨D, h0, hD, hb⟩ := hr
  obtain ⟨R, r1, r2, r3, r4⟩ := coordsRegion_spec hw h0 hD hb f (boxDirections n) fun v hv => boxDirections_unit hv
  refine ⟨R, r1, fun d hd => ?_, fun v p hv hax => ?_⟩
  · obtain ⟨a1, a2, a3, a4, a5⟩ := r4 d hd
    exact ⟨a1, a2, a3, a4, fun q hq => ⟨((a5 q).1 hq).1, ((a5 q).1 hq).2.1⟩⟩
  · constructor
    · rintro ⟨d, hd, he, hm⟩
      obtain ⟨a1, a2, a3⟩ := ((r4 d hd).2.2.2.2 p).1 hm
      refine ⟨a1, ?_, by rw [← hf d.1 v p he]; exact a3⟩
      rw [← shift_congr p n he]; exact a2
    · rintro ⟨a1, a2, a3⟩
      obtain ⟨dir, hdir, he⟩ := boxDirections_complete hv.1
      have hax' : OneAxis n dir := by
        obtain ⟨d, hd, hne, hz⟩ := hax
        exact ⟨d, hd, by rw [he d hd]; exact hne, fun q hq hqd => by rw [he q hq]; exact hz q hq hqd⟩
      have hb' : dom.Mem n p ∧ ¬ dom.Mem n (shiftPoint dir n p) ∧ f dir p = true := by
        refine ⟨a1, ?_, by rw [hf dir v p he]; exact a3⟩
        rw [shift_congr p n he]; exact a2
      obtain ⟨d, hd, rfl⟩ := List.mem_map.1 (r3 dir hdir hax' ⟨p, hb'⟩)
      exact ⟨d, hd, he, ((r4 d hd).2.2.2.2 p).2 hb'⟩

/-- C72 for the diagonal directions. In dimension 2 the region of a diagonal direction is the corner; in dimension 3 the region of a direction with two
nonzero components (an edge of a box) is empty, whatever the domain: the set removes the cells with a neighbour in the domain in each of the
coordinates, and the third translation is the identity. -/
theorem C72_edges_refuted (dom : LCA) (hw : dom.WF 2) (hr : ∃ D : Int, 0 ≤ D ∧ D + 8 < INT_MAX ∧ dom.BelowAt 2 dom.level D)
    (dir : Nat → Int) (hu : UnitVector 2 dir) (hax : ¬ OneAxis 2 dir) (hz : ∃ d ≤ 2, dir d = 0) :
    ∃ L, directionRegion 2 dom dir = some [(dir, L)] ∧ ∀ p, ¬ L.Mem 2 p := by
  obtain ⟨D, h0, hD, hb⟩ := hr
  rcases directionRegion_spec hw h0 hD hb le_rfl hu.1 with ⟨h, _⟩ | ⟨_, L, e, _, _, _, h⟩
  · exact absurd hu h
  · refine ⟨L, e, fun p hp => ?_⟩
    obtain ⟨d, hd, hz⟩ := hz
    obtain ⟨h1, h2⟩ := (h hax p).1 hp
    refine h2 d hd ?_
    have : only dir d = fun _ => 0 := by
      funext k
      unfold only
      split
      · exact hz
      · rfl
    rw [this, shift_zero]
    exact h1

/-! ### meshes that meet the hypotheses -/

theorem inBox_coord {b : Box} : ∀ {n : Nat} {p : List Int}, InBox b n p → ∀ x ∈ p, ∃ d ≤ n, b.lo d ≤ x ∧ x < b.hi d := by
  intro n
  induction n with
  | zero =>
    intro p h x hx
    match p, h with
    | [y], h =>
      simp only [List.mem_singleton] at hx
      subst hx
      exact ⟨0, le_rfl, h⟩
  | succ n ih =>
    intro p h x hx
    match p, h with
    | c :: p, h =>
      rcases List.mem_cons.1 hx with rfl | hx
      · exact ⟨n + 1, le_rfl, h.1⟩
      · obtain ⟨d, hd, h'⟩ := ih h.2 x hx
        exact ⟨d, by omega, h'⟩

theorem near_coord {w : Nat} {p q : List Int} (h : Near w p q) : ∀ x ∈ p, ∃ y ∈ q, x ≤ y + w := by
  induction h with
  | nil => intro x hx; simp at hx
  | cons h1 _ ih =>
    intro x hx
    rcases List.mem_cons.1 hx with rfl | hx
    · exact ⟨_, List.mem_cons_self, h1.1⟩
    · obtain ⟨y, hy, h⟩ := ih x hx
      exact ⟨y, List.mem_cons_of_mem _ hy, h⟩

/-- Near in coordinates. -/
theorem near_iff_toPt {w n : Nat} {p q : List Int} (hp : p.length = n + 1) (hq : q.length = n + 1) :
    Near w p q ↔ ∀ d ≤ n, toPt p d ≤ toPt q d + w ∧ toPt q d ≤ toPt p d + w := by
  induction n generalizing p q with
  | zero =>
    match p, q, hp, hq with
    | [x], [y], _, _ =>
      constructor
      · intro h d hd
        obtain rfl : d = 0 := by omega
        cases h with
        | cons h _ => exact h
      · intro h
        exact List.Forall₂.cons (h 0 le_rfl) List.Forall₂.nil
  | succ n ih =>
    match p, q, hp, hq with
    | c :: p, e :: q, hp, hq =>
      have hp' : p.length = n + 1 := by simpa using hp
      have hq' : q.length = n + 1 := by simpa using hq
      constructor
      · intro h d hd
        cases h with
        | cons h1 h2 =>
          rcases Nat.eq_or_lt_of_le hd with rfl | hd
          · have a := toPt_cons_eq c p
            have b := toPt_cons_eq e q
            rw [hp'] at a
            rw [hq'] at b
            rw [a, b]; exact h1
          · rw [toPt_cons_lt c p (by omega), toPt_cons_lt e q (by omega)]
            exact (ih hp' hq').1 h2 d (by omega)
      · intro h
        refine List.Forall₂.cons ?_ ((ih hp' hq').2 fun d hd => ?_)
        · have := h (n + 1) le_rfl
          have a := toPt_cons_eq c p
          have b := toPt_cons_eq e q
          rw [hp'] at a
          rw [hq'] at b
          rw [a, b] at this
          exact this
        · have := h d (by omega)
          rw [toPt_cons_lt c p (by omega), toPt_cons_lt e q (by omega)] at this
          exact this

/-- Every uniform multiresolution mesh on a box (`min_level = max_level`) meets `BcReady`, whatever its dimension, level, size and ghost width. -/
theorem bcReady_uniform {K : Type} {n : Nat} {cfg : MeshConfig} {cells : CA} {level : Nat} {b : Box} {m : SubMeshes} {u : CA} {dom : LCA}
    (hprop : cells.Proper n level level (cfg.maxStencilWidth + cfg.predictionOrder + 1)) (hc : ∀ p, cells.Mem n level p ↔ InBox b n p)
    (hd : BoxDomain n dom level b) (hdl : dom.level = level) (hm : mrMesh n cfg cells level level = some (m, u)) {B : Int} (hB0 : 0 ≤ B)
    (hB : B + cfg.maxStencilWidth + 8 * 2 ^ level + 3 < INT_MAX) (hhi : ∀ d ≤ n, b.hi d ≤ B) (periodic : Nat → Bool) (h0 : K) :
    BcReady n (⟨m.cells, m.all, dom, level, level, periodic, h0, cfg⟩ : BcMesh K) level b cfg.maxStencilWidth := by
  obtain ⟨m', u', r1, r2⟩ := mrMesh_spec hprop
  rw [hm] at r1
  obtain ⟨rfl, rfl⟩ : m = m' ∧ u = u' := by simpa using r1
  obtain ⟨m0, c1, c2, c3, c4, c5⟩ := r2.content
  have hall : ∀ p, m.all.Mem n level p ↔ ∃ q, InBox b n q ∧ Near cfg.maxStencilWidth p q := fun p => by
    rw [c5, (c1.flat rfl).1, c1.ghosts]
    simp only [hc]
  have hls : level ≤ cells.maxSize := hprop.size
  have l1 : level ≤ m.cells.maxSize := by rw [r2.cellsLevels.1]; exact hls
  have l2 : level ≤ m.all.maxSize := by rw [r2.size]; exact hls
  refine ⟨r2.wf.1, r2.wf.2.2.2, ⟨l1, r2.cellsLevels.2 level l1⟩, ⟨l2, r2.allLevels level l2⟩, ?_, hd, fun p hp => (hc p).1 ((c2 _ _).1 hp),
    fun p q hq hn => (hall p).2 ⟨q, (hc q).1 ((c2 _ _).1 hq), hn⟩, ?_, B + cfg.maxStencilWidth, by omega, ?_, ?_, ?_, ?_⟩
  · unfold CA.NumbersDiffer
    show ((m.all.numbered n).map _).Nodup
    rw [r2.numbers]
    exact List.nodup_range.map fun a b h => by exact_mod_cast h
  · intro p v k ho k1 _ hmem v' hv' j j1 j2
    have hmem : m.all.Mem n level (walk n p k v) := hmem
    show m.all.Mem n level (walk n p j v')
    rw [hall] at hmem ⊢
    obtain ⟨q, hq, hn⟩ := hmem
    have hql := (inBox_iff.1 hq).1
    have hwl : (walk n p k v).length = n + 1 := by rw [walk_length, ho.length]
    have hkw : (k : Int) ≤ cfg.maxStencilWidth := by
      obtain ⟨d, hd', hne⟩ := ho.2.1.2
      have h1 := (near_iff_toPt hwl hql).1 hn d hd'
      have h2 := (inBox_iff.1 hq).2 d hd'
      rcases ho.coord (i := k) (by omega) hd' with ⟨h, _⟩ | ⟨_, h, _⟩ | ⟨_, h, _⟩
      · exact absurd h hne
      · omega
      · omega
    refine ⟨p, ho.1, near_walk (n := n) (fun d hd' => ?_) le_rfl ho.length (by omega) (by omega)⟩
    rcases hv' d hd' with h | h
    · rw [h]; exact ho.2.1.1 d hd'
    · right; left; exact h
  · show B + cfg.maxStencilWidth + 8 * 2 ^ dom.level + 2 < INT_MAX
    rw [hdl]; omega
  · show dom.BelowAt n dom.level _
    intro p hp x hx
    rw [hd.mem, hdl, Nat.sub_self] at hp
    obtain ⟨d, hd', _, h⟩ := inBox_coord hp x hx
    have := hhi d hd'
    simp only [Box.refined, pow_zero, mul_one] at h
    rw [Nat.sub_self, pow_zero]; omega
  · show (m.cells.lca level).BelowAt n dom.level _
    intro p hp x hx
    obtain ⟨d, hd', _, h⟩ := inBox_coord ((hc p).1 ((c2 _ _).1 ⟨l1, hp⟩)) x hx
    have := hhi d hd'
    rw [r2.cellsLevels.2 level l1, hdl, Nat.sub_self, pow_zero]; omega
  · show (m.all.lca level).BelowAt n dom.level _
    intro p hp x hx
    obtain ⟨q, hq, hn⟩ := (hall p).1 ⟨l2, hp⟩
    obtain ⟨y, hy, hxy⟩ := near_coord hn x hx
    obtain ⟨d, hd', _, h⟩ := inBox_coord hq y hy
    have := hhi d hd'
    rw [r2.allLevels level l2, hdl, Nat.sub_self, pow_zero]; omega

end Samurai

/-
C99, C100, C101: the details of the adaptation, their thresholds, and what the adaptation makes of a uniform field.
-/
import Verif.Lemmas.Uniform

namespace Samurai

section
variable {K : Type} [Field K]

/-- C99. On every mesh made from good leaves, for every array of values and every iteration, the details are computed (each cell read is in the mesh):
the sibling of a leaf of a level the iteration looks at, and the parent of such a leaf, get their value minus the prediction from the level below, and
all the other cells of the mesh get 0. The values read are those of cells of the mesh. -/
theorem C99_details (n : Nat) (hn : n ≤ 2) (cfg : MeshConfig) (ho : 1 ≤ cfg.predictionOrder) (cells : CA) (dom : LCA) (minL maxL : Nat)
    (g : GoodLeaves n cells dom minL maxL) (hd : GoodDomain n dom minL maxL (cfg.maxStencilWidth + cfg.predictionOrder + 3)) (hlt : minL < maxL)
    (ite : Nat) :
    ∃ m x, mrMesh n cfg cells minL maxL = some (m, x) ∧
      ∀ (u : Int → K) (val : Nat → List Int → K), FieldIs n m.all u val →
        ∃ dt, computeDetails n cfg.predictionOrder minL maxL ite m.cells m.all u = some dt ∧
          ∀ l p i, (l, p, i) ∈ m.all.numbered n →
            (HasDetail n cells maxL ite l p → dt i = detailAt n cfg.predictionOrder val l p) ∧ (¬ HasDetail n cells maxL ite l p → dt i = 0) := by
  obtain ⟨m, x, h1, h2, h3⟩ := adaptInv_init' (cfg := cfg) hd (by omega) g
  refine ⟨m, x, h1, fun u val hval => ?_⟩
  obtain ⟨c0, hc⟩ := h2.mesh
  have hw := hc.wf.2.2.2
  obtain ⟨dt, a1, a2, a3⟩ := details_values (gw := 0) h2 hd hlt hn ho ite u
  have hiff : ∀ l p, HasDetail n m.cells maxL ite l p ↔ HasDetail n cells maxL ite l p := fun l p => by
    unfold HasDetail
    simp only [h3]
  refine ⟨dt, a1, fun l p i hi => ?_⟩
  obtain ⟨hm, rfl⟩ := numbered_numOf hw hi
  refine ⟨fun hh => ?_, fun hh => a3 l p hm fun h => hh ((hiff l p).1 h)⟩
  have hh' := (hiff l p).2 hh
  refine ((a2 l p hh').2).trans ?_
  have hv : ∀ l p, m.all.Mem n l p → fieldAt n m.all u l p = val l p := fun l p hp => hval l p _ (numOf_numbered hw hp)
  obtain ⟨-, b2⟩ := hasDetail_reads h2 hlt hh'
  unfold detailAt
  rw [hv l p hm]
  refine congrArg₂ _ rfl (predictFine_congr fun s hs => hv _ _ (b2 _ ?_))
  have hpl := mem_length hm.2
  refine (near_iff_toPt (ofPt_length _ _) (by simpa [parentOf] using hpl)).2 fun d hd => ?_
  have := (mem_offsetsFrom.1 hs).1 d hd
  rw [show parentOf p = p.map fun y => shr y 1 from rfl, toPt_half hpl (by omega), toPt_ofPt _ (by omega),
    show parentPt (toPt p) d = toPt p d / 2 from shr_one_eq _]
  push_cast at this
  omega

end

section
variable {K : Type} [Field K] [LinearOrder K] [IsStrictOrderedRing K]

/-- C100. One step of the adaptation with `eps` and the regularity, for every field, on a mesh made from good leaves (default configuration, no periodic
direction, a box): with the values of the field after the update of the ghosts (C76) and their details (C99),
* a leaf of a level below `max_level` that the iteration looks at, whose detail is above `factor * eps_l`, is replaced by its children;
* a leaf is replaced by its parent only if the details of the whole family are below `eps_l`, the detail of the parent is not above `factor` times the
  threshold of its level, and the detail of the leaf is not above `factor * eps_l`;
* the leaves that stay keep their values, the new ones get the mean of the children or the prediction.
`eps_l` is `eps / 2^(dim (max_level - l))` and `factor` is `2^(regularity + dim)`. The levels are such that `1 << dim (max_level - min_level)` is an
`int`: `C100_wide_levels_refuted` says what happens otherwise. -/
theorem C100_thresholds_partial (n : Nat) (hn : n ≤ 2) (cfg : MeshConfig) (gw : Nat) (cells : CA) (dom : LCA) (minL maxL base : Nat) (b : Box)
    (st : BoxSetup n cfg dom minL maxL base b) (g : GoodLeaves n cells dom minL maxL)
    (hd : GoodDomain n dom minL maxL (cfg.maxStencilWidth + cfg.predictionOrder + gw + 3)) (hmin : 1 ≤ minL) (hlt : minL < maxL)
    (hsh : (n + 1) * (maxL - minL) < 31) (h0 : K) (bcs : List (BcCond K)) (hbc : ∀ c ∈ bcs, GoodBc n dom cfg.maxStencilWidth c)
    (enlarge : Bool) (eps factor : K) (ite : Nat) (hite : ite ≤ maxL - minL) (f : CellField K) :
    ∃ m x u val stop m' x' f', mrMesh n cfg cells minL maxL = some (m, x) ∧ ghostArray n cfg minL maxL dom h0 bcs m f = some u ∧ FieldIs n m.all u val ∧
      (∀ l p, cells.Mem n l p → val l p = f l p) ∧
      adaptStep n cfg gw minL maxL enlarge dom h0 bcs eps factor ite m x f = some (stop, m', x', f') ∧
      (∀ l p, cells.Mem n l p → l < maxL → l ≤ maxL - ite → factor * threshold n maxL eps l < |detailAt n 1 val l p| →
        ∀ c, Anc 1 p c → m'.cells.Mem n (l + 1) c) ∧
      (∀ l p c, m'.cells.Mem n l p → cells.Mem n (l + 1) c → Anc 1 p c →
        minL ≤ l ∧ l + 1 ≤ maxL - ite ∧ (∀ c', Anc 1 p c' → |detailAt n 1 val (l + 1) c'| < threshold n maxL eps (l + 1)) ∧
        |detailAt n 1 val l p| ≤ factor * threshold n maxL eps l ∧
        (l + 1 < maxL → |detailAt n 1 val (l + 1) c| ≤ factor * threshold n maxL eps (l + 1))) ∧
      Transferred n 1 cells m'.cells val f' := by
  obtain ⟨m, x, h1, h2, h3⟩ := adaptInv_init' (cfg := cfg) hd (by omega) g
  have ho : 1 ≤ cfg.predictionOrder := by rw [st.order]
  obtain ⟨u, S, e1, -, e2, e3, -⟩ := ghostArray_ok hn st h2 (hd.mono (by omega)) (by omega) h0 bcs hbc f
  obtain ⟨dt, d1, d2, d3⟩ := adaptStep_eq hn h2 hd hlt ho hsh e1 enlarge eps factor ite
  obtain ⟨c0, hc⟩ := h2.mesh
  obtain ⟨stop, m', x', f', k1, k2⟩ := large_refined h2 enlarge (detailMasks n maxL eps factor m.all dt) (fieldAt n m.all u) hd hmin hlt hite
  obtain ⟨_, _, _, _, q1, q2⟩ := small_coarsened h2 enlarge (detailMasks n maxL eps factor m.all dt) (fieldAt n m.all u) hd hmin hlt hite
  rw [k1] at q1
  simp only [Option.some.injEq, Prod.mk.injEq] at q1
  obtain ⟨rfl, rfl, rfl, rfl⟩ := q1
  obtain ⟨t, b', m2, x2, f2, r1, r2, r3, r4, r5, r6, r7, r8, r9⟩ := harten_spec h2 hd hmin (by omega) hite enlarge (detailMasks n maxL eps factor m.all dt)
    (fieldAt n m.all u)
  rw [k1] at r4
  simp only [Option.some.injEq, Prod.mk.injEq] at r4
  obtain ⟨rfl, rfl, rfl, rfl⟩ := r4
  obtain ⟨b3, m3, x3, f3, s1, s2, s3, s4, s5⟩ := updateFieldMr_spec (cfg := cfg) (tag := tagArray n m.all t) (u := x) (by omega : minL ≤ maxL)
    (h2.proper hd (by omega)) h2.leaves.noOverlap (fieldAt n m.all u)
  rw [r5] at s1
  simp only [Option.some.injEq, Prod.mk.injEq] at s1
  obtain ⟨rfl, rfl, rfl, rfl⟩ := s1
  have tr := s4 r7
  rw [st.order] at tr d2
  refine ⟨m, x, u, fieldAt n m.all u, stop, m', x', f', h1, e1, fieldIs_numOf hc.wf.2.2.2 u, fun l p hp => e2 l p ((h3 l p).2 hp), d1.trans k1,
    fun l p hp hl hi hlarge => ?_, fun l p c hp hcm hcp => ?_, ⟨fun l p hp => tr.kept l p ((h3 l p).2 hp), fun l p q hp hq => tr.coarse l p q hp ((h3 _ _).2 hq),
      fun l p q hp => tr.fine l p q ((h3 _ _).2 hp)⟩⟩
  · have hb := g.between l p hp
    have hm := (h3 l p).2 hp
    refine k2 l p hm hl hi ((mask_large hsh hb.1 p).2 ?_)
    rwa [(d2 l p ⟨by omega, .inl ⟨hi, p, parentOf p, hm, anc_one.2 rfl, anc_one.2 rfl⟩⟩).2]
  · have hm := (h3 _ _).2 hcm
    obtain ⟨q1, q3, q4, q5, q6⟩ := q2 l p c hp hm hcp
    have hdet : ∀ c', Anc 1 p c' → fieldAt n m.all dt (l + 1) c' = detailAt n 1 (fieldAt n m.all u) (l + 1) c' := fun c' hc' =>
      (d2 _ _ ⟨by omega, .inl ⟨q3, c, p, hm, hcp, hc'⟩⟩).2
    have hsmall : ∀ c', Anc 1 p c' → (n = 0 → c' = p.map fun y => 2 * y) → |detailAt n 1 (fieldAt n m.all u) (l + 1) c'| < threshold n maxL eps (l + 1) := by
      intro c' hc' h0'
      rw [← hdet c' hc']
      exact (mask_small hsh (by omega) c').1 (q4 c' hc' h0')
    refine ⟨q1, q3, fun c' hc' => ?_, ?_, fun hlm => ?_⟩
    · by_cases hn0 : n = 0
      · subst hn0
        obtain ⟨y, rfl⟩ : ∃ y, p = [y] := List.length_eq_one_iff.1 (mem_length hp.2)
        have hfirst := hsmall [2 * y] (anc_one.2 (by simp [parentOf, shr_one_eq])) fun _ => rfl
        have hl' : c'.length = 1 := (anc_length' hc').symm
        obtain ⟨z, rfl⟩ : ∃ z, c' = [z] := List.length_eq_one_iff.1 hl'
        have hz := anc_one.1 hc'
        simp only [parentOf, List.map_cons, List.map_nil, List.cons.injEq, and_true, shr_one_eq] at hz
        rcases (by omega : z = 2 * y ∨ z = 2 * y + 1) with rfl | rfl
        · exact hfirst
        · have hpar : m.all.Mem 0 l [y] := by
            have := hc.parent' (by omega) h2.leaves.noOverlap (l := l + 1) (by omega) hm
            rwa [anc_one.1 hcp] at this
          have hmean := (e3 l [y] hpar (by omega) ⟨l + 1, c, by omega, hm, by rw [show l + 1 - l = 1 by omega]; exact hcp⟩).1
          rw [details_opposite le_rfl hmean, abs_neg]
          exact hfirst
      · exact hsmall c' hc' fun h => absurd h hn0
    · rw [← threshold_parent eps factor (by omega), ← (d2 l p ⟨by omega, .inr ⟨q3, c, hm, hcp⟩⟩).2]
      by_contra hlp
      rw [not_le] at hlp
      rw [(mask_parent hsh q1 p).2 hlp] at q5
      exact absurd q5 (by decide)
    · rw [← hdet c hcp]
      by_contra hlp
      rw [not_le] at hlp
      rw [(mask_large hsh (by omega) c).2 hlp] at q6
      exact absurd (q6 hlm) (by decide)

/-- C100 does not hold when there are many levels: `1 << exponent` is a shift of an `int`, and `dim (max_level - min_level)` may be 31 or more (for
instance 16 levels above `min_level` in dimension 2, 11 in dimension 3). Whatever the mesh, the field and the conditions are, no step is defined, and the
adaptation is undefined. -/
theorem C100_wide_levels_refuted (n : Nat) (cfg : MeshConfig) (gw minL maxL : Nat) (hsh : 31 ≤ (n + 1) * (maxL - minL)) (enlarge : Bool) (dom : LCA) (h0 : K)
    (bcs : List (BcCond K)) (eps factor : K) (m : SubMeshes) (x : CA) (f : CellField K) :
    (∀ ite ≤ maxL - minL, adaptStep n cfg gw minL maxL enlarge dom h0 bcs eps factor ite m x f = none) ∧
      adaptMr n cfg gw minL maxL enlarge dom h0 bcs eps factor m x f = none := by
  have key : ∀ (f : CellField K) (ite : Nat), ite ≤ maxL - minL → adaptStep n cfg gw minL maxL enlarge dom h0 bcs eps factor ite m x f = none := by
    intro f ite hite
    unfold adaptStep
    split
    · rfl
    · split
      · rfl
      · rw [if_neg]
        intro hall
        rw [List.all_eq_true] at hall
        have hmm : minL ≤ maxL := by
          by_contra hlt
          rw [show maxL - minL = 0 by omega] at hsh
          omega
        have := hall minL (List.mem_range'_1.2 ⟨le_rfl, by omega⟩)
        unfold epsLevel at this
        rw [if_neg (by omega)] at this
        exact absurd this (by simp)
  refine ⟨fun ite hite => key f ite hite, ?_⟩
  unfold adaptMr
  rw [if_neg (fun h => by rw [h, Nat.sub_self, Nat.mul_zero] at hsh; omega)]
  split
  · rfl
  · have hpos : 0 < maxL - minL := Nat.pos_of_ne_zero fun h => by rw [h, Nat.mul_zero] at hsh; omega
    obtain ⟨j, hj⟩ : ∃ j, maxL - minL = j + 1 := ⟨maxL - minL - 1, by omega⟩
    rw [hj, List.range_eq_range', List.range'_succ]
    unfold adaptSteps
    rw [key _ 0 (by omega)]

/-- C101. The adaptation of a field that is uniform on the leaves, with boundary conditions on the whole boundary that hold for it (`Dirichlet` with the
value of the field, `Neumann` with 0), in dimensions 1 and 2 (default configuration, `graduation_width = 1`, without `enlarge`): from every mesh of good
leaves, for every positive `eps`, it terminates and gives the mesh of all the cells of the domain of level `min_level`, and the same uniform field. -/
theorem C101_uniform_field_partial (n : Nat) (hn : n ≤ 1) (cfg : MeshConfig) (cells : CA) (dom : LCA) (minL maxL base : Nat) (b : Box)
    (st : BoxSetup n cfg dom minL maxL base b) (g : GoodLeaves n cells dom minL maxL)
    (hd : GoodDomain n dom minL maxL (cfg.maxStencilWidth + cfg.predictionOrder + 4)) (hmin : 1 ≤ minL) (hmm : minL ≤ maxL)
    (hsh : (n + 1) * (maxL - minL) < 31) (h0 : K) (bcs : List (BcCond K)) (hbc : ∀ c ∈ bcs, GoodBc n dom cfg.maxStencilWidth c)
    (hcov : CoversBoundary n dom bcs) (k : K) (hk : ∀ c ∈ bcs, c.HoldsFor k) (eps factor : K) (he : 0 < eps) (hfa : 0 < factor)
    (f : CellField K) (hf : ∀ l p, cells.Mem n l p → f l p = k) :
    ∃ m x m' x' f', mrMesh n cfg cells minL maxL = some (m, x) ∧
      adaptMr n cfg 1 minL maxL false dom h0 bcs eps factor m x f = some (m', x', f') ∧
      (∀ l p, m'.cells.Mem n l p ↔ l = minL ∧ InBox (b.refined (minL - base)) n p) ∧ ∀ p, m'.cells.Mem n minL p → f' minL p = k := by
  obtain ⟨m, x, h1, h2, h3⟩ := adaptInv_init' (cfg := cfg) hd (by omega) g
  have final : ∀ {m' : SubMeshes} {x' : CA}, AdaptInv n cfg dom minL maxL m' x' → (∀ l p, m'.cells.Mem n l p → l ≤ minL) →
      ∀ l p, m'.cells.Mem n l p ↔ l = minL ∧ InBox (b.refined (minL - base)) n p := by
    intro m' x' h' hl l p
    have hbase := st.coarse
    have hlev := st.level
    have hbox := st.box.finer (show base ≤ minL by omega) (by omega)
    constructor
    · intro hp
      have h5 := hl l p hp
      have h6 := h'.leaves.between l p hp
      obtain rfl : l = minL := by omega
      exact ⟨rfl, leaf_inBox h'.leaves hbox (by omega) hp le_rfl (by rw [Nat.sub_self]; exact anc_zero.2 rfl)⟩
    · rintro ⟨rfl, hp⟩
      obtain ⟨c, hcp⟩ := anc_exists (maxL - l) p
      obtain ⟨l', q, a1, a2, a3⟩ := box_tiled h'.leaves hbox (by omega) hp hcp
      have h5 := hl l' q a2
      have h6 := h'.leaves.between l' q a2
      obtain rfl : l' = l := by omega
      rwa [anc_unique hcp a3]
  rcases Nat.eq_or_lt_of_le hmm with rfl | hlt
  · refine ⟨m, x, m, x, f, h1, by unfold adaptMr; rw [if_pos rfl], final h2 fun l p hp => (h2.leaves.between l p hp).2,
      fun p hp => hf _ p ((h3 _ p).1 hp)⟩
  · have hf' : ∀ l p, m.cells.Mem n l p → f l p = k := fun l p hp => hf l p ((h3 l p).1 hp)
    obtain ⟨u, e1, e2, -⟩ := uniform_values hn st h2 (hd.mono (by omega)) (by omega) h0 bcs hbc hcov hk f hf'
    obtain ⟨m', x', f', a1, a2, a3, a4⟩ := uniform_steps hn st hd hmin hlt hsh h0 bcs hbc hcov hk he hfa (maxL - minL) 0 m x (fieldAt n m.all u) (by omega) h2 e2
      fun l p hp => (h2.leaves.between l p hp).2
    refine ⟨m, x, m', x', f', h1, ?_, final a2 a4, fun p hp => a3 _ p hp⟩
    unfold adaptMr
    rw [if_neg (by omega), e1]
    simp only []
    rw [List.range_eq_range']
    exact a1

end

end Samurai

/-
Examples for C99, C100, C101.
-/
import Verif.Props.Details
import Verif.Props.GhostExample
import Verif.Props.PetscExample

namespace Samurai

theorem cornerSetup : BoxSetup 1 ⟨1, 1⟩ squareDomain 1 2 0 ⟨fun _ => 0, fun _ => 1⟩ :=
  ⟨rfl, rfl, cornerDomain_box, rfl, by omega, 4, by omega, by decide, fun _ _ => by show (1 : Int) * 2 ^ 2 ≤ 4; decide⟩

theorem segSetup : BoxSetup 0 ⟨1, 1⟩ segDomain 1 2 0 ⟨fun _ => 0, fun _ => 1⟩ :=
  ⟨rfl, rfl, segDomain_box, rfl, by omega, 4, by omega, by decide, fun _ _ => by show (1 : Int) * 2 ^ 2 ≤ 4; decide⟩

/-- C99 on the square with four leaves of level 2 in a corner: the leaf (2, 3) of level 2 and its parent have a detail, the ghost (1, 2) of level 2 inside
a leaf of level 1 has the detail 0. -/
example (u : Int → Rat) : ∃ m x dt val i j k, mrMesh 1 ⟨1, 1⟩ cornerMesh 1 2 = some (m, x) ∧ FieldIs 1 m.all u val ∧
    computeDetails 1 1 1 2 0 m.cells m.all u = some dt ∧
    (2, [3, 2], i) ∈ m.all.numbered 1 ∧ dt i = detailAt 1 1 val 2 [3, 2] ∧
    (1, [1, 1], j) ∈ m.all.numbered 1 ∧ dt j = detailAt 1 1 val 1 [1, 1] ∧ (2, [2, 1], k) ∈ m.all.numbered 1 ∧ dt k = 0 := by
  obtain ⟨m, x, h1, h2⟩ := C99_details (K := Rat) 1 (by omega) ⟨1, 1⟩ (by decide) cornerMesh squareDomain 1 2 cornerLeaves_good (cornerDomain_good 5 (by omega))
    (by omega) 0
  obtain ⟨m', x', a1, a2, a3⟩ := adaptInv_init' (cfg := ⟨1, 1⟩) (cornerDomain_good 5 (by omega)) (by decide) cornerLeaves_good
  rw [h1] at a1
  simp only [Option.some.injEq, Prod.mk.injEq] at a1
  obtain ⟨rfl, rfl⟩ := a1
  obtain ⟨c0, hc⟩ := a2.mesh
  have hw := hc.wf.2.2.2
  have hleaf : cornerMesh.Mem 1 2 [3, 2] := (cornerMesh_mem _ _).2 (.inr ⟨rfl, 3, 2, by omega, by omega, by omega, by omega, rfl⟩)
  have d1 : HasDetail 1 cornerMesh 2 0 2 [3, 2] := ⟨by omega, .inl ⟨by omega, [3, 2], [1, 1], hleaf, anc_one.2 (by decide), anc_one.2 (by decide)⟩⟩
  have d2 : HasDetail 1 cornerMesh 2 0 1 [1, 1] := ⟨by omega, .inr ⟨by omega, [3, 2], hleaf, anc_one.2 (by decide)⟩⟩
  have d3 : ¬ HasDetail 1 cornerMesh 2 0 2 [2, 1] := by
    rintro ⟨-, ⟨-, c, q, h3, h4, h5⟩ | ⟨h3, -⟩⟩
    · have h6 := anc_one.1 h5
      obtain rfl : q = [1, 0] := by rw [← h6]; decide
      rcases (cornerMesh_mem _ _).1 h3 with ⟨h7, -⟩ | ⟨-, y, x, y1, y2, x1, x2, rfl⟩
      · omega
      · have h8 := anc_one.1 h4
        simp only [parentOf, List.map_cons, List.map_nil, List.cons.injEq, shr_one_eq] at h8
        omega
    · omega
  have hd1 : HasDetail 1 m.cells 2 0 2 [3, 2] := ⟨by omega, .inl ⟨by omega, [3, 2], [1, 1], (a3 _ _).2 hleaf, anc_one.2 (by decide), anc_one.2 (by decide)⟩⟩
  have hd2 : HasDetail 1 m.cells 2 0 1 [1, 1] := ⟨by omega, .inr ⟨by omega, [3, 2], (a3 _ _).2 hleaf, anc_one.2 (by decide)⟩⟩
  have m1 := (hasDetail_reads a2 (by omega) hd1).1
  have m2 := (hasDetail_reads a2 (by omega) hd2).1
  have m3 : m.all.Mem 1 2 [2, 1] := by
    obtain ⟨m0, c1, c2, c3, c4, c5⟩ := hc.self.content
    refine (c5 _ _).2 ((c1.all (by omega) _ _).2 (MRBase.all (.inl ⟨[2, 2], (a3 _ _).2 ((cornerMesh_mem _ _).2
      (.inr ⟨rfl, 2, 2, by omega, by omega, by omega, by omega, rfl⟩)), ?_⟩)))
    exact .cons (by decide) (.cons (by decide) .nil)
  obtain ⟨dt, e1, e2⟩ := h2 u (fun l p => u (numOf 1 m.all l p)) (fieldIs_numOf hw u)
  exact ⟨m, x, dt, _, _, _, _, h1, fieldIs_numOf hw u, e1, numOf_numbered hw m1, (e2 _ _ _ (numOf_numbered hw m1)).1 d1, numOf_numbered hw m2,
    (e2 _ _ _ (numOf_numbered hw m2)).1 d2, numOf_numbered hw m3, (e2 _ _ _ (numOf_numbered hw m3)).2 d3⟩

/-- C100 on the segment with a leaf of level 1 and two leaves of level 2, `Dirichlet<1>`, `eps = 1/10`, regularity 1: the leaf of level 1 is refined if its
detail is above `4 * (1/10) / 2`; the two leaves of level 2 are replaced by their parent only if both details are below `1/10`. -/
example (f : CellField Rat) (value : (Nat → Int) → MCell → Rat) : ∃ m x R u val stop m' x' f', mrMesh 0 ⟨1, 1⟩ segMesh 1 2 = some (m, x) ∧
    everywhereRegion 0 segDomain = some R ∧ ghostArray 0 ⟨1, 1⟩ 1 2 segDomain 1 [⟨.dirichlet 1, value, R⟩] m f = some u ∧ FieldIs 0 m.all u val ∧
    val 1 [0] = f 1 [0] ∧ adaptStep 0 ⟨1, 1⟩ 1 1 2 false segDomain 1 [⟨.dirichlet 1, value, R⟩] (1 / 10) 4 0 m x f = some (stop, m', x', f') ∧
    (4 * (1 / 10 / 2) < |detailAt 0 1 val 1 [0]| → m'.cells.Mem 0 2 [0] ∧ m'.cells.Mem 0 2 [1]) ∧
    (m'.cells.Mem 0 1 [1] → |detailAt 0 1 val 2 [2]| < 1 / 10 ∧ |detailAt 0 1 val 2 [3]| < 1 / 10) := by
  obtain ⟨R, r1, r2⟩ := everywhere_covers (n := 0) (by omega) segDomain_box.wf segRange
  obtain ⟨m, x, u, val, stop, m', x', f', a1, a2, a3, a4, a5, a6, a7, -⟩ := C100_thresholds_partial (K := Rat) 0 (by omega) ⟨1, 1⟩ 1 segMesh segDomain 1 2 0 _
    segSetup segLeaves_good (segDomain_good 6 (by omega)) (by omega) (by omega) (by omega) 1 [⟨.dirichlet 1, value, R⟩] (fun c hc => by
      rw [List.mem_singleton] at hc
      subst hc
      exact (r2 (.dirichlet 1) value 1 ⟨by omega, by omega⟩ (by simp [BcKind.ghosts, BcKind.stencilSize])).1) false (1 / 10) 4 0 (by omega) f
  have hfine : ∀ x : Int, 2 ≤ x → x < 4 → segMesh.Mem 0 2 [x] := fun x h1 h2 => (segMesh_mem _ _).2 (.inr ⟨rfl, x, h1, h2, rfl⟩)
  have hcoarse : segMesh.Mem 0 1 [0] := (segMesh_mem _ _).2 (.inl ⟨rfl, rfl⟩)
  refine ⟨m, x, R, u, val, stop, m', x', f', a1, r1, a2, a3, a4 1 [0] hcoarse, a5, fun h => ?_, fun h => ?_⟩
  · have := a6 1 [0] hcoarse (by omega) (by omega) (by simpa [threshold] using h)
    exact ⟨this [0] (anc_one.2 (by decide)), this [1] (anc_one.2 (by decide))⟩
  · obtain ⟨-, -, h3, -⟩ := a7 1 [1] [2] h (hfine 2 (by omega) (by omega)) (anc_one.2 (by decide))
    have e : threshold 0 2 (1 / 10 : Rat) (1 + 1) = 1 / 10 := by simp [threshold]
    rw [e] at h3
    exact ⟨h3 [2] (anc_one.2 (by decide)), h3 [3] (anc_one.2 (by decide))⟩

/-- C100: with 11 levels above `min_level` in dimension 3 the adaptation is undefined. -/
example (m : SubMeshes) (x : CA) (f : CellField Rat) : adaptMr 2 ⟨1, 1⟩ 1 1 12 false (LCA.ofBox 2 12 ⟨fun _ => 0, fun _ => 1⟩) 1 [] (1 / 10) 4 m x f = none :=
  (C100_wide_levels_refuted 2 ⟨1, 1⟩ 1 1 12 (by omega) false _ 1 [] (1 / 10) 4 m x f).2

/-- C101 on the square with four leaves of level 2 in a corner and three leaves of level 1, with the field 7 and `Dirichlet<1>` with the value 7 on the
whole boundary: the adaptation gives the four leaves of level 1. -/
example : ∃ m x R m' x' f', mrMesh 1 ⟨1, 1⟩ cornerMesh 1 2 = some (m, x) ∧ everywhereRegion 1 squareDomain = some R ∧
    adaptMr 1 ⟨1, 1⟩ 1 1 2 false squareDomain 1 [⟨.dirichlet 1, fun _ _ => 7, R⟩] (1 / 10) 8 m x (fun _ _ => (7 : Rat)) = some (m', x', f') ∧
    m'.cells.Mem 1 1 [1, 1] ∧ f' 1 [1, 1] = 7 ∧ ∀ p, ¬ m'.cells.Mem 1 2 p := by
  obtain ⟨R, r1, r2⟩ := everywhere_covers (n := 1) (by omega) squareDomain_box.wf squareRange
  have r3 := r2 (.dirichlet 1) (fun _ _ => 7) 1 ⟨by omega, by omega⟩ (by simp [BcKind.ghosts, BcKind.stencilSize])
  obtain ⟨m, x, m', x', f', a1, a2, a3, a4⟩ := C101_uniform_field_partial (K := Rat) 1 (by omega) ⟨1, 1⟩ cornerMesh squareDomain 1 2 0 _ cornerSetup
    cornerLeaves_good (cornerDomain_good 6 (by omega)) (by omega) (by omega) (by omega) 1 [⟨.dirichlet 1, fun _ _ => 7, R⟩] (fun c hc => by
      rw [List.mem_singleton] at hc
      subst hc
      exact r3.1) r3.2 7 (fun c hc => by
      rw [List.mem_singleton] at hc
      subst hc
      exact fun _ _ => rfl) (1 / 10) 8 (by norm_num) (by norm_num) (fun _ _ => 7) fun _ _ _ => rfl
  have hin : m'.cells.Mem 1 1 [1, 1] := (a3 _ _).2 ⟨rfl, by simp [InBox, Box.refined]⟩
  exact ⟨m, x, R, m', x', f', a1, r1, a2, hin, a4 _ hin, fun p hp => by have := ((a3 _ _).1 hp).1; omega⟩

end Samurai

/-
Examples of C93, and sums of operators, layouts of the fields and domains for which too few non-zeros are announced.
-/
import Verif.Props.Sparsity
import Verif.Props.CellMatrixExample

namespace Samurai

/-- Some row of the matrix is written in more columns than announced. -/
def overfull (N : Nat) (T : List (Int × Int)) (z : Int → Nat) : Bool := (List.range N).any fun r => decide (z r < (rowColumns T r).card)

theorem overfull_iff {N : Nat} {T : List (Int × Int)} {z : Int → Nat} : overfull N T z = true ↔ ∃ r : Int, 0 ≤ r ∧ r < (N : Nat) ∧ z r < (rowColumns T r).card := by
  unfold overfull
  simp only [List.any_eq_true, List.mem_range, decide_eq_true_eq]
  constructor
  · rintro ⟨r, h1, h2⟩; exact ⟨r, by omega, by omega, h2⟩
  · rintro ⟨r, h1, h2, h3⟩; exact ⟨r.toNat, by omega, by rwa [Int.toNat_of_nonneg h1]⟩

def sumSystem : Option Bool :=
  (mrMesh 0 ⟨1, 1⟩ segMesh 1 2).bind fun mx => (everywhereRegion 0 segDomain).bind fun R =>
  (constructSubdomain 0 mx.1.cells 2).bind fun sub => (ghostRecursion (K := Rat) 0 1 mx.1.all mx.1.ghosts mx.1.cells 5).bind fun rec => (diffusionOld 0 1).bind fun cd =>
  (matrixPlaces 0 (1 : Rat) ⟨false, mx.1.all.nbCells, 1, 1, 0, 0⟩ rec mx.1.all sub mx.1.cells 2 [⟨.cell cd, 0, 3⟩, ⟨.flux (diffusionOp 1 fun _ => 1) true, 0, 0⟩]
    [⟨.dirichlet 1, fun _ _ _ _ => 1, R⟩]).bind fun T =>
  (createMatrix 0 (1 : Rat) ⟨false, mx.1.all.nbCells, 1, 1, 0, 0⟩ rec mx.1.all sub mx.1.ghosts mx.1.cells 2 [⟨.cell cd, 0, 3⟩, ⟨.flux (diffusionOp 1 fun _ => 1) true, 0, 0⟩]
    [⟨.dirichlet 1, fun _ _ _ _ => 1, R⟩]).bind fun z => some (overfull (mx.1.all.nbCells * 1) T z)

/-- C93 fails for a sum whose largest operator does not read the cells of the others. On the segment with a leaf of level 1 and two leaves of level 2, for
`make_diffusion_old + make_diffusion_order2`: the first has the largest stencil and announces 3 columns per row, the second writes more at the level jump. -/
theorem C93_sum_refuted : ∃ M x R sub rec cd T z, mrMesh 0 ⟨1, 1⟩ segMesh 1 2 = some (M, x) ∧ everywhereRegion 0 segDomain = some R ∧ constructSubdomain 0 M.cells 2 = some sub ∧
    ghostRecursion 0 1 M.all M.ghosts M.cells 5 = some rec ∧ diffusionOld 0 1 = some cd ∧
    matrixPlaces 0 (1 : Rat) ⟨false, M.all.nbCells, 1, 1, 0, 0⟩ rec M.all sub M.cells 2 [⟨.cell cd, 0, 3⟩, ⟨.flux (diffusionOp 1 fun _ => 1) true, 0, 0⟩]
      [⟨.dirichlet 1, fun _ _ _ _ => 1, R⟩] = some T ∧
    createMatrix 0 (1 : Rat) ⟨false, M.all.nbCells, 1, 1, 0, 0⟩ rec M.all sub M.ghosts M.cells 2 [⟨.cell cd, 0, 3⟩, ⟨.flux (diffusionOp 1 fun _ => 1) true, 0, 0⟩]
      [⟨.dirichlet 1, fun _ _ _ _ => 1, R⟩] = some z ∧ ∃ r : Int, 0 ≤ r ∧ r < (M.all.nbCells * 1 : Nat) ∧ z r < (rowColumns T r).card := by
  have h : sumSystem = some true := by decide +kernel
  unfold sumSystem at h
  simp only [Option.bind_eq_some_iff] at h
  obtain ⟨⟨M, x⟩, h1, R, h2, sub, h3, rec, h4, cd, h5, T, h6, z, h7, h8⟩ := h
  exact ⟨M, x, R, sub, rec, cd, T, z, h1, h2, h3, h4, h5, h6, h7, overfull_iff.1 (Option.some.inj h8)⟩

def soaSystem : Option Bool :=
  (mrMesh 0 ⟨1, 1⟩ segMesh 1 2).bind fun mx =>
  (constructSubdomain 0 mx.1.cells 2).bind fun sub => (ghostRecursion (K := Rat) 0 1 mx.1.all mx.1.ghosts mx.1.cells 5).bind fun rec => (identityOp 0 2).bind fun cd =>
  (matrixPlaces 0 (1 : Rat) ⟨true, mx.1.all.nbCells, 2, 2, 0, 0⟩ rec mx.1.all sub mx.1.cells 2 [⟨.cell cd, 0, 1⟩] []).bind fun T =>
  (createMatrix 0 (1 : Rat) ⟨true, mx.1.all.nbCells, 2, 2, 0, 0⟩ rec mx.1.all sub mx.1.ghosts mx.1.cells 2 [⟨.cell cd, 0, 1⟩] []).bind fun z =>
    some (overfull (mx.1.all.nbCells * 2) T z)

/-- C93 fails for fields stored component by component. On the same segment, the identity of a field of two components announces one column per row, and writes also the 0 of the
other component. -/
theorem C93_soa_refuted : ∃ M x sub rec cd T z, mrMesh 0 ⟨1, 1⟩ segMesh 1 2 = some (M, x) ∧ constructSubdomain 0 M.cells 2 = some sub ∧
    ghostRecursion 0 1 M.all M.ghosts M.cells 5 = some rec ∧ identityOp 0 2 = some cd ∧
    matrixPlaces 0 (1 : Rat) ⟨true, M.all.nbCells, 2, 2, 0, 0⟩ rec M.all sub M.cells 2 [⟨.cell cd, 0, 1⟩] [] = some T ∧
    createMatrix 0 (1 : Rat) ⟨true, M.all.nbCells, 2, 2, 0, 0⟩ rec M.all sub M.ghosts M.cells 2 [⟨.cell cd, 0, 1⟩] [] = some z ∧
    ∃ r : Int, 0 ≤ r ∧ r < (M.all.nbCells * 2 : Nat) ∧ z r < (rowColumns T r).card := by
  have h : soaSystem = some true := by decide +kernel
  unfold soaSystem at h
  simp only [Option.bind_eq_some_iff] at h
  obtain ⟨⟨M, x⟩, h1, sub, h3, rec, h4, cd, h5, T, h6, z, h7, h8⟩ := h
  exact ⟨M, x, sub, rec, cd, T, z, h1, h3, h4, h5, h6, h7, overfull_iff.1 (Option.some.inj h8)⟩

/-- The square of 3 x 3 cells without the cell in the middle. -/
def ringMesh : CA := match runLevelCalls 1 2 [(1, .interval [0] (.mk' 0 3)), (1, .interval [1] (.mk' 0 1)), (1, .interval [1] (.mk' 2 3)), (1, .interval [2] (.mk' 0 3))] with
  | some cl => CA.ofCL cl
  | none => CA.empty 1 2

def ringSystem : Option Bool :=
  (mrMesh 1 ⟨1, 1⟩ ringMesh 1 1).bind fun mx => (everywhereRegion 1 (ringMesh.lca 1)).bind fun R =>
  (constructSubdomain 1 mx.1.cells 1).bind fun sub => (ghostRecursion (K := Rat) 1 1 mx.1.all mx.1.ghosts mx.1.cells 3).bind fun rec =>
  (matrixPlaces 1 (1 : Rat) ⟨false, mx.1.all.nbCells, 1, 1, 0, 0⟩ rec mx.1.all sub mx.1.cells 1 [⟨.flux (diffusionOp 1 fun _ => 1) true, 0, 0⟩]
    [⟨.dirichlet 1, fun _ _ _ _ => 1, R⟩]).bind fun T =>
  (createMatrix 1 (1 : Rat) ⟨false, mx.1.all.nbCells, 1, 1, 0, 0⟩ rec mx.1.all sub mx.1.ghosts mx.1.cells 1 [⟨.flux (diffusionOp 1 fun _ => 1) true, 0, 0⟩]
    [⟨.dirichlet 1, fun _ _ _ _ => 1, R⟩]).bind fun z => some (overfull (mx.1.all.nbCells * 1) T z)

/-- C93 fails for domains that are not boxes. On the square of 3 x 3 cells without the cell in the middle, with `Dirichlet<1>` on all the boundary: the ghost in the hole has a
condition with each of its four neighbours, and 3 columns are announced. -/
theorem C93_domain_refuted : ∃ M x R sub rec T z, mrMesh 1 ⟨1, 1⟩ ringMesh 1 1 = some (M, x) ∧ everywhereRegion 1 (ringMesh.lca 1) = some R ∧
    constructSubdomain 1 M.cells 1 = some sub ∧ ghostRecursion 1 1 M.all M.ghosts M.cells 3 = some rec ∧
    matrixPlaces 1 (1 : Rat) ⟨false, M.all.nbCells, 1, 1, 0, 0⟩ rec M.all sub M.cells 1 [⟨.flux (diffusionOp 1 fun _ => 1) true, 0, 0⟩] [⟨.dirichlet 1, fun _ _ _ _ => 1, R⟩] = some T ∧
    createMatrix 1 (1 : Rat) ⟨false, M.all.nbCells, 1, 1, 0, 0⟩ rec M.all sub M.ghosts M.cells 1 [⟨.flux (diffusionOp 1 fun _ => 1) true, 0, 0⟩]
      [⟨.dirichlet 1, fun _ _ _ _ => 1, R⟩] = some z ∧ ∃ r : Int, 0 ≤ r ∧ r < (M.all.nbCells * 1 : Nat) ∧ z r < (rowColumns T r).card := by
  have h : ringSystem = some true := by decide +kernel
  unfold ringSystem at h
  simp only [Option.bind_eq_some_iff] at h
  obtain ⟨⟨M, x⟩, h1, R, h2, sub, h3, rec, h4, T, h6, z, h7, h8⟩ := h
  exact ⟨M, x, R, sub, rec, T, z, h1, h2, h3, h4, h6, h7, overfull_iff.1 (Option.some.inj h8)⟩

/-- The hypotheses of C93 are met: the backward Euler scheme of the heat equation with two coupled components, on the square with four leaves of level 2 in a corner, with
`Dirichlet<1>`, for both layouts of the fields. -/
example (soa : Bool) (v : (Fin 2 → Rat) → Fin 2 → Rat) : ∃ M x R sub rec cd A marked T z, mrMesh 1 ⟨1, 1⟩ cornerMesh 1 2 = some (M, x) ∧ everywhereRegion 1 squareDomain = some R ∧
    constructSubdomain 1 M.cells 2 = some sub ∧ ghostRecursion 1 1 M.all M.ghosts M.cells 5 = some rec ∧ identityOp 1 2 = some cd ∧
    assembleSum 1 (1 : Rat) 1 ⟨soa, M.all.nbCells, 2, 2, 0, 0⟩ rec M.all sub M.cells 2 [.cell cd, .flux coupledFlux true] [⟨.dirichlet 1, fun _ _ => v, R⟩] = some (A, marked) ∧
    matrixPlaces 1 (1 : Rat) ⟨soa, M.all.nbCells, 2, 2, 0, 0⟩ rec M.all sub M.cells 2 [⟨.cell cd, 0, 1⟩, ⟨.flux coupledFlux true, 0, 0⟩] [⟨.dirichlet 1, fun _ _ => v, R⟩] = some T ∧
    createMatrix 1 (1 : Rat) ⟨soa, M.all.nbCells, 2, 2, 0, 0⟩ rec M.all sub M.ghosts M.cells 2 [⟨.cell cd, 0, 1⟩, ⟨.flux coupledFlux true, 0, 0⟩] [⟨.dirichlet 1, fun _ _ => v, R⟩] = some z ∧
    (∀ r c, A r c ≠ 0 → c ∈ rowColumns T r) ∧ ∀ r : Int, 0 ≤ r → r < (0 : Int) + (M.all.nbCells * 2 : Nat) → (rowColumns T r).card ≤ z r := by
  obtain ⟨_, R, r1, r2, r3⟩ := C72_directions 1 (by omega) squareDomain squareDomain_box.wf squareRange
  obtain ⟨s, z1, z2⟩ := star_zero 1 (by omega)
  have hid : identityOp 1 2 = some (⟨[s], 0, fun _ => [LinearMap.id]⟩ : CellDef Rat (Fin 2 → Rat) (Fin 2 → Rat)) := by unfold identityOp; rw [z1]; rfl
  obtain ⟨M, x, sub, rec, A, marked, T, z, h1, -, h3, h4, h5, h6, h7, h8, h9⟩ := C93_preallocation_partial (m := 2) 1 (by omega) ⟨1, 1⟩ cornerMesh squareDomain 1 2 5 0 _
    (cornerDomain_good 5 (by omega)) (by decide) cornerLeaves_good (by decide) (by decide) cornerDomain_box rfl (by omega) (by norm_num) (by omega) (1 : Rat) 1 soa
    [⟨.cell ⟨[s], 0, fun _ => [LinearMap.id]⟩, 0, 1⟩, ⟨.flux coupledFlux true, 0, 0⟩] (by simp) (by
      intro o ho
      simp only [List.mem_cons, List.not_mem_nil, or_false] at ho
      rcases ho with rfl | rfl
      · refine ⟨⟨⟨s, rfl, z2⟩, fun t ht k hk => ?_⟩, le_rfl⟩
        obtain rfl := List.mem_singleton.1 ht
        rw [z2 k hk]
        simp
      · exact ⟨fun d _ => inOut_ok 1 d, trivial⟩) (by
      intro o ho
      have : o = ⟨.flux coupledFlux true, 0, 0⟩ := by
        have : some o = some ⟨.flux coupledFlux true, 0, 0⟩ := ho.symm
        exact Option.some.inj this
      subst this
      refine ⟨rfl, trivial, fun o' ho' => ?_⟩
      simp only [List.mem_cons, List.not_mem_nil, or_false] at ho'
      rcases ho' with rfl | rfl
      · exact ⟨rfl, fun t ht => by obtain rfl := List.mem_singleton.1 ht; exact z2⟩
      · exact ⟨rfl, fun d _ t ht => ⟨t, ht, fun _ _ => rfl⟩⟩) [⟨.dirichlet 1, fun _ _ => v, R⟩] (fun x hx _ hax => by
      simp only [fieldEntries, List.flatMap_cons, List.flatMap_nil, List.append_nil, List.mem_map] at hx
      obtain ⟨d, hd, rfl⟩ := hx
      exact (r2 d hd hax).1) 0
  exact ⟨M, x, R, sub, rec, _, A, marked, T, z, h1, r1, h3, h4 5 (by omega), hid, h5, h6, h7, h8, h9⟩

end Samurai

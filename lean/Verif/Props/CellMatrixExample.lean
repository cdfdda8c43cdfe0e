/-
Examples of C87 and C88, and a mesh where the linear system of a cell-based scheme is wrong at a level jump.
-/
import Verif.Props.CellMatrix
import Verif.Props.PetscExample

namespace Samurai

/-- The opposite of the second difference as a cell-based scheme, on the stencil (cell, right, left). -/
def lapCells : CellDef Rat (Fin 1 → Rat) (Fin 1 → Rat) := ⟨[fun _ => 0, unitDir 0, fun k => - unitDir 0 k], 0,
  fun h => [(2 / (h * h)) • LinearMap.id, (-1 / (h * h)) • LinearMap.id, (-1 / (h * h)) • LinearMap.id]⟩

/-- The field with the given values in the given cells, 0 elsewhere. -/
def jumpField (M : SubMeshes) (cs : List (Nat × List Int)) (vals : Nat → List Int → Rat) (k : Int) : Rat := match (M.all.numbered 0).find? fun e => e.2.2 == k with
  | some e => if (e.1, e.2.1) ∈ cs then vals e.1 e.2.1 else 0
  | none => 0

/-- The system of `lapCells` on the segment with a leaf of level 1 and two leaves of level 2, with the value 1 on the boundary: the vector with the value 1 in the leaves and in the
ghosts of the boundary solves it for the right-hand side 4 and 16 in the leaves next to the level jump, where the explicit scheme gives 0. -/
def jumpSystem : Option Bool :=
  (mrMesh 0 ⟨1, 1⟩ segMesh 1 2).bind fun mx => (constructSubdomain 0 segMesh 2).bind fun S => (everywhereRegion 0 segDomain).bind fun R =>
  (constructSubdomain 0 mx.1.cells 2).bind fun sub => (ghostRecursion (K := Rat) 0 1 mx.1.all mx.1.ghosts mx.1.cells 5).bind fun rec =>
  (assembleSum 0 (1 : Rat) 1 ⟨false, mx.1.all.nbCells, 1, 1, 0, 0⟩ rec mx.1.all sub mx.1.cells 2 [.cell lapCells] [⟨.dirichlet 1, fun _ _ _ _ => 1, R⟩]).bind fun A =>
  (prepareRhs (m := 1) 0 (fun _ => 0) (1 : Rat) ⟨false, mx.1.all.nbCells, 1, 1, 0, 0⟩ mx.1.all mx.1.ghosts mx.1.cells [⟨.dirichlet 1, fun _ _ _ _ => 1, R⟩] A.2
    (jumpField mx.1 [(1, [0]), (2, [2])] fun l _ => if l = 1 then 4 else 16)).bind fun rhs =>
  (updateGhostMr 0 ⟨⟨mx.1.cells, mx.1.all, segDomain, 1, 2, fun _ => false, 1, ⟨1, 1⟩⟩, mx.1.proj, S⟩ [⟨.dirichlet 1, fun _ _ => 1, R⟩]
    (jumpField mx.1 [(1, [0]), (1, [-1]), (2, [2]), (2, [3]), (2, [4])] fun _ _ => 1)).bind fun u =>
  (cellApplyTo 0 1 (fun k (_ : Fin 1) => u k) mx.1.all mx.1.cells lapCells).bind fun out =>
  some (((List.range mx.1.all.nbCells).all fun r => decide (matVec A.1 0 (mx.1.all.nbCells * 1) (jumpField mx.1 [(1, [0]), (1, [-1]), (2, [2]), (2, [3]), (2, [4])] fun _ _ => 1) r = rhs r)) &&
    ((mx.1.cells.numbered 0).all fun e => decide (jumpField mx.1 [(1, [0]), (1, [-1]), (2, [2]), (2, [3]), (2, [4])] (fun _ _ => 1) e.2.2 = 1 ∧ out e.2.2 0 = 0)) &&
    ((mx.1.cells.numbered 0).any fun e => decide (jumpField mx.1 [(1, [0]), (2, [2])] (fun l _ => if l = 1 then 4 else 16) e.2.2 ≠ 0)))

/-- C88 fails for cell-based schemes with several cells in their stencil. On the segment with a leaf of level 1 and two leaves of level 2, with the value 1 on the boundary: a
solution of the system is the constant 1 in the leaves for a right-hand side that is not 0, although the explicit scheme after the update of the ghosts gives 0 in all the leaves:
the coefficients of the ghosts at the level jump are not replaced, and the system sets these ghosts to 0. -/
theorem C88_cell_refuted : ∃ M x S R sub rec A marked rhs' u' out, mrMesh 0 ⟨1, 1⟩ segMesh 1 2 = some (M, x) ∧ constructSubdomain 0 segMesh 2 = some S ∧
    everywhereRegion 0 segDomain = some R ∧ constructSubdomain 0 M.cells 2 = some sub ∧ ghostRecursion 0 1 M.all M.ghosts M.cells 5 = some rec ∧
    assembleSum 0 (1 : Rat) 1 ⟨false, M.all.nbCells, 1, 1, 0, 0⟩ rec M.all sub M.cells 2 [.cell lapCells] [⟨.dirichlet 1, fun _ _ _ _ => 1, R⟩] = some (A, marked) ∧
    ∃ (u f y rhs : Int → Rat), IsVector false M.all.nbCells 1 0 (fun k (_ : Fin 1) => f k) rhs ∧ IsVector false M.all.nbCells 1 0 (fun k (_ : Fin 1) => u k) y ∧
      prepareRhs (m := 1) 0 (fun _ => 0) (1 : Rat) ⟨false, M.all.nbCells, 1, 1, 0, 0⟩ M.all M.ghosts M.cells [⟨.dirichlet 1, fun _ _ _ _ => 1, R⟩] marked rhs = some rhs' ∧
      (∀ r, 0 ≤ r → r < (0 : Int) + (M.all.nbCells * 1 : Nat) → matVec A 0 (M.all.nbCells * 1) y r = rhs' r) ∧
      updateGhostMr 0 ⟨⟨M.cells, M.all, segDomain, 1, 2, fun _ => false, 1, ⟨1, 1⟩⟩, M.proj, S⟩ [⟨.dirichlet 1, fun _ _ => 1, R⟩] u = some u' ∧
      cellApplyTo 0 1 (fun k (_ : Fin 1) => u' k) M.all M.cells lapCells = some out ∧
      (∀ l q k, (l, q, k) ∈ M.cells.numbered 0 → u k = 1 ∧ out k 0 = 0) ∧ ∃ l q k, (l, q, k) ∈ M.cells.numbered 0 ∧ f k ≠ 0 := by
  have h : jumpSystem = some true := by decide +kernel
  unfold jumpSystem at h
  simp only [Option.bind_eq_some_iff] at h
  obtain ⟨⟨M, x⟩, h1, S, h2, R, h3, sub, h4, rec, h5, ⟨A, marked⟩, h6, rhs', h7, u', h8, out, h9, h10⟩ := h
  have vec : ∀ w : Int → Rat, IsVector false M.all.nbCells 1 0 (fun k (_ : Fin 1) => w k) w := by
    intro w k k0 k1 j
    rw [Fin.fin_one_eq_zero j]
    simp
  simp only [Option.some.injEq, Bool.and_eq_true, List.all_eq_true, List.mem_range, decide_eq_true_eq] at h10
  obtain ⟨⟨h10, h11⟩, h12⟩ := h10
  refine ⟨M, x, S, R, sub, rec, A, marked, rhs', u', out, h1, h2, h3, h4, h5, h6, _, _, _, _, vec _, vec _, h7, fun r r0 r1 => ?_, h8, h9, fun l q k hk => h11 _ hk, ?_⟩
  · have := h10 r.toNat (by omega)
    rwa [Int.toNat_of_nonneg r0] at this
  · obtain ⟨e, he, h13⟩ := List.any_eq_true.1 h12
    exact ⟨e.1, e.2.1, e.2.2, he, of_decide_eq_true h13⟩

/-- The matrix of `lapCells` with the explicit scheme, on the segment. -/
example : ∃ M x E, mrMesh 0 ⟨1, 1⟩ segMesh 1 2 = some (M, x) ∧ assembleCell 0 (1 : Rat) ⟨false, M.all.nbCells, 1, 1, 2, 5⟩ M.all M.cells lapCells = some E ∧
    ∀ u y, IsVector false M.all.nbCells 1 5 u y → ∃ out, cellApplyTo 0 (1 : Rat) u M.all M.cells lapCells = some out ∧
      IsVector false M.all.nbCells 1 2 out (matVec (schemeMatrix E) 5 (M.all.nbCells * 1) y) := by
  obtain ⟨M, x, h1, h2, -⟩ := adaptInv_init' (cfg := ⟨1, 1⟩) (segDomain_good 5 (by omega)) (by decide) segLeaves_good
  obtain ⟨E, e1, e2⟩ := C87_cell 0 M.cells M.all segDomain 1 2 1 (1 : Rat) ⟨false, M.all.nbCells, 1, 1, 2, 5⟩ lapCells (h2.fv (segDomain_good 5 (by omega)) (by decide)) h2.fvNumbers
    ⟨⟨_, rfl, fun _ _ => rfl⟩, by decide⟩ rfl rfl (h2.nums (segDomain_good 5 (by omega)) (by decide) (by decide)).1
  exact ⟨M, x, E, h1, e1, e2⟩

/-- The sum of the heat equation with two coupled components and of a reaction term `[[0, 1], [0, 0]]`, on the square with four leaves of level 2 in a corner. -/
example (soa : Bool) : ∃ M x sub rec E, mrMesh 1 ⟨1, 1⟩ cornerMesh 1 2 = some (M, x) ∧ constructSubdomain 1 M.cells 2 = some sub ∧
    ghostRecursion 1 1 M.all M.ghosts M.cells 5 = some rec ∧
    overList (LinOp.assemble 1 (1 : Rat) ⟨soa, M.all.nbCells, 2, 2, 3, 7⟩ rec M.all sub M.cells 2)
      [.flux coupledFlux true, .cell ⟨[fun _ => 0], 0, fun _ => [Matrix.toLin' !![0, 1; 0, 0]]⟩] = some E := by
  obtain ⟨M, x, sub, rec, E, h1, -, h3, h4, h5, -⟩ := C87_sum 1 ⟨1, 1⟩ cornerMesh squareDomain 1 2 5 (cornerDomain_good 5 (by omega)) (by decide) cornerLeaves_good (by decide) (by decide)
    (1 : Rat) [.flux coupledFlux true, .cell ⟨[fun _ => 0], 0, fun _ => [Matrix.toLin' !![0, 1; 0, 0]]⟩] (by
      intro op hop
      simp only [List.mem_cons, List.not_mem_nil, or_false] at hop
      rcases hop with rfl | rfl
      · exact fun d _ => inOut_ok 1 d
      · exact ⟨⟨_, rfl, fun _ _ => rfl⟩, fun s hs k hk => by obtain rfl := List.mem_singleton.1 hs; simp⟩) soa 3 7
  exact ⟨M, x, sub, rec, E, h1, h3, h4 5 (by omega), h5⟩

/-- The backward Euler scheme of the heat equation with two coupled components, on the same square with `Dirichlet<1>`: the system has a solution only for right-hand sides that
are `u + dt * scheme(u)`. -/
example (soa : Bool) (v : (Fin 2 → Rat) → Fin 2 → Rat) : ∃ M x R sub rec cd A marked, mrMesh 1 ⟨1, 1⟩ cornerMesh 1 2 = some (M, x) ∧ everywhereRegion 1 squareDomain = some R ∧
    constructSubdomain 1 M.cells 2 = some sub ∧ ghostRecursion 1 1 M.all M.ghosts M.cells 5 = some rec ∧ identityOp 1 2 = some cd ∧
    assembleSum 1 (1 : Rat) 1 ⟨soa, M.all.nbCells, 2, 2, 0, 0⟩ rec M.all sub M.cells 2
      [.cell cd, .flux (LinScheme.smul (1 / 10) ⟨coupledFlux, true⟩).defn (LinScheme.smul (1 / 10 : Rat) ⟨coupledFlux, true⟩).bdry] [⟨.dirichlet 1, fun _ _ => v, R⟩] = some (A, marked) ∧
    ∀ f rhs, IsVector soa M.all.nbCells 2 0 f rhs →
      ∃ rhs', prepareRhs 1 (fun _ => 0) 1 ⟨soa, M.all.nbCells, 2, 2, 0, 0⟩ M.all M.ghosts M.cells [⟨.dirichlet 1, fun _ _ => v, R⟩] marked rhs = some rhs' ∧
      ∀ u val y, IsVector soa M.all.nbCells 2 0 u y → FieldIs 1 M.all u val →
        (∀ r, 0 ≤ r → r < (0 : Int) + (M.all.nbCells * 2 : Nat) → matVec A 0 (M.all.nbCells * 2) y r = rhs' r) →
        ∀ u' val', (∀ l q k, (l, q, k) ∈ M.all.numbered 1 → ¬ ProjGhost 1 M.cells M.ghosts l q → ¬ PredGhost 1 M.cells M.ghosts l q → u' k = u k) → FieldIs 1 M.all u' val' →
          (∀ l q, ProjGhost 1 M.cells M.ghosts l q → MeanBelow (K := Rat) 1 val' l q) →
          (∀ l q, PredGhost 1 M.cells M.ghosts l q → TensorPredicted (K := Rat) 1 1 val' l q) →
          ∃ out, linApplyTo 1 1 true u' M.all sub M.cells 2 true coupledFlux = some out ∧
            ∀ l q k, (l, q, k) ∈ M.all.numbered 1 → M.cells.Mem 1 l q → u k + (1 / 10 : Rat) • out k = f k := by
  obtain ⟨_, R, r1, r2, r3⟩ := C72_directions 1 (by omega) squareDomain squareDomain_box.wf squareRange
  obtain ⟨M, x, sub, rec, cd, A, marked, h1, h2, h3, h4, h5, h6, h7⟩ := C88_backward_euler (m := 2) 1 (by omega) ⟨1, 1⟩ cornerMesh squareDomain 1 2 5 0 _ (cornerDomain_good 5 (by omega))
    (by decide) cornerLeaves_good (by decide) (by decide) cornerDomain_box rfl (by omega) (by norm_num) (fun _ => 0) (1 : Rat) 1 (1 / 10) (by norm_num) ⟨coupledFlux, true⟩ rfl
    (fun d _ => inOut_ok 1 d) (fun d _ => inOut_two 1 d) [⟨.dirichlet 1, fun _ _ => v, R⟩] (fun x hx _ hax => by
      simp only [fieldEntries, List.flatMap_cons, List.flatMap_nil, List.append_nil, List.mem_map] at hx
      obtain ⟨d, hd, rfl⟩ := hx
      exact (r2 d hd hax).1) soa 0
  refine ⟨M, x, R, sub, rec, cd, A, marked, h1, r1, h3, h4 5 (by omega), h5, h6, fun f rhs hf => ?_⟩
  obtain ⟨rhs', k1, k2⟩ := h7 f rhs hf
  refine ⟨rhs', k1, fun u val y hy hu hsol u' val' j1 j2 j3 j4 => ?_⟩
  obtain ⟨out, o1, o2⟩ := ((k2 u val y hy hu).1 hsol).1 u' val' j1 j2 j3 j4
  exact ⟨out, o1 true, o2⟩

end Samurai

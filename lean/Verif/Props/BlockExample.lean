/-
Examples of C89–C92: the Stokes operator on a square with leaves of two levels, and a block operator between fields with different layouts.
-/
import Verif.Props.BlockNested
import Verif.Props.BlockVectors
import Verif.Props.PetscExample
import Verif.Lemmas.Operators

namespace Samurai

/-! ### different layouts -/

/-- A scalar field and its double. -/
def doubled : CellDef Rat (Fin 1 → Rat) (Fin 2 → Rat) := ⟨[fun _ => 0], 0, fun _ => [matMap fun i _ => if i = 0 then 1 else 2]⟩

/-- The sizes of the unknowns: a vector and a scalar. -/
def mixedSize : Fin 2 → Nat := ![2, 1]

/-- The identity on the diagonal, the scalar field and its double in the block (0, 1), `0` in the block (1, 0). -/
def mixedBlocks : Blocks Rat mixedSize mixedSize := fun r c => match r, c with
  | 0, 0 => some [.cell (⟨[fun _ => 0], 0, fun _ => [LinearMap.id]⟩ : CellDef Rat (Fin 2 → Rat) (Fin 2 → Rat))]
  | 0, 1 => some [.cell doubled]
  | 1, 0 => none
  | 1, 1 => some [.cell (⟨[fun _ => 0], 0, fun _ => [LinearMap.id]⟩ : CellDef Rat (Fin 1 → Rat) (Fin 1 → Rat))]

/-- The vector field is a structure of arrays, the scalar field has the default layout. -/
def mixedSoa : Fin 2 → Bool := ![true, false]

theorem operatorSum_one {V : Type} [AddCommGroup V] (o : ExplicitOp V) : operatorSumApplyTo [o] = o.map fun rs => rs.foldl Region.run fun _ => 0 := by
  cases o <;> rfl

/-- The fields 0 and 1. -/
def mixedField : (c : Fin 2) → Int → Fin (mixedSize c) → Rat
  | 0 => fun _ _ => 0
  | 1 => fun _ _ => 1

theorem mixed_offsets {N : Nat} : fieldOffset N mixedSize 0 = 0 ∧ fieldOffset N mixedSize 1 = 2 * N := by
  rw [← firstSum_offset, ← firstSum_offset]
  simp [firstSum, List.finRange_succ, mixedSize, mul_comm]

theorem mixed_vectors (N : Nat) : AreVectors mixedSoa N mixedSize mixedField fun i => if i < 2 * (N : Int) then 0 else 1 := by
  intro c
  match c with
  | 0 =>
    rw [mixed_offsets.1]
    intro k k0 k1 j
    have hj : (j : Nat) < 2 := j.2
    show (if (0 + (j : Int) * N + k) < 2 * (N : Int) then (0 : Rat) else 1) = 0
    rw [if_pos]
    have : ((j : Nat) : Int) = 0 ∨ ((j : Nat) : Int) = 1 := by omega
    rcases this with h | h <;> rw [h] <;> omega
  | 1 =>
    rw [mixed_offsets.2]
    intro k k0 k1 j
    show (if (2 * (N : Int) + k * (1 : Nat) + (j : Int)) < 2 * (N : Int) then (0 : Rat) else 1) = 1
    rw [if_neg (by omega)]

theorem soa_second {N : Nat} {out : Int → Fin 2 → Rat} {v : Int → Rat} (h : IsVector true N 2 0 out v) {k : Int} (k0 : 0 ≤ k) (k1 : k < N) : v (N + k) = out k 1 := by
  rw [← h k k0 k1 1]
  simp

/-- The product of the matrix of `mixedBlocks` with the fields 0 and 1: a leaf where the second component of the first row is not 2. -/
def mixedRun : Option Bool :=
  (mrMesh 0 ⟨1, 1⟩ segMesh 1 2).bind fun mx => (constructSubdomain 0 mx.1.cells 2).bind fun sub =>
  (ghostRecursion (K := Rat) 0 1 mx.1.all mx.1.ghosts mx.1.cells 5).bind fun rec =>
  (assembleBlock 0 (1 : Rat) (blockLayout mixedBlocks mixedSoa mx.1.all.nbCells 0 0) rec mx.1.all sub mx.1.cells 2 (mixedBlocks 0 0)).bind fun E1 =>
  (assembleBlock 0 (1 : Rat) (blockLayout mixedBlocks mixedSoa mx.1.all.nbCells 0 1) rec mx.1.all sub mx.1.cells 2 (mixedBlocks 0 1)).bind fun E2 =>
  (assembleBlock 0 (1 : Rat) (blockLayout mixedBlocks mixedSoa mx.1.all.nbCells 1 1) rec mx.1.all sub mx.1.cells 2 (mixedBlocks 1 1)).bind fun E3 =>
  (cellApplyTo 0 (1 : Rat) (fun _ _ => 0) mx.1.all mx.1.cells (⟨[fun _ => 0], 0, fun _ => [LinearMap.id]⟩ : CellDef Rat (Fin 2 → Rat) (Fin 2 → Rat))).bind fun o1 =>
  (cellApplyTo 0 (1 : Rat) (fun _ _ => 1) mx.1.all mx.1.cells doubled).bind fun o2 =>
  some ((mx.1.cells.numbered 0).any fun e => decide (0 ≤ e.2.2 ∧ e.2.2 < mx.1.all.nbCells ∧ o1 e.2.2 (1 : Fin 2) + o2 e.2.2 (1 : Fin 2) = 2 ∧
    matVec (schemeMatrix (E1 ++ (E2 ++ E3))) 0 (3 * mx.1.all.nbCells) (fun i => if i < 2 * mx.1.all.nbCells then 0 else 1) (mx.1.all.nbCells + e.2.2) ≠ 2))

/-- C89 fails for fields with different layouts (a vector field stored by components and a scalar field with the default layout, on a segment with leaves of two levels): the blocks
put their coefficients in the rows of the layout of their column, and the product of the matrix with the vector of the fields is not the vector of the result. -/
theorem C89_layout_refuted : ∃ M x sub rec E, ∃ out : Fin 2 → Int → Fin (mixedSize 0) → Rat, mrMesh 0 ⟨1, 1⟩ segMesh 1 2 = some (M, x) ∧ constructSubdomain 0 M.cells 2 = some sub ∧
    ghostRecursion (K := Rat) 0 1 M.all M.ghosts M.cells 5 = some rec ∧ assembleBlocks 0 (1 : Rat) mixedBlocks mixedSoa M.all.nbCells rec M.all sub M.cells 2 = some E ∧
    (∀ c, operatorSumApplyTo (((mixedBlocks 0 c).getD []).map fun op => op.regions 0 (1 : Rat) true (mixedField c) M.all sub M.cells 2) = some (out c)) ∧
    ∃ y, AreVectors mixedSoa M.all.nbCells mixedSize mixedField y ∧
      ¬ IsVector (mixedSoa 0) M.all.nbCells (mixedSize 0) (fieldOffset M.all.nbCells mixedSize 0) (fun k => ∑ c : Fin 2, out c k)
        (matVec (schemeMatrix E) 0 (fieldsSize M.all.nbCells mixedSize) y) := by
  have h : mixedRun = some true := by decide +kernel
  unfold mixedRun at h
  simp only [Option.bind_eq_some_iff] at h
  obtain ⟨⟨M, x⟩, h1, sub, h2, rec, h3, E1, h4, E2, h4', E3, h4'', o1, h5, o2, h6, h7⟩ := h
  obtain ⟨e, -, h8⟩ := List.any_eq_true.1 (Option.some.inj h7)
  obtain ⟨k0, k1, k2, k3⟩ := of_decide_eq_true h8
  have hE : assembleBlocks 0 (1 : Rat) mixedBlocks mixedSoa M.all.nbCells rec M.all sub M.cells 2 = some (E1 ++ (E2 ++ E3)) := by
    unfold assembleBlocks
    rw [show blockPairs 2 2 = [(0, 0), (0, 1), (1, 0), (1, 1)] by decide]
    have h4a : assembleBlock 0 (1 : Rat) (blockLayout mixedBlocks mixedSoa M.all.nbCells 1 0) rec M.all sub M.cells 2 (mixedBlocks 1 0) = some [] := rfl
    simp only [overList, h4, h4', h4'', h4a, List.nil_append, List.append_nil]
  have hS : fieldsSize M.all.nbCells mixedSize = 3 * M.all.nbCells := by
    unfold fieldsSize
    rw [Fin.sum_univ_two]
    show M.all.nbCells * 2 + M.all.nbCells * 1 = _
    omega
  refine ⟨M, x, sub, rec, E1 ++ (E2 ++ E3), ![o1, o2], h1, h2, h3, hE, fun c => ?_, fun i => if i < 2 * M.all.nbCells then 0 else 1, mixed_vectors _, fun hv => k3 ?_⟩
  · match c with
    | 0 => exact (operatorSum_one _).trans h5
    | 1 => exact (operatorSum_one _).trans h6
  · rw [mixed_offsets.1, hS] at hv
    have := soa_second hv k0 k1
    rw [this, Fin.sum_univ_two, ← k2]
    rfl

/-! ### the Stokes operator -/

/-- The Stokes operator (demos/FiniteVolume/stokes_2d.cpp): the diffusion and the gradient, the divergence and the operator 0. -/
def stokesBlocks : Blocks Rat mixedSize mixedSize := fun r c => match r, c with
  | 0, 0 => some [.flux (diffusionOp 2 fun _ => (1 : Rat)) true]
  | 0, 1 => some [.flux (gradientOp 1 : LinDef Rat (Fin 1 → Rat) (Fin 2 → Rat)) true]
  | 1, 0 => some [.flux (divergenceOp 1 : LinDef Rat (Fin 2 → Rat) (Fin 1 → Rat)) true]
  | 1, 1 => some [.cell (⟨[fun _ => 0], 0, fun _ => [0]⟩ : CellDef Rat (Fin 1 → Rat) (Fin 1 → Rat))]

theorem line_two (n d : Nat) : TwoPoint n (unitDir d) (lineStencil d 2) := by
  rw [lineStencil_two]
  exact inOut_two n d

theorem stokes_ok (r c : Fin 2) : ∃ op, stokesBlocks r c = some [op] ∧ op.OK 1 1 ∧ op.Compact 1 ∧ op.WithBoundary := by
  match r, c with
  | 0, 0 => exact ⟨_, rfl, fun d _ => line_ok (by omega) d, .inr fun d _ => line_two 1 d, rfl⟩
  | 0, 1 => exact ⟨_, rfl, fun d _ => line_ok (by omega) d, .inr fun d _ => line_two 1 d, rfl⟩
  | 1, 0 => exact ⟨_, rfl, fun d _ => line_ok (by omega) d, .inr fun d _ => line_two 1 d, rfl⟩
  | 1, 1 => exact ⟨_, rfl, ⟨⟨_, rfl, fun _ _ => rfl⟩, fun s hs k hk => by obtain rfl := List.mem_singleton.1 hs; simp⟩, fun s hs k hk => by obtain rfl := List.mem_singleton.1 hs; rfl, trivial⟩

theorem stokes_ops (r c : Fin 2) (ops : List (LinOp Rat (mixedSize c) (mixedSize r))) (h : stokesBlocks r c = some ops) : ∀ op ∈ ops, op.OK 1 1 ∧ op.Compact 1 ∧ op.WithBoundary := by
  obtain ⟨op, h1, h2⟩ := stokes_ok r c
  rw [h1] at h
  rw [← Option.some.inj h]
  intro op' h'
  rw [List.mem_singleton.1 h']
  exact h2

/-- C89 for the Stokes operator, on the square with four leaves of level 2 in a corner. -/
example (soa : Bool) : ∃ M x sub rec E, mrMesh 1 ⟨1, 1⟩ cornerMesh 1 2 = some (M, x) ∧ constructSubdomain 1 M.cells 2 = some sub ∧
    ghostRecursion 1 1 M.all M.ghosts M.cells 5 = some rec ∧ assembleBlocks 1 (1 : Rat) stokesBlocks (fun _ => soa) M.all.nbCells rec M.all sub M.cells 2 = some E := by
  obtain ⟨M, x, sub, rec, E, h1, -, h3, h4, h5, -⟩ := C89_matrix 1 ⟨1, 1⟩ cornerMesh squareDomain 1 2 5 (cornerDomain_good 5 (by omega)) (by decide) cornerLeaves_good (by decide) (by decide)
    (1 : Rat) stokesBlocks (fun r => ⟨0, by obtain ⟨op, h, -⟩ := stokes_ok r 0; rw [h]; rfl⟩) (fun c => ⟨0, by obtain ⟨op, h, -⟩ := stokes_ok 0 c; rw [h]; rfl⟩)
    (fun r c ops h op hop => (stokes_ops r c ops h op hop).1) (fun _ => soa) (fun _ => soa) (fun _ _ _ => .inr rfl)
  exact ⟨M, x, sub, rec, E, h1, h3, h4 5 (by omega), h5⟩

/-- The conditions of the Stokes problem: the velocity `v` (Dirichlet), the derivative 0 of the pressure (Neumann). -/
def stokesBcs (R : List ((Nat → Int) × LCA)) (v : (Fin 2 → Rat) → Fin 2 → Rat) : (r : Fin 2) → List (FieldBc Rat 1 (mixedSize r))
  | 0 => [⟨.dirichlet 1, fun _ _ => v, R⟩]
  | 1 => [⟨.neumann, fun _ _ _ _ => 0, R⟩]

theorem stokes_regions {R : List ((Nat → Int) × LCA)} {v : (Fin 2 → Rat) → Fin 2 → Rat} {dom : LCA} (h : ∀ d ∈ R, OneAxis 1 d.1 → BdryRegion 1 dom d.1 d.2) (r : Fin 2) :
    ∀ x ∈ fieldEntries (stokesBcs R v r), UnitVector 1 x.2.1 → OneAxis 1 x.2.1 → BdryRegion 1 dom x.2.1 x.2.2 := by
  intro x hx _ hax
  match r, x, hx with
  | 0, x, hx =>
    simp only [stokesBcs, fieldEntries, List.flatMap_cons, List.flatMap_nil, List.append_nil, List.mem_map] at hx
    obtain ⟨d, hd, rfl⟩ := hx
    exact h d hd hax
  | 1, x, hx =>
    simp only [stokesBcs, fieldEntries, List.flatMap_cons, List.flatMap_nil, List.append_nil, List.mem_map] at hx
    obtain ⟨d, hd, rfl⟩ := hx
    exact h d hd hax

/-- C90 for the Stokes problem: a solution satisfies the two equations in the leaves. -/
example (soa : Bool) (v : (Fin 2 → Rat) → Fin 2 → Rat) : ∃ M x R sub rec A, mrMesh 1 ⟨1, 1⟩ cornerMesh 1 2 = some (M, x) ∧ everywhereRegion 1 squareDomain = some R ∧
    constructSubdomain 1 M.cells 2 = some sub ∧ ghostRecursion 1 1 M.all M.ghosts M.cells 5 = some rec ∧
    assembleBlockMatrix (1 : Rat) 1 stokesBlocks (fun _ => soa) M.all.nbCells rec M.all sub M.cells 2 (stokesBcs R v) = some A ∧
    ∀ (f : (r : Fin 2) → Int → Fin (mixedSize r) → Rat) (rhs : Int → Rat), AreVectors (fun _ => soa) M.all.nbCells mixedSize f rhs →
      ∃ rhs', prepareBlockRhs (fun _ => 0) 1 stokesBlocks (fun _ => soa) M.all.nbCells M.all M.ghosts sub M.cells 2 (stokesBcs R v) rhs = some rhs' := by
  obtain ⟨_, R, r1, r2, r3⟩ := C72_directions 1 (by omega) squareDomain squareDomain_box.wf squareRange
  obtain ⟨M, x, sub, rec, A, h1, h2, h3, h4, h5, h6, h7, h8⟩ := C90_system_partial 1 (by omega) ⟨1, 1⟩ cornerMesh squareDomain 1 2 5 0 _ (cornerDomain_good 5 (by omega))
    (by decide) cornerLeaves_good (by decide) (by decide) cornerDomain_box rfl (by omega) (by norm_num) (fun _ => 0) (1 : Rat) 1 (by norm_num) stokesBlocks
    (fun r c ops h op hop => ⟨(stokes_ops r c ops h op hop).1, (stokes_ops r c ops h op hop).2.1⟩)
    (fun r => by obtain ⟨op, h, -, -, h'⟩ := stokes_ok r r; exact ⟨_, h, by simp, fun op' hop => by rw [List.mem_singleton.1 hop]; exact h'⟩)
    (stokesBcs R v) (stokes_regions fun d hd hax => (r2 d hd hax).1) (fun _ => soa) (fun _ _ _ => .inr rfl)
  refine ⟨M, x, R, sub, rec, A, h1, r1, h3, h4 5 (by omega), h7, fun f rhs hf => ?_⟩
  obtain ⟨rhs', k1, -⟩ := h8 f rhs hf
  exact ⟨rhs', k1⟩

/-- C91 for the Stokes problem: the block of the gradient in the monolithic matrix. -/
example (soa : Bool) (v : (Fin 2 → Rat) → Fin 2 → Rat) : ∃ M x R sub rec A A', mrMesh 1 ⟨1, 1⟩ cornerMesh 1 2 = some (M, x) ∧ everywhereRegion 1 squareDomain = some R ∧
    constructSubdomain 1 M.cells 2 = some sub ∧ ghostRecursion 1 1 M.all M.ghosts M.cells 5 = some rec ∧
    assembleBlockMatrix (1 : Rat) 1 stokesBlocks (fun _ => soa) M.all.nbCells rec M.all sub M.cells 2 (stokesBcs R v) = some A ∧
    nestedBlock (1 : Rat) 1 stokesBlocks (fun _ => soa) M.all.nbCells rec M.all sub M.cells 2 (stokesBcs R v) 0 1 = some A' ∧
    ∀ i j : Int, 0 ≤ i → i < 2 * M.all.nbCells → 0 ≤ j → j < M.all.nbCells → A i (2 * M.all.nbCells + j) = A' i j := by
  obtain ⟨_, R, r1, r2, r3⟩ := C72_directions 1 (by omega) squareDomain squareDomain_box.wf squareRange
  obtain ⟨M, x, sub, rec, A, h1, h2, h3, h4, h5, h6, -⟩ := C91_nested 1 (by omega) ⟨1, 1⟩ cornerMesh squareDomain 1 2 5 0 _ (cornerDomain_good 5 (by omega))
    (by decide) cornerLeaves_good (by decide) (by decide) cornerDomain_box rfl (by omega) (by norm_num) (fun _ => 0) (1 : Rat) 1 (by norm_num) stokesBlocks
    (fun r c ops h op hop => (stokes_ops r c ops h op hop).1)
    (fun r => by obtain ⟨op, h, -, -, h'⟩ := stokes_ok r r; exact ⟨_, h, by simp, fun op' hop => by rw [List.mem_singleton.1 hop]; exact h'⟩)
    (stokesBcs R v) (stokes_regions fun d hd hax => (r2 d hd hax).1) (fun _ => soa)
  obtain ⟨A', a1, a2⟩ := h6 0 1
  refine ⟨M, x, R, sub, rec, A, A', h1, r1, h3, h4 5 (by omega), h5, a1, fun i j i0 i1 j0 j1 => ?_⟩
  have := a2 i j i0 (by show i < ((M.all.nbCells * 2 : Nat) : Int); omega) j0 (by show j < ((M.all.nbCells * 1 : Nat) : Int); omega)
  rwa [mixed_offsets.1, mixed_offsets.2, zero_add] at this

/-- C92 for the Stokes operator: the numbers of the unknowns of the pressure. -/
example : ∃ l, fieldsIS stokesBlocks 50 1 = some l ∧ ∀ i : Int, i ∈ l ↔ 100 ≤ i ∧ i < 150 := by
  obtain ⟨-, -, -, -, h⟩ := C92_vectors stokesBlocks (fun r => ⟨0, by obtain ⟨op, h, -⟩ := stokes_ok r 0; rw [h]; rfl⟩) (fun c => ⟨0, by obtain ⟨op, h, -⟩ := stokes_ok 0 c; rw [h]; rfl⟩)
    50 (fun _ => true) (fun _ => true)
  obtain ⟨l, h1, -, h3⟩ := h (by omega) 1
  refine ⟨l, h1, fun i => ?_⟩
  rw [h3 i, mixed_offsets.2]
  exact Iff.rfl

end Samurai

/-
C81: the matrix of a linear scheme computes the explicit scheme.
-/
import Verif.Lemmas.PetscScheme
import Verif.Props.LinFlux
import Verif.Props.Het

namespace Samurai

section
variable {K : Type} [Field K] {m p : Nat}

/-- The positions of the vectors are those of the model. -/
theorem isVector_of {L : MatLayout} (hp : L.outSize = p) {out : Int → Fin p → K} {y : Int → K}
    (h : ∀ v : Int, 0 ≤ v → v < L.nCells → ∀ i : Fin p, y (L.row v i) = out v i) : IsVector L.soa L.nCells p L.rowShift out y := by
  subst hp
  intro k h0 h1 i
  rw [← h k h0 h1 i, MatLayout.row, dataIndex_eq]

/-- The matrix of any linear scheme, for the flux function `Σ_c A_c(level, cells) u_c`. -/
theorem assemble_spec (n : Nat) (cells ref : CA) (dom sub : LCA) (minL maxL w : Nat) (h0 : K) (L : MatLayout) (rec : GhostMap K) (bdry : Bool)
    (S : Nat → List (Nat → Int)) (C : Nat → Nat → List MCell → List ((Fin m → K) →ₗ[K] (Fin p → K)))
    (g : FVMesh n cells ref dom minL maxL w) (hnum : FVNumbers n cells ref) (hsub : constructSubdomain n cells maxL = some sub)
    (hS : ∀ d ≤ n, StencilOK n w (unitDir d) (S d)) (hm : L.inSize = m) (hp : L.outSize = p)
    (hN : ∀ l q k, (l, q, k) ∈ ref.numbered n → 0 ≤ k ∧ k < L.nCells) (hr : ∀ e ∈ rec, ∀ t ∈ e.2, 0 ≤ t.1 ∧ t.1 < L.nCells) :
    ∃ E, assembleScheme n h0 L rec ref sub cells maxL bdry S C = some E ∧
      (∀ u x, IsVector L.soa L.nCells m L.colShift u x → GhostsHold rec u → ∃ out,
        applyTo n h0 ref sub cells maxL bdry ⟨S, fun d => asmFlux u (C d)⟩ = some out ∧
        IsVector L.soa L.nCells p L.rowShift out (matVec (schemeMatrix E) L.colShift (L.nCells * m) x)) ∧
      ∀ r c, schemeMatrix E r c ≠ 0 → (L.colShift ≤ c ∧ c < L.colShift + (L.nCells * m : Nat)) ∧
        ∃ l q k, (l, q, k) ∈ cells.numbered n ∧ ∃ i : Fin p, r = if L.soa then L.rowShift + (i : Int) * L.nCells + k else L.rowShift + k * p + (i : Int) := by
  have hz : IsVector L.soa L.nCells m L.colShift (fun _ _ => (0 : K)) (fun _ => 0) := fun _ _ _ _ => rfl
  have hg0 : GhostsHold rec (fun _ => (0 : Fin m → K)) := by
    intro e _
    simp only [smul_zero]
    rw [sum_map_zero']
  obtain ⟨E, _, h1, -, hc, hrow, -⟩ := assembleScheme_ok (rec := rec) (x := fun _ => (0 : K)) hm hp g ⟨hnum, hN⟩ hr h0 _ hz hg0 S C hS hsub bdry
  refine ⟨E, h1, fun u x hx hg => ?_, fun r c hrc => ?_⟩
  · obtain ⟨E', out, k1, k2, k3, -, k5⟩ := assembleScheme_ok hm hp g ⟨hnum, hN⟩ hr h0 u hx hg S C hS hsub bdry
    rw [h1] at k1
    cases k1
    refine ⟨out, k2, isVector_of hp fun v hv0 hv1 i => ?_⟩
    rw [← hm, matVec_schemeMatrix _ _ _ _ _ hc]
    exact k5 v hv0 hv1 i
  · unfold schemeMatrix at hrc
    rw [foldl_matAdd, zero_add] at hrc
    obtain ⟨e, he, h⟩ : ∃ e ∈ E, r = e.1 ∧ c = e.2.1 := by
      by_contra hne
      push Not at hne
      refine hrc ?_
      have : ∀ e ∈ E, (if r = e.1 ∧ c = e.2.1 then e.2.2 else 0) = (fun _ => (0 : K)) e := fun e he => if_neg fun h => hne e he h.1 h.2
      rw [sum_map_congr this, sum_map_zero']
    obtain ⟨rfl, rfl⟩ := h
    refine ⟨by rw [← hm]; exact hc e he, ?_⟩
    obtain ⟨k, i, h2, l, q, h3⟩ := hrow e he
    refine ⟨l, q, k, h3, i, ?_⟩
    subst hp
    rw [h2, MatLayout.row, dataIndex_eq]

/-- C81. The matrix assembled for a linear scheme with coefficients that depend on the length of the cells. For every mesh of graded leaves, every scheme, every
layout of the vectors (structure of arrays or array of structures, any number of components, any place in a block matrix), with or without the boundary, and every
elimination of ghosts `rec`: the assembly succeeds; for every field whose ghosts satisfy the relations of `rec`, the product of the matrix and of the vector of the
field is the vector of the field that the explicit scheme computes; and the matrix has no coefficient outside the rows of the leaves and the columns of the cells. -/
theorem C81_matrix (n : Nat) (cells ref : CA) (dom sub : LCA) (minL maxL w : Nat) (h0 : K) (L : MatLayout) (rec : GhostMap K) (bdry : Bool)
    (ld : LinDef K (Fin m → K) (Fin p → K))
    (g : FVMesh n cells ref dom minL maxL w) (hnum : FVNumbers n cells ref) (hsub : constructSubdomain n cells maxL = some sub)
    (hS : ∀ d ≤ n, StencilOK n w (unitDir d) (ld.stencil d)) (hm : L.inSize = m) (hp : L.outSize = p)
    (hN : ∀ l q k, (l, q, k) ∈ ref.numbered n → 0 ≤ k ∧ k < L.nCells) (hr : ∀ e ∈ rec, ∀ t ∈ e.2, 0 ≤ t.1 ∧ t.1 < L.nCells) :
    ∃ E, assembleScheme n h0 L rec ref sub cells maxL bdry ld.stencil (ld.flux h0) = some E ∧
      (∀ u x, IsVector L.soa L.nCells m L.colShift u x → GhostsHold rec u → ∃ out, (∀ par, linApplyTo n h0 par u ref sub cells maxL bdry ld = some out) ∧
        IsVector L.soa L.nCells p L.rowShift out (matVec (schemeMatrix E) L.colShift (L.nCells * m) x)) ∧
      ∀ r c, schemeMatrix E r c ≠ 0 → (L.colShift ≤ c ∧ c < L.colShift + (L.nCells * m : Nat)) ∧
        ∃ l q k, (l, q, k) ∈ cells.numbered n ∧ ∃ i : Fin p, r = if L.soa then L.rowShift + (i : Int) * L.nCells + k else L.rowShift + k * p + (i : Int) := by
  obtain ⟨E, h1, h2, h3⟩ := assemble_spec n cells ref dom sub minL maxL w h0 L rec bdry ld.stencil (ld.flux h0) g hnum hsub hS hm hp hN hr
  refine ⟨E, h1, fun u x hx hg => ?_, h3⟩
  obtain ⟨out, k1, k2⟩ := h2 u x hx hg
  obtain ⟨out', j1, j2, -⟩ := C65_linear_scheme n cells ref dom sub minL maxL w h0 ld u bdry g hnum hsub hS
  have : (⟨ld.stencil, fun d => asmFlux u (ld.flux h0 d)⟩ : FluxDef (Fin p → K)) = linFlux h0 u ld := rfl
  rw [this, j1] at k1
  cases k1
  exact ⟨out, j2, k2⟩

/-- C81, linear schemes with coefficients that depend on the cells of the stencil. -/
theorem C81_matrix_heterogeneous (n : Nat) (cells ref : CA) (dom sub : LCA) (minL maxL w : Nat) (h0 : K) (L : MatLayout) (rec : GhostMap K) (bdry : Bool)
    (hd : HetDef K (Fin m → K) (Fin p → K))
    (g : FVMesh n cells ref dom minL maxL w) (hnum : FVNumbers n cells ref) (hsub : constructSubdomain n cells maxL = some sub)
    (hS : ∀ d ≤ n, StencilOK n w (unitDir d) (hd.stencil d)) (hm : L.inSize = m) (hp : L.outSize = p)
    (hN : ∀ l q k, (l, q, k) ∈ ref.numbered n → 0 ≤ k ∧ k < L.nCells) (hr : ∀ e ∈ rec, ∀ t ∈ e.2, 0 ≤ t.1 ∧ t.1 < L.nCells) :
    ∃ E, assembleScheme n h0 L rec ref sub cells maxL bdry hd.stencil hd.flux = some E ∧
      (∀ u x, IsVector L.soa L.nCells m L.colShift u x → GhostsHold rec u → ∃ out, hetApplyTo n h0 u ref sub cells maxL bdry hd = some out ∧
        IsVector L.soa L.nCells p L.rowShift out (matVec (schemeMatrix E) L.colShift (L.nCells * m) x)) ∧
      ∀ r c, schemeMatrix E r c ≠ 0 → (L.colShift ≤ c ∧ c < L.colShift + (L.nCells * m : Nat)) ∧
        ∃ l q k, (l, q, k) ∈ cells.numbered n ∧ ∃ i : Fin p, r = if L.soa then L.rowShift + (i : Int) * L.nCells + k else L.rowShift + k * p + (i : Int) := by
  obtain ⟨E, h1, h2, h3⟩ := assemble_spec n cells ref dom sub minL maxL w h0 L rec bdry hd.stencil hd.flux g hnum hsub hS hm hp hN hr
  refine ⟨E, h1, fun u x hx hg => ?_, h3⟩
  obtain ⟨out, k1, k2⟩ := h2 u x hx hg
  obtain ⟨out', j1, j2⟩ := C69_heterogeneous_scheme n cells ref dom sub minL maxL w h0 hd u bdry g hnum hsub hS
  have : (⟨hd.stencil, fun d => asmFlux u (hd.flux d)⟩ : FluxDef (Fin p → K)) = hetFlux u hd := rfl
  rw [this, j1] at k1
  cases k1
  exact ⟨out, j2, k2⟩

end

/-- The fluxes of the heat equation for two components with a coupling: `(u_1 - u_0) / h` plus the other component. -/
def coupledFlux : LinDef Rat (Fin 2 → Rat) (Fin 2 → Rat) where
  stencil := fun d => inOutStencil (unitDir d)
  coeffs := fun _ h => [(-1 / h) • LinearMap.id + LinearMap.funLeft Rat Rat (Equiv.swap 0 1), (1 / h) • LinearMap.id]

/-- The hypotheses of C81 are met: a mesh of leaves of the levels 1 and 2, two components, the matrix in the second block, any relation between ghosts and cells. -/
example (rec : GhostMap Rat) (soa : Bool) : ∃ m x sub E, mrMesh 1 ⟨2, 1⟩ exampleMesh 1 2 = some (m, x) ∧
    ((∀ e ∈ rec, ∀ t ∈ e.2, ∃ l q, (l, q, t.1) ∈ m.all.numbered 1) →
      assembleScheme 1 (1 : Rat) ⟨soa, m.all.nbCells, 2, 2, 3, 7⟩ rec m.all sub m.cells 2 true coupledFlux.stencil (coupledFlux.flux 1) = some E ∧
      ∀ u x, IsVector soa m.all.nbCells 2 7 u x → GhostsHold rec u → ∃ out, linApplyTo 1 1 true u m.all sub m.cells 2 true coupledFlux = some out ∧
        IsVector soa m.all.nbCells 2 3 out (matVec (schemeMatrix E) 7 (m.all.nbCells * 2) x)) := by
  obtain ⟨m, x, sub, h1, h2, h3, h4, h5⟩ := exampleLinFlux
  obtain ⟨m', x', j1, j2, -⟩ := C25_mr_numbering 1 ⟨2, 1⟩ exampleMesh 1 2 exampleMesh_proper
  rw [h1] at j1
  cases j1
  have hN : ∀ l q k, (l, q, k) ∈ m.all.numbered 1 → 0 ≤ k ∧ k < m.all.nbCells := by
    intro l q k hk
    have : k ∈ (m.all.numbered 1).map fun e => e.2.2 := List.mem_map.2 ⟨_, hk, rfl⟩
    rw [j2, List.mem_map] at this
    obtain ⟨i, hi, rfl⟩ := this
    rw [List.mem_range] at hi
    constructor <;> omega
  by_cases hr : ∀ e ∈ rec, ∀ t ∈ e.2, ∃ l q, (l, q, t.1) ∈ m.all.numbered 1
  · obtain ⟨E, k1, k2, -⟩ := C81_matrix 1 m.cells m.all exampleDomain sub 1 2 2 (1 : Rat) ⟨soa, m.all.nbCells, 2, 2, 3, 7⟩ rec true coupledFlux h2 h3 h4 h5 rfl rfl hN
      (fun e he t ht => by obtain ⟨l, q, h⟩ := hr e he t ht; exact hN l q _ h)
    refine ⟨m, x, sub, E, h1, fun _ => ⟨k1, fun u y hy hg => ?_⟩⟩
    obtain ⟨out, o1, o2⟩ := k2 u y hy hg
    exact ⟨out, o1 true, o2⟩
  · exact ⟨m, x, sub, [], h1, fun h => absurd h hr⟩

end Samurai

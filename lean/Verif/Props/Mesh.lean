/-
Properties C23-C25, C55, C56: union meshes, ghost cells, numbering of the sub-meshes, reference mesh, subdomain.
-/
import Verif.Lemmas.MeshFull

namespace Samurai

/-! ### a mesh meeting the hypotheses -/

/-- The calls filling the example: in 2D, an L-shaped domain with three leaves of level 1 and eight leaves of level 2. -/
def exampleMeshCalls : List (Nat × CellCall) :=
  [(1, .interval [0] (.mk' 0 2)), (1, .interval [1] (.mk' 0 1)), (2, .interval [2] (.mk' 2 6)), (2, .interval [3] (.mk' 2 6))]

/-- The example mesh: the levels 0 to 3 are available. -/
def exampleMesh : CA := match runLevelCalls 1 3 exampleMeshCalls with
  | some cl => CA.ofCL cl
  | none => CA.empty 1 3

theorem exampleMesh_mem (l : Nat) (p : List Int) :
    exampleMesh.Mem 1 l p ↔ ∃ c, (l, c) ∈ exampleMeshCalls ∧ c.Adds p := by
  obtain ⟨cl, h1, h2⟩ := (hist_new 1 3).calls (k := exampleMeshCalls) (by
    simp [exampleMeshCalls, CellCall.idx, CellCall.Valid, Interval.mk'])
  have : exampleMesh = CA.ofCL cl := by
    unfold exampleMesh runLevelCalls
    rw [h1]
  rw [this, h2.array.2.2.2.2]
  simp

theorem exampleMesh_proper : exampleMesh.Proper 1 1 2 4 := by
  obtain ⟨cl, h1, h2⟩ := (hist_new 1 3).calls (k := exampleMeshCalls) (by
    simp [exampleMeshCalls, CellCall.idx, CellCall.Valid, Interval.mk'])
  have he : exampleMesh = CA.ofCL cl := by
    unfold exampleMesh runLevelCalls
    rw [h1]
  obtain ⟨a1, a2, a3, -, -⟩ := h2.array
  refine ⟨by rw [he]; exact a2, by rw [he]; exact a3, ?_, by rw [he, a1]; omega, 16, by omega, by decide, ?_⟩
  · intro l p hp
    obtain ⟨c, hc, _⟩ := (exampleMesh_mem l p).1 hp
    simp only [exampleMeshCalls, List.mem_cons, Prod.mk.injEq, List.not_mem_nil, or_false] at hc
    omega
  · intro l p hp x hx
    obtain ⟨c, hc, ha⟩ := (exampleMesh_mem l p).1 hp
    simp only [exampleMeshCalls, List.mem_cons, Prod.mk.injEq, List.not_mem_nil, or_false] at hc
    rcases hc with ⟨rfl, rfl⟩ | ⟨rfl, rfl⟩ | ⟨rfl, rfl⟩ | ⟨rfl, rfl⟩ <;>
      · obtain ⟨y, y1, y2, rfl⟩ := ha
        simp only [Interval.mk'] at y1 y2
        simp only [List.cons_append, List.nil_append, List.mem_cons, List.not_mem_nil, or_false] at hx
        rcases hx with rfl | rfl <;> norm_num <;> omega

/-! ### C23 -/

/-- C23. `get_union()[l]` contains a cell exactly when it is the ancestor of a leaf cell of a strictly finer level, for the
levels `l >= min_level - 1`; the coarser levels are left empty. -/
theorem C23_union (n : Nat) (cfg : MeshConfig) (cells : CA) (minL maxL : Nat)
    (h : cells.Proper n minL maxL (cfg.maxStencilWidth + cfg.predictionOrder + 1)) :
    ∃ m u, mrMesh n cfg cells minL maxL = some (m, u) ∧ u.WF n ∧
      (∀ l p, minL ≤ l + 1 → (u.Mem n l p ↔ ∃ l' q, l < l' ∧ cells.Mem n l' q ∧ Anc (l' - l) p q)) ∧
      ∀ l p, l + 1 < minL → ¬ u.Mem n l p := by
  obtain ⟨m, u, h1, h2⟩ := mrMesh_spec h
  refine ⟨m, u, h1, h2.union.wf, fun l p hl => ?_, fun l p hl hp => ?_⟩
  · rw [h2.union.mem]
    exact ⟨fun h => h.2, fun h => ⟨hl, h⟩⟩
  · have := ((h2.union.mem l p).1 hp).1
    omega

/-- C23 as first stated (all the levels) is false: with `min_level = 2`, the union mesh of level 0 stays empty although all
the leaves have an ancestor there. -/
theorem C23_coarse_refuted : ∃ (cells : CA) (minL maxL : Nat) (m : SubMeshes) (u : CA), cells.Proper 0 minL maxL 3 ∧
    mrMesh 0 ⟨1, 1⟩ cells minL maxL = some (m, u) ∧ (∃ q, cells.Mem 0 2 q ∧ Anc 2 [0] q) ∧ ¬ u.Mem 0 0 [0] := by
  obtain ⟨cl, h1, h2⟩ := (hist_new 0 3).calls (k := [(2, .interval [] (.mk' 0 4))]) (by
    simp [CellCall.idx, CellCall.Valid, Interval.mk'])
  obtain ⟨a1, a2, a3, -, a5⟩ := h2.array
  have hm : ∀ l p, (CA.ofCL cl).Mem 0 l p ↔ l = 2 ∧ ∃ x : Int, 0 ≤ x ∧ x < 4 ∧ p = [x] := by
    intro l p
    rw [a5]
    simp [CellCall.Adds, Interval.mk']
  have hp : (CA.ofCL cl).Proper 0 2 2 3 := by
    refine ⟨a2, a3, fun l p hp => ?_, by rw [a1]; omega, 4, by omega, by decide, fun l p hp x hx => ?_⟩
    · have := ((hm l p).1 hp).1; omega
    · obtain ⟨rfl, y, y1, y2, rfl⟩ := (hm l p).1 hp
      simp only [List.mem_singleton] at hx
      subst hx
      simpa using y2
  obtain ⟨m, u, h3, _, _, h4⟩ := C23_union 0 ⟨1, 1⟩ (CA.ofCL cl) 2 2 hp
  refine ⟨CA.ofCL cl, 2, 2, m, u, hp, h3, ⟨[0], (hm 2 [0]).2 ⟨rfl, 0, by omega, by omega, rfl⟩, anc_iff.2 (by decide)⟩,
    h4 0 [0] (by omega)⟩

/-- The example mesh meets the hypotheses, with refined cells at level 1 and 0. -/
example : exampleMesh.Proper 1 1 2 (2 + 1 + 1) ∧ exampleMesh.Mem 1 2 [2, 5] ∧ Anc 1 [1, 2] [2, 5] ∧ exampleMesh.Mem 1 1 [1, 0] := by
  refine ⟨exampleMesh_proper, (exampleMesh_mem _ _).2 ⟨.interval [2] (.mk' 2 6), by simp [exampleMeshCalls], 5, by decide, by decide, rfl⟩,
    anc_iff.2 (by decide), (exampleMesh_mem _ _).2 ⟨.interval [1] (.mk' 0 1), by simp [exampleMeshCalls], 0, by decide, by decide, rfl⟩⟩

/-! ### C24 -/

/-- C24, multiresolution mesh. The construction succeeds; `cells` are the leaves; `cells_and_ghosts` holds exactly the cells
within `max_stencil_width` of a leaf of the same level; all of them are in the reference mesh. -/
theorem C24_mr_ghosts (n : Nat) (cfg : MeshConfig) (cells : CA) (minL maxL : Nat)
    (h : cells.Proper n minL maxL (cfg.maxStencilWidth + cfg.predictionOrder + 1)) :
    ∃ m u, mrMesh n cfg cells minL maxL = some (m, u) ∧
      (∀ l p, m.cells.Mem n l p ↔ cells.Mem n l p) ∧
      (∀ l p, m.ghosts.Mem n l p ↔ ∃ q, cells.Mem n l q ∧ Near cfg.maxStencilWidth p q) ∧
      ∀ l p, m.ghosts.Mem n l p → m.all.Mem n l p := by
  obtain ⟨m, u, h1, h2⟩ := mrMesh_spec h
  obtain ⟨m0, c1, c2, c3, c4, c5⟩ := h2.content
  exact ⟨m, u, h1, c2, fun l p => (c3 l p).trans (c1.ghosts l p), fun l p hp => (c5 l p).2 (c1.ghosts_all ((c3 l p).1 hp))⟩

/-- C24, uniform mesh: the reference mesh holds exactly the cells within `ghost_width` of a leaf. -/
theorem C24_uniform_ghosts (n w : Nat) (cells : LCA) (h : cells.WF n) :
    ∃ c ref, uniformMesh n w cells = some (c, ref) ∧ (∀ p, c.Mem n p ↔ cells.Mem n p) ∧
      ∀ p, ref.Mem n p ↔ ∃ q, cells.Mem n q ∧ Near w p q := by
  obtain ⟨c, ref, h1, _, _, h2, h3, _⟩ := uniformMesh_spec (w := w) h
  exact ⟨c, ref, h1, h2, h3⟩

/-- The example array (three rows, several intervals) and width 2. -/
example : exampleArray.WF 1 ∧ exampleArray.nbCells = 8 ∧ (uniformMesh 1 2 exampleArray).isSome := by
  obtain ⟨c, ref, h1, _⟩ := C24_uniform_ghosts 1 2 exampleArray exampleArray_wf
  exact ⟨exampleArray_wf, by decide, by rw [h1]; rfl⟩

/-! ### C25 -/

/-- C25, multiresolution mesh. The cells of the reference mesh are numbered `0 .. nb_cells - 1`, each once; the number of a
cell obtained through `cells`, `cells_and_ghosts` or `proj_cells` is its number in the reference mesh. -/
theorem C25_mr_numbering (n : Nat) (cfg : MeshConfig) (cells : CA) (minL maxL : Nat)
    (h : cells.Proper n minL maxL (cfg.maxStencilWidth + cfg.predictionOrder + 1)) :
    ∃ m u, mrMesh n cfg cells minL maxL = some (m, u) ∧
      ((m.all.numbered n).map fun e => e.2.2) = (List.range m.all.nbCells).map (fun (k : Nat) => (k : Int)) ∧
      ∀ sub ∈ [m.cells, m.ghosts, m.proj], ∀ l yz x, sub.Mem n l (yz ++ [x]) →
        ∃ v, getIndex (sub.lca l) n yz x = some v ∧ getIndex (m.all.lca l) n yz x = some v ∧
          (l, yz ++ [x], v) ∈ m.all.numbered n := by
  obtain ⟨m, u, h1, h2⟩ := mrMesh_spec h
  obtain ⟨m0, c1, c2, c3, c4, c5⟩ := h2.content
  refine ⟨m, u, h1, h2.numbers, fun sub hs l yz x hx => ?_⟩
  have hall : m.all.Mem n l (yz ++ [x]) := by
    simp only [List.mem_cons, List.not_mem_nil, or_false] at hs
    rcases hs with rfl | rfl | rfl
    · exact (c5 _ _).2 (c1.cells_all ((c2 _ _).1 hx))
    · exact (c5 _ _).2 (c1.ghosts_all ((c3 _ _).1 hx))
    · exact (c5 _ _).2 (c1.proj_all ((c4 _ _).1 hx))
  obtain ⟨v, v1, v2⟩ := C09_get_index n (m.all.lca l) (h2.wf.2.2.2 l hall.1) yz x hall.2
  refine ⟨v, by rw [h2.index sub hs l yz x hx, v1], v1, ?_⟩
  unfold CA.numbered
  rw [List.mem_flatMap]
  exact ⟨l, List.mem_range.2 (by have := hall.1; omega), List.mem_map.2 ⟨_, v2, rfl⟩⟩

/-- C25, uniform mesh. -/
theorem C25_uniform_numbering (n w : Nat) (cells : LCA) (h : cells.WF n) :
    ∃ c ref, uniformMesh n w cells = some (c, ref) ∧
      (ref.numbered n).map Prod.snd = (List.range ref.nbCells).map (fun (k : Nat) => (k : Int)) ∧
      ∀ yz x, cells.Mem n (yz ++ [x]) →
        ∃ v, getIndex c n yz x = some v ∧ getIndex ref n yz x = some v ∧ (yz ++ [x], v) ∈ ref.numbered n := by
  obtain ⟨c, ref, h1, _, h3, _, h5, h6, h7⟩ := uniformMesh_spec (w := w) h
  refine ⟨c, ref, h1, h6, fun yz x hx => ?_⟩
  obtain ⟨v, v1, v2⟩ := C09_get_index n ref h3 yz x ((h5 _).2 ⟨_, hx, near_refl _ _⟩)
  exact ⟨v, by rw [h7 yz x hx, v1], v1, v2⟩

/-! ### C55 -/

/-- C55. The reference mesh of a multiresolution mesh (`min_level < max_level`) holds what the update of the ghost cells
reads: every projection cell is a cell of the reference mesh refined by leaves and its children are in the reference mesh;
every ghost that no leaf refines has the prediction stencil of its parent in the reference mesh; so has the grandparent of
every leaf (the details are computed on two levels); and every cell of the reference mesh refined by a leaf, at the levels
from `min_level - 1`, is a projection cell. -/
theorem C55_reference (n : Nat) (cfg : MeshConfig) (cells : CA) (minL maxL : Nat) (hlt : minL < maxL)
    (h : cells.Proper n minL maxL (cfg.maxStencilWidth + cfg.predictionOrder + 1)) :
    ∃ m u, mrMesh n cfg cells minL maxL = some (m, u) ∧
      (∀ l p, m.proj.Mem n l p ↔ m.all.Mem n l p ∧ minL ≤ l + 1 ∧ CoveredBy n cells l p) ∧
      (∀ l p q, m.proj.Mem n l p → Anc 1 p q → m.all.Mem n (l + 1) q) ∧
      (∀ l p q r, m.ghosts.Mem n (l + 1) q → ¬ CoveredBy n cells (l + 1) q → Anc 1 p q → Near cfg.predictionOrder r p →
        m.all.Mem n l r) ∧
      ∀ l p q r, cells.Mem n (l + 2) q → Anc 2 p q → Near cfg.predictionOrder r p → m.all.Mem n l r := by
  obtain ⟨m, u, h1, h2⟩ := mrMesh_spec h
  obtain ⟨m0, c1, c2, c3, c4, c5⟩ := h2.content
  have hne : minL ≠ maxL := by omega
  refine ⟨m, u, h1, fun l p => ?_, fun l p q hp ha => ?_, fun l p q r hg hc ha hn => ?_, fun l p q r hq ha hn => ?_⟩
  · rw [c4, c5, c1.proj hne, c1.all hne]
  · rw [c4, c1.proj hne] at hp
    rw [c5, c1.all hne]
    rw [anc_iff.1 ha] at hp
    exact Or.inr hp
  · rw [c5, c1.all hne]
    rw [c3, c1.ghosts] at hg
    rw [anc_iff.1 ha] at hn
    exact MRBase.all (Or.inr (Or.inl ⟨q, hg, hc, hn⟩))
  · rw [c5, c1.all hne]
    rw [anc_iff.1 ha] at hn
    exact MRBase.all (Or.inr (Or.inr ⟨q, hq, hn⟩))

/-- In the example the ghost `[2, 1]` of level 2 is not refined by a leaf. -/
example : exampleMesh.Proper 1 1 2 (2 + 1 + 1) ∧ (∃ q, exampleMesh.Mem 1 2 q ∧ Near 2 [2, 1] q) ∧
    ¬ CoveredBy 1 exampleMesh 2 [2, 1] := by
  refine ⟨exampleMesh_proper, ⟨[2, 3], (exampleMesh_mem _ _).2 ⟨.interval [2] (.mk' 2 6), by simp [exampleMeshCalls], 3, by decide, by decide, rfl⟩,
    List.Forall₂.cons (by decide) (List.Forall₂.cons (by decide) List.Forall₂.nil)⟩, ?_⟩
  rintro ⟨l', q, h1, h2, _⟩
  have := (exampleMesh_proper.between l' q h2).2
  omega

/-! ### C56 -/

/-- C56. The subdomain of a mesh (its domain, when it is built from a cell list) is exactly the set of cells of level
`max_level` below a leaf. -/
theorem C56_subdomain (n : Nat) (cells : CA) (minL maxL : Nat) (h : cells.WF n) (hb : cells.Between n minL maxL) :
    ∃ S, constructSubdomain n cells maxL = some S ∧ S.WF n ∧ S.level = maxL ∧
      ∀ p, S.Mem n p ↔ ∃ l q, cells.Mem n l q ∧ Anc (maxL - l) q p :=
  constructSubdomain_spec h hb

example : exampleMesh.WF 1 ∧ exampleMesh.Between 1 1 2 := ⟨exampleMesh_proper.wf, exampleMesh_proper.between⟩

end Samurai

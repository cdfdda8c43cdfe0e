/-
C38, C40, C41: the loops on the interior and boundary interfaces.
-/
import Verif.Lemmas.Boundary
import Verif.Props.Adapt
import Verif.Props.AMRMesh

namespace Samurai

/-- A multiresolution mesh on graded leaves that tile the domain meets the hypotheses of C38, with `w = max_stencil_width`. -/
theorem AdaptInv.fv {n : Nat} {cfg : MeshConfig} {dom : LCA} {minL maxL : Nat} {m : SubMeshes} {u : CA} {margin : Nat}
    (h : AdaptInv n cfg dom minL maxL m u) (hd : GoodDomain n dom minL maxL margin) (hm : cfg.maxStencilWidth + 3 ≤ margin) :
    FVMesh n m.cells m.all dom minL maxL cfg.maxStencilWidth := by
  obtain ⟨c0, hc⟩ := h.mesh
  obtain ⟨m0, c1, c2, c3, c4, c5⟩ := hc.content
  refine ⟨h.leaves, ⟨hd.wf, hd.level, hd.whole, ?_⟩, hc.wf.2.2.2, fun l p q hq hn => ?_⟩
  · obtain ⟨D, d1, d2, d3⟩ := hd.range
    refine ⟨D, d1, ?_, d3⟩
    have : ((cfg.maxStencilWidth + 3 : Nat) : Int) * 2 ^ maxL ≤ (margin : Int) * 2 ^ maxL :=
      Int.mul_le_mul_of_nonneg_right (by omega) (le_of_lt (pow_two_pos maxL))
    omega
  · exact (c5 l p).2 (c1.ghosts_all ((c1.ghosts l p).2 ⟨q, (c2 l q).1 hq, hn⟩))

/-! ### the example: the two-dimensional mesh of Props/Mesh.lean, with two levels -/

theorem exampleMesh_leaves (l : Nat) (p : List Int) : exampleMesh.Mem 1 l p ↔
    (l = 1 ∧ (p = [0, 0] ∨ p = [0, 1] ∨ p = [1, 0])) ∨ (l = 2 ∧ ∃ x : Int, 2 ≤ x ∧ x < 6 ∧ (p = [2, x] ∨ p = [3, x])) := by
  rw [exampleMesh_mem]
  constructor
  · rintro ⟨c, hc, ha⟩
    simp only [exampleMeshCalls, List.mem_cons, Prod.mk.injEq, List.not_mem_nil, or_false] at hc
    rcases hc with ⟨rfl, rfl⟩ | ⟨rfl, rfl⟩ | ⟨rfl, rfl⟩ | ⟨rfl, rfl⟩ <;> obtain ⟨y, y1, y2, rfl⟩ := ha <;>
      simp only [Interval.mk'] at y1 y2
    · obtain rfl | rfl : y = 0 ∨ y = 1 := by omega
      · simp
      · simp
    · obtain rfl : y = 0 := by omega
      simp
    · exact Or.inr ⟨rfl, y, y1, y2, Or.inl rfl⟩
    · exact Or.inr ⟨rfl, y, y1, y2, Or.inr rfl⟩
  · rintro (⟨rfl, rfl | rfl | rfl⟩ | ⟨rfl, x, h1, h2, rfl | rfl⟩)
    · exact ⟨.interval [0] (.mk' 0 2), by simp [exampleMeshCalls], 0, by decide, by decide, rfl⟩
    · exact ⟨.interval [0] (.mk' 0 2), by simp [exampleMeshCalls], 1, by decide, by decide, rfl⟩
    · exact ⟨.interval [1] (.mk' 0 1), by simp [exampleMeshCalls], 0, by decide, by decide, rfl⟩
    · exact ⟨.interval [2] (.mk' 2 6), by simp [exampleMeshCalls], x, h1, h2, rfl⟩
    · exact ⟨.interval [3] (.mk' 2 6), by simp [exampleMeshCalls], x, h1, h2, rfl⟩

theorem anc_pair {k : Nat} {a b : Int} {m : List Int} : Anc k [a, b] m ↔ ∃ y x : Int, m = [y, x] ∧ a = y / 2 ^ k ∧ b = x / 2 ^ k := by
  rw [anc_iff]
  constructor
  · intro h
    match m, h with
    | [y, x], h => exact ⟨y, x, rfl, by simpa [shr] using h⟩
    | [], h => simp at h
    | [_], h => simp at h
    | _ :: _ :: _ :: _, h => simp at h
  · rintro ⟨y, x, rfl, rfl, rfl⟩
    rfl

theorem exampleInDomain (m : List Int) : InDomain 1 exampleDomain 2 m ↔
    ∃ y x : Int, m = [y, x] ∧ 0 ≤ y ∧ 0 ≤ x ∧ ((y < 2 ∧ x < 4) ∨ (2 ≤ y ∧ y < 4 ∧ x < 6)) := by
  obtain ⟨-, d2, d3⟩ := exampleDomain_spec
  have : InDomain 1 exampleDomain 2 m ↔ ∃ l q, exampleMesh.Mem 1 l q ∧ Anc (2 - l) q m := by
    unfold InDomain
    rw [d2, ← d3]
    constructor
    · rintro ⟨d, h1, h2⟩
      rwa [← anc_zero.1 h2]
    · exact fun h => ⟨m, h, anc_zero.2 rfl⟩
  rw [this]
  constructor
  · rintro ⟨l, q, hq, ha⟩
    rw [exampleMesh_leaves] at hq
    rcases hq with ⟨rfl, rfl | rfl | rfl⟩ | ⟨rfl, x, h1, h2, rfl | rfl⟩ <;> obtain ⟨y, z, rfl, h3, h4⟩ := anc_pair.1 ha <;>
      norm_num at h3 h4 <;> exact ⟨y, z, rfl, by omega⟩
  · rintro ⟨y, x, rfl, h⟩
    by_cases hy : y < 2
    · by_cases hx : x < 2
      · exact ⟨1, [0, 0], (exampleMesh_leaves _ _).2 (by simp), anc_pair.2 ⟨y, x, rfl, by norm_num; omega, by norm_num; omega⟩⟩
      · exact ⟨1, [0, 1], (exampleMesh_leaves _ _).2 (by simp), anc_pair.2 ⟨y, x, rfl, by norm_num; omega, by norm_num; omega⟩⟩
    · by_cases hx : x < 2
      · exact ⟨1, [1, 0], (exampleMesh_leaves _ _).2 (by simp), anc_pair.2 ⟨y, x, rfl, by norm_num; omega, by norm_num; omega⟩⟩
      · refine ⟨2, [y, x], (exampleMesh_leaves _ _).2 (Or.inr ⟨rfl, x, by omega, by omega, ?_⟩), anc_zero.2 rfl⟩
        obtain rfl | rfl : y = 2 ∨ y = 3 := by omega
        · exact Or.inl rfl
        · exact Or.inr rfl

theorem exampleDomain_good (margin : Nat) (h : margin ≤ 100) : GoodDomain 1 exampleDomain 1 2 margin := by
  obtain ⟨d1, d2, -⟩ := exampleDomain_spec
  refine ⟨d1, by omega, fun p m m' h1 h2 h3 => ?_, 6, by omega, by unfold INT_MAX; omega, fun m hm x hx => ?_⟩
  · rw [exampleInDomain] at h3 ⊢
    obtain ⟨y, x, rfl, h4⟩ := h3
    rw [anc_iff] at h1
    simp only [List.map_cons, List.map_nil] at h1
    subst h1
    obtain ⟨y', x', rfl, h5, h6⟩ := anc_pair.1 h2
    norm_num [shr] at h5 h6
    exact ⟨y', x', rfl, by omega⟩
  · obtain ⟨y, z, rfl, h1⟩ := (exampleInDomain m).1 hm
    simp only [List.mem_cons, List.not_mem_nil, or_false] at hx
    omega

theorem exampleLeaves_good : GoodLeaves 1 exampleMesh exampleDomain 1 2 := by
  have hp := exampleMesh_proper
  obtain ⟨-, d2, d3⟩ := exampleDomain_spec
  refine ⟨hp.wf, hp.leveled, hp.size, hp.between, fun l p l' p' h h' hl ha => ?_, fun l p l' p' q h h' _ _ _ => ?_, fun m => ?_⟩
  · rw [exampleMesh_leaves] at h h'
    rcases h with ⟨rfl, h⟩ | ⟨rfl, h⟩ <;> rcases h' with ⟨rfl, h'⟩ | ⟨rfl, h'⟩
    · exact ⟨rfl, anc_zero.1 ha⟩
    · exfalso
      obtain ⟨x, h1, h2, rfl | rfl⟩ := h' <;> rcases h with rfl | rfl | rfl <;> obtain ⟨y, z, he, h3, h4⟩ := anc_pair.1 ha <;>
        simp only [List.cons.injEq, and_true] at he <;> norm_num at h3 h4 <;> omega
    · omega
    · exact ⟨rfl, anc_zero.1 ha⟩
  · have h1 := hp.between _ _ h
    have h2 := hp.between _ _ h'
    omega
  · unfold InDomain
    rw [d2]
    constructor
    · rintro ⟨l, p, -, h1, h2⟩
      exact ⟨m, (d3 m).2 ⟨l, p, h1, h2⟩, anc_zero.2 rfl⟩
    · rintro ⟨d, h1, h2⟩
      obtain rfl := anc_zero.1 h2
      obtain ⟨l, q, h3, h4⟩ := (d3 _).1 h1
      exact ⟨l, q, (hp.between _ _ h3).2, h3, h4⟩

/-- The two-cell stencil of an interface. -/
theorem inOut_ok (n d : Nat) : StencilOK n 1 (unitDir d) (inOutStencil (unitDir d)) := by
  unfold inOutStencil
  refine ⟨⟨_, by simp, fun _ _ => rfl⟩, ⟨unitDir d, by simp, fun _ _ => rfl⟩, fun s hs k _ => ?_⟩
  have := unitDir_le d k
  simp only [List.mem_cons, List.not_mem_nil, or_false] at hs
  rcases hs with rfl | rfl <;> simp only [Nat.cast_one, Nat.cast_ofNat] <;> omega

/-- The multiresolution mesh on the example leaves, with `max_stencil_width = 2`, meets the hypotheses of C38, C40 and C41, with a stencil of four
cells in each direction (`line_stencil`); the leaves have interfaces on a level and across levels, in both directions. -/
theorem exampleFV : ∃ m u, mrMesh 1 ⟨2, 1⟩ exampleMesh 1 2 = some (m, u) ∧ FVMesh 1 m.cells m.all exampleDomain 1 2 2 ∧
    ∀ l p, m.cells.Mem 1 l p ↔ exampleMesh.Mem 1 l p := by
  obtain ⟨m, u, h1, h2, h3⟩ := adaptInv_init' (cfg := ⟨2, 1⟩) (exampleDomain_good (2 + 1 + 4) (by omega)) (by decide) exampleLeaves_good
  exact ⟨m, u, h1, h2.fv (exampleDomain_good (2 + 1 + 4) (by omega)) (by decide), h3⟩

/-- The hypotheses of C38 (and of C40, C41) are met. -/
example : ∃ m u, mrMesh 1 ⟨2, 1⟩ exampleMesh 1 2 = some (m, u) ∧ FVMesh 1 m.cells m.all exampleDomain 1 2 2 ∧
    StencilOK 1 2 (unitDir 1) [fun k => - unitDir 1 k, fun _ => 0, unitDir 1, fun k => 2 * unitDir 1 k] ∧
    Interface 1 m.cells (unitDir 1) (1, [0, 0]) (1, [1, 0]) ∧ Interface 1 m.cells (unitDir 1) (1, [0, 1]) (2, [2, 3]) ∧
    Interface 1 m.cells (unitDir 0) (1, [1, 0]) (2, [3, 2]) := by
  obtain ⟨m, u, h1, h2, h3⟩ := exampleFV
  refine ⟨m, u, h1, h2, ⟨⟨_, by simp, fun _ _ => rfl⟩, ⟨unitDir 1, by simp, fun _ _ => rfl⟩, fun s hs k _ => ?_⟩, ⟨?_, ?_, [0, 0], ?_⟩, ⟨?_, ?_, [1, 3], ?_⟩,
    ⟨?_, ?_, [3, 1], ?_⟩⟩
  · have := unitDir_le 1 k
    simp only [List.mem_cons, List.not_mem_nil, or_false] at hs
    rcases hs with rfl | rfl | rfl | rfl <;> simp only [Nat.cast_one, Nat.cast_ofNat] <;> omega
  all_goals first
    | exact (h3 _ _).2 ((exampleMesh_leaves _ _).2 (by simp))
    | exact ⟨anc_iff.2 (by decide), anc_iff.2 (by decide)⟩

/-! ### C38 -/

/-- C38. On a mesh of graded leaves that tile a domain, with a reference mesh that holds the cells of the stencils: for every Cartesian
direction and every computational stencil, `for_each_interior_interface` succeeds (no cell is missing), its calls are the pairs of leaves
that share an interface in this direction — each pair once, no other pair —, and the arguments of every call are right: the numbers of the two cells,
and the cells of the stencil with their numbers, in order, at the finer of the two levels. -/
theorem C38_interior_interfaces (n : Nat) (cells ref : CA) (dom : LCA) (minL maxL w d : Nat) (S : List (Nat → Int))
    (g : FVMesh n cells ref dom minL maxL w) (hd : d ≤ n) (hS : StencilOK n w (unitDir d) S) :
    ∃ fs, interiorFaces n ref cells maxL (unitDir d) S = some fs ∧ (fs.map FaceCall.ends).Nodup ∧
      (∀ a b, (a, b) ∈ fs.map FaceCall.ends ↔ Interface n cells (unitDir d) a b) ∧
      ∀ f ∈ fs, f.Right n ref (unitDir d) S := by
  obtain ⟨fs, h1, h2⟩ := g.interior hd hS
  exact ⟨fs, h1, h2.nodup, fun a b => h2.mem (a, b), h2.right⟩

/-- C38 on every mesh reached from graded leaves by any sequence of adaptations, for every stencil whose width the mesh was configured for. -/
theorem C38_adapted_meshes {K : Type} [Field K] (n : Nat) (hn : n ≤ 2) (cfg : MeshConfig) (minL maxL d : Nat) (S : List (Nat → Int)) (dom : LCA)
    (cells : CA) (calls : List (AdaptCall K))
    (hd : GoodDomain n dom minL maxL (cfg.maxStencilWidth + cfg.predictionOrder + 4)) (hmin : 1 ≤ minL) (hmm : minL ≤ maxL)
    (g : GoodLeaves n cells dom minL maxL) (hdn : d ≤ n) (hS : StencilOK n cfg.maxStencilWidth (unitDir d) S) :
    ∃ m u m' u', mrMesh n cfg cells minL maxL = some (m, u) ∧ runAdapt n cfg 1 minL maxL dom calls m u = some (m', u') ∧
      ∃ fs, interiorFaces n m'.all m'.cells maxL (unitDir d) S = some fs ∧ (fs.map FaceCall.ends).Nodup ∧
        (∀ a b, (a, b) ∈ fs.map FaceCall.ends ↔ Interface n m'.cells (unitDir d) a b) ∧
        ∀ f ∈ fs, f.Right n m'.all (unitDir d) S := by
  obtain ⟨m, u, h1, h2⟩ := adaptInv_init (cfg := cfg) hd (by omega) g
  obtain ⟨m', u', k1, k2⟩ := runAdapt_inv hn hd hmin hmm calls m u h2
  exact ⟨m, u, m', u', h1, k1, C38_interior_interfaces n _ _ dom minL maxL _ d S (k2.fv hd (by omega)) hdn hS⟩

/-! ### C40 -/

theorem slide_iterate {σ : Type} (next : σ → σ) (k : Nat) (s : σ) : slide next k s = (List.range k).map fun i => next^[i] s :=
  slide_of (fun i => next^[i] s) (fun i => (Function.iterate_succ_apply' next i s).symm) k

theorem pair_iterate {σ τ : Type} (f : σ → σ) (h : τ → τ) (i : Nat) (a : σ) (b : τ) :
    (fun s : σ × τ => (f s.1, h s.2))^[i] (a, b) = (f^[i] a, h^[i] b) := by
  induction i generalizing a b with
  | zero => rfl
  | succ i ih => rw [Function.iterate_succ_apply, Function.iterate_succ_apply, Function.iterate_succ_apply]; exact ih (f a) (h b)

theorem jump_positions {n : Nat} {ref : CA} {level : Nat} {v : Nat → Int} {S : List (Nat → Int)} {c : Call} {j : JumpIter} {l : List MCell}
    (h : List.Forall₂ (JumpFace n ref level v S) ((coords1 c.2).map fun x => c.1 ++ [x])
      ((slide (fun s : JumpIter × List MCell => (s.1.next, stencilNext s.2)) c.2.size (j, l)).map fun s => (s.1.coarse, s.1.fine, s.2)))
    (i : Nat) (hi : c.2.start + i < c.2.stop) :
    CellNum n ref level (parentOf (c.1 ++ [c.2.start + i])) (JumpIter.next^[i] j).coarse ∧
      CellNum n ref (level + 1) (shiftPoint v n (c.1 ++ [c.2.start + i])) (JumpIter.next^[i] j).fine := by
  rw [rowCells_eq, slide_iterate, List.map_map, List.forall₂_map_right_iff, List.forall₂_map_left_iff, List.forall₂_same] at h
  have := h i (List.mem_range.2 (by unfold Interval.size; omega))
  unfold JumpFace at this
  simp only [Function.comp_apply, pair_iterate] at this
  exact ⟨this.1, this.2.1⟩

/-- C40. For every interval (`c`) emitted by the intersection of a level jump, in the direction `d` or in the opposite direction (`s = 1` or `-1`):
at every position `i` of the interval the iterator, moved `i` times, is on the leaf of the coarse level that contains the cell `q` at this position,
and on the leaf of the fine level next to `q`, both with their numbers. -/
theorem C40_level_jump (n : Nat) (cells ref : CA) (dom : LCA) (minL maxL w d level : Nat) (S : List (Nat → Int)) (s : Int)
    (g : FVMesh n cells ref dom minL maxL w) (hd : d ≤ n) (hs : s = 1 ∨ s = -1) (hS : StencilOK n w (fun k => s * unitDir d k) S)
    (hl : level < maxL) :
    ∃ calls, runSet n (.op .inter (.leaf (.mesh (cells.lca level)))
        (.leaf (.translate (.mesh (cells.lca (level + 1))) fun k => - (s * unitDir d k)))) (level + 1) = some calls ∧
      ∀ c ∈ calls, ∃ k fine j, stencilFind n S (fun k => s * unitDir d k) = some k ∧ stencilInit n ref S (level + 1) c = some fine ∧
        jumpInit n ref level fine k c = some j ∧
        ∀ i : Nat, c.2.start + i < c.2.stop → ∃ p p', cells.Mem n level p ∧ cells.Mem n (level + 1) p' ∧
          Anc 1 p (c.1 ++ [c.2.start + (i : Int)]) ∧ p' = shiftPoint (fun k => s * unitDir d k) n (c.1 ++ [c.2.start + (i : Int)]) ∧
          CellIs n ref level p (JumpIter.next^[i] j).coarse ∧ CellIs n ref (level + 1) p' (JumpIter.next^[i] j).fine := by
  have hax : AxisDir n fun k => s * unitDir d k := by
    rcases hs with rfl | rfl
    · simpa using unitDir_axis n d
    · simpa using unitDir_axis_neg n d
  have hle : ∀ k, - (s * unitDir d k) ≤ 1 := by
    intro k
    have := unitDir_le d k
    rcases hs with rfl | rfl <;> omega
  have hw1 : 1 ≤ w := by
    obtain ⟨t, ht, h1⟩ := hS.next
    have := hS.width t ht d hd
    rw [h1 d hd] at this
    unfold unitDir at this
    rw [if_pos rfl] at this
    rcases hs with rfl | rfl <;> omega
  obtain ⟨calls, h1, h2, h3, h4⟩ := g.jumpRows hax hle hw1 hS.orig hS.next (fun t ht k hk => by
    have := hS.width t ht k hk; exact ⟨by omega, by omega⟩) hl
  refine ⟨calls, h1, fun c hc => ?_⟩
  obtain ⟨k, l, j, j1, j2, j3, j4⟩ := h4 c hc
  refine ⟨k, l, j, j1, j2, j3, fun i hi => ?_⟩
  obtain ⟨k1, k2⟩ := jump_positions j4 i hi
  have hin := (h3 (c.1 ++ [c.2.start + i])).1 (mem_callCells.2 ⟨c, hc, _, Interval.mem_def.2 ⟨by omega, hi⟩, rfl⟩)
  exact ⟨_, _, hin.1, hin.2, anc_one.2 rfl, rfl, k1.is (g.ref_level hin.1).1, k2.is (g.ref_level hin.2).1⟩

/-! ### C40, refuted on a domain that is not a union of cells of the coarse level -/

/-- Two cells of level 0 and, above them, three cells of level 1, the first of which is the second half of a cell of level 0. -/
def unalignedCalls : List (Nat × CellCall) := [(0, .interval [0] (.mk' 0 2)), (1, .interval [2] (.mk' 1 4))]

def unalignedMesh : CA := match (CL.new 1 1).calls unalignedCalls with
  | some cl => CA.ofCL cl
  | none => CA.empty 1 1

/-- Its reference mesh: the leaves and the two layers of cells of level 1 needed by the interface. -/
def unalignedRef : CA := match (CL.new 1 1).calls (unalignedCalls ++ [(1, .interval [1] (.mk' 0 4))]) with
  | some cl => CA.ofCL cl
  | none => CA.empty 1 1

/-- C40, refuted without the hypothesis that the domain is a union of cells of level `min_level`: the mesh is a tiling (without overlap) by leaves whose
levels differ by one, and built by the user from a cell list. The interface of the cell `x = 2` of level 1 is given to the coarse cell
`x = 0`, which it does not touch, in place of the cell `x = 1`: `m_ii` counts from the start of the interval, not from an even cell. -/
theorem C40_unaligned_refuted : ∃ fs, interiorFaces 1 unalignedRef unalignedMesh 1 (unitDir 1) (inOutStencil (unitDir 1)) = some fs ∧
    ((0, [0, 0]), (1, [2, 2])) ∈ fs.map FaceCall.ends ∧ ¬ Interface 1 unalignedMesh (unitDir 1) (0, [0, 0]) (1, [2, 2]) ∧
    ((0, [0, 1]), (1, [2, 2])) ∉ fs.map FaceCall.ends ∧ Interface 1 unalignedMesh (unitDir 1) (0, [0, 1]) (1, [2, 2]) := by
  have hw : unalignedMesh.WF 1 := by
    obtain ⟨cl, h1, h2⟩ := (hist_new 1 1).calls (k := unalignedCalls) (by
      simp [unalignedCalls, CellCall.idx, CellCall.Valid, Interval.mk'])
    have he : unalignedMesh = CA.ofCL cl := by
      unfold unalignedMesh
      rw [h1]
    rw [he]
    exact h2.array.2.1
  have hn : unalignedMesh.numbered 1 = [(0, [0, 0], 0), (0, [0, 1], 1), (1, [2, 1], 1), (1, [2, 2], 2), (1, [2, 3], 3)] := by decide +kernel
  have hf : (interiorFaces 1 unalignedRef unalignedMesh 1 (unitDir 1) (inOutStencil (unitDir 1))).map (fun fs => fs.map FaceCall.ends) =
      some [((0, [0, 0]), (1, [2, 1])), ((0, [0, 0]), (1, [2, 2])), ((0, [0, 1]), (1, [2, 3]))] := by decide +kernel
  cases hi : interiorFaces 1 unalignedRef unalignedMesh 1 (unitDir 1) (inOutStencil (unitDir 1)) with
  | none => rw [hi] at hf; cases hf
  | some fs =>
    rw [hi] at hf
    have hf' : fs.map FaceCall.ends = _ := Option.some.inj hf
    refine ⟨fs, rfl, ?_, ?_, ?_, ?_⟩
    · rw [hf']; simp
    · rintro ⟨-, -, q, h1, h2⟩
      rw [anc_iff] at h1
      have h3 := anc_zero.1 h2
      obtain ⟨y, x, rfl, h4, h5⟩ := anc_pair.1 (anc_iff.2 h1)
      simp only [shiftPoint, unitDir, List.length_cons, List.length_nil] at h3
      norm_num at h3 h4 h5
      omega
    · rw [hf']; decide
    · refine ⟨CA.mem_of_numbered hw (v := 1) (by rw [hn]; simp), CA.mem_of_numbered hw (v := 2) (by rw [hn]; simp), [1, 2],
        anc_iff.2 (by decide), anc_iff.2 (by decide)⟩

/-! ### C41 -/

/-- C41. `boundary(mesh, level, direction)`, for a Cartesian direction or its opposite: it is defined, and its cells are the leaves of this level
whose neighbour in this direction lies outside the domain. As the domain is a union of cells of level `min_level`, a cell that is not completely inside
the domain is completely outside: both forms are given. -/
theorem C41_boundary (n : Nat) (cells ref : CA) (dom sub : LCA) (minL maxL w d level : Nat) (s : Int)
    (g : FVMesh n cells ref dom minL maxL w) (hs : s = 1 ∨ s = -1) (hl : level ≤ maxL) (hsub : constructSubdomain n cells maxL = some sub) :
    ∃ calls, boundarySet n sub cells level (fun k => s * unitDir d k) = some calls ∧
      (∀ p, Covers calls p ↔ cells.Mem n level p ∧
        ∀ m, Anc (maxL - level) (shiftPoint (fun k => s * unitDir d k) n p) m → ¬ InDomain n dom maxL m) ∧
      ∀ p, Covers calls p ↔ cells.Mem n level p ∧
        ∃ m, Anc (maxL - level) (shiftPoint (fun k => s * unitDir d k) n p) m ∧ ¬ InDomain n dom maxL m := by
  obtain ⟨S, s1, s2, s3, s4⟩ := C56_subdomain n cells minL maxL g.leaves.wf g.leaves.between
  rw [hsub] at s1
  cases s1
  have hsm : ∀ m, sub.Mem n m ↔ InDomain n dom maxL m := by
    intro m
    rw [s4, ← g.leaves.tiles]
    constructor
    · rintro ⟨l, q, h1, h2⟩; exact ⟨l, q, (g.leaves.between _ _ h1).2, h1, h2⟩
    · rintro ⟨l, q, _, h1, h2⟩; exact ⟨l, q, h1, h2⟩
  obtain ⟨calls, h1, _, _, h4⟩ := g.bdrySet s2 s3 hsm (dir := fun k => s * unitDir d k) (by
    intro k
    have := unitDir_le d k
    rcases hs with rfl | rfl <;> omega) hl
  refine ⟨calls, h1, h4, fun p => (h4 p).trans (and_congr_right fun hp => ?_)⟩
  constructor
  · intro h
    obtain ⟨m, hm⟩ := anc_exists (maxL - level) (shiftPoint (fun k => s * unitDir d k) n p)
    exact ⟨m, hm, h m hm⟩
  · rintro ⟨m, h5, h6⟩ m' h7 h8
    have hb := g.leaves.between _ _ hp
    refine h6 (g.domain.whole ((shiftPoint (fun k => s * unitDir d k) n p).map fun x => shr x (level - minL)) m' m ?_ ?_ h8)
    · have := anc_trans (anc_iff.2 rfl : Anc (level - minL) _ (shiftPoint (fun k => s * unitDir d k) n p)) h7
      rwa [show level - minL + (maxL - level) = maxL - minL by omega] at this
    · have := anc_trans (anc_iff.2 rfl : Anc (level - minL) _ (shiftPoint (fun k => s * unitDir d k) n p)) h5
      rwa [show level - minL + (maxL - level) = maxL - minL by omega] at this

theorem bdry_points {n : Nat} {ref : CA} {level : Nat} {S : List (Nat → Int)} {ps : List (List Int)} {fs : List BdryCall}
    (h : List.Forall₂ (BdryFace n ref level S) ps fs) : ps = fs.map fun f => f.cell.pt := by
  induction h with
  | nil => rfl
  | cons h _ ih => rw [List.map_cons, ← ih, h.1.2.1]

theorem forall₂_points {α β : Type} {f : β → α} {R : α → β → Prop} {l : List β} (h : List.Forall₂ R (l.map f) l) : ∀ b ∈ l, R (f b) b := by
  rwa [List.forall₂_map_left_iff, List.forall₂_same] at h

/-- C41, the calls. `for_each_boundary_interface__direction` and `__opposite_direction` on a level: they succeed, they visit each leaf of this level
whose neighbour (in the direction `d`, respectively in the opposite direction) is outside the domain exactly once, and no other cell; the arguments
are the cell with its number and the cells of the stencil with their numbers, the stencil being seen from the cell before the interface. -/
theorem C41_boundary_calls (n : Nat) (cells ref : CA) (dom sub : LCA) (minL maxL w d level : Nat) (S : List (Nat → Int))
    (g : FVMesh n cells ref dom minL maxL w) (hd : d ≤ n) (hS : StencilOK n w (unitDir d) S) (hl : level ≤ maxL)
    (hsub : constructSubdomain n cells maxL = some sub) :
    (∃ fs, bdryFaces n ref sub cells (unitDir d) S level = some fs ∧ (fs.map fun f => f.cell.pt).Nodup ∧
      (∀ p, p ∈ (fs.map fun f => f.cell.pt) ↔ cells.Mem n level p ∧
        ∀ m, Anc (maxL - level) (shiftPoint (unitDir d) n p) m → ¬ InDomain n dom maxL m) ∧
      ∀ f ∈ fs, CellIs n ref level f.cell.pt f.cell ∧ List.Forall₂ (fun s c => CellIs n ref level (shiftPoint s n f.cell.pt) c) S f.comput) ∧
    ∃ fs, bdryFacesOpp n ref sub cells (unitDir d) S level = some fs ∧ (fs.map fun f => f.cell.pt).Nodup ∧
      (∀ p, p ∈ (fs.map fun f => f.cell.pt) ↔ cells.Mem n level p ∧
        ∀ m, Anc (maxL - level) (shiftPoint (fun k => - unitDir d k) n p) m → ¬ InDomain n dom maxL m) ∧
      ∀ f ∈ fs, CellIs n ref level f.cell.pt f.cell ∧ ∃ q, q = shiftPoint (fun k => - unitDir d k) n f.cell.pt ∧
        List.Forall₂ (fun s c => CellIs n ref level (shiftPoint s n q) c) S f.comput := by
  obtain ⟨S', s1, s2, s3, s4⟩ := C56_subdomain n cells minL maxL g.leaves.wf g.leaves.between
  rw [hsub] at s1
  cases s1
  have hsm : ∀ m, sub.Mem n m ↔ InDomain n dom maxL m := by
    intro m
    rw [s4, ← g.leaves.tiles]
    constructor
    · rintro ⟨l, q, h1, h2⟩; exact ⟨l, q, (g.leaves.between _ _ h1).2, h1, h2⟩
    · rintro ⟨l, q, _, h1, h2⟩; exact ⟨l, q, h1, h2⟩
  have hw1 : 1 ≤ w := hS.pos hd
  constructor
  · obtain ⟨fs, ps, h1, h2, h3, h4⟩ := g.bdryFaces s2 s3 hsm (dir := unitDir d) (fun k => by have := unitDir_le d k; omega)
      (fun k _ => by have := unitDir_le d k; omega) hw1 hS.orig (fun s hs k hk => by have := hS.width s hs k hk; omega) hl
    have he : ps = fs.map fun f => f.cell.pt := bdry_points h4
    subst he
    refine ⟨fs, h1, h2, h3, fun f hf => ?_⟩
    have hm := (h3 _).1 (List.mem_map.2 ⟨f, hf, rfl⟩)
    have := forall₂_points h4 f hf
    exact ⟨this.1.is (g.ref_level hm.1).1, this.2.imp fun s c h => h.is (g.ref_level hm.1).1⟩
  · obtain ⟨fs, ps, h1, h2, h3, h4⟩ := g.bdryFaces s2 s3 hsm (dir := fun k => - unitDir d k) (S := minusStencil (unitDir d) S)
      (fun k => by have := unitDir_le d k; omega)
      (fun k _ => by have := unitDir_le d k; omega) hw1 (by
        obtain ⟨s, hs, h0⟩ := hS.next
        exact ⟨_, List.mem_map.2 ⟨s, hs, rfl⟩, fun k hk => by show s k - unitDir d k = 0; rw [h0 k hk]; omega⟩) (by
        intro t ht k hk
        obtain ⟨s, hs, rfl⟩ := List.mem_map.1 ht
        have := hS.width s hs k hk
        show - (w : Int) ≤ s k - unitDir d k ∧ s k - unitDir d k ≤ w
        omega) hl
    have he : ps = fs.map fun f => f.cell.pt := bdry_points h4
    subst he
    refine ⟨fs, h1, h2, h3, fun f hf => ?_⟩
    have hm := (h3 _).1 (List.mem_map.2 ⟨f, hf, rfl⟩)
    have := forall₂_points h4 f hf
    refine ⟨this.1.is (g.ref_level hm.1).1, _, rfl, ?_⟩
    have h5 := this.2
    unfold CellsOf minusStencil at h5
    rw [List.forall₂_map_left_iff] at h5
    refine h5.imp fun s c h => ?_
    rw [shift_shift, shift_congr (t := fun k => s k - unitDir d k) _ _ (fun k _ => by omega)]
    exact h.is (g.ref_level hm.1).1

end Samurai

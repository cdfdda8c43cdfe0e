/-
The update of the ghosts on AMR meshes that are not graded, or graded through the faces only.
-/
import Verif.Props.AMRGhost

namespace Samurai

section
variable {K : Type} [Field K] [CharZero K] {n : Nat}

/-- The part of C103 that needs no graded mesh, for every prediction order and every number of ghosts. On each AMR mesh whose leaves, of level at least 1,
tile a box of cells of level 0 without overlap, `update_ghost` succeeds and after it
* the leaves have the values they had;
* each cell covered by finer leaves that is within `ghost_width` of a leaf of its level, or lies in such a cell, has the mean of the values of its
  children, all in the mesh;
* each cell inside a coarser leaf and within `ghost_width` of a leaf of its level has the value predicted from the level below, from cells of the mesh;
* on every level of the mesh the ghosts outside the domain satisfy the boundary conditions with the final values of the cells inside. -/
theorem C103_any_tiling (hn : n ≤ 2) (cfg : MeshConfig) (cells : CA) (dom : LCA)
    (minL maxL : Nat) (b : Box) (g : TilingLeaves n cells dom minL maxL) (hmin : 1 ≤ minL) (hd : BoxDomain n dom 0 b) (hdl : dom.level = maxL)
    (hB : ∃ B : Int, 0 ≤ B ∧ B + (2 * cfg.ghostWidth + 9) * 2 ^ maxL + 2 < INT_MAX ∧ ∀ d ≤ n, b.hi d * 2 ^ maxL ≤ B)
    (h0 : K) (bcs : List (BcCond K)) (hbc : ∀ c ∈ bcs, GoodBc n dom cfg.ghostWidth c) (u : Int → K) :
    ∃ m x u' val, amrMesh n cfg cells dom minL maxL = some (m, x) ∧
      updateGhostAmr n ⟨⟨m.cells, m.all, dom, minL, maxL, fun _ => false, h0, cfg⟩, m.proj, m.pred⟩ bcs u = some u' ∧ FieldIs n m.all u' val ∧
      (∀ l p i, cells.Mem n l p → (l, p, i) ∈ m.all.numbered n → u' i = u i) ∧
      (∀ l p k q, NearLeaf n cfg.ghostWidth cells l p → Anc k p q → CoveredBy n cells (l + k) q →
        MeanOfChildren n val (l + k) q ∧ ∀ r ∈ childrenOf q, m.all.Mem n (l + k + 1) r) ∧
      (∀ l p, NearLeaf n cfg.ghostWidth cells l p → (∃ l0 c, l0 < l ∧ cells.Mem n l0 c ∧ Anc (l - l0) c p) →
        PredictedFromBelow n cfg.predictionOrder val l p ∧ ∀ q, Near cfg.predictionOrder q (p.map fun y => shr y 1) → m.all.Mem n (l - 1) q) ∧
      (∀ l p, m.all.Mem n l p → BoundaryHolds n ⟨m.cells, m.all, dom, minL, maxL, fun _ => false, h0, cfg⟩ bcs l (b.refined l) val) := by
  obtain ⟨B, hB0, hB1, hB2⟩ := hB
  obtain ⟨m, x, r1, r2⟩ := amrMesh_box (cfg := cfg) g hmin hd hdl hB0 hB1 hB2
  have geo := amrGeo_ok (cfg := cfg) g hd hdl
  obtain ⟨u', e1, e2, e3, -, e4, e5, e6⟩ := amr_ghosts_tiling hn cfg cells dom minL maxL b g hmin hd hdl hB0 hB1 hB2 h0 r2 bcs hbc u
  refine ⟨m, x, u', _, r1, e1, e2, e3, fun l p k q hp ha hc => e4 _ _ ?_ hc, fun l p hp => e5 l p (.inl hp), e6⟩
  clear e1 e2 e3 e4 e5 e6
  induction k generalizing q with
  | zero =>
    obtain rfl := anc_zero.1 ha
    exact .inl hp
  | succ k ih =>
    have ha' : Anc k p (q.map fun y => shr y 1) := by
      have := anc_of_anc (j := k + 1) (k := 1) (by omega) ha (anc_iff.2 rfl)
      rwa [Nat.add_sub_cancel] at this
    have hc' : CoveredBy n cells (l + k) (q.map fun y => shr y 1) := by
      obtain ⟨l', y, h1, h2, h3⟩ := hc
      refine ⟨l', y, by omega, h2, ?_⟩
      have := anc_trans (anc_iff.2 rfl : Anc 1 (q.map fun y => shr y 1) q) h3
      rwa [show 1 + (l' - (l + (k + 1))) = l' - (l + k) by omega] at this
    exact .inr (geo.projd (l + k) _ q (ih _ ha' hc') hc' rfl)

end

/-! ### a mesh graded through the faces -/

/-- A leaf of level 1 in the corner, eleven leaves of level 2, and four leaves of level 3 that touch the first one by a corner only. -/
def faceCalls : List (Nat × CellCall) :=
  [(1, .interval [0] (.mk' 0 1)), (2, .interval [0] (.mk' 2 4)), (2, .interval [1] (.mk' 2 4)), (2, .interval [2] (.mk' 0 2)), (2, .interval [2] (.mk' 3 4)),
    (2, .interval [3] (.mk' 0 4)), (3, .interval [4] (.mk' 4 6)), (3, .interval [5] (.mk' 4 6))]

def faceMesh : CA := match runLevelCalls 1 4 faceCalls with
  | some cl => CA.ofCL cl
  | none => CA.empty 1 4

def faceBox : Box := ⟨fun _ => 0, fun _ => 8⟩

def faceDomain : LCA := LCA.ofBox 1 3 faceBox

theorem faceMesh_spec : faceMesh.maxSize = 4 ∧ faceMesh.WF 1 ∧ faceMesh.Leveled ∧ ∀ l p, faceMesh.Mem 1 l p ↔
    (l = 1 ∧ p = [0, 0]) ∨
    (l = 2 ∧ ∃ y x : Int, 0 ≤ y ∧ y < 4 ∧ 0 ≤ x ∧ x < 4 ∧ (2 ≤ y ∨ 2 ≤ x) ∧ ¬ (y = 2 ∧ x = 2) ∧ p = [y, x]) ∨
    l = 3 ∧ ∃ y x : Int, 4 ≤ y ∧ y < 6 ∧ 4 ≤ x ∧ x < 6 ∧ p = [y, x] := by
  obtain ⟨cl, h1, h2⟩ := (hist_new 1 4).calls (k := faceCalls) (by
    simp [faceCalls, CellCall.idx, CellCall.Valid, Interval.mk'])
  have he : faceMesh = CA.ofCL cl := by
    unfold faceMesh runLevelCalls
    rw [h1]
  obtain ⟨a1, a2, a3, -, a5⟩ := h2.array
  rw [he]
  refine ⟨a1, a2, a3, fun l p => ?_⟩
  rw [a5]
  simp only [faceCalls, List.mem_cons, Prod.mk.injEq, List.not_mem_nil, or_false, false_or]
  constructor
  · rintro ⟨c, hc, ha⟩
    rcases hc with ⟨rfl, rfl⟩ | ⟨rfl, rfl⟩ | ⟨rfl, rfl⟩ | ⟨rfl, rfl⟩ | ⟨rfl, rfl⟩ | ⟨rfl, rfl⟩ | ⟨rfl, rfl⟩ | ⟨rfl, rfl⟩ <;>
      obtain ⟨x, x1, x2, rfl⟩ := ha <;> simp only [Interval.mk'] at x1 x2
    · obtain rfl : x = 0 := by omega
      exact .inl ⟨rfl, rfl⟩
    all_goals first
      | exact .inr (.inl ⟨rfl, _, x, by omega, by omega, by omega, by omega, by omega, by omega, rfl⟩)
      | exact .inr (.inr ⟨rfl, _, x, by omega, by omega, by omega, by omega, rfl⟩)
  · rintro (⟨rfl, rfl⟩ | ⟨rfl, y, x, y1, y2, x1, x2, h, h', rfl⟩ | ⟨rfl, y, x, y1, y2, x1, x2, rfl⟩)
    · exact ⟨_, .inl ⟨rfl, rfl⟩, 0, by simp [Interval.mk'], by simp [Interval.mk'], rfl⟩
    · rcases (by omega : y = 0 ∨ y = 1 ∨ y = 2 ∧ x < 2 ∨ y = 2 ∧ 3 ≤ x ∨ y = 3) with rfl | rfl | ⟨rfl, hx⟩ | ⟨rfl, hx⟩ | rfl
      · exact ⟨_, .inr (.inl ⟨rfl, rfl⟩), x, by simp only [Interval.mk']; omega, x2, rfl⟩
      · exact ⟨_, .inr (.inr (.inl ⟨rfl, rfl⟩)), x, by simp only [Interval.mk']; omega, x2, rfl⟩
      · exact ⟨_, .inr (.inr (.inr (.inl ⟨rfl, rfl⟩))), x, x1, hx, rfl⟩
      · exact ⟨_, .inr (.inr (.inr (.inr (.inl ⟨rfl, rfl⟩)))), x, hx, x2, rfl⟩
      · exact ⟨_, .inr (.inr (.inr (.inr (.inr (.inl ⟨rfl, rfl⟩))))), x, x1, x2, rfl⟩
    · obtain rfl | rfl : y = 4 ∨ y = 5 := by omega
      · exact ⟨_, .inr (.inr (.inr (.inr (.inr (.inr (.inl ⟨rfl, rfl⟩)))))), x, x1, x2, rfl⟩
      · exact ⟨_, .inr (.inr (.inr (.inr (.inr (.inr (.inr ⟨rfl, rfl⟩)))))), x, x1, x2, rfl⟩

theorem faceMesh_mem (l : Nat) (p : List Int) : faceMesh.Mem 1 l p ↔
    (l = 1 ∧ p = [0, 0]) ∨
    (l = 2 ∧ ∃ y x : Int, 0 ≤ y ∧ y < 4 ∧ 0 ≤ x ∧ x < 4 ∧ (2 ≤ y ∨ 2 ≤ x) ∧ ¬ (y = 2 ∧ x = 2) ∧ p = [y, x]) ∨
    l = 3 ∧ ∃ y x : Int, 4 ≤ y ∧ y < 6 ∧ 4 ≤ x ∧ x < 6 ∧ p = [y, x] := faceMesh_spec.2.2.2 l p

theorem faceDomain_box : BoxDomain 1 faceDomain 0 ⟨fun _ => 0, fun _ => 1⟩ := by
  refine ⟨ofBox_wf 3 fun _ _ => by simp [faceBox], by omega, fun _ _ => by simp, fun p => ?_⟩
  rw [show (⟨fun _ => 0, fun _ => 1⟩ : Box).refined (faceDomain.level - 0) = faceBox by
    show (⟨fun _ => 0, fun _ => 1⟩ : Box).refined 3 = faceBox
    simp [Box.refined, faceBox]]
  exact ofBox_mem 3 p

theorem faceInDomain (m : List Int) : InDomain 1 faceDomain 3 m ↔ ∃ y x : Int, 0 ≤ y ∧ y < 8 ∧ 0 ≤ x ∧ x < 8 ∧ m = [y, x] := by
  unfold InDomain
  rw [show 3 - faceDomain.level = 0 from rfl]
  have hb : ∀ p, faceDomain.Mem 1 p ↔ ∃ y x : Int, 0 ≤ y ∧ y < 8 ∧ 0 ≤ x ∧ x < 8 ∧ p = [y, x] := by
    intro p
    rw [show faceDomain.Mem 1 p ↔ InBox faceBox 1 p from ofBox_mem 3 p]
    constructor
    · intro h
      match p, h with
      | [y, x], h =>
        simp only [InBox, faceBox] at h
        exact ⟨y, x, h.1.1, h.1.2, h.2.1, h.2.2, rfl⟩
    · rintro ⟨y, x, y1, y2, x1, x2, rfl⟩
      simp [InBox, faceBox, y1, y2, x1, x2]
  constructor
  · rintro ⟨p, h1, h2⟩
    obtain rfl := anc_zero.1 h2
    exact (hb _).1 h1
  · intro h
    exact ⟨m, (hb _).2 h, anc_zero.2 rfl⟩

/-- The mesh tiles the square and is graded through the faces. -/
theorem faceLeaves : AMRLeaves 1 FaceNeighbours faceMesh faceDomain 1 3 := by
  have hb : faceMesh.Between 1 1 3 := fun l p h => by rcases (faceMesh_mem l p).1 h with ⟨rfl, -⟩ | ⟨rfl, -⟩ | ⟨rfl, -⟩ <;> omega
  refine ⟨faceMesh_spec.2.1, faceMesh_spec.2.2.1, by rw [faceMesh_spec.1]; omega, hb, fun l p l' p' h h' hl ha => ?_, fun l p l' p' q h h' hl hf ha => ?_, fun m => ?_,
    1, [0, 0], (faceMesh_mem _ _).2 (.inl ⟨rfl, rfl⟩)⟩
  · rw [faceMesh_mem] at h h'
    rcases h with ⟨rfl, rfl⟩ | ⟨rfl, y, x, y1, y2, x1, x2, ho, ho2, rfl⟩ | ⟨rfl, y, x, y1, y2, x1, x2, rfl⟩ <;>
      rcases h' with ⟨rfl, rfl⟩ | ⟨rfl, t, z, t1, t2, z1, z2, ho', ho2', rfl⟩ | ⟨rfl, t, z, t1, t2, z1, z2, rfl⟩ <;>
      first
      | exact ⟨rfl, anc_zero.1 ha⟩
      | (exfalso; omega)
      | (exfalso
         obtain ⟨a, b, he, h3, h4⟩ := anc_pair.1 ha
         simp only [List.cons.injEq, and_true] at he
         norm_num at h3 h4
         omega)
  · rw [faceMesh_mem] at h h'
    rcases h with ⟨rfl, rfl⟩ | ⟨rfl, y, x, y1, y2, x1, x2, ho, ho2, rfl⟩ | ⟨rfl, y, x, y1, y2, x1, x2, rfl⟩ <;>
      rcases h' with ⟨rfl, rfl⟩ | ⟨rfl, t, z, t1, t2, z1, z2, ho', ho2', rfl⟩ | ⟨rfl, t, z, t1, t2, z1, z2, rfl⟩ <;>
      first
      | omega
      | (exfalso
         obtain ⟨a, b, rfl, h3, h4⟩ := anc_pair.1 ha
         simp only [FaceNeighbours, List.cons.injEq, and_true, and_false, or_false, false_or] at hf
         norm_num at h3 h4
         omega)
  · rw [faceInDomain]
    unfold CA.Tiles
    constructor
    · rintro ⟨l, p, -, h1, h2⟩
      rcases (faceMesh_mem _ _).1 h1 with ⟨rfl, rfl⟩ | ⟨rfl, y, x, y1, y2, x1, x2, ho, ho2, rfl⟩ | ⟨rfl, y, x, y1, y2, x1, x2, rfl⟩ <;>
        obtain ⟨a, b, rfl, h3, h4⟩ := anc_pair.1 h2 <;> norm_num at h3 h4 <;>
        exact ⟨a, b, by omega, by omega, by omega, by omega, rfl⟩
    · rintro ⟨y, x, y1, y2, x1, x2, rfl⟩
      by_cases hf : y < 4 ∧ x < 4
      · exact ⟨1, [0, 0], by omega, (faceMesh_mem _ _).2 (.inl ⟨rfl, rfl⟩), anc_pair.2 ⟨y, x, rfl, by norm_num; omega, by norm_num; omega⟩⟩
      · by_cases hg : 4 ≤ y ∧ y < 6 ∧ 4 ≤ x ∧ x < 6
        · exact ⟨3, [y, x], by omega, (faceMesh_mem _ _).2 (.inr (.inr ⟨rfl, y, x, by omega, by omega, by omega, by omega, rfl⟩)), anc_zero.2 rfl⟩
        · exact ⟨2, [y / 2, x / 2], by omega, (faceMesh_mem _ _).2 (.inr (.inl ⟨rfl, y / 2, x / 2, by omega, by omega, by omega, by omega, by omega, by omega, rfl⟩)),
            anc_pair.2 ⟨y, x, rfl, by norm_num, by norm_num⟩⟩

theorem near2 {w : Nat} {a b c d : Int} : Near w [a, b] [c, d] ↔ (a ≤ c + w ∧ c ≤ a + w) ∧ b ≤ d + w ∧ d ≤ b + w := by
  simp [Near, List.forall₂_cons]

/-- The value predicted in the fine cell (3, 3) reads the coarse cell (0, 0). -/
theorem corner_predict {f f' : List Int → Rat} (h : ∀ q, Near 1 q [1, 1] → q ≠ [0, 0] → f q = f' q)
    (he : predictFine 2 1 (fun q => f (ofPt 2 q)) (toPt [3, 3]) = predictFine 2 1 (fun q => f' (ofPt 2 q)) (toPt [3, 3])) : f [0, 0] = f' [0, 0] := by
  have hh : ∀ a b : Int, 0 ≤ a → a ≤ 2 → 0 ≤ b → b ≤ 2 → (a ≠ 0 ∨ b ≠ 0) → f [a, b] = f' [a, b] := by
    intro a b a1 a2 b1 b2 hn
    refine h _ (near2.2 (by omega)) fun e => ?_
    simp only [List.cons.injEq, and_true] at e
    omega
  simp [predictFine, Qs, Qs2, qsOp, qsFrom, fieldHack, predictionCoeffs, move, parentPt, toPt, ofPt, isOdd, shr, List.range_succ] at he
  rw [hh 0 1 (by omega) (by omega) (by omega) (by omega) (by omega), hh 0 2 (by omega) (by omega) (by omega) (by omega) (by omega),
    hh 1 0 (by omega) (by omega) (by omega) (by omega) (by omega), hh 1 1 (by omega) (by omega) (by omega) (by omega) (by omega),
    hh 1 2 (by omega) (by omega) (by omega) (by omega) (by omega), hh 2 0 (by omega) (by omega) (by omega) (by omega) (by omega),
    hh 2 1 (by omega) (by omega) (by omega) (by omega) (by omega), hh 2 2 (by omega) (by omega) (by omega) (by omega) (by omega)] at he
  linarith

/-- The full statement of C104 is false on the meshes that are graded through the faces only, those `AMRMesh` has with the star stencil of the graduation.
On the square with a leaf of level 1 that touches a leaf of level 3 by a corner, with the default single ghost, there are two fields with the same
values on the leaves such that, whatever the boundary conditions, `update_ghost` leaves different values in some cell next to a leaf of its level: the
prediction of the ghost (3, 3) of level 3 reads the cell (0, 0) of level 2, inside the leaf of level 1, to which nothing gives a value. -/
theorem C104_face_graded_refuted : AMRLeaves 1 FaceNeighbours faceMesh faceDomain 1 3 ∧
    ∃ m x, amrMesh 1 ⟨1, 1⟩ faceMesh faceDomain 1 3 = some (m, x) ∧ ∃ u1 u2 : Int → Rat,
      (∀ l p i, faceMesh.Mem 1 l p → (l, p, i) ∈ m.all.numbered 1 → u1 i = u2 i) ∧
      ∀ bcs : List (BcCond Rat), (∀ c ∈ bcs, GoodBc 1 faceDomain 1 c) → ∃ u1' u2',
        updateGhostAmr 1 ⟨⟨m.cells, m.all, faceDomain, 1, 3, fun _ => false, 1, ⟨1, 1⟩⟩, m.proj, m.pred⟩ bcs u1 = some u1' ∧
        updateGhostAmr 1 ⟨⟨m.cells, m.all, faceDomain, 1, 3, fun _ => false, 1, ⟨1, 1⟩⟩, m.proj, m.pred⟩ bcs u2 = some u2' ∧
        ∃ l p i, NearLeaf 1 1 faceMesh l p ∧ (l, p, i) ∈ m.all.numbered 1 ∧ u1' i ≠ u2' i := by
  have g0 := faceLeaves
  have g : TilingLeaves 1 faceMesh faceDomain 1 3 := ⟨g0.wf, g0.leveled, g0.size, g0.between, g0.noOverlap, g0.tiles⟩
  have hhi : ∀ d ≤ 1, (⟨fun _ => 0, fun _ => 1⟩ : Box).hi d * 2 ^ 3 ≤ 8 := fun _ _ => by show (1 : Int) * 2 ^ 3 ≤ 8; decide
  have hB : (8 : Int) + (2 * (⟨1, 1⟩ : MeshConfig).ghostWidth + 9) * 2 ^ 3 + 2 < INT_MAX := by decide
  obtain ⟨m, x, q1, q2⟩ := amrMesh_box (cfg := ⟨1, 1⟩) g (by omega) faceDomain_box rfl (by omega) hB hhi
  have gr := amrReady_ok (K := Rat) g (by omega) faceDomain_box rfl (by omega) hB hhi 1 q2
  have hwf : m.all.WF 1 := gr.refWF
  have geo := amrGeo_ok (cfg := ⟨1, 1⟩) g faceDomain_box rfl
  obtain ⟨m0, c1, c2, c3, c4, c5, c6⟩ := q2.content
  have hnear : ∀ l p, NearLeaf 1 1 faceMesh l p → m.all.Mem 1 l p := fun l p h => (c6 l p).2 ((c1.all l p).2 (.inl (.inl h)))
  have hmid : ∀ y x : Int, 0 ≤ y → y < 4 → 0 ≤ x → x < 4 → (2 ≤ y ∨ 2 ≤ x) → ¬ (y = 2 ∧ x = 2) → faceMesh.Mem 1 2 [y, x] :=
    fun y x y1 y2 x1 x2 h h' => (faceMesh_mem _ _).2 (.inr (.inl ⟨rfl, y, x, y1, y2, x1, x2, h, h', rfl⟩))
  have hbig : faceMesh.Mem 1 1 [0, 0] := (faceMesh_mem _ _).2 (.inl ⟨rfl, rfl⟩)
  -- the predicted ghost
  have hj : NearLeaf 1 1 faceMesh 3 [3, 3] := ⟨[4, 4], (faceMesh_mem _ _).2 (.inr (.inr ⟨rfl, 4, 4, by omega, by omega, by omega, by omega, rfl⟩)), near2.2 (by omega)⟩
  have hj' : ∃ l0 c, l0 < 3 ∧ faceMesh.Mem 1 l0 c ∧ Anc (3 - l0) c [3, 3] := ⟨1, [0, 0], by omega, hbig, anc_pair.2 ⟨3, 3, rfl, by norm_num, by norm_num⟩⟩
  -- the cell it reads
  have hi : m.all.Mem 1 2 [0, 0] := gr.predNear 3 [3, 3] [0, 0] ((c5 _ _).2 ((c1.pred _ _).2 ((geo.pred _ _).2 ⟨.inl hj, hj'⟩)))
    (show Near 1 [0, 0] [1, 1] from near2.2 (by omega))
  have hi1 : ¬ NearLeaf 1 1 faceMesh 2 [0, 0] := by
    rintro ⟨q, h1, h2⟩
    rcases (faceMesh_mem _ _).1 h1 with ⟨h, _⟩ | ⟨-, y, x, y1, y2, x1, x2, h3, _, rfl⟩ | ⟨h, _⟩
    · omega
    · have := near2.1 h2
      omega
    · omega
  have hi2 : ¬ AMRProj 1 ⟨1, 1⟩ faceMesh 2 [0, 0] := fun h => leaf_not_covered g hbig (geo.projIn 1 [0, 0] h).1
  obtain ⟨i, hi0⟩ : ∃ i, i = numOf 1 m.all 2 [0, 0] := ⟨_, rfl⟩
  refine ⟨g0, m, x, q1, fun _ => 0, fun k => if k = i then 1 else 0, fun l p k hc hk => ?_, fun bcs hbc => ?_⟩
  · obtain ⟨h1, rfl⟩ := numbered_numOf hwf hk
    show 0 = if numOf 1 m.all l p = i then (1 : Rat) else 0
    rw [if_neg]
    intro he
    rw [hi0] at he
    obtain ⟨rfl, rfl⟩ := numOf_level hwf gr.numbers h1 hi he
    exact hi1 ⟨_, hc, near_refl _ _⟩
  · obtain ⟨u1', a1, a2, -, a4, -, a6, -⟩ := amr_ghosts_tiling (by omega) ⟨1, 1⟩ faceMesh faceDomain 1 3 _ g (by omega) faceDomain_box rfl (by omega) hB hhi
      (1 : Rat) q2 bcs hbc (fun _ => 0)
    obtain ⟨u2', b1, b2, -, b4, -, b6, -⟩ := amr_ghosts_tiling (by omega) ⟨1, 1⟩ faceMesh faceDomain 1 3 _ g (by omega) faceDomain_box rfl (by omega) hB hhi
      (1 : Rat) q2 bcs hbc (fun k => if k = i then 1 else 0)
    refine ⟨u1', u2', a1, b1, ?_⟩
    by_contra hno
    have heq : ∀ l p, NearLeaf 1 1 faceMesh l p → u1' (numOf 1 m.all l p) = u2' (numOf 1 m.all l p) := fun l p h => by
      by_contra hd
      exact hno ⟨l, p, _, h, numOf_numbered hwf (hnear l p h), hd⟩
    have hin : InBox ((⟨fun _ => 0, fun _ => 1⟩ : Box).refined 2) 1 [0, 0] := by simp [InBox, Box.refined]
    have k1 := a4 2 [0, 0] hi hin hi1 hi2
    have k2 := b4 2 [0, 0] hi hin hi1 hi2
    have t1 : u1' (numOf 1 m.all 3 [3, 3]) = _ := (a6 3 [3, 3] (.inl hj) hj').1
    have t2 : u2' (numOf 1 m.all 3 [3, 3]) = _ := (b6 3 [3, 3] (.inl hj) hj').1
    have hst : ∀ q, Near 1 q [1, 1] → q ≠ [0, 0] → u1' (numOf 1 m.all 2 q) = u2' (numOf 1 m.all 2 q) := by
      intro q hq hne
      refine heq 2 q ?_
      match q, hq.length_eq with
      | [a, b], _ =>
        have := near2.1 hq
        have hab : a ≠ 0 ∨ b ≠ 0 := by
          by_contra h
          exact hne (by rw [show a = 0 by omega, show b = 0 by omega])
        by_cases h1 : b ≠ 0 ∧ a ≤ 1
        · exact ⟨[a, 2], hmid a 2 (by omega) (by omega) (by omega) (by omega) (by omega) (by omega), near2.2 (by omega)⟩
        · by_cases h2 : b = 2 ∧ a = 2
          · exact ⟨[2, 3], hmid 2 3 (by omega) (by omega) (by omega) (by omega) (by omega) (by omega), near2.2 (by omega)⟩
          · exact ⟨[2, min b 1], hmid 2 (min b 1) (by omega) (by omega) (by omega) (by omega) (by omega) (by omega), near2.2 (by omega)⟩
    have := corner_predict (f := fun q => u1' (numOf 1 m.all 2 q)) (f' := fun q => u2' (numOf 1 m.all 2 q)) hst (t1.symm.trans ((heq 3 _ hj).trans t2))
    exact absurd (k1.symm.trans (this.trans (k2.trans (if_pos hi0.symm)))) (by norm_num)

/-- C103_any_tiling on this mesh: the cell (2, 2) of level 2 has the mean of the four leaves of level 3. -/
example (bcs : List (BcCond Rat)) (hbc : ∀ c ∈ bcs, GoodBc 1 faceDomain 1 c) (u : Int → Rat) : ∃ m x u' val,
    amrMesh 1 ⟨1, 1⟩ faceMesh faceDomain 1 3 = some (m, x) ∧
    updateGhostAmr 1 ⟨⟨m.cells, m.all, faceDomain, 1, 3, fun _ => false, 1, ⟨1, 1⟩⟩, m.proj, m.pred⟩ bcs u = some u' ∧ FieldIs 1 m.all u' val ∧
    4 * val 2 [2, 2] = val 3 [4, 4] + val 3 [4, 5] + val 3 [5, 4] + val 3 [5, 5] := by
  have g0 := faceLeaves
  obtain ⟨m, x, u', val, a1, a2, a3, -, a5, -⟩ := C103_any_tiling (n := 1) (by omega) ⟨1, 1⟩ faceMesh faceDomain 1 3 _
    ⟨g0.wf, g0.leveled, g0.size, g0.between, g0.noOverlap, g0.tiles⟩ (by omega) faceDomain_box rfl ⟨8, by omega, by decide, fun _ _ => by
      show (1 : Int) * 2 ^ 3 ≤ 8; decide⟩ (1 : Rat) bcs hbc u
  refine ⟨m, x, u', val, a1, a2, a3, ?_⟩
  have := (a5 2 [2, 2] 0 [2, 2] ⟨[2, 3], (faceMesh_mem _ _).2 (.inr (.inl ⟨rfl, 2, 3, by omega, by omega, by omega, by omega, by omega, by omega, rfl⟩)),
      show Near 1 [2, 2] [2, 3] from near2.2 (by omega)⟩
    (anc_zero.2 rfl) ⟨3, [4, 4], by omega, (faceMesh_mem _ _).2 (.inr (.inr ⟨rfl, 4, 4, by omega, by omega, by omega, by omega, rfl⟩)),
      anc_pair.2 ⟨4, 4, rfl, by norm_num, by norm_num⟩⟩).1
  simp only [MeanOfChildren, childrenOf] at this
  norm_num at this
  rw [this]
  ring

end Samurai

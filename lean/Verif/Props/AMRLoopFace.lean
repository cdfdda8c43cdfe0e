/-
The time loops on AMR meshes graded through the faces only: a uniform field does not stay uniform.
-/
import Verif.Props.AMRLoop

namespace Samurai

/-- The square of the mesh `faceMesh`, at level 4. -/
def faceBox4 : Box := ⟨fun _ => 0, fun _ => 16⟩

def faceDomain4 : LCA := LCA.ofBox 1 4 faceBox4

theorem faceDomain4_box : BoxDomain 1 faceDomain4 0 ⟨fun _ => 0, fun _ => 1⟩ := by
  refine ⟨ofBox_wf 4 fun _ _ => by simp [faceBox4], by omega, fun _ _ => by simp, fun p => ?_⟩
  rw [show (⟨fun _ => 0, fun _ => 1⟩ : Box).refined (faceDomain4.level - 0) = faceBox4 by
    show (⟨fun _ => 0, fun _ => 1⟩ : Box).refined 4 = faceBox4
    simp [Box.refined, faceBox4]]
  exact ofBox_mem 4 p

theorem faceDomain4_mem (p : List Int) : faceDomain4.Mem 1 p ↔ ∃ y x : Int, 0 ≤ y ∧ y < 16 ∧ 0 ≤ x ∧ x < 16 ∧ p = [y, x] := by
  rw [show faceDomain4.Mem 1 p ↔ InBox faceBox4 1 p from ofBox_mem 4 p]
  constructor
  · intro h
    match p, h with
    | [y, x], h =>
      simp only [InBox, faceBox4] at h
      exact ⟨y, x, h.1.1, h.1.2, h.2.1, h.2.2, rfl⟩
  · rintro ⟨y, x, y1, y2, x1, x2, rfl⟩
    simp [InBox, faceBox4, y1, y2, x1, x2]

theorem faceInDomain4 (m : List Int) : InDomain 1 faceDomain4 4 m ↔ ∃ y x : Int, 0 ≤ y ∧ y < 16 ∧ 0 ≤ x ∧ x < 16 ∧ m = [y, x] := by
  unfold InDomain
  rw [show 4 - faceDomain4.level = 0 from rfl]
  constructor
  · rintro ⟨p, h1, h2⟩
    obtain rfl := anc_zero.1 h2
    exact (faceDomain4_mem _).1 h1
  · intro h
    exact ⟨m, (faceDomain4_mem _).2 h, anc_zero.2 rfl⟩

theorem faceDomain4_good (margin : Nat) (h : margin ≤ 100) : GoodDomain 1 faceDomain4 1 4 margin := by
  refine ⟨faceDomain4_box.wf, le_rfl, fun p m m' h1 h2 h3 => ?_, 16, by omega, by unfold INT_MAX; omega, fun m hm x hx => ?_⟩
  · rw [faceInDomain4] at h3 ⊢
    obtain ⟨y, x, y1, y2, x1, x2, rfl⟩ := h3
    rw [anc_iff] at h1
    simp only [List.map_cons, List.map_nil] at h1
    subst h1
    obtain ⟨y', x', rfl, h5, h6⟩ := anc_pair.1 h2
    norm_num [shr] at h5 h6
    exact ⟨y', x', by omega, by omega, by omega, by omega, rfl⟩
  · obtain ⟨y, z, y1, y2, x1, x2, rfl⟩ := (faceInDomain4 m).1 hm
    simp only [List.mem_cons, List.not_mem_nil, or_false] at hx
    omega

theorem faceRange4 : ∃ D : Int, 0 ≤ D ∧ D + 8 < INT_MAX ∧ faceDomain4.BelowAt 1 faceDomain4.level D := ⟨16, by omega, by decide, fun p hp x hx => by
  obtain ⟨y, z, y1, y2, x1, x2, rfl⟩ := (faceDomain4_mem p).1 hp
  simp only [List.mem_cons, List.not_mem_nil, or_false] at hx
  rw [Nat.sub_self, pow_zero, mul_one]
  omega⟩

/-- The mesh `faceMesh` with the maximum level 4. -/
theorem faceLeaves4 : AMRLeaves 1 FaceNeighbours faceMesh faceDomain4 1 4 := by
  have g := faceLeaves
  refine ⟨g.wf, g.leveled, by rw [faceMesh_spec.1], fun l p h => ?_, g.noOverlap, g.graded, fun m => ?_, g.some⟩
  · have := g.between l p h
    omega
  · rw [faceInDomain4]
    unfold CA.Tiles
    constructor
    · rintro ⟨l, p, -, h1, h2⟩
      rcases (faceMesh_mem _ _).1 h1 with ⟨rfl, rfl⟩ | ⟨rfl, y, x, y1, y2, x1, x2, ho, ho2, rfl⟩ | ⟨rfl, y, x, y1, y2, x1, x2, rfl⟩ <;>
        obtain ⟨a, b, rfl, h3, h4⟩ := anc_pair.1 h2 <;> norm_num at h3 h4 <;>
        exact ⟨a, b, by omega, by omega, by omega, by omega, rfl⟩
    · rintro ⟨y, x, y1, y2, x1, x2, rfl⟩
      by_cases hf : y < 8 ∧ x < 8
      · exact ⟨1, [0, 0], by omega, (faceMesh_mem _ _).2 (.inl ⟨rfl, rfl⟩), anc_pair.2 ⟨y, x, rfl, by norm_num; omega, by norm_num; omega⟩⟩
      · by_cases hg : 8 ≤ y ∧ y < 12 ∧ 8 ≤ x ∧ x < 12
        · exact ⟨3, [y / 2, x / 2], by omega, (faceMesh_mem _ _).2 (.inr (.inr ⟨rfl, y / 2, x / 2, by omega, by omega, by omega, by omega, rfl⟩)),
            anc_pair.2 ⟨y, x, rfl, by norm_num, by norm_num⟩⟩
        · exact ⟨2, [y / 4, x / 4], by omega, (faceMesh_mem _ _).2 (.inr (.inl ⟨rfl, y / 4, x / 4, by omega, by omega, by omega, by omega, by omega, by omega, rfl⟩)),
            anc_pair.2 ⟨y, x, rfl, by norm_num, by norm_num⟩⟩

/-- The value predicted in the fine cell (8, 8) reads the coarse cell (3, 3). -/
theorem corner_predict8 {f f' : List Int → Rat} (h : ∀ q, Near 1 q [4, 4] → q ≠ [3, 3] → f q = f' q)
    (he : predictFine 2 1 (fun q => f (ofPt 2 q)) (toPt [8, 8]) = predictFine 2 1 (fun q => f' (ofPt 2 q)) (toPt [8, 8])) : f [3, 3] = f' [3, 3] := by
  have hh : ∀ a b : Int, 3 ≤ a → a ≤ 5 → 3 ≤ b → b ≤ 5 → (a ≠ 3 ∨ b ≠ 3) → f [a, b] = f' [a, b] := by
    intro a b a1 a2 b1 b2 hn
    refine h _ (near2.2 (by omega)) fun e => ?_
    simp only [List.cons.injEq, and_true] at e
    omega
  simp [predictFine, Qs, Qs2, qsOp, qsFrom, fieldHack, predictionCoeffs, move, parentPt, toPt, ofPt, isOdd, shr, List.range_succ] at he
  rw [hh 3 4 (by omega) (by omega) (by omega) (by omega) (by omega), hh 3 5 (by omega) (by omega) (by omega) (by omega) (by omega),
    hh 4 3 (by omega) (by omega) (by omega) (by omega) (by omega), hh 4 4 (by omega) (by omega) (by omega) (by omega) (by omega),
    hh 4 5 (by omega) (by omega) (by omega) (by omega) (by omega), hh 5 3 (by omega) (by omega) (by omega) (by omega) (by omega),
    hh 5 4 (by omega) (by omega) (by omega) (by omega) (by omega), hh 5 5 (by omega) (by omega) (by omega) (by omega) (by omega)] at he
  linarith

/-- Two fields after the update of the ghosts on `faceMesh`, with the same values on the leaves: they differ in the cell (0, 0) of level 2 only if they
differ in the value predicted in the cell (8, 8) of level 4. -/
theorem face_leak {b : Box} (hb : b = ⟨fun _ => 0, fun _ => 1⟩) {bcs : List (BcCond Rat)} (hbc : ∀ c ∈ bcs, GoodBc 1 faceDomain4 1 c) (hcov : CoversBoundary 1 faceDomain4 bcs) {m : AMRMeshes}
    (gr : AmrReady 1 (amrGhostMesh m faceDomain4 1 4 (1 : Rat) ⟨1, 1⟩) (fun l => b.refined l) 1)
    (hnear : ∀ l p, NearLeaf 1 1 faceMesh l p → m.all.Mem 1 l p) {v1 v2 : Nat → List Int → Rat}
    (hleaf : ∀ l p, faceMesh.Mem 1 l p → v1 l p = v2 l p)
    (a6 : ∀ l p, NearLeaf 1 1 faceMesh l p → CoveredBy 1 faceMesh l p → MeanOfChildren 1 v1 l p)
    (b6 : ∀ l p, NearLeaf 1 1 faceMesh l p → CoveredBy 1 faceMesh l p → MeanOfChildren 1 v2 l p)
    (a7 : ∀ l p, NearLeaf 1 1 faceMesh l p → (∃ l0 c, l0 < l ∧ faceMesh.Mem 1 l0 c ∧ Anc (l - l0) c p) → PredictedFromBelow 1 1 v1 l p)
    (b7 : ∀ l p, NearLeaf 1 1 faceMesh l p → (∃ l0 c, l0 < l ∧ faceMesh.Mem 1 l0 c ∧ Anc (l - l0) c p) → PredictedFromBelow 1 1 v2 l p)
    (a9 : BoundaryHolds 1 ⟨m.cells, m.all, faceDomain4, 1, 4, fun _ => false, 1, ⟨1, 1⟩⟩ bcs 1 (b.refined 1) v1)
    (b9 : BoundaryHolds 1 ⟨m.cells, m.all, faceDomain4, 1, 4, fun _ => false, 1, ⟨1, 1⟩⟩ bcs 1 (b.refined 1) v2)
    (hlast : predicted 2 1 v1 3 [8, 8] = predicted 2 1 v2 3 [8, 8]) : v1 2 [0, 0] = v2 2 [0, 0] := by
  have hmid : ∀ y x : Int, 0 ≤ y → y < 4 → 0 ≤ x → x < 4 → (2 ≤ y ∨ 2 ≤ x) → ¬ (y = 2 ∧ x = 2) → faceMesh.Mem 1 2 [y, x] :=
    fun y x y1 y2 x1 x2 h h' => (faceMesh_mem _ _).2 (.inr (.inl ⟨rfl, y, x, y1, y2, x1, x2, h, h', rfl⟩))
  have hbig : faceMesh.Mem 1 1 [0, 0] := (faceMesh_mem _ _).2 (.inl ⟨rfl, rfl⟩)
  have hfine : ∀ y x : Int, 4 ≤ y → y < 6 → 4 ≤ x → x < 6 → faceMesh.Mem 1 3 [y, x] := fun y x y1 y2 x1 x2 =>
    (faceMesh_mem _ _).2 (.inr (.inr ⟨rfl, y, x, y1, y2, x1, x2, rfl⟩))
  have mean : ∀ l p, MeanOfChildren 1 v1 l p → MeanOfChildren 1 v2 l p → (∀ q ∈ childrenOf p, v1 (l + 1) q = v2 (l + 1) q) → v1 l p = v2 l p := by
    intro l p h1 h2 h
    have := (show _ = _ from h1).trans ((congrArg List.sum (List.map_congr_left h)).trans (show _ = _ from h2).symm)
    simpa using this
  have kids : ∀ (y x : Int) (q : List Int), q ∈ childrenOf [y, x] → ∃ c d : Int, q = [c, d] ∧ 2 * y ≤ c ∧ c ≤ 2 * y + 1 ∧ 2 * x ≤ d ∧ d ≤ 2 * x + 1 := by
    intro y x q hq
    obtain ⟨c, d, h1, h2, h3⟩ := anc_pair.1 (anc_iff.2 (mem_childrenOf.1 hq) : Anc 1 [y, x] q)
    norm_num at h2 h3
    exact ⟨c, d, h1, by omega, by omega, by omega, by omega⟩
  -- level 2, but the four cells in the leaf of level 1
  have e22 : v1 2 [2, 2] = v2 2 [2, 2] := by
    have hN : NearLeaf 1 1 faceMesh 2 [2, 2] := ⟨[2, 3], hmid 2 3 (by omega) (by omega) (by omega) (by omega) (by omega) (by omega), near2.2 (by omega)⟩
    have hC : CoveredBy 1 faceMesh 2 [2, 2] := ⟨3, [4, 4], by omega, hfine 4 4 (by omega) (by omega) (by omega) (by omega), anc_pair.2 ⟨4, 4, rfl, by norm_num, by norm_num⟩⟩
    refine mean _ _ (a6 _ _ hN hC) (b6 _ _ hN hC) fun q hq => ?_
    obtain ⟨c, d, rfl, h1, h2, h3, h4⟩ := kids _ _ _ hq
    exact hleaf _ _ (hfine c d (by omega) (by omega) (by omega) (by omega))
  have e2 : ∀ y x : Int, 0 ≤ y → y < 4 → 0 ≤ x → x < 4 → (2 ≤ y ∨ 2 ≤ x) → v1 2 [y, x] = v2 2 [y, x] := by
    intro y x y1 y2 x1 x2 h
    by_cases hh : y = 2 ∧ x = 2
    · rw [hh.1, hh.2]
      exact e22
    · exact hleaf _ _ (hmid y x y1 y2 x1 x2 h hh)
  -- level 1
  have e1 : ∀ y x : Int, 0 ≤ y → y < 2 → 0 ≤ x → x < 2 → v1 1 [y, x] = v2 1 [y, x] := by
    intro y x y1 y2 x1 x2
    by_cases hh : y = 0 ∧ x = 0
    · rw [hh.1, hh.2]
      exact hleaf _ _ hbig
    · have hN : NearLeaf 1 1 faceMesh 1 [y, x] := ⟨[0, 0], hbig, near2.2 (by omega)⟩
      have hC : CoveredBy 1 faceMesh 1 [y, x] := by
        refine ⟨2, [2 * y, 2 * x + (if x = 1 then 1 else 0)], by omega, hmid _ _ (by omega) (by omega) (by split_ifs <;> omega) (by split_ifs <;> omega)
          (by split_ifs <;> omega) (by split_ifs <;> omega), anc_pair.2 ⟨_, _, rfl, by norm_num, ?_⟩⟩
        split_ifs <;> norm_num <;> omega
      refine mean _ _ (a6 _ _ hN hC) (b6 _ _ hN hC) fun q hq => ?_
      obtain ⟨c, d, rfl, h1, h2, h3, h4⟩ := kids _ _ _ hq
      exact e2 c d (by omega) (by omega) (by omega) (by omega) (by omega)
  have hbox1 : ∀ p, InBox (b.refined 1) 1 p ↔ ∃ y x : Int, 0 ≤ y ∧ y < 2 ∧ 0 ≤ x ∧ x < 2 ∧ p = [y, x] := by
    intro p
    subst hb
    constructor
    · intro h
      match p, h with
      | [y, x], h =>
        simp [InBox, Box.refined] at h
        exact ⟨y, x, by omega, by omega, by omega, by omega, rfl⟩
    · rintro ⟨y, x, y1, y2, x1, x2, rfl⟩
      simp [InBox, Box.refined]
      omega
  have e1' : ∀ q, Near 1 q [0, 0] → v1 1 q = v2 1 q := fun q hq =>
    amr_layer_unique (n := 1) le_rfl ⟨1, 1⟩ le_rfl (by omega) 1 hbc hcov gr a9 b9 (fun p _ hp => by
      obtain ⟨y, x, y1, y2, x1, x2, rfl⟩ := (hbox1 p).1 hp
      exact e1 y x y1 y2 x1 x2) q (hnear _ _ ⟨[0, 0], hbig, hq⟩) ⟨[0, 0], (hbox1 _).2 ⟨0, 0, by omega, by omega, by omega, by omega, rfl⟩, hq⟩
  -- the ghosts of level 2 but one
  have e2' : ∀ y x : Int, 0 ≤ y → y < 4 → 0 ≤ x → x < 4 → (y ≠ 0 ∨ x ≠ 0) → v1 2 [y, x] = v2 2 [y, x] := by
    intro y x y1 y2 x1 x2 h
    by_cases hh : 2 ≤ y ∨ 2 ≤ x
    · exact e2 y x y1 y2 x1 x2 hh
    · have hN : NearLeaf 1 1 faceMesh 2 [y, x] := by
        by_cases hy : y = 1
        · exact ⟨[2, x], hmid 2 x (by omega) (by omega) (by omega) (by omega) (by omega) (by omega), near2.2 (by omega)⟩
        · exact ⟨[y, 2], hmid y 2 (by omega) (by omega) (by omega) (by omega) (by omega) (by omega), near2.2 (by omega)⟩
      have hI : ∃ l0 c, l0 < 2 ∧ faceMesh.Mem 1 l0 c ∧ Anc (2 - l0) c [y, x] :=
        ⟨1, [0, 0], by omega, hbig, anc_pair.2 ⟨y, x, rfl, by norm_num; omega, by norm_num; omega⟩⟩
      refine predicted_congr (n := 1) rfl (fun q hq => e1' q ?_) (a7 _ _ hN hI) (b7 _ _ hN hI)
      have : ([y, x].map fun z => shr z 1) = [0, 0] := by
        simp only [List.map_cons, List.map_nil, shr_one_eq]
        rw [show y / 2 = 0 by omega, show x / 2 = 0 by omega]
      rwa [this] at hq
  -- the cells of level 3 around the leaf but one
  have e3 : ∀ y x : Int, 3 ≤ y → y ≤ 5 → 3 ≤ x → x ≤ 5 → (y ≠ 3 ∨ x ≠ 3) → v1 3 [y, x] = v2 3 [y, x] := by
    intro y x y1 y2 x1 x2 h
    by_cases hh : 4 ≤ y ∧ 4 ≤ x
    · exact hleaf _ _ (hfine y x (by omega) (by omega) (by omega) (by omega))
    · have hN : NearLeaf 1 1 faceMesh 3 [y, x] := ⟨[4, 4], hfine 4 4 (by omega) (by omega) (by omega) (by omega), near2.2 (by omega)⟩
      have hI : ∃ l0 c, l0 < 3 ∧ faceMesh.Mem 1 l0 c ∧ Anc (3 - l0) c [y, x] :=
        ⟨2, [y / 2, x / 2], by omega, hmid _ _ (by omega) (by omega) (by omega) (by omega) (by omega) (by omega),
          anc_pair.2 ⟨y, x, rfl, by norm_num, by norm_num⟩⟩
      refine predicted_congr (n := 1) rfl (fun q hq => ?_) (a7 _ _ hN hI) (b7 _ _ hN hI)
      have : ([y, x].map fun z => shr z 1) = [y / 2, x / 2] := by simp only [List.map_cons, List.map_nil, shr_one_eq]
      rw [this] at hq
      match q, hq.length_eq with
      | [c, d], _ =>
        have := near2.1 hq
        exact e2' c d (by omega) (by omega) (by omega) (by omega) (by omega)
  have e33 : v1 3 [3, 3] = v2 3 [3, 3] := by
    rw [predicted_fine (n := 1) (by omega) 1 v1 3 (q := [8, 8]) rfl, predicted_fine (n := 1) (by omega) 1 v2 3 (q := [8, 8]) rfl] at hlast
    refine corner_predict8 (f := v1 3) (f' := v2 3) (fun q hq hne => ?_) hlast
    match q, hq.length_eq with
    | [c, d], _ =>
      have := near2.1 hq
      refine e3 c d (by omega) (by omega) (by omega) (by omega) ?_
      by_contra hcd
      exact hne (by rw [show c = 3 by omega, show d = 3 by omega])
  have hN : NearLeaf 1 1 faceMesh 3 [3, 3] := ⟨[4, 4], hfine 4 4 (by omega) (by omega) (by omega) (by omega), near2.2 (by omega)⟩
  have hI : ∃ l0 c, l0 < 3 ∧ faceMesh.Mem 1 l0 c ∧ Anc (3 - l0) c [3, 3] :=
    ⟨1, [0, 0], by omega, hbig, anc_pair.2 ⟨3, 3, rfl, by norm_num, by norm_num⟩⟩
  refine corner_predict (f := v1 2) (f' := v2 2) (fun q hq hne => ?_) ((show _ = _ from a7 _ _ hN hI).symm.trans (e33.trans (b7 _ _ hN hI)))
  match q, hq.length_eq with
  | [c, d], _ =>
    have := near2.1 hq
    refine e2' c d (by omega) (by omega) (by omega) (by omega) ?_
    by_contra hcd
    exact hne (by rw [show c = 0 by omega, show d = 0 by omega])

/-- The full statement of C106 is false on the meshes that are graded through the faces only, with the star stencil of `graduation` (demos: level_set.cpp)
and the default single ghost. On the square with a leaf of level 1 that touches a leaf of level 3 by a corner, there is a field that is 0 on all the
leaves which, after one turn (update of the ghosts with the condition 0 on the whole boundary, refinement of the leaves of level 3, transfer), is not 0 on
some leaf: the value of a ghost that `update_ghost` does not compute has leaked into the mesh. -/
theorem C106_face_graded_refuted : AMRLeaves 1 FaceNeighbours faceMesh faceDomain4 1 4 ∧
    ∃ S R m x, starStencil 1 1 = some S ∧ everywhereRegion 1 faceDomain4 = some R ∧ amrMesh 1 ⟨1, 1⟩ faceMesh faceDomain4 1 4 = some (m, x) ∧
    ∃ f : CellField Rat, (∀ l p, m.cells.Mem 1 l p → f l p = 0) ∧ ∃ e m' x' f',
      amrTurn 1 ⟨1, 1⟩ 1 1 4 S faceDomain4 1 [⟨.dirichlet 1, fun _ _ => 0, R⟩] (fun _ _ => refineTags 3) m x f = some (e, m', x', f') ∧
      ∃ l p, m'.cells.Mem 1 l p ∧ f' l p ≠ 0 := by
  have g0 := faceLeaves4
  obtain ⟨S, hS⟩ : ∃ S, starStencil 1 1 = some S := ⟨_, rfl⟩
  obtain ⟨s1, s2, -⟩ := C79_star 1 S hS
  obtain ⟨R, r1, r2⟩ := everywhere_covers (n := 1) (by omega) faceDomain4_box.wf faceRange4
  obtain ⟨hbc, hcov⟩ := r2 (.dirichlet 1) (fun _ _ => (0 : Rat)) 1 ⟨by omega, by omega⟩ (by simp [BcKind.ghosts, BcKind.stencilSize])
  have hbc' : ∀ c ∈ [(⟨.dirichlet 1, fun _ _ => 0, R⟩ : BcCond Rat)], GoodBc 1 faceDomain4 1 c := fun c hc => by
    rw [List.mem_singleton] at hc
    subst hc
    exact hbc
  have g : TilingLeaves 1 faceMesh faceDomain4 1 4 := g0.tiling
  have hhi : ∀ d ≤ 1, (⟨fun _ => 0, fun _ => 1⟩ : Box).hi d * 2 ^ 4 ≤ 16 := fun _ _ => by show (1 : Int) * 2 ^ 4 ≤ 16; decide
  have hB : (16 : Int) + (2 * (⟨1, 1⟩ : MeshConfig).ghostWidth + 9) * 2 ^ 4 + 2 < INT_MAX := by decide
  obtain ⟨m, x, q1, q2⟩ := amrMesh_box (cfg := ⟨1, 1⟩) g (by omega) faceDomain4_box rfl (by omega) hB hhi
  obtain ⟨m1, x1, q3, inv⟩ := amr_start (cfg := ⟨1, 1⟩) (faceDomain4_good (1 + 1 + 1 + 4) (by omega)) (by omega) g0
  rw [q1] at q3
  obtain ⟨rfl, rfl⟩ : m = m1 ∧ x = x1 := by simpa using q3
  have gr := amrReady_ok (K := Rat) g (by omega) faceDomain4_box rfl (by omega) hB hhi 1 q2
  have hwf : m.all.WF 1 := gr.refWF
  have geo := amrGeo_ok (cfg := ⟨1, 1⟩) g faceDomain4_box rfl
  obtain ⟨m0, c1, c2, c3, c4, c5, c6⟩ := q2.content
  have hnear : ∀ l p, NearLeaf 1 1 faceMesh l p → m.all.Mem 1 l p := fun l p h => (c6 l p).2 ((c1.all l p).2 (.inl (.inl h)))
  have hleafIn : ∀ l p, faceMesh.Mem 1 l p → m.all.Mem 1 l p := fun l p h => hnear l p ⟨p, h, near_refl _ _⟩
  have hbig : faceMesh.Mem 1 1 [0, 0] := (faceMesh_mem _ _).2 (.inl ⟨rfl, rfl⟩)
  have hfine : faceMesh.Mem 1 3 [4, 4] := (faceMesh_mem _ _).2 (.inr (.inr ⟨rfl, 4, 4, by omega, by omega, by omega, by omega, rfl⟩))
  have hj : NearLeaf 1 1 faceMesh 3 [3, 3] := ⟨[4, 4], hfine, near2.2 (by omega)⟩
  have hj' : ∃ l0 c, l0 < 3 ∧ faceMesh.Mem 1 l0 c ∧ Anc (3 - l0) c [3, 3] := ⟨1, [0, 0], by omega, hbig, anc_pair.2 ⟨3, 3, rfl, by norm_num, by norm_num⟩⟩
  have hi : m.all.Mem 1 2 [0, 0] := gr.predNear 3 [3, 3] [0, 0] ((c5 _ _).2 ((c1.pred _ _).2 ((geo.pred _ _).2 ⟨.inl hj, hj'⟩)))
    (show Near 1 [0, 0] [1, 1] from near2.2 (by omega))
  have hi1 : ¬ NearLeaf 1 1 faceMesh 2 [0, 0] := by
    rintro ⟨q, h1, h2⟩
    rcases (faceMesh_mem _ _).1 h1 with ⟨h, _⟩ | ⟨-, y, x, y1, y2, x1, x2, h3, _, rfl⟩ | ⟨h, _⟩
    · omega
    · have := near2.1 h2
      omega
    · omega
  have hi2 : ¬ AMRProj 1 ⟨1, 1⟩ faceMesh 2 [0, 0] := fun h => leaf_not_covered g hbig (geo.projIn 1 [0, 0] h).1
  have hin : InBox ((⟨fun _ => 0, fun _ => 1⟩ : Box).refined 2) 1 [0, 0] := by simp [InBox, Box.refined]
  have noleaf : ¬ m.cells.Mem 1 2 [0, 0] := fun h => hi1 ⟨_, (c2 _ _).1 h, near_refl _ _⟩
  -- a turn
  have turn : ∀ f : CellField Rat, ∃ (u : Int → Rat) (e : Bool) (m' : AMRMeshes) (x' : CA) (f' : CellField Rat),
      amrTurn 1 ⟨1, 1⟩ 1 1 4 S faceDomain4 1 [⟨.dirichlet 1, fun _ _ => 0, R⟩] (fun _ _ => refineTags 3) m x f = some (e, m', x', f') ∧
      m'.cells.Mem 1 4 [8, 8] ∧ f' 4 [8, 8] = predicted 2 1 (fun l p => u (numOf 1 m.all l p)) 3 [8, 8] ∧
      (∀ l p, faceMesh.Mem 1 l p → u (numOf 1 m.all l p) = f l p) ∧ u (numOf 1 m.all 2 [0, 0]) = f 2 [0, 0] ∧
      (∀ l p, NearLeaf 1 1 faceMesh l p → CoveredBy 1 faceMesh l p → MeanOfChildren 1 (fun l p => u (numOf 1 m.all l p)) l p) ∧
      (∀ l p, NearLeaf 1 1 faceMesh l p → (∃ l0 c, l0 < l ∧ faceMesh.Mem 1 l0 c ∧ Anc (l - l0) c p) →
        PredictedFromBelow 1 1 (fun l p => u (numOf 1 m.all l p)) l p) ∧
      BoundaryHolds 1 ⟨m.cells, m.all, faceDomain4, 1, 4, fun _ => false, (1 : Rat), ⟨1, 1⟩⟩ [⟨.dirichlet 1, fun _ _ => 0, R⟩] 1
        ((⟨fun _ => 0, fun _ => 1⟩ : Box).refined 1) (fun l p => u (numOf 1 m.all l p)) := by
    intro f
    obtain ⟨u, a1, a2, a3, a4, a5, a6, a7⟩ := amr_ghosts_tiling (by omega) ⟨1, 1⟩ faceMesh faceDomain4 1 4 _ g (by omega) faceDomain4_box rfl (by omega) hB hhi
      (1 : Rat) q2 [⟨.dirichlet 1, fun _ _ => 0, R⟩] hbc' (fieldArray 1 m.all f)
    obtain ⟨e, m', x', f', k1, k2, k3, k4, -, -⟩ := amr_step (.inl rfl) inv s1 s2 (faceDomain4_good (1 + 1 + 1 + 4) (by omega)) (by omega) (by omega)
      (le_refl 1) (le_refl 1) (refineTags_all 1 m.cells 3) (fieldAt 1 m.all u)
    have hcl : m.cells.Mem 1 3 [4, 4] := (c2 _ _).2 hfine
    have hanc : Anc 1 [4, 4] [8, 8] := anc_pair.2 ⟨8, 8, rfl, by norm_num, by norm_num⟩
    have hnew : m'.cells.Mem 1 4 [8, 8] := (k3 _ _).2 ⟨3, [4, 4], hcl, .inl ⟨.criterion (by unfold HasRefine refineTags; decide), by omega, rfl, hanc⟩⟩
    refine ⟨u, e, m', x', f', ?_, hnew, ?_, fun l p hp => ?_, ?_, fun l p h => fun h' => (a5 l p (.inl h) h').1, fun l p h h' => (a6 l p (.inl h) h').1,
      a7 1 [0, 0] (hleafIn _ _ hbig)⟩
    · unfold amrTurn amrGhostArray
      rw [a1]
      exact k1
    · exact k4.fine 3 [4, 4] [8, 8] hcl hnew hanc
    · rw [a3 l p _ hp (numOf_numbered hwf (hleafIn l p hp)), amrArray_numOf q2 f (hleafIn l p hp)]
    · rw [a4 2 [0, 0] hi hin hi1 hi2, amrArray_numOf q2 f hi]
  refine ⟨g0, S, R, m, x, hS, r1, q1, ?_⟩
  by_contra hno
  obtain ⟨u1, e1, m1, x1, f1, a1, a2, a3, a4, a5, a6, a7, a8⟩ := turn (fun _ _ => 0)
  obtain ⟨u2, e2, m2, x2, f2, b1, b2, b3, b4, b5, b6, b7, b8⟩ := turn (fun l p => if l = 2 ∧ p = [0, 0] then 1 else 0)
  have z1 : f1 4 [8, 8] = 0 := by
    by_contra h
    exact hno ⟨_, fun _ _ _ => rfl, e1, m1, x1, f1, a1, 4, [8, 8], a2, h⟩
  have hz : ∀ l p, m.cells.Mem 1 l p → (if l = 2 ∧ p = [0, 0] then (1 : Rat) else 0) = 0 := fun l p hp => by
    rw [if_neg]
    rintro ⟨rfl, rfl⟩
    exact noleaf hp
  have z2 : f2 4 [8, 8] = 0 := by
    by_contra h
    exact hno ⟨_, hz, e2, m2, x2, f2, b1, 4, [8, 8], b2, h⟩
  have := face_leak (b := ⟨fun _ => 0, fun _ => 1⟩) rfl hbc' hcov gr hnear (fun l p hp => (a4 l p hp).trans ((hz l p ((c2 _ _).2 hp)).symm.trans (b4 l p hp).symm))
    a6 b6 a7 b7 a8 b8 ((a3.symm.trans (z1.trans z2.symm)).trans b3)
  rw [a5, b5, if_pos ⟨rfl, rfl⟩] at this
  exact absurd this (by norm_num)

end Samurai

/-
Meshes on which the theorems on the elimination of the ghosts apply, and the difference between the matrix and the explicit scheme in dimension 2.
-/
import Verif.Props.PetscGhosts
import Verif.Lemmas.PetscSeg

namespace Samurai

/-! ### dimension 1 -/

/-- A leaf of level 1 and two of level 2. -/
def segCalls : List (Nat × CellCall) := [(1, .interval [] (.mk' 0 1)), (2, .interval [] (.mk' 2 4))]

def segMesh : CA := match runLevelCalls 0 3 segCalls with
  | some cl => CA.ofCL cl
  | none => CA.empty 0 3

theorem segMesh_spec : segMesh.maxSize = 3 ∧ segMesh.WF 0 ∧ segMesh.Leveled ∧ ∀ l p, segMesh.Mem 0 l p ↔
    (l = 1 ∧ p = [0]) ∨ l = 2 ∧ ∃ x : Int, 2 ≤ x ∧ x < 4 ∧ p = [x] := by
  obtain ⟨cl, h1, h2⟩ := (hist_new 0 3).calls (k := segCalls) (by
    simp [segCalls, CellCall.idx, CellCall.Valid, Interval.mk'])
  have he : segMesh = CA.ofCL cl := by
    unfold segMesh runLevelCalls
    rw [h1]
  obtain ⟨a1, a2, a3, -, a5⟩ := h2.array
  rw [he]
  refine ⟨a1, a2, a3, fun l p => ?_⟩
  rw [a5]
  simp only [segCalls, List.mem_cons, Prod.mk.injEq, List.not_mem_nil, or_false, false_or]
  constructor
  · rintro ⟨c, hc, ha⟩
    rcases hc with ⟨rfl, rfl⟩ | ⟨rfl, rfl⟩ <;> obtain ⟨x, x1, x2, rfl⟩ := ha <;> simp only [Interval.mk'] at x1 x2
    · exact .inl ⟨rfl, by obtain rfl : x = 0 := by omega
                          rfl⟩
    · exact .inr ⟨rfl, x, by omega, by omega, rfl⟩
  · rintro (⟨rfl, rfl⟩ | ⟨rfl, x, x1, x2, rfl⟩)
    · exact ⟨_, .inl ⟨rfl, rfl⟩, 0, by simp [Interval.mk'], by simp [Interval.mk'], rfl⟩
    · exact ⟨_, .inr ⟨rfl, rfl⟩, x, x1, x2, rfl⟩

theorem segMesh_mem (l : Nat) (p : List Int) : segMesh.Mem 0 l p ↔ (l = 1 ∧ p = [0]) ∨ l = 2 ∧ ∃ x : Int, 2 ≤ x ∧ x < 4 ∧ p = [x] := segMesh_spec.2.2.2 l p

def segDomain : LCA := LCA.ofBox 0 2 ⟨fun _ => 0, fun _ => 4⟩

theorem segDomain_mem (p : List Int) : segDomain.Mem 0 p ↔ ∃ x, p = [x] ∧ 0 ≤ x ∧ x < 4 := by
  unfold segDomain
  rw [ofBox_mem]
  match p with
  | [] => simp [InBox]
  | [x] => simp [InBox]
  | x :: y :: p => simp [InBox]

theorem segInDomain (m : List Int) : InDomain 0 segDomain 2 m ↔ ∃ x, m = [x] ∧ 0 ≤ x ∧ x < 4 := by
  rw [← segDomain_mem]
  constructor
  · rintro ⟨d, h1, h2⟩
    rw [show 2 - segDomain.level = 0 from rfl, anc_zero] at h2
    exact h2 ▸ h1
  · exact fun h => ⟨m, h, anc_zero.2 rfl⟩

theorem segDomain_good (margin : Nat) (h : margin ≤ 100) : GoodDomain 0 segDomain 1 2 margin := by
  refine ⟨ofBox_wf 2 fun _ _ => by simp, le_rfl, fun p m m' h1 h2 h3 => ?_, 4, by omega, by unfold INT_MAX; omega, fun m hm x hx => ?_⟩
  · rw [segInDomain] at h3 ⊢
    obtain ⟨x, rfl, x1, x2⟩ := h3
    rw [anc_iff] at h1
    simp only [List.map_cons, List.map_nil] at h1
    subst h1
    obtain ⟨x', rfl, h5⟩ := anc_seg.1 h2
    norm_num [shr] at h5
    exact ⟨x', rfl, by omega, by omega⟩
  · obtain ⟨y, rfl, y1, y2⟩ := (segInDomain m).1 hm
    simp only [List.mem_cons, List.not_mem_nil, or_false] at hx
    omega

theorem segLeaves_good : GoodLeaves 0 segMesh segDomain 1 2 := by
  have hb : segMesh.Between 0 1 2 := fun l p h => by rcases (segMesh_mem l p).1 h with ⟨rfl, -⟩ | ⟨rfl, -⟩ <;> omega
  refine ⟨segMesh_spec.2.1, segMesh_spec.2.2.1, by rw [segMesh_spec.1]; omega, hb, fun l p l' p' h h' hl ha => ?_, fun l p l' p' q h h' _ _ _ => ?_, fun m => ?_⟩
  · rw [segMesh_mem] at h h'
    rcases h with ⟨rfl, rfl⟩ | ⟨rfl, x, x1, x2, rfl⟩ <;> rcases h' with ⟨rfl, rfl⟩ | ⟨rfl, z, z1, z2, rfl⟩
    · exact ⟨rfl, rfl⟩
    · exfalso
      obtain ⟨a, he, h3⟩ := anc_seg.1 ha
      simp only [List.cons.injEq, and_true] at he
      norm_num at h3
      omega
    · omega
    · exact ⟨rfl, anc_zero.1 ha⟩
  · have h1 := hb _ _ h
    have h2 := hb _ _ h'
    omega
  · rw [segInDomain]
    unfold CA.Tiles
    constructor
    · rintro ⟨l, p, -, h1, h2⟩
      rcases (segMesh_mem _ _).1 h1 with ⟨rfl, rfl⟩ | ⟨rfl, x, x1, x2, rfl⟩
      · obtain ⟨a, rfl, h3⟩ := anc_seg.1 h2
        norm_num at h3
        exact ⟨a, rfl, by omega, by omega⟩
      · rw [anc_zero] at h2
        exact ⟨x, h2.symm, by omega, by omega⟩
    · rintro ⟨x, rfl, x1, x2⟩
      by_cases hf : 2 ≤ x
      · exact ⟨2, [x], le_rfl, (segMesh_mem _ _).2 (.inr ⟨rfl, x, by omega, by omega, rfl⟩), anc_zero.2 rfl⟩
      · exact ⟨1, [0], by omega, (segMesh_mem _ _).2 (.inl ⟨rfl, rfl⟩), anc_seg.2 ⟨x, rfl, by norm_num; omega⟩⟩

theorem segDomain_box : BoxDomain 0 segDomain 0 ⟨fun _ => 0, fun _ => 1⟩ := by
  refine ⟨ofBox_wf 2 fun _ _ => by simp, by omega, fun _ _ => by simp, fun p => ?_⟩
  rw [show (⟨fun _ => 0, fun _ => 1⟩ : Box).refined (segDomain.level - 0) = ⟨fun _ => 0, fun _ => 4⟩ by
    show (⟨fun _ => 0, fun _ => 1⟩ : Box).refined 2 = _
    simp [Box.refined]]
  exact ofBox_mem 2 p

theorem segRange : ∃ D : Int, 0 ≤ D ∧ D + 8 < INT_MAX ∧ segDomain.BelowAt 0 segDomain.level D := ⟨4, by omega, by decide, fun p hp x hx => by
  obtain ⟨y, rfl, y1, y2⟩ := (segDomain_mem p).1 hp
  rw [List.mem_singleton] at hx
  subst hx
  simpa [shl] using y2⟩

/-- C83_dim1_partial on the interval with a leaf of level 1 and two of level 2, for the heat equation with two coupled components, `Dirichlet<1>` on the boundary for one
component and `Neumann<1>` for the other, with the fluxes at the boundary. -/
example (soa : Bool) (v1 v2 : (Nat → Int) → MCell → Rat) : ∃ M x S R sub rec E, mrMesh 0 ⟨1, 1⟩ segMesh 1 2 = some (M, x) ∧ constructSubdomain 0 segMesh 2 = some S ∧
    everywhereRegion 0 segDomain = some R ∧ constructSubdomain 0 M.cells 2 = some sub ∧ ghostRecursion 0 1 M.all M.ghosts M.cells 5 = some rec ∧
    assembleScheme 0 (1 : Rat) ⟨soa, M.all.nbCells, 2, 2, 0, 0⟩ rec M.all sub M.cells 2 true coupledFlux.stencil (coupledFlux.flux 1) = some E ∧
    ∀ u : Int → Fin 2 → Rat, ∃ u' : Int → Fin 2 → Rat,
      (∀ j : Fin 2, updateGhostMr 0 ⟨⟨M.cells, M.all, segDomain, 1, 2, fun _ => false, 1, ⟨1, 1⟩⟩, M.proj, S⟩
        [if j = 0 then ⟨.dirichlet 1, v1, R⟩ else ⟨.neumann, v2, R⟩] (fun k => u k j) = some fun k => u' k j) ∧
      ∃ out, linApplyTo 0 1 true u' M.all sub M.cells 2 true coupledFlux = some out ∧
        ∀ y, IsVector soa M.all.nbCells 2 0 u' y → IsVector soa M.all.nbCells 2 0 out (matVec (schemeMatrix E) 0 (M.all.nbCells * 2) y) := by
  obtain ⟨R, r1, r2⟩ := everywhere_covers (n := 0) (by omega) (dom := segDomain) (ofBox_wf 2 fun _ _ => by simp) segRange
  have hbc : ∀ j : Fin 2, ∀ c ∈ [(if j = 0 then ⟨.dirichlet 1, v1, R⟩ else ⟨.neumann, v2, R⟩ : BcCond Rat)], GoodBc 0 segDomain 1 c := fun j c hc => by
    rw [List.mem_singleton] at hc
    subst hc
    split_ifs
    · exact (r2 (.dirichlet 1) v1 1 ⟨by omega, by omega⟩ (by simp [BcKind.ghosts, BcKind.stencilSize])).1
    · exact (r2 (.neumann) v2 1 (by simp [BcKind.Exists]) (by simp [BcKind.ghosts, BcKind.stencilSize])).1
  obtain ⟨M, x, S, sub, rec, E, h1, h2, h3, h4, h5, h6⟩ := C83_dim1_partial (m := 2) (p := 2) ⟨1, 1⟩ rfl rfl segMesh segDomain 1 2 0 _ segLeaves_good (segDomain_good 5 (by omega))
    (by omega) segDomain_box rfl (by omega) ⟨4, by omega, by decide, fun _ _ => by show (1 : Int) * 2 ^ 2 ≤ 4; decide⟩ (1 : Rat) _ hbc coupledFlux
    (fun d _ => inOut_ok 0 d) soa true 0 0
  refine ⟨M, x, S, R, sub, rec, E, h1, h2, r1, h3, h4 5 (by omega), h5, fun u => ?_⟩
  obtain ⟨u', k1, -, out, k3, k4⟩ := h6 u
  exact ⟨u', k1, out, k3 true, k4⟩

/-- C82 on the mesh with leaves of the levels 1 and 2: the cell (1, 1) of level 1 is eliminated by the mean of four leaves, the cell (1, 2) of level 2 by the prediction. -/
example : ∃ m x rec, mrMesh 1 ⟨2, 1⟩ exampleMesh 1 2 = some (m, x) ∧ ghostRecursion (K := Rat) 1 1 m.all m.ghosts m.cells 5 = some rec ∧
    (∀ l p, (l, p) = (1, [1, 1]) ∨ (l, p) = (2, [1, 2]) → ∃ k e, (l, p, k) ∈ m.all.numbered 1 ∧ rec.find k = some e ∧
      ∀ t ∈ e, ∃ l' p', (l', p', t.1) ∈ m.all.numbered 1 ∧ (l', p') ≠ (1, [1, 1]) ∧ (l', p') ≠ (2, [1, 2])) ∧
    ∀ (u : Int → Rat) (val : Nat → List Int → Rat), FieldIs 1 m.all u val → GhostsHold rec u →
      4 * val 1 [1, 1] = val 2 [2, 2] + val 2 [2, 3] + val 2 [3, 2] + val 2 [3, 3] := by
  obtain ⟨m, x, rec, h1, h2, h3, h4, h5, h6⟩ := C82_elimination (K := Rat) 1 ⟨2, 1⟩ exampleMesh exampleDomain 1 2 6 (exampleDomain_good 6 (by omega)) le_rfl exampleLeaves_good
    (by decide) (by decide)
  obtain ⟨m', x', j1, j2, j3⟩ := adaptInv_init' (cfg := ⟨2, 1⟩) (exampleDomain_good 6 (by omega)) (by decide) exampleLeaves_good
  rw [h1] at j1
  cases j1
  have gE := j2.elim (exampleDomain_good 6 (by omega)) (by decide) (by decide)
  have hP : ProjGhost 1 m.cells m.ghosts 1 [1, 1] := ⟨gE.near_cag ((h2 _ _).2 ((exampleMesh_leaves _ _).2 (.inl ⟨rfl, .inr (.inr rfl)⟩))) (.cons (by norm_num) (.cons (by norm_num) .nil)),
    [2, 2], (h2 _ _).2 ((exampleMesh_leaves _ _).2 (.inr ⟨rfl, 2, by omega, by omega, .inl rfl⟩)), anc_pair.2 ⟨2, 2, rfl, by norm_num, by norm_num⟩⟩
  have hQ : PredGhost 1 m.cells m.ghosts 2 [1, 2] := ⟨by omega,
    gE.near_cag ((h2 _ _).2 ((exampleMesh_leaves _ _).2 (.inr ⟨rfl, 2, by omega, by omega, .inl rfl⟩))) (.cons (by norm_num) (.cons (by norm_num) .nil)),
    [0, 1], (h2 _ _).2 ((exampleMesh_leaves _ _).2 (.inl ⟨rfl, .inr (.inl rfl)⟩)), anc_pair.2 ⟨1, 2, rfl, by norm_num, by norm_num⟩⟩
  refine ⟨m, x, rec, h1, h3 5 (by omega), fun l p hlp => ?_, fun u val hu hg => ?_⟩
  · have hk : ProjGhost 1 m.cells m.ghosts l p ∨ PredGhost 1 m.cells m.ghosts l p := by
      rcases hlp with h | h <;> obtain ⟨rfl, rfl⟩ := Prod.mk.inj h
      · exact .inl hP
      · exact .inr hQ
    have hm : m.all.Mem 1 l p := by
      rcases hk with h | h
      · exact gE.cag_ref h.1
      · exact gE.cag_ref h.2.1
    obtain ⟨k, hk'⟩ := CA.exists_number gE.fv.refWF hm
    obtain ⟨e, he⟩ := (h4 k).2 ⟨l, p, hk', hk⟩
    refine ⟨k, e, hk', he, fun t ht => ?_⟩
    obtain ⟨l', p', t1, t2, t3⟩ := h5 _ (find_mem he) t ht
    refine ⟨l', p', t1, fun h => ?_, fun h => ?_⟩ <;> obtain ⟨rfl, rfl⟩ := Prod.mk.inj h
    · exact t2 hP
    · exact t3 hQ
  · have := ((h6 Rat u val hu).1 hg).1 1 [1, 1] hP
    unfold MeanBelow at this
    rw [this]
    simp only [childrenOf]
    norm_num
    ring

/-! ### dimension 2 -/

/-- A square of 4 x 4 cells of level 1, the cell (1, 1) is refined. -/
def blockCalls : List (Nat × CellCall) :=
  [(1, .interval [0] (.mk' 0 4)), (1, .interval [1] (.mk' 0 1)), (1, .interval [1] (.mk' 2 4)), (1, .interval [2] (.mk' 0 4)), (1, .interval [3] (.mk' 0 4)),
   (2, .interval [2] (.mk' 2 4)), (2, .interval [3] (.mk' 2 4))]

def blockMesh : CA := match runLevelCalls 1 3 blockCalls with
  | some cl => CA.ofCL cl
  | none => CA.empty 1 3

theorem blockMesh_spec : blockMesh.maxSize = 3 ∧ blockMesh.WF 1 ∧ blockMesh.Leveled ∧ ∀ l p, blockMesh.Mem 1 l p ↔
    (l = 1 ∧ ∃ y x : Int, 0 ≤ y ∧ y < 4 ∧ 0 ≤ x ∧ x < 4 ∧ ¬ (y = 1 ∧ x = 1) ∧ p = [y, x]) ∨ l = 2 ∧ ∃ y x : Int, 2 ≤ y ∧ y < 4 ∧ 2 ≤ x ∧ x < 4 ∧ p = [y, x] := by
  obtain ⟨cl, h1, h2⟩ := (hist_new 1 3).calls (k := blockCalls) (by
    simp [blockCalls, CellCall.idx, CellCall.Valid, Interval.mk'])
  have he : blockMesh = CA.ofCL cl := by
    unfold blockMesh runLevelCalls
    rw [h1]
  obtain ⟨a1, a2, a3, -, a5⟩ := h2.array
  rw [he]
  refine ⟨a1, a2, a3, fun l p => ?_⟩
  rw [a5]
  simp only [blockCalls, List.mem_cons, Prod.mk.injEq, List.not_mem_nil, or_false, false_or]
  constructor
  · rintro ⟨c, hc, ha⟩
    rcases hc with ⟨rfl, rfl⟩ | ⟨rfl, rfl⟩ | ⟨rfl, rfl⟩ | ⟨rfl, rfl⟩ | ⟨rfl, rfl⟩ | ⟨rfl, rfl⟩ | ⟨rfl, rfl⟩ <;> obtain ⟨x, x1, x2, rfl⟩ := ha <;>
      simp only [Interval.mk'] at x1 x2 <;>
      first
      | exact .inl ⟨rfl, _, x, by omega, by omega, by omega, by omega, by omega, rfl⟩
      | exact .inr ⟨rfl, _, x, by omega, by omega, by omega, by omega, rfl⟩
  · rintro (⟨rfl, y, x, y1, y2, x1, x2, h, rfl⟩ | ⟨rfl, y, x, y1, y2, x1, x2, rfl⟩)
    · rcases (by omega : y = 0 ∨ y = 1 ∨ y = 2 ∨ y = 3) with rfl | rfl | rfl | rfl
      · exact ⟨_, .inl ⟨rfl, rfl⟩, x, x1, x2, rfl⟩
      · rcases (by omega : x < 1 ∨ 2 ≤ x) with hx | hx
        · exact ⟨_, .inr (.inl ⟨rfl, rfl⟩), x, x1, hx, rfl⟩
        · exact ⟨_, .inr (.inr (.inl ⟨rfl, rfl⟩)), x, hx, x2, rfl⟩
      · exact ⟨_, .inr (.inr (.inr (.inl ⟨rfl, rfl⟩))), x, x1, x2, rfl⟩
      · exact ⟨_, .inr (.inr (.inr (.inr (.inl ⟨rfl, rfl⟩)))), x, x1, x2, rfl⟩
    · obtain rfl | rfl : y = 2 ∨ y = 3 := by omega
      · exact ⟨_, .inr (.inr (.inr (.inr (.inr (.inl ⟨rfl, rfl⟩))))), x, x1, x2, rfl⟩
      · exact ⟨_, .inr (.inr (.inr (.inr (.inr (.inr ⟨rfl, rfl⟩))))), x, x1, x2, rfl⟩

theorem blockMesh_mem (l : Nat) (p : List Int) : blockMesh.Mem 1 l p ↔
    (l = 1 ∧ ∃ y x : Int, 0 ≤ y ∧ y < 4 ∧ 0 ≤ x ∧ x < 4 ∧ ¬ (y = 1 ∧ x = 1) ∧ p = [y, x]) ∨ l = 2 ∧ ∃ y x : Int, 2 ≤ y ∧ y < 4 ∧ 2 ≤ x ∧ x < 4 ∧ p = [y, x] :=
  blockMesh_spec.2.2.2 l p

def blockDomain : LCA := LCA.ofBox 1 2 ⟨fun _ => 0, fun _ => 8⟩

theorem blockDomain_mem (p : List Int) : blockDomain.Mem 1 p ↔ ∃ y x : Int, 0 ≤ y ∧ y < 8 ∧ 0 ≤ x ∧ x < 8 ∧ p = [y, x] := by
  rw [show blockDomain.Mem 1 p ↔ InBox ⟨fun _ => 0, fun _ => 8⟩ 1 p from ofBox_mem 2 p]
  constructor
  · intro h
    match p, h with
    | [y, x], h =>
      simp only [InBox] at h
      exact ⟨y, x, h.1.1, h.1.2, h.2.1, h.2.2, rfl⟩
  · rintro ⟨y, x, y1, y2, x1, x2, rfl⟩
    simp [InBox, y1, y2, x1, x2]

theorem blockInDomain (m : List Int) : InDomain 1 blockDomain 2 m ↔ ∃ y x : Int, 0 ≤ y ∧ y < 8 ∧ 0 ≤ x ∧ x < 8 ∧ m = [y, x] := by
  rw [← blockDomain_mem]
  constructor
  · rintro ⟨d, h1, h2⟩
    rw [show 2 - blockDomain.level = 0 from rfl, anc_zero] at h2
    exact h2 ▸ h1
  · exact fun h => ⟨m, h, anc_zero.2 rfl⟩

theorem blockDomain_good (margin : Nat) (h : margin ≤ 100) : GoodDomain 1 blockDomain 1 2 margin := by
  refine ⟨ofBox_wf 2 fun _ _ => by simp, le_rfl, fun p m m' h1 h2 h3 => ?_, 8, by omega, by unfold INT_MAX; omega, fun m hm x hx => ?_⟩
  · rw [blockInDomain] at h3 ⊢
    obtain ⟨y, x, y1, y2, x1, x2, rfl⟩ := h3
    rw [anc_iff] at h1
    simp only [List.map_cons, List.map_nil] at h1
    subst h1
    obtain ⟨y', x', rfl, h5, h6⟩ := anc_pair.1 h2
    norm_num [shr] at h5 h6
    exact ⟨y', x', by omega, by omega, by omega, by omega, rfl⟩
  · obtain ⟨y, z, y1, y2, x1, x2, rfl⟩ := (blockInDomain m).1 hm
    simp only [List.mem_cons, List.not_mem_nil, or_false] at hx
    omega

theorem blockLeaves_good : GoodLeaves 1 blockMesh blockDomain 1 2 := by
  have hb : blockMesh.Between 1 1 2 := fun l p h => by rcases (blockMesh_mem l p).1 h with ⟨rfl, -⟩ | ⟨rfl, -⟩ <;> omega
  refine ⟨blockMesh_spec.2.1, blockMesh_spec.2.2.1, by rw [blockMesh_spec.1]; omega, hb, fun l p l' p' h h' hl ha => ?_, fun l p l' p' q h h' _ _ _ => ?_, fun m => ?_⟩
  · rw [blockMesh_mem] at h h'
    rcases h with ⟨rfl, y, x, y1, y2, x1, x2, ho, rfl⟩ | ⟨rfl, y, x, y1, y2, x1, x2, rfl⟩ <;>
      rcases h' with ⟨rfl, t, z, t1, t2, z1, z2, ho', rfl⟩ | ⟨rfl, t, z, t1, t2, z1, z2, rfl⟩
    · exact ⟨rfl, anc_zero.1 ha⟩
    · exfalso
      obtain ⟨a, b, he, h3, h4⟩ := anc_pair.1 ha
      simp only [List.cons.injEq, and_true] at he
      norm_num at h3 h4
      omega
    · omega
    · exact ⟨rfl, anc_zero.1 ha⟩
  · have h1 := hb _ _ h
    have h2 := hb _ _ h'
    omega
  · rw [blockInDomain]
    unfold CA.Tiles
    constructor
    · rintro ⟨l, p, -, h1, h2⟩
      rcases (blockMesh_mem _ _).1 h1 with ⟨rfl, y, x, y1, y2, x1, x2, ho, rfl⟩ | ⟨rfl, y, x, y1, y2, x1, x2, rfl⟩
      · obtain ⟨a, b, rfl, h3, h4⟩ := anc_pair.1 h2
        norm_num at h3 h4
        exact ⟨a, b, by omega, by omega, by omega, by omega, rfl⟩
      · rw [anc_zero] at h2
        exact ⟨y, x, by omega, by omega, by omega, by omega, h2.symm⟩
    · rintro ⟨y, x, y1, y2, x1, x2, rfl⟩
      by_cases hf : (2 ≤ y ∧ y < 4) ∧ 2 ≤ x ∧ x < 4
      · exact ⟨2, [y, x], le_rfl, (blockMesh_mem _ _).2 (.inr ⟨rfl, y, x, by omega, by omega, by omega, by omega, rfl⟩), anc_zero.2 rfl⟩
      · exact ⟨1, [y / 2, x / 2], by omega, (blockMesh_mem _ _).2 (.inl ⟨rfl, y / 2, x / 2, by omega, by omega, by omega, by omega, by omega, rfl⟩),
          anc_pair.2 ⟨y, x, rfl, by norm_num, by norm_num⟩⟩

theorem blockDomain_box : BoxDomain 1 blockDomain 0 ⟨fun _ => 0, fun _ => 2⟩ := by
  refine ⟨ofBox_wf 2 fun _ _ => by simp, by omega, fun _ _ => by simp, fun p => ?_⟩
  rw [show (⟨fun _ => 0, fun _ => 2⟩ : Box).refined (blockDomain.level - 0) = ⟨fun _ => 0, fun _ => 8⟩ by
    show (⟨fun _ => 0, fun _ => 2⟩ : Box).refined 2 = _
    simp [Box.refined]]
  exact ofBox_mem 2 p

theorem blockRange : ∃ D : Int, 0 ≤ D ∧ D + 8 < INT_MAX ∧ blockDomain.BelowAt 1 blockDomain.level D := ⟨8, by omega, by decide, fun p hp z hz => by
  obtain ⟨y, x, y1, y2, x1, x2, rfl⟩ := (blockDomain_mem p).1 hp
  have : z < 8 := by
    simp only [List.mem_cons, List.not_mem_nil, or_false] at hz
    omega
  simpa [shl] using this⟩

/-- The flux in the direction x is the value of the cell on the right. -/
def rightFlux : LinDef Rat (Fin 1 → Rat) (Fin 1 → Rat) where
  stencil := fun d => inOutStencil (unitDir d)
  coeffs := fun d _ => if d = 0 then [0, LinearMap.id] else [0, 0]

/-- The output of the scheme in the leaf (2, 3) of level 2, for a field that is zero in the leaf. -/
theorem right_output {M : SubMeshes} {dom sub : LCA} (g : FVMesh 1 M.cells M.all dom 1 2 1) (hnum : FVNumbers 1 M.cells M.all) (hsub : constructSubdomain 1 M.cells 2 = some sub)
    (h1 : M.cells.Mem 1 2 [2, 3]) (h2 : M.cells.Mem 1 1 [1, 2]) (δ : Int → Fin 1 → Rat) (val : Nat → List Int → Fin 1 → Rat) (hδ : FieldIs 1 M.all δ val)
    (hz : val 2 [2, 3] = 0) (ha : val 2 [2, 4] ≠ 0) {out : Int → Fin 1 → Rat} (ho : linApplyTo 1 1 true δ M.all sub M.cells 2 false rightFlux = some out)
    {v : Int} (hv : (2, [2, 3], v) ∈ M.all.numbered 1) : out v ≠ 0 := by
  have hS : ∀ d ≤ 1, StencilOK 1 1 (unitDir d) (rightFlux.stencil d) := fun d _ => inOut_ok 1 d
  obtain ⟨out', k1, k2, -⟩ := C65_linear_scheme 1 M.cells M.all dom sub 1 2 1 (1 : Rat) rightFlux δ false g hnum hsub hS
  obtain ⟨fs, bs, bs', out'', j1, j2, j3, -⟩ := C64_apply_scheme 1 M.cells M.all dom sub 1 2 1 (1 : Rat) (linFlux 1 δ rightFlux) false g hnum hsub hS
  rw [k1] at j2
  cases j2
  rw [k2] at ho
  cases ho
  obtain ⟨v', hv'⟩ := CA.exists_number g.leaves.wf h1
  obtain rfl := CA.number_unique g.refWF hv (hnum.same _ _ _ hv')
  rw [j3 _ _ _ hv']
  obtain ⟨i0, -, -⟩ := j1 0 (by omega)
  have d1 : dirShare 1 (1 : Rat) ((linFlux 1 δ rightFlux).flux 1) false (fs 1) (bs 1) (bs' 1) (2, [2, 3]) = 0 := by
    have hz : ∀ c, (linFlux 1 δ rightFlux).flux 1 c = (0, 0) := by
      intro c
      show (linValue δ [0, 0] c, - linValue δ [0, 0] c) = (0, 0)
      rcases c with _ | ⟨a, _ | ⟨b, c⟩⟩ <;> simp [linValue]
    unfold dirShare
    simp only [Bool.false_eq_true, if_false, add_zero]
    refine (sum_map_congr (g := fun _ => 0) fun f _ => ?_).trans (sum_map_zero' _)
    unfold faceShare
    simp [hz]
  have hface : ∀ f ∈ fs 0, faceShare 1 (1 : Rat) ((linFlux 1 δ rightFlux).flux 0) (2, [2, 3]) f = if f.left.id = (2, [2, 3]) then cellLength (1 : Rat) 2 • val 2 [2, 4] else 0 := by
    intro f hf
    obtain ⟨e1, e2, q, ⟨e3, e4⟩, e5⟩ := i0.right f hf
    have hint := (i0.mem f.left.id f.right.id).1 (List.mem_map.2 ⟨f, hf, rfl⟩)
    have lev : ∀ {c : MCell}, M.cells.Mem 1 c.id.1 c.id.2 → c.level ≤ 2 := fun h => (g.leaves.between _ _ h).2
    have l1 := lev hint.1
    have l2 := lev hint.2.1
    have hval : ∀ l, max f.left.level f.right.level = l → ((linFlux 1 δ rightFlux).flux 0 f.comput).1 = val l (shiftPoint (unitDir 0) 1 q) := by
      intro l hl
      rw [hl] at e5
      show linValue δ [0, LinearMap.id] f.comput = _
      match f.comput, e5 with
      | [a, b], .cons _ (.cons hb .nil) => simp [linValue, hδ _ _ _ hb.2.2]
    have hval2 : ((linFlux 1 δ rightFlux).flux 0 f.comput).2 = - ((linFlux 1 δ rightFlux).flux 0 f.comput).1 := rfl
    unfold faceShare
    by_cases hl : f.left.id = (2, [2, 3])
    · obtain ⟨a1, a2⟩ := Prod.mk.inj hl
      have hmax : max f.left.level f.right.level = 2 := by omega
      simp only [MCell.id] at e3
      rw [hmax, a1, a2, Nat.sub_self, anc_zero] at e3
      rw [if_pos hl, if_pos hl, hmax, hval 2 hmax, ← e3, show shiftPoint (unitDir 0) 1 [2, 3] = [2, 4] by decide, pow_one, if_neg, add_zero]
      intro hr
      simp only [MCell.id] at e4
      obtain ⟨b1, b2⟩ := Prod.mk.inj hr
      rw [hmax, b1, b2, Nat.sub_self, anc_zero, ← e3] at e4
      revert e4
      decide
    · rw [if_neg hl, if_neg hl, zero_add]
      by_cases hr : f.right.id = (2, [2, 3])
      · obtain ⟨b1, b2⟩ := Prod.mk.inj hr
        have hmax : max f.left.level f.right.level = 2 := by omega
        simp only [MCell.id] at e4
        rw [hmax, b1, b2, Nat.sub_self, anc_zero] at e4
        rw [if_pos hr, hval2, hval 2 hmax, ← e4, hz, neg_zero, smul_zero]
      · rw [if_neg hr]
  have d0 : dirShare 1 (1 : Rat) ((linFlux 1 δ rightFlux).flux 0) false (fs 0) (bs 0) (bs' 0) (2, [2, 3]) =
      (((fs 0).countP fun f => decide (f.left.id = (2, [2, 3])) : Nat) : Rat) • cellLength (1 : Rat) 2 • val 2 [2, 4] := by
    unfold dirShare
    simp only [Bool.false_eq_true, if_false, add_zero]
    rw [sum_map_congr hface]
    generalize fs 0 = L
    induction L with
    | nil => simp
    | cons f L ih =>
      rw [List.map_cons, List.sum_cons, ih, List.countP_cons]
      by_cases h : f.left.id = (2, [2, 3])
      · simp only [h, if_true, decide_true]
        push_cast
        rw [add_smul, one_smul, add_comm]
      · simp [h]
  have hcount : 0 < (fs 0).countP fun f => decide (f.left.id = (2, [2, 3])) := by
    rw [List.countP_pos_iff]
    obtain ⟨f, hf, he⟩ := List.mem_map.1 ((i0.mem (2, [2, 3]) (1, [1, 2])).2 ⟨h1, h2, [2, 3], anc_zero.2 rfl, by
      rw [show shiftPoint (unitDir 0) 1 [2, 3] = [2, 4] by decide]
      exact anc_pair.2 ⟨2, 4, rfl, by norm_num, by norm_num⟩⟩)
    exact ⟨f, hf, decide_eq_true (Prod.mk.inj he).1⟩
  show _ • (List.map _ [0, 1]).sum ≠ 0
  simp only [List.map_cons, List.map_nil, List.sum_cons, List.sum_nil, d1, add_zero]
  rw [d0]
  refine smul_ne_zero ?_ (smul_ne_zero ?_ (smul_ne_zero ?_ ha))
  · norm_num [cellLength]
  · exact_mod_cast hcount.ne'
  · norm_num [cellLength]

/-- C83 is false in dimension 2. On the square of 4 x 4 cells with one refined cell, with the default configuration and `Dirichlet<1>` on the boundary, there is a field
for which, after `update_ghost_mr`, the product of the matrix and of the vector of the field is not the explicit scheme: the prediction of the explicit update of the ghosts
has the opposite sign for the cross differences (C31). -/
theorem C83_dim2_refuted : ∃ M x S R sub rec E, mrMesh 1 ⟨1, 1⟩ blockMesh 1 2 = some (M, x) ∧ constructSubdomain 1 blockMesh 2 = some S ∧
    everywhereRegion 1 blockDomain = some R ∧ constructSubdomain 1 M.cells 2 = some sub ∧ ghostRecursion 1 1 M.all M.ghosts M.cells 5 = some rec ∧
    assembleScheme 1 (1 : Rat) ⟨false, M.all.nbCells, 1, 1, 0, 0⟩ rec M.all sub M.cells 2 false rightFlux.stencil (rightFlux.flux 1) = some E ∧
    ∃ (u u' : Int → Fin 1 → Rat) (out : Int → Fin 1 → Rat) (y : Int → Rat),
      (∀ j, updateGhostMr 1 ⟨⟨M.cells, M.all, blockDomain, 1, 2, fun _ => false, 1, ⟨1, 1⟩⟩, M.proj, S⟩ [⟨.dirichlet 1, fun _ _ => 0, R⟩] (fun k => u k j) = some fun k => u' k j) ∧
      IsVector false M.all.nbCells 1 0 u' y ∧ linApplyTo 1 1 true u' M.all sub M.cells 2 false rightFlux = some out ∧
      ¬ IsVector false M.all.nbCells 1 0 out (matVec (schemeMatrix E) 0 (M.all.nbCells * 1) y) := by
  have hgd := blockDomain_good 5 (by omega)
  have g := blockLeaves_good
  obtain ⟨R, r1, r2⟩ := everywhere_covers (n := 1) (by omega) (dom := blockDomain) (ofBox_wf 2 fun _ _ => by simp) blockRange
  have hS : ∀ d ≤ 1, StencilOK 1 1 (unitDir d) (rightFlux.stencil d) := fun d _ => inOut_ok 1 d
  obtain ⟨M, x, sub, rec, E, h1, hmc, h2, h3, h4, -, h6, h7⟩ := C83_matrix (m := 1) (p := 1) 1 ⟨1, 1⟩ blockMesh blockDomain 1 2 5 hgd le_rfl g (by decide) (by decide) (1 : Rat)
    rightFlux hS false false 0 0
  obtain ⟨M', x', j1, jA, -⟩ := adaptInv_init' (cfg := ⟨1, 1⟩) hgd (by decide) g
  rw [h1] at j1
  cases j1
  have gE := jA.elim hgd (by decide) (by decide)
  have hw := gE.fv.refWF
  obtain ⟨S, s1, -⟩ := constructSubdomain_spec (maxL := 2) g.wf g.between
  obtain ⟨u0, hu0⟩ := field_exists gE.distinct fun l q => if l = 1 ∧ q = [0, 3] then (1 : Rat) else 0
  obtain ⟨M', x', S', u1, val, a1, a2, a3, a4, a5, a6, a7, -⟩ := C76_update_ghosts (n := 1) (by omega) ⟨1, 1⟩ rfl rfl blockMesh blockDomain 1 2 0 _ g
    (hgd.mono (by decide)) (by omega) blockDomain_box rfl (by omega) ⟨8, by omega, by decide, fun _ _ => by show (2 : Int) * 2 ^ 2 ≤ 8; decide⟩ (1 : Rat) [⟨.dirichlet 1, fun _ _ => 0, R⟩]
    (fun c hc => by
      rw [List.mem_singleton] at hc
      subst hc
      exact (r2 (.dirichlet 1) _ 1 ⟨by omega, by omega⟩ (by simp [BcKind.ghosts, BcKind.stencilSize])).1) u0
  rw [h1] at a1
  cases a1
  rw [s1] at a2
  cases a2
  have coarse : ∀ y x : Int, 0 ≤ y → y < 4 → 0 ≤ x → x < 4 → ¬ (y = 1 ∧ x = 1) → blockMesh.Mem 1 1 [y, x] := fun y x y1 y2 x1 x2 h =>
    (blockMesh_mem _ _).2 (.inl ⟨rfl, y, x, y1, y2, x1, x2, h, rfl⟩)
  have fine : ∀ y x : Int, 2 ≤ y → y < 4 → 2 ≤ x → x < 4 → blockMesh.Mem 1 2 [y, x] := fun y x y1 y2 x1 x2 =>
    (blockMesh_mem _ _).2 (.inr ⟨rfl, y, x, y1, y2, x1, x2, rfl⟩)
  have hP : ProjGhost 1 M.cells M.ghosts 1 [1, 1] := ⟨gE.near_cag ((hmc _ _).2 (coarse 1 0 (by omega) (by omega) (by omega) (by omega) (by omega)))
      (.cons (by norm_num) (.cons (by norm_num) .nil)), [2, 2], (hmc _ _).2 (fine 2 2 (by omega) (by omega) (by omega) (by omega)), anc_pair.2 ⟨2, 2, rfl, by norm_num, by norm_num⟩⟩
  have hQ : PredGhost 1 M.cells M.ghosts 2 [2, 4] := ⟨by omega, gE.near_cag ((hmc _ _).2 (fine 2 3 (by omega) (by omega) (by omega) (by omega)))
      (.cons (by norm_num) (.cons (by norm_num) .nil)), [1, 2], (hmc _ _).2 (coarse 1 2 (by omega) (by omega) (by omega) (by omega) (by omega)),
      anc_pair.2 ⟨2, 4, rfl, by norm_num, by norm_num⟩⟩
  have notGhost : ∀ l q, blockMesh.Mem 1 l q → ¬ ProjGhost 1 M.cells M.ghosts l q ∧ ¬ PredGhost 1 M.cells M.ghosts l q := fun l q h =>
    ⟨gE.leaf_proj ((hmc _ _).2 h), gE.leaf_pred ((hmc _ _).2 h)⟩
  -- the values of the leaves
  have leaf : ∀ l q, blockMesh.Mem 1 l q → val l q = if l = 1 ∧ q = [0, 3] then (1 : Rat) else 0 := by
    intro l q h
    have hk := numOf_numbered hw (gE.fv.ghosts l q q ((hmc _ _).2 h) (near_refl _ _))
    rw [← a4 _ _ _ hk, a5 _ _ _ h hk, hu0 _ _ _ hk]
  obtain ⟨w, vv, w1, w2, w3, w4⟩ := h7 fun k _ => u1 k
  have leaf' : ∀ l q, blockMesh.Mem 1 l q → vv l q 0 = if l = 1 ∧ q = [0, 3] then (1 : Rat) else 0 := by
    intro l q h
    have hk := numOf_numbered hw (gE.fv.ghosts l q q ((hmc _ _).2 h) (near_refl _ _))
    rw [← w2 _ _ _ hk, w1 _ _ _ hk (notGhost l q h).1 (notGhost l q h).2, a4 _ _ _ hk, leaf l q h]
  have mean : val 1 [1, 1] = 0 := by
    have := (a6 1 [1, 1] (gE.cag_ref hP.1) (by omega) ⟨2, [2, 2], by omega, fine 2 2 (by omega) (by omega) (by omega) (by omega), anc_pair.2 ⟨2, 2, rfl, by norm_num, by norm_num⟩⟩).1
    simp only [MeanOfChildren, childrenOf] at this
    norm_num at this
    rw [leaf 2 [2, 2] (fine 2 2 (by omega) (by omega) (by omega) (by omega)), leaf 2 [2, 3] (fine 2 3 (by omega) (by omega) (by omega) (by omega)),
      leaf 2 [3, 2] (fine 3 2 (by omega) (by omega) (by omega) (by omega)), leaf 2 [3, 3] (fine 3 3 (by omega) (by omega) (by omega) (by omega))] at this
    simpa using this
  have mean' : vv 1 [1, 1] 0 = 0 := by
    have := congrFun (w3 1 [1, 1] hP) 0
    rw [this, Pi.smul_apply, list_sum_at]
    simp only [childrenOf]
    norm_num
    rw [leaf' 2 [2, 2] (fine 2 2 (by omega) (by omega) (by omega) (by omega)), leaf' 2 [2, 3] (fine 2 3 (by omega) (by omega) (by omega) (by omega)),
      leaf' 2 [3, 2] (fine 3 2 (by omega) (by omega) (by omega) (by omega)), leaf' 2 [3, 3] (fine 3 3 (by omega) (by omega) (by omega) (by omega))]
    simp
  have near : ∀ y x : Int, 0 ≤ y → y < 3 → 1 ≤ x → x < 4 → val 1 [y, x] = (if y = 0 ∧ x = 3 then (1 : Rat) else 0) ∧ vv 1 [y, x] 0 = if y = 0 ∧ x = 3 then (1 : Rat) else 0 := by
    intro y x y1 y2 x1 x2
    by_cases h : y = 1 ∧ x = 1
    · obtain ⟨rfl, rfl⟩ := h
      simp [mean, mean']
    · rw [leaf 1 _ (coarse y x (by omega) (by omega) (by omega) (by omega) h), leaf' 1 _ (coarse y x (by omega) (by omega) (by omega) (by omega) h)]
      simp
  -- the two values of the ghost
  have v1 : val 2 [2, 4] = 1 / 64 := by
    have := (a7 2 [2, 4] (gE.cag_ref hQ.2.1) ⟨1, [1, 2], by omega, coarse 1 2 (by omega) (by omega) (by omega) (by omega) (by omega), anc_pair.2 ⟨2, 4, rfl, by norm_num, by norm_num⟩⟩).1
    rw [this]
    have e : ∀ y x : Int, 0 ≤ y → y < 3 → 1 ≤ x → x < 4 → val 1 [y, x] = (if y = 0 ∧ x = 3 then (1 : Rat) else 0) := fun y x a b c d => (near y x a b c d).1
    norm_num [PredictedFromBelow, predictFine, Qs_order1, Qs2, qsOp, qsFrom, fieldHack, move, predictionCoeffs, isOdd, toPt, ofPt, parentPt, shr_one_eq, List.range_succ]
    norm_num [e]
  have v2 : vv 2 [2, 4] 0 = - 1 / 64 := by
    have := congrFun (show TensorPredicted (K := Rat) 1 1 vv 2 [2, 4] from w4 2 [2, 4] hQ) 0
    rw [this, Finset.sum_apply]
    rw [Finset.sum_eq_single (fun d : Fin 2 => if d = 0 then (1 : Int) else -1)]
    · have := (near 0 3 (by omega) (by omega) (by omega) (by omega)).2
      have e : (ofPt (1 + 1) fun d => toPt [2, 4] d / 2 + if h : d < 1 + 1 then (fun d : Fin 2 => if d = 0 then (1 : Int) else -1) ⟨d, h⟩ else 0) = [0, 3] := by
        decide
      rw [Pi.smul_apply, e]
      show _ • vv 1 _ 0 = _
      rw [this, Fin.prod_univ_two]
      norm_num [interpCoeffs, toPt]
      show (-(1 / 8) : Rat) * (1 / 8) = _
      norm_num
    · intro s hs hne
      have b0 := Finset.mem_Icc.1 (Fintype.mem_piFinset.1 hs 0)
      have b1 := Finset.mem_Icc.1 (Fintype.mem_piFinset.1 hs 1)
      have := (near (1 + s 1) (2 + s 0) (by omega) (by omega) (by omega) (by omega)).2
      rw [if_neg (fun h => hne (by
        funext d
        fin_cases d
        · show s 0 = 1
          omega
        · show s 1 = -1
          omega))] at this
      have e : (ofPt (1 + 1) fun d => toPt [2, 4] d / 2 + if h : d < 1 + 1 then s ⟨d, h⟩ else 0) = [1 + s 1, 2 + s 0] := by
        simp [ofPt, toPt, List.range_succ]
      rw [Pi.smul_apply, e]
      show _ • vv 1 _ 0 = 0
      rw [this, smul_zero]
    · intro h
      exact absurd (Fintype.mem_piFinset.2 fun d => by fin_cases d <;> simp) h
  refine ⟨M, x, S, R, sub, rec, E, h1, s1, r1, h2, h3 5 (by omega), h4, fun k _ => u0 k, fun k _ => u1 k, ?_⟩
  obtain ⟨y, hy⟩ := isVector_exists (m := 1) false M.all.nbCells 0 fun k _ => u1 k
  obtain ⟨b, b1, b2⟩ := h6 (.inl rfl) (fun k _ => u1 k) w vv y hy w1 w2 w3 w4
  obtain ⟨a, b', c1, c2, c3⟩ := C65_linearity 1 M.cells M.all blockDomain sub 1 2 1 (1 : Rat) rightFlux false true gE.fv jA.fvNumbers h2 hS (fun k _ => u1 k) w (-1)
  rw [b1 true] at c2
  cases c2
  refine ⟨a, y, fun _ => a3, hy, c1, fun hA => ?_⟩
  have hk := numOf_numbered hw (gE.fv.ghosts 2 [2, 3] [2, 3] ((hmc _ _).2 (fine 2 3 (by omega) (by omega) (by omega) (by omega))) (near_refl _ _))
  refine right_output gE.fv jA.fvNumbers h2 ((hmc _ _).2 (fine 2 3 (by omega) (by omega) (by omega) (by omega)))
    ((hmc _ _).2 (coarse 1 2 (by omega) (by omega) (by omega) (by omega) (by omega))) _ (fun l q j => val l q - vv l q j) (fun l q k hk => ?_) ?_ ?_ c3 hk ?_
  · funext j
    rw [a4 l q k hk, w2 l q k hk]
    show _ + (-1 : Rat) • vv l q j = _
    simp [sub_eq_add_neg]
  · funext j
    rw [Subsingleton.elim j 0, leaf 2 _ (fine 2 3 (by omega) (by omega) (by omega) (by omega)), leaf' 2 _ (fine 2 3 (by omega) (by omega) (by omega) (by omega))]
    simp
  · intro h
    have := congrFun h 0
    rw [v1, v2] at this
    norm_num at this
  · funext j
    have hr : 0 ≤ numOf 1 M.all 2 [2, 3] ∧ numOf 1 M.all 2 [2, 3] < M.all.nbCells := by
      have : numOf 1 M.all 2 [2, 3] ∈ (M.all.numbered 1).map fun e => e.2.2 := List.mem_map.2 ⟨_, hk, rfl⟩
      obtain ⟨c0, hc0⟩ := jA.mesh
      rw [hc0.numbers, List.mem_map] at this
      obtain ⟨i, i1, i2⟩ := this
      have := List.mem_range.1 i1
      omega
    have := (hA _ hr.1 hr.2 j).symm.trans (b2 _ hr.1 hr.2 j)
    show a _ j + (-1 : Rat) • b _ j = 0
    rw [this]
    simp

end Samurai

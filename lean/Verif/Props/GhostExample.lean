/-
Meshes on which the theorems on the update of the ghosts apply, and the dependence on old ghost values in dimension 3.
-/
import Verif.Props.GhostUpdate
import Verif.Props.BcExample

namespace Samurai

/-! ### a square in dimension 2 -/

/-- Three leaves of level 1 and four of level 2. -/
def cornerCalls : List (Nat × CellCall) :=
  [(1, .interval [0] (.mk' 0 2)), (1, .interval [1] (.mk' 0 1)), (2, .interval [2] (.mk' 2 4)), (2, .interval [3] (.mk' 2 4))]

def cornerMesh : CA := match runLevelCalls 1 3 cornerCalls with
  | some cl => CA.ofCL cl
  | none => CA.empty 1 3

theorem cornerMesh_spec : cornerMesh.maxSize = 3 ∧ cornerMesh.WF 1 ∧ cornerMesh.Leveled ∧ ∀ l p, cornerMesh.Mem 1 l p ↔
    (l = 1 ∧ ∃ y x : Int, 0 ≤ y ∧ y < 2 ∧ 0 ≤ x ∧ x < 2 ∧ (y = 0 ∨ x = 0) ∧ p = [y, x]) ∨ l = 2 ∧ ∃ y x : Int, 2 ≤ y ∧ y < 4 ∧ 2 ≤ x ∧ x < 4 ∧ p = [y, x] := by
  obtain ⟨cl, h1, h2⟩ := (hist_new 1 3).calls (k := cornerCalls) (by
    simp [cornerCalls, CellCall.idx, CellCall.Valid, Interval.mk'])
  have he : cornerMesh = CA.ofCL cl := by
    unfold cornerMesh runLevelCalls
    rw [h1]
  obtain ⟨a1, a2, a3, -, a5⟩ := h2.array
  rw [he]
  refine ⟨a1, a2, a3, fun l p => ?_⟩
  rw [a5]
  simp only [cornerCalls, List.mem_cons, Prod.mk.injEq, List.not_mem_nil, or_false, false_or]
  constructor
  · rintro ⟨c, hc, ha⟩
    rcases hc with ⟨rfl, rfl⟩ | ⟨rfl, rfl⟩ | ⟨rfl, rfl⟩ | ⟨rfl, rfl⟩ <;> obtain ⟨x, x1, x2, rfl⟩ := ha <;> simp only [Interval.mk'] at x1 x2
    · exact .inl ⟨rfl, _, x, by omega, by omega, by omega, by omega, by omega, rfl⟩
    · exact .inl ⟨rfl, _, x, by omega, by omega, by omega, by omega, by omega, rfl⟩
    all_goals exact .inr ⟨rfl, _, x, by omega, by omega, by omega, by omega, rfl⟩
  · rintro (⟨rfl, y, x, y1, y2, x1, x2, h, rfl⟩ | ⟨rfl, y, x, y1, y2, x1, x2, rfl⟩)
    · obtain rfl | rfl : y = 0 ∨ y = 1 := by omega
      · exact ⟨_, .inl ⟨rfl, rfl⟩, x, x1, x2, rfl⟩
      · exact ⟨_, .inr (.inl ⟨rfl, rfl⟩), x, x1, by simp only [Interval.mk']; omega, rfl⟩
    · obtain rfl | rfl : y = 2 ∨ y = 3 := by omega
      · exact ⟨_, .inr (.inr (.inl ⟨rfl, rfl⟩)), x, x1, x2, rfl⟩
      · exact ⟨_, .inr (.inr (.inr ⟨rfl, rfl⟩)), x, x1, x2, rfl⟩

theorem cornerMesh_mem (l : Nat) (p : List Int) : cornerMesh.Mem 1 l p ↔
    (l = 1 ∧ ∃ y x : Int, 0 ≤ y ∧ y < 2 ∧ 0 ≤ x ∧ x < 2 ∧ (y = 0 ∨ x = 0) ∧ p = [y, x]) ∨ l = 2 ∧ ∃ y x : Int, 2 ≤ y ∧ y < 4 ∧ 2 ≤ x ∧ x < 4 ∧ p = [y, x] :=
  cornerMesh_spec.2.2.2 l p

theorem squareInDomain (m : List Int) : InDomain 1 squareDomain 2 m ↔ ∃ y x : Int, 0 ≤ y ∧ y < 4 ∧ 0 ≤ x ∧ x < 4 ∧ m = [y, x] := by
  unfold InDomain
  rw [show 2 - squareDomain.level = 0 from rfl]
  have hb : ∀ p, squareDomain.Mem 1 p ↔ ∃ y x : Int, 0 ≤ y ∧ y < 4 ∧ 0 ≤ x ∧ x < 4 ∧ p = [y, x] := by
    intro p
    rw [show squareDomain.Mem 1 p ↔ InBox squareBox 1 p from ofBox_mem 2 p]
    constructor
    · intro h
      match p, h with
      | [y, x], h =>
        simp only [InBox, squareBox] at h
        exact ⟨y, x, h.1.1, h.1.2, h.2.1, h.2.2, rfl⟩
    · rintro ⟨y, x, y1, y2, x1, x2, rfl⟩
      simp [InBox, squareBox, y1, y2, x1, x2]
  constructor
  · rintro ⟨p, h1, h2⟩
    obtain rfl := anc_zero.1 h2
    exact (hb _).1 h1
  · intro h
    exact ⟨m, (hb _).2 h, anc_zero.2 rfl⟩

theorem cornerDomain_good (margin : Nat) (h : margin ≤ 100) : GoodDomain 1 squareDomain 1 2 margin := by
  refine ⟨squareDomain_box.wf, le_rfl, fun p m m' h1 h2 h3 => ?_, 4, by omega, by unfold INT_MAX; omega, fun m hm x hx => ?_⟩
  · rw [squareInDomain] at h3 ⊢
    obtain ⟨y, x, y1, y2, x1, x2, rfl⟩ := h3
    rw [anc_iff] at h1
    simp only [List.map_cons, List.map_nil] at h1
    subst h1
    obtain ⟨y', x', rfl, h5, h6⟩ := anc_pair.1 h2
    norm_num [shr] at h5 h6
    exact ⟨y', x', by omega, by omega, by omega, by omega, rfl⟩
  · obtain ⟨y, z, y1, y2, x1, x2, rfl⟩ := (squareInDomain m).1 hm
    simp only [List.mem_cons, List.not_mem_nil, or_false] at hx
    omega

theorem cornerLeaves_good : GoodLeaves 1 cornerMesh squareDomain 1 2 := by
  have hb : cornerMesh.Between 1 1 2 := fun l p h => by rcases (cornerMesh_mem l p).1 h with ⟨rfl, -⟩ | ⟨rfl, -⟩ <;> omega
  refine ⟨cornerMesh_spec.2.1, cornerMesh_spec.2.2.1, by rw [cornerMesh_spec.1]; omega, hb, fun l p l' p' h h' hl ha => ?_, fun l p l' p' q h h' _ _ _ => ?_, fun m => ?_⟩
  · rw [cornerMesh_mem] at h h'
    rcases h with ⟨rfl, y, x, y1, y2, x1, x2, ho, rfl⟩ | ⟨rfl, y, x, y1, y2, x1, x2, rfl⟩ <;>
      rcases h' with ⟨rfl, t, z, t1, t2, z1, z2, ho', rfl⟩ | ⟨rfl, t, z, t1, t2, z1, z2, rfl⟩
    · exact ⟨rfl, anc_zero.1 ha⟩
    · exfalso
      obtain ⟨a, b, he, h3, h4⟩ := anc_pair.1 ha
      simp only [List.cons.injEq, and_true] at he
      norm_num at h3 h4
      omega
    · omega
    · exact ⟨rfl, anc_zero.1 ha⟩
  · have h1 := hb _ _ h
    have h2 := hb _ _ h'
    omega
  · rw [squareInDomain]
    unfold CA.Tiles
    constructor
    · rintro ⟨l, p, -, h1, h2⟩
      rcases (cornerMesh_mem _ _).1 h1 with ⟨rfl, y, x, y1, y2, x1, x2, ho, rfl⟩ | ⟨rfl, y, x, y1, y2, x1, x2, rfl⟩
      · obtain ⟨a, b, rfl, h3, h4⟩ := anc_pair.1 h2
        norm_num at h3 h4
        exact ⟨a, b, by omega, by omega, by omega, by omega, rfl⟩
      · rw [anc_zero] at h2
        exact ⟨y, x, by omega, by omega, by omega, by omega, h2.symm⟩
    · rintro ⟨y, x, y1, y2, x1, x2, rfl⟩
      by_cases hf : 2 ≤ y ∧ 2 ≤ x
      · exact ⟨2, [y, x], le_rfl, (cornerMesh_mem _ _).2 (.inr ⟨rfl, y, x, by omega, by omega, by omega, by omega, rfl⟩), anc_zero.2 rfl⟩
      · exact ⟨1, [y / 2, x / 2], by omega, (cornerMesh_mem _ _).2 (.inl ⟨rfl, y / 2, x / 2, by omega, by omega, by omega, by omega, by omega, rfl⟩),
          anc_pair.2 ⟨y, x, rfl, by norm_num, by norm_num⟩⟩

/-- The square is one cell of level 0. -/
theorem cornerDomain_box : BoxDomain 1 squareDomain 0 ⟨fun _ => 0, fun _ => 1⟩ := by
  refine ⟨squareDomain_box.wf, by omega, fun _ _ => by simp, fun p => ?_⟩
  rw [show (⟨fun _ => 0, fun _ => 1⟩ : Box).refined (squareDomain.level - 0) = squareBox by
    show (⟨fun _ => 0, fun _ => 1⟩ : Box).refined 2 = squareBox
    simp [Box.refined, squareBox]]
  exact ofBox_mem 2 p

/-- A condition on the whole boundary of a domain, in dimensions 1 to 3. -/
theorem everywhere_covers {n : Nat} (hn : n ≤ 2) {dom : LCA} (hw : dom.WF n) (hr : ∃ D : Int, 0 ≤ D ∧ D + 8 < INT_MAX ∧ dom.BelowAt n dom.level D) :
    ∃ R, everywhereRegion n dom = some R ∧ ∀ (kd : BcKind) (val : (Nat → Int) → MCell → Rat) (w : Nat), kd.Exists → kd.ghosts ≤ w →
      GoodBc n dom w ⟨kd, val, R⟩ ∧ CoversBoundary n dom [⟨kd, val, R⟩] := by
  obtain ⟨_, R, r1, r2, r3⟩ := C72_directions n hn dom hw hr
  refine ⟨R, r1, fun kd val w h1 h2 => ⟨⟨h1, h2, fun d hd _ hax => (r2 d hd hax).1⟩, fun q v hq hu hax hout => ?_⟩⟩
  obtain ⟨d, hd, hdv⟩ := r3 v hu hax
  have hax' : OneAxis n d.1 := by
    obtain ⟨k, a1, a2, a3⟩ := hax
    exact ⟨k, a1, by rw [hdv k a1]; exact a2, fun j hj hjk => by rw [hdv j hj]; exact a3 j hj hjk⟩
  refine ⟨_, List.mem_singleton.2 rfl, d, hd, hdv, ((r2 d hd hax').2 q).2 ⟨hq, ?_⟩⟩
  rw [shift_congr q n hdv]
  exact hout

theorem squareRange : ∃ D : Int, 0 ≤ D ∧ D + 8 < INT_MAX ∧ squareDomain.BelowAt 1 squareDomain.level D := ⟨4, by omega, by decide, fun p hp x hx => by
  rw [squareDomain_box.mem] at hp
  obtain ⟨d, _, _, h⟩ := inBox_coord hp x hx
  simpa [squareBox, Box.refined, squareDomain, LCA.ofBox, boxLoop] using h⟩

/-- C76 and C77 on the square with four leaves of level 2 in a corner and three leaves of level 1, `Dirichlet<1>` on the whole boundary. The cell (1, 1) of
level 1 has the mean of the four leaves; two fields that agree on the leaves agree after the update on the ghost (1, 2) of level 2 inside a leaf. -/
example (u1 u2 : Int → Rat) : ∃ m x S R, mrMesh 1 ⟨1, 1⟩ cornerMesh 1 2 = some (m, x) ∧ constructSubdomain 1 cornerMesh 2 = some S ∧
    everywhereRegion 1 squareDomain = some R ∧ ∀ value : (Nat → Int) → MCell → Rat,
      (∃ u' val, updateGhostMr 1 ⟨⟨m.cells, m.all, squareDomain, 1, 2, fun _ => false, 1, ⟨1, 1⟩⟩, m.proj, S⟩ [⟨.dirichlet 1, value, R⟩] u1 = some u' ∧
        FieldIs 1 m.all u' val ∧ 4 * val 1 [1, 1] = val 2 [2, 2] + val 2 [2, 3] + val 2 [3, 2] + val 2 [3, 3]) ∧
      ((∀ l p i, cornerMesh.Mem 1 l p → (l, p, i) ∈ m.all.numbered 1 → u1 i = u2 i) → ∃ u1' u2',
        updateGhostMr 1 ⟨⟨m.cells, m.all, squareDomain, 1, 2, fun _ => false, 1, ⟨1, 1⟩⟩, m.proj, S⟩ [⟨.dirichlet 1, value, R⟩] u1 = some u1' ∧
        updateGhostMr 1 ⟨⟨m.cells, m.all, squareDomain, 1, 2, fun _ => false, 1, ⟨1, 1⟩⟩, m.proj, S⟩ [⟨.dirichlet 1, value, R⟩] u2 = some u2' ∧
        ∃ i, (2, [2, 1], i) ∈ m.all.numbered 1 ∧ u1' i = u2' i) := by
  obtain ⟨R, r1, r2⟩ := everywhere_covers (n := 1) (by omega) squareDomain_box.wf squareRange
  obtain ⟨D0, D1, D2, D3⟩ := (cornerDomain_good 3 (by omega)).range
  have g := cornerLeaves_good
  obtain ⟨m, x, q1, q2⟩ := mrMesh_spec (cells := cornerMesh) (cfg := ⟨1, 1⟩) (n := 1) (minL := 1) (maxL := 2)
    ⟨g.wf, g.leveled, g.between, g.size, D0, D1, D2, g.below D3⟩
  obtain ⟨S, s1, -⟩ := constructSubdomain_spec g.wf g.between
  obtain ⟨m0, c1, c2, c3, c4, c5⟩ := q2.content
  have hall : ∀ l p, m.all.Mem 1 l p ↔ MRAll 1 ⟨1, 1⟩ cornerMesh 1 l p := fun l p => by rw [c5, c1.all (by omega)]
  have hfine : ∀ y x : Int, 2 ≤ y → y < 4 → 2 ≤ x → x < 4 → cornerMesh.Mem 1 2 [y, x] := fun y x y1 y2 x1 x2 =>
    (cornerMesh_mem _ _).2 (.inr ⟨rfl, y, x, y1, y2, x1, x2, rfl⟩)
  have hB : ∃ B : Int, 0 ≤ B ∧ B + 11 * 2 ^ squareDomain.level + 2 < INT_MAX ∧ ∀ d ≤ 1, (⟨fun _ => 0, fun _ => 1⟩ : Box).hi d * 2 ^ (squareDomain.level - 0) ≤ B :=
    ⟨4, by omega, by decide, fun _ _ => by show (1 : Int) * 2 ^ 2 ≤ 4; decide⟩
  refine ⟨m, x, S, R, q1, s1, r1, fun value => ?_⟩
  have hbc : ∀ c ∈ [(⟨.dirichlet 1, value, R⟩ : BcCond Rat)], GoodBc 1 squareDomain 1 c := fun c hc => by
    rw [List.mem_singleton] at hc
    subst hc
    exact (r2 (.dirichlet 1) value 1 ⟨by omega, by omega⟩ (by simp [BcKind.ghosts, BcKind.stencilSize])).1
  have hcov := (r2 (.dirichlet 1) value 1 ⟨by omega, by omega⟩ (by simp [BcKind.ghosts, BcKind.stencilSize])).2
  constructor
  · obtain ⟨m', x', S', u', val, a1, a2, a3, a4, a5, a6, a7, a8, a9⟩ := C76_update_ghosts (n := 1) (by omega) ⟨1, 1⟩ rfl rfl cornerMesh squareDomain 1 2 0 _ g
      (cornerDomain_good 3 (by omega)) (by omega) cornerDomain_box rfl (by omega) hB (1 : Rat) [⟨.dirichlet 1, value, R⟩] hbc u1
    rw [q1] at a1
    rw [s1] at a2
    obtain ⟨rfl, rfl⟩ : m = m' ∧ x = x' := by simpa using a1
    obtain rfl : S = S' := by simpa using a2
    refine ⟨u', val, a3, a4, ?_⟩
    have hc : CoveredBy 1 cornerMesh 1 [1, 1] := ⟨2, [2, 2], by omega, hfine 2 2 (by omega) (by omega) (by omega) (by omega), anc_pair.2 ⟨2, 2, rfl, by norm_num, by norm_num⟩⟩
    have hm : m.all.Mem 1 1 [1, 1] := (hall _ _).2 (MRBase.all (.inl ⟨[1, 0], (cornerMesh_mem _ _).2 (.inl ⟨rfl, 1, 0, by omega, by omega, by omega, by omega, by omega, rfl⟩),
      .cons (by norm_num) (.cons (by norm_num) .nil)⟩))
    have := (a6 1 [1, 1] hm (by omega) hc).1
    simp only [MeanOfChildren, childrenOf] at this
    norm_num at this
    rw [this]
    ring
  · intro hu
    obtain ⟨u1', u2', t1, t2, t3⟩ := C77_leaves_determine (n := 1) (by omega) ⟨1, 1⟩ rfl rfl cornerMesh squareDomain 1 2 0 _ g
      (cornerDomain_good 3 (by omega)) (by omega) cornerDomain_box rfl (by omega) hB (1 : Rat) [⟨.dirichlet 1, value, R⟩] hbc hcov m x q1 S s1 u1 u2 hu
    have hm : m.all.Mem 1 2 [2, 1] := (hall _ _).2 (MRBase.all (.inl ⟨[2, 2], hfine 2 2 (by omega) (by omega) (by omega) (by omega),
      .cons (by norm_num) (.cons (by norm_num) .nil)⟩))
    obtain ⟨i, hi⟩ := CA.exists_number q2.wf.2.2.2 hm
    refine ⟨u1', u2', t1, t2, i, hi, t3 2 [2, 1] i hi (by omega) ⟨[2, 1], ?_, near_refl _ _⟩⟩
    simp [InBox, Box.refined]

/-! ### dimension 3 -/

/-- A bar of 4 x 2 x 2 cells of level 1, one of them, at the middle of the bar, refined. -/
def barCalls : List (Nat × CellCall) :=
  [(1, .interval [0, 0] (.mk' 0 4)), (1, .interval [0, 1] (.mk' 0 1)), (1, .interval [0, 1] (.mk' 2 4)), (1, .interval [1, 0] (.mk' 0 4)),
   (1, .interval [1, 1] (.mk' 0 4)), (2, .interval [0, 2] (.mk' 2 4)), (2, .interval [0, 3] (.mk' 2 4)), (2, .interval [1, 2] (.mk' 2 4)),
   (2, .interval [1, 3] (.mk' 2 4))]

def barMesh : CA := match runLevelCalls 2 3 barCalls with
  | some cl => CA.ofCL cl
  | none => CA.empty 2 3

theorem barMesh_spec : barMesh.maxSize = 3 ∧ barMesh.WF 2 ∧ barMesh.Leveled ∧ ∀ l p, barMesh.Mem 2 l p ↔
    (l = 1 ∧ ∃ z y x : Int, 0 ≤ z ∧ z < 2 ∧ 0 ≤ y ∧ y < 2 ∧ 0 ≤ x ∧ x < 4 ∧ ¬ (z = 0 ∧ y = 1 ∧ x = 1) ∧ p = [z, y, x]) ∨
      l = 2 ∧ ∃ z y x : Int, 0 ≤ z ∧ z < 2 ∧ 2 ≤ y ∧ y < 4 ∧ 2 ≤ x ∧ x < 4 ∧ p = [z, y, x] := by
  obtain ⟨cl, h1, h2⟩ := (hist_new 2 3).calls (k := barCalls) (by
    simp [barCalls, CellCall.idx, CellCall.Valid, Interval.mk'])
  have he : barMesh = CA.ofCL cl := by
    unfold barMesh runLevelCalls
    rw [h1]
  obtain ⟨a1, a2, a3, -, a5⟩ := h2.array
  rw [he]
  refine ⟨a1, a2, a3, fun l p => ?_⟩
  rw [a5]
  simp only [barCalls, List.mem_cons, Prod.mk.injEq, List.not_mem_nil, or_false, false_or]
  constructor
  · rintro ⟨c, hc, ha⟩
    rcases hc with ⟨rfl, rfl⟩ | ⟨rfl, rfl⟩ | ⟨rfl, rfl⟩ | ⟨rfl, rfl⟩ | ⟨rfl, rfl⟩ | ⟨rfl, rfl⟩ | ⟨rfl, rfl⟩ | ⟨rfl, rfl⟩ | ⟨rfl, rfl⟩ <;>
      obtain ⟨x, x1, x2, rfl⟩ := ha <;> simp only [Interval.mk'] at x1 x2 <;>
      first
      | exact .inl ⟨rfl, _, _, x, by omega, by omega, by omega, by omega, by omega, by omega, by omega, rfl⟩
      | exact .inr ⟨rfl, _, _, x, by omega, by omega, by omega, by omega, by omega, by omega, rfl⟩
  · rintro (⟨rfl, z, y, x, z1, z2, y1, y2, x1, x2, h, rfl⟩ | ⟨rfl, z, y, x, z1, z2, y1, y2, x1, x2, rfl⟩)
    · obtain rfl | rfl : z = 0 ∨ z = 1 := by omega
      · obtain rfl | rfl : y = 0 ∨ y = 1 := by omega
        · exact ⟨_, .inl ⟨rfl, rfl⟩, x, x1, x2, rfl⟩
        · rcases (by omega : x < 1 ∨ 2 ≤ x) with hx | hx
          · exact ⟨_, .inr (.inl ⟨rfl, rfl⟩), x, x1, hx, rfl⟩
          · exact ⟨_, .inr (.inr (.inl ⟨rfl, rfl⟩)), x, hx, x2, rfl⟩
      · obtain rfl | rfl : y = 0 ∨ y = 1 := by omega
        · exact ⟨_, .inr (.inr (.inr (.inl ⟨rfl, rfl⟩))), x, x1, x2, rfl⟩
        · exact ⟨_, .inr (.inr (.inr (.inr (.inl ⟨rfl, rfl⟩)))), x, x1, x2, rfl⟩
    · obtain rfl | rfl : z = 0 ∨ z = 1 := by omega
      · obtain rfl | rfl : y = 2 ∨ y = 3 := by omega
        · exact ⟨_, .inr (.inr (.inr (.inr (.inr (.inl ⟨rfl, rfl⟩))))), x, x1, x2, rfl⟩
        · exact ⟨_, .inr (.inr (.inr (.inr (.inr (.inr (.inl ⟨rfl, rfl⟩)))))), x, x1, x2, rfl⟩
      · obtain rfl | rfl : y = 2 ∨ y = 3 := by omega
        · exact ⟨_, .inr (.inr (.inr (.inr (.inr (.inr (.inr (.inl ⟨rfl, rfl⟩))))))), x, x1, x2, rfl⟩
        · exact ⟨_, .inr (.inr (.inr (.inr (.inr (.inr (.inr (.inr ⟨rfl, rfl⟩))))))), x, x1, x2, rfl⟩

theorem barMesh_mem (l : Nat) (p : List Int) : barMesh.Mem 2 l p ↔
    (l = 1 ∧ ∃ z y x : Int, 0 ≤ z ∧ z < 2 ∧ 0 ≤ y ∧ y < 2 ∧ 0 ≤ x ∧ x < 4 ∧ ¬ (z = 0 ∧ y = 1 ∧ x = 1) ∧ p = [z, y, x]) ∨
      l = 2 ∧ ∃ z y x : Int, 0 ≤ z ∧ z < 2 ∧ 2 ≤ y ∧ y < 4 ∧ 2 ≤ x ∧ x < 4 ∧ p = [z, y, x] := barMesh_spec.2.2.2 l p

/-- The bar: two cells of level 0. -/
def barBase : Box := ⟨fun _ => 0, fun d => if d = 0 then 2 else 1⟩

def barDomain : LCA := LCA.ofBox 2 2 (barBase.refined 2)

theorem barDomain_mem (p : List Int) : barDomain.Mem 2 p ↔ ∃ z y x : Int, 0 ≤ z ∧ z < 4 ∧ 0 ≤ y ∧ y < 4 ∧ 0 ≤ x ∧ x < 8 ∧ p = [z, y, x] := by
  rw [show barDomain.Mem 2 p ↔ InBox (barBase.refined 2) 2 p from ofBox_mem 2 p]
  constructor
  · intro h
    match p, h with
    | [z, y, x], h =>
      simp [InBox, barBase, Box.refined] at h
      exact ⟨z, y, x, by omega, by omega, by omega, by omega, by omega, by omega, rfl⟩
  · rintro ⟨z, y, x, z1, z2, y1, y2, x1, x2, rfl⟩
    simp [InBox, barBase, Box.refined, z1, z2, y1, y2, x1, x2]

theorem barDomain_wf : barDomain.WF 2 := ofBox_wf 2 fun d _ => by
  show barBase.lo d * 2 ^ 2 < barBase.hi d * 2 ^ 2
  simp only [barBase]
  split <;> norm_num

theorem barDomain_box : BoxDomain 2 barDomain 0 barBase :=
  ⟨barDomain_wf, by omega, fun d _ => by simp only [barBase]; split <;> norm_num, fun p => ofBox_mem 2 p⟩

theorem barInDomain (m : List Int) : InDomain 2 barDomain 2 m ↔ ∃ z y x : Int, 0 ≤ z ∧ z < 4 ∧ 0 ≤ y ∧ y < 4 ∧ 0 ≤ x ∧ x < 8 ∧ m = [z, y, x] := by
  unfold InDomain
  rw [show 2 - barDomain.level = 0 from rfl]
  constructor
  · rintro ⟨p, h1, h2⟩
    obtain rfl := anc_zero.1 h2
    exact (barDomain_mem _).1 h1
  · intro h
    exact ⟨m, (barDomain_mem _).2 h, anc_zero.2 rfl⟩

theorem anc_triple {a b c : Int} {m : List Int} : Anc 1 [a, b, c] m ↔ ∃ x y z : Int, m = [x, y, z] ∧ a = x / 2 ∧ b = y / 2 ∧ c = z / 2 := by
  rw [anc_iff]
  constructor
  · intro h
    match m, h with
    | [x, y, z], h =>
      simp only [List.map_cons, List.map_nil, List.cons.injEq, shr_one_eq, and_true] at h
      exact ⟨x, y, z, rfl, h⟩
  · rintro ⟨x, y, z, rfl, rfl, rfl, rfl⟩
    simp [shr_one_eq]

theorem barDomain_good (margin : Nat) (h : margin ≤ 100) : GoodDomain 2 barDomain 1 2 margin := by
  refine ⟨barDomain_wf, le_rfl, fun p m m' h1 h2 h3 => ?_, 8, by omega, by unfold INT_MAX; omega, fun m hm x hx => ?_⟩
  · rw [barInDomain] at h3 ⊢
    obtain ⟨z, y, x, z1, z2, y1, y2, x1, x2, rfl⟩ := h3
    rw [anc_iff] at h1
    simp only [List.map_cons, List.map_nil, show 2 - 1 = 1 from rfl, shr_one_eq] at h1
    subst h1
    obtain ⟨z', y', x', rfl, h5, h6, h7⟩ := anc_triple.1 h2
    exact ⟨z', y', x', by omega, by omega, by omega, by omega, by omega, by omega, rfl⟩
  · obtain ⟨z, y, x, z1, z2, y1, y2, x1, x2, rfl⟩ := (barInDomain m).1 hm
    simp only [List.mem_cons, List.not_mem_nil, or_false] at hx
    omega

theorem barLeaves_good : GoodLeaves 2 barMesh barDomain 1 2 := by
  have hb : barMesh.Between 2 1 2 := fun l p h => by rcases (barMesh_mem l p).1 h with ⟨rfl, -⟩ | ⟨rfl, -⟩ <;> omega
  refine ⟨barMesh_spec.2.1, barMesh_spec.2.2.1, by rw [barMesh_spec.1]; omega, hb, fun l p l' p' h h' hl ha => ?_, fun l p l' p' q h h' _ _ _ => ?_, fun m => ?_⟩
  · rw [barMesh_mem] at h h'
    rcases h with ⟨rfl, z, y, x, z1, z2, y1, y2, x1, x2, ho, rfl⟩ | ⟨rfl, z, y, x, z1, z2, y1, y2, x1, x2, rfl⟩ <;>
      rcases h' with ⟨rfl, c, b, a, c1, c2, b1, b2, a1, a2, ho', rfl⟩ | ⟨rfl, c, b, a, c1, c2, b1, b2, a1, a2, rfl⟩
    · exact ⟨rfl, anc_zero.1 ha⟩
    · exfalso
      obtain ⟨i, j, k, he, h3, h4, h5⟩ := anc_triple.1 ha
      simp only [List.cons.injEq, and_true] at he
      omega
    · omega
    · exact ⟨rfl, anc_zero.1 ha⟩
  · have h1 := hb _ _ h
    have h2 := hb _ _ h'
    omega
  · rw [barInDomain]
    unfold CA.Tiles
    constructor
    · rintro ⟨l, p, -, h1, h2⟩
      rcases (barMesh_mem _ _).1 h1 with ⟨rfl, z, y, x, z1, z2, y1, y2, x1, x2, ho, rfl⟩ | ⟨rfl, z, y, x, z1, z2, y1, y2, x1, x2, rfl⟩
      · obtain ⟨i, j, k, rfl, h3, h4, h5⟩ := anc_triple.1 h2
        exact ⟨i, j, k, by omega, by omega, by omega, by omega, by omega, by omega, rfl⟩
      · rw [anc_zero] at h2
        exact ⟨z, y, x, by omega, by omega, by omega, by omega, by omega, by omega, h2.symm⟩
    · rintro ⟨z, y, x, z1, z2, y1, y2, x1, x2, rfl⟩
      by_cases hf : z < 2 ∧ 2 ≤ y ∧ 2 ≤ x ∧ x < 4
      · exact ⟨2, [z, y, x], le_rfl, (barMesh_mem _ _).2 (.inr ⟨rfl, z, y, x, by omega, by omega, by omega, by omega, by omega, by omega, rfl⟩), anc_zero.2 rfl⟩
      · exact ⟨1, [z / 2, y / 2, x / 2], by omega,
          (barMesh_mem _ _).2 (.inl ⟨rfl, z / 2, y / 2, x / 2, by omega, by omega, by omega, by omega, by omega, by omega, by omega, rfl⟩),
          anc_triple.2 ⟨z, y, x, rfl, rfl, rfl, rfl⟩⟩

theorem near3 {a b c x y z : Int} : Near 1 [a, b, c] [x, y, z] ↔ (a ≤ x + 1 ∧ x ≤ a + 1) ∧ (b ≤ y + 1 ∧ y ≤ b + 1) ∧ (c ≤ z + 1 ∧ z ≤ c + 1) := by
  unfold Near
  simp only [List.forall₂_cons, List.Forall₂.nil, and_true]
  norm_num

/-- The prediction of the cell (2, 1, 0) reads the cell (1, -1, -1) of the level below. -/
theorem edge_predict {f f' : List Int → Rat} (h : ∀ q, Near 1 q [0, 0, 1] → q ≠ [-1, -1, 1] → f q = f' q) :
    predictFine 3 1 (fun q => f (ofPt 3 q)) (toPt [0, 1, 2]) - predictFine 3 1 (fun q => f' (ofPt 3 q)) (toPt [0, 1, 2]) =
      (f [-1, -1, 1] - f' [-1, -1, 1]) / 64 := by
  have hh : ∀ a b c : Int, -1 ≤ a → a ≤ 1 → -1 ≤ b → b ≤ 1 → 0 ≤ c → c ≤ 2 → (a ≠ -1 ∨ b ≠ -1 ∨ c ≠ 1) → f [a, b, c] = f' [a, b, c] := by
    intro a b c a1 a2 b1 b2 c1 c2 hn
    refine h _ (near3.2 (by omega)) fun e => ?_
    simp only [List.cons.injEq, and_true] at e
    omega
  simp [predictFine, Qs, Qs2, Qs3, qsOp, qsFrom, fieldHack, predictionCoeffs, move, parentPt, toPt, ofPt, isOdd, shr, List.range_succ]
  rw [hh (-1) (-1) 0 (by omega) (by omega) (by omega) (by omega) (by omega) (by omega) (by omega),
    hh (-1) (-1) 2 (by omega) (by omega) (by omega) (by omega) (by omega) (by omega) (by omega),
    hh (-1) (0) 0 (by omega) (by omega) (by omega) (by omega) (by omega) (by omega) (by omega),
    hh (-1) (0) 1 (by omega) (by omega) (by omega) (by omega) (by omega) (by omega) (by omega),
    hh (-1) (0) 2 (by omega) (by omega) (by omega) (by omega) (by omega) (by omega) (by omega),
    hh (-1) (1) 0 (by omega) (by omega) (by omega) (by omega) (by omega) (by omega) (by omega),
    hh (-1) (1) 1 (by omega) (by omega) (by omega) (by omega) (by omega) (by omega) (by omega),
    hh (-1) (1) 2 (by omega) (by omega) (by omega) (by omega) (by omega) (by omega) (by omega),
    hh (0) (-1) 0 (by omega) (by omega) (by omega) (by omega) (by omega) (by omega) (by omega),
    hh (0) (-1) 1 (by omega) (by omega) (by omega) (by omega) (by omega) (by omega) (by omega),
    hh (0) (-1) 2 (by omega) (by omega) (by omega) (by omega) (by omega) (by omega) (by omega),
    hh (0) (0) 0 (by omega) (by omega) (by omega) (by omega) (by omega) (by omega) (by omega),
    hh (0) (0) 1 (by omega) (by omega) (by omega) (by omega) (by omega) (by omega) (by omega),
    hh (0) (0) 2 (by omega) (by omega) (by omega) (by omega) (by omega) (by omega) (by omega),
    hh (0) (1) 0 (by omega) (by omega) (by omega) (by omega) (by omega) (by omega) (by omega),
    hh (0) (1) 1 (by omega) (by omega) (by omega) (by omega) (by omega) (by omega) (by omega),
    hh (0) (1) 2 (by omega) (by omega) (by omega) (by omega) (by omega) (by omega) (by omega),
    hh (1) (-1) 0 (by omega) (by omega) (by omega) (by omega) (by omega) (by omega) (by omega),
    hh (1) (-1) 1 (by omega) (by omega) (by omega) (by omega) (by omega) (by omega) (by omega),
    hh (1) (-1) 2 (by omega) (by omega) (by omega) (by omega) (by omega) (by omega) (by omega),
    hh (1) (0) 0 (by omega) (by omega) (by omega) (by omega) (by omega) (by omega) (by omega),
    hh (1) (0) 1 (by omega) (by omega) (by omega) (by omega) (by omega) (by omega) (by omega),
    hh (1) (0) 2 (by omega) (by omega) (by omega) (by omega) (by omega) (by omega) (by omega),
    hh (1) (1) 0 (by omega) (by omega) (by omega) (by omega) (by omega) (by omega) (by omega),
    hh (1) (1) 1 (by omega) (by omega) (by omega) (by omega) (by omega) (by omega) (by omega),
    hh (1) (1) 2 (by omega) (by omega) (by omega) (by omega) (by omega) (by omega) (by omega)]
  ring

/-- C77 is false in dimension 3: the value that `update_ghost_mr` gives to a cell inside the domain depends on the value that a ghost had before. On the bar, the
cell (2, 1, 0) of level 2 lies in the leaf (1, 0, 0) of level 1, on an edge of the domain; its prediction reads the ghost (1, -1, -1) of level 1, beyond the edge,
which no boundary condition and no extrapolation fills (C75). If the old value of the ghost is changed by `d`, the predicted value changes by `d / 64`. The boundary
conditions are arbitrary and cover the boundary. -/
theorem C77_dim3_refuted : ∃ (m : SubMeshes) (x : CA) (S : LCA) (i j : Int), mrMesh 2 ⟨1, 1⟩ barMesh 1 2 = some (m, x) ∧ constructSubdomain 2 barMesh 2 = some S ∧
    (1, [-1, -1, 1], i) ∈ m.all.numbered 2 ∧ (2, [0, 1, 2], j) ∈ m.all.numbered 2 ∧ InBox (barBase.refined 2) 2 [0, 1, 2] ∧
    ∀ (bcs : List (BcCond Rat)), (∀ c ∈ bcs, GoodBc 2 barDomain 1 c) → CoversBoundary 2 barDomain bcs → ∀ u1 u2 : Int → Rat, (∀ k, k ≠ i → u1 k = u2 k) →
      ∃ u1' u2', updateGhostMr 2 ⟨⟨m.cells, m.all, barDomain, 1, 2, fun _ => false, 1, ⟨1, 1⟩⟩, m.proj, S⟩ bcs u1 = some u1' ∧
        updateGhostMr 2 ⟨⟨m.cells, m.all, barDomain, 1, 2, fun _ => false, 1, ⟨1, 1⟩⟩, m.proj, S⟩ bcs u2 = some u2' ∧ u1' j - u2' j = (u1 i - u2 i) / 64 := by
  have g := barLeaves_good
  have gd := barDomain_good 3 (by omega)
  obtain ⟨D0, D1, D2, D3⟩ := gd.range
  obtain ⟨m, x, q1, q2⟩ := mrMesh_spec (cells := barMesh) (cfg := ⟨1, 1⟩) (n := 2) (minL := 1) (maxL := 2)
    ⟨g.wf, g.leveled, g.between, g.size, D0, D1, D2, g.below D3⟩
  obtain ⟨S, s1, -⟩ := constructSubdomain_spec g.wf g.between
  obtain ⟨m0, c1, c2, c3, c4, c5⟩ := q2.content
  have hall : ∀ l p, m.all.Mem 2 l p ↔ MRAll 2 ⟨1, 1⟩ barMesh 1 l p := fun l p => by rw [c5, c1.all (by omega)]
  have hproj : ∀ l p, m.proj.Mem 2 l p ↔ MRAll 2 ⟨1, 1⟩ barMesh 1 l p ∧ 1 ≤ l + 1 ∧ CoveredBy 2 barMesh l p := fun l p => by rw [c4, c1.proj (by omega)]
  have hcoarse : ∀ z y x : Int, 0 ≤ z → z < 2 → 0 ≤ y → y < 2 → 0 ≤ x → x < 4 → ¬ (z = 0 ∧ y = 1 ∧ x = 1) → barMesh.Mem 2 1 [z, y, x] :=
    fun z y x z1 z2 y1 y2 x1 x2 h => (barMesh_mem _ _).2 (.inl ⟨rfl, z, y, x, z1, z2, y1, y2, x1, x2, h, rfl⟩)
  have hB0 : (0 : Int) ≤ 8 := by omega
  have hB1 : (8 : Int) + 11 * 2 ^ barDomain.level + 2 < INT_MAX := by decide
  have hB2 : ∀ d ≤ 2, barBase.hi d * 2 ^ (barDomain.level - 0) ≤ 8 := fun d _ => by
    show barBase.hi d * 2 ^ 2 ≤ 8
    simp only [barBase]
    split <;> norm_num
  have gr := ghostReady_adapted (K := Rat) (cfg := ⟨1, 1⟩) rfl rfl g gd (by omega) barDomain_box rfl (by omega) hB0 hB1 hB2 1 q1 s1
  have hwf : m.all.WF 2 := gr.refWF
  have hleaf := hcoarse 0 0 1 (by omega) (by omega) (by omega) (by omega) (by omega) (by omega) (by omega)
  have hnear : ∀ q, Near 1 q [0, 0, 1] → m.all.Mem 2 1 q := fun q hq => (hall _ _).2 (MRBase.all (.inl ⟨_, hleaf, hq⟩))
  have hi := numOf_numbered hwf (hnear [-1, -1, 1] (near3.2 (by omega)))
  have hj : m.all.Mem 2 2 [0, 1, 2] := (hall _ _).2 (MRBase.all (.inl ⟨[0, 2, 2],
    (barMesh_mem _ _).2 (.inr ⟨rfl, 0, 2, 2, by omega, by omega, by omega, by omega, by omega, by omega, rfl⟩), near3.2 (by omega)⟩))
  refine ⟨m, x, S, _, _, q1, s1, hi, numOf_numbered hwf hj, by simp [InBox, barBase, Box.refined], fun bcs hbc hcov u1 u2 hu => ?_⟩
  have hB : ∃ B : Int, 0 ≤ B ∧ B + 11 * 2 ^ barDomain.level + 2 < INT_MAX ∧ ∀ d ≤ 2, barBase.hi d * 2 ^ (barDomain.level - 0) ≤ B := ⟨8, hB0, hB1, hB2⟩
  obtain ⟨m1, x1, S1, u1', v1, a1, a2, a3, a4, a5, a6, a7, a8, a9⟩ := C76_update_ghosts (n := 2) (by omega) ⟨1, 1⟩ rfl rfl barMesh barDomain 1 2 0 _ g
    gd (by omega) barDomain_box rfl (by omega) hB (1 : Rat) bcs hbc u1
  obtain ⟨m2, x2, S2, u2', v2, b1, b2, b3, b4, b5, b6, b7, -, b9⟩ := C76_update_ghosts (n := 2) (by omega) ⟨1, 1⟩ rfl rfl barMesh barDomain 1 2 0 _ g
    gd (by omega) barDomain_box rfl (by omega) hB (1 : Rat) bcs hbc u2
  rw [q1] at a1 b1
  rw [s1] at a2 b2
  obtain ⟨rfl, rfl⟩ : m = m1 ∧ x = x1 := by simpa using a1
  obtain ⟨rfl, rfl⟩ : m = m2 ∧ x = x2 := by simpa using b1
  obtain rfl : S = S1 := by simpa using a2
  obtain rfl : S = S2 := by simpa using b2
  -- the ghosts beyond the edge keep their values
  have keep : ∀ (c : Int) (u u' : Int → Rat), 0 ≤ c → c ≤ 2 → updateGhostMr 2 ⟨⟨m.cells, m.all, barDomain, 1, 2, fun _ => false, 1, ⟨1, 1⟩⟩, m.proj, S⟩ bcs u = some u' →
      u' (numOf 2 m.all 1 [-1, -1, c]) = u (numOf 2 m.all 1 [-1, -1, c]) := by
    intro c u u' h1 h2 hu
    obtain ⟨u'', e1, e2, -⟩ := updateGhostMr_spec gr (bcs := bcs) hbc u
    obtain rfl : u' = u'' := by
      have := hu.symm.trans e1
      simpa using this
    have hbox : ¬ InBox (barBase.refined (1 - 0)) 2 [-1, -1, c] := by simp [InBox, barBase, Box.refined]
    refine e2.at gr.refWF gr.numbers (hnear _ (near3.2 (by omega))) ?_
    rintro (h | ⟨h, h'⟩ | ⟨p, v, k, ho, hline, hk, -, he⟩)
    · exact hbox (gr.projIn _ _ h)
    · exact hbox (gr.predIn _ _ h h')
    · have hp := (inBox_iff.1 ho.1).2
      have k0 := ho.coord (i := k) (by omega) (d := 0) (by omega)
      have k1 := ho.coord (i := k) (by omega) (d := 1) (by omega)
      have k2 := ho.coord (i := k) (by omega) (d := 2) (by omega)
      have p0 := hp 0 (by omega)
      have p1 := hp 1 (by omega)
      have p2 := hp 2 (by omega)
      rw [← he] at k0 k1 k2
      simp [toPt, barBase, Box.refined] at k0 k1 k2 p0 p1 p2
      have v0 : v 0 = 0 := by omega
      have v1 : v 1 ≠ 0 := by omega
      have v2 : v 2 ≠ 0 := by omega
      rcases hline with ⟨d, d1, d2, d3⟩ | ⟨_, h0, _⟩
      · by_cases hd : d = 1
        · exact v2 (d3 2 (by omega) (by omega))
        · exact v1 (d3 1 (by omega) (by omega))
      · exact h0 v0
  refine ⟨u1', u2', a3, b3, ?_⟩
  have hleafEq : ∀ l p, m.all.Mem 2 l p → barMesh.Mem 2 l p → v1 l p = v2 l p := fun l p hp hc => by
    have hn := numOf_numbered hwf hp
    rw [a4.at hwf hp, b4.at hwf hp, a5 l p _ hc hn, b5 l p _ hc hn]
    refine hu _ fun he => ?_
    obtain ⟨rfl, rfl⟩ := numOf_level gr.refWF gr.numbers hp (hnear [-1, -1, 1] (near3.2 (by omega))) he
    rcases (barMesh_mem _ _).1 hc with ⟨_, z, y, x, z1, _, _, _, _, _, _, h⟩ | ⟨h, _⟩
    · simp only [List.cons.injEq, and_true] at h; omega
    · omega
  have inner := inner_determined (n := 2) (cells := barMesh) (minL := 1) (maxL := 2) (m := m) (val := v1) (val' := v2)
    (fun l p h => (g.between l p h).2) (fun l p q hp hl hc hq => by
      rcases gr.projChild l p q ((hproj l p).2 ⟨(hall _ _).1 hp, hl, hc⟩) (mem_childrenOf.1 hq).symm with h | h
      · exact .inl ((c2 _ _).1 h)
      · exact .inr ((hproj _ _).1 h).2.2) hleafEq a6 (fun l p hp hl hc => (b6 l p hp hl hc).1)
  have inside : ∀ p, InBox (barBase.refined (1 - 0)) 2 p → m.all.Mem 2 1 p → v1 1 p = v2 1 p := by
    intro p hin hp
    rcases a8 1 p hp hin with h | h | ⟨l0, c, e1, e2, _⟩
    · exact inner _ 1 p le_rfl hp (by omega) (.inl h)
    · exact inner _ 1 p le_rfl hp (by omega) (.inr h)
    · have := (g.between l0 c e2).1
      omega
  have hstencil : ∀ q, Near 1 q [0, 0, 1] → q ≠ [-1, -1, 1] → v1 1 q = v2 1 q := by
    intro q hq hne
    have hqm := hnear q hq
    have hlv := gr.levels hqm
    match q, mem_length hqm.2 with
    | [a, b, c], _ =>
      have hq' := near3.1 hq
      by_cases hin : InBox (barBase.refined (1 - 0)) 2 [a, b, c]
      · exact inside _ hin hqm
      · obtain ⟨p, v, ho, he⟩ := layer_outward (p := [0, 0, 1]) (by simp [InBox, barBase, Box.refined]) hq hin
        have k0 := ho.coord (i := 1) (by omega) (d := 0) (by omega)
        have k1 := ho.coord (i := 1) (by omega) (d := 1) (by omega)
        have k2 := ho.coord (i := 1) (by omega) (d := 2) (by omega)
        have hp := (inBox_iff.1 ho.1).2
        have p0 := hp 0 (by omega)
        have p1 := hp 1 (by omega)
        have p2 := hp 2 (by omega)
        rw [← he] at k0 k1 k2
        simp [toPt, barBase, Box.refined] at k0 k1 k2 p0 p1 p2
        by_cases hax : OneAxis 2 v
        · have hm := hqm
          rw [he] at hm ⊢
          exact axis_determined gr (by show (1 : Nat) ≠ 2; omega) hbc (fun _ => rfl) hcov (by omega) hlv.2 (a9 1 _ hm) (b9 1 _ hm) inside ho hax hm
        · have hab : a = -1 ∧ b = -1 := by
            have v0 : v 0 = 0 := by omega
            by_contra hc
            obtain ⟨-, k, hk, hk'⟩ := ho.2.1
            by_cases h1 : v 1 = 0
            · refine hax ⟨2, le_rfl, fun h2 => ?_, fun j hj hj2 => ?_⟩
              · rcases (by omega : k = 0 ∨ k = 1 ∨ k = 2) with rfl | rfl | rfl <;> exact hk' (by assumption)
              · rcases (by omega : j = 0 ∨ j = 1) with rfl | rfl <;> assumption
            · refine hax ⟨1, by omega, h1, fun j hj hj1 => ?_⟩
              rcases (by omega : j = 0 ∨ j = 2) with rfl | rfl
              · exact v0
              · by_contra h2
                omega
          obtain ⟨rfl, rfl⟩ := hab
          rw [a4.at hwf hqm, b4.at hwf hqm, keep c u1 u1' (by omega) (by omega) a3, keep c u2 u2' (by omega) (by omega) b3]
          refine hu _ fun h => hne ?_
          exact (numOf_level gr.refWF gr.numbers hqm (hnear [-1, -1, 1] (near3.2 (by omega))) h).2
  have hpre : ∃ l0 c, l0 < 2 ∧ barMesh.Mem 2 l0 c ∧ Anc (2 - l0) c [0, 1, 2] := ⟨1, [0, 0, 1], by omega, hleaf, anc_triple.2 ⟨0, 1, 2, rfl, by norm_num, by norm_num, by norm_num⟩⟩
  have t1 : v1 2 [0, 1, 2] = _ := (a7 2 _ hj hpre).1
  have t2 : v2 2 [0, 1, 2] = _ := (b7 2 _ hj hpre).1
  have hi' := hnear [-1, -1, 1] (near3.2 (by omega))
  rw [← a4.at hwf hj, ← b4.at hwf hj, t1, t2, ← keep 1 u1 u1' (by omega) (by omega) a3, ← keep 1 u2 u2' (by omega) (by omega) b3,
    ← a4.at hwf hi', ← b4.at hwf hi']
  exact edge_predict hstencil

/-- The hypotheses of C77_dim3_refuted are met by `Dirichlet<1>` on the whole boundary. -/
example (value : (Nat → Int) → MCell → Rat) : ∃ R, everywhereRegion 2 barDomain = some R ∧ GoodBc 2 barDomain 1 ⟨.dirichlet 1, value, R⟩ ∧
    CoversBoundary 2 barDomain [⟨.dirichlet 1, value, R⟩] := by
  obtain ⟨R, r1, r2⟩ := everywhere_covers (n := 2) le_rfl barDomain_wf ⟨8, by omega, by decide, fun p hp x hx => by
    obtain ⟨z, y, t, _, _, _, _, _, _, rfl⟩ := (barDomain_mem p).1 hp
    simp only [Nat.sub_self, pow_zero, mul_one]
    simp only [List.mem_cons, List.not_mem_nil, or_false] at hx
    omega⟩
  exact ⟨R, r1, r2 (.dirichlet 1) value 1 ⟨by omega, by omega⟩ (by simp [BcKind.ghosts, BcKind.stencilSize])⟩

end Samurai

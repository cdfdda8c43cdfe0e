/-
Boundary conditions: meshes and conditions that meet the hypotheses of C71-C75, and the ghosts that never get a value.
-/
import Verif.Props.Bc

namespace Samurai

/-- The square of 4 x 4 cells. -/
def squareBox : Box := ⟨fun _ => 0, fun _ => 4⟩

/-- The calls that fill the uniform mesh of level 2 on the square. -/
def squareCalls : List (Nat × CellCall) :=
  [(2, .interval [0] (.mk' 0 4)), (2, .interval [1] (.mk' 0 4)), (2, .interval [2] (.mk' 0 4)), (2, .interval [3] (.mk' 0 4))]

/-- The uniform mesh of level 2 on the square. -/
def squareMesh : CA := match runLevelCalls 1 3 squareCalls with
  | some cl => CA.ofCL cl
  | none => CA.empty 1 3

theorem squareMesh_spec : squareMesh.Proper 1 2 2 5 ∧ ∀ l p, squareMesh.Mem 1 l p ↔ l = 2 ∧ InBox squareBox 1 p := by
  obtain ⟨cl, h1, h2⟩ := (hist_new 1 3).calls (k := squareCalls) (by
    simp [squareCalls, CellCall.idx, CellCall.Valid, Interval.mk'])
  have he : squareMesh = CA.ofCL cl := by
    unfold squareMesh runLevelCalls
    rw [h1]
  obtain ⟨a1, a2, a3, -, a5⟩ := h2.array
  have hm : ∀ l p, squareMesh.Mem 1 l p ↔ l = 2 ∧ InBox squareBox 1 p := by
    intro l p
    rw [he, a5]
    simp only [squareCalls, List.mem_cons, Prod.mk.injEq, List.not_mem_nil, or_false, false_or]
    constructor
    · rintro ⟨c, hc, ha⟩
      rcases hc with ⟨rfl, rfl⟩ | ⟨rfl, rfl⟩ | ⟨rfl, rfl⟩ | ⟨rfl, rfl⟩ <;>
        · obtain ⟨y, y1, y2, rfl⟩ := ha
          simp only [Interval.mk'] at y1 y2
          simp [InBox, squareBox, y1, y2]
    · rintro ⟨rfl, h⟩
      match p, h with
      | [y, x], h =>
        simp only [InBox, squareBox] at h
        obtain ⟨⟨y1, y2⟩, x1, x2⟩ := h
        rcases (by omega : y = 0 ∨ y = 1 ∨ y = 2 ∨ y = 3) with rfl | rfl | rfl | rfl
        · exact ⟨_, .inl ⟨rfl, rfl⟩, x, x1, x2, rfl⟩
        · exact ⟨_, .inr (.inl ⟨rfl, rfl⟩), x, x1, x2, rfl⟩
        · exact ⟨_, .inr (.inr (.inl ⟨rfl, rfl⟩)), x, x1, x2, rfl⟩
        · exact ⟨_, .inr (.inr (.inr ⟨rfl, rfl⟩)), x, x1, x2, rfl⟩
  refine ⟨⟨by rw [he]; exact a2, by rw [he]; exact a3, fun l p hp => by have := ((hm l p).1 hp).1; omega, by rw [he, a1]; omega, 4, by omega, by decide,
    fun l p hp x hx => ?_⟩, hm⟩
  obtain ⟨rfl, h⟩ := (hm l p).1 hp
  obtain ⟨d, _, _, h⟩ := inBox_coord h x hx
  simpa [squareBox] using h

/-- The domain of the example: the square. -/
def squareDomain : LCA := LCA.ofBox 1 2 squareBox

theorem squareDomain_box : BoxDomain 1 squareDomain 2 squareBox :=
  ⟨ofBox_wf 2 fun _ _ => by simp [squareBox], le_rfl, fun _ _ => by simp [squareBox], fun p => by
    rw [show squareBox.refined (squareDomain.level - 2) = squareBox by
      show squareBox.refined 0 = squareBox
      simp [Box.refined, squareBox]]
    exact ofBox_mem 2 p⟩

/-- The mesh of the example, with two ghosts. -/
theorem squareReady : ∃ m u, mrMesh 1 ⟨2, 2⟩ squareMesh 2 2 = some (m, u) ∧
    (∀ p, m.all.Mem 1 2 p ↔ ∃ q, InBox squareBox 1 q ∧ Near 2 p q) ∧
    BcReady 1 (⟨m.cells, m.all, squareDomain, 2, 2, fun _ => false, (1 : Rat), ⟨2, 2⟩⟩ : BcMesh Rat) 2 squareBox 2 := by
  obtain ⟨m, u, r1, r2⟩ := mrMesh_spec (cfg := ⟨2, 2⟩) squareMesh_spec.1
  obtain ⟨m0, c1, c2, c3, c4, c5⟩ := r2.content
  refine ⟨m, u, r1, fun p => ?_, bcReady_uniform (cfg := ⟨2, 2⟩) (B := 4) squareMesh_spec.1 (fun p => ?_) squareDomain_box rfl r1 (by omega)
    (by decide) (fun _ _ => le_rfl) _ _⟩
  · rw [c5, (c1.flat rfl).1, c1.ghosts]
    simp only [squareMesh_spec.2, true_and]
  · rw [squareMesh_spec.2]; simp

/-- The region of a condition on the whole boundary of the example. -/
theorem squareRegion : ∃ R, everywhereRegion 1 squareDomain = some R ∧ (∀ (kd : BcKind) (val : (Nat → Int) → MCell → Rat), kd.Exists → kd.ghosts ≤ 2 →
      GoodBc 1 squareDomain 2 ⟨kd, val, R⟩) ∧
    (∀ d ∈ R, OneAxis 1 d.1 → ∀ p, d.2.Mem 1 p ↔ squareDomain.Mem 1 p ∧ ¬ squareDomain.Mem 1 (shiftPoint d.1 1 p)) ∧
    ∀ v, UnitVector 1 v → OneAxis 1 v → ∃ d ∈ R, ∀ k ≤ 1, d.1 k = v k := by
  obtain ⟨_, R, r1, r2, r3⟩ := C72_directions 1 (by omega) squareDomain squareDomain_box.wf ⟨4, by omega, by decide, fun p hp x hx => by
    rw [squareDomain_box.mem] at hp
    obtain ⟨d, _, _, h⟩ := inBox_coord hp x hx
    simpa [squareBox, Box.refined, squareDomain, LCA.ofBox, boxLoop] using h⟩
  exact ⟨R, r1, fun kd val h1 h2 => ⟨h1, h2, fun d hd _ hax => (r2 d hd hax).1⟩, fun d hd hax => (r2 d hd hax).2, r3⟩

/-- The west direction. -/
def west : Nat → Int := fun k => if k = 0 then -1 else 0

theorem west_unit : UnitVector 1 west ∧ OneAxis 1 west := by
  refine ⟨⟨fun d hd => ?_, 0, by omega, by decide⟩, 0, by omega, by decide, fun k _ hk => by simp [west, hk]⟩
  rcases (by omega : d = 0 ∨ d = 1) with rfl | rfl <;> decide

/-- The hypotheses of C71, C73, C74, C75 for the square, with `Dirichlet<2>` on the west side: the condition imposes the two ghosts of each of the
four rows, and it is the only one. -/
theorem squareWest (value : (Nat → Int) → MCell → Rat) : ∃ m u L, mrMesh 1 ⟨2, 2⟩ squareMesh 2 2 = some (m, u) ∧
    onDirectionRegion 1 squareDomain [west] = some [(west, L)] ∧ GoodBc 1 squareDomain 2 (⟨.dirichlet 2, value, [(west, L)]⟩ : BcCond Rat) ∧
    BcReady 1 (⟨m.cells, m.all, squareDomain, 2, 2, fun _ => false, (1 : Rat), ⟨2, 2⟩⟩ : BcMesh Rat) 2 squareBox 2 ∧
    (∀ p, m.all.Mem 1 2 p ↔ ∃ q, InBox squareBox 1 q ∧ Near 2 p q) ∧
    ∀ y : Int, 0 ≤ y → y < 4 → ∀ i, 1 ≤ i → i ≤ 2 →
      Imposes 1 (⟨m.cells, m.all, squareDomain, 2, 2, fun _ => false, (1 : Rat), ⟨2, 2⟩⟩ : BcMesh Rat) 2 ⟨.dirichlet 2, value, [(west, L)]⟩ (west, L) [y, 0] i := by
  obtain ⟨m, u, r1, r2, r3⟩ := squareReady
  obtain ⟨h, _⟩ := C72_directions 1 (by omega) squareDomain squareDomain_box.wf ⟨4, by omega, by decide, fun p hp x hx => by
    rw [squareDomain_box.mem] at hp
    obtain ⟨d, _, _, h⟩ := inBox_coord hp x hx
    simpa [squareBox, Box.refined, squareDomain, LCA.ofBox, boxLoop] using h⟩
  obtain ⟨R, e1, e2, e3⟩ := h [west] fun v hv => by
    rw [List.mem_singleton] at hv
    subst hv
    exact west_unit.1
  obtain ⟨L, rfl⟩ : ∃ L, R = [(west, L)] := by
    match R, e2 with
    | [(v, L)], e2 =>
      simp only [List.map_cons, List.map_nil, List.cons.injEq, and_true] at e2
      exact ⟨L, by rw [e2]⟩
  obtain ⟨l1, l2, l3⟩ := e3 (west, L) (by simp)
  have hdom : ∀ p, squareDomain.Mem 1 p ↔ InBox squareBox 1 p := fun p => ofBox_mem 2 p
  have hcells : ∀ p, m.cells.Mem 1 2 p ↔ InBox squareBox 1 p := by
    intro p
    obtain ⟨m', u', q1, q2⟩ := mrMesh_spec (cfg := ⟨2, 2⟩) squareMesh_spec.1
    rw [r1] at q1
    obtain ⟨rfl, rfl⟩ : m = m' ∧ u = u' := by simpa using q1
    obtain ⟨m0, c1, c2, _⟩ := q2.content
    rw [c2, squareMesh_spec.2]; simp
  refine ⟨m, u, L, r1, e1, ⟨⟨by omega, by omega⟩, by simp [BcKind.ghosts, BcKind.stencilSize], fun d hd _ hax => ?_⟩, r3, r2, fun y y1 y2 i i1 i2 => ?_⟩
  · rw [List.mem_singleton] at hd
    subst hd
    exact ⟨l1, l2, fun q hq => (l3 hax q).1 hq⟩
  · refine ⟨west_unit.1, west_unit.2, fun _ _ _ => rfl, ⟨[y, 0], (l3 west_unit.2 _).2 ⟨?_, ?_⟩, ?_⟩, .inl ?_, i1, by simpa [BcKind.ghosts, BcKind.stencilSize] using i2⟩
    · rw [hdom]; simp [InBox, squareBox, y1, y2]
    · rw [hdom]; simp [InBox, squareBox, shiftPoint, west]
    · rw [l2]
      exact anc_zero.2 rfl
    · rw [hcells]; simp [InBox, squareBox, y1, y2]

/-- C71 on the example, with the formula: the two ghosts of each row on the west side of the square. -/
example (u : Int → Rat) : ∃ m x L u' val, mrMesh 1 ⟨2, 2⟩ squareMesh 2 2 = some (m, x) ∧ onDirectionRegion 1 squareDomain [west] = some [(west, L)] ∧
    updateBc 1 ⟨m.cells, m.all, squareDomain, 2, 2, fun _ => false, 1, ⟨2, 2⟩⟩ [⟨.dirichlet 2, fun _ _ => 5, [(west, L)]⟩] 2 u = some u' ∧
    FieldIs 1 m.all u' val ∧ ∀ y : Int, 0 ≤ y → y < 4 → ∀ i : Nat, 1 ≤ i → i ≤ 2 → ∃ P : Polynomial Rat, P.natDegree ≤ 2 ∧
      val 2 [y, 0] = P.eval 0 ∧ val 2 [y, 1] = P.eval (-1) ∧ P.eval (1 / 2) = 5 ∧ val 2 [y, - (i : Int)] = P.eval (i : Rat) := by
  obtain ⟨m, x, L, r1, r2, r3, r4, r5, r6⟩ := squareWest fun _ _ => 5
  obtain ⟨u', val, a1, a2, a3⟩ := C71_imposed r4 [⟨.dirichlet 2, fun _ _ => 5, [(west, L)]⟩] (by simpa using r3) u
  refine ⟨m, x, L, u', val, r1, r2, a1, a2, fun y y1 y2 i i1 i2 => ?_⟩
  have hmem : m.all.Mem 1 2 [y, 0] := (r5 _).2 ⟨[y, 0], by simp [InBox, squareBox, y1, y2], near_refl _ _⟩
  obtain ⟨P, p1, p2, p3, p4⟩ := a3 [] _ _ [] rfl [y, 0] i (mcell 1 m.all 2 [y, 0]) (r6 y y1 y2 i i1 i2)
    ⟨rfl, rfl, numOf_numbered r4.refWF hmem⟩ (fun d hd hne => by simp [squareBox, BcKind.ghosts, BcKind.stencilSize]) (by simp)
  refine ⟨P, p1, ?_, ?_, p3, ?_⟩
  · simpa [walk, shiftPoint, west] using p2 0 (by omega)
  · simpa [walk, shiftPoint, west] using p2 1 (by omega)
  · simpa [walk, shiftPoint, west] using p4

/-- C73 and C74 on the example: the hypotheses are met, at the corner of the square and two cells from the east side. -/
example : Outward 1 squareBox [0, 0] (fun _ => -1) ∧ Near 2 (walk 1 [0, 0] 2 fun _ => -1) [0, 0] ∧
    Outward 1 squareBox [1, 3] (fun k => if k = 0 then 1 else 0) ∧ Near 2 (walk 1 [1, 3] 2 fun k => if k = 0 then 1 else 0) [1, 3] := by
  refine ⟨⟨by simp [InBox, squareBox], ⟨fun _ _ => .inl rfl, 0, by omega, by decide⟩, fun d hd _ => ?_⟩, ?_,
    ⟨by simp [InBox, squareBox], ⟨fun d _ => by by_cases h : d = 0 <;> simp [h], 0, by omega, by simp⟩, fun d hd hne => ?_⟩, ?_⟩
  · rcases (by omega : d = 0 ∨ d = 1) with rfl | rfl <;> simp [toPt, squareBox]
  · exact .cons (by simp) (.cons (by simp) .nil)
  · rcases (by omega : d = 0 ∨ d = 1) with rfl | rfl
    · simp [toPt, squareBox]
    · simp at hne
  · exact .cons (by simp) (.cons (by simp) .nil)

/-- C75: not all the ghosts of the reference mesh get a value. On the square with two ghosts, the ghost one cell below and two cells left of the corner
is in the reference mesh (a stencil of width 2 with diagonal cells reads it), and keeps the value it had, whatever the boundary conditions. -/
theorem C75_all_ghosts_refuted : ∃ (m : SubMeshes) (u : CA) (i : Int), mrMesh 1 ⟨2, 2⟩ squareMesh 2 2 = some (m, u) ∧
    (2, [-1, -2], i) ∈ m.all.numbered 1 ∧ ∀ (bcs : List (BcCond Rat)), (∀ c ∈ bcs, GoodBc 1 squareDomain 2 c) → ∀ v : Int → Rat,
      ∃ v', updateBc 1 ⟨m.cells, m.all, squareDomain, 2, 2, fun _ => false, 1, ⟨2, 2⟩⟩ bcs 2 v = some v' ∧ v' i = v i := by
  obtain ⟨m, u, r1, r2, r3⟩ := squareReady
  have hmem : m.all.Mem 1 2 [-1, -2] := (r2 _).2 ⟨[0, 0], by simp [InBox, squareBox], .cons (by simp) (.cons (by simp) .nil)⟩
  refine ⟨m, u, _, r1, numOf_numbered r3.refWF hmem, fun bcs hbc v => ?_⟩
  obtain ⟨v', a1, a2⟩ := C75_untouched r3 bcs hbc v
  refine ⟨v', a1, a2 [-1, -2] _ (numOf_numbered r3.refWF hmem) fun p w k ho k1 he => ?_⟩
  exfalso
  have hp := (inBox_iff.1 ho.1).2
  have h0 := ho.coord (i := k) (by omega) (d := 0) (by omega)
  have h1 := ho.coord (i := k) (by omega) (d := 1) (by omega)
  rw [← he] at h0 h1
  have b0 := hp 0 (by omega)
  have b1 := hp 1 (by omega)
  simp [toPt, squareBox] at h0 h1 b0 b1
  omega

end Samurai

/-
Boundary conditions on adapted meshes.
-/
import Verif.Lemmas.BcAdapted
import Verif.Props.AdaptWidth

namespace Samurai

section
variable {K : Type} [Field K] [CharZero K]

/-- C71, C73 and C74 for adapted multiresolution meshes, directly from the mesh: leaves that tile the domain and are graded, `prediction_order` 1 (the
default), a domain that is a box of cells of the level. With one ghost (the default), any level up to `max_level`; with two, a level of
`[min_level, max_level]` at which the domain has at least two cells in each direction. `update_bc` succeeds; the ghosts have the values of the conditions, or the extrapolated ones; nothing else changes. -/
theorem C71_adapted (n : Nat) (cfg : MeshConfig) (hs : cfg.predictionOrder = 1) (hw : cfg.maxStencilWidth ≤ 2) (cells : CA) (dom : LCA)
    (minL maxL level : Nat) (b : Box) (g : GoodLeaves n cells dom minL maxL) (hgd : GoodDomain n dom minL maxL (cfg.maxStencilWidth + cfg.predictionOrder + 1))
    (hne : minL ≠ maxL) (hd : BoxDomain n dom level b) (hmax : level ≤ maxL)
    (hcond : cfg.maxStencilWidth ≤ 1 ∨ 1 ≤ level ∧ minL ≤ level ∧ ∀ d ≤ n, b.lo d + 2 ≤ b.hi d)
    (hB : ∃ B : Int, 0 ≤ B ∧ B + 11 * 2 ^ dom.level + 2 < INT_MAX ∧ ∀ d ≤ n, b.hi d * 2 ^ (dom.level - level) ≤ B)
    (periodic : Nat → Bool) (h0 : K) (bcs : List (BcCond K)) (hbc : ∀ c ∈ bcs, GoodBc n dom cfg.maxStencilWidth c) (u : Int → K) :
    ∃ m x u' val, mrMesh n cfg cells minL maxL = some (m, x) ∧
      updateBc n ⟨m.cells, m.all, dom, minL, maxL, periodic, h0, cfg⟩ bcs level u = some u' ∧ FieldIs n m.all u' val ∧
      (∀ l1 c d l2, bcEntries bcs = l1 ++ (c, d) :: l2 → ∀ p i q, Imposes n ⟨m.cells, m.all, dom, minL, maxL, periodic, h0, cfg⟩ level c d p i →
        CellIs n m.all level p q → WideFor n b c.kind.ghosts d.1 →
        (∀ y ∈ l2, ¬ ImposesGhost n ⟨m.cells, m.all, dom, minL, maxL, periodic, h0, cfg⟩ level y (walk n p i d.1)) →
        c.kind.Satisfied h0 level (fun j => val level (walk n p j d.1)) i (c.value d.1 q)) ∧
      (∀ p v (k : Nat), Outward n b p v → (∀ d ≤ n, v d ≠ 0 → periodic d = false) → m.all.Mem n level (walk n p k v) →
        1 ≤ k → k ≤ 3 → k ≤ cfg.ghostWidth → (OneAxis n v ∧ ∀ c ∈ bcs, c.kind.ghosts < k) ∨ (n = 1 ∧ v 0 ≠ 0 ∧ v 1 ≠ 0) →
        Extrapolated (fun j => val level (walk n p j v)) k) ∧
      (∀ i, (∀ p, (level, p, i) ∈ m.all.numbered n → InBox b n p) → u' i = u i) := by
  obtain ⟨B, hB0, hB1, hB2⟩ := hB
  obtain ⟨D0, D1, D2, D3⟩ := hgd.range
  obtain ⟨m, x, r1, _⟩ := mrMesh_spec (cells := cells) (cfg := cfg) (n := n) (minL := minL) (maxL := maxL)
    ⟨g.wf, g.leveled, g.between, g.size, D0, D1, D2, g.below D3⟩
  have hr := bcReady_adapted hs hw g hgd hne hd hmax hcond hB0 hB1 hB2 periodic h0 r1
  obtain ⟨u1, val, a1, a2, a3⟩ := C71_imposed hr bcs hbc u
  obtain ⟨u2, val2, b1, b2, b3⟩ := C74_extrapolated hr bcs hbc u
  obtain ⟨u3, d1, d2, _⟩ := C73_only_ghosts hr bcs hbc u
  rw [a1] at b1 d1
  obtain rfl : u1 = u2 := by simpa using b1
  obtain rfl : u1 = u3 := by simpa using d1
  refine ⟨m, x, u1, val, r1, a1, a2, a3, fun p v k ho hper hm k1 k3 kg hv => ?_, d2⟩
  obtain ⟨P, p1, p2⟩ := b3 p v k ho hper hm k1 k3 kg hv
  refine ⟨P, p1, fun j j1 j2 => ?_⟩
  rw [← p2 j j1 j2]
  have hmem := hr.lines p v k ho k1 (kg.trans (Nat.le_max_right _ _)) hm v (fun _ _ => .inl rfl) j j1 j2
  show val level (walk n p j v) = val2 level (walk n p j v)
  rw [a2.at hr.refWF hmem, b2.at hr.refWF hmem]

end

/-- The domain of the mesh with leaves of levels 2, 3 and 4 (AdaptWidth.lean), as a box of cells of level 4. -/
def widthBox : LCA := LCA.ofBox 0 4 ⟨fun _ => 0, fun _ => 8⟩

theorem widthBox_mem (p : List Int) : widthBox.Mem 0 p ↔ ∃ x, p = [x] ∧ 0 ≤ x ∧ x < 8 := by
  unfold widthBox
  rw [ofBox_mem]
  match p with
  | [] => simp [InBox]
  | [x] => simp [InBox]
  | x :: y :: p => simp [InBox]

theorem widthBox_inDomain (m : List Int) : InDomain 0 widthBox 4 m ↔ ∃ x, m = [x] ∧ 0 ≤ x ∧ x < 8 := by
  rw [← widthBox_mem]
  constructor
  · rintro ⟨d, h1, h2⟩
    rw [show 4 - widthBox.level = 0 from rfl, anc_zero] at h2
    exact h2 ▸ h1
  · exact fun h => ⟨m, h, anc_zero.2 rfl⟩

/-- C71_adapted on a mesh with leaves of levels 2, 3 and 4, at level 3: two cells of the level are not leaves on the right, where the ghosts are
filled through the cells of the reference mesh. -/
example (u : Int → Rat) : ∃ m x u' val L, mrMesh 0 ⟨1, 1⟩ widthLeaves 1 4 = some (m, x) ∧ onDirectionRegion 0 widthBox [fun _ => 1] = some [(fun _ => 1, L)] ∧
    updateBc 0 ⟨m.cells, m.all, widthBox, 1, 4, fun _ => false, 1, ⟨1, 1⟩⟩ [⟨.dirichlet 1, fun _ _ => 7, [(fun _ => 1, L)]⟩] 3 u = some u' ∧
    FieldIs 0 m.all u' val ∧ val 3 [4] = 2 * 7 - val 3 [3] := by
  have gd : GoodDomain 0 widthBox 1 4 3 := by
    refine ⟨ofBox_wf 4 fun _ _ => by simp, le_rfl, fun p m m' h1 h2 h3 => ?_, 8, by omega, by decide, fun m hm x hx => ?_⟩
    · rw [widthBox_inDomain, ← widthInDomain] at h3 ⊢
      exact (widthDomain_good 3 (by decide)).whole p m m' h1 h2 h3
    · obtain ⟨y, rfl, _, h⟩ := (widthBox_inDomain m).1 hm
      simp only [List.mem_singleton] at hx
      subst hx; exact h
  have gl : GoodLeaves 0 widthLeaves widthBox 1 4 := by
    obtain ⟨a1, a2, a3, a4, a5, a6, a7⟩ := widthLeaves_good
    exact ⟨a1, a2, a3, a4, a5, a6, fun m => by rw [widthBox_inDomain, ← widthInDomain]; exact a7 m⟩
  have hbox : BoxDomain 0 widthBox 3 ⟨fun _ => 0, fun _ => 4⟩ := by
    refine ⟨ofBox_wf 4 fun _ _ => by simp, by decide, fun _ _ => by simp, fun p => ?_⟩
    show _ ↔ InBox (Box.refined ⟨fun _ => 0, fun _ => 4⟩ 1) 0 p
    rw [show (Box.refined ⟨fun _ => 0, fun _ => 4⟩ 1) = ⟨fun _ => 0, fun _ => 8⟩ by simp [Box.refined]]
    exact ofBox_mem 4 p
  have hv : UnitVector 0 (fun _ => 1) ∧ OneAxis 0 (fun _ => 1) :=
    ⟨⟨fun _ _ => .inr (.inr rfl), 0, le_rfl, by decide⟩, 0, le_rfl, by decide, fun k hk hne => absurd (Nat.le_zero.1 hk) hne⟩
  obtain ⟨h, _⟩ := C72_directions 0 (by omega) widthBox gd.wf ⟨8, by omega, by decide, fun p hp x hx => by
    obtain ⟨y, rfl, _, h⟩ := (widthBox_mem p).1 hp
    simp only [List.mem_singleton] at hx
    subst hx
    simpa using h⟩
  obtain ⟨R, e1, e2, e3⟩ := h [fun _ => 1] (by simpa using hv.1)
  obtain ⟨L, rfl⟩ : ∃ L, R = [((fun _ => 1 : Nat → Int), L)] := by
    match R, e2 with
    | [(v, L)], e2 =>
      simp only [List.map_cons, List.map_nil, List.cons.injEq, and_true] at e2
      exact ⟨L, by rw [e2]⟩
  obtain ⟨l1, l2, l3⟩ := e3 (fun _ => 1, L) (by simp)
  obtain ⟨m, x, u', val, r1, r2, r3, r4, _⟩ := C71_adapted 0 ⟨1, 1⟩ rfl (by decide) widthLeaves widthBox 1 4 3 ⟨fun _ => 0, fun _ => 4⟩ gl gd (by omega) hbox
    (by omega) (.inl (by decide)) ⟨8, by omega, by decide, fun _ _ => by show (4 : Int) * 2 ^ 1 ≤ 8; decide⟩ (fun _ => false) (1 : Rat)
    [⟨.dirichlet 1, fun _ _ => 7, [(fun _ => 1, L)]⟩] (by
      intro c hc
      rw [List.mem_singleton] at hc
      subst hc
      refine ⟨⟨by omega, by omega⟩, by simp [BcKind.ghosts, BcKind.stencilSize], fun d hd _ hax => ?_⟩
      rw [List.mem_singleton] at hd
      subst hd
      exact ⟨l1, l2, fun q hq => (l3 hax q).1 hq⟩) u
  refine ⟨m, x, u', val, L, r1, e1, r2, r3, ?_⟩
  obtain ⟨D0, D1, D2, D3⟩ := gd.range
  obtain ⟨m', x', q1, q2⟩ := mrMesh_spec (cells := widthLeaves) (cfg := ⟨1, 1⟩) (n := 0) (minL := 1) (maxL := 4)
    ⟨gl.wf, gl.leveled, gl.between, gl.size, D0, D1, D2, gl.below D3⟩
  rw [r1] at q1
  obtain ⟨rfl, rfl⟩ : m = m' ∧ x = x' := by simpa using q1
  obtain ⟨m0, c1, c2, c3, c4, c5⟩ := q2.content
  have hin : ∀ p, Near 1 p [4] → m.all.Mem 0 3 p := fun p hp => by
    rw [c5, c1.all (by omega)]
    refine MRBase.all (.inr (.inl ⟨[8], ⟨[7], (widthLeaves_mem _ _).2 (by simp), .cons (by simp) .nil⟩, ?_, by simpa [shr] using hp⟩))
    rintro ⟨l', q, hl, hq, _⟩
    have := (gl.between l' q hq).2
    omega
  have himp : Imposes 0 (⟨m.cells, m.all, widthBox, 1, 4, fun _ => false, 1, ⟨1, 1⟩⟩ : BcMesh Rat) 3 ⟨.dirichlet 1, fun _ _ => 7, [(fun _ => 1, L)]⟩
      (fun _ => 1, L) [3] 1 := by
    refine ⟨hv.1, hv.2, fun _ _ _ => rfl, ⟨[7], (l3 hv.2 _).2 ⟨(widthBox_mem _).2 ⟨7, rfl, by omega, by omega⟩, ?_⟩, ?_⟩, .inr ⟨by simp, ?_⟩, le_rfl, by
      simp [BcKind.ghosts, BcKind.stencilSize]⟩
    · rw [widthBox_mem]
      simp [shiftPoint]
    · rw [l2]
      exact anc_iff.2 (by simp [shr, widthBox, LCA.ofBox, boxLoop])
    · exact hin _ (by simp [walk, shiftPoint, BcKind.ghosts, BcKind.stencilSize]; exact near_refl _ _)
  obtain ⟨P, p1, p2, p3, p4⟩ := r4 [] _ _ [] rfl [3] 1 (mcell 0 m.all 3 [3]) himp ⟨rfl, rfl, numOf_numbered q2.wf.2.2.2 (hin [3] (.cons (by simp) .nil))⟩
    (fun d hd hne => by simp [BcKind.ghosts, BcKind.stencilSize]) (by simp)
  have h0 := p2 0 (by omega)
  simp only [walk, shiftPoint, Nat.cast_zero, neg_zero, Nat.cast_one, zero_mul, one_mul, add_zero] at h0 p4
  obtain ⟨a, c, rfl⟩ := Polynomial.exists_eq_X_add_C_of_natDegree_le_one p1
  simp only [Polynomial.eval_add, Polynomial.eval_mul, Polynomial.eval_C, Polynomial.eval_X] at h0 p3 p4
  show val 3 [3 + 1] = _
  rw [p4, h0]
  have : (7 : Rat) = a * (1 / 2) + c := p3.symm
  rw [this]; ring

end Samurai

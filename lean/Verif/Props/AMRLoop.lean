/-
Time loops on AMR meshes: update of the ghosts, criterion, graduation and transfer of the field.
-/
import Verif.Lemmas.AMRLoop
import Verif.Props.AMRGhostFace

namespace Samurai

section
variable {K : Type} [Field K] [LinearOrder K] [IsStrictOrderedRing K] {n gw g : Nat} {cfg : MeshConfig} {near : List Int → List Int → Prop}
  {S : List (Nat → Int)} {dom : LCA} {minL maxL : Nat} {b : Box}

/-- One turn. -/
theorem amrTurn_inv (hn2 : n ≤ 2) (hn : near = FaceNeighbours ∨ near = Near 1) (hS : GradStencilOK n g S) (hR : Reaches n near S)
    (hd : GoodDomain n dom minL maxL (cfg.ghostWidth + cfg.predictionOrder + g + 4)) (hmin : 1 ≤ minL) (hmm : minL ≤ maxL) (hgw : 1 ≤ gw)
    (hg : gw ≤ cfg.ghostWidth) (hbox : BoxDomain n dom 0 b) (hdl : dom.level = maxL)
    (hB : ∃ B : Int, 0 ≤ B ∧ B + (2 * cfg.ghostWidth + 9) * 2 ^ maxL + 2 < INT_MAX ∧ ∀ d ≤ n, b.hi d * 2 ^ maxL ≤ B)
    (h0 : K) {bcs : List (BcCond K)} (hbc : ∀ c ∈ bcs, GoodBc n dom cfg.ghostWidth c) {tags : AMRMeshes → CellField K → TagField}
    (ht : ∀ m f, AllTagged n m.cells (tags m f)) {m : AMRMeshes} {x : CA} (h : AMRInv n cfg near dom minL maxL m x) (f : CellField K) :
    ∃ e m' x' f', amrTurn n cfg gw minL maxL S dom h0 bcs tags m x f = some (e, m', x', f') ∧ AMRInv n cfg near dom minL maxL m' x' ∧
      integral n m'.cells f' = integral n m.cells f := by
  obtain ⟨u, e1, e2⟩ := amrGhostArray_ok hn2 h hmin hbox hdl hB h0 bcs hbc f
  obtain ⟨e, m', x', f', k1, k2, -, -, k5, -⟩ := amr_step hn h hS hR hd hmin hmm hgw hg (ht m (fieldAt n m.all u)) (fieldAt n m.all u)
  refine ⟨e, m', x', f', ?_, k2, (k5 hn2 inferInstance).trans ?_⟩
  · unfold amrTurn
    rw [e1]
    exact k1
  · unfold integral
    congr 1
    apply List.map_congr_left
    intro e he
    rw [e2 e.1 e.2.1 (CA.mem_of_numbered h.leaves.wf (v := e.2.2) he)]

/-- C105. Time loops on AMR meshes, in dimensions 1 to 3: from leaves of level at least 1 that tile a box and are graded (through the faces, or through
faces and corners, as the stencil of `graduation` reaches), for every sequence of turns, where the field is changed in any way, the ghosts are updated
with any boundary conditions and the mesh is adapted with any tags that flag every leaf: `update_ghost`, `graduation` and `update_field` always succeed
(each cell they read exists), the leaves always tile the domain without overlap, are graded, and have levels in `[min_level, max_level]`. If the changes
of the field conserve its integral, the integral is the same after any number of turns. -/
theorem C105_amr_time_loop (n gw g : Nat) (hn2 : n ≤ 2) (cfg : MeshConfig) (near : List Int → List Int → Prop)
    (hn : near = FaceNeighbours ∨ near = Near 1) (S : List (Nat → Int)) (hS : GradStencilOK n g S) (hR : Reaches n near S) (dom : LCA)
    (minL maxL : Nat) (hd : GoodDomain n dom minL maxL (cfg.ghostWidth + cfg.predictionOrder + g + 4)) (hmin : 1 ≤ minL) (hmm : minL ≤ maxL)
    (hgw : 1 ≤ gw) (hg : gw ≤ cfg.ghostWidth) (b : Box) (hbox : BoxDomain n dom 0 b) (hdl : dom.level = maxL)
    (hB : ∃ B : Int, 0 ≤ B ∧ B + (2 * cfg.ghostWidth + 9) * 2 ^ maxL + 2 < INT_MAX ∧ ∀ d ≤ n, b.hi d * 2 ^ maxL ≤ B)
    (cells : CA) (hc : AMRLeaves n near cells dom minL maxL) (h0 : K) (calls : List (AMRCall K))
    (hbc : ∀ call ∈ calls, ∀ c ∈ call.bcs, GoodBc n dom cfg.ghostWidth c) (ht : ∀ call ∈ calls, ∀ m f, AllTagged n m.cells (call.tags m f))
    (f : CellField K) :
    ∃ m x m' x' f', amrMesh n cfg cells dom minL maxL = some (m, x) ∧ runAmrTurns n cfg gw minL maxL S dom h0 calls m x f = some (m', x', f') ∧
      AMRLeaves n near m'.cells dom minL maxL ∧
      ((∀ call ∈ calls, ∀ (m : AMRMeshes) (f : CellField K), AMRLeaves n near m.cells dom minL maxL →
        integral n m.cells (call.change m f) = integral n m.cells f) → integral n m'.cells f' = integral n m.cells f) := by
  obtain ⟨m, x, h1, h2⟩ := amr_start hd hmin hc
  have key : ∀ (calls : List (AMRCall K)), (∀ call ∈ calls, ∀ c ∈ call.bcs, GoodBc n dom cfg.ghostWidth c) →
      (∀ call ∈ calls, ∀ m f, AllTagged n m.cells (call.tags m f)) →
      ∀ (m : AMRMeshes) (x : CA) (f : CellField K), AMRInv n cfg near dom minL maxL m x →
      ∃ m' x' f', runAmrTurns n cfg gw minL maxL S dom h0 calls m x f = some (m', x', f') ∧ AMRInv n cfg near dom minL maxL m' x' ∧
        ((∀ call ∈ calls, ∀ (m : AMRMeshes) (f : CellField K), AMRLeaves n near m.cells dom minL maxL →
          integral n m.cells (call.change m f) = integral n m.cells f) → integral n m'.cells f' = integral n m.cells f) := by
    intro calls
    induction calls with
    | nil => exact fun _ _ m x f h => ⟨m, x, f, rfl, h, fun _ => rfl⟩
    | cons c cs ih =>
      intro hbc ht m x f h
      obtain ⟨e, m', x', f', a1, a2, a3⟩ := amrTurn_inv hn2 hn hS hR hd hmin hmm hgw hg hbox hdl hB h0 (hbc c List.mem_cons_self)
        (ht c List.mem_cons_self) h (c.change m f)
      obtain ⟨m2, x2, f2, b1, b2, b3⟩ := ih (fun c' hc => hbc c' (List.mem_cons_of_mem _ hc)) (fun c' hc => ht c' (List.mem_cons_of_mem _ hc)) m' x' f' a2
      refine ⟨m2, x2, f2, ?_, b2, fun hcons => ?_⟩
      · unfold runAmrTurns
        rw [a1]
        exact b1
      · exact (b3 fun c' hc => hcons c' (List.mem_cons_of_mem _ hc)).trans (a3.trans (hcons c List.mem_cons_self m f h.leaves))
  obtain ⟨m', x', f', k1, k2, k3⟩ := key calls hbc ht m x f h2
  exact ⟨m, x, m', x', f', h1, k1, k2.leaves, k3⟩

/-! ### uniform fields -/

omit [LinearOrder K] [IsStrictOrderedRing K] in
theorem predicted_fine (hn : n ≤ 2) (order : Nat) (f : CellField K) (l : Nat) {q : List Int} (hq : q.length = n + 1) :
    predicted (n + 1) order f l q = predictFine (n + 1) order (fun r => f l (ofPt (n + 1) r)) (toPt q) := by
  unfold predicted
  rw [← C53_same_value (n + 1) order (by omega)]
  congr 1
  funext d
  show 2 * toPt (q.map fun y => shr y 1) d + (if isOdd (toPt q d) = true then 1 else 0) = toPt q d
  by_cases hdn : d < n + 1
  · rw [toPt_half hq (by omega)]
    unfold isOdd
    by_cases h : toPt q d % 2 = 1
    · rw [if_pos (by simpa using h)]; omega
    · rw [if_neg (by simpa using h)]; omega
  · have e1 : toPt q d = 0 := by
      simp only [toPt]
      rw [List.getD_eq_getElem?_getD, List.getElem?_eq_none (by simp; omega)]
      rfl
    have e2 : toPt (q.map fun y => shr y 1) d = 0 := by
      simp only [toPt]
      rw [List.getD_eq_getElem?_getD, List.getElem?_eq_none (by simp; omega)]
      rfl
    rw [e1, e2]
    simp [isOdd]

/-- One turn on a field uniform on the leaves. -/
theorem amrTurn_uniform (hn : n ≤ 1) (hs : cfg.predictionOrder = 1) (hS : GradStencilOK n g S) (hR : Reaches n (Near 1) S)
    (hd : GoodDomain n dom minL maxL (cfg.ghostWidth + cfg.predictionOrder + g + 4)) (hmin : 1 ≤ minL) (hmm : minL < maxL) (hgw : 1 ≤ gw)
    (hg : gw ≤ cfg.ghostWidth) (hbox : BoxDomain n dom 0 b) (hdl : dom.level = maxL)
    (hB : ∃ B : Int, 0 ≤ B ∧ B + (2 * cfg.ghostWidth + 9) * 2 ^ maxL + 2 < INT_MAX ∧ ∀ d ≤ n, b.hi d * 2 ^ maxL ≤ B)
    (h0 : K) {bcs : List (BcCond K)} (hbc : ∀ c ∈ bcs, GoodBc n dom 1 c) (hcov : CoversBoundary n dom bcs) {k : K} (hk : ∀ c ∈ bcs, c.HoldsFor k)
    {tags : AMRMeshes → CellField K → TagField}
    (ht : ∀ m f, AllTagged n m.cells (tags m f)) {m : AMRMeshes} {x : CA} (h : AMRInv n cfg (Near 1) dom minL maxL m x) (f : CellField K)
    (hf : ∀ l p, m.cells.Mem n l p → f l p = k) :
    ∃ e m' x' f', amrTurn n cfg gw minL maxL S dom h0 bcs tags m x f = some (e, m', x', f') ∧ AMRInv n cfg (Near 1) dom minL maxL m' x' ∧
      ∀ l p, m'.cells.Mem n l p → f' l p = k := by
  have hgw' : 1 ≤ cfg.ghostWidth := by omega
  obtain ⟨c0, hc, hw⟩ := h.mesh
  have r2 := hc.self hw
  have G : GoodLeaves n m.cells dom minL maxL := ⟨h.leaves.wf, h.leaves.leveled, h.leaves.size, h.leaves.between, h.leaves.noOverlap, h.leaves.graded,
    h.leaves.tiles⟩
  obtain ⟨B, hB0, hB1, hB2⟩ := hB
  have hbc' : ∀ c ∈ bcs, GoodBc n dom cfg.ghostWidth c := fun c hc => ⟨(hbc c hc).known, (hbc c hc).width.trans hgw', (hbc c hc).region⟩
  obtain ⟨u, e1, e2, e3, e4, e5, e6, e7⟩ := amr_ghosts_ok (by omega : n ≤ 2) cfg (by omega) m.cells dom minL maxL b G hmin hbox hdl hB0 hB1 hB2 h0 r2 bcs hbc'
    (fieldArray n m.all f)
  have gr := amrReady_ok G.tiling hmin hbox hdl hB0 hB1 hB2 h0 r2
  obtain ⟨m0, c1, c2, c3, c4, c5, c6⟩ := r2.content
  have hall : ∀ l p q, m.cells.Mem n l q → Near 1 p q → m.all.Mem n l p := fun l p q hq hpq =>
    (c6 l p).2 ((c1.all l p).2 (.inl (.inl ⟨q, hq, near_wider hgw' hpq⟩)))
  have hleaf : ∀ l p, m.cells.Mem n l p → fieldAt n m.all u l p = k := fun l p hp => by
    have hm := hall l p p hp (near_refl _ _)
    rw [fieldAt_eq, e3 l p _ hp (numOf_numbered r2.wf hm), amrArray_numOf hc f hm, hf l p hp]
  have up := amr_values_unique hn cfg hs (by omega) G hbox hdl h0 hbc hcov gr (v1 := fieldAt n m.all u) (v2 := fun _ _ => k) (fun l p _ hp => hleaf l p hp)
    e4 (fun l p hp _ => mean_const k (mem_length hp.2)) e5 (fun l p _ _ => by rw [hs]; exact (predictFine_const (by omega) k _).symm) e6 e7
    (fun l p _ => boundary_const hk (fun c hc => (hbc c hc).width) l _)
  have hin : ∀ l p, m.cells.Mem n l p → InBox (b.refined l) n p := fun l p hp => by
    have := hbox.finer (Nat.zero_le l) (by have := (h.leaves.between l p hp).2; omega)
    rw [Nat.sub_zero] at this
    exact G.tiling.inBox this (by omega) hp le_rfl (by rw [Nat.sub_self]; exact anc_zero.2 rfl)
  have hnear : ∀ l p q, m.cells.Mem n l q → Near 1 p q → fieldAt n m.all u l p = k := fun l p q hq hpq => up l p (hall l p q hq hpq) ⟨q, hin l q hq, hpq⟩
  obtain ⟨e, m', x', f', k1, k2, k3, k4, -, -⟩ := amr_step (.inr rfl) h hS hR hd hmin (by omega) hgw hg (ht m (fieldAt n m.all u)) (fieldAt n m.all u)
  refine ⟨e, m', x', f', ?_, k2, fun l p hp => ?_⟩
  · unfold amrTurn amrGhostArray
    rw [e1]
    exact k1
  · have hpl := mem_length hp.2
    obtain ⟨l', q, j1, j2⟩ := (k3 l p).1 hp
    rcases j2 with ⟨-, -, rfl, j3⟩ | ⟨-, -, -, rfl, j3⟩ | ⟨-, -, rfl, rfl⟩
    · rw [k4.fine l' q p j1 hp j3, predicted_fine (by omega) _ _ _ hpl, hs]
      refine Eq.trans (predictFine_congr fun s hs => ?_) (predictFine_const (by omega) k (toPt p))
      refine hnear l' _ q j1 ?_
      rw [← anc_one.1 j3]
      refine (near_iff_toPt (ofPt_length _ _) (by simpa [parentOf] using hpl)).2 fun d hd => ?_
      have := (mem_offsetsFrom.1 hs).1 d hd
      rw [show parentOf p = p.map fun y => shr y 1 from rfl, toPt_half hpl (by omega), toPt_ofPt _ (by omega),
        show parentPt (toPt p) d = toPt p d / 2 from shr_one_eq _]
      push_cast at this
      omega
    · rw [k4.coarse l p q hp j1 j3, project_mean n (by omega) _ l hpl]
      have hch : ∀ c ∈ childrenOf p, fieldAt n m.all u (l + 1) c = k := fun c hc => by
        refine hnear (l + 1) c q j1 ?_
        have hcl : c.length = n + 1 := by
          have := congrArg List.length (mem_childrenOf.1 hc)
          rw [List.length_map] at this
          omega
        refine (near_iff_toPt hcl (mem_length j1.2)).2 fun d hd => ?_
        have t1 := congrArg (fun z => toPt z d) (mem_childrenOf.1 hc)
        have t2 := congrArg (fun z => toPt z d) (show (q.map fun y => shr y 1) = p from anc_one.1 j3)
        rw [toPt_half hcl (by omega)] at t1
        rw [toPt_half (mem_length j1.2) (by omega)] at t2
        push_cast
        omega
      rw [List.map_congr_left hch, List.map_const', List.sum_replicate, childrenOf_length, hpl, nsmul_eq_mul]
      push_cast
      rw [← mul_assoc, ← mul_pow]
      norm_num
    · rw [k4.kept l p j1 hp]
      exact hleaf l p j1

/-- C106. On AMR meshes graded through faces and corners, in dimensions 1 and 2, with the prediction of order 1 and conditions of one ghost on the whole
boundary that hold for the uniform field (`Dirichlet` with its value, `Neumann` with 0): a field that is uniform on the leaves is uniform with the same
value after any number of turns (update of the ghosts, any criterion, `graduation`, `update_field`), when the changes between the turns keep it uniform,
whatever the ghosts hold. -/
theorem C106_amr_uniform_partial (n gw g : Nat) (hn : n ≤ 1) (cfg : MeshConfig) (hs : cfg.predictionOrder = 1) (S : List (Nat → Int))
    (hS : GradStencilOK n g S) (hR : Reaches n (Near 1) S) (dom : LCA) (minL maxL : Nat)
    (hd : GoodDomain n dom minL maxL (cfg.ghostWidth + cfg.predictionOrder + g + 4)) (hmin : 1 ≤ minL) (hmm : minL < maxL)
    (hgw : 1 ≤ gw) (hg : gw ≤ cfg.ghostWidth) (b : Box) (hbox : BoxDomain n dom 0 b) (hdl : dom.level = maxL)
    (hB : ∃ B : Int, 0 ≤ B ∧ B + (2 * cfg.ghostWidth + 9) * 2 ^ maxL + 2 < INT_MAX ∧ ∀ d ≤ n, b.hi d * 2 ^ maxL ≤ B)
    (cells : CA) (hc : AMRLeaves n (Near 1) cells dom minL maxL) (h0 k : K) (calls : List (AMRCall K))
    (hbc : ∀ call ∈ calls, (∀ c ∈ call.bcs, GoodBc n dom 1 c ∧ c.HoldsFor k) ∧ CoversBoundary n dom call.bcs)
    (ht : ∀ call ∈ calls, ∀ m f, AllTagged n m.cells (call.tags m f))
    (hch : ∀ call ∈ calls, ∀ (m : AMRMeshes) (f : CellField K), (∀ l p, m.cells.Mem n l p → f l p = k) → ∀ l p, m.cells.Mem n l p → call.change m f l p = k)
    (f : CellField K) (hf : ∀ l p, cells.Mem n l p → f l p = k) :
    ∃ m x m' x' f', amrMesh n cfg cells dom minL maxL = some (m, x) ∧ runAmrTurns n cfg gw minL maxL S dom h0 calls m x f = some (m', x', f') ∧
      AMRLeaves n (Near 1) m'.cells dom minL maxL ∧ ∀ l p, m'.cells.Mem n l p → f' l p = k := by
  obtain ⟨m, x, h1, h2⟩ := amr_start hd hmin hc
  have hf' : ∀ l p, m.cells.Mem n l p → f l p = k := by
    obtain ⟨B, hB0, hB1, hB2⟩ := hB
    obtain ⟨m1, x1, r1, r2⟩ := amrMesh_box (cfg := cfg) hc.tiling hmin hbox hdl hB0 hB1 hB2
    rw [h1] at r1
    obtain ⟨rfl, rfl⟩ : m = m1 ∧ x = x1 := by simpa using r1
    obtain ⟨m0, c1, c2, -⟩ := r2.content
    exact fun l p hp => hf l p ((c2 l p).1 hp)
  have key : ∀ (calls : List (AMRCall K)),
      (∀ call ∈ calls, (∀ c ∈ call.bcs, GoodBc n dom 1 c ∧ c.HoldsFor k) ∧ CoversBoundary n dom call.bcs) →
      (∀ call ∈ calls, ∀ m f, AllTagged n m.cells (call.tags m f)) →
      (∀ call ∈ calls, ∀ (m : AMRMeshes) (f : CellField K), (∀ l p, m.cells.Mem n l p → f l p = k) → ∀ l p, m.cells.Mem n l p → call.change m f l p = k) →
      ∀ (m : AMRMeshes) (x : CA) (f : CellField K), AMRInv n cfg (Near 1) dom minL maxL m x → (∀ l p, m.cells.Mem n l p → f l p = k) →
      ∃ m' x' f', runAmrTurns n cfg gw minL maxL S dom h0 calls m x f = some (m', x', f') ∧ AMRInv n cfg (Near 1) dom minL maxL m' x' ∧
        ∀ l p, m'.cells.Mem n l p → f' l p = k := by
    intro calls
    induction calls with
    | nil => exact fun _ _ _ m x f h hf => ⟨m, x, f, rfl, h, hf⟩
    | cons c cs ih =>
      intro hbc ht hch m x f h hf
      obtain ⟨q1, q2⟩ := hbc c List.mem_cons_self
      obtain ⟨e, m', x', f', a1, a2, a3⟩ := amrTurn_uniform hn hs hS hR hd hmin hmm hgw hg hbox hdl hB h0 (fun c' hc => (q1 c' hc).1) q2
        (fun c' hc => (q1 c' hc).2) (ht c List.mem_cons_self) h (c.change m f) (hch c List.mem_cons_self m f hf)
      obtain ⟨m2, x2, f2, b1, b2⟩ := ih (fun c' hc => hbc c' (List.mem_cons_of_mem _ hc)) (fun c' hc => ht c' (List.mem_cons_of_mem _ hc))
        (fun c' hc => hch c' (List.mem_cons_of_mem _ hc)) m' x' f' a2 a3
      refine ⟨m2, x2, f2, ?_, b2⟩
      unfold runAmrTurns
      rw [a1]
      exact b1
  obtain ⟨m', x', f', k1, k2, k3⟩ := key calls hbc ht hch m x f h2 hf'
  exact ⟨m, x, m', x', f', h1, k1, k2.leaves, k3⟩

end

/-- C105 and C106 on the square with one quarter at level 2: any number of turns where the leaves of level 1 are refined, with `Dirichlet` of value 3 on
the whole boundary. For any field the integral is conserved, and the field of value 3 stays of value 3. -/
example (N : Nat) : ∃ R m x, everywhereRegion 1 squareDomain = some R ∧ amrMesh 1 ⟨1, 1⟩ cornerMesh squareDomain 1 2 = some (m, x) ∧
    let calls : List (AMRCall Rat) := List.replicate N ⟨fun _ f => f, [⟨.dirichlet 1, fun _ _ => 3, R⟩], fun _ _ => refineTags 1⟩
    (∀ f : CellField Rat, ∃ m' x' f', runAmrTurns 1 ⟨1, 1⟩ 1 1 2 (gradStencils 1 1) squareDomain 1 calls m x f = some (m', x', f') ∧
      integral 1 m'.cells f' = integral 1 m.cells f) ∧
    (∃ m' x' f', runAmrTurns 1 ⟨1, 1⟩ 1 1 2 (gradStencils 1 1) squareDomain 1 calls m x (fun _ _ => 3) = some (m', x', f') ∧
      ∀ l p, m'.cells.Mem 1 l p → f' l p = 3) := by
  obtain ⟨R, r1, r2⟩ := everywhere_covers (n := 1) (by omega) squareDomain_box.wf squareRange
  obtain ⟨s1, s2, -⟩ := C79_diagonals 1 (by omega)
  have hB : ∃ B : Int, 0 ≤ B ∧ B + (2 * (⟨1, 1⟩ : MeshConfig).ghostWidth + 9) * 2 ^ 2 + 2 < INT_MAX ∧
      ∀ d ≤ 1, (⟨fun _ => 0, fun _ => 1⟩ : Box).hi d * 2 ^ 2 ≤ B := ⟨4, by omega, by decide, fun _ _ => by show (1 : Int) * 2 ^ 2 ≤ 4; decide⟩
  have g := cornerLeaves_good
  have hc : AMRLeaves 1 (Near 1) cornerMesh squareDomain 1 2 := g.amr (.inr rfl) ⟨2, [2, 2], (cornerMesh_mem _ _).2
    (.inr ⟨rfl, 2, 2, by omega, by omega, by omega, by omega, rfl⟩)⟩
  have hr := r2 (.dirichlet 1) (fun _ _ => (3 : Rat)) 1 ⟨by omega, by omega⟩ (by simp [BcKind.ghosts, BcKind.stencilSize])
  have hbc : ∀ c ∈ [(⟨.dirichlet 1, fun _ _ => 3, R⟩ : BcCond Rat)], GoodBc 1 squareDomain 1 c ∧ c.HoldsFor 3 := fun c hc => by
    rw [List.mem_singleton] at hc
    subst hc
    exact ⟨hr.1, by intro _ _; rfl⟩
  obtain ⟨m, x, h1, -⟩ := amr_start (cfg := ⟨1, 1⟩) (cornerDomain_good (1 + 1 + 1 + 4) (by omega)) (by omega) hc
  refine ⟨R, m, x, r1, h1, fun f => ?_, ?_⟩
  · obtain ⟨m1, x1, m', x', f', a1, a2, -, a4⟩ := C105_amr_time_loop 1 1 1 (by omega) ⟨1, 1⟩ (Near 1) (.inr rfl) _ s1 s2 squareDomain 1 2
      (cornerDomain_good (1 + 1 + 1 + 4) (by omega)) (by omega) (by omega) (by omega) le_rfl _ cornerDomain_box rfl hB cornerMesh hc (1 : Rat)
      (List.replicate N ⟨fun _ f => f, [⟨.dirichlet 1, fun _ _ => 3, R⟩], fun _ _ => refineTags 1⟩)
      (fun call hc c h => by
        obtain rfl := List.eq_of_mem_replicate hc
        exact (hbc c h).1)
      (fun call hc m f => by
        obtain rfl := List.eq_of_mem_replicate hc
        exact refineTags_all 1 _ 1) f
    rw [h1] at a1
    obtain ⟨rfl, rfl⟩ : m = m1 ∧ x = x1 := by simpa using a1
    exact ⟨m', x', f', a2, a4 fun call hc _ _ _ => by
      obtain rfl := List.eq_of_mem_replicate hc
      rfl⟩
  · obtain ⟨m1, x1, m', x', f', a1, a2, -, a4⟩ := C106_amr_uniform_partial 1 1 1 (by omega) ⟨1, 1⟩ rfl _ s1 s2 squareDomain 1 2
      (cornerDomain_good (1 + 1 + 1 + 4) (by omega)) (by omega) (by omega) (by omega) le_rfl _ cornerDomain_box rfl hB cornerMesh hc (1 : Rat) 3
      (List.replicate N ⟨fun _ f => f, [⟨.dirichlet 1, fun _ _ => 3, R⟩], fun _ _ => refineTags 1⟩)
      (fun call hc => by
        obtain rfl := List.eq_of_mem_replicate hc
        exact ⟨hbc, hr.2⟩)
      (fun call hc m f => by
        obtain rfl := List.eq_of_mem_replicate hc
        exact refineTags_all 1 _ 1)
      (fun call hc m f hf => by
        obtain rfl := List.eq_of_mem_replicate hc
        exact hf) (fun _ _ => 3) (fun _ _ _ => rfl)
    rw [h1] at a1
    obtain ⟨rfl, rfl⟩ : m = m1 ∧ x = x1 := by simpa using a1
    exact ⟨m', x', f', a2, a4⟩

end Samurai

/-
C102: time loops with the adaptation.
-/
import Verif.Props.DetailsExample

namespace Samurai

section
variable {K : Type} [Field K] [LinearOrder K] [IsStrictOrderedRing K]
variable {n : Nat} {cfg : MeshConfig} {dom : LCA} {minL maxL : Nat}

/-- One step keeps the mesh good and the integral. -/
theorem adaptStep_inv (hn : n ≤ 2) {base : Nat} {b : Box} (st : BoxSetup n cfg dom minL maxL base b)
    (hd : GoodDomain n dom minL maxL (cfg.maxStencilWidth + cfg.predictionOrder + 1 + 3)) (hmin : 1 ≤ minL) (hlt : minL < maxL)
    (hsh : (n + 1) * (maxL - minL) < 31) (h0 : K) {bcs : List (BcCond K)} (hbc : ∀ c ∈ bcs, GoodBc n dom cfg.maxStencilWidth c)
    (enlarge : Bool) (eps factor : K) {ite : Nat} (hite : ite ≤ maxL - minL) {m : SubMeshes} {x : CA} (h : AdaptInv n cfg dom minL maxL m x) (f : CellField K) :
    ∃ stop m' x' f', adaptStep n cfg 1 minL maxL enlarge dom h0 bcs eps factor ite m x f = some (stop, m', x', f') ∧
      AdaptInv n cfg dom minL maxL m' x' ∧ integral n m'.cells f' = integral n m.cells f := by
  obtain ⟨u, S, e1, -, e2, -⟩ := ghostArray_ok hn st h (hd.mono (by omega)) (by omega) h0 bcs hbc f
  obtain ⟨dt, d1, -⟩ := adaptStep_eq hn h hd hlt (by rw [st.order]) hsh e1 enlarge eps factor ite
  obtain ⟨t, b', m', x', f', _, k2, k3, k1, k4, _, _, _, k6⟩ := harten_spec h hd hmin (by omega) hite enlarge
    (detailMasks n maxL eps factor m.all dt) (fieldAt n m.all u)
  obtain ⟨b2, m2, u2, f2, j1, _, _, _, j2⟩ := C33_integral n hn cfg minL maxL (tagArray n m.all t) m x (fieldAt n m.all u) (by omega)
    (h.proper hd (by omega)) h.leaves.noOverlap k2 k3
  rw [k4] at j1
  simp only [Option.some.injEq, Prod.mk.injEq] at j1
  obtain ⟨rfl, rfl, rfl, rfl⟩ := j1
  refine ⟨b', m', x', f', d1.trans k1, k6 hn rfl, j2.trans ?_⟩
  unfold integral
  congr 1
  apply List.map_congr_left
  intro e he
  rw [e2 e.1 e.2.1 (CA.mem_of_numbered h.leaves.wf (v := e.2.2) he)]

/-- The adaptation keeps the mesh good and the integral. -/
theorem adaptMr_inv (hn : n ≤ 2) {base : Nat} {b : Box} (st : BoxSetup n cfg dom minL maxL base b)
    (hd : GoodDomain n dom minL maxL (cfg.maxStencilWidth + cfg.predictionOrder + 4)) (hmin : 1 ≤ minL) (hmm : minL ≤ maxL)
    (hsh : (n + 1) * (maxL - minL) < 31) (h0 : K) {bcs : List (BcCond K)} (hbc : ∀ c ∈ bcs, GoodBc n dom cfg.maxStencilWidth c)
    (enlarge : Bool) (eps factor : K) {m : SubMeshes} {x : CA} (h : AdaptInv n cfg dom minL maxL m x) (f : CellField K) :
    ∃ m' x' f', adaptMr n cfg 1 minL maxL enlarge dom h0 bcs eps factor m x f = some (m', x', f') ∧
      AdaptInv n cfg dom minL maxL m' x' ∧ integral n m'.cells f' = integral n m.cells f := by
  unfold adaptMr
  by_cases heq : minL = maxL
  · rw [if_pos heq]
    exact ⟨m, x, f, rfl, h, rfl⟩
  · rw [if_neg heq]
    have key : ∀ (is : List Nat), (∀ i ∈ is, i ≤ maxL - minL) → ∀ (m : SubMeshes) (x : CA) (f : CellField K), AdaptInv n cfg dom minL maxL m x →
        ∃ m' x' f', adaptSteps n cfg 1 minL maxL enlarge dom h0 bcs eps factor is m x f = some (m', x', f') ∧
          AdaptInv n cfg dom minL maxL m' x' ∧ integral n m'.cells f' = integral n m.cells f := by
      intro is
      induction is with
      | nil => exact fun _ m x f h => ⟨m, x, f, rfl, h, rfl⟩
      | cons i is ih =>
        intro hi m x f h
        obtain ⟨stop, m', x', f', a1, a2, a3⟩ := adaptStep_inv hn st hd hmin (by omega) hsh h0 hbc enlarge eps factor (hi i List.mem_cons_self) h f
        unfold adaptSteps
        rw [a1]
        simp only []
        cases stop
        · obtain ⟨m2, x2, f2, i1, i2, i3⟩ := ih (fun j hj => hi j (List.mem_cons_of_mem _ hj)) m' x' f' a2
          exact ⟨m2, x2, f2, i1, i2, i3.trans a3⟩
        · exact ⟨m', x', f', rfl, a2, a3⟩
    obtain ⟨u, S, e1, -, e2, -⟩ := ghostArray_ok hn st h (hd.mono (by omega)) heq h0 bcs hbc f
    obtain ⟨m', x', f', k1, k2, k3⟩ := key (List.range (maxL - minL)) (fun i hi => by have := List.mem_range.1 hi; omega) m x (fieldAt n m.all u) h
    rw [e1]
    refine ⟨m', x', f', k1, k2, k3.trans ?_⟩
    unfold integral
    congr 1
    apply List.map_congr_left
    intro e he
    rw [e2 e.1 e.2.1 (CA.mem_of_numbered h.leaves.wf (v := e.2.2) he)]

/-- C102. Time loops: from leaves that tile a box and are graded, for every sequence of turns, where the field is changed in any way and the mesh is then
adapted with any `eps`, any regularity and any boundary conditions, every adaptation succeeds (each cell read exists) and the leaves always tile the
domain without overlap, are graded, and have levels in `[min_level, max_level]`. If the changes of the field conserve its integral, as the conservative
schemes do, the integral is the same after any number of turns. -/
theorem C102_time_loop_partial (n : Nat) (hn : n ≤ 2) (cfg : MeshConfig) (cells : CA) (dom : LCA) (minL maxL base : Nat) (b : Box)
    (st : BoxSetup n cfg dom minL maxL base b) (g : GoodLeaves n cells dom minL maxL)
    (hd : GoodDomain n dom minL maxL (cfg.maxStencilWidth + cfg.predictionOrder + 4)) (hmin : 1 ≤ minL) (hmm : minL ≤ maxL)
    (hsh : (n + 1) * (maxL - minL) < 31) (h0 : K) (calls : List (MrCall K))
    (hbc : ∀ call ∈ calls, ∀ c ∈ call.bcs, GoodBc n dom cfg.maxStencilWidth c) (f : CellField K) :
    ∃ m x m' x' f', mrMesh n cfg cells minL maxL = some (m, x) ∧ runMr n cfg 1 minL maxL dom h0 calls m x f = some (m', x', f') ∧
      GoodLeaves n m'.cells dom minL maxL ∧
      ((∀ call ∈ calls, ∀ (m : SubMeshes) (x : CA) (f : CellField K), AdaptInv n cfg dom minL maxL m x →
        integral n m.cells (call.change m f) = integral n m.cells f) → integral n m'.cells f' = integral n m.cells f) := by
  obtain ⟨m, x, h1, h2, h3⟩ := adaptInv_init' (cfg := cfg) hd (by omega) g
  have key : ∀ (calls : List (MrCall K)), (∀ call ∈ calls, ∀ c ∈ call.bcs, GoodBc n dom cfg.maxStencilWidth c) →
      ∀ (m : SubMeshes) (x : CA) (f : CellField K), AdaptInv n cfg dom minL maxL m x →
      ∃ m' x' f', runMr n cfg 1 minL maxL dom h0 calls m x f = some (m', x', f') ∧ AdaptInv n cfg dom minL maxL m' x' ∧
        ((∀ call ∈ calls, ∀ (m : SubMeshes) (x : CA) (f : CellField K), AdaptInv n cfg dom minL maxL m x →
          integral n m.cells (call.change m f) = integral n m.cells f) → integral n m'.cells f' = integral n m.cells f) := by
    intro calls
    induction calls with
    | nil => exact fun _ m x f h => ⟨m, x, f, rfl, h, fun _ => rfl⟩
    | cons c cs ih =>
      intro hbc m x f h
      obtain ⟨m', x', f', a1, a2, a3⟩ := adaptMr_inv hn st hd hmin hmm hsh h0 (hbc c List.mem_cons_self) c.enlarge c.eps c.factor h (c.change m f)
      obtain ⟨m2, x2, f2, b1, b2, b3⟩ := ih (fun c' hc => hbc c' (List.mem_cons_of_mem _ hc)) m' x' f' a2
      refine ⟨m2, x2, f2, ?_, b2, fun hcons => ?_⟩
      · unfold runMr
        rw [a1]
        exact b1
      · exact (b3 fun c' hc => hcons c' (List.mem_cons_of_mem _ hc)).trans (a3.trans (hcons c List.mem_cons_self m x f h))
  obtain ⟨m', x', f', k1, k2, k3⟩ := key calls hbc m x f h2
  exact ⟨m, x, m', x', f', h1, k1, k2.leaves, k3⟩

end

/-- C102 on the square with four leaves of level 2 in a corner, `Dirichlet<1>` on the whole boundary, two turns with different thresholds, the field being
left as it is between the adaptations. -/
example (f : CellField Rat) (value : (Nat → Int) → MCell → Rat) : ∃ m x R m' x' f', mrMesh 1 ⟨1, 1⟩ cornerMesh 1 2 = some (m, x) ∧
    everywhereRegion 1 squareDomain = some R ∧
    runMr 1 ⟨1, 1⟩ 1 1 2 squareDomain 1 [⟨fun _ f => f, false, [⟨.dirichlet 1, value, R⟩], 1 / 10, 8⟩, ⟨fun _ f => f, true, [⟨.neumann, value, R⟩], 1 / 100, 8⟩] m x f
      = some (m', x', f') ∧ GoodLeaves 1 m'.cells squareDomain 1 2 ∧ integral 1 m'.cells f' = integral 1 m.cells f := by
  obtain ⟨R, r1, r2⟩ := everywhere_covers (n := 1) (by omega) squareDomain_box.wf squareRange
  obtain ⟨m, x, m', x', f', a1, a2, a3, a4⟩ := C102_time_loop_partial (K := Rat) 1 (by omega) ⟨1, 1⟩ cornerMesh squareDomain 1 2 0 _ cornerSetup
    cornerLeaves_good (cornerDomain_good 6 (by omega)) (by omega) (by omega) (by omega) 1
    [⟨fun _ f => f, false, [⟨.dirichlet 1, value, R⟩], 1 / 10, 8⟩, ⟨fun _ f => f, true, [⟨.neumann, value, R⟩], 1 / 100, 8⟩] (fun call hcall c hc => by
      rcases List.mem_cons.1 hcall with rfl | hcall
      · rw [List.mem_singleton] at hc
        subst hc
        exact (r2 (.dirichlet 1) value 1 ⟨by omega, by omega⟩ (by simp [BcKind.ghosts, BcKind.stencilSize])).1
      · rw [List.mem_singleton] at hcall
        subst hcall
        rw [List.mem_singleton] at hc
        subst hc
        exact (r2 .neumann value 1 trivial (by simp [BcKind.ghosts, BcKind.stencilSize])).1) f
  refine ⟨m, x, R, m', x', f', a1, r1, a2, a3, a4 fun call hcall m x f _ => ?_⟩
  rcases List.mem_cons.1 hcall with rfl | hcall
  · rfl
  · rw [List.mem_singleton] at hcall
    subst hcall
    rfl

end Samurai

/-
C95: the iterations of the Newton solver in dimension 1.
-/
import Verif.Lemmas.NewtonDim1
import Verif.Props.PetscExample

namespace Samurai

section
variable {K : Type} [NontriviallyNormedField K] [CharZero K] [DecidableEq K] {m : Nat}

/-- C95, in dimension 1. At each vector `y`, for all the directions that satisfy the homogeneous boundary conditions: the function of the Newton solver has a derivative in the leaves,
which is the product of the direction and of the Jacobian matrix assembled at the field after `update_ghost_mr`. The matrix of the solver is assembled at the field after `update_bc`
only: it is the derivative if the eliminated ghosts of `y` have the values of the projection and of the prediction. The increments are 0 there, since the equation of such
a ghost is `diag * increment = 0`. -/
theorem C95_newton_dim1_partial (cfg : MeshConfig) (hs : cfg.predictionOrder = 1) (hw : cfg.maxStencilWidth = 1) (cells : CA) (dom : LCA)
    (minL maxL base : Nat) (b : Box) (g : GoodLeaves 0 cells dom minL maxL)
    (hgd : GoodDomain 0 dom minL maxL (cfg.maxStencilWidth + cfg.predictionOrder + 3)) (hne : minL ≠ maxL) (hd : BoxDomain 0 dom base b)
    (hdl : dom.level = maxL) (hbase : base ≤ minL - 3)
    (hB : ∃ B : Int, 0 ≤ B ∧ B + 11 * 2 ^ dom.level + 2 < INT_MAX ∧ ∀ d ≤ 0, b.hi d * 2 ^ (dom.level - base) ≤ B)
    (origin : Fin 1 → K) (h0 diag : K) (bcs : List (FieldBc K 0 m)) (hkind : ∀ c ∈ bcs, c.kind.Implicit) (hcoords : ∀ c ∈ bcs, c.OfCoords)
    (hreg : ∀ x ∈ fieldEntries bcs, UnitVector 0 x.2.1 → OneAxis 0 x.2.1 → BdryRegion 0 dom x.2.1 x.2.2) (hcov : FieldCovers dom bcs)
    (nd : NonlinDef K (Fin m → K) (Fin m → K)) (hJ : ∀ u, nd.HasJacobian 0 u) (hR : nd.ReadsStencil 0)
    (hS : ∀ d ≤ 0, StencilOK 0 cfg.maxStencilWidth (unitDir d) (nd.stencil d)) (hS2 : ∀ d ≤ 0, TwoPoint 0 (unitDir d) (nd.stencil d)) (soa : Bool) (shift : Int) :
    ∃ M x S sub rec, mrMesh 0 cfg cells minL maxL = some (M, x) ∧ constructSubdomain 0 cells maxL = some S ∧ constructSubdomain 0 M.cells maxL = some sub ∧
      (∀ fuel, 2 * maxL < fuel → ghostRecursion 0 cfg.predictionOrder M.all M.ghosts M.cells fuel = some rec) ∧
      ∀ y : Int → K, ∃ w E A marked,
        (∀ j : Fin m, updateGhostMr 0 ⟨⟨M.cells, M.all, dom, minL, maxL, fun _ => false, h0, cfg⟩, M.proj, S⟩ (explicitConds origin h0 bcs j)
          (fun k => y (dataIndex soa M.all.nbCells m shift k j)) = some fun k => w k j) ∧
        assembleJacobian 0 h0 ⟨soa, M.all.nbCells, m, m, shift, shift⟩ rec M.all sub M.cells maxL true nd w = some E ∧
        newtonJacobian 0 ⟨⟨M.cells, M.all, dom, minL, maxL, fun _ => false, h0, cfg⟩, M.proj, S⟩ origin diag ⟨soa, M.all.nbCells, m, m, shift, shift⟩ rec sub true nd bcs y =
          some (A, marked) ∧
        (∀ δ l q k, (l, q, k) ∈ M.all.numbered 0 → ProjGhost 0 M.cells M.ghosts l q ∨ PredGhost 0 M.cells M.ghosts l q → ∀ i : Fin m,
          matVec A shift (M.all.nbCells * m) δ (dataIndex soa M.all.nbCells m shift k i) = diag * δ (dataIndex soa M.all.nbCells m shift k i)) ∧
        ∀ δ v dval, IsVector soa M.all.nbCells m shift v δ → FieldIs 0 M.all v dval →
          (∀ l1 z l2 l p q, fieldEntries bcs = l1 ++ z :: l2 → Constrains 0 M.cells l z p q → (∀ z' ∈ l2, ∀ p', ¬ Constrains 0 M.cells l z' p' q) →
            ∀ i, z.1.kind.Satisfied h0 l (fun j => dval l (walk 0 p j z.2.1) i) 1 0) →
          ∃ F : K → Int → K,
            (∀ t : K, newtonFunction 0 ⟨⟨M.cells, M.all, dom, minL, maxL, fun _ => false, h0, cfg⟩, M.proj, S⟩ origin ⟨soa, M.all.nbCells, m, m, shift, shift⟩ sub true nd bcs
              (fun r => y r + t * δ r) = some (F t)) ∧
            (∀ l q k, cells.Mem 0 l q → (l, q, k) ∈ M.all.numbered 0 → ∀ i : Fin m, HasDerivAt (fun t => F t (dataIndex soa M.all.nbCells m shift k i))
              (matVec (schemeMatrix E) shift (M.all.nbCells * m) δ (dataIndex soa M.all.nbCells m shift k i)) 0) ∧
            ((∀ l q k, (l, q, k) ∈ M.all.numbered 0 → ProjGhost 0 M.cells M.ghosts l q ∨ PredGhost 0 M.cells M.ghosts l q → ∀ i : Fin m,
                y (dataIndex soa M.all.nbCells m shift k i) = w k i) →
              ∀ l q k, cells.Mem 0 l q → (l, q, k) ∈ M.all.numbered 0 → ∀ i : Fin m, HasDerivAt (fun t => F t (dataIndex soa M.all.nbCells m shift k i))
                (matVec A shift (M.all.nbCells * m) δ (dataIndex soa M.all.nbCells m shift k i)) 0) := by
  classical
  have h2 : (2 : K) ≠ 0 := two_ne_zero
  have hB' := hB
  obtain ⟨B, hB0, hB1, hB2⟩ := hB'
  obtain ⟨M, x, sub, rec, e1, e2, e3, e4, e5⟩ := C94_jacobian 0 cfg cells dom minL maxL _ hgd le_rfl g (by omega) (by omega) h0 nd hS soa true shift shift
  obtain ⟨M', x', sub', rec', -, j1, -, j3, -, -, -, -, j8⟩ := C83_matrix 0 cfg cells dom minL maxL _ hgd le_rfl g (by omega) (by omega) h0
    (⟨nd.stencil, fun _ _ => []⟩ : LinDef K (Fin m → K) (Fin m → K)) hS soa true shift shift
  rw [e1] at j1
  cases j1
  obtain ⟨M', x', S, sub', q1, s1, q3, q4⟩ := C94_residual (m := m) (by omega : 0 ≤ 2) cfg hs hw cells dom minL maxL base b g hgd hne hd hdl hbase hB origin h0 bcs
    (fun c hc => ⟨(hkind c hc).exists, by rw [(hkind c hc).ghosts]⟩) hreg nd (fun d hd => by
      obtain ⟨F, J, f1, -⟩ := hJ (fun _ => 0) d hd
      rw [f1]
      rfl) hS true soa shift
  rw [e1] at q1
  cases q1
  rw [e3] at q3
  cases q3
  obtain ⟨M', x', h1, hinv, -⟩ := adaptInv_init' (cfg := cfg) hgd (by omega) g
  rw [e1] at h1
  cases h1
  have gE := hinv.elim hgd (by omega) (by omega)
  obtain ⟨hN, hN', hleafnum⟩ := hinv.nums hgd (by omega) (by omega)
  rw [hs, hw] at gE
  have gr := ghostReady_adapted hs hw g (hgd.mono (by omega)) hne hd hdl hbase hB0 hB1 hB2 h0 e1 s1
  have hcons := gE.seg_cons hdl hkind hreg hcov
  have hgood : ∀ (j : Fin m), ∀ c ∈ explicitConds origin h0 bcs j, GoodBc 0 dom cfg.maxStencilWidth c := fun j c hc => by
    obtain ⟨c', hc', rfl⟩ := List.mem_map.1 hc
    refine ⟨(hkind c' hc').exists, by rw [(hkind c' hc').ghosts]; omega, fun d hd hu ha => hreg (c', d) ?_ hu ha⟩
    exact List.mem_flatMap.2 ⟨c', hc', List.mem_map.2 ⟨d, hd, rfl⟩⟩
  have upd := updated_dim1 cfg hs hw cells dom minL maxL base b g hgd hne hd hdl hbase hB h0 (explicitConds origin h0 bcs) hgood e1 e2 s1
  have hbnd := fun {val : Nat → List Int → Fin m → K} => gE.seg_bc (val := val) (cfg := cfg) hdl hd (by omega) hkind hcoords hreg origin h0
  have hin : ∀ l q, M.cells.Mem 0 l q → M.all.Mem 0 l q := fun l q h => gE.fv.ghosts l q q h (near_refl _ _)
  have heq : ∀ (k : BcKind) (level : Nat), k.Implicit → ∃ eq, bcEquation h0 level k = some eq := by
    intro k level hk
    cases k with
    | dirichlet o => cases hk; exact ⟨_, rfl⟩
    | neumann => exact ⟨_, rfl⟩
  refine ⟨M, x, S, sub, rec, e1, s1, e3, e4, fun y => ?_⟩
  obtain ⟨w, val, w1, w2, w3, w4, w5, -, w7⟩ := upd fun k j => y (dataIndex soa M.all.nbCells m shift k j)
  obtain ⟨E, a1, -, -, a2⟩ := e5 w (hJ w)
  -- the field of the Jacobian
  have bc := fun j => updateBcLevels_spec gr (bcs := explicitConds origin h0 bcs j) (hgood j) (fun k => y (dataIndex soa M.all.nbCells m shift k j))
  choose wJ0 b1 b2 b3 using bc
  obtain ⟨EJ, c1, c2, -, c3⟩ := e5 (fun k j => wJ0 j k) (hJ _)
  -- the matrix
  have hS1 : ∀ d ≤ 0, StencilOK 0 1 (unitDir d) (nd.stencil d) := by rw [hw] at hS; exact hS
  obtain ⟨R, m1, m2⟩ := schemeMarks_spec gE.fv hinv.fvNumbers e3 ⟨soa, M.all.nbCells, m, m, shift, shift⟩ hS1
  obtain ⟨ev, G, n1, n2, n3, n4, hout, hcall, hsame, hOK, hBl, hGr⟩ := hinv.bcData (by omega) hgd (by omega) (by omega) hd hdl (by omega) h0 bcs hreg
  obtain ⟨A, marked, p1, p2⟩ := system_rows (origin := origin) (diag := diag) (Leaf := LeafNum 0 M.cells) h2 n1 n3
    (fun k ⟨l, q, hk⟩ => hN _ _ _ (hinv.fvNumbers.same _ _ _ hk)) c2 m2 hOK hBl hGr
  obtain ⟨_, -, p3, -, p4⟩ := p2 fun _ => 0
  refine ⟨w, E, A, marked, w1, a1, ?_, ?_, ?_⟩
  · unfold newtonJacobian
    have : eachComponent (fun (j : Fin m) (u : Int → K) => updateBcLevels 0 (⟨M.cells, M.all, dom, minL, maxL, fun _ => false, h0, cfg⟩ : BcMesh K) (explicitConds origin h0 bcs j) u)
        (fieldOf ⟨soa, M.all.nbCells, m, m, shift, shift⟩ m y) = some fun k j => wJ0 j k := eachComponent_some fun j => b1 j
    rw [this]
    simp only [c1, m1]
    exact p1
  · intro δ l q k hk hq i
    obtain ⟨k1, k2, k3⟩ := hGr k ((n4 k).2 ⟨l, q, hk, hq⟩)
    exact matVec_one (p4 k k1 k2 k3 i).1 (dataIndex_range k1.1 k1.2 i)
  intro δ v dval hv hdv hhom
  -- the completed direction
  obtain ⟨v', vval, v1, v2, v3, v4⟩ := j8 v
  obtain ⟨outE, o1, o2⟩ := a2 (.inr hS2) v v' vval δ hv v1 v2 v3 v4
  obtain ⟨outJ, oJ1, oJ2⟩ := c3 (.inr hS2) v v' vval δ hv v1 v2 v3 v4
  -- the fields along the line
  have hline : ∀ t : K, ∃ w' out F, (∀ j : Fin m, updateGhostMr 0 ⟨⟨M.cells, M.all, dom, minL, maxL, fun _ => false, h0, cfg⟩, M.proj, S⟩ (explicitConds origin h0 bcs j)
          (fun k => y (dataIndex soa M.all.nbCells m shift k j) + t * δ (dataIndex soa M.all.nbCells m shift k j)) = some fun k => w' k j) ∧
      nonlinApply 0 h0 M.all sub M.cells maxL true nd w' = some out ∧
      newtonFunction 0 ⟨⟨M.cells, M.all, dom, minL, maxL, fun _ => false, h0, cfg⟩, M.proj, S⟩ origin ⟨soa, M.all.nbCells, m, m, shift, shift⟩ sub true nd bcs
        (fun r => y r + t * δ r) = some F ∧
      ∀ l q k, cells.Mem 0 l q → (l, q, k) ∈ M.all.numbered 0 → ∀ i : Fin m, F (dataIndex soa M.all.nbCells m shift k i) = out k i := by
    intro t
    obtain ⟨r0, hr0⟩ := isVector_exists soa M.all.nbCells shift (fun _ (_ : Fin m) => (0 : K))
    obtain ⟨_, -, t1⟩ := q4 _ r0 hr0
    obtain ⟨w', out, F, t2, t3, t4, t5, -⟩ := t1 fun r => y r + t * δ r
    exact ⟨w', out, F, t2, t3, t4, t5⟩
  choose w' out F l1 l2 l3 l4 using hline
  -- the ghosts next to the leaves are affine functions of the step
  have haff : ∀ (t : K) l q k, (l, q, k) ∈ M.all.numbered 0 → M.ghosts.Mem 0 l q → w' t k = w k + t • v' k := by
    intro t
    obtain ⟨w'', val', x1, x2, x3, x4, x5, -, x7⟩ := upd fun k j => y (dataIndex soa M.all.nbCells m shift k j) + t * δ (dataIndex soa M.all.nbCells m shift k j)
    have hww : w'' = w' t := by
      funext k j
      have := (x1 j).symm.trans (l1 t j)
      exact congrFun (Option.some.inj this) k
    subst hww
    have hleafD : ∀ l q, M.cells.Mem 0 l q → val' l q - val l q - t • vval l q = 0 := by
      intro l q hq
      have hk := numOf_numbered gE.fv.refWF (hin l q hq)
      have hr := hN _ _ _ hk
      have hfree : v' (numOf 0 M.all l q) = v (numOf 0 M.all l q) := v1 l q _ hk (gE.leaf_proj hq) (gE.leaf_pred hq)
      rw [← x2 l q _ hk, ← w2 l q _ hk, ← v2 l q _ hk, x3 l q _ ((e2 l q).1 hq) hk, w3 l q _ ((e2 l q).1 hq) hk, hfree]
      funext j
      simp only [Pi.sub_apply, Pi.smul_apply, Pi.zero_apply, smul_eq_mul, hv.at hr.1 hr.2]
      ring
    have key := gE.seg_unique (K := K) hdl hkind hreg hcov (fun l q => val' l q - val l q - t • vval l q) hleafD ?_ ?_ ?_
    · intro l q k hk hq
      have := key l q hq
      rw [sub_sub, sub_eq_zero] at this
      rw [x2 l q k hk, w2 l q k hk, v2 l q k hk, this]
    · intro s1 z s2 l p q hl hc hlast
      have hz : z ∈ fieldEntries bcs := by rw [hl]; simp
      have y1 := hbnd x7 s1 z s2 l p q hl hc hlast
      have y2 := hbnd w7 s1 z s2 l p q hl hc hlast
      have y3 := hhom s1 z s2 l p q hl hc hlast
      obtain ⟨⟨-, hod⟩, hlm, hmp, hmq⟩ := hout z hz l p q hc
      obtain ⟨-, z2, z3⟩ := gE.outside hlm hod
      have hkq := numOf_numbered gE.fv.refWF hmq
      have hkp := numOf_numbered gE.fv.refWF hmp
      have hvq : vval l q = dval l q := by rw [← v2 l q _ hkq, ← hdv l q _ hkq, v1 l q _ hkq z2 z3]
      have hvp : vval l p = dval l p := by
        rw [← v2 l p _ hkp, ← hdv l p _ hkp, v1 l p _ hkp (gE.leaf_proj hc.2.2.2.1) (gE.leaf_pred hc.2.2.2.1)]
      obtain ⟨eq, he⟩ := heq z.1.kind l hc.2.2.1
      obtain ⟨-, -, hγ⟩ := bcEquation_coeffs h2 he
      have hp := hleafD l p hc.2.2.2.1
      funext i
      have y1 := y1 i
      have y2 := y2 i
      have y3 := y3 i
      have hp := congrFun hp i
      rw [satisfied_implicit h2 he, walk_zero, ← hc.2.2.2.2.2] at y1 y2 y3
      simp only [Pi.sub_apply, Pi.smul_apply, Pi.zero_apply, smul_eq_mul, hvq, hvp] at hp ⊢
      refine mul_left_cancel₀ hγ ?_
      linear_combination y1 - y2 - t * y3 - eq.1 0 * hp
    · intro l q hq
      have y1 := x4 l q hq
      have y2 := w4 l q hq
      have y3 := v3 l q hq
      unfold MeanBelow at y1 y2 y3 ⊢
      simp only []
      rw [y1, y2, y3]
      have : ∀ L : List (List Int), (L.map fun c => val' (l + 1) c - val (l + 1) c - t • vval (l + 1) c).sum =
          (L.map fun c => val' (l + 1) c).sum - (L.map fun c => val (l + 1) c).sum - t • (L.map fun c => vval (l + 1) c).sum := by
        intro L
        induction L with
        | nil => simp
        | cons a L ih =>
          simp only [List.map_cons, List.sum_cons, ih, smul_add]
          abel
      rw [this, smul_sub, smul_sub, smul_comm t]
    · intro l q hq
      have y1 := x5 l q hq
      have y2 := w5 l q hq
      have y3 := v4 l q hq
      obtain ⟨x, rfl⟩ : ∃ x, q = [x] := by
        have := mem_length hq.2.1.2
        match q, this with
        | [x], _ => exact ⟨x, rfl⟩
      rw [hs] at y1 y2 y3
      rw [tensor_dim1] at y1 y2 y3 ⊢
      rw [y1, y2, y3]
      module
  refine ⟨F, l3, fun l q k hq hk i => ?_, fun hcur l q k hq hk i => ?_⟩
  · have hE : ∀ t, out t = outE t := fun t => gE.fv.nonlin_local hinv.fvNumbers e3 hR hS1 hS2 (by
      rintro l q k hk ⟨p, hp, hn⟩
      exact haff t l q k hk (gE.near_cag hp hn)) (l2 t) (o1 t)
    have := o2 k (hN _ _ _ hk).1 (hN _ _ _ hk).2 i
    have hf : (fun t => F t (dataIndex soa M.all.nbCells m shift k i)) = fun t => outE t k i := by
      funext t
      rw [l4 t l q k hq hk i, hE t]
    rw [hf]
    exact this
  · -- the two fields are equal next to the leaves
    have hJw : ∀ l q k, (l, q, k) ∈ M.all.numbered 0 → M.ghosts.Mem 0 l q → (fun j => wJ0 j k) = w k := by
      have hJb : ∀ j l p, M.all.Mem 0 l p → BoundaryHolds 0 (⟨M.cells, M.all, dom, minL, maxL, fun _ => false, h0, cfg⟩ : BcMesh K) (explicitConds origin h0 bcs j) l (b.refined (l - base))
          fun l q => wJ0 j (numOf 0 M.all l q) := by
        intro j l p hp
        have hlev := gr.levels hp
        exact afterBc_holds gr (hgood j) (by omega) hlev.2 (b3 j l hlev.1 hlev.2)
      have hJbc := hbnd (val := fun l q j => wJ0 j (numOf 0 M.all l q)) hJb
      have hkeep : ∀ l q k, (l, q, k) ∈ M.all.numbered 0 → InBox (b.refined (l - base)) 0 q → ∀ j, wJ0 j k = y (dataIndex soa M.all.nbCells m shift k j) := by
        intro l q k hk hq j
        obtain ⟨h1, rfl⟩ := numbered_numOf gE.fv.refWF hk
        exact (b2 j).at gr.refWF gr.numbers h1 fun h => h.out hq
      have hbox : ∀ l q, M.all.Mem 0 l q → M.cells.Mem 0 l q ∨ ProjGhost 0 M.cells M.ghosts l q ∨ PredGhost 0 M.cells M.ghosts l q → InBox (b.refined (l - base)) 0 q := by
        intro l q hm hq
        by_contra hno
        have hlev : minL ≤ l + 2 ∧ l ≤ maxL := by
          obtain ⟨c0, hc0⟩ := hinv.mesh
          obtain ⟨m0, f1, f2, -, -, f5⟩ := hc0.content
          have h := (f5 l q).1 hm
          rw [f1.all hne] at h
          exact mrAll_levels (fun l q h => hinv.leaves.between l q ((f2 l q).2 h)) h
        obtain ⟨k1, k2, k3⟩ := gE.outside hlev.2 (outside_box hd hdl (by omega) hlev.2 hno)
        rcases hq with h | h | h
        · exact k1 h
        · exact k2 h
        · exact k3 h
      have hleafJ : ∀ l q k, (l, q, k) ∈ M.all.numbered 0 → M.cells.Mem 0 l q → ∀ j, wJ0 j k = w k j := by
        intro l q k hk hq j
        rw [hkeep l q k hk (hbox l q (hin l q hq) (.inl hq)) j, w3 l q k ((e2 l q).1 hq) hk]
      intro l q k hk hG
      funext j
      rcases hcons l q hG with h | h | h | ⟨s1, z, s2, p, k1, k2, k3⟩
      · exact hleafJ l q k hk h j
      · rw [hkeep l q k hk (hbox l q (gE.cag_ref hG) (.inr (.inl h))) j, hcur l q k hk (.inl h) j]
      · rw [hkeep l q k hk (hbox l q (gE.cag_ref hG) (.inr (.inr h))) j, hcur l q k hk (.inr h) j]
      · have y1 := hJbc s1 z s2 l p q k1 k2 k3 j
        have y2 := hbnd w7 s1 z s2 l p q k1 k2 k3 j
        obtain ⟨eq, he⟩ := heq z.1.kind l k2.2.2.1
        obtain ⟨-, -, hγ⟩ := bcEquation_coeffs h2 he
        rw [satisfied_implicit h2 he, walk_zero, ← k2.2.2.2.2.2] at y1 y2
        have hkp := numOf_numbered gE.fv.refWF (hin l p k2.2.2.2.1)
        obtain ⟨-, rfl⟩ := numbered_numOf gE.fv.refWF hk
        rw [hleafJ l p _ hkp k2.2.2.2.1 j, w2 l p _ hkp] at y1
        rw [w2 l q _ hk]
        refine mul_left_cancel₀ hγ ?_
        linear_combination y1 - y2
    have hE : ∀ t, out t = outJ t := fun t => gE.fv.nonlin_local hinv.fvNumbers e3 hR hS1 hS2 (by
      rintro l q k hk ⟨p, hp, hn⟩
      have hG := gE.near_cag hp hn
      rw [haff t l q k hk hG, ← hJw l q k hk hG]) (l2 t) (oJ1 t)
    have := oJ2 k (hN _ _ _ hk).1 (hN _ _ _ hk).2 i
    have hf : (fun t => F t (dataIndex soa M.all.nbCells m shift k i)) = fun t => outJ t k i := by
      funext t
      rw [l4 t l q k hq hk i, hE t]
    have hA : matVec A shift (M.all.nbCells * m) δ (dataIndex soa M.all.nbCells m shift k i) =
        matVec (schemeMatrix EJ) shift (M.all.nbCells * m) δ (dataIndex soa M.all.nbCells m shift k i) := by
      unfold matVec
      rw [(p3 k ((hleafnum _ _ _ hk).2 ((e2 l q).2 hq)) i).1]
    rw [hf, hA]
    exact this

end

/-! ### a segment -/

/-- The flux `Σ_c u(c)²` of a scalar field. -/
def squareFlux (K : Type) [Field K] : NonlinDef K (Fin 1 → K) (Fin 1 → K) where
  stencil := fun d => inOutStencil (unitDir d)
  consFlux := fun _ => some fun C u i => (C.map fun c => u c.index i * u c.index i).sum
  flux := fun _ => none
  consJac := fun _ => some fun C u => C.map fun c => (2 * u c.index 0) • (LinearMap.id : (Fin 1 → K) →ₗ[K] (Fin 1 → K))
  jac := fun _ => none

theorem squareFlux_jacobian {K : Type} [NontriviallyNormedField K] (n : Nat) (u : Int → Fin 1 → K) : (squareFlux K).HasJacobian n u := by
  have h1 : ∀ (C : List MCell) (v : Int → Fin 1 → K) (i : Fin 1),
      HasDerivAt (fun t : K => (C.map fun c => (u c.index + t • v c.index) i * (u c.index + t • v c.index) i).sum)
        ((linValue v (C.map fun c => (2 * u c.index 0) • (LinearMap.id : (Fin 1 → K) →ₗ[K] (Fin 1 → K))) C : Fin 1 → K) i) 0 := by
    intro C v i
    induction C with
    | nil => exact hasDerivAt_const _ _
    | cons c C ih =>
      simp only [List.map_cons, List.sum_cons, linValue, Pi.add_apply]
      refine HasDerivAt.add ?_ ih
      have e : HasDerivAt (fun t : K => u c.index i + t * v c.index i) (v c.index i) 0 := by
        simpa using ((hasDerivAt_id (0 : K)).mul_const (v c.index i)).const_add (u c.index i)
      refine (e.mul e).congr_deriv ?_
      obtain rfl : i = 0 := Subsingleton.elim _ _
      simp
      ring
  intro d _
  refine ⟨_, _, rfl, rfl, fun C => ⟨?_, h1 C, fun v i => ?_⟩⟩
  · simp [negL]
  · have := (h1 C v i).neg
    rw [← Pi.neg_apply, ← linValue_neg] at this
    exact this

theorem squareFlux_reads {K : Type} [Field K] (n : Nat) : (squareFlux K).ReadsStencil n := by
  intro d _ F hF C u1 u2 h
  obtain rfl := Option.some.inj (show some _ = some F from hF)
  have : ∀ i : Fin 1, (C.map fun c => u1 c.index i * u1 c.index i) = C.map fun c => u2 c.index i * u2 c.index i := fun i => List.map_congr_left fun c hc => by rw [h c hc]
  show ((fun i => _ : Fin 1 → K), (- fun i => _ : Fin 1 → K)) = _
  simp only [this]

/-- The value 1 on the boundary. -/
def segBc (R : List ((Nat → Int) × LCA)) : List (FieldBc Rat 0 1) := [⟨.dirichlet 1, fun _ _ _ _ => 1, R⟩]

/-- The mesh of the segment for `update_ghost_mr`. -/
def segGhosts (M : SubMeshes) (S : LCA) : GhostMesh Rat := ⟨⟨M.cells, M.all, segDomain, 1, 2, fun _ => false, 1, ⟨1, 1⟩⟩, M.proj, S⟩

/-- The theorem on a segment with leaves of two levels and the value 1 on the whole boundary. -/
theorem segNewton (soa : Bool) : ∃ M x S R sub rec, mrMesh 0 ⟨1, 1⟩ segMesh 1 2 = some (M, x) ∧ constructSubdomain 0 segMesh 2 = some S ∧
    everywhereRegion 0 segDomain = some R ∧ constructSubdomain 0 M.cells 2 = some sub ∧ ghostRecursion 0 1 M.all M.ghosts M.cells 5 = some rec ∧
    (∀ d ∈ R, OneAxis 0 d.1 → BdryRegion 0 segDomain d.1 d.2) ∧
    ∀ y : Int → Rat, ∃ w E A marked,
        (∀ j : Fin 1, updateGhostMr 0 (segGhosts M S) (explicitConds (fun _ => 0) 1 (segBc R) j)
          (fun k => y (dataIndex soa M.all.nbCells 1 0 k j)) = some fun k => w k j) ∧
        assembleJacobian 0 1 ⟨soa, M.all.nbCells, 1, 1, 0, 0⟩ rec M.all sub M.cells 2 true (squareFlux Rat) w = some E ∧
        newtonJacobian 0 (segGhosts M S) (fun _ => 0) 1 ⟨soa, M.all.nbCells, 1, 1, 0, 0⟩ rec sub true (squareFlux Rat)
          (segBc R) y = some (A, marked) ∧
        (∀ δ l q k, (l, q, k) ∈ M.all.numbered 0 → ProjGhost 0 M.cells M.ghosts l q ∨ PredGhost 0 M.cells M.ghosts l q → ∀ i : Fin 1,
          matVec A 0 (M.all.nbCells * 1) δ (dataIndex soa M.all.nbCells 1 0 k i) = 1 * δ (dataIndex soa M.all.nbCells 1 0 k i)) ∧
        ∀ δ v dval, IsVector soa M.all.nbCells 1 0 v δ → FieldIs 0 M.all v dval →
          (∀ l1 z l2 l p q, fieldEntries (segBc R) = l1 ++ z :: l2 → Constrains 0 M.cells l z p q →
            (∀ z' ∈ l2, ∀ p', ¬ Constrains 0 M.cells l z' p' q) → ∀ i, z.1.kind.Satisfied 1 l (fun j => dval l (walk 0 p j z.2.1) i) 1 0) →
          ∃ F : Rat → Int → Rat,
            (∀ t : Rat, newtonFunction 0 (segGhosts M S) (fun _ => 0) ⟨soa, M.all.nbCells, 1, 1, 0, 0⟩ sub true
              (squareFlux Rat) (segBc R) (fun r => y r + t * δ r) = some (F t)) ∧
            (∀ l q k, segMesh.Mem 0 l q → (l, q, k) ∈ M.all.numbered 0 → ∀ i : Fin 1, HasDerivAt (fun t => F t (dataIndex soa M.all.nbCells 1 0 k i))
              (matVec (schemeMatrix E) 0 (M.all.nbCells * 1) δ (dataIndex soa M.all.nbCells 1 0 k i)) 0) ∧
            ((∀ l q k, (l, q, k) ∈ M.all.numbered 0 → ProjGhost 0 M.cells M.ghosts l q ∨ PredGhost 0 M.cells M.ghosts l q → ∀ i : Fin 1,
                y (dataIndex soa M.all.nbCells 1 0 k i) = w k i) →
              ∀ l q k, segMesh.Mem 0 l q → (l, q, k) ∈ M.all.numbered 0 → ∀ i : Fin 1, HasDerivAt (fun t => F t (dataIndex soa M.all.nbCells 1 0 k i))
                (matVec A 0 (M.all.nbCells * 1) δ (dataIndex soa M.all.nbCells 1 0 k i)) 0) := by
  obtain ⟨_, R, r1, r2, r3⟩ := C72_directions 0 (by omega) segDomain segDomain_box.wf segRange
  have ent : ∀ x, x ∈ fieldEntries (segBc R) ↔ ∃ d ∈ R, x = (⟨.dirichlet 1, fun _ _ _ _ => 1, R⟩, d) := by
    intro x
    simp only [segBc, fieldEntries, List.flatMap_cons, List.flatMap_nil, List.append_nil, List.mem_map]
    constructor <;> rintro ⟨d, hd, rfl⟩ <;> exact ⟨d, hd, rfl⟩
  obtain ⟨M, x, S, sub, rec, h1, h2, h3, h4, h5⟩ := C95_newton_dim1_partial (m := 1) ⟨1, 1⟩ rfl rfl segMesh segDomain 1 2 0 _ segLeaves_good (segDomain_good 5 (by omega))
    (by omega) segDomain_box rfl (by omega) ⟨4, by omega, by decide, fun _ _ => by show (1 : Int) * 2 ^ 2 ≤ 4; decide⟩ (fun _ => 0) (1 : Rat) 1
    (segBc R) (by simp [segBc, BcKind.Implicit]) (by simp [segBc, FieldBc.OfCoords])
    (fun x hx _ hax => by obtain ⟨d, hd, rfl⟩ := (ent x).1 hx; exact (r2 d hd hax).1)
    (fun q w hq hw hax hn => by
      obtain ⟨d, hd, hdw⟩ := r3 w hw hax
      refine ⟨_, (ent _).2 ⟨d, hd, rfl⟩, hdw, ?_⟩
      have ha' : OneAxis 0 d.1 := by
        obtain ⟨k, hk, h, h'⟩ := hax
        exact ⟨k, hk, by rw [hdw k hk]; exact h, fun j hj hjk => by rw [hdw j hj]; exact h' j hj hjk⟩
      refine ((r2 d hd ha').2 q).2 ⟨hq, ?_⟩
      rw [shift_congr _ _ hdw]
      exact hn)
    (squareFlux Rat) (fun u => squareFlux_jacobian 0 u) (squareFlux_reads 0) (fun d _ => inOut_ok 0 d) (fun d _ => inOut_two 0 d) soa 0
  exact ⟨M, x, S, R, sub, rec, h1, h2, r1, h3, h4 5 (by omega), fun d hd hax => (r2 d hd hax).1, h5⟩

/-- The first step: 1 in the leaf of level 1, -1 in its boundary ghost. -/
def segStep (M : CA) (r : Int) : Rat := if r = numOf 0 M 1 [0] then 1 else if r = numOf 0 M 1 [-1] then -1 else 0

/-- The right-hand side whose first Newton increment is `segStep`. -/
def segRhs (M : CA) (r : Int) : Rat := if r = numOf 0 M 1 [0] then 9 / 2 else if r = numOf 0 M 2 [2] then -9 else 0

/-- Two iterations of the Newton solver from the field 1. -/
def segRun : Option Bool :=
  (mrMesh 0 ⟨1, 1⟩ segMesh 1 2).bind fun mx => (constructSubdomain 0 segMesh 2).bind fun S => (everywhereRegion 0 segDomain).bind fun R =>
  (constructSubdomain 0 mx.1.cells 2).bind fun sub => (ghostRecursion 0 1 mx.1.all mx.1.ghosts mx.1.cells 5).bind fun rec =>
  (newtonRhs 0 (fun _ => 0) 1 ⟨true, mx.1.all.nbCells, 1, 1, 0, 0⟩ mx.1.all mx.1.cells 2 (segBc R) (segRhs mx.1.all)).bind fun rhs =>
  (updateGhostMr 0 (segGhosts mx.1 S)
    (explicitConds (fun _ => 0) 1 (segBc R) 0) (fun _ => 1)).bind fun w0 =>
  (newtonFunction 0 (segGhosts mx.1 S) (fun _ => 0) ⟨true, mx.1.all.nbCells, 1, 1, 0, 0⟩ sub true (squareFlux Rat)
    (segBc R) (fun _ => 1)).bind fun F0 =>
  (newtonJacobian 0 (segGhosts mx.1 S) (fun _ => 0) 1 ⟨true, mx.1.all.nbCells, 1, 1, 0, 0⟩ rec sub true (squareFlux Rat)
    (segBc R) (fun _ => 1)).bind fun A0 =>
  (newtonJacobian 0 (segGhosts mx.1 S) (fun _ => 0) 1 ⟨true, mx.1.all.nbCells, 1, 1, 0, 0⟩ rec sub true (squareFlux Rat)
    (segBc R) (fun r => 1 + segStep mx.1.all r)).bind fun A1 =>
  (updateGhostMr 0 (segGhosts mx.1 S)
    (explicitConds (fun _ => 0) 1 (segBc R) 0) (fun k => 1 + segStep mx.1.all (0 + k))).bind fun w1 =>
  (assembleJacobian 0 1 ⟨true, mx.1.all.nbCells, 1, 1, 0, 0⟩ rec mx.1.all sub mx.1.cells 2 true (squareFlux Rat) (fun k _ => w1 k)).bind fun E =>
  some (((List.range mx.1.all.nbCells).all fun (r : Nat) => decide (w0 r = 1 ∧ matVec A0.1 0 (mx.1.all.nbCells * 1) (segStep mx.1.all) r = rhs r - F0 r)) &&
    ((mx.1.all.numbered 0).all fun e => decide (segStep mx.1.all e.2.2 = if e.1 = 1 ∧ e.2.1 = [0] then 1 else if e.1 = 1 ∧ e.2.1 = [-1] then -1 else 0)) &&
    ((mx.1.all.numbered 0).any fun e => decide (e.1 = 1 ∧ e.2.1 = [0] ∧ matVec (schemeMatrix E) 0 (mx.1.all.nbCells * 1) (segStep mx.1.all) (0 + e.2.2) ≠
      matVec A1.1 0 (mx.1.all.nbCells * 1) (segStep mx.1.all) (0 + e.2.2))))

/-- The matrix of the Newton solver is not always the Jacobian matrix. On a segment with leaves of two levels and the value 1 on the boundary, the solver starts from the field 1,
whose ghosts are those of `update_ghost_mr`, and makes a full Newton step `δ` for the right-hand side `segRhs`. At the new iterate, the eliminated ghosts still have the value 1: the
derivative of the function of the solver in the direction `δ` is not the product of the matrix of the solver and of `δ` in a leaf. -/
theorem C95_newton_refuted : ∃ M x S R sub rec rhs w0 F0 A0 marked0 A1 marked1, ∃ F : Rat → Int → Rat, ∃ δ : Int → Rat,
    mrMesh 0 ⟨1, 1⟩ segMesh 1 2 = some (M, x) ∧ constructSubdomain 0 segMesh 2 = some S ∧
    everywhereRegion 0 segDomain = some R ∧ constructSubdomain 0 M.cells 2 = some sub ∧ ghostRecursion 0 1 M.all M.ghosts M.cells 5 = some rec ∧
    newtonRhs 0 (fun _ => 0) 1 ⟨true, M.all.nbCells, 1, 1, 0, 0⟩ M.all M.cells 2 (segBc R) (segRhs M.all) = some rhs ∧
    updateGhostMr 0 (segGhosts M S)
      (explicitConds (fun _ => 0) 1 (segBc R) 0) (fun _ => 1) = some w0 ∧
    (∀ r : Int, 0 ≤ r → r < M.all.nbCells → w0 r = 1) ∧
    newtonFunction 0 (segGhosts M S) (fun _ => 0) ⟨true, M.all.nbCells, 1, 1, 0, 0⟩ sub true (squareFlux Rat)
      (segBc R) (fun _ => 1) = some F0 ∧
    newtonJacobian 0 (segGhosts M S) (fun _ => 0) 1 ⟨true, M.all.nbCells, 1, 1, 0, 0⟩ rec sub true (squareFlux Rat)
      (segBc R) (fun _ => 1) = some (A0, marked0) ∧
    (∀ r : Int, 0 ≤ r → r < M.all.nbCells → matVec A0 0 (M.all.nbCells * 1) δ r = rhs r - F0 r) ∧
    newtonJacobian 0 (segGhosts M S) (fun _ => 0) 1 ⟨true, M.all.nbCells, 1, 1, 0, 0⟩ rec sub true (squareFlux Rat)
      (segBc R) (fun r => 1 + δ r) = some (A1, marked1) ∧
    (∀ t : Rat, newtonFunction 0 (segGhosts M S) (fun _ => 0) ⟨true, M.all.nbCells, 1, 1, 0, 0⟩ sub true
      (squareFlux Rat) (segBc R) (fun r => 1 + δ r + t * δ r) = some (F t)) ∧
    ∃ k, (1, [0], k) ∈ M.all.numbered 0 ∧ segMesh.Mem 0 1 [0] ∧ (∃ D, HasDerivAt (fun t => F t k) D 0) ∧
      ¬ HasDerivAt (fun t => F t k) (matVec A1 0 (M.all.nbCells * 1) δ k) 0 := by
  have h : segRun = some true := by decide +kernel
  unfold segRun at h
  obtain ⟨⟨M, x⟩, h1, h⟩ := Option.bind_eq_some_iff.1 h
  obtain ⟨S, h2, h⟩ := Option.bind_eq_some_iff.1 h
  obtain ⟨R, h3, h⟩ := Option.bind_eq_some_iff.1 h
  obtain ⟨sub, h4, h⟩ := Option.bind_eq_some_iff.1 h
  obtain ⟨rec, h5, h⟩ := Option.bind_eq_some_iff.1 h
  obtain ⟨rhs, h6, h⟩ := Option.bind_eq_some_iff.1 h
  obtain ⟨w0, h7, h⟩ := Option.bind_eq_some_iff.1 h
  obtain ⟨F0, h8, h⟩ := Option.bind_eq_some_iff.1 h
  obtain ⟨⟨A0, mk0⟩, h9, h⟩ := Option.bind_eq_some_iff.1 h
  obtain ⟨⟨A1, mk1⟩, h10, h⟩ := Option.bind_eq_some_iff.1 h
  obtain ⟨w1, h11, h⟩ := Option.bind_eq_some_iff.1 h
  obtain ⟨E, h12, h⟩ := Option.bind_eq_some_iff.1 h
  have h13 := h
  simp only [Option.some.injEq, Bool.and_eq_true, List.all_eq_true, List.any_eq_true, decide_eq_true_eq] at h13
  obtain ⟨⟨k1, k2⟩, ⟨l, q, k⟩, hk, rfl, rfl, k3⟩ := h13
  obtain ⟨M', x', S', R', sub', rec', g1, g2, g3, g4, g5, g6, g7⟩ := segNewton true
  rw [h1] at g1
  cases g1
  rw [h2] at g2
  cases g2
  rw [h3] at g3
  cases g3
  rw [h4] at g4
  cases g4
  rw [h5] at g5
  cases g5
  obtain ⟨w, E', A, marked, e1, e2, e3, -, e5⟩ := g7 fun r => 1 + segStep M.all r
  have hw : w = fun k _ => w1 k := by
    funext k j
    obtain rfl : j = 0 := Subsingleton.elim _ _
    have := (e1 0).symm.trans (show _ = some w1 from h11)
    exact congrFun (Option.some.inj this) k
  subst hw
  rw [h12] at e2
  cases e2
  rw [h10] at e3
  cases e3
  have hrow : ∀ r : Int, 0 ≤ r → r < M.all.nbCells → w0 r = 1 ∧ matVec A0 0 (M.all.nbCells * 1) (segStep M.all) r = rhs r - F0 r := by
    intro r r0 r1
    have := k1 r.toNat (List.mem_range.2 (by omega))
    rwa [show ((r.toNat : Nat) : Int) = r by omega] at this
  obtain ⟨M', x', m1, -, m3⟩ := adaptInv_init' (cfg := ⟨1, 1⟩) (segDomain_good 5 (by omega)) (by decide) segLeaves_good
  rw [h1] at m1
  cases m1
  obtain ⟨F, f1, f2, -⟩ := e5 (segStep M.all) (fun k _ => segStep M.all k) (fun l q _ => if l = 1 ∧ q = [0] then 1 else if l = 1 ∧ q = [-1] then -1 else 0) (by
      intro k _ _ j
      obtain rfl : j = 0 := Subsingleton.elim _ _
      simp) (by
      intro l q k hk
      funext _
      exact k2 (l, q, k) hk) (by
      rintro l1 z l2 l p q hl ⟨hu, hax, -, hp, ⟨c, c1, c2⟩, hq⟩ -
      have hz : z ∈ fieldEntries (segBc R) := by rw [hl]; simp
      simp only [segBc, fieldEntries, List.flatMap_cons, List.flatMap_nil, List.append_nil, List.mem_map] at hz
      obtain ⟨d, hd, rfl⟩ := hz
      have hreg := g6 d hd hax
      obtain ⟨b1, b2⟩ := hreg.cells c c1
      rw [hreg.level] at c2
      intro i
      rcases (segMesh_mem l p).1 ((m3 l p).1 hp) with ⟨rfl, rfl⟩ | ⟨rfl, -⟩
      · obtain ⟨y, rfl, hy⟩ := anc_seg.1 c2
        rw [show segDomain.level - 1 = 1 from rfl, pow_one] at hy
        have hs : ∀ (v : Nat → Int) (y : Int), shiftPoint v 0 [y] = [y + v 0] := fun v y => rfl
        rw [segDomain_mem] at b1 b2
        rw [hs] at b2
        obtain ⟨y', e, y1, y2⟩ := b1
        cases e
        have hv : d.1 0 = -1 := by
          rcases hu.1 0 le_rfl with h | h | h
          · exact h
          · obtain ⟨k, hk, h', -⟩ := hax
            obtain rfl : k = 0 := by omega
            exact absurd h h'
          · exact absurd ⟨y + 1, by rw [show d.1 0 = 1 from h], by omega, by omega⟩ b2
        have hw : ∀ j : Int, walk 0 [0] j d.1 = [-j] := fun j => by
          show [0 + j * d.1 0] = _
          rw [hv]
          simp
        refine ⟨1 - 2 * Polynomial.X, ?_, ?_, ?_, ?_⟩
        · compute_degree
        · intro j hj
          obtain rfl : j = 0 := by omega
          simp [hw]
        · simp
        · simp [hw]
          norm_num
      · refine ⟨0, ?_, ?_, ?_, ?_⟩ <;> simp)
  refine ⟨M, x, S, R, sub, rec, rhs, w0, F0, A0, mk0, A1, mk1, F, segStep M.all, h1, h2, h3, h4, h5, h6, h7, fun r r0 r1 => (hrow r r0 r1).1, h8, h9,
    fun r r0 r1 => (hrow r r0 r1).2, h10, f1, k, hk, (segMesh_mem _ _).2 (.inl ⟨rfl, rfl⟩), ?_, ?_⟩
  · have := f2 1 [0] k ((segMesh_mem _ _).2 (.inl ⟨rfl, rfl⟩)) hk 0
    rw [show dataIndex true M.all.nbCells 1 0 k ((0 : Fin 1) : Nat) = k by simp [dataIndex]] at this
    exact ⟨_, this⟩
  · intro hD
    have := f2 1 [0] k ((segMesh_mem _ _).2 (.inl ⟨rfl, rfl⟩)) hk 0
    rw [show dataIndex true M.all.nbCells 1 0 k ((0 : Fin 1) : Nat) = k by simp [dataIndex]] at this
    rw [zero_add] at k3
    exact k3 (this.unique hD)

end Samurai

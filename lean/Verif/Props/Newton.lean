/-
C94: the function and the Jacobian matrix of the Newton solver.
-/
import Verif.Lemmas.NewtonDeriv
import Verif.Lemmas.NewtonRhs
import Verif.Props.PetscImplicit

namespace Samurai

section
variable {K : Type} [NontriviallyNormedField K] {m p : Nat}

/-- C94, the Jacobian matrix. For every mesh of graded leaves and every non-linear scheme whose Jacobian functions are the derivatives of its flux functions at the field `u`: the
product of the matrix that `assemble_matrix` builds and of the vector of a field `v` is the derivative at `u`, in the direction `v`, of what the explicit scheme computes, in all
the cells — when the ghosts of `v` have the values of the projection and of the prediction. Or, with a stencil of two cells, when one gives these values to the eliminated ghosts of
`v`: the matrix does it itself. -/
theorem C94_jacobian (n : Nat) (cfg : MeshConfig) (cells : CA) (dom : LCA) (minL maxL margin : Nat)
    (hd : GoodDomain n dom minL maxL margin) (hm : cfg.maxStencilWidth + cfg.predictionOrder + 3 ≤ margin) (g : GoodLeaves n cells dom minL maxL)
    (hw : 1 ≤ cfg.maxStencilWidth) (ho : cfg.predictionOrder ≤ 5) (h0 : K) (nd : NonlinDef K (Fin m → K) (Fin p → K))
    (hS : ∀ d ≤ n, StencilOK n cfg.maxStencilWidth (unitDir d) (nd.stencil d)) (soa bdry : Bool) (rowShift colShift : Int) :
    ∃ M x sub rec, mrMesh n cfg cells minL maxL = some (M, x) ∧ (∀ l q, M.cells.Mem n l q ↔ cells.Mem n l q) ∧ constructSubdomain n M.cells maxL = some sub ∧
      (∀ fuel, 2 * maxL < fuel → ghostRecursion n cfg.predictionOrder M.all M.ghosts M.cells fuel = some rec) ∧
      ∀ u, nd.HasJacobian n u → ∃ E, assembleJacobian n h0 ⟨soa, M.all.nbCells, m, p, rowShift, colShift⟩ rec M.all sub M.cells maxL bdry nd u = some E ∧
        (∀ e ∈ E, ∃ (k : Int) (i : Fin p), e.1 = dataIndex soa M.all.nbCells p rowShift k i ∧ LeafNum n M.cells k) ∧
        (∀ v val y, IsVector soa M.all.nbCells m colShift v y → FieldIs n M.all v val →
          (∀ l q, ProjGhost n M.cells M.ghosts l q → MeanBelow (K := K) n val l q) →
          (∀ l q, PredGhost n M.cells M.ghosts l q → TensorPredicted (K := K) n cfg.predictionOrder val l q) →
          ∃ out : K → Int → Fin p → K, (∀ t, nonlinApply n h0 M.all sub M.cells maxL bdry nd (fun k => u k + t • v k) = some (out t)) ∧
            ∀ k : Int, 0 ≤ k → k < M.all.nbCells → ∀ i : Fin p,
              HasDerivAt (fun t => out t k i) (matVec (schemeMatrix E) colShift (M.all.nbCells * m) y (dataIndex soa M.all.nbCells p rowShift k i)) 0) ∧
        (bdry = false ∨ (∀ d ≤ n, TwoPoint n (unitDir d) (nd.stencil d)) → ∀ v v' val y, IsVector soa M.all.nbCells m colShift v y →
          (∀ l q k, (l, q, k) ∈ M.all.numbered n → ¬ ProjGhost n M.cells M.ghosts l q → ¬ PredGhost n M.cells M.ghosts l q → v' k = v k) → FieldIs n M.all v' val →
          (∀ l q, ProjGhost n M.cells M.ghosts l q → MeanBelow (K := K) n val l q) →
          (∀ l q, PredGhost n M.cells M.ghosts l q → TensorPredicted (K := K) n cfg.predictionOrder val l q) →
          ∃ out : K → Int → Fin p → K, (∀ t, nonlinApply n h0 M.all sub M.cells maxL bdry nd (fun k => u k + t • v' k) = some (out t)) ∧
            ∀ k : Int, 0 ≤ k → k < M.all.nbCells → ∀ i : Fin p,
              HasDerivAt (fun t => out t k i) (matVec (schemeMatrix E) colShift (M.all.nbCells * m) y (dataIndex soa M.all.nbCells p rowShift k i)) 0) := by
  classical
  obtain ⟨M, x, h1, h2, h3⟩ := adaptInv_init' (cfg := cfg) hd (by omega) g
  have gE := h2.elim hd (by omega) hw
  obtain ⟨rec, r1, r2, r3, r4, r5⟩ := gE.elimination (K := K) ho
  obtain ⟨sub, s1, -⟩ := constructSubdomain_spec (maxL := maxL) h2.leaves.wf h2.leaves.between
  obtain ⟨hN, hN', -⟩ := h2.nums hd (by omega) hw
  have hkey : ∀ l q k, (l, q, k) ∈ M.all.numbered n → (rec.find k = none ↔ ¬ ProjGhost n M.cells M.ghosts l q ∧ ¬ PredGhost n M.cells M.ghosts l q) := by
    intro l q k hk
    have := r2 k
    rw [← not_iff_not, ← Option.ne_none_iff_exists'] at this
    rw [ne_eq, not_not] at this
    rw [this, ← not_or, not_iff_not]
    constructor
    · rintro ⟨l', q', k1, k2⟩
      obtain ⟨rfl, rfl⟩ := number_inj gE.distinct hk k1
      exact k2
    · exact fun h => ⟨l, q, hk, h⟩
  have hfree : ∀ e ∈ rec, ∀ t ∈ e.2, (0 ≤ t.1 ∧ t.1 < (M.all.nbCells : Int)) ∧ rec.find t.1 = none := by
    intro e he t ht
    obtain ⟨l, q, k1, k2, k3⟩ := r3 e he t ht
    exact ⟨hN _ _ _ k1, (hkey _ _ _ k1).2 ⟨k2, k3⟩⟩
  refine ⟨M, x, sub, rec, h1, h3, s1, r1, fun u hu => ?_⟩
  have hJ : ∀ d ≤ n, ∀ c, (nd.jacAt u d c).1.length = (nd.jacAt u d c).2.length := by
    intro d hd c
    obtain ⟨F, J, -, f2, f3⟩ := hu d hd
    simp only [NonlinDef.jacAt, f2]
    exact (f3 c).size
  have ok : ∀ v y, IsVector soa M.all.nbCells m colShift v y → GhostsHold rec v → _ := fun v y hy hg =>
    assemblePairs_ok (L := ⟨soa, M.all.nbCells, m, p, rowShift, colShift⟩) (rec := rec) rfl rfl gE.fv ⟨h2.fvNumbers, hN⟩
      (fun e he t ht => (hfree e he t ht).1) h0 v hy hg nd.stencil (nd.jacAt u) hJ hS s1 bdry
  obtain ⟨y0, hy0⟩ := isVector_exists soa M.all.nbCells colShift (fun _ (_ : Fin m) => (0 : K))
  have hz : GhostsHold rec fun _ (_ : Fin m) => (0 : K) := by
    intro e _
    funext j
    rw [list_sum_at]
    simp
  obtain ⟨E, _, e1, -, e2, e3, -⟩ := ok _ y0 hy0 hz
  have hEq : assembleJacobian n h0 ⟨soa, M.all.nbCells, m, p, rowShift, colShift⟩ rec M.all sub M.cells maxL bdry nd u = some E := by
    unfold assembleJacobian
    rw [if_pos hu.functions.2]
    exact e1
  have core : ∀ v val y, IsVector soa M.all.nbCells m colShift v y → FieldIs n M.all v val → (∀ l q, ProjGhost n M.cells M.ghosts l q → MeanBelow (K := K) n val l q) →
      (∀ l q, PredGhost n M.cells M.ghosts l q → TensorPredicted (K := K) n cfg.predictionOrder val l q) →
      ∃ out : K → Int → Fin p → K, (∀ t, nonlinApply n h0 M.all sub M.cells maxL bdry nd (fun k => u k + t • v k) = some (out t)) ∧
        ∀ k : Int, 0 ≤ k → k < M.all.nbCells → ∀ i : Fin p, HasDerivAt (fun t => out t k i) (rowSum E y (dataIndex soa M.all.nbCells p rowShift k i)) 0 := by
    intro v val y hy hv hP hQ
    obtain ⟨E', o', j1, j2, -, -, j5⟩ := ok v y hy ((r5 _ v val hv).2 ⟨hP, hQ⟩)
    rw [e1] at j1
    cases j1
    obtain ⟨out, o'', a1, a2, a3⟩ := gE.fv.nonlin_deriv h2.fvNumbers s1 h0 nd hS bdry u v hu
    rw [j2] at a2
    cases a2
    refine ⟨out, a1, fun k k0 k1 i => ?_⟩
    have := j5 k k0 k1 i
    rw [MatLayout.row] at this
    rw [this]
    exact a3 k i
  refine ⟨E, hEq, e3, fun v val y hy hv hP hQ => ?_, fun hb v v' val y hy hvv hv hP hQ => ?_⟩
  · obtain ⟨out, a1, a2⟩ := core v val y hy hv hP hQ
    refine ⟨out, a1, fun k k0 k1 i => ?_⟩
    rw [matVec_schemeMatrix _ _ _ _ _ e2]
    exact a2 k k0 k1 i
  · have hfr : FreeCols ⟨soa, M.all.nbCells, m, p, rowShift, colShift⟩ rec m E := by
      rcases hb with rfl | hb
      · exact assemblePairs_free (L := ⟨soa, M.all.nbCells, m, p, rowShift, colShift⟩) hfree hN gE.fv hS e1
      · cases bdry
        · exact assemblePairs_free (L := ⟨soa, M.all.nbCells, m, p, rowShift, colShift⟩) hfree hN gE.fv hS e1
        · exact gE.assemblePairs_free (L := ⟨soa, M.all.nbCells, m, p, rowShift, colShift⟩) hfree hN (fun l q k hk a b => (hkey l q k hk).2 ⟨a, b⟩) s1 hS hb e1
    obtain ⟨y', hy'⟩ : ∃ y', IsVector soa M.all.nbCells m colShift v' y' := isVector_exists _ _ _ _
    obtain ⟨out, a1, a2⟩ := core v' val y' hy' hv hP hQ
    refine ⟨out, a1, fun k k0 k1 i => ?_⟩
    rw [matVec_schemeMatrix _ _ _ _ _ e2]
    have : ∀ r, rowSum E y r = rowSum E y' r := by
      refine rowSum_congr fun e he => ?_
      obtain ⟨k, j, k1, k2, k3⟩ := hfr e he
      obtain ⟨l, q, hk⟩ := hN' k k2.1 k2.2
      obtain ⟨k4, k5⟩ := (hkey _ _ _ hk).1 k3
      rw [k1, MatLayout.col, hy.at k2.1 k2.2, hy'.at k2.1 k2.2, hvv l q k hk k4 k5]
    rw [this]
    exact a2 k k0 k1 i

end

/-! ### the function -/

section
variable {K : Type} [Field K] [CharZero K] {m : Nat}

theorem vector_equation {soa : Bool} {N : Nat} {shift : Int} {out f : Int → Fin m → K} {a b : Int → K} (ha : IsVector soa N m shift out a) (hf : IsVector soa N m shift f b)
    {T : List (Int × K)} {Leaf : Int → Prop} (h1 : ∀ k : Int, 0 ≤ k → k < N → ¬ Leaf k → ∀ i : Fin m, ∃ e ∈ T, e.1 = dataIndex soa N m shift k i)
    (h2 : ∀ e ∈ T, ∃ (k : Int) (i : Fin m), e.1 = dataIndex soa N m shift k i ∧ (0 ≤ k ∧ k < N) ∧ ¬ Leaf k) :
    (∀ r, shift ≤ r → r < shift + (N * m : Nat) → T.foldl vecInsert a r = T.foldl vecInsert b r) ↔ ∀ k : Int, 0 ≤ k → k < N → Leaf k → out k = f k := by
  have hno : ∀ k : Int, 0 ≤ k → k < N → Leaf k → ∀ i : Fin m, ∀ e ∈ T, e.1 ≠ dataIndex soa N m shift k i := by
    intro k k0 k1 hk i e he hr
    obtain ⟨k', i', h3, h4, h5⟩ := h2 e he
    rw [h3] at hr
    obtain ⟨rfl, rfl⟩ := (dataIndex_inj h4.1 h4.2 k0 k1).1 hr
    exact h5 hk
  constructor
  · intro h k k0 k1 hk
    funext i
    have hr := dataIndex_range (soa := soa) (shift := shift) k0 k1 i
    have := h _ hr.1 hr.2
    rw [vecFold_other (hno k k0 k1 hk i), vecFold_other (hno k k0 k1 hk i), ha.at k0 k1, hf.at k0 k1] at this
    exact this
  · intro h r r0 r1
    obtain ⟨k, i, ⟨k0, k1⟩, rfl⟩ := dataIndex_surj (soa := soa) r0 r1
    by_cases hk : Leaf k
    · rw [vecFold_other (hno k k0 k1 hk i), vecFold_other (hno k k0 k1 hk i), ha.at k0 k1, hf.at k0 k1, h k k0 k1 hk]
    · exact vecFold_key (h1 k k0 k1 hk i)

/-- C94, the function. On a mesh of graded leaves of a box, with the default configuration and any boundary conditions: for every vector `y`, the function that the Newton solver
evaluates is equal to the prepared right-hand side if and only if, in the leaves, the explicit scheme after `update_ghost_mr` gives the right-hand side. The values of the ghosts
in `y` and in the right-hand side do not matter more than in the explicit scheme. -/
theorem C94_residual {n : Nat} (hn : n ≤ 2) (cfg : MeshConfig) (hs : cfg.predictionOrder = 1) (hw : cfg.maxStencilWidth = 1) (cells : CA) (dom : LCA)
    (minL maxL base : Nat) (b : Box) (g : GoodLeaves n cells dom minL maxL)
    (hgd : GoodDomain n dom minL maxL (cfg.maxStencilWidth + cfg.predictionOrder + 3)) (hne : minL ≠ maxL) (hd : BoxDomain n dom base b)
    (hdl : dom.level = maxL) (hbase : base ≤ minL - 3)
    (hB : ∃ B : Int, 0 ≤ B ∧ B + 11 * 2 ^ dom.level + 2 < INT_MAX ∧ ∀ d ≤ n, b.hi d * 2 ^ (dom.level - base) ≤ B)
    (origin : Fin (n + 1) → K) (h0 : K) (bcs : List (FieldBc K n m)) (hkind : ∀ c ∈ bcs, c.kind.Exists ∧ c.kind.ghosts ≤ 1)
    (hreg : ∀ x ∈ fieldEntries bcs, UnitVector n x.2.1 → OneAxis n x.2.1 → BdryRegion n dom x.2.1 x.2.2)
    (nd : NonlinDef K (Fin m → K) (Fin m → K)) (hF : ∀ d ≤ n, (nd.fluxFunction d).isSome) (hS : ∀ d ≤ n, StencilOK n cfg.maxStencilWidth (unitDir d) (nd.stencil d))
    (bdry soa : Bool) (shift : Int) :
    ∃ M x S sub, mrMesh n cfg cells minL maxL = some (M, x) ∧ constructSubdomain n cells maxL = some S ∧ constructSubdomain n M.cells maxL = some sub ∧
      ∀ f rhs, IsVector soa M.all.nbCells m shift f rhs →
        ∃ rhs', newtonRhs n origin h0 ⟨soa, M.all.nbCells, m, m, shift, shift⟩ M.all M.cells maxL bcs rhs = some rhs' ∧
        ∀ y : Int → K, ∃ w out F,
          (∀ j : Fin m, updateGhostMr n ⟨⟨M.cells, M.all, dom, minL, maxL, fun _ => false, h0, cfg⟩, M.proj, S⟩ (explicitConds origin h0 bcs j)
            (fun k => y (dataIndex soa M.all.nbCells m shift k j)) = some fun k => w k j) ∧
          nonlinApply n h0 M.all sub M.cells maxL bdry nd w = some out ∧
          newtonFunction n ⟨⟨M.cells, M.all, dom, minL, maxL, fun _ => false, h0, cfg⟩, M.proj, S⟩ origin ⟨soa, M.all.nbCells, m, m, shift, shift⟩ sub bdry nd bcs y = some F ∧
          (∀ l q k, cells.Mem n l q → (l, q, k) ∈ M.all.numbered n → ∀ i : Fin m, F (dataIndex soa M.all.nbCells m shift k i) = out k i) ∧
          ((∀ r, shift ≤ r → r < shift + (M.all.nbCells * m : Nat) → F r = rhs' r) ↔
            ∀ l q k, cells.Mem n l q → (l, q, k) ∈ M.all.numbered n → out k = f k) := by
  obtain ⟨M, x, e1, hinv, e2⟩ := adaptInv_init' (cfg := cfg) hgd (by omega) g
  have gE := hinv.elim hgd (by omega) (by omega)
  obtain ⟨hN, hN', hleafnum⟩ := hinv.nums hgd (by omega) (by omega)
  obtain ⟨S, s1, -⟩ := constructSubdomain_spec (maxL := maxL) g.wf g.between
  obtain ⟨sub, s2, -⟩ := constructSubdomain_spec (maxL := maxL) hinv.leaves.wf hinv.leaves.between
  obtain ⟨ev, -, b1, -, -, -, hout, hcall, -, hOK, hBl, -⟩ := hinv.bcData hn hgd (by omega) (by omega) hd hdl (by omega) h0 bcs hreg
  obtain ⟨G, g1, g2⟩ := hinv.allGhosts hne hgd le_rfl (by omega)
  refine ⟨M, x, S, sub, e1, s1, s2, fun f rhs hf => ?_⟩
  refine ⟨_, by unfold newtonRhs; rw [g1, b1], fun y => ?_⟩
  have key : ∀ j : Fin m, ∃ w, updateGhostMr n ⟨⟨M.cells, M.all, dom, minL, maxL, fun _ => false, h0, cfg⟩, M.proj, S⟩ (explicitConds origin h0 bcs j)
      (fun k => y (dataIndex soa M.all.nbCells m shift k j)) = some w := by
    intro j
    obtain ⟨M', x', S', w, val, a1, a2, a3, -⟩ := C76_update_ghosts hn cfg hs hw cells dom minL maxL base b g (hgd.mono (by omega)) hne hd hdl hbase hB h0
      (explicitConds origin h0 bcs j) (fun c hc => by
        obtain ⟨c', hc', rfl⟩ := List.mem_map.1 hc
        refine ⟨(hkind c' hc').1, by rw [hw]; exact (hkind c' hc').2, fun d hd hu ha => hreg (c', d) ?_ hu ha⟩
        exact List.mem_flatMap.2 ⟨c', hc', List.mem_map.2 ⟨d, hd, rfl⟩⟩) (fun k => y (dataIndex soa M.all.nbCells m shift k j))
    rw [e1] at a1
    cases a1
    rw [s1] at a2
    cases a2
    exact ⟨w, a3⟩
  choose w hw' using key
  obtain ⟨fs, bs, bs', out, -, o1, -⟩ := C64_apply_scheme n M.cells M.all dom sub minL maxL cfg.maxStencilWidth h0 (nd.fluxAt fun k j => w j k) bdry gE.fv hinv.fvNumbers s2 hS
  have o2 : nonlinApply n h0 M.all sub M.cells maxL bdry nd (fun k j => w j k) = some out := by
    unfold nonlinApply
    rw [if_pos, o1]
    rw [List.all_eq_true]
    intro d hd
    exact hF d (by rw [List.mem_range] at hd; omega)
  have o3 : eachComponent (fun (j : Fin m) (u : Int → K) => updateGhostMr n ⟨⟨M.cells, M.all, dom, minL, maxL, fun _ => false, h0, cfg⟩, M.proj, S⟩ (explicitConds origin h0 bcs j) u)
      (fieldOf ⟨soa, M.all.nbCells, m, m, shift, shift⟩ m y) = some fun k j => w j k := eachComponent_some fun j => hw' j
  refine ⟨fun k j => w j k, out, _, hw', o2, by
    unfold newtonFunction
    rw [o3]
    simp only [o2]
    unfold newtonRhs
    rw [g1, b1], ?_⟩
  have hv : IsVector soa M.all.nbCells m shift out (vectorOf ⟨soa, M.all.nbCells, m, m, shift, shift⟩ out) := by
    intro k k0 k1 i
    rw [← dataIndex_eq]
    exact vectorOf_at ⟨soa, M.all.nbCells, m, m, shift, shift⟩ rfl out k0 k1 i
  have hT1 : ∀ k : Int, 0 ≤ k → k < M.all.nbCells → ¬ LeafNum n M.cells k → ∀ i : Fin m,
      ∃ e ∈ (G.flatMap fun k => (List.range m).map fun i => (dataIndex soa M.all.nbCells m shift k i, (0 : K))) ++
        ((fieldEntries bcs).flatMap ev).flatMap (bcRhsOf origin h0 ⟨soa, M.all.nbCells, m, m, shift, shift⟩), e.1 = dataIndex soa M.all.nbCells m shift k i := by
    intro k k0 k1 hk i
    obtain ⟨l, q, hq⟩ := hN' k k0 k1
    refine ⟨(dataIndex soa M.all.nbCells m shift k i, 0), List.mem_append_left _ (List.mem_flatMap.2 ⟨k, (g2 k).2 ⟨l, q, hq, fun h => hk ((hleafnum _ _ _ hq).2 h)⟩,
      List.mem_map.2 ⟨(i : Nat), List.mem_range.2 i.2, rfl⟩⟩), rfl⟩
  have hT2 : ∀ e ∈ (G.flatMap fun k => (List.range m).map fun i => (dataIndex soa M.all.nbCells m shift k i, (0 : K))) ++
      ((fieldEntries bcs).flatMap ev).flatMap (bcRhsOf origin h0 ⟨soa, M.all.nbCells, m, m, shift, shift⟩),
      ∃ (k : Int) (i : Fin m), e.1 = dataIndex soa M.all.nbCells m shift k i ∧ (0 ≤ k ∧ k < M.all.nbCells) ∧ ¬ LeafNum n M.cells k := by
    intro e he
    rcases List.mem_append.1 he with he | he
    · obtain ⟨k, hk, he⟩ := List.mem_flatMap.1 he
      obtain ⟨i, hi, rfl⟩ := List.mem_map.1 he
      obtain ⟨l, q, hq, hnl⟩ := (g2 k).1 hk
      exact ⟨k, ⟨i, List.mem_range.1 hi⟩, rfl, hN _ _ _ hq, fun h => hnl ((hleafnum _ _ _ hq).1 h)⟩
    · obtain ⟨c, hc, he⟩ := List.mem_flatMap.1 he
      unfold bcRhsOf at he
      cases heq : bcEquation h0 c.level c.bc.kind with
      | none => rw [heq] at he; simp at he
      | some eq =>
        rw [heq] at he
        obtain ⟨i, -, rfl⟩ := List.mem_map.1 he
        refine ⟨(cellAt c.cells 2).index, i, rfl, ?_, hBl c hc⟩
        obtain ⟨z, hz, level, p, q, h1, rfl⟩ := hcall c hc
        have := (hout z hz level p q h1).2.2.2
        rw [show (cellAt (bcCallOf (K := K) (m := m) n M.all z level p).cells 2).index = numOf n M.all level q by
          obtain ⟨-, -, -, -, -, rfl⟩ := h1
          rfl]
        exact hN _ _ _ (numOf_numbered gE.fv.refWF this)
  refine ⟨fun l q k hq hk i => ?_, ?_⟩
  · obtain ⟨k0, k1⟩ := hN _ _ _ hk
    rw [← hv.at k0 k1]
    refine vecFold_other fun e he hr => ?_
    obtain ⟨k', i', h3, h4, h5⟩ := hT2 e he
    rw [h3] at hr
    obtain ⟨rfl, rfl⟩ := (dataIndex_inj h4.1 h4.2 k0 k1).1 hr
    exact h5 ((hleafnum _ _ _ hk).2 ((e2 l q).2 hq))
  · refine (vector_equation hv hf (Leaf := LeafNum n M.cells) hT1 hT2).trans ?_
    constructor
    · intro h l q k hq hk
      obtain ⟨k0, k1⟩ := hN _ _ _ hk
      exact h k k0 k1 ((hleafnum _ _ _ hk).2 ((e2 l q).2 hq))
    · intro h k k0 k1 hk
      obtain ⟨l, q, hq⟩ := hN' k k0 k1
      exact h l q k ((e2 l q).1 ((hleafnum _ _ _ hq).1 hk)) hq

end

/-- A quadratic flux with two components: `Σ_c u_0(c) u_i(c)` on the two cells of the stencil, with its Jacobian. -/
def quadFlux (K : Type) [Field K] : NonlinDef K (Fin 2 → K) (Fin 2 → K) where
  stencil := fun d => inOutStencil (unitDir d)
  consFlux := fun _ => some fun C u i => (C.map fun c => u c.index 0 * u c.index i).sum
  flux := fun _ => none
  consJac := fun _ => some fun C u => C.map fun c => (LinearMap.proj 0 : (Fin 2 → K) →ₗ[K] K).smulRight (u c.index) + u c.index 0 • LinearMap.id
  jac := fun _ => none

theorem quadFlux_jacobian {K : Type} [NontriviallyNormedField K] (n : Nat) (u : Int → Fin 2 → K) : (quadFlux K).HasJacobian n u := by
  have h1 : ∀ (C : List MCell) (v : Int → Fin 2 → K) (i : Fin 2),
      HasDerivAt (fun t : K => (C.map fun c => (u c.index + t • v c.index) 0 * (u c.index + t • v c.index) i).sum)
        ((linValue v (C.map fun c => (LinearMap.proj 0 : (Fin 2 → K) →ₗ[K] K).smulRight (u c.index) + u c.index 0 • (LinearMap.id : (Fin 2 → K) →ₗ[K] (Fin 2 → K))) C : Fin 2 → K) i) 0 := by
    intro C v i
    induction C with
    | nil => exact hasDerivAt_const _ _
    | cons c C ih =>
      simp only [List.map_cons, List.sum_cons, linValue, Pi.add_apply]
      refine HasDerivAt.add ?_ ih
      have e : ∀ j : Fin 2, HasDerivAt (fun t : K => u c.index j + t * v c.index j) (v c.index j) 0 := fun j => by
        simpa using ((hasDerivAt_id (0 : K)).mul_const (v c.index j)).const_add (u c.index j)
      refine ((e 0).mul (e i)).congr_deriv ?_
      simp
  intro d _
  refine ⟨_, _, rfl, rfl, fun C => ⟨?_, h1 C, fun v i => ?_⟩⟩
  · simp [negL]
  · have := (h1 C v i).neg
    rw [← Pi.neg_apply, ← linValue_neg] at this
    exact this

/-- The Jacobian matrix of the quadratic flux, for any field, on a square with a refined corner. -/
example (soa : Bool) (u : Int → Fin 2 → Rat) : ∃ M x sub rec E, mrMesh 1 ⟨1, 1⟩ cornerMesh 1 2 = some (M, x) ∧ constructSubdomain 1 M.cells 2 = some sub ∧
    ghostRecursion 1 1 M.all M.ghosts M.cells 5 = some rec ∧
    assembleJacobian 1 (1 : Rat) ⟨soa, M.all.nbCells, 2, 2, 0, 0⟩ rec M.all sub M.cells 2 true (quadFlux Rat) u = some E ∧
    ∀ v val y, IsVector soa M.all.nbCells 2 0 v y → FieldIs 1 M.all v val → (∀ l q, ProjGhost 1 M.cells M.ghosts l q → MeanBelow (K := Rat) 1 val l q) →
      (∀ l q, PredGhost 1 M.cells M.ghosts l q → TensorPredicted (K := Rat) 1 1 val l q) →
      ∃ out : Rat → Int → Fin 2 → Rat, (∀ t, nonlinApply 1 1 M.all sub M.cells 2 true (quadFlux Rat) (fun k => u k + t • v k) = some (out t)) ∧
        ∀ k : Int, 0 ≤ k → k < M.all.nbCells → ∀ i : Fin 2,
          HasDerivAt (fun t => out t k i) (matVec (schemeMatrix E) 0 (M.all.nbCells * 2) y (dataIndex soa M.all.nbCells 2 0 k i)) 0 := by
  obtain ⟨M, x, sub, rec, h1, -, h3, h4, h5⟩ := C94_jacobian 1 ⟨1, 1⟩ cornerMesh squareDomain 1 2 5 (cornerDomain_good 5 (by omega)) (by decide) cornerLeaves_good (by decide)
    (by decide) (1 : Rat) (quadFlux Rat) (fun d _ => inOut_ok 1 d) soa true 0 0
  obtain ⟨E, e1, -, e2, -⟩ := h5 u (quadFlux_jacobian 1 u)
  exact ⟨M, x, sub, rec, E, h1, h3, h4 5 (by omega), e1, e2⟩

/-- The Newton equation of the quadratic flux on a segment with leaves of two levels and a Dirichlet condition. -/
example (soa : Bool) (v : (Fin 1 → Rat) → Fin 2 → Rat) : ∃ M x S R sub, mrMesh 0 ⟨1, 1⟩ segMesh 1 2 = some (M, x) ∧ constructSubdomain 0 segMesh 2 = some S ∧
    everywhereRegion 0 segDomain = some R ∧ constructSubdomain 0 M.cells 2 = some sub ∧
    ∀ f rhs, IsVector soa M.all.nbCells 2 0 f rhs →
      ∃ rhs', newtonRhs 0 (fun _ => 0) 1 ⟨soa, M.all.nbCells, 2, 2, 0, 0⟩ M.all M.cells 2 [⟨.dirichlet 1, fun _ _ => v, R⟩] rhs = some rhs' ∧
      ∀ y : Int → Rat, ∃ w out F,
        (∀ j : Fin 2, updateGhostMr 0 ⟨⟨M.cells, M.all, segDomain, 1, 2, fun _ => false, 1, ⟨1, 1⟩⟩, M.proj, S⟩ (explicitConds (fun _ => 0) 1 [⟨.dirichlet 1, fun _ _ => v, R⟩] j)
          (fun k => y (dataIndex soa M.all.nbCells 2 0 k j)) = some fun k => w k j) ∧
        nonlinApply 0 1 M.all sub M.cells 2 true (quadFlux Rat) w = some out ∧
        newtonFunction 0 ⟨⟨M.cells, M.all, segDomain, 1, 2, fun _ => false, 1, ⟨1, 1⟩⟩, M.proj, S⟩ (fun _ => 0) ⟨soa, M.all.nbCells, 2, 2, 0, 0⟩ sub true (quadFlux Rat)
          [⟨.dirichlet 1, fun _ _ => v, R⟩] y = some F ∧
        (∀ l q k, segMesh.Mem 0 l q → (l, q, k) ∈ M.all.numbered 0 → ∀ i : Fin 2, F (dataIndex soa M.all.nbCells 2 0 k i) = out k i) ∧
        ((∀ r, 0 ≤ r → r < (0 : Int) + (M.all.nbCells * 2 : Nat) → F r = rhs' r) ↔ ∀ l q k, segMesh.Mem 0 l q → (l, q, k) ∈ M.all.numbered 0 → out k = f k) := by
  obtain ⟨_, R, r1, r2, r3⟩ := C72_directions 0 (by omega) segDomain segDomain_box.wf segRange
  obtain ⟨M, x, S, sub, h1, h2, h3, h4⟩ := C94_residual (m := 2) (by omega : 0 ≤ 2) ⟨1, 1⟩ rfl rfl segMesh segDomain 1 2 0 _ segLeaves_good (segDomain_good 5 (by omega))
    (by omega) segDomain_box rfl (by omega) ⟨4, by omega, by decide, fun _ _ => by show (1 : Int) * 2 ^ 2 ≤ 4; decide⟩ (fun _ => 0) (1 : Rat)
    [⟨.dirichlet 1, fun _ _ => v, R⟩] (by simp only [List.mem_singleton, forall_eq]; exact ⟨⟨le_rfl, by omega⟩, le_rfl⟩)
    (fun x hx _ hax => by
      simp only [fieldEntries, List.flatMap_cons, List.flatMap_nil, List.append_nil, List.mem_map] at hx
      obtain ⟨d, hd, rfl⟩ := hx
      exact (r2 d hd hax).1)
    (quadFlux Rat) (fun _ _ => rfl) (fun d _ => inOut_ok 0 d) true soa 0
  exact ⟨M, x, S, R, sub, h1, h2, r1, h3, h4⟩

end Samurai

/-
C82, C83: the elimination of the ghosts in the matrices of the schemes.
-/
import Verif.Lemmas.GhostElim
import Verif.Lemmas.PetscSystem
import Verif.Props.Petsc
import Verif.Props.GhostExample

namespace Samurai

theorem AdaptInv.elim {n : Nat} {cfg : MeshConfig} {dom : LCA} {minL maxL : Nat} {m : SubMeshes} {u : CA} {margin : Nat}
    (h : AdaptInv n cfg dom minL maxL m u) (hd : GoodDomain n dom minL maxL margin) (hm : cfg.maxStencilWidth + 3 ≤ margin) (hw : 1 ≤ cfg.maxStencilWidth) :
    ElimMesh n cfg.predictionOrder m.cells m.ghosts m.all dom minL maxL cfg.maxStencilWidth := by
  have hn := h.fvNumbers
  obtain ⟨c0, hc⟩ := h.mesh
  obtain ⟨m0, c1, c2, c3, c4, c5⟩ := hc.content
  have hgh : ∀ l p, m.ghosts.Mem n l p ↔ ∃ q, m.cells.Mem n l q ∧ Near cfg.maxStencilWidth p q := by
    intro l p
    rw [c3, c1.ghosts]
    exact exists_congr fun q => and_congr_left fun _ => (c2 l q).symm
  refine ⟨h.fv hd hm, hn.distinct, hw, hc.wf.2.1, hc.ghostsLevels.2, by rw [hc.ghostsLevels.1, ← hc.cellsLevels.1]; exact h.leaves.size, hgh, ?_⟩
  rintro l p q ⟨h1, h2, s, h3, h4⟩ hq
  obtain ⟨r, h5, h6⟩ := (hgh l p).1 h2
  have b1 := h.leaves.between _ _ h3
  have b2 := h.leaves.between _ _ h5
  refine (c5 _ _).2 ((c1.all (by omega) _ _).2 (MRBase.all (Or.inr (Or.inl ⟨p, ?_, ?_, hq⟩))))
  · rw [show l - 1 + 1 = l by omega]
    exact ⟨r, (c2 _ _).1 h5, h6⟩
  · rw [show l - 1 + 1 = l by omega]
    rintro ⟨l', q', k1, k2, k3⟩
    have k4 := anc_trans h4 k3
    have := (h.leaves.noOverlap (l - 1) s l' q' h3 ((c2 _ _).2 k2) (by omega) (by rwa [show l' - (l - 1) = 1 + (l' - l) by omega])).1
    omega

/-- C82. The elimination of the ghosts. For every mesh of graded leaves, every stencil width and every order of the prediction up to 5: the loop of substitutions
ends; the cells that are eliminated are the ghosts with a leaf among their children and the ghosts inside a leaf; they are replaced by combinations of cells that are
not eliminated; and the relations are equivalent, for every field, to: the ghosts of the first kind have the mean of their children, those of the second kind the
tensor product prediction from the neighbours of their parent. -/
theorem C82_elimination {K : Type} [Field K] (n : Nat) (cfg : MeshConfig) (cells : CA) (dom : LCA) (minL maxL margin : Nat)
    (hd : GoodDomain n dom minL maxL margin) (hm : cfg.maxStencilWidth + cfg.predictionOrder + 3 ≤ margin) (g : GoodLeaves n cells dom minL maxL)
    (hw : 1 ≤ cfg.maxStencilWidth) (ho : cfg.predictionOrder ≤ 5) :
    ∃ (m : SubMeshes) (x : CA) (rec : GhostMap K), mrMesh n cfg cells minL maxL = some (m, x) ∧ (∀ l p, m.cells.Mem n l p ↔ cells.Mem n l p) ∧
      (∀ fuel, 2 * maxL < fuel → ghostRecursion n cfg.predictionOrder m.all m.ghosts m.cells fuel = some rec) ∧
      (∀ k, (∃ l, rec.find k = some l) ↔ ∃ l p, (l, p, k) ∈ m.all.numbered n ∧ (ProjGhost n m.cells m.ghosts l p ∨ PredGhost n m.cells m.ghosts l p)) ∧
      (∀ e ∈ rec, ∀ t ∈ e.2, ∃ l p, (l, p, t.1) ∈ m.all.numbered n ∧ ¬ ProjGhost n m.cells m.ghosts l p ∧ ¬ PredGhost n m.cells m.ghosts l p) ∧
      ∀ (U : Type) [AddCommGroup U] [Module K U] (u : Int → U) (val : Nat → List Int → U), FieldIs n m.all u val →
        (GhostsHold rec u ↔ (∀ l p, ProjGhost n m.cells m.ghosts l p → MeanBelow (K := K) n val l p) ∧
          ∀ l p, PredGhost n m.cells m.ghosts l p → TensorPredicted (K := K) n cfg.predictionOrder val l p) := by
  obtain ⟨m, x, h1, h2, h3⟩ := adaptInv_init' (cfg := cfg) hd (by omega) g
  obtain ⟨rec, r1, r2, r3, -, r5⟩ := (h2.elim hd (by omega) hw).elimination (K := K) ho
  exact ⟨m, x, rec, h1, h3, r1, r2, r3, r5⟩

section
variable {K : Type} [Field K] {m p : Nat}

/-- Every field has a vector. -/
theorem isVector_exists (soa : Bool) (N : Nat) (shift : Int) (u : Int → Fin m → K) : ∃ y, IsVector soa N m shift u y := by
  classical
  refine ⟨fun c => if h : ∃ e : Int × Fin m, (0 ≤ e.1 ∧ e.1 < N) ∧ c = dataIndex soa N m shift e.1 e.2 then u h.choose.1 h.choose.2 else 0, fun k k0 k1 j => ?_⟩
  rw [← dataIndex_eq]
  have hx : ∃ e : Int × Fin m, (0 ≤ e.1 ∧ e.1 < N) ∧ dataIndex soa N m shift k j = dataIndex soa N m shift e.1 e.2 := ⟨(k, j), ⟨k0, k1⟩, rfl⟩
  show (if h : _ then _ else _) = _
  rw [dif_pos hx]
  obtain ⟨a, b⟩ := hx.choose_spec
  obtain ⟨c, d⟩ := (dataIndex_inj k0 k1 a.1 a.2).1 b
  rw [← c, ← d]

/-- Every field has values. -/
theorem field_values {U : Type} {n : Nat} {ref : CA} (hw : ref.WF n) (u : Int → U) : ∃ val, FieldIs n ref u val :=
  ⟨fun l q => u (numOf n ref l q), fun l q k hk => congrArg u (CA.number_unique hw hk (numOf_numbered hw (CA.mem_of_numbered hw hk)))⟩

/-- C83. The matrix with the elimination of the ghosts, for every mesh of graded leaves and every linear scheme: the product of the matrix and of the vector of a field
whose ghosts have the values of the relations is the explicit scheme. -/
theorem C83_matrix (n : Nat) (cfg : MeshConfig) (cells : CA) (dom : LCA) (minL maxL margin : Nat)
    (hd : GoodDomain n dom minL maxL margin) (hm : cfg.maxStencilWidth + cfg.predictionOrder + 3 ≤ margin) (g : GoodLeaves n cells dom minL maxL)
    (hw : 1 ≤ cfg.maxStencilWidth) (ho : cfg.predictionOrder ≤ 5) (h0 : K) (ld : LinDef K (Fin m → K) (Fin p → K))
    (hS : ∀ d ≤ n, StencilOK n cfg.maxStencilWidth (unitDir d) (ld.stencil d)) (soa bdry : Bool) (rowShift colShift : Int) :
    ∃ M x sub rec E, mrMesh n cfg cells minL maxL = some (M, x) ∧ (∀ l q, M.cells.Mem n l q ↔ cells.Mem n l q) ∧ constructSubdomain n M.cells maxL = some sub ∧
      (∀ fuel, 2 * maxL < fuel → ghostRecursion n cfg.predictionOrder M.all M.ghosts M.cells fuel = some rec) ∧
      assembleScheme n h0 ⟨soa, M.all.nbCells, m, p, rowShift, colShift⟩ rec M.all sub M.cells maxL bdry ld.stencil (ld.flux h0) = some E ∧
      (∀ u val y, IsVector soa M.all.nbCells m colShift u y → FieldIs n M.all u val →
        (∀ l q, ProjGhost n M.cells M.ghosts l q → MeanBelow (K := K) n val l q) →
        (∀ l q, PredGhost n M.cells M.ghosts l q → TensorPredicted (K := K) n cfg.predictionOrder val l q) →
        ∃ out, (∀ par, linApplyTo n h0 par u M.all sub M.cells maxL bdry ld = some out) ∧
          IsVector soa M.all.nbCells p rowShift out (matVec (schemeMatrix E) colShift (M.all.nbCells * m) y)) ∧
      (bdry = false ∨ (∀ d ≤ n, TwoPoint n (unitDir d) (ld.stencil d)) → ∀ u u' val y, IsVector soa M.all.nbCells m colShift u y →
        (∀ l q k, (l, q, k) ∈ M.all.numbered n → ¬ ProjGhost n M.cells M.ghosts l q → ¬ PredGhost n M.cells M.ghosts l q → u' k = u k) → FieldIs n M.all u' val →
        (∀ l q, ProjGhost n M.cells M.ghosts l q → MeanBelow (K := K) n val l q) →
        (∀ l q, PredGhost n M.cells M.ghosts l q → TensorPredicted (K := K) n cfg.predictionOrder val l q) →
        ∃ out, (∀ par, linApplyTo n h0 par u' M.all sub M.cells maxL bdry ld = some out) ∧
          IsVector soa M.all.nbCells p rowShift out (matVec (schemeMatrix E) colShift (M.all.nbCells * m) y)) ∧
      ∀ u : Int → Fin m → K, ∃ u' val,
        (∀ l q k, (l, q, k) ∈ M.all.numbered n → ¬ ProjGhost n M.cells M.ghosts l q → ¬ PredGhost n M.cells M.ghosts l q → u' k = u k) ∧ FieldIs n M.all u' val ∧
        (∀ l q, ProjGhost n M.cells M.ghosts l q → MeanBelow (K := K) n val l q) ∧
        (∀ l q, PredGhost n M.cells M.ghosts l q → TensorPredicted (K := K) n cfg.predictionOrder val l q) := by
  classical
  obtain ⟨M, x, h1, h2, h3⟩ := adaptInv_init' (cfg := cfg) hd (by omega) g
  have gE := h2.elim hd (by omega) hw
  obtain ⟨rec, r1, r2, r3, r4, r5⟩ := gE.elimination (K := K) ho
  obtain ⟨sub, s1, -⟩ := constructSubdomain_spec (maxL := maxL) h2.leaves.wf h2.leaves.between
  have hnum : (M.all.numbered n).map (fun e => e.2.2) = (List.range M.all.nbCells).map fun (k : Nat) => (k : Int) := by
    obtain ⟨c0, hc⟩ := h2.mesh
    exact hc.numbers
  have hN : ∀ l q k, (l, q, k) ∈ M.all.numbered n → 0 ≤ k ∧ k < M.all.nbCells := by
    intro l q k hk
    have : k ∈ (M.all.numbered n).map fun e => e.2.2 := List.mem_map.2 ⟨_, hk, rfl⟩
    rw [hnum, List.mem_map] at this
    obtain ⟨i, hi, rfl⟩ := this
    rw [List.mem_range] at hi
    constructor <;> omega
  have hN' : ∀ k : Int, 0 ≤ k → k < M.all.nbCells → ∃ l q, (l, q, k) ∈ M.all.numbered n := by
    intro k k0 k1
    have : k ∈ (M.all.numbered n).map fun e => e.2.2 := by
      rw [hnum, List.mem_map]
      exact ⟨k.toNat, List.mem_range.2 (by omega), by omega⟩
    obtain ⟨⟨l, q, k'⟩, he, rfl⟩ := List.mem_map.1 this
    exact ⟨l, q, he⟩
  have hkey : ∀ l q k, (l, q, k) ∈ M.all.numbered n → (rec.find k = none ↔ ¬ ProjGhost n M.cells M.ghosts l q ∧ ¬ PredGhost n M.cells M.ghosts l q) := by
    intro l q k hk
    have := r2 k
    rw [← not_iff_not, ← Option.ne_none_iff_exists'] at this
    rw [ne_eq, not_not] at this
    rw [this, ← not_or, not_iff_not]
    constructor
    · rintro ⟨l', q', k1, k2⟩
      obtain ⟨rfl, rfl⟩ := number_inj gE.distinct hk k1
      exact k2
    · exact fun h => ⟨l, q, hk, h⟩
  have hfree : ∀ e ∈ rec, ∀ t ∈ e.2, (0 ≤ t.1 ∧ t.1 < (M.all.nbCells : Int)) ∧ rec.find t.1 = none := by
    intro e he t ht
    obtain ⟨l, q, k1, k2, k3⟩ := r3 e he t ht
    exact ⟨hN _ _ _ k1, (hkey _ _ _ k1).2 ⟨k2, k3⟩⟩
  obtain ⟨E, e1, e2, -⟩ := C81_matrix n M.cells M.all dom sub minL maxL cfg.maxStencilWidth h0 ⟨soa, M.all.nbCells, m, p, rowShift, colShift⟩ rec bdry ld gE.fv h2.fvNumbers s1 hS
    rfl rfl hN fun e he t ht => (hfree e he t ht).1
  refine ⟨M, x, sub, rec, E, h1, h3, s1, r1, e1, fun u val y hy hu hP hQ => e2 u y hy ((r5 _ u val hu).2 ⟨hP, hQ⟩), ?_, fun u => ?_⟩
  · intro hb u u' val y hy huu hu hP hQ
    have hfr : FreeCols ⟨soa, M.all.nbCells, m, p, rowShift, colShift⟩ rec m E := by
      rcases hb with rfl | hb
      · exact assembleScheme_free (L := ⟨soa, M.all.nbCells, m, p, rowShift, colShift⟩) hfree hN gE.fv hS e1
      · cases bdry
        · exact assembleScheme_free (L := ⟨soa, M.all.nbCells, m, p, rowShift, colShift⟩) hfree hN gE.fv hS e1
        · exact gE.assembleScheme_free (L := ⟨soa, M.all.nbCells, m, p, rowShift, colShift⟩) hfree hN (fun l q k hk a b => (hkey l q k hk).2 ⟨a, b⟩) s1 hS hb e1
    obtain ⟨y', hy'⟩ : ∃ y', IsVector soa M.all.nbCells m colShift u' y' := isVector_exists _ _ _ _
    obtain ⟨out, o1, o2⟩ := e2 u' y' hy' ((r5 _ u' val hu).2 ⟨hP, hQ⟩)
    refine ⟨out, o1, ?_⟩
    have : matVec (schemeMatrix E) colShift (M.all.nbCells * m) y = matVec (schemeMatrix E) colShift (M.all.nbCells * m) y' := by
      funext r
      obtain ⟨E', _, j1, -, j2, -⟩ := assembleScheme_ok (L := ⟨soa, M.all.nbCells, m, p, rowShift, colShift⟩) (rec := rec) rfl rfl gE.fv ⟨h2.fvNumbers, hN⟩
        (fun e he t ht => (hfree e he t ht).1) h0 u' hy' ((r5 _ u' val hu).2 ⟨hP, hQ⟩) ld.stencil (ld.flux h0) hS s1 bdry
      rw [e1] at j1
      cases j1
      rw [matVec_schemeMatrix _ _ _ _ _ j2, matVec_schemeMatrix _ _ _ _ _ j2]
      refine rowSum_congr (fun e he => ?_) r
      obtain ⟨k, j, k1, k2, k3⟩ := hfr e he
      obtain ⟨l, q, hk⟩ := hN' k k2.1 k2.2
      obtain ⟨k4, k5⟩ := (hkey _ _ _ hk).1 k3
      rw [k1, MatLayout.col, hy.at k2.1 k2.2, hy'.at k2.1 k2.2, huu l q k hk k4 k5]
    rw [this]
    exact o2
  · let u' : Int → Fin m → K := fun k => match rec.find k with
      | none => u k
      | some l => (l.map fun (t : Int × K) => t.2 • u t.1).sum
    have hnone : ∀ k, rec.find k = none → u' k = u k := fun k hk => by show (match rec.find k with | none => u k | some l => _) = _; rw [hk]
    have hg : GhostsHold rec u' := by
      intro e he
      show (match rec.find e.1 with | none => u e.1 | some l => (l.map fun (t : Int × K) => t.2 • u t.1).sum) = _
      rw [r4 e he]
      refine congrArg List.sum (List.map_congr_left fun t ht => ?_)
      rw [hnone _ (hfree e he t ht).2]
    obtain ⟨val, hval⟩ := field_values gE.fv.refWF u'
    refine ⟨u', val, fun l q k hk k1 k2 => hnone k ((hkey l q k hk).2 ⟨k1, k2⟩), hval, (r5 _ u' val hval).1 hg⟩

/-! ### after the update of the ghosts -/

theorem pi_one : Fintype.piFinset (fun _ : Fin 1 => Finset.Icc (-((1 : Nat) : Int)) ((1 : Nat) : Int)) = {fun _ => -1, fun _ => 0, fun _ => 1} := by decide +kernel

theorem tensor_dim1 {U : Type} [AddCommGroup U] [Module K U] (val : Nat → List Int → U) (l : Nat) (x : Int) : TensorPredicted (K := K) 0 1 val l [x] ↔
    val l [x] = ((if x % 2 = 1 then -1 else 1) / 8 : K) • val (l - 1) [x / 2 - 1] + val (l - 1) [x / 2] + (-(if x % 2 = 1 then -1 else 1) / 8 : K) • val (l - 1) [x / 2 + 1] := by
  unfold TensorPredicted
  have h1 : ¬ ((fun _ : Fin 1 => (-1 : Int)) = fun _ => 0) := fun h => by have := congrFun h 0; simp at this
  have h2 : ¬ ((fun _ : Fin 1 => (-1 : Int)) = fun _ => 1) := fun h => by have := congrFun h 0; simp at this
  have h3 : ¬ ((fun _ : Fin 1 => (0 : Int)) = fun _ => 1) := fun h => by have := congrFun h 0; simp at this
  rw [pi_one, Finset.sum_insert (by simp [h1, h2]), Finset.sum_insert (by simp [h3]), Finset.sum_singleton]
  simp [interpCoeffs, toPt, ofPt, add_assoc, sub_eq_add_neg]

/-- The ghosts of all the components after `update_ghost_mr`, in dimension 1, in the vocabulary of the matrices. -/
theorem updated_dim1 [CharZero K] (cfg : MeshConfig) (hs : cfg.predictionOrder = 1) (hw : cfg.maxStencilWidth = 1) (cells : CA) (dom : LCA)
    (minL maxL base : Nat) (b : Box) (g : GoodLeaves 0 cells dom minL maxL)
    (hgd : GoodDomain 0 dom minL maxL (cfg.maxStencilWidth + cfg.predictionOrder + 3)) (hne : minL ≠ maxL) (hd : BoxDomain 0 dom base b)
    (hdl : dom.level = maxL) (hbase : base ≤ minL - 3)
    (hB : ∃ B : Int, 0 ≤ B ∧ B + 11 * 2 ^ dom.level + 2 < INT_MAX ∧ ∀ d ≤ 0, b.hi d * 2 ^ (dom.level - base) ≤ B)
    (h0 : K) (bcs : Fin m → List (BcCond K)) (hbc : ∀ j, ∀ c ∈ bcs j, GoodBc 0 dom cfg.maxStencilWidth c) {M : SubMeshes} {x : CA}
    (h1 : mrMesh 0 cfg cells minL maxL = some (M, x)) (hmc : ∀ l q, M.cells.Mem 0 l q ↔ cells.Mem 0 l q) {S : LCA} (s1 : constructSubdomain 0 cells maxL = some S)
    (u : Int → Fin m → K) :
    ∃ (u' : Int → Fin m → K) (val : Nat → List Int → Fin m → K),
      (∀ j, updateGhostMr 0 ⟨⟨M.cells, M.all, dom, minL, maxL, fun _ => false, h0, cfg⟩, M.proj, S⟩ (bcs j) (fun k => u k j) = some fun k => u' k j) ∧
      FieldIs 0 M.all u' val ∧ (∀ l q k, cells.Mem 0 l q → (l, q, k) ∈ M.all.numbered 0 → u' k = u k) ∧
      (∀ l q, ProjGhost 0 M.cells M.ghosts l q → MeanBelow (K := K) 0 val l q) ∧
      (∀ l q, PredGhost 0 M.cells M.ghosts l q → TensorPredicted (K := K) 0 cfg.predictionOrder val l q) ∧
      (∀ l p, M.all.Mem 0 l p → InBox (b.refined (l - base)) 0 p →
        cells.Mem 0 l p ∨ CoveredBy 0 cells l p ∨ ∃ l0 c, l0 < l ∧ cells.Mem 0 l0 c ∧ Anc (l - l0) c p) ∧
      ∀ j l p, M.all.Mem 0 l p →
        BoundaryHolds 0 ⟨M.cells, M.all, dom, minL, maxL, fun _ => false, h0, cfg⟩ (bcs j) l (b.refined (l - base)) fun l q => val l q j := by
  have hall : ∀ l q, M.ghosts.Mem 0 l q → M.all.Mem 0 l q := by
    obtain ⟨M', x', j1, j2, -⟩ := adaptInv_init' (cfg := cfg) hgd (by omega) g
    rw [h1] at j1
    cases j1
    exact fun l q h => (j2.elim hgd (by omega) (by omega)).cag_ref h
  have key : ∀ j, ∃ u' val, updateGhostMr 0 ⟨⟨M.cells, M.all, dom, minL, maxL, fun _ => false, h0, cfg⟩, M.proj, S⟩ (bcs j) (fun k => u k j) = some u' ∧
      FieldIs 0 M.all u' val ∧ (∀ l q i, cells.Mem 0 l q → (l, q, i) ∈ M.all.numbered 0 → u' i = u i j) ∧
      (∀ l q, ProjGhost 0 M.cells M.ghosts l q → MeanOfChildren 0 val l q) ∧ (∀ l q, PredGhost 0 M.cells M.ghosts l q → PredictedFromBelow 0 1 val l q) ∧
      (∀ l p, M.all.Mem 0 l p → InBox (b.refined (l - base)) 0 p →
        cells.Mem 0 l p ∨ CoveredBy 0 cells l p ∨ ∃ l0 c, l0 < l ∧ cells.Mem 0 l0 c ∧ Anc (l - l0) c p) ∧
      ∀ l p, M.all.Mem 0 l p → BoundaryHolds 0 ⟨M.cells, M.all, dom, minL, maxL, fun _ => false, h0, cfg⟩ (bcs j) l (b.refined (l - base)) val := by
    intro j
    obtain ⟨M', x', S', u', val, a1, a2, a3, a4, a5, a6, a7, a8, a9⟩ :=
      C76_update_ghosts (by omega : 0 ≤ 2) cfg hs hw cells dom minL maxL base b g (hgd.mono (by omega)) hne hd hdl hbase hB h0 (bcs j) (hbc j) (fun k => u k j)
    rw [h1] at a1
    cases a1
    rw [s1] at a2
    cases a2
    refine ⟨u', val, a3, a4, a5, fun l q hq => ?_, fun l q hq => ?_, a8, a9⟩
    · obtain ⟨q1, c, q2, q3⟩ := hq
      have hc := (hmc _ _).1 q2
      have := g.between _ _ hc
      exact (a6 l q (hall l q q1) (by omega) ⟨l + 1, c, by omega, hc, by rwa [show l + 1 - l = 1 by omega]⟩).1
    · obtain ⟨q1, q2, c, q3, q4⟩ := hq
      exact (a7 l q (hall l q q2) ⟨l - 1, c, by omega, (hmc _ _).1 q3, by rwa [show l - (l - 1) = 1 by omega]⟩).1
  choose w v k1 k2 k3 k4 k5 k6 k7 using key
  refine ⟨fun k j => w j k, fun l q j => v j l q, k1, fun l q i hi => funext fun j => k2 j l q i hi, fun l q k hq hk => funext fun j => k3 j l q k hq hk, ?_, ?_, ?_, k7⟩
  · intro l q hq
    refine funext fun j => ?_
    have := k4 j l q hq
    unfold MeanOfChildren at this
    rw [Pi.smul_apply, list_sum_at, ← this, smul_eq_mul, ← mul_assoc, one_div, inv_mul_cancel₀ (pow_ne_zero _ two_ne_zero), one_mul]
  · intro l q hq
    obtain ⟨x, rfl⟩ : ∃ x, q = [x] := by
      have := mem_length hq.2.1.2
      match q, this with
      | [x], _ => exact ⟨x, rfl⟩
    rw [hs, tensor_dim1]
    refine funext fun j => ?_
    have := k5 j l [x] hq
    unfold PredictedFromBelow at this
    rw [this]
    simp only [predictFine, Pi.add_apply, Pi.smul_apply, smul_eq_mul]
    rw [Qs_order1]
    by_cases hx : x % 2 = 1
    · simp [isOdd, toPt, ofPt, hx, move, parentPt, shr_one_eq]
      ring_nf
    · simp [isOdd, toPt, ofPt, hx, move, parentPt, shr_one_eq]
      ring_nf
  · intro l p hp hb
    obtain ⟨M', x', S', u', val, a1, a2, a3, a4, a5, a6, a7, a8, a9⟩ :=
      C76_update_ghosts (by omega : 0 ≤ 2) cfg hs hw cells dom minL maxL base b g (hgd.mono (by omega)) hne hd hdl hbase hB h0 [] (by simp) (fun _ => 0)
    rw [h1] at a1
    cases a1
    exact a8 l p hp hb

/-- C83, dimension 1. On a mesh of graded leaves of an interval, with the default configuration: after `update_ghost_mr` of each component, with any boundary conditions,
the product of the matrix and of the vector of the field is the explicit scheme. -/
theorem C83_dim1_partial [CharZero K] (cfg : MeshConfig) (hs : cfg.predictionOrder = 1) (hw : cfg.maxStencilWidth = 1) (cells : CA) (dom : LCA)
    (minL maxL base : Nat) (b : Box) (g : GoodLeaves 0 cells dom minL maxL)
    (hgd : GoodDomain 0 dom minL maxL (cfg.maxStencilWidth + cfg.predictionOrder + 3)) (hne : minL ≠ maxL) (hd : BoxDomain 0 dom base b)
    (hdl : dom.level = maxL) (hbase : base ≤ minL - 3)
    (hB : ∃ B : Int, 0 ≤ B ∧ B + 11 * 2 ^ dom.level + 2 < INT_MAX ∧ ∀ d ≤ 0, b.hi d * 2 ^ (dom.level - base) ≤ B)
    (h0 : K) (bcs : Fin m → List (BcCond K)) (hbc : ∀ j, ∀ c ∈ bcs j, GoodBc 0 dom cfg.maxStencilWidth c)
    (ld : LinDef K (Fin m → K) (Fin p → K)) (hS : ∀ d ≤ 0, StencilOK 0 cfg.maxStencilWidth (unitDir d) (ld.stencil d)) (soa bdry : Bool) (rowShift colShift : Int) :
    ∃ M x S sub rec E, mrMesh 0 cfg cells minL maxL = some (M, x) ∧ constructSubdomain 0 cells maxL = some S ∧ constructSubdomain 0 M.cells maxL = some sub ∧
      (∀ fuel, 2 * maxL < fuel → ghostRecursion 0 cfg.predictionOrder M.all M.ghosts M.cells fuel = some rec) ∧
      assembleScheme 0 h0 ⟨soa, M.all.nbCells, m, p, rowShift, colShift⟩ rec M.all sub M.cells maxL bdry ld.stencil (ld.flux h0) = some E ∧
      ∀ u : Int → Fin m → K, ∃ u' : Int → Fin m → K,
        (∀ j, updateGhostMr 0 ⟨⟨M.cells, M.all, dom, minL, maxL, fun _ => false, h0, cfg⟩, M.proj, S⟩ (bcs j) (fun k => u k j) = some fun k => u' k j) ∧
        (∀ l q k, cells.Mem 0 l q → (l, q, k) ∈ M.all.numbered 0 → u' k = u k) ∧
        ∃ out, (∀ par, linApplyTo 0 h0 par u' M.all sub M.cells maxL bdry ld = some out) ∧
          ∀ y, IsVector soa M.all.nbCells m colShift u' y → IsVector soa M.all.nbCells p rowShift out (matVec (schemeMatrix E) colShift (M.all.nbCells * m) y) := by
  obtain ⟨M, x, sub, rec, E, h1, hmc, h2, h3, h4, h5, -, -⟩ := C83_matrix 0 cfg cells dom minL maxL _ hgd le_rfl g (by omega) (by omega) h0 ld hS soa bdry rowShift colShift
  obtain ⟨S, s1, -⟩ := constructSubdomain_spec (maxL := maxL) g.wf g.between
  refine ⟨M, x, S, sub, rec, E, h1, s1, h2, h3, h4, fun u => ?_⟩
  obtain ⟨u', val, k1, hf, k3, hP, hQ, -⟩ := updated_dim1 cfg hs hw cells dom minL maxL base b g hgd hne hd hdl hbase hB h0 bcs hbc h1 hmc s1 u
  refine ⟨u', k1, k3, ?_⟩
  obtain ⟨y0, hy0⟩ := isVector_exists soa M.all.nbCells colShift u'
  obtain ⟨out, o1, -⟩ := h5 _ _ y0 hy0 hf hP hQ
  refine ⟨out, o1, fun y hy => ?_⟩
  obtain ⟨out', o2, o3⟩ := h5 _ _ y hy hf hP hQ
  have := (o1 true).symm.trans (o2 true)
  cases this
  exact o3

end

end Samurai

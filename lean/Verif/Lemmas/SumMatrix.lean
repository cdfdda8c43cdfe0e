/-
The matrices of the sums of schemes, with the elimination of the ghosts.
-/
import Verif.Lemmas.CellAssembly
import Verif.Props.PetscGhosts

namespace Samurai

section
variable {K : Type} [Field K] {m p : Nat}

/-- What the assembly of an operator gives. -/
structure OpMatrix (n order : Nat) (soa : Bool) (rowShift colShift : Int) (M : SubMeshes) (Compact : Prop)
    (op : List (Bool → (Int → Fin m → K) → ExplicitOp (Fin p → K))) (E : List (MatEntry K)) : Prop where
  rows : ∀ e ∈ E, ∃ (k : Int) (i : Fin p), e.1 = dataIndex soa M.all.nbCells p rowShift k i ∧ LeafNum n M.cells k
  cols : ∀ e ∈ E, colShift ≤ e.2.1 ∧ e.2.1 < colShift + (M.all.nbCells * m : Nat)
  value : ∀ u val y, IsVector soa M.all.nbCells m colShift u y → FieldIs n M.all u val →
    (∀ l q, ProjGhost n M.cells M.ghosts l q → MeanBelow (K := K) n val l q) →
    (∀ l q, PredGhost n M.cells M.ghosts l q → TensorPredicted (K := K) n order val l q) →
    ∃ outs : List (Int → Fin p → K), (∀ par, List.Forall₂ (fun f out => ∃ rs, f par u = some rs ∧ rs.foldl Region.run (fun _ => 0) = out) op outs) ∧
      IsVector soa M.all.nbCells p rowShift (fun k => (outs.map fun o => o k).sum) (matVec (schemeMatrix E) colShift (M.all.nbCells * m) y)
  compact : Compact → ∀ u u' val y, IsVector soa M.all.nbCells m colShift u y →
    (∀ l q k, (l, q, k) ∈ M.all.numbered n → ¬ ProjGhost n M.cells M.ghosts l q → ¬ PredGhost n M.cells M.ghosts l q → u' k = u k) → FieldIs n M.all u' val →
    (∀ l q, ProjGhost n M.cells M.ghosts l q → MeanBelow (K := K) n val l q) →
    (∀ l q, PredGhost n M.cells M.ghosts l q → TensorPredicted (K := K) n order val l q) →
    ∃ outs : List (Int → Fin p → K), (∀ par, List.Forall₂ (fun f out => ∃ rs, f par u' = some rs ∧ rs.foldl Region.run (fun _ => 0) = out) op outs) ∧
      IsVector soa M.all.nbCells p rowShift (fun k => (outs.map fun o => o k).sum) (matVec (schemeMatrix E) colShift (M.all.nbCells * m) y)

variable {n : Nat} {cfg : MeshConfig} {cells : CA} {dom sub : LCA} {minL maxL margin : Nat} {M : SubMeshes} {x : CA} {rec : GhostMap K}

theorem opMatrix (hd : GoodDomain n dom minL maxL margin) (hm : cfg.maxStencilWidth + cfg.predictionOrder + 3 ≤ margin) (g : GoodLeaves n cells dom minL maxL)
    (hw : 1 ≤ cfg.maxStencilWidth) (ho : cfg.predictionOrder ≤ 5) (h0 : K) (soa : Bool) (rowShift colShift : Int) (hM : mrMesh n cfg cells minL maxL = some (M, x))
    (hsub : constructSubdomain n M.cells maxL = some sub) (hrec : ∀ fuel, 2 * maxL < fuel → ghostRecursion n cfg.predictionOrder M.all M.ghosts M.cells fuel = some rec)
    (op : LinOp K m p) (hop : op.OK n cfg.maxStencilWidth) :
    ∃ E, op.assemble n h0 ⟨soa, M.all.nbCells, m, p, rowShift, colShift⟩ rec M.all sub M.cells maxL = some E ∧
      OpMatrix n cfg.predictionOrder soa rowShift colShift M (op.Compact n) [fun par u => op.regions n h0 par u M.all sub M.cells maxL] E ∧
      (op.WithBoundary → ∃ R, op.marks n h0 ⟨soa, M.all.nbCells, m, p, rowShift, colShift⟩ M.all sub M.cells maxL = some R ∧
        ∀ r, r ∈ R ↔ ∃ k, LeafNum n M.cells k ∧ ∃ i < p, r = dataIndex soa M.all.nbCells p rowShift k i) := by
  obtain ⟨M', x', h1, hinv, -⟩ := adaptInv_init' (cfg := cfg) hd (by omega) g
  rw [hM] at h1
  cases h1
  have gE := hinv.elim hd (by omega) hw
  obtain ⟨hN, hN', hleafnum⟩ := hinv.nums hd (by omega) hw
  cases op with
  | flux ld bdry =>
    obtain ⟨M2, x2, sub2, rec2, E, e1, e2, e3, e4, e5, e6, e7, e8⟩ := C83_matrix n cfg cells dom minL maxL margin hd hm g hw ho h0 ld hop soa bdry rowShift colShift
    rw [hM] at e1
    cases e1
    rw [hsub] at e3
    cases e3
    obtain rfl : rec = rec2 := Option.some.inj ((hrec _ (Nat.lt_succ_self _)).symm.trans (e4 _ (Nat.lt_succ_self _)))
    have conv : ∀ {u out}, (∀ par, linApplyTo n h0 par u M.all sub M.cells maxL bdry ld = some out) →
        ∀ par, List.Forall₂ (fun (f : Bool → (Int → Fin m → K) → ExplicitOp (Fin p → K)) out => ∃ rs, f par u = some rs ∧ rs.foldl Region.run (fun _ => 0) = out)
          [fun par u => (LinOp.flux ld bdry).regions n h0 par u M.all sub M.cells maxL] [out] := by
      intro u out h par
      obtain ⟨rs, r1, r2⟩ := Option.map_eq_some_iff.1 (h par)
      exact List.Forall₂.cons ⟨rs, r1, r2⟩ List.Forall₂.nil
    have hrc : (∀ e ∈ E, ∃ (k : Int) (i : Fin p), e.1 = dataIndex soa M.all.nbCells p rowShift k i ∧ LeafNum n M.cells k) ∧
        ∀ e ∈ E, colShift ≤ e.2.1 ∧ e.2.1 < colShift + (M.all.nbCells * m : Nat) := by
      obtain ⟨u', val', k1, k2, k3, k4⟩ := e8 fun _ _ => 0
      obtain ⟨y', hy'⟩ := isVector_exists soa M.all.nbCells colShift u'
      obtain ⟨rec', q1, q2, q3, q4, q5⟩ := gE.elimination (K := K) ho
      obtain rfl : rec' = rec := Option.some.inj ((q1 _ (Nat.lt_succ_self _)).symm.trans (hrec _ (Nat.lt_succ_self _)))
      obtain ⟨E', _, j1, -, j2, j3, -⟩ := assembleScheme_ok (L := ⟨soa, M.all.nbCells, m, p, rowShift, colShift⟩) (rec := rec') rfl rfl gE.fv ⟨hinv.fvNumbers, hN⟩
        (fun e he t ht => by obtain ⟨l, q, w, -⟩ := q3 e he t ht; exact hN _ _ _ w) h0 u' hy' ((q5 _ u' val' k2).2 ⟨k3, k4⟩) ld.stencil (ld.flux h0) hop hsub bdry
      rw [e5] at j1
      cases j1
      exact ⟨j3, j2⟩
    refine ⟨E, e5, ⟨hrc.1, hrc.2, fun u val y hy hu hP hQ => ?_, fun hc u u' val y hy huu hu hP hQ => ?_⟩, ?_⟩
    · obtain ⟨out, o1, o2⟩ := e6 u val y hy hu hP hQ
      exact ⟨[out], conv o1, by simpa using o2⟩
    · obtain ⟨out, o1, o2⟩ := e7 hc u u' val y hy huu hu hP hQ
      exact ⟨[out], conv o1, by simpa using o2⟩
    · rintro hb
      obtain rfl : bdry = true := hb
      exact schemeMarks_spec gE.fv hinv.fvNumbers hsub ⟨soa, M.all.nbCells, m, p, rowShift, colShift⟩ hop
  | cell cd =>
    obtain ⟨E, k1, k2, k3, k4, k5⟩ := gE.fv.assembleCell (L := ⟨soa, M.all.nbCells, m, p, rowShift, colShift⟩) ⟨hinv.fvNumbers, hN⟩ rfl rfl h0 hop
    have val : ∀ u y, IsVector soa M.all.nbCells m colShift u y → ∃ outs : List (Int → Fin p → K),
        (∀ par, List.Forall₂ (fun (f : Bool → (Int → Fin m → K) → ExplicitOp (Fin p → K)) out => ∃ rs, f par u = some rs ∧ rs.foldl Region.run (fun _ => 0) = out)
          [fun par u => (LinOp.cell cd).regions n h0 par u M.all sub M.cells maxL] outs) ∧
        IsVector soa M.all.nbCells p rowShift (fun k => (outs.map fun o => o k).sum) (matVec (schemeMatrix E) colShift (M.all.nbCells * m) y) := by
      intro u y hy
      obtain ⟨rs, r1, r2⟩ := k3 u y hy
      refine ⟨[rs.foldl Region.run fun _ => 0], fun par => List.Forall₂.cons ⟨rs, r1, rfl⟩ List.Forall₂.nil, fun v v0 v1 i => ?_⟩
      have hc := r2.cols
      have := r2.sum v v0 v1 i
      rw [MatLayout.row] at this
      rw [matVec_schemeMatrix _ _ _ _ _ hc, ← dataIndex_eq, this]
      simp [foldl_run, foldl_addTo]
    have hcols : ∀ e ∈ E, colShift ≤ e.2.1 ∧ e.2.1 < colShift + (M.all.nbCells * m : Nat) := by
      obtain ⟨y0, hy0⟩ := isVector_exists soa M.all.nbCells colShift (fun _ (_ : Fin m) => (0 : K))
      obtain ⟨rs, -, r2⟩ := k3 _ y0 hy0
      exact r2.cols
    refine ⟨E, k1, ⟨k2, hcols, fun u _ y hy _ _ _ => val u y hy, fun hc u u' _ y hy huu _ _ _ => ?_⟩, fun _ => k5⟩
    obtain ⟨y', hy'⟩ := isVector_exists soa M.all.nbCells colShift u'
    obtain ⟨outs, o1, o2⟩ := val u' y' hy'
    refine ⟨outs, o1, ?_⟩
    obtain ⟨rs, r1, r2⟩ := k3 u y hy
    have hcols := r2.cols
    have : matVec (schemeMatrix E) colShift (M.all.nbCells * m) y = matVec (schemeMatrix E) colShift (M.all.nbCells * m) y' := by
      funext r
      rw [matVec_schemeMatrix _ _ _ _ _ hcols, matVec_schemeMatrix _ _ _ _ _ hcols]
      refine rowSum_congr (fun e he => ?_) r
      obtain ⟨k, j, c1, l, q, hk⟩ := k4 hc e he
      have hk' := hinv.fvNumbers.same _ _ _ hk
      have hmem := CA.mem_of_numbered gE.fv.leaves.wf hk
      have hr := hN _ _ _ hk'
      rw [c1, MatLayout.col, hy.at hr.1 hr.2, hy'.at hr.1 hr.2, huu l q k hk' (gE.leaf_proj hmem) (gE.leaf_pred hmem)]
    rw [this]
    exact o2

/-- The assembly of a sum. -/
theorem sumMatrix (hd : GoodDomain n dom minL maxL margin) (hm : cfg.maxStencilWidth + cfg.predictionOrder + 3 ≤ margin) (g : GoodLeaves n cells dom minL maxL)
    (hw : 1 ≤ cfg.maxStencilWidth) (ho : cfg.predictionOrder ≤ 5) (h0 : K) (soa : Bool) (rowShift colShift : Int) (hM : mrMesh n cfg cells minL maxL = some (M, x))
    (hsub : constructSubdomain n M.cells maxL = some sub) (hrec : ∀ fuel, 2 * maxL < fuel → ghostRecursion n cfg.predictionOrder M.all M.ghosts M.cells fuel = some rec) :
    ∀ ops : List (LinOp K m p), (∀ op ∈ ops, op.OK n cfg.maxStencilWidth) →
    ∃ E, overList (LinOp.assemble n h0 ⟨soa, M.all.nbCells, m, p, rowShift, colShift⟩ rec M.all sub M.cells maxL) ops = some E ∧
      OpMatrix n cfg.predictionOrder soa rowShift colShift M (∀ op ∈ ops, op.Compact n) (ops.map fun op par u => op.regions n h0 par u M.all sub M.cells maxL) E := by
  intro ops
  induction ops with
  | nil =>
    intro _
    refine ⟨[], rfl, by simp, by simp, fun u val y _ _ _ _ => ⟨[], fun _ => List.Forall₂.nil, fun v _ _ i => ?_⟩, fun _ u u' val y _ _ _ _ _ => ⟨[], fun _ => List.Forall₂.nil, fun v _ _ i => ?_⟩⟩
    · simp [matVec, schemeMatrix]
    · simp [matVec, schemeMatrix]
  | cons op ops ih =>
    intro h
    obtain ⟨E, e1, e2, -⟩ := opMatrix hd hm g hw ho h0 soa rowShift colShift hM hsub hrec op (h op List.mem_cons_self)
    obtain ⟨F, f1, f2⟩ := ih fun op' hop => h op' (List.mem_cons_of_mem _ hop)
    have add : ∀ {a b : List (Int → Fin p → K)} {y : Int → K}, IsVector soa M.all.nbCells p rowShift (fun k => (a.map fun o => o k).sum) (matVec (schemeMatrix E) colShift (M.all.nbCells * m) y) →
        IsVector soa M.all.nbCells p rowShift (fun k => (b.map fun o => o k).sum) (matVec (schemeMatrix F) colShift (M.all.nbCells * m) y) →
        IsVector soa M.all.nbCells p rowShift (fun k => ((a ++ b).map fun o => o k).sum) (matVec (schemeMatrix (E ++ F)) colShift (M.all.nbCells * m) y) := by
      intro a b y ha hb v v0 v1 i
      have h1 := ha v v0 v1 i
      have h2 := hb v v0 v1 i
      rw [matVec_append, h1, h2]
      beta_reduce
      rw [List.map_append, List.sum_append, Pi.add_apply]
    refine ⟨E ++ F, by unfold overList; rw [e1, f1], fun e he => ?_, fun e he => ?_, fun u val y hy hu hP hQ => ?_, fun hc u u' val y hy huu hu hP hQ => ?_⟩
    · rcases List.mem_append.1 he with he | he
      · exact e2.rows e he
      · exact f2.rows e he
    · rcases List.mem_append.1 he with he | he
      · exact e2.cols e he
      · exact f2.cols e he
    · obtain ⟨a, a1, a2⟩ := e2.value u val y hy hu hP hQ
      obtain ⟨b, b1, b2⟩ := f2.value u val y hy hu hP hQ
      exact ⟨a ++ b, fun par => List.rel_append (a1 par) (b1 par), add a2 b2⟩
    · obtain ⟨a, a1, a2⟩ := e2.compact (hc op List.mem_cons_self) u u' val y hy huu hu hP hQ
      obtain ⟨b, b1, b2⟩ := f2.compact (fun op' hop => hc op' (List.mem_cons_of_mem _ hop)) u u' val y hy huu hu hP hQ
      exact ⟨a ++ b, fun par => List.rel_append (a1 par) (b1 par), add a2 b2⟩

/-- The explicit application of the sum. -/
theorem sum_outs {ops : List (LinOp K m p)} {F : LinOp K m p → Bool → (Int → Fin m → K) → ExplicitOp (Fin p → K)} {u : Int → Fin m → K} {outs : List (Int → Fin p → K)} {par : Bool}
    (h : List.Forall₂ (fun (f : Bool → (Int → Fin m → K) → ExplicitOp (Fin p → K)) out => ∃ rs, f par u = some rs ∧ rs.foldl Region.run (fun _ => 0) = out) (ops.map F) outs) :
    operatorSumApplyTo (ops.map fun op => F op par u) = some fun k => (outs.map fun o => o k).sum := by
  obtain ⟨l, h1, h2⟩ : ∃ l : List (List (Region (Fin p → K))), ops.map (fun op => F op par u) = l.map some ∧ outs = l.map fun rs => rs.foldl Region.run fun _ => 0 := by
    induction ops generalizing outs with
    | nil => cases h; exact ⟨[], rfl, rfl⟩
    | cons op ops ih =>
      cases h with
      | cons h hs =>
        obtain ⟨rs, r1, rfl⟩ := h
        obtain ⟨l, l1, rfl⟩ := ih hs
        exact ⟨rs :: l, by rw [List.map_cons, List.map_cons, l1, r1], by simp⟩
  rw [h1, h2, C68_operator_sum]
  simp only [List.map_map]
  rfl

end

end Samurai

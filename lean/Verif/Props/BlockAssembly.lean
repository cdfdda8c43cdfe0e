/-
C89, C90: the matrices and the linear systems of the block operators.
-/
import Verif.Lemmas.BlockAssembly
import Verif.Props.CellMatrix

namespace Samurai

section
variable {K : Type} [Field K] {R C : Nat} {rz : Fin R → Nat} {sz : Fin C → Nat}

/-- C89. The matrix of a block operator, for every mesh of graded leaves, every number of rows and of columns of blocks, schemes of any kind in the blocks and blocks `0`: for fields
whose ghosts have the values of the projection and of the prediction, put one after the other in a vector, the product of the matrix and of this vector is the vector of the
results, one after the other: the result of the row `r` is the sum on the columns `c` of the explicit application of the block `(r, c)` to the field `c`. The layouts of the fields are
the same, or the results have one component (`C89_layout_refuted`). -/
theorem C89_matrix (n : Nat) (cfg : MeshConfig) (cells : CA) (dom : LCA) (minL maxL margin : Nat) (hd : GoodDomain n dom minL maxL margin)
    (hm : cfg.maxStencilWidth + cfg.predictionOrder + 3 ≤ margin) (g : GoodLeaves n cells dom minL maxL) (hw : 1 ≤ cfg.maxStencilWidth) (ho : cfg.predictionOrder ≤ 5) (h0 : K)
    (B : Blocks K rz sz) (hr : ∀ r, ∃ c, (B r c).isSome) (hc : ∀ c, ∃ r, (B r c).isSome) (hops : ∀ r c ops, B r c = some ops → ∀ op ∈ ops, op.OK n cfg.maxStencilWidth)
    (soa : Fin C → Bool) (soaOut : Fin R → Bool) (hlay : ∀ r c, (B r c).isSome → rz r = 1 ∨ soa c = soaOut r) :
    ∃ M x sub rec E, mrMesh n cfg cells minL maxL = some (M, x) ∧ (∀ l q, M.cells.Mem n l q ↔ cells.Mem n l q) ∧ constructSubdomain n M.cells maxL = some sub ∧
      (∀ fuel, 2 * maxL < fuel → ghostRecursion n cfg.predictionOrder M.all M.ghosts M.cells fuel = some rec) ∧
      assembleBlocks n h0 B soa M.all.nbCells rec M.all sub M.cells maxL = some E ∧
      ∀ (u : (c : Fin C) → Int → Fin (sz c) → K) (val : (c : Fin C) → Nat → List Int → Fin (sz c) → K) (y : Int → K), AreVectors soa M.all.nbCells sz u y → (∀ c, FieldIs n M.all (u c) (val c)) →
        (∀ c l q, ProjGhost n M.cells M.ghosts l q → MeanBelow (K := K) n (val c) l q) →
        (∀ c l q, PredGhost n M.cells M.ghosts l q → TensorPredicted (K := K) n cfg.predictionOrder (val c) l q) →
        ∃ out : (r : Fin R) → Fin C → Int → Fin (rz r) → K,
          (∀ r c par, operatorSumApplyTo (((B r c).getD []).map fun op => op.regions n h0 par (u c) M.all sub M.cells maxL) = some (out r c)) ∧
          AreVectors soaOut M.all.nbCells rz (fun r k => ∑ c, out r c k) (matVec (schemeMatrix E) 0 (fieldsSize M.all.nbCells sz) y) := by
  obtain ⟨M, x, h1, hinv, h3⟩ := adaptInv_init' (cfg := cfg) hd (by omega) g
  have gE := hinv.elim hd (by omega) hw
  obtain ⟨hN, hN', -⟩ := hinv.nums hd (by omega) hw
  obtain ⟨rec, r1, -⟩ := gE.elimination (K := K) ho
  obtain ⟨sub, s1, -⟩ := constructSubdomain_spec (maxL := maxL) hinv.leaves.wf hinv.leaves.between
  obtain ⟨E, e1, e2, e3, e4⟩ := blocksMatrix hd hm g hw ho h0 h1 s1 r1 hN hinv.fvNumbers B hr hc hops soa
  refine ⟨M, x, sub, rec, _, h1, h3, s1, r1, e1, fun u val y hy hu hP hQ => ?_⟩
  have hex : ∀ r c, ∃ out : Int → Fin (rz r) → K,
      (∀ par, operatorSumApplyTo (((B r c).getD []).map fun op => op.regions n h0 par (u c) M.all sub M.cells maxL) = some out) ∧
      IsVector (soa c) M.all.nbCells (rz r) (fieldOffset M.all.nbCells rz r) out (matVec (schemeMatrix (E r c)) (fieldOffset M.all.nbCells sz c) (M.all.nbCells * sz c) y) := by
    intro r c
    obtain ⟨outs, o1, o2⟩ := (e4 r c).value (u c) (val c) y (hy c) (hu c) (hP c) (hQ c)
    exact ⟨_, fun par => sum_outs (F := fun op par u => op.regions n h0 par u M.all sub M.cells maxL) (o1 par), o2⟩
  choose out o1 o2 using hex
  refine ⟨out, o1, fun r k k0 k1 i => ?_⟩
  have o3 : ∀ c, IsVector (soaOut r) M.all.nbCells (rz r) (fieldOffset M.all.nbCells rz r) (out r c)
      (matVec (schemeMatrix (E r c)) (fieldOffset M.all.nbCells sz c) (M.all.nbCells * sz c) y) := by
    intro c
    cases hB : B r c with
    | some ops => exact isVector_layout (hlay r c (by rw [hB]; rfl)) (o2 r c)
    | none =>
      have he := e3 r c
      rw [hB] at he
      have hz := o1 r c true
      rw [hB] at hz
      rw [← Option.some.inj he, ← Option.some.inj hz]
      intro k _ _ i
      simp [matVec, schemeMatrix]
  have hρ := dataIndex_range (soa := soaOut r) (shift := fieldOffset M.all.nbCells rz r) k0 k1 i
  have hp := e2.product (r := r) (by rw [firstSum_offset]; exact hρ) y
  rw [firstSum_size] at hp
  rw [← dataIndex_eq, hp]
  beta_reduce
  rw [Finset.sum_apply]
  refine Finset.sum_congr rfl fun c _ => ?_
  rw [firstSum_offset, (o3 c).at k0 k1]

end

section
variable {K : Type} [Field K] {R : Nat} {s : Fin R → Nat}

/-- The number of rows and of columns of the monolithic matrix of a square operator. -/
theorem total_square (B : Blocks K s s) (N : Nat) (hd : ∀ r, (B r r).isSome) : totalRows B N = fieldsSize N s ∧ totalCols B N = fieldsSize N s := by
  unfold totalRows totalCols fieldsSize
  rw [List.filter_eq_self.2 (fun r _ => by simp), sum_finRange, sum_finRange]
  exact ⟨Finset.sum_congr rfl fun r _ => blockRows_eq B N r ⟨r, hd r⟩, Finset.sum_congr rfl fun r _ => blockCols_eq B N r ⟨r, hd r⟩⟩

/-- The field with the same values in the cells that are not eliminated ghosts, and the values of the projection and of the prediction in those. -/
theorem ghosts_exist {m : Nat} {n : Nat} {cfg : MeshConfig} {cells : CA} {dom : LCA} {minL maxL margin : Nat} {M : SubMeshes} {x : CA}
    (hd : GoodDomain n dom minL maxL margin) (hm : cfg.maxStencilWidth + cfg.predictionOrder + 3 ≤ margin) (g : GoodLeaves n cells dom minL maxL)
    (hw : 1 ≤ cfg.maxStencilWidth) (ho : cfg.predictionOrder ≤ 5) (hM : mrMesh n cfg cells minL maxL = some (M, x)) (u : Int → Fin m → K) : ∃ u' val,
      (∀ l q k, (l, q, k) ∈ M.all.numbered n → ¬ ProjGhost n M.cells M.ghosts l q → ¬ PredGhost n M.cells M.ghosts l q → u' k = u k) ∧ FieldIs n M.all u' val ∧
      (∀ l q, ProjGhost n M.cells M.ghosts l q → MeanBelow (K := K) n val l q) ∧
      (∀ l q, PredGhost n M.cells M.ghosts l q → TensorPredicted (K := K) n cfg.predictionOrder val l q) := by
  obtain ⟨M', x', sub', rec', E', j1, -, -, -, -, -, -, j8⟩ := C83_matrix (p := m) n cfg cells dom minL maxL margin hd hm g hw ho (0 : K)
    ⟨fun d => inOutStencil (unitDir d), fun _ _ => []⟩ (fun d _ => inOut_wide n d hw) true true 0 0
  rw [hM] at j1
  cases j1
  exact j8 u

/-- C90. The linear system of a square block operator, for every mesh of graded leaves of a box, any number of unknown fields, flux-based schemes with stencils of two cells and
cell-based schemes on one cell in the blocks (`0` outside of the diagonal): the matrix has as many rows and columns as there are unknowns, and a vector of fields solves the system that
the monolithic assembly and the preparation of the right-hand side build if and only if
1. in the leaves, for each row, the sum on the columns of the explicit application of the blocks gives the right-hand side, on the fields whose eliminated ghosts have the values of
the projection and of the prediction,
2. each ghost next to a leaf of a condition of a field satisfies this condition (the last one, if several have it), whose value is the one of the function at the centre of the face,
3. the other cells of the fields have the value 0.
Missing: the blocks `0` of the diagonal, the schemes with wider stencils (as for C88), the fields with different layouts (`C89_layout_refuted`). -/
theorem C90_system_partial [DecidableEq K] (n : Nat) (hn : n ≤ 2) (cfg : MeshConfig) (cells : CA) (dom : LCA) (minL maxL margin base : Nat) (b : Box)
    (hd : GoodDomain n dom minL maxL margin) (hm : cfg.maxStencilWidth + cfg.predictionOrder + 3 ≤ margin) (g : GoodLeaves n cells dom minL maxL)
    (hw : 1 ≤ cfg.maxStencilWidth) (ho : cfg.predictionOrder ≤ 5) (hbox : BoxDomain n dom base b) (hdl : dom.level = maxL) (hbase : base ≤ minL)
    (h2 : (2 : K) ≠ 0) (origin : Fin (n + 1) → K) (h0 diag : K) (hdiag : diag ≠ 0) (B : Blocks K s s)
    (hops : ∀ r c ops, B r c = some ops → ∀ op ∈ ops, op.OK n cfg.maxStencilWidth ∧ op.Compact n) (hdg : ∀ r, ∃ ops, B r r = some ops ∧ ops ≠ [] ∧ ∀ op ∈ ops, op.WithBoundary)
    (bcs : (r : Fin R) → List (FieldBc K n (s r))) (hreg : ∀ r, ∀ x ∈ fieldEntries (bcs r), UnitVector n x.2.1 → OneAxis n x.2.1 → BdryRegion n dom x.2.1 x.2.2)
    (soa : Fin R → Bool) (hlay : ∀ r c, (B r c).isSome → s r = 1 ∨ soa c = soa r) :
    ∃ M x sub rec A, mrMesh n cfg cells minL maxL = some (M, x) ∧ (∀ l q, M.cells.Mem n l q ↔ cells.Mem n l q) ∧ constructSubdomain n M.cells maxL = some sub ∧
      (∀ fuel, 2 * maxL < fuel → ghostRecursion n cfg.predictionOrder M.all M.ghosts M.cells fuel = some rec) ∧
      totalRows B M.all.nbCells = fieldsSize M.all.nbCells s ∧ totalCols B M.all.nbCells = fieldsSize M.all.nbCells s ∧
      assembleBlockMatrix h0 diag B soa M.all.nbCells rec M.all sub M.cells maxL bcs = some A ∧
      ∀ (f : (r : Fin R) → Int → Fin (s r) → K) (rhs : Int → K), AreVectors soa M.all.nbCells s f rhs →
        ∃ rhs', prepareBlockRhs origin h0 B soa M.all.nbCells M.all M.ghosts sub M.cells maxL bcs rhs = some rhs' ∧
        ∀ (u : (r : Fin R) → Int → Fin (s r) → K) (val : (r : Fin R) → Nat → List Int → Fin (s r) → K) (y : Int → K), AreVectors soa M.all.nbCells s u y →
          (∀ r, FieldIs n M.all (u r) (val r)) →
          ((∀ ρ : Int, 0 ≤ ρ → ρ < fieldsSize M.all.nbCells s → matVec A 0 (fieldsSize M.all.nbCells s) y ρ = rhs' ρ) ↔
            (∀ (u' : (r : Fin R) → Int → Fin (s r) → K) (val' : (r : Fin R) → Nat → List Int → Fin (s r) → K),
              (∀ r l q k, (l, q, k) ∈ M.all.numbered n → ¬ ProjGhost n M.cells M.ghosts l q → ¬ PredGhost n M.cells M.ghosts l q → u' r k = u r k) →
              (∀ r, FieldIs n M.all (u' r) (val' r)) → (∀ r l q, ProjGhost n M.cells M.ghosts l q → MeanBelow (K := K) n (val' r) l q) →
              (∀ r l q, PredGhost n M.cells M.ghosts l q → TensorPredicted (K := K) n cfg.predictionOrder (val' r) l q) →
              ∃ out : (r : Fin R) → Fin R → Int → Fin (s r) → K,
                (∀ r c par, operatorSumApplyTo (((B r c).getD []).map fun op => op.regions n h0 par (u' c) M.all sub M.cells maxL) = some (out r c)) ∧
                ∀ l q k, (l, q, k) ∈ M.all.numbered n → M.cells.Mem n l q → ∀ r, ∑ c, out r c k = f r k) ∧
            (∀ (r : Fin R) (l1 : List (FieldBc K n (s r) × (Nat → Int) × LCA)) x l2 level p q, fieldEntries (bcs r) = l1 ++ x :: l2 → Constrains n M.cells level x p q → (∀ z ∈ l2, ∀ p', ¬ Constrains n M.cells level z p' q) →
              ∀ i, x.1.kind.Satisfied h0 level (fun j => val r level (walk n p j x.2.1) i) 1
                (x.1.value (fun _ => 0) ⟨fun _ => 0, 0, fun _ => 0, 0, 0⟩ (faceAt origin h0 level p x.2.1) i)) ∧
            ∀ r l q k, (l, q, k) ∈ M.all.numbered n → ¬ M.cells.Mem n l q → (∀ x ∈ fieldEntries (bcs r), ∀ p, ¬ Constrains n M.cells l x p q) → u r k = 0) := by
  classical
  obtain ⟨M, x, h1, hinv, h3⟩ := adaptInv_init' (cfg := cfg) hd (by omega) g
  have gE := hinv.elim hd (by omega) hw
  obtain ⟨hN, hN', hleafnum⟩ := hinv.nums hd (by omega) hw
  obtain ⟨rec, q1, -⟩ := gE.elimination (K := K) ho
  obtain ⟨sub, s1, -⟩ := constructSubdomain_spec (maxL := maxL) hinv.leaves.wf hinv.leaves.between
  have hdS : ∀ r, (B r r).isSome := fun r => by obtain ⟨ops, h, -⟩ := hdg r; rw [h]; rfl
  have hr : ∀ r, ∃ c, (B r c).isSome := fun r => ⟨r, hdS r⟩
  have hc : ∀ c, ∃ r, (B r c).isSome := fun r => ⟨r, hdS r⟩
  obtain ⟨E, e1, e2, e3, e4⟩ := blocksMatrix hd hm g hw ho h0 h1 s1 q1 hN hinv.fvNumbers B hr hc (fun r c ops h op hop => (hops r c ops h op hop).1) soa
  have hlayout := blockLayout_eq B soa M.all.nbCells hr hc
  generalize hNN : M.all.nbCells = N at *
  -- the coefficients of a row of blocks are in the rows of the leaves
  have hErow : ∀ r c, ∀ e ∈ E r c, ∃ (k : Int) (i : Fin (s r)), e.1 = dataIndex (soa r) N (s r) (fieldOffset N s r) k i ∧ LeafNum n M.cells k := by
    intro r c e he
    cases hB : B r c with
    | some ops =>
      obtain ⟨k, i, k1, k2⟩ := (e4 r c).rows e he
      rw [hNN] at k1
      exact ⟨k, i, k1.trans (dataIndex_layout (hlay r c (by rw [hB]; rfl)) _ _ _), k2⟩
    | none =>
      have h := e3 r c
      rw [hB] at h
      rw [← Option.some.inj h] at he
      simp at he
  -- the system of a row of blocks
  have hsys : ∀ r, ∃ Rm Bc G, ((B r r).bind fun ops => ops[largestIndex (ops.map LinOp.stencilSize)]?).bind
        (LinOp.marks n h0 (blockLayout B soa N r r) M.all sub M.cells maxL) = some Rm ∧
      bcCalls n h0 M.all M.cells (bcs r) = some Bc ∧ CallsOK h0 N Bc ∧ eliminatedGhosts n M.all M.ghosts M.cells = some G ∧ (∀ k ∈ G, 0 ≤ k ∧ k < N) ∧
      ∃ A marked, finishMatrix n h0 diag ⟨soa r, N, s r, s r, fieldOffset N s r, fieldOffset N s r⟩ M.all M.cells (bcs r) (rowEntries E r) Rm = some (A, marked) ∧
      ∀ f rhs, IsVector (soa r) N (s r) (fieldOffset N s r) f rhs →
        ∃ rhs', prepareRhs n origin h0 ⟨soa r, N, s r, s r, fieldOffset N s r, fieldOffset N s r⟩ M.all M.ghosts M.cells (bcs r) marked rhs = some rhs' ∧
        (∀ k, LeafNum n M.cells k → ∀ i : Fin (s r), rhs' (dataIndex (soa r) N (s r) (fieldOffset N s r) k i) = rhs (dataIndex (soa r) N (s r) (fieldOffset N s r) k i)) ∧
        ∀ u val y, IsVector (soa r) N (s r) (fieldOffset N s r) u y → FieldIs n M.all u val →
          ((∀ ρ, fieldOffset N s r ≤ ρ → ρ < fieldOffset N s r + (N * s r : Nat) → matVec A (fieldOffset N s r) (N * s r) y ρ = rhs' ρ) ↔
            (∀ l q k, (l, q, k) ∈ M.all.numbered n → M.cells.Mem n l q → ∀ i : Fin (s r),
              matVec (schemeMatrix (rowEntries E r)) (fieldOffset N s r) (N * s r) y (dataIndex (soa r) N (s r) (fieldOffset N s r) k i) = f k i) ∧
            (∀ (l1 : List (FieldBc K n (s r) × (Nat → Int) × LCA)) x l2 level p q, fieldEntries (bcs r) = l1 ++ x :: l2 → Constrains n M.cells level x p q → (∀ z ∈ l2, ∀ p', ¬ Constrains n M.cells level z p' q) →
              ∀ i, x.1.kind.Satisfied h0 level (fun j => val level (walk n p j x.2.1) i) 1
                (x.1.value (fun _ => 0) ⟨fun _ => 0, 0, fun _ => 0, 0, 0⟩ (faceAt origin h0 level p x.2.1) i)) ∧
            ∀ l q k, (l, q, k) ∈ M.all.numbered n → ¬ M.cells.Mem n l q → (∀ x ∈ fieldEntries (bcs r), ∀ p, ¬ Constrains n M.cells l x p q) → u k = 0) := by
    intro r
    obtain ⟨ops, o1, o2, o3⟩ := hdg r
    obtain ⟨op, hop, i1, -⟩ := largest_mem LinOp.stencilSize ops o2
    obtain ⟨-, -, -, hR⟩ := opMatrix hd hm g hw ho h0 (soa r) (fieldOffset N s r) (fieldOffset N s r) h1 s1 q1 op (hops r r ops o1 op hop).1
    obtain ⟨Rm, r1, r2⟩ := hR (o3 op hop)
    obtain ⟨A, marked, a1, ⟨Bc, G, c1, c2, c3, c4⟩, a2⟩ := hinv.system_iff hn hd (by omega) hw hbox hdl hbase h2 origin h0 diag hdiag (bcs r) (hreg r) (soa r) (fieldOffset N s r)
      (E := rowEntries E r) (fun e he => by
        obtain ⟨c, -, he⟩ := List.mem_flatMap.1 he
        rw [hNN]
        exact hErow r c e he) r2
    rw [hNN] at r1 a1 c2 c4 a2
    refine ⟨Rm, Bc, G, ?_, c1, c2, c3, c4, A, marked, a1, a2⟩
    rw [o1, hlayout]
    show (ops[largestIndex (ops.map LinOp.stencilSize)]?).bind _ = _
    rw [i1]
    exact r1
  choose Rm Bc G m1 m2 m3 m4 m5 A marked m6 m7 using hsys
  obtain ⟨T, hT⟩ : ∃ T : Fin R → List (MatEntry K), ∀ r, T r = (Bc r).flatMap (bcEntriesOf h0 ⟨soa r, N, s r, s r, fieldOffset N s r, fieldOffset N s r⟩) := ⟨_, fun _ => rfl⟩
  obtain ⟨Z, hZ⟩ : ∃ Z : Fin R → List Nat, ∀ r, Z r = uselessRows ⟨soa r, N, s r, s r, fieldOffset N s r, fieldOffset N s r⟩ (marked r) := ⟨_, fun _ => rfl⟩
  obtain ⟨U, hU⟩ : ∃ U : Fin R → List (MatEntry K), ∀ r, U r = (Z r).map fun (i : Nat) => (fieldOffset N s r + (i : Int), fieldOffset N s r + (i : Int), diag) := ⟨_, fun _ => rfl⟩
  have hfin : ∀ r, A r = (U r).foldl matInsert ((T r).foldl matInsert (schemeMatrix (rowEntries E r))) ∧ marked r = Rm r ++ (T r).map Prod.fst := by
    intro r
    have := m6 r
    unfold finishMatrix at this
    rw [m2 r] at this
    have := Option.some.inj this
    have hm2 : marked r = Rm r ++ (T r).map Prod.fst := by rw [hT]; exact (congrArg Prod.snd this).symm
    refine ⟨?_, hm2⟩
    have h : _ = A r := congrArg Prod.fst this
    rw [hU, hZ, hm2, hT]
    exact h.symm
  -- the insertions are in their blocks
  have hTin : ∀ r, ∀ e ∈ T r, (fieldOffset N s r ≤ e.1 ∧ e.1 < fieldOffset N s r + (N * s r : Nat)) ∧ fieldOffset N s r ≤ e.2.1 ∧ e.2.1 < fieldOffset N s r + (N * s r : Nat) := by
    intro r e he
    rw [hT] at he
    obtain ⟨c, hc, he⟩ := List.mem_flatMap.1 he
    obtain ⟨_, _, j, h⟩ := (mem_bcEntriesOf h2).1 he
    have k1 := (m3 r).ghost c hc
    have k2 := (m3 r).cell c hc
    rcases h with rfl | rfl
    · exact ⟨dataIndex_range k1.1 k1.2 j, dataIndex_range k2.1 k2.2 j⟩
    · exact ⟨dataIndex_range k1.1 k1.2 j, dataIndex_range k1.1 k1.2 j⟩
  have hZin : ∀ r, ∀ i ∈ Z r, i < N * s r := by
    intro r i hi
    rw [hZ] at hi
    exact (mem_uselessRows.1 hi).1
  have hUin : ∀ r, ∀ e ∈ U r, (fieldOffset N s r ≤ e.1 ∧ e.1 < fieldOffset N s r + (N * s r : Nat)) ∧ fieldOffset N s r ≤ e.2.1 ∧ e.2.1 < fieldOffset N s r + (N * s r : Nat) := by
    intro r e he
    rw [hU] at he
    obtain ⟨i, hi, rfl⟩ := List.mem_map.1 he
    have := hZin r i hi
    refine ⟨⟨?_, ?_⟩, ?_, ?_⟩ <;> simp only [] <;> omega
  have hdis : ∀ {r r' : Fin R} {ρ : Int}, fieldOffset N s r ≤ ρ ∧ ρ < fieldOffset N s r + (N * s r : Nat) → fieldOffset N s r' ≤ ρ ∧ ρ < fieldOffset N s r' + (N * s r' : Nat) → r = r' := by
    intro r r' ρ k1 k2
    rw [← firstSum_offset] at k1 k2
    exact block_disjoint (fun q => N * s q) k1 k2
  have hA : ∀ {r : Fin R} {ρ : Int}, fieldOffset N s r ≤ ρ ∧ ρ < fieldOffset N s r + (N * s r : Nat) →
      ((List.finRange R).flatMap U).foldl matInsert (((List.finRange R).flatMap T).foldl matInsert (schemeMatrix (allEntries E))) ρ = A r ρ := by
    intro r ρ hρ
    rw [matFold_pick (List.nodup_finRange R) (List.mem_finRange r) U _ (fun b _ hb e he h => hb ?_), (hfin r).1]
    · refine matFold_congr ?_
      rw [matFold_pick (List.nodup_finRange R) (List.mem_finRange r) T _ (fun b _ hb e he h => hb ?_)]
      · exact matFold_congr (e2.row (by rw [firstSum_offset]; exact hρ))
      · have := (hTin b e he).1
        rw [h] at this
        exact hdis this hρ
    · have := (hUin b e he).1
      rw [h] at this
      exact hdis this hρ
  have hdbc : ∀ r, diagBc h0 B soa N M.all M.cells bcs r = some (T r) := by
    intro r
    obtain ⟨ops, o1, -⟩ := hdg r
    unfold diagBc
    rw [o1, m2 r, hT, hlayout]
    rfl
  have hdus : ∀ r, diagUseless h0 B soa N M.all sub M.cells maxL bcs r = some (Z r) := by
    intro r
    obtain ⟨ops, o1, -⟩ := hdg r
    have hmk : diagMarked h0 B soa N M.all sub M.cells maxL bcs r = some (marked r) := by
      unfold diagMarked
      rw [m1 r, hdbc r, (hfin r).2]
    unfold diagUseless
    rw [o1, hmk, hZ, hlayout]
    rfl
  have hsz := total_square B N hdS
  -- the product, row of blocks by row of blocks
  obtain ⟨Y, hY⟩ : ∃ Y : Fin R → (Int → K) → Int → K, ∀ r y ρ, Y r y ρ = ∑ c ∈ Finset.univ.erase r, matVec (schemeMatrix (E r c)) (fieldOffset N s c) (N * s c) y ρ := ⟨_, fun _ _ _ => rfl⟩
  have hprod : ∀ {r : Fin R} {ρ : Int} (y : Int → K), fieldOffset N s r ≤ ρ ∧ ρ < fieldOffset N s r + (N * s r : Nat) →
      matVec (((List.finRange R).flatMap U).foldl matInsert (((List.finRange R).flatMap T).foldl matInsert (schemeMatrix (allEntries E)))) 0 (fieldsSize N s) y ρ =
        matVec (A r) (fieldOffset N s r) (N * s r) y ρ + Y r y ρ := by
    intro r ρ y hρ
    have : matVec (((List.finRange R).flatMap U).foldl matInsert (((List.finRange R).flatMap T).foldl matInsert (schemeMatrix (allEntries E)))) 0 (fieldsSize N s) y ρ =
        matVec (A r) 0 (fieldsSize N s) y ρ := matVec_congr fun γ _ _ => by rw [hA hρ]
    rw [this, ← firstSum_size, matVec_blocks, ← Finset.add_sum_erase _ _ (Finset.mem_univ r), hY, firstSum_offset]
    congr 1
    refine Finset.sum_congr rfl fun c hc => ?_
    have hcr := Finset.ne_of_mem_erase hc
    rw [firstSum_offset]
    refine matVec_congr fun γ k1 k2 => ?_
    rw [(hfin r).1, matFold_other, matFold_other]
    · exact e2.block r ρ (by rw [firstSum_offset]; exact ⟨k1, k2⟩)
    · intro e he _ h
      have := (hTin r e he).2
      rw [h] at this
      exact hcr (hdis ⟨k1, k2⟩ this)
    · intro e he _ h
      have := (hUin r e he).2
      rw [h] at this
      exact hcr (hdis ⟨k1, k2⟩ this)
  have hYz : ∀ r y k, (0 ≤ k ∧ k < (N : Int)) → ¬ LeafNum n M.cells k → ∀ i : Fin (s r), Y r y (dataIndex (soa r) N (s r) (fieldOffset N s r) k i) = 0 := by
    intro r y k hk hl i
    rw [hY]
    refine Finset.sum_eq_zero fun c _ => ?_
    unfold matVec
    refine List.sum_eq_zero fun z hz => ?_
    obtain ⟨t, -, rfl⟩ := List.mem_map.1 hz
    rw [schemeMatrix_row, zero_mul]
    intro e he h
    obtain ⟨k', i', k1, l', q', k2⟩ := hErow r c e he
    have hk' := hN _ _ _ (hinv.fvNumbers.same _ _ _ k2)
    have := ((dataIndex_inj hk'.1 hk'.2 hk.1 hk.2).1 (k1.symm.trans h)).1
    subst this
    exact hl ⟨l', q', k2⟩
  have hYsum : ∀ r y (ρ : Int), matVec (schemeMatrix (rowEntries E r)) (fieldOffset N s r) (N * s r) y ρ + Y r y ρ =
      ∑ c, matVec (schemeMatrix (E r c)) (fieldOffset N s c) (N * s c) y ρ := by
    intro r y ρ
    rw [← Finset.add_sum_erase _ _ (Finset.mem_univ r), hY]
    congr 1
    exact matVec_congr fun γ k1 k2 => e2.block r ρ (by rw [firstSum_offset]; exact ⟨k1, k2⟩)
  -- the right-hand side
  obtain ⟨V1, hV1⟩ : ∃ V1 : Fin R → List (Int × K), ∀ r, V1 r = (Bc r).flatMap (bcRhsOf origin h0 ⟨soa r, N, s r, s r, fieldOffset N s r, fieldOffset N s r⟩) := ⟨_, fun _ => rfl⟩
  obtain ⟨V2, hV2⟩ : ∃ V2 : Fin R → List (Int × K), ∀ r, V2 r = (G r).flatMap fun k => (List.range (s r)).map fun i => (dataIndex (soa r) N (s r) (fieldOffset N s r) k i, (0 : K)) := ⟨_, fun _ => rfl⟩
  obtain ⟨V3, hV3⟩ : ∃ V3 : Fin R → List (Int × K), ∀ r, V3 r = (Z r).map fun (i : Nat) => (fieldOffset N s r + (i : Int), (0 : K)) := ⟨_, fun _ => rfl⟩
  have hprep : ∀ r rhs, prepareRhs n origin h0 ⟨soa r, N, s r, s r, fieldOffset N s r, fieldOffset N s r⟩ M.all M.ghosts M.cells (bcs r) (marked r) rhs =
      some ((V1 r ++ V2 r ++ V3 r).foldl vecInsert rhs) := by
    intro r rhs
    unfold prepareRhs
    rw [m2 r, m4 r, hV1, hV2, hV3, hZ]
    rfl
  have hV1in : ∀ r, ∀ e ∈ V1 r, fieldOffset N s r ≤ e.1 ∧ e.1 < fieldOffset N s r + (N * s r : Nat) := by
    intro r e he
    rw [hV1] at he
    obtain ⟨c, hc, he⟩ := List.mem_flatMap.1 he
    obtain ⟨_, _, j, rfl⟩ := mem_bcRhsOf.1 he
    have k1 := (m3 r).ghost c hc
    exact dataIndex_range k1.1 k1.2 j
  have hV2in : ∀ r, ∀ e ∈ V2 r, fieldOffset N s r ≤ e.1 ∧ e.1 < fieldOffset N s r + (N * s r : Nat) := by
    intro r e he
    rw [hV2] at he
    obtain ⟨k, hk, he⟩ := List.mem_flatMap.1 he
    obtain ⟨j, hj, rfl⟩ := List.mem_map.1 he
    have k1 := m5 r k hk
    exact dataIndex_range k1.1 k1.2 ⟨j, List.mem_range.1 hj⟩
  have hV3in : ∀ r, ∀ e ∈ V3 r, fieldOffset N s r ≤ e.1 ∧ e.1 < fieldOffset N s r + (N * s r : Nat) := by
    intro r e he
    rw [hV3] at he
    obtain ⟨i, hi, rfl⟩ := List.mem_map.1 he
    have := hZin r i hi
    constructor <;> simp only [] <;> omega
  have hV : ∀ {r : Fin R} {ρ : Int} (rhs : Int → K), fieldOffset N s r ≤ ρ ∧ ρ < fieldOffset N s r + (N * s r : Nat) →
      ((List.finRange R).flatMap V1 ++ (List.finRange R).flatMap V2 ++ (List.finRange R).flatMap V3).foldl vecInsert rhs ρ = (V1 r ++ V2 r ++ V3 r).foldl vecInsert rhs ρ := by
    intro r ρ rhs hρ
    have hne : ∀ V : Fin R → List (Int × K), (∀ r, ∀ e ∈ V r, fieldOffset N s r ≤ e.1 ∧ e.1 < fieldOffset N s r + (N * s r : Nat)) → ∀ b ∈ List.finRange R, b ≠ r → ∀ e ∈ V b, e.1 ≠ ρ := by
      intro V hV b _ hb e he h
      have := hV b e he
      rw [h] at this
      exact hb (hdis this hρ)
    rw [List.foldl_append, List.foldl_append, List.foldl_append, List.foldl_append, vecFold_pick (List.nodup_finRange R) (List.mem_finRange r) V3 _ (hne V3 hV3in)]
    refine vecFold_congr ?_
    rw [vecFold_pick (List.nodup_finRange R) (List.mem_finRange r) V2 _ (hne V2 hV2in)]
    refine vecFold_congr ?_
    rw [vecFold_pick (List.nodup_finRange R) (List.mem_finRange r) V1 _ (hne V1 hV1in)]
  refine ⟨M, x, sub, rec, ((List.finRange R).flatMap U).foldl matInsert (((List.finRange R).flatMap T).foldl matInsert (schemeMatrix (allEntries E))), h1, h3, s1, q1,
    by rw [hNN]; exact hsz.1, by rw [hNN]; exact hsz.2, ?_, fun f rhs hf =>
    ⟨((List.finRange R).flatMap V1 ++ (List.finRange R).flatMap V2 ++ (List.finRange R).flatMap V3).foldl vecInsert rhs, ?_, fun u val y hy hu => ?_⟩⟩
  · rw [hNN]
    unfold assembleBlockMatrix
    rw [e1, overList_ok (ev := T) _ (fun r _ => hdbc r), overList_ok (ev := U) _ (fun r _ => by
      rw [hdus r, rowShift_eq B N hr, colShift_eq B N hc, hU]
      rfl)]
  · rw [hNN]
    unfold prepareBlockRhs
    rw [overList_ok (ev := V1) _ (fun r _ => by rw [m2 r, hlayout, hV1]; rfl), overList_ok (ev := V2) _ (fun r _ => by rw [m4 r, hlayout, hV2]; rfl),
      overList_ok (ev := V3) _ (fun r _ => by rw [hdus r, rowShift_eq B N hr, hV3]; rfl)]
  rw [hNN] at hf hy ⊢
  -- a row of blocks
  have hrow : ∀ r, (∀ ρ, fieldOffset N s r ≤ ρ → ρ < fieldOffset N s r + (N * s r : Nat) →
        matVec (((List.finRange R).flatMap U).foldl matInsert (((List.finRange R).flatMap T).foldl matInsert (schemeMatrix (allEntries E)))) 0 (fieldsSize N s) y ρ =
          ((List.finRange R).flatMap V1 ++ (List.finRange R).flatMap V2 ++ (List.finRange R).flatMap V3).foldl vecInsert rhs ρ) ↔
      (∀ l q k, (l, q, k) ∈ M.all.numbered n → M.cells.Mem n l q → ∀ i : Fin (s r),
        ∑ c, matVec (schemeMatrix (E r c)) (fieldOffset N s c) (N * s c) y (dataIndex (soa r) N (s r) (fieldOffset N s r) k i) = f r k i) ∧
      (∀ (l1 : List (FieldBc K n (s r) × (Nat → Int) × LCA)) x l2 level p q, fieldEntries (bcs r) = l1 ++ x :: l2 → Constrains n M.cells level x p q →
        (∀ z ∈ l2, ∀ p', ¬ Constrains n M.cells level z p' q) → ∀ i, x.1.kind.Satisfied h0 level (fun j => val r level (walk n p j x.2.1) i) 1
          (x.1.value (fun _ => 0) ⟨fun _ => 0, 0, fun _ => 0, 0, 0⟩ (faceAt origin h0 level p x.2.1) i)) ∧
      ∀ l q k, (l, q, k) ∈ M.all.numbered n → ¬ M.cells.Mem n l q → (∀ x ∈ fieldEntries (bcs r), ∀ p, ¬ Constrains n M.cells l x p q) → u r k = 0 := by
    intro r
    have hf' : IsVector (soa r) N (s r) (fieldOffset N s r) (fun k i => f r k i - Y r y (dataIndex (soa r) N (s r) (fieldOffset N s r) k i)) (fun ρ => rhs ρ - Y r y ρ) := by
      intro k k0 k1 i
      beta_reduce
      rw [hf r k k0 k1 i, dataIndex_eq]
    obtain ⟨rhs1, a1, a2, -⟩ := m7 r (f r) rhs (hf r)
    obtain ⟨rhs2, b1, b2, b3⟩ := m7 r _ _ hf'
    rw [hprep] at a1 b1
    cases a1
    cases b1
    refine Iff.trans ?_ ((b3 (u r) (val r) y (hy r) (hu r)).trans (and_congr_left fun _ => ?_))
    · refine forall_congr' fun ρ => forall_congr' fun k1 => forall_congr' fun k2 => ?_
      rw [hprod y ⟨k1, k2⟩, hV rhs ⟨k1, k2⟩]
      obtain ⟨k, i, hk, rfl⟩ := dataIndex_surj (soa := soa r) k1 k2
      by_cases hl : LeafNum n M.cells k
      · rw [a2 k hl i, b2 k hl i, eq_sub_iff_add_eq]
      · rw [hYz r y k hk hl i, add_zero]
        rw [vecFold_congr (b := rhs) (b' := fun ρ => rhs ρ - Y r y ρ)]
        beta_reduce
        rw [hYz r y k hk hl i, sub_zero]
    · refine forall_congr' fun l => forall_congr' fun q => forall_congr' fun k => forall_congr' fun _ => forall_congr' fun _ => forall_congr' fun i => ?_
      rw [eq_sub_iff_add_eq, hYsum]
  have hsplit : (∀ ρ : Int, 0 ≤ ρ → ρ < fieldsSize N s →
        matVec (((List.finRange R).flatMap U).foldl matInsert (((List.finRange R).flatMap T).foldl matInsert (schemeMatrix (allEntries E)))) 0 (fieldsSize N s) y ρ =
          ((List.finRange R).flatMap V1 ++ (List.finRange R).flatMap V2 ++ (List.finRange R).flatMap V3).foldl vecInsert rhs ρ) ↔
      ∀ r ρ, fieldOffset N s r ≤ ρ → ρ < fieldOffset N s r + (N * s r : Nat) →
        matVec (((List.finRange R).flatMap U).foldl matInsert (((List.finRange R).flatMap T).foldl matInsert (schemeMatrix (allEntries E)))) 0 (fieldsSize N s) y ρ =
          ((List.finRange R).flatMap V1 ++ (List.finRange R).flatMap V2 ++ (List.finRange R).flatMap V3).foldl vecInsert rhs ρ := by
    constructor
    · intro h r ρ k1 k2
      have k3 := block_end (fun q => N * s q) r
      rw [← firstSum_offset] at k1 k2
      rw [firstSum_size] at k3
      exact h ρ (by omega) (by omega)
    · intro h ρ k1 k2
      rw [← firstSum_size] at k2
      obtain ⟨r, k3, k4⟩ := block_cover (fun q => N * s q) k1 k2
      rw [firstSum_offset] at k3 k4
      exact h r ρ k3 k4
  rw [hsplit, forall_congr' hrow, forall_and, forall_and]
  refine and_congr_left fun _ => ?_
  -- the explicit application
  have hout : ∀ (u' : (r : Fin R) → Int → Fin (s r) → K) (val' : (r : Fin R) → Nat → List Int → Fin (s r) → K),
      (∀ r l q k, (l, q, k) ∈ M.all.numbered n → ¬ ProjGhost n M.cells M.ghosts l q → ¬ PredGhost n M.cells M.ghosts l q → u' r k = u r k) →
      (∀ r, FieldIs n M.all (u' r) (val' r)) → (∀ r l q, ProjGhost n M.cells M.ghosts l q → MeanBelow (K := K) n (val' r) l q) →
      (∀ r l q, PredGhost n M.cells M.ghosts l q → TensorPredicted (K := K) n cfg.predictionOrder (val' r) l q) →
      ∃ out : (r : Fin R) → Fin R → Int → Fin (s r) → K,
        (∀ r c par, operatorSumApplyTo (((B r c).getD []).map fun op => op.regions n h0 par (u' c) M.all sub M.cells maxL) = some (out r c)) ∧
        ∀ r c, IsVector (soa r) N (s r) (fieldOffset N s r) (out r c) (matVec (schemeMatrix (E r c)) (fieldOffset N s c) (N * s c) y) := by
    intro u' val' k1 k2 k3 k4
    have hex : ∀ r c, ∃ out : Int → Fin (s r) → K,
        (∀ par, operatorSumApplyTo (((B r c).getD []).map fun op => op.regions n h0 par (u' c) M.all sub M.cells maxL) = some out) ∧
        IsVector (soa r) N (s r) (fieldOffset N s r) out (matVec (schemeMatrix (E r c)) (fieldOffset N s c) (N * s c) y) := by
      intro r c
      have hcomp : ∀ op ∈ (B r c).getD [], op.Compact n := by
        intro op hop
        cases hB : B r c with
        | none => rw [hB] at hop; simp at hop
        | some ops => rw [hB] at hop; exact (hops r c ops hB op hop).2
      have hyc := hy c
      rw [← hNN] at hyc
      obtain ⟨outs, o1, o2⟩ := (e4 r c).compact hcomp (u c) (u' c) (val' c) y (by rw [hNN]; exact hy c) (k1 c) (k2 c) (k3 c) (k4 c)
      refine ⟨_, fun par => sum_outs (F := fun op par u => op.regions n h0 par u M.all sub M.cells maxL) (o1 par), ?_⟩
      rw [hNN] at o2
      cases hB : B r c with
      | some ops => exact isVector_layout (hlay r c (by rw [hB]; rfl)) o2
      | none =>
        have he := e3 r c
        rw [hB] at he
        have hz := o1 true
        rw [hB] at hz
        cases hz
        rw [← Option.some.inj he]
        intro k _ _ i
        simp [matVec, schemeMatrix]
    choose out o1 o2 using hex
    exact ⟨out, o1, o2⟩
  constructor
  · intro h u' val' k1 k2 k3 k4
    obtain ⟨out, o1, o2⟩ := hout u' val' k1 k2 k3 k4
    refine ⟨out, o1, fun l q k hk hq r => funext fun i => ?_⟩
    have hr := hN _ _ _ hk
    rw [← h r l q k hk hq i, Finset.sum_apply]
    exact Finset.sum_congr rfl fun c _ => ((o2 r c).at hr.1 hr.2 i).symm
  · intro h r l q k hk hq i
    have hg := fun r => ghosts_exist hd hm g hw ho h1 (u r)
    choose u' val' k1 k2 k3 k4 using hg
    obtain ⟨out, o1, o2⟩ := hout u' val' k1 k2 k3 k4
    obtain ⟨out', o1', o2'⟩ := h u' val' k1 k2 k3 k4
    have hr := hN _ _ _ hk
    rw [← o2' l q k hk hq r, Finset.sum_apply]
    refine Finset.sum_congr rfl fun c _ => ?_
    rw [(o2 r c).at hr.1 hr.2 i, Option.some.inj ((o1' r c true).symm.trans (o1 r c true))]

end

end Samurai

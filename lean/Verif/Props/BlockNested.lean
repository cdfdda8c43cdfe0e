/-
C91: the monolithic and the nested assembly of a block operator.
-/
import Verif.Lemmas.BlockShift
import Verif.Props.BlockAssembly

namespace Samurai

section
variable {K : Type} [Field K] {R : Nat} {s : Fin R → Nat}

omit [Field K] in
theorem matFold_congr_at {T : List (MatEntry K)} {A A' : Int → Int → K} {ρ γ : Int} (h : A ρ γ = A' ρ γ) : T.foldl matInsert A ρ γ = T.foldl matInsert A' ρ γ := by
  induction T generalizing A A' with
  | nil => exact h
  | cons e T ih =>
    rw [List.foldl_cons, List.foldl_cons]
    refine ih ?_
    unfold matInsert
    rw [h]

/-- C91. The monolithic and the nested assembly of a square block operator give the same linear system, for every mesh of graded leaves of a box, any number of unknown fields and
any layouts: the coefficient of the row `i` of the block `r` and of the column `j` of the block `c` is the one of the row `i` and of the column `j` of the block `(r, c)` of the
nested matrix, and the right-hand side has the values of the sub-vectors. -/
theorem C91_nested [DecidableEq K] (n : Nat) (hn : n ≤ 2) (cfg : MeshConfig) (cells : CA) (dom : LCA) (minL maxL margin base : Nat) (b : Box)
    (hd : GoodDomain n dom minL maxL margin) (hm : cfg.maxStencilWidth + cfg.predictionOrder + 3 ≤ margin) (g : GoodLeaves n cells dom minL maxL)
    (hw : 1 ≤ cfg.maxStencilWidth) (ho : cfg.predictionOrder ≤ 5) (hbox : BoxDomain n dom base b) (hdl : dom.level = maxL) (hbase : base ≤ minL)
    (h2 : (2 : K) ≠ 0) (origin : Fin (n + 1) → K) (h0 diag : K) (hdiag : diag ≠ 0) (B : Blocks K s s)
    (hops : ∀ r c ops, B r c = some ops → ∀ op ∈ ops, op.OK n cfg.maxStencilWidth) (hdg : ∀ r, ∃ ops, B r r = some ops ∧ ops ≠ [] ∧ ∀ op ∈ ops, op.WithBoundary)
    (bcs : (r : Fin R) → List (FieldBc K n (s r))) (hreg : ∀ r, ∀ x ∈ fieldEntries (bcs r), UnitVector n x.2.1 → OneAxis n x.2.1 → BdryRegion n dom x.2.1 x.2.2)
    (soa : Fin R → Bool) :
    ∃ M x sub rec A, mrMesh n cfg cells minL maxL = some (M, x) ∧ (∀ l q, M.cells.Mem n l q ↔ cells.Mem n l q) ∧ constructSubdomain n M.cells maxL = some sub ∧
      (∀ fuel, 2 * maxL < fuel → ghostRecursion n cfg.predictionOrder M.all M.ghosts M.cells fuel = some rec) ∧
      assembleBlockMatrix h0 diag B soa M.all.nbCells rec M.all sub M.cells maxL bcs = some A ∧
      (∀ r c, ∃ A', nestedBlock h0 diag B soa M.all.nbCells rec M.all sub M.cells maxL bcs r c = some A' ∧
        ∀ i j : Int, 0 ≤ i → i < (M.all.nbCells * s r : Nat) → 0 ≤ j → j < (M.all.nbCells * s c : Nat) →
          A (fieldOffset M.all.nbCells s r + i) (fieldOffset M.all.nbCells s c + j) = A' i j) ∧
      ∀ rhs : Int → K, ∃ rhs', prepareBlockRhs origin h0 B soa M.all.nbCells M.all M.ghosts sub M.cells maxL bcs rhs = some rhs' ∧
        ∀ r, ∃ v, nestedRhs origin h0 diag B soa M.all.nbCells rec M.all M.ghosts sub M.cells maxL bcs r (fun i => rhs (fieldOffset M.all.nbCells s r + i)) = some v ∧
          ∀ i : Int, 0 ≤ i → i < (M.all.nbCells * s r : Nat) → rhs' (fieldOffset M.all.nbCells s r + i) = v i := by
  classical
  obtain ⟨M, x, h1, hinv, h3⟩ := adaptInv_init' (cfg := cfg) hd (by omega) g
  have gE := hinv.elim hd (by omega) hw
  obtain ⟨hN, hN', hleafnum⟩ := hinv.nums hd (by omega) hw
  obtain ⟨rec, q1, -⟩ := gE.elimination (K := K) ho
  obtain ⟨sub, s1, -⟩ := constructSubdomain_spec (maxL := maxL) hinv.leaves.wf hinv.leaves.between
  have hdS : ∀ r, (B r r).isSome := fun r => by obtain ⟨ops, h, -⟩ := hdg r; rw [h]; rfl
  have hr : ∀ r, ∃ c, (B r c).isSome := fun r => ⟨r, hdS r⟩
  have hc : ∀ c, ∃ r, (B r c).isSome := fun r => ⟨r, hdS r⟩
  obtain ⟨E, e1, e2, e3, e4⟩ := blocksMatrix hd hm g hw ho h0 h1 s1 q1 hN hinv.fvNumbers B hr hc hops soa
  have hlayout := blockLayout_eq B soa M.all.nbCells hr hc
  generalize hNN : M.all.nbCells = N at *
  have hsys : ∀ r, ∃ Rm Bc G, ((B r r).bind fun ops => ops[largestIndex (ops.map LinOp.stencilSize)]?).bind
        (LinOp.marks n h0 (blockLayout B soa N r r) M.all sub M.cells maxL) = some Rm ∧
      bcCalls n h0 M.all M.cells (bcs r) = some Bc ∧ CallsOK h0 N Bc ∧ eliminatedGhosts n M.all M.ghosts M.cells = some G ∧ (∀ k ∈ G, 0 ≤ k ∧ k < N) := by
    intro r
    obtain ⟨ops, o1, o2, o3⟩ := hdg r
    obtain ⟨op, hop, i1, -⟩ := largest_mem LinOp.stencilSize ops o2
    obtain ⟨-, -, -, hR⟩ := opMatrix hd hm g hw ho h0 (soa r) (fieldOffset N s r) (fieldOffset N s r) h1 s1 q1 op (hops r r ops o1 op hop)
    obtain ⟨Rm, r1, r2⟩ := hR (o3 op hop)
    obtain ⟨A, marked, -, ⟨Bc, G, c1, c2, c3, c4⟩, -⟩ := hinv.system_iff hn hd (by omega) hw hbox hdl hbase h2 origin h0 diag hdiag (bcs r) (hreg r) (soa r) (fieldOffset N s r)
      (E := E r r) (by rw [hNN]; have := (e4 r r).rows; rw [hNN] at this; exact this) r2
    rw [hNN] at r1 c2 c4
    refine ⟨Rm, Bc, G, ?_, c1, c2, c3, c4⟩
    rw [o1, hlayout]
    show (ops[largestIndex (ops.map LinOp.stencilSize)]?).bind _ = _
    rw [i1]
    exact r1
  choose Rm Bc G m1 m2 m3 m4 m5 using hsys
  obtain ⟨T, hT⟩ : ∃ T : Fin R → List (MatEntry K), ∀ r, T r = (Bc r).flatMap (bcEntriesOf h0 ⟨soa r, N, s r, s r, fieldOffset N s r, fieldOffset N s r⟩) := ⟨_, fun _ => rfl⟩
  obtain ⟨Z, hZ⟩ : ∃ Z : Fin R → List Nat, ∀ r, Z r = uselessRows ⟨soa r, N, s r, s r, fieldOffset N s r, fieldOffset N s r⟩ (Rm r ++ (T r).map Prod.fst) := ⟨_, fun _ => rfl⟩
  obtain ⟨U, hU⟩ : ∃ U : Fin R → List (MatEntry K), ∀ r, U r = (Z r).map fun (i : Nat) => (fieldOffset N s r + (i : Int), fieldOffset N s r + (i : Int), diag) := ⟨_, fun _ => rfl⟩
  have hTin : ∀ r, ∀ e ∈ T r, (fieldOffset N s r ≤ e.1 ∧ e.1 < fieldOffset N s r + (N * s r : Nat)) ∧ fieldOffset N s r ≤ e.2.1 ∧ e.2.1 < fieldOffset N s r + (N * s r : Nat) := by
    intro r e he
    rw [hT] at he
    obtain ⟨c, hc, he⟩ := List.mem_flatMap.1 he
    obtain ⟨_, _, j, h⟩ := (mem_bcEntriesOf h2).1 he
    have k1 := (m3 r).ghost c hc
    have k2 := (m3 r).cell c hc
    rcases h with rfl | rfl
    · exact ⟨dataIndex_range k1.1 k1.2 j, dataIndex_range k2.1 k2.2 j⟩
    · exact ⟨dataIndex_range k1.1 k1.2 j, dataIndex_range k1.1 k1.2 j⟩
  have hZin : ∀ r, ∀ i ∈ Z r, i < N * s r := by
    intro r i hi
    rw [hZ] at hi
    exact (mem_uselessRows.1 hi).1
  have hUin : ∀ r, ∀ e ∈ U r, (fieldOffset N s r ≤ e.1 ∧ e.1 < fieldOffset N s r + (N * s r : Nat)) ∧ fieldOffset N s r ≤ e.2.1 ∧ e.2.1 < fieldOffset N s r + (N * s r : Nat) := by
    intro r e he
    rw [hU] at he
    obtain ⟨i, hi, rfl⟩ := List.mem_map.1 he
    have := hZin r i hi
    refine ⟨⟨?_, ?_⟩, ?_, ?_⟩ <;> simp only [] <;> omega
  have hdis : ∀ {r r' : Fin R} {ρ : Int}, fieldOffset N s r ≤ ρ ∧ ρ < fieldOffset N s r + (N * s r : Nat) → fieldOffset N s r' ≤ ρ ∧ ρ < fieldOffset N s r' + (N * s r' : Nat) → r = r' := by
    intro r r' ρ k1 k2
    rw [← firstSum_offset] at k1 k2
    exact block_disjoint (fun q => N * s q) k1 k2
  have hA : ∀ {r : Fin R} {ρ : Int}, fieldOffset N s r ≤ ρ ∧ ρ < fieldOffset N s r + (N * s r : Nat) →
      ((List.finRange R).flatMap U).foldl matInsert (((List.finRange R).flatMap T).foldl matInsert (schemeMatrix (allEntries E))) ρ =
        (U r).foldl matInsert ((T r).foldl matInsert (schemeMatrix (rowEntries E r))) ρ := by
    intro r ρ hρ
    rw [matFold_pick (List.nodup_finRange R) (List.mem_finRange r) U _ (fun b _ hb e he h => hb ?_)]
    · refine matFold_congr ?_
      rw [matFold_pick (List.nodup_finRange R) (List.mem_finRange r) T _ (fun b _ hb e he h => hb ?_)]
      · exact matFold_congr (e2.row (by rw [firstSum_offset]; exact hρ))
      · have := (hTin b e he).1
        rw [h] at this
        exact hdis this hρ
    · have := (hUin b e he).1
      rw [h] at this
      exact hdis this hρ
  have hdbc : ∀ r, diagBc h0 B soa N M.all M.cells bcs r = some (T r) := by
    intro r
    obtain ⟨ops, o1, -⟩ := hdg r
    unfold diagBc
    rw [o1, m2 r, hT, hlayout]
    rfl
  have hdus : ∀ r, diagUseless h0 B soa N M.all sub M.cells maxL bcs r = some (Z r) := by
    intro r
    obtain ⟨ops, o1, -⟩ := hdg r
    have hmk : diagMarked h0 B soa N M.all sub M.cells maxL bcs r = some (Rm r ++ (T r).map Prod.fst) := by
      unfold diagMarked
      rw [m1 r, hdbc r]
    unfold diagUseless
    rw [o1, hmk, hZ, hlayout]
    rfl
  obtain ⟨V1, hV1⟩ : ∃ V1 : Fin R → List (Int × K), ∀ r, V1 r = (Bc r).flatMap (bcRhsOf origin h0 ⟨soa r, N, s r, s r, fieldOffset N s r, fieldOffset N s r⟩) := ⟨_, fun _ => rfl⟩
  obtain ⟨V2, hV2⟩ : ∃ V2 : Fin R → List (Int × K), ∀ r, V2 r = (G r).flatMap fun k => (List.range (s r)).map fun i => (dataIndex (soa r) N (s r) (fieldOffset N s r) k i, (0 : K)) := ⟨_, fun _ => rfl⟩
  obtain ⟨V3, hV3⟩ : ∃ V3 : Fin R → List (Int × K), ∀ r, V3 r = (Z r).map fun (i : Nat) => (fieldOffset N s r + (i : Int), (0 : K)) := ⟨_, fun _ => rfl⟩
  have hV1in : ∀ r, ∀ e ∈ V1 r, fieldOffset N s r ≤ e.1 ∧ e.1 < fieldOffset N s r + (N * s r : Nat) := by
    intro r e he
    rw [hV1] at he
    obtain ⟨c, hc, he⟩ := List.mem_flatMap.1 he
    obtain ⟨_, _, j, rfl⟩ := mem_bcRhsOf.1 he
    have k1 := (m3 r).ghost c hc
    exact dataIndex_range k1.1 k1.2 j
  have hV2in : ∀ r, ∀ e ∈ V2 r, fieldOffset N s r ≤ e.1 ∧ e.1 < fieldOffset N s r + (N * s r : Nat) := by
    intro r e he
    rw [hV2] at he
    obtain ⟨k, hk, he⟩ := List.mem_flatMap.1 he
    obtain ⟨j, hj, rfl⟩ := List.mem_map.1 he
    have k1 := m5 r k hk
    exact dataIndex_range k1.1 k1.2 ⟨j, List.mem_range.1 hj⟩
  have hV3in : ∀ r, ∀ e ∈ V3 r, fieldOffset N s r ≤ e.1 ∧ e.1 < fieldOffset N s r + (N * s r : Nat) := by
    intro r e he
    rw [hV3] at he
    obtain ⟨i, hi, rfl⟩ := List.mem_map.1 he
    have := hZin r i hi
    constructor <;> simp only [] <;> omega
  have hV : ∀ {r : Fin R} {ρ : Int} (rhs : Int → K), fieldOffset N s r ≤ ρ ∧ ρ < fieldOffset N s r + (N * s r : Nat) →
      ((List.finRange R).flatMap V1 ++ (List.finRange R).flatMap V2 ++ (List.finRange R).flatMap V3).foldl vecInsert rhs ρ = (V1 r ++ V2 r ++ V3 r).foldl vecInsert rhs ρ := by
    intro r ρ rhs hρ
    have hne : ∀ V : Fin R → List (Int × K), (∀ r, ∀ e ∈ V r, fieldOffset N s r ≤ e.1 ∧ e.1 < fieldOffset N s r + (N * s r : Nat)) → ∀ b ∈ List.finRange R, b ≠ r → ∀ e ∈ V b, e.1 ≠ ρ := by
      intro V hV b _ hb e he h
      have := hV b e he
      rw [h] at this
      exact hb (hdis this hρ)
    rw [List.foldl_append, List.foldl_append, List.foldl_append, List.foldl_append, vecFold_pick (List.nodup_finRange R) (List.mem_finRange r) V3 _ (hne V3 hV3in)]
    refine vecFold_congr ?_
    rw [vecFold_pick (List.nodup_finRange R) (List.mem_finRange r) V2 _ (hne V2 hV2in)]
    refine vecFold_congr ?_
    rw [vecFold_pick (List.nodup_finRange R) (List.mem_finRange r) V1 _ (hne V1 hV1in)]
  -- the blocks without shifts
  have hblock : ∀ r c, ∃ E0, assembleBlock n h0 ⟨soa c, N, s c, s r, 0, 0⟩ rec M.all sub M.cells maxL (B r c) = some E0 ∧
      E r c = E0.map (shiftEntry (fieldOffset N s r) (fieldOffset N s c)) := by
    intro r c
    have h := e3 r c
    rw [assembleBlock_shift] at h
    obtain ⟨E0, k1, k2⟩ := Option.map_eq_some_iff.1 h
    exact ⟨E0, k1, k2.symm⟩
  choose E0 n1 n2 using hblock
  have hTs : ∀ r, T r = ((Bc r).flatMap (bcEntriesOf h0 ⟨soa r, N, s r, s r, 0, 0⟩)).map (shiftEntry (fieldOffset N s r) (fieldOffset N s r)) := by
    intro r
    rw [hT]
    exact flatMap_shift _ (fun c => bcEntriesOf_shift h0 ⟨soa r, N, s r, s r, fieldOffset N s r, fieldOffset N s r⟩ rfl c) _
  have hRs : ∀ r, ∃ R0 ops, B r r = some ops ∧ (ops[largestIndex (ops.map LinOp.stencilSize)]?).bind (LinOp.marks n h0 ⟨soa r, N, s r, s r, 0, 0⟩ M.all sub M.cells maxL) = some R0 ∧
      Rm r = R0.map (fieldOffset N s r + ·) := by
    intro r
    obtain ⟨ops, o1, -⟩ := hdg r
    have h := m1 r
    rw [o1, hlayout] at h
    obtain ⟨op, k1, k2⟩ := Option.bind_eq_some_iff.1 h
    have k1' : ops[largestIndex (ops.map LinOp.stencilSize)]? = some op := k1
    rw [marks_shift] at k2
    obtain ⟨R0, k3, k4⟩ := Option.map_eq_some_iff.1 k2
    exact ⟨R0, ops, o1, by rw [k1']; exact k3, k4.symm⟩
  choose R0 ops0 p1 p2 p3 using hRs
  have hZs : ∀ r, Z r = uselessRows ⟨soa r, N, s r, s r, 0, 0⟩ (R0 r ++ ((Bc r).flatMap (bcEntriesOf h0 ⟨soa r, N, s r, s r, 0, 0⟩)).map Prod.fst) := by
    intro r
    rw [hZ]
    have : Rm r ++ (T r).map Prod.fst = (R0 r ++ ((Bc r).flatMap (bcEntriesOf h0 ⟨soa r, N, s r, s r, 0, 0⟩)).map Prod.fst).map (fieldOffset N s r + ·) := by
      rw [List.map_append, p3 r, hTs r, List.map_map, List.map_map]
      rfl
    rw [this]
    exact uselessRows_shift ⟨soa r, N, s r, s r, fieldOffset N s r, fieldOffset N s r⟩ _
  have hUs : ∀ r, U r = ((Z r).map fun (i : Nat) => ((0 : Int) + (i : Int), (0 : Int) + (i : Int), diag)).map (shiftEntry (fieldOffset N s r) (fieldOffset N s r)) := by
    intro r
    rw [hU, List.map_map]
    refine List.map_congr_left fun i _ => ?_
    simp [shiftEntry]
  have hasm : ∀ r, assembleSum n h0 diag ⟨soa r, N, s r, s r, 0, 0⟩ rec M.all sub M.cells maxL (ops0 r) (bcs r) =
      some (((Z r).map fun (i : Nat) => ((0 : Int) + (i : Int), (0 : Int) + (i : Int), diag)).foldl matInsert
        (((Bc r).flatMap (bcEntriesOf h0 ⟨soa r, N, s r, s r, 0, 0⟩)).foldl matInsert (schemeMatrix (E0 r r))),
        R0 r ++ ((Bc r).flatMap (bcEntriesOf h0 ⟨soa r, N, s r, s r, 0, 0⟩)).map Prod.fst) := by
    intro r
    have h := n1 r r
    rw [p1 r] at h
    have h' : overList (LinOp.assemble n h0 ⟨soa r, N, s r, s r, 0, 0⟩ rec M.all sub M.cells maxL) (ops0 r) = some (E0 r r) := h
    unfold assembleSum
    rw [h', p2 r]
    show finishMatrix _ _ _ _ _ _ _ _ _ = _
    unfold finishMatrix
    rw [m2 r, hZs r]
    rfl
  rw [← hNN] at *
  refine ⟨M, x, sub, rec, ((List.finRange R).flatMap U).foldl matInsert (((List.finRange R).flatMap T).foldl matInsert (schemeMatrix (allEntries E))), h1, h3, s1, q1, ?_, fun r c => ?_,
    fun rhs => ⟨((List.finRange R).flatMap V1 ++ (List.finRange R).flatMap V2 ++ (List.finRange R).flatMap V3).foldl vecInsert rhs, ?_, fun r => ?_⟩⟩
  · unfold assembleBlockMatrix
    rw [e1, overList_ok (ev := T) _ (fun r _ => hdbc r), overList_ok (ev := U) _ (fun r _ => by
      rw [hdus r, rowShift_eq B _ hr, colShift_eq B _ hc, hU]
      rfl)]
  · unfold nestedBlock
    split_ifs with hrc
    · subst hrc
      rw [p1 r]
      show ∃ A', Option.map Prod.fst (assembleSum n h0 diag _ _ _ _ _ _ (ops0 r) (bcs r)) = some A' ∧ _
      rw [hasm r]
      refine ⟨_, rfl, fun i j i0 i1 j0 j1 => ?_⟩
      rw [hA (r := r) ⟨by omega, by omega⟩, hUs r, hTs r]
      refine (matFold_congr_at (matFold_congr_at (e2.block r (c := r) _ (by rw [firstSum_offset]; omega)))).trans ?_
      rw [n2 r r]
      exact matFold_shift _ _ _ (matFold_shift _ _ _ (schemeMatrix_shift _ _ _)) i j
    · rw [n1 r c]
      refine ⟨_, rfl, fun i j i0 i1 j0 j1 => ?_⟩
      rw [hA (r := r) ⟨by omega, by omega⟩, matFold_other, matFold_other, e2.block r (c := c) _ (by rw [firstSum_offset]; omega), n2 r c, schemeMatrix_shift]
      · intro e he _ h
        have := (hTin r e he).2
        rw [h] at this
        exact hrc (hdis this ⟨by omega, by omega⟩)
      · intro e he _ h
        have := (hUin r e he).2
        rw [h] at this
        exact hrc (hdis this ⟨by omega, by omega⟩)
  · unfold prepareBlockRhs
    rw [overList_ok (ev := V1) _ (fun r _ => by rw [m2 r, hlayout, hV1]; rfl), overList_ok (ev := V2) _ (fun r _ => by rw [m4 r, hlayout, hV2]; rfl),
      overList_ok (ev := V3) _ (fun r _ => by rw [hdus r, rowShift_eq B _ hr, hV3]; rfl)]
  · refine ⟨((Bc r).flatMap (bcRhsOf origin h0 ⟨soa r, M.all.nbCells, s r, s r, 0, 0⟩) ++
      ((G r).flatMap fun k => (List.range (s r)).map fun i => (dataIndex (soa r) M.all.nbCells (s r) 0 k i, (0 : K))) ++
      (Z r).map fun (i : Nat) => ((0 : Int) + (i : Int), (0 : K))).foldl vecInsert fun i => rhs (fieldOffset M.all.nbCells s r + i), ?_, fun i i0 i1 => ?_⟩
    · unfold nestedRhs
      rw [p1 r]
      show Option.bind (assembleSum n h0 diag _ _ _ _ _ _ (ops0 r) (bcs r)) _ = _
      rw [hasm r]
      show prepareRhs _ _ _ _ _ _ _ _ _ _ = _
      unfold prepareRhs
      rw [m2 r, m4 r, hZs r]
      rfl
    · rw [hV (r := r) rhs ⟨by omega, by omega⟩]
      have : V1 r ++ V2 r ++ V3 r = ((Bc r).flatMap (bcRhsOf origin h0 ⟨soa r, M.all.nbCells, s r, s r, 0, 0⟩) ++
          ((G r).flatMap fun k => (List.range (s r)).map fun i => (dataIndex (soa r) M.all.nbCells (s r) 0 k i, (0 : K))) ++
          (Z r).map fun (i : Nat) => ((0 : Int) + (i : Int), (0 : K))).map fun e => (fieldOffset M.all.nbCells s r + e.1, e.2) := by
        rw [List.map_append, List.map_append, hV1, hV2, hV3]
        congr 1
        · congr 1
          · exact flatMap_shift _ (fun c => bcRhsOf_shift origin h0 ⟨soa r, M.all.nbCells, s r, s r, fieldOffset M.all.nbCells s r, fieldOffset M.all.nbCells s r⟩ c) _
          · refine flatMap_shift _ (fun k => ?_) _
            rw [List.map_map]
            refine List.map_congr_left fun i _ => ?_
            simp only [Function.comp_apply]
            rw [dataIndex_shift]
        · rw [List.map_map]
          refine List.map_congr_left fun i _ => ?_
          simp
      rw [this]
      exact vecFold_shift _ _ (fun _ => rfl) i

end

end Samurai

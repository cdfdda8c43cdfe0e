/-
C93: the number of non-zeros announced to PETSc for each row.
-/
import Verif.Lemmas.SparsityMain
import Verif.Props.CellMatrix

namespace Samurai

section
variable {K : Type} [Field K] [DecidableEq K] {m : Nat}

/-- C93, the part that holds. For a sum of operators on a mesh of a box, whose largest operator reads the cells of the others and, if it is cell-based and the fields are stored
component by component, has no coefficient equal to 0: the assembly succeeds, it writes only at the places `T` — all the coefficients of the matrix out of them are 0 —, and the number
of non-zeros that is announced for a row is at least the number of columns where this row is written. -/
theorem C93_preallocation_partial (n : Nat) (hn : n ≤ 2) (cfg : MeshConfig) (cells : CA) (dom : LCA) (minL maxL margin base : Nat) (b : Box)
    (hd : GoodDomain n dom minL maxL margin) (hm : cfg.maxStencilWidth + cfg.predictionOrder + 3 ≤ margin) (g : GoodLeaves n cells dom minL maxL)
    (hw : 1 ≤ cfg.maxStencilWidth) (ho : cfg.predictionOrder ≤ 5) (hbox : BoxDomain n dom base b) (hdl : dom.level = maxL) (hbase : base ≤ minL)
    (h2 : (2 : K) ≠ 0) (hm1 : 1 ≤ m) (h0 diag : K) (soa : Bool) (ops : List (PatOp K m m)) (hne : ops ≠ [])
    (hops : ∀ o ∈ ops, o.op.OK n cfg.maxStencilWidth ∧ o.InStencil)
    (hlarge : ∀ o, ops[largestIndex (ops.map fun o => o.op.stencilSize)]? = some o → o.op.WithBoundary ∧ o.Full soa ∧ ∀ o' ∈ ops, o'.op.Within n o.op)
    (bcs : List (FieldBc K n m)) (hreg : ∀ x ∈ fieldEntries bcs, UnitVector n x.2.1 → OneAxis n x.2.1 → BdryRegion n dom x.2.1 x.2.2) (shift : Int) :
    ∃ M x sub rec A marked T z, mrMesh n cfg cells minL maxL = some (M, x) ∧ (∀ l q, M.cells.Mem n l q ↔ cells.Mem n l q) ∧ constructSubdomain n M.cells maxL = some sub ∧
      (∀ fuel, 2 * maxL < fuel → ghostRecursion n cfg.predictionOrder M.all M.ghosts M.cells fuel = some rec) ∧
      assembleSum n h0 diag ⟨soa, M.all.nbCells, m, m, shift, shift⟩ rec M.all sub M.cells maxL (ops.map PatOp.op) bcs = some (A, marked) ∧
      matrixPlaces n h0 ⟨soa, M.all.nbCells, m, m, shift, shift⟩ rec M.all sub M.cells maxL ops bcs = some T ∧
      createMatrix n h0 ⟨soa, M.all.nbCells, m, m, shift, shift⟩ rec M.all sub M.ghosts M.cells maxL ops bcs = some z ∧
      (∀ r c, A r c ≠ 0 → c ∈ rowColumns T r) ∧ ∀ r, shift ≤ r → r < shift + (M.all.nbCells * m : Nat) → (rowColumns T r).card ≤ z r := by
  classical
  obtain ⟨M, x, h1, hinv, h3⟩ := adaptInv_init' (cfg := cfg) hd (by omega) g
  have gE := hinv.elim hd (by omega) hw
  obtain ⟨hN, hN', hleafnum⟩ := hinv.nums hd (by omega) hw
  obtain ⟨rec, q1, q2, -⟩ := gE.elimination (K := K) ho
  obtain ⟨sub, s1, -⟩ := constructSubdomain_spec (maxL := maxL) hinv.leaves.wf hinv.leaves.between
  obtain ⟨E, e1, e2⟩ := sumMatrix hd hm g hw ho h0 soa shift shift h1 s1 q1 (ops.map PatOp.op) fun op hop => by
    obtain ⟨o, ho', rfl⟩ := List.mem_map.1 hop
    exact (hops o ho').1
  obtain ⟨o, hoo, i1, -⟩ := largest_mem (fun o : PatOp K m m => o.op.stencilSize) ops hne
  obtain ⟨hb, hf, hwi⟩ := hlarge o i1
  obtain ⟨-, -, -, hR⟩ := opMatrix hd hm g hw ho h0 soa shift shift h1 s1 q1 o.op (hops o hoo).1
  obtain ⟨R, r1, r2⟩ := hR hb
  obtain ⟨ev, G, b1, -, g1, g2, -, -, -, hOK, hBl, hGr⟩ := hinv.bcData hn hd (by omega) hw hbox hdl hbase h0 bcs hreg
  obtain ⟨TE, t1, t2, t3⟩ := places_sum (rec := rec) (sub := sub) (L := ⟨soa, M.all.nbCells, m, m, shift, shift⟩) gE.fv hinv.fvNumbers rfl rfl h0 ops E hops e1
  generalize hB : (fieldEntries bcs).flatMap ev = B at b1 hOK hBl hGr
  obtain ⟨L, hL⟩ : ∃ L : MatLayout, ⟨soa, M.all.nbCells, m, m, shift, shift⟩ = L := ⟨_, rfl⟩
  simp only [hL] at e1 r1 t1 t2
  have hrow : ∀ k i, L.row k i = dataIndex soa M.all.nbCells m shift k i := by rw [← hL]; intro k i; rfl
  have hcol : ∀ k i, L.col k i = dataIndex soa M.all.nbCells m shift k i := by rw [← hL]; intro k i; rfl
  have hout : L.outSize = m := by rw [← hL]
  have hin : L.inSize = m := by rw [← hL]
  have hleafR : ∀ k, LeafNum n M.cells k → 0 ≤ k ∧ k < M.all.nbCells := fun k ⟨l, q, hk⟩ => hN _ _ _ (hinv.fvNumbers.same _ _ _ hk)
  have hkeys : ∀ k, LeafNum n M.cells k → rec.find k = none := by
    intro k hk
    cases hfk : rec.find k with
    | none => rfl
    | some l =>
      exact absurd hk (hGr k ((g2 k).2 ((q2 k).1 ⟨l, hfk⟩))).2.1
  obtain ⟨GP, gp1, gp2⟩ : ∃ GP, overList (ghostPattern L rec) G = some GP ∧ ∀ e ∈ GP, ∃ k ∈ G, ∃ i < m, e.1 = L.row k i := by
    refine ⟨_, overList_ok (ev := fun k => (List.range L.outSize).map fun i => (L.row k i, ((rec.find k).getD []).length)) G fun k hk => ?_, fun e he => ?_⟩
    · obtain ⟨l, hl⟩ := (q2 k).2 ((g2 k).1 hk)
      unfold ghostPattern
      rw [hl]
      rfl
    · obtain ⟨k, hk, he⟩ := List.mem_flatMap.1 he
      obtain ⟨i, hi, rfl⟩ := List.mem_map.1 he
      exact ⟨k, hk, i, by rw [List.mem_range, hout] at hi; exact hi, rfl⟩
  -- the places
  have hlast : (ops[largestIndex (ops.map fun o => o.op.stencilSize)]?).bind (fun o => o.op.marks n h0 L M.all sub M.cells maxL) = some R := by
    rw [i1]
    exact r1
  have hasm : assembleSum n h0 diag L rec M.all sub M.cells maxL (ops.map PatOp.op) bcs = finishMatrix n h0 diag L M.all M.cells bcs E R := by
    unfold assembleSum
    rw [e1, List.map_map, List.getElem?_map]
    rw [show (ops.map (LinOp.stencilSize ∘ PatOp.op)) = ops.map fun o => o.op.stencilSize from rfl, i1]
    show (match some E, o.op.marks n h0 L M.all sub M.cells maxL with
      | some E, some R => finishMatrix n h0 diag L M.all M.cells bcs E R
      | _, _ => none) = _
    rw [r1]
  have hfin : ∃ A marked, finishMatrix n h0 diag L M.all M.cells bcs E R = some (A, marked) ∧ ∀ r c, A r c ≠ 0 → (r, c) ∈ TE ++ (B.flatMap (bcEntriesOf h0 L)).map (fun e => (e.1, e.2.1)) ++
      (uselessRows L (R ++ (B.flatMap (bcEntriesOf h0 L)).map Prod.fst)).map fun (i : Nat) => (L.rowShift + (i : Int), L.colShift + (i : Int)) := by
    unfold finishMatrix
    rw [b1]
    refine ⟨_, _, rfl, fun r c hA => ?_⟩
    rcases matInsert_place hA with hA | ⟨e, he, rfl, rfl⟩
    · rcases matInsert_place hA with hA | ⟨e, he, rfl, rfl⟩
      · obtain ⟨e, he, rfl, rfl, hv⟩ := schemeMatrix_place hA
        exact List.mem_append_left _ (List.mem_append_left _ (t3 e he hv))
      · exact List.mem_append_left _ (List.mem_append_right _ (List.mem_map.2 ⟨e, he, rfl⟩))
    · obtain ⟨i, hi, rfl⟩ := List.mem_map.1 he
      exact List.mem_append_right _ (List.mem_map.2 ⟨i, hi, rfl⟩)
  obtain ⟨A, marked, f1, f2⟩ := hfin
  -- the rows
  have hplace : ∀ e ∈ TE, OpPlace n L rec M.cells M.all sub maxL e o.op := by
    intro e he
    obtain ⟨o', ho', h⟩ := t2 e he
    exact h.within gE hinv.fvNumbers ho (q1 _ (Nat.lt_succ_self _)) hkeys s1 (hops o' ho').1 (hops o hoo).1 (hwi o' ho')
  obtain ⟨P, Q, p1, p2, p3⟩ := o.pattern_spec (rec := rec) gE.fv hinv.fvNumbers s1 hin hout hm1 (hops o hoo).1 hb (by rw [← hL]; exact hf)
  refine ⟨M, x, sub, rec, A, marked, _, uselessPattern L (GP.foldl nnzSet ((B.flatMap (bcPattern L)).foldl nnzSet (P.foldl nnzAdd fun _ => 0))), h1, h3, s1, q1, by rw [hL, hasm, f1], ?_, ?_, fun r c hA => mem_rowColumns.2 (f2 r c hA), fun r ra rb => ?_⟩
  · unfold matrixPlaces
    rw [hL, t1, hlast, b1]
  · unfold createMatrix
    rw [hL, b1, i1, g1]
    simp only [Option.bind_some, p1, gp1]
  obtain ⟨k, i, hk, rfl⟩ := dataIndex_surj (soa := soa) ra rb
  set T := B.flatMap (bcEntriesOf h0 L) with hT
  have hTrow : ∀ e ∈ T, ∃ c ∈ B, ∃ j : Fin m, e.1 = L.row c.ghostNum j ∧ (e.2.1 = L.col c.cellNum j ∨ e.2.1 = L.col c.ghostNum j) := by
    intro e he
    obtain ⟨c, hc, he⟩ := List.mem_flatMap.1 he
    obtain ⟨eq, -, j, rfl | rfl⟩ := (mem_bcEntriesOf h2).1 he
    · exact ⟨c, hc, j, by rw [hrow, hcol], Or.inl rfl⟩
    · exact ⟨c, hc, j, by rw [hrow, hcol], Or.inr rfl⟩
  have hinj : ∀ {k' : Int} {j : Fin m}, 0 ≤ k' ∧ k' < M.all.nbCells → dataIndex soa M.all.nbCells m shift k i = L.row k' j → k = k' ∧ i = j := by
    intro k' j hk' h
    rw [hrow] at h
    exact (dataIndex_inj hk.1 hk.2 hk'.1 hk'.2).1 h
  -- the counts of the row
  have hz : ∀ z : Int → Nat, 1 ≤ uselessPattern L z (dataIndex soa M.all.nbCells m shift k i) ∧
      z (dataIndex soa M.all.nbCells m shift k i) ≤ uselessPattern L z (dataIndex soa M.all.nbCells m shift k i) := by
    intro z
    unfold uselessPattern
    by_cases hzr : z (dataIndex soa M.all.nbCells m shift k i) = 0
    · rw [if_pos ⟨by rw [← hL]; exact ra, by rw [← hL]; exact rb, hzr⟩]
      omega
    · rw [if_neg fun h => hzr h.2.2]
      omega
  by_cases hleaf : LeafNum n M.cells k
  · -- a leaf
    refine le_trans ?_ (hz _).2
    have hrG : ∀ e ∈ GP, e.1 ≠ dataIndex soa M.all.nbCells m shift k i := by
      intro e he h
      obtain ⟨k', hk', j, hj, hr⟩ := gp2 e he
      obtain ⟨rfl, -⟩ := hinj (j := ⟨j, hj⟩) (hGr k' hk').1 (h.symm.trans hr)
      exact (hGr k hk').2.1 hleaf
    have hrB : ∀ e ∈ B.flatMap (bcPattern L), e.1 ≠ dataIndex soa M.all.nbCells m shift k i := by
      intro e he h
      obtain ⟨c, hc, he⟩ := List.mem_flatMap.1 he
      obtain ⟨j, hj, rfl⟩ := List.mem_map.1 he
      rw [List.mem_range, hout] at hj
      obtain ⟨rfl, -⟩ := hinj (k' := c.ghostNum) (j := ⟨j, hj⟩) (hOK.ghost c hc) h.symm
      exact hBl c hc hleaf
    rcases nnzSet_foldl GP (dataIndex soa M.all.nbCells m shift k i) ((B.flatMap (bcPattern L)).foldl nnzSet (P.foldl nnzAdd fun _ => 0)) with ⟨hg, -⟩ | ⟨e, he, h, -⟩
    swap
    · exact absurd h (hrG e he)
    rcases nnzSet_foldl (B.flatMap (bcPattern L)) (dataIndex soa M.all.nbCells m shift k i) (P.foldl nnzAdd fun _ => 0) with ⟨hb', -⟩ | ⟨e, he, h, -⟩
    swap
    · exact absurd h (hrB e he)
    rw [hg, hb', nnzAdd_foldl, zero_add]
    refine (Finset.card_le_card (t := rowColumns TE _) fun c hc => ?_).trans (p2.card (fun e he => p3 e (hplace e he)) _)
    rw [mem_rowColumns] at hc ⊢
    rcases List.mem_append.1 hc with hc | hc
    · rcases List.mem_append.1 hc with hc | hc
      · exact hc
      · obtain ⟨e, he, h⟩ := List.mem_map.1 hc
        obtain ⟨c', hc', j, hr, -⟩ := hTrow e he
        obtain ⟨rfl, -⟩ := hinj (hOK.ghost c' hc') ((congrArg Prod.fst h).symm.trans hr)
        exact absurd hleaf (hBl c' hc')
    · obtain ⟨t, ht, h⟩ := List.mem_map.1 hc
      rw [mem_uselessRows] at ht
      have hr : L.rowShift + (t : Int) = dataIndex soa M.all.nbCells m shift k i := congrArg Prod.fst h
      rw [hr] at ht
      exact absurd (List.mem_append_left _ ((r2 _).2 ⟨k, hleaf, i, i.2, rfl⟩)) ht.2
  · -- not a leaf
    have hTE : ∀ c, (dataIndex soa M.all.nbCells m shift k i, c) ∉ TE := by
      intro c hc
      obtain ⟨k', hk', j, hj, hr⟩ := (hplace _ hc).row gE.fv hinv.fvNumbers s1 (hops o hoo).1
      rw [hout] at hj
      obtain ⟨rfl, -⟩ := hinj (j := ⟨j, hj⟩) (hleafR k' hk') hr
      exact hleaf hk'
    by_cases hbc : ∃ c ∈ B, c.ghostNum = k
    · -- the ghost of a condition
      obtain ⟨c, hc, hck⟩ := hbc
      have hmark : dataIndex soa M.all.nbCells m shift k i ∈ T.map Prod.fst := by
        obtain ⟨eq, heq⟩ := hOK.eq c hc
        exact List.mem_map.2 ⟨_, List.mem_flatMap.2 ⟨c, hc, (mem_bcEntriesOf h2).2 ⟨eq, heq, i, Or.inr rfl⟩⟩, by rw [hcol, hck]⟩
      have h2c : (rowColumns (TE ++ T.map (fun e => (e.1, e.2.1)) ++ (uselessRows L (R ++ T.map Prod.fst)).map fun (i : Nat) => (L.rowShift + (i : Int), L.colShift + (i : Int)))
          (dataIndex soa M.all.nbCells m shift k i)).card ≤ 2 := by
        refine (Finset.card_le_card (t := {L.col c.cellNum i, L.col c.ghostNum i}) fun a ha => ?_).trans Finset.card_le_two
        rw [mem_rowColumns] at ha
        rcases List.mem_append.1 ha with ha | ha
        · rcases List.mem_append.1 ha with ha | ha
          · exact absurd ha (hTE a)
          · obtain ⟨e, he, h⟩ := List.mem_map.1 ha
            obtain ⟨c', hc', j, hr, hcc⟩ := hTrow e he
            obtain ⟨hkk, rfl⟩ := hinj (hOK.ghost c' hc') ((congrArg Prod.fst h).symm.trans hr)
            have ha' : a = e.2.1 := (congrArg Prod.snd h).symm
            have hgg : c.ghostNum = c'.ghostNum := hck.trans hkk
            rw [ha', hgg, hOK.same c hc c' hc' hgg]
            rcases hcc with h | h <;> rw [h] <;> simp
        · obtain ⟨t, ht, h⟩ := List.mem_map.1 ha
          rw [mem_uselessRows] at ht
          have hr : L.rowShift + (t : Int) = dataIndex soa M.all.nbCells m shift k i := congrArg Prod.fst h
          rw [hr] at ht
          exact absurd (List.mem_append_right _ hmark) ht.2
      refine h2c.trans (le_trans ?_ (hz _).2)
      have hrG : ∀ e ∈ GP, e.1 ≠ dataIndex soa M.all.nbCells m shift k i := by
        intro e he h
        obtain ⟨k', hk', j, hj, hr⟩ := gp2 e he
        obtain ⟨rfl, -⟩ := hinj (j := ⟨j, hj⟩) (hGr k' hk').1 (h.symm.trans hr)
        exact (hGr k hk').2.2 c hc hck
      rcases nnzSet_foldl GP (dataIndex soa M.all.nbCells m shift k i) ((B.flatMap (bcPattern L)).foldl nnzSet (P.foldl nnzAdd fun _ => 0)) with ⟨hg, -⟩ | ⟨e, he, h, -⟩
      swap
      · exact absurd h (hrG e he)
      rw [hg]
      rcases nnzSet_foldl (B.flatMap (bcPattern L)) (dataIndex soa M.all.nbCells m shift k i) (P.foldl nnzAdd fun _ => 0) with ⟨-, hno⟩ | ⟨e, he, -, h⟩
      · refine absurd ?_ (hno (L.row c.ghostNum i, 3) (List.mem_flatMap.2 ⟨c, hc, List.mem_map.2 ⟨i, List.mem_range.2 (by rw [hout]; exact i.2), rfl⟩⟩))
        rw [hrow, hck]
      · rw [h]
        obtain ⟨c', -, he⟩ := List.mem_flatMap.1 he
        obtain ⟨j, -, rfl⟩ := List.mem_map.1 he
        norm_num
    · -- a cell without equation
      refine le_trans ?_ (hz _).1
      refine (Finset.card_le_card (t := {dataIndex soa M.all.nbCells m shift k i}) fun a ha => ?_).trans (by simp)
      rw [mem_rowColumns] at ha
      rcases List.mem_append.1 ha with ha | ha
      · rcases List.mem_append.1 ha with ha | ha
        · exact absurd ha (hTE a)
        · obtain ⟨e, he, h⟩ := List.mem_map.1 ha
          obtain ⟨c', hc', j, hr, -⟩ := hTrow e he
          obtain ⟨hkk, -⟩ := hinj (hOK.ghost c' hc') ((congrArg Prod.fst h).symm.trans hr)
          exact absurd ⟨c', hc', hkk.symm⟩ hbc
      · obtain ⟨t, ht, h⟩ := List.mem_map.1 ha
        have hr : L.rowShift + (t : Int) = dataIndex soa M.all.nbCells m shift k i := congrArg Prod.fst h
        have hc : L.colShift + (t : Int) = a := congrArg Prod.snd h
        rw [Finset.mem_singleton, ← hc, ← hr, ← hL]

end

end Samurai

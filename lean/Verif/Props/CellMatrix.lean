/-
C87, C88: the matrices and the linear systems of the cell-based schemes and of the sums of schemes.
-/
import Verif.Lemmas.SumMatrix
import Verif.Props.PetscSystem
import Verif.Props.CellScheme

namespace Samurai

section
variable {K : Type} [Field K] {m p : Nat}

/-- C87. The matrix of a cell-based scheme: its product with the vector of any field is the explicit scheme. -/
theorem C87_cell (n : Nat) (cells ref : CA) (dom : LCA) (minL maxL w : Nat) (h0 : K) (L : MatLayout) (cd : CellDef K (Fin m → K) (Fin p → K))
    (g : FVMesh n cells ref dom minL maxL w) (hnum : FVNumbers n cells ref) (hS : CellStencilOK n w cd.stencil cd.center) (hm : L.inSize = m) (hp : L.outSize = p)
    (hN : ∀ l q k, (l, q, k) ∈ ref.numbered n → 0 ≤ k ∧ k < L.nCells) :
    ∃ E, assembleCell n h0 L ref cells cd = some E ∧ ∀ u x, IsVector L.soa L.nCells m L.colShift u x → ∃ out, cellApplyTo n h0 u ref cells cd = some out ∧
      IsVector L.soa L.nCells p L.rowShift out (matVec (schemeMatrix E) L.colShift (L.nCells * m) x) := by
  obtain ⟨E, h1, -, h3, -⟩ := g.assembleCell ⟨hnum, hN⟩ hm hp h0 hS
  refine ⟨E, h1, fun u x hx => ?_⟩
  obtain ⟨rs, r1, r2⟩ := h3 u x hx
  refine ⟨_, by unfold cellApplyTo; rw [r1]; rfl, fun v v0 v1 i => ?_⟩
  have hc := r2.cols
  rw [hm] at hc
  rw [matVec_schemeMatrix _ _ _ _ _ hc]
  have := r2.sum v v0 v1 i
  rw [MatLayout.row, hp] at this
  rw [← dataIndex_eq, this]
  beta_reduce
  rw [foldl_run, foldl_addTo, zero_add]

/-- C87. The matrix of a sum of linear schemes, flux-based or cell-based, for every mesh of graded leaves: the product of the matrix and of the vector of a field whose ghosts
have the values of the projection and of the prediction is the explicit application of the sum. -/
theorem C87_sum (n : Nat) (cfg : MeshConfig) (cells : CA) (dom : LCA) (minL maxL margin : Nat) (hd : GoodDomain n dom minL maxL margin)
    (hm : cfg.maxStencilWidth + cfg.predictionOrder + 3 ≤ margin) (g : GoodLeaves n cells dom minL maxL) (hw : 1 ≤ cfg.maxStencilWidth) (ho : cfg.predictionOrder ≤ 5) (h0 : K)
    (ops : List (LinOp K m p)) (hops : ∀ op ∈ ops, op.OK n cfg.maxStencilWidth) (soa : Bool) (rowShift colShift : Int) :
    ∃ M x sub rec E, mrMesh n cfg cells minL maxL = some (M, x) ∧ (∀ l q, M.cells.Mem n l q ↔ cells.Mem n l q) ∧ constructSubdomain n M.cells maxL = some sub ∧
      (∀ fuel, 2 * maxL < fuel → ghostRecursion n cfg.predictionOrder M.all M.ghosts M.cells fuel = some rec) ∧
      overList (LinOp.assemble n h0 ⟨soa, M.all.nbCells, m, p, rowShift, colShift⟩ rec M.all sub M.cells maxL) ops = some E ∧
      ∀ u val y, IsVector soa M.all.nbCells m colShift u y → FieldIs n M.all u val →
        (∀ l q, ProjGhost n M.cells M.ghosts l q → MeanBelow (K := K) n val l q) →
        (∀ l q, PredGhost n M.cells M.ghosts l q → TensorPredicted (K := K) n cfg.predictionOrder val l q) →
        ∃ out, (∀ par, operatorSumApplyTo (ops.map fun op => op.regions n h0 par u M.all sub M.cells maxL) = some out) ∧
          IsVector soa M.all.nbCells p rowShift out (matVec (schemeMatrix E) colShift (M.all.nbCells * m) y) := by
  obtain ⟨M, x, h1, hinv, h3⟩ := adaptInv_init' (cfg := cfg) hd (by omega) g
  have gE := hinv.elim hd (by omega) hw
  obtain ⟨rec, r1, -⟩ := gE.elimination (K := K) ho
  obtain ⟨sub, s1, -⟩ := constructSubdomain_spec (maxL := maxL) hinv.leaves.wf hinv.leaves.between
  obtain ⟨E, e1, e2⟩ := sumMatrix hd hm g hw ho h0 soa rowShift colShift h1 s1 r1 ops hops
  refine ⟨M, x, sub, rec, E, h1, h3, s1, r1, e1, fun u val y hy hu hP hQ => ?_⟩
  obtain ⟨outs, o1, o2⟩ := e2.value u val y hy hu hP hQ
  exact ⟨_, fun par => sum_outs (F := fun op par u => op.regions n h0 par u M.all sub M.cells maxL) (o1 par), o2⟩

theorem inOut_wide (n d : Nat) {w : Nat} (hw : 1 ≤ w) : StencilOK n w (unitDir d) (inOutStencil (unitDir d)) := by
  obtain ⟨h1, h2, h3⟩ := inOut_ok n d
  refine ⟨h1, h2, fun s hs k hk => ?_⟩
  have := h3 s hs k hk
  omega

theorem largest_mem {α : Type} (f : α → Nat) (l : List α) (h : l ≠ []) : ∃ a ∈ l, l[largestIndex (l.map f)]? = some a ∧ ∀ b ∈ l, f b ≤ f a := by
  have hmax : ∀ (l : List Nat) (a : Nat), (∀ b ∈ l, b ≤ l.foldl max a) ∧ a ≤ l.foldl max a ∧ (l.foldl max a = a ∨ l.foldl max a ∈ l) := by
    intro l
    induction l with
    | nil => intro a; simp
    | cons b l ih =>
      intro a
      obtain ⟨h1, h2, h3⟩ := ih (max a b)
      rw [List.foldl_cons]
      refine ⟨fun c hc => ?_, by omega, ?_⟩
      · rcases List.mem_cons.1 hc with rfl | hc
        · omega
        · exact h1 c hc
      · rcases h3 with h3 | h3
        · rcases Nat.le_total a b with hab | hab
          · right; rw [h3, Nat.max_eq_right hab]; exact List.mem_cons_self
          · left; rw [h3, Nat.max_eq_left hab]
        · exact .inr (List.mem_cons_of_mem _ h3)
  obtain ⟨h1, -, h3⟩ := hmax (l.map f) 0
  have hex : ∃ x ∈ l.map f, (fun s => s == (l.map f).foldl max 0) x = true := by
    rcases h3 with h3 | h3
    · obtain ⟨a, ha⟩ := List.exists_mem_of_ne_nil _ h
      have := h1 (f a) (List.mem_map.2 ⟨a, ha, rfl⟩)
      exact ⟨f a, List.mem_map.2 ⟨a, ha, rfl⟩, by simp only [beq_iff_eq]; omega⟩
    · exact ⟨_, h3, by simp⟩
  have hlt := List.findIdx_lt_length.2 hex
  have hget := List.findIdx_getElem (w := hlt)
  have hlt' : largestIndex (l.map f) < l.length := by unfold largestIndex; simpa using hlt
  refine ⟨l[largestIndex (l.map f)], List.getElem_mem hlt', List.getElem?_eq_getElem hlt', fun b hb => ?_⟩
  rw [List.getElem_map, beq_iff_eq] at hget
  have := h1 (f b) (List.mem_map.2 ⟨b, hb, rfl⟩)
  rw [← hget] at this
  exact this

end

section
variable {K : Type} [Field K] {m : Nat}

/-- C88. The linear system of a sum of schemes, for every mesh of graded leaves of a box, flux-based schemes with stencils of two cells and cell-based schemes on one cell (the
backward Euler scheme of a diffusion or convection equation): a vector solves the system that `assemble_matrix` and the preparation of the right-hand side build if and only if
1. the explicit application of the sum gives the right-hand side in the leaves, on the field whose eliminated ghosts have the values of the projection and of the prediction,
2. each ghost next to a leaf of a condition satisfies this condition — the last one, if several have it —, whose value is the one of the function at the centre of the
face,
3. the other cells have the value 0.
Missing: cell-based schemes with other cells in their stencil (`C88_cell_refuted`), functions of the direction or of the cell (`C84_value_refuted`). -/
theorem C88_system_partial [DecidableEq K] (n : Nat) (hn : n ≤ 2) (cfg : MeshConfig) (cells : CA) (dom : LCA) (minL maxL margin base : Nat) (b : Box)
    (hd : GoodDomain n dom minL maxL margin) (hm : cfg.maxStencilWidth + cfg.predictionOrder + 3 ≤ margin) (g : GoodLeaves n cells dom minL maxL)
    (hw : 1 ≤ cfg.maxStencilWidth) (ho : cfg.predictionOrder ≤ 5) (hbox : BoxDomain n dom base b) (hdl : dom.level = maxL) (hbase : base ≤ minL)
    (h2 : (2 : K) ≠ 0) (origin : Fin (n + 1) → K) (h0 diag : K) (hdiag : diag ≠ 0) (ops : List (LinOp K m m)) (hne : ops ≠ [])
    (hops : ∀ op ∈ ops, op.OK n cfg.maxStencilWidth ∧ op.Compact n ∧ op.WithBoundary)
    (bcs : List (FieldBc K n m)) (hreg : ∀ x ∈ fieldEntries bcs, UnitVector n x.2.1 → OneAxis n x.2.1 → BdryRegion n dom x.2.1 x.2.2) (soa : Bool) (shift : Int) :
    ∃ M x sub rec A marked, mrMesh n cfg cells minL maxL = some (M, x) ∧ (∀ l q, M.cells.Mem n l q ↔ cells.Mem n l q) ∧ constructSubdomain n M.cells maxL = some sub ∧
      (∀ fuel, 2 * maxL < fuel → ghostRecursion n cfg.predictionOrder M.all M.ghosts M.cells fuel = some rec) ∧
      assembleSum n h0 diag ⟨soa, M.all.nbCells, m, m, shift, shift⟩ rec M.all sub M.cells maxL ops bcs = some (A, marked) ∧
      ∀ f rhs, IsVector soa M.all.nbCells m shift f rhs →
        ∃ rhs', prepareRhs n origin h0 ⟨soa, M.all.nbCells, m, m, shift, shift⟩ M.all M.ghosts M.cells bcs marked rhs = some rhs' ∧
        ∀ u val y, IsVector soa M.all.nbCells m shift u y → FieldIs n M.all u val →
          ((∀ r, shift ≤ r → r < shift + (M.all.nbCells * m : Nat) → matVec A shift (M.all.nbCells * m) y r = rhs' r) ↔
            (∀ u' val', (∀ l q k, (l, q, k) ∈ M.all.numbered n → ¬ ProjGhost n M.cells M.ghosts l q → ¬ PredGhost n M.cells M.ghosts l q → u' k = u k) → FieldIs n M.all u' val' →
              (∀ l q, ProjGhost n M.cells M.ghosts l q → MeanBelow (K := K) n val' l q) →
              (∀ l q, PredGhost n M.cells M.ghosts l q → TensorPredicted (K := K) n cfg.predictionOrder val' l q) →
              ∃ out, (∀ par, operatorSumApplyTo (ops.map fun op => op.regions n h0 par u' M.all sub M.cells maxL) = some out) ∧
                ∀ l q k, (l, q, k) ∈ M.all.numbered n → M.cells.Mem n l q → out k = f k) ∧
            (∀ l1 x l2 level p q, fieldEntries bcs = l1 ++ x :: l2 → Constrains n M.cells level x p q → (∀ z ∈ l2, ∀ p', ¬ Constrains n M.cells level z p' q) →
              ∀ i, x.1.kind.Satisfied h0 level (fun j => val level (walk n p j x.2.1) i) 1
                (x.1.value (fun _ => 0) ⟨fun _ => 0, 0, fun _ => 0, 0, 0⟩ (faceAt origin h0 level p x.2.1) i)) ∧
            ∀ l q k, (l, q, k) ∈ M.all.numbered n → ¬ M.cells.Mem n l q → (∀ x ∈ fieldEntries bcs, ∀ p, ¬ Constrains n M.cells l x p q) → u k = 0) := by
  classical
  obtain ⟨M, x, h1, hinv, h3⟩ := adaptInv_init' (cfg := cfg) hd (by omega) g
  have gE := hinv.elim hd (by omega) hw
  obtain ⟨hN, hN', hleafnum⟩ := hinv.nums hd (by omega) hw
  obtain ⟨rec, q1, -⟩ := gE.elimination (K := K) ho
  obtain ⟨sub, s1, -⟩ := constructSubdomain_spec (maxL := maxL) hinv.leaves.wf hinv.leaves.between
  obtain ⟨E, e1, e2⟩ := sumMatrix hd hm g hw ho h0 soa shift shift h1 s1 q1 ops fun op hop => (hops op hop).1
  have hc : ∀ op ∈ ops, op.Compact n := fun op hop => (hops op hop).2.1
  obtain ⟨op, hop, i1, -⟩ := largest_mem LinOp.stencilSize ops hne
  obtain ⟨-, -, -, hR⟩ := opMatrix hd hm g hw ho h0 soa shift shift h1 s1 q1 op (hops op hop).1
  obtain ⟨R, r1, r2⟩ := hR (hops op hop).2.2
  have ghosts : ∀ u : Int → Fin m → K, ∃ u' val,
      (∀ l q k, (l, q, k) ∈ M.all.numbered n → ¬ ProjGhost n M.cells M.ghosts l q → ¬ PredGhost n M.cells M.ghosts l q → u' k = u k) ∧ FieldIs n M.all u' val ∧
      (∀ l q, ProjGhost n M.cells M.ghosts l q → MeanBelow (K := K) n val l q) ∧
      (∀ l q, PredGhost n M.cells M.ghosts l q → TensorPredicted (K := K) n cfg.predictionOrder val l q) := by
    intro u
    obtain ⟨M', x', sub', rec', E', j1, -, -, -, -, -, -, j8⟩ := C83_matrix (p := m) n cfg cells dom minL maxL margin hd hm g hw ho h0
      ⟨fun d => inOutStencil (unitDir d), fun _ _ => []⟩ (fun d _ => inOut_wide n d hw) soa true shift shift
    rw [h1] at j1
    cases j1
    exact j8 u
  obtain ⟨A, marked, a1, -, a2⟩ := hinv.system_iff hn hd (by omega) hw hbox hdl hbase h2 origin h0 diag hdiag bcs hreg soa shift e2.rows r2
  refine ⟨M, x, sub, rec, A, marked, h1, h3, s1, q1, by unfold assembleSum; rw [e1, i1]; show (match some E, LinOp.marks _ _ _ _ _ _ _ op with | some E, some R => _ | _, _ => none) = _; rw [r1]; exact a1, fun f rhs hf => ?_⟩
  obtain ⟨rhs', p1, -, p2⟩ := a2 f rhs hf
  refine ⟨rhs', p1, fun u val y hy hu => (p2 u val y hy hu).trans (and_congr_left fun _ => ⟨fun h u' val' k1 k2 k3 k4 => ?_, fun h l q k hk hq i => ?_⟩)⟩
  · obtain ⟨outs, o1, o2⟩ := e2.compact hc u u' val' y hy k1 k2 k3 k4
    refine ⟨_, fun par => sum_outs (F := fun op par u => op.regions n h0 par u M.all sub M.cells maxL) (o1 par), fun l q k hk hq => funext fun i => ?_⟩
    have hr := hN _ _ _ hk
    rw [← o2.at hr.1 hr.2, h l q k hk hq i]
  · obtain ⟨u', val', k1, k2, k3, k4⟩ := ghosts u
    obtain ⟨outs, o1, o2⟩ := e2.compact hc u u' val' y hy k1 k2 k3 k4
    obtain ⟨out', o1', o2'⟩ := h u' val' k1 k2 k3 k4
    have : out' = _ := Option.some.inj ((o1' true).symm.trans (sum_outs (F := fun op par u => op.regions n h0 par u M.all sub M.cells maxL) (o1 true)))
    have hr := hN _ _ _ hk
    rw [o2.at hr.1 hr.2, ← o2' l q k hk hq, this]

/-- C88. The backward Euler scheme `id + dt * scheme`, for a linear flux-based scheme with stencils of two cells: a vector solves the system if and only if `u + dt * scheme(u) = f`
in the leaves, for the explicit application of the scheme on the field with its ghosts interpolated, and the ghosts satisfy the boundary conditions. -/
theorem C88_backward_euler [DecidableEq K] (n : Nat) (hn : n ≤ 2) (cfg : MeshConfig) (cells : CA) (dom : LCA) (minL maxL margin base : Nat) (b : Box)
    (hd : GoodDomain n dom minL maxL margin) (hm : cfg.maxStencilWidth + cfg.predictionOrder + 3 ≤ margin) (g : GoodLeaves n cells dom minL maxL)
    (hw : 1 ≤ cfg.maxStencilWidth) (ho : cfg.predictionOrder ≤ 5) (hbox : BoxDomain n dom base b) (hdl : dom.level = maxL) (hbase : base ≤ minL)
    (h2 : (2 : K) ≠ 0) (origin : Fin (n + 1) → K) (h0 diag dt : K) (hdiag : diag ≠ 0) (a : LinScheme K (Fin m → K) (Fin m → K)) (ha : a.bdry = true)
    (hS : ∀ d ≤ n, StencilOK n cfg.maxStencilWidth (unitDir d) (a.defn.stencil d)) (hS2 : ∀ d ≤ n, TwoPoint n (unitDir d) (a.defn.stencil d))
    (bcs : List (FieldBc K n m)) (hreg : ∀ x ∈ fieldEntries bcs, UnitVector n x.2.1 → OneAxis n x.2.1 → BdryRegion n dom x.2.1 x.2.2) (soa : Bool) (shift : Int) :
    ∃ M x sub rec cd A marked, mrMesh n cfg cells minL maxL = some (M, x) ∧ (∀ l q, M.cells.Mem n l q ↔ cells.Mem n l q) ∧ constructSubdomain n M.cells maxL = some sub ∧
      (∀ fuel, 2 * maxL < fuel → ghostRecursion n cfg.predictionOrder M.all M.ghosts M.cells fuel = some rec) ∧ identityOp n m = some cd ∧
      assembleSum n h0 diag ⟨soa, M.all.nbCells, m, m, shift, shift⟩ rec M.all sub M.cells maxL [.cell cd, .flux (a.smul dt).defn (a.smul dt).bdry] bcs = some (A, marked) ∧
      ∀ f rhs, IsVector soa M.all.nbCells m shift f rhs →
        ∃ rhs', prepareRhs n origin h0 ⟨soa, M.all.nbCells, m, m, shift, shift⟩ M.all M.ghosts M.cells bcs marked rhs = some rhs' ∧
        ∀ u val y, IsVector soa M.all.nbCells m shift u y → FieldIs n M.all u val →
          ((∀ r, shift ≤ r → r < shift + (M.all.nbCells * m : Nat) → matVec A shift (M.all.nbCells * m) y r = rhs' r) ↔
            (∀ u' val', (∀ l q k, (l, q, k) ∈ M.all.numbered n → ¬ ProjGhost n M.cells M.ghosts l q → ¬ PredGhost n M.cells M.ghosts l q → u' k = u k) → FieldIs n M.all u' val' →
              (∀ l q, ProjGhost n M.cells M.ghosts l q → MeanBelow (K := K) n val' l q) →
              (∀ l q, PredGhost n M.cells M.ghosts l q → TensorPredicted (K := K) n cfg.predictionOrder val' l q) →
              ∃ out, (∀ par, a.apply n h0 par u' M.all sub M.cells maxL = some out) ∧
                ∀ l q k, (l, q, k) ∈ M.all.numbered n → M.cells.Mem n l q → u k + dt • out k = f k) ∧
            (∀ l1 x l2 level p q, fieldEntries bcs = l1 ++ x :: l2 → Constrains n M.cells level x p q → (∀ z ∈ l2, ∀ p', ¬ Constrains n M.cells level z p' q) →
              ∀ i, x.1.kind.Satisfied h0 level (fun j => val level (walk n p j x.2.1) i) 1
                (x.1.value (fun _ => 0) ⟨fun _ => 0, 0, fun _ => 0, 0, 0⟩ (faceAt origin h0 level p x.2.1) i)) ∧
            ∀ l q k, (l, q, k) ∈ M.all.numbered n → ¬ M.cells.Mem n l q → (∀ x ∈ fieldEntries bcs, ∀ p, ¬ Constrains n M.cells l x p q) → u k = 0) := by
  obtain ⟨z, z1, z2⟩ := star_zero n hn
  have hid : identityOp n m = some (⟨[z], 0, fun _ => [LinearMap.id]⟩ : CellDef K (Fin m → K) (Fin m → K)) := by unfold identityOp; rw [z1]; rfl
  obtain ⟨M, x, sub, rec, A, marked, h1, h3, h4, h5, h6, h7⟩ := C88_system_partial n hn cfg cells dom minL maxL margin base b hd hm g hw ho hbox hdl hbase h2 origin h0 diag hdiag
    [.cell (⟨[z], 0, fun _ => [LinearMap.id]⟩ : CellDef K (Fin m → K) (Fin m → K)), .flux (a.smul dt).defn (a.smul dt).bdry] (by simp) (by
      intro op hop
      simp only [List.mem_cons, List.not_mem_nil, or_false] at hop
      rcases hop with rfl | rfl
      · refine ⟨⟨⟨z, rfl, z2⟩, fun s hs k hk => ?_⟩, fun s hs => ?_, trivial⟩
        · obtain rfl := List.mem_singleton.1 hs
          rw [z2 k hk]
          omega
        · obtain rfl := List.mem_singleton.1 hs
          exact z2
      · exact ⟨hS, .inr hS2, ha⟩) bcs hreg soa shift
  obtain ⟨M', x', j1, hinv, -⟩ := adaptInv_init' (cfg := cfg) hd (by omega) g
  rw [h1] at j1
  cases j1
  have gE := hinv.elim hd (by omega) hw
  refine ⟨M, x, sub, rec, _, A, marked, h1, h3, h4, h5, hid, h6, fun f rhs hf => ?_⟩
  obtain ⟨rhs', p1, p2⟩ := h7 f rhs hf
  refine ⟨rhs', p1, fun u val y hy hu => (p2 u val y hy hu).trans (and_congr_left fun _ => ?_)⟩
  have sum : ∀ u' : Int → Fin m → K, (∀ l q k, (l, q, k) ∈ M.all.numbered n → ¬ ProjGhost n M.cells M.ghosts l q → ¬ PredGhost n M.cells M.ghosts l q → u' k = u k) →
      ∃ out tot, (∀ par, a.apply n h0 par u' M.all sub M.cells maxL = some out) ∧
        (∀ par, operatorSumApplyTo ([LinOp.cell (⟨[z], 0, fun _ => [LinearMap.id]⟩ : CellDef K (Fin m → K) (Fin m → K)), LinOp.flux (a.smul dt).defn (a.smul dt).bdry].map
          fun op => op.regions n h0 par u' M.all sub M.cells maxL) = some tot) ∧
        ∀ l q k, (l, q, k) ∈ M.all.numbered n → M.cells.Mem n l q → tot k = u k + dt • out k := by
    intro u' huu
    obtain ⟨val', hval'⟩ := values_exist gE.fv.refWF u'
    obtain ⟨out, -, o1, -⟩ := C65_linear_scheme n M.cells M.all dom sub minL maxL cfg.maxStencilWidth h0 a.defn u' a.bdry gE.fv hinv.fvNumbers h4 hS
    obtain ⟨⟨cd', oid, i1, i2, i3, -⟩, -⟩ := C86_identity n m m hn M.cells M.all dom minL maxL cfg.maxStencilWidth h0 gE.fv hinv.fvNumbers u' val' hval'
    rw [hid] at i1
    cases i1
    obtain ⟨rs, r1, r2⟩ := Option.map_eq_some_iff.1 i2
    refine ⟨out, fun k => oid k + dt • out k, o1, fun par => ?_, fun l q k hk hq => ?_⟩
    · obtain ⟨out', q1, q2⟩ := C68_scalar_linear n M.cells M.all dom sub minL maxL cfg.maxStencilWidth h0 dt a u' par gE.fv hinv.fvNumbers h4 hS
      obtain rfl : out' = out := Option.some.inj (q1.symm.trans (o1 par))
      obtain ⟨rs', r1', r2'⟩ := Option.map_eq_some_iff.1 q2
      have hl : [LinOp.cell (⟨[z], 0, fun _ => [LinearMap.id]⟩ : CellDef K (Fin m → K) (Fin m → K)), LinOp.flux (a.smul dt).defn (a.smul dt).bdry].map
          (fun op => op.regions n h0 par u' M.all sub M.cells maxL) = [rs, rs'].map some := by
        rw [List.map_cons, List.map_cons, List.map_nil, List.map_cons, List.map_cons, List.map_nil, ← r1, ← r1']
        rfl
      rw [hl, C68_operator_sum]
      congr 1
      funext k
      simp only [List.map_cons, List.map_nil, List.sum_cons, List.sum_nil, add_zero]
      rw [r2, r2']
    · obtain ⟨k', hk'⟩ := CA.exists_number gE.fv.leaves.wf hq
      obtain rfl := CA.number_unique gE.fv.refWF hk (hinv.fvNumbers.same _ _ _ hk')
      beta_reduce
      rw [i3 l q k hk', ← hval' l q k hk, huu l q k hk (gE.leaf_proj hq) (gE.leaf_pred hq)]
  refine forall_congr' fun u' => forall_congr' fun val' => forall_congr' fun k1 => forall_congr' fun k2 => forall_congr' fun k3 => forall_congr' fun k4 => ?_
  obtain ⟨out, tot, o1, o2, o3⟩ := sum u' k1
  constructor
  · rintro ⟨tot', t1, t2⟩
    obtain rfl : tot' = tot := Option.some.inj ((t1 true).symm.trans (o2 true))
    exact ⟨out, o1, fun l q k hk hq => (o3 l q k hk hq).symm.trans (t2 l q k hk hq)⟩
  · rintro ⟨out', t1, t2⟩
    obtain rfl : out' = out := Option.some.inj ((t1 true).symm.trans (o1 true))
    exact ⟨tot, o2, fun l q k hk hq => (o3 l q k hk hq).trans (t2 l q k hk hq)⟩

end

end Samurai

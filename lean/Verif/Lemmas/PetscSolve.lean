/-
The rows of a linear system: those of the leaves are the rows of the scheme, the others the boundary conditions and the cells without equation.
-/
import Verif.Props.PetscGhosts
import Verif.Props.GhostExample

namespace Samurai

section
variable {K : Type} [Field K] {m : Nat}

theorem exists_last {α : Type} {P : α → Prop} : ∀ l : List α, (∃ a ∈ l, P a) → ∃ l1 a l2, l = l1 ++ a :: l2 ∧ P a ∧ ∀ b ∈ l2, ¬ P b := by
  intro l
  induction l with
  | nil => rintro ⟨a, ha, -⟩; simp at ha
  | cons x l ih =>
    intro h
    by_cases h' : ∃ a ∈ l, P a
    · obtain ⟨l1, a, l2, rfl, h1, h2⟩ := ih h'
      exact ⟨x :: l1, a, l2, rfl, h1, h2⟩
    · obtain ⟨a, ha, hP⟩ := h
      rcases List.mem_cons.1 ha with rfl | ha
      · exact ⟨[], a, l, rfl, hP, fun b hb hb' => h' ⟨b, hb, hb'⟩⟩
      · exact absurd ⟨a, ha, hP⟩ h'

/-- The numbers of the cells, of the leaves. -/
theorem AdaptInv.nums {n : Nat} {cfg : MeshConfig} {dom : LCA} {minL maxL : Nat} {M : SubMeshes} {x : CA} {margin : Nat} (hinv : AdaptInv n cfg dom minL maxL M x)
    (hd : GoodDomain n dom minL maxL margin) (hm : cfg.maxStencilWidth + 3 ≤ margin) (hw : 1 ≤ cfg.maxStencilWidth) :
    (∀ l q k, (l, q, k) ∈ M.all.numbered n → 0 ≤ k ∧ k < M.all.nbCells) ∧ (∀ k : Int, 0 ≤ k → k < M.all.nbCells → ∃ l q, (l, q, k) ∈ M.all.numbered n) ∧
      ∀ l q k, (l, q, k) ∈ M.all.numbered n → (LeafNum n M.cells k ↔ M.cells.Mem n l q) := by
  have gE := hinv.elim hd hm hw
  have hnum : (M.all.numbered n).map (fun e => e.2.2) = (List.range M.all.nbCells).map fun (k : Nat) => (k : Int) := by
    obtain ⟨c0, hc⟩ := hinv.mesh
    exact hc.numbers
  have hN : ∀ l q k, (l, q, k) ∈ M.all.numbered n → 0 ≤ k ∧ k < M.all.nbCells := by
    intro l q k hk
    have : k ∈ (M.all.numbered n).map fun e => e.2.2 := List.mem_map.2 ⟨_, hk, rfl⟩
    rw [hnum, List.mem_map] at this
    obtain ⟨i, hi, rfl⟩ := this
    rw [List.mem_range] at hi
    constructor <;> omega
  have hN' : ∀ k : Int, 0 ≤ k → k < M.all.nbCells → ∃ l q, (l, q, k) ∈ M.all.numbered n := by
    intro k k0 k1
    have : k ∈ (M.all.numbered n).map fun e => e.2.2 := by
      rw [hnum, List.mem_map]
      exact ⟨k.toNat, List.mem_range.2 (by omega), by omega⟩
    obtain ⟨⟨l, q, k'⟩, he, rfl⟩ := List.mem_map.1 this
    exact ⟨l, q, he⟩
  have hleafnum : ∀ l q k, (l, q, k) ∈ M.all.numbered n → (LeafNum n M.cells k ↔ M.cells.Mem n l q) := by
    intro l q k hk
    constructor
    · rintro ⟨l', q', hk'⟩
      obtain ⟨rfl, rfl⟩ := number_inj gE.distinct hk (hinv.fvNumbers.same _ _ _ hk')
      exact CA.mem_of_numbered gE.fv.leaves.wf hk'
    · intro h
      exact leafNum_of gE.fv.leaves.wf gE.fv.refWF hinv.fvNumbers (c := ⟨l, q.dropLast, q.getLastD 0, k⟩) h ⟨rfl, by
        have := mem_length h.2
        obtain ⟨yz, x, rfl, _⟩ := exists_snoc this
        simp [MCell.pt], hk⟩
  exact ⟨hN, hN', hleafnum⟩

/-- The calls of the boundary conditions: each is that of a leaf and of a ghost out of the domain, which has only one leaf. The eliminated ghosts are neither leaves nor ghosts of
the conditions. -/
theorem AdaptInv.bcData {n : Nat} (hn : n ≤ 2) {cfg : MeshConfig} {dom : LCA} {minL maxL margin base : Nat} {b : Box} {M : SubMeshes} {x : CA}
    (hinv : AdaptInv n cfg dom minL maxL M x) (hd : GoodDomain n dom minL maxL margin) (hm : cfg.maxStencilWidth + 3 ≤ margin) (hw : 1 ≤ cfg.maxStencilWidth)
    (hbox : BoxDomain n dom base b) (hdl : dom.level = maxL) (hbase : base ≤ minL) (h0 : K) (bcs : List (FieldBc K n m))
    (hreg : ∀ x ∈ fieldEntries bcs, UnitVector n x.2.1 → OneAxis n x.2.1 → BdryRegion n dom x.2.1 x.2.2) :
    ∃ (ev : FieldBc K n m × ((Nat → Int) × LCA) → List (BcCall K n m)) (G : List Int), bcCalls n h0 M.all M.cells bcs = some ((fieldEntries bcs).flatMap ev) ∧
      (∀ x ∈ fieldEntries bcs, ∀ c, c ∈ ev x ↔ ∃ level p q, Constrains n M.cells level x p q ∧ c = bcCallOf n M.all x level p) ∧
      eliminatedGhosts n M.all M.ghosts M.cells = some G ∧
      (∀ k, k ∈ G ↔ ∃ l p, (l, p, k) ∈ M.all.numbered n ∧ (ProjGhost n M.cells M.ghosts l p ∨ PredGhost n M.cells M.ghosts l p)) ∧
      (∀ x ∈ fieldEntries bcs, ∀ level p q, Constrains n M.cells level x p q → (Outward n (b.refined (level - base)) p x.2.1 ∧ OutDomain n dom maxL level q) ∧
        level ≤ maxL ∧ M.all.Mem n level p ∧ M.all.Mem n level q) ∧
      (∀ c ∈ (fieldEntries bcs).flatMap ev, ∃ x ∈ fieldEntries bcs, ∃ level p q, Constrains n M.cells level x p q ∧ c = bcCallOf n M.all x level p) ∧
      (∀ x ∈ fieldEntries bcs, ∀ level p q, Constrains n M.cells level x p q → ∀ x' ∈ fieldEntries bcs, ∀ level' p' q', Constrains n M.cells level' x' p' q' →
        (bcCallOf (K := K) (m := m) n M.all x level p).ghostNum = (bcCallOf n M.all x' level' p').ghostNum → level = level' ∧ q = q' ∧ p = p') ∧
      CallsOK h0 M.all.nbCells ((fieldEntries bcs).flatMap ev) ∧ (∀ c ∈ (fieldEntries bcs).flatMap ev, ¬ LeafNum n M.cells c.ghostNum) ∧
      ∀ k ∈ G, (0 ≤ k ∧ k < M.all.nbCells) ∧ ¬ LeafNum n M.cells k ∧ ∀ c ∈ (fieldEntries bcs).flatMap ev, c.ghostNum ≠ k := by
  have gE := hinv.elim hd hm hw
  obtain ⟨hN, hN', hleafnum⟩ := hinv.nums hd hm hw
  have hnumb : ∀ {l q}, M.all.Mem n l q → (l, q, numOf n M.all l q) ∈ M.all.numbered n := fun h => numOf_numbered gE.fv.refWF h
  obtain ⟨ev, b1, b2⟩ := gE.fv.bcCalls hn hw hdl h0 bcs hreg
  obtain ⟨G, g1, g2⟩ := gE.eliminatedGhosts
  -- the ghosts of the conditions
  have hout : ∀ x ∈ fieldEntries bcs, ∀ level p q, Constrains n M.cells level x p q → (Outward n (b.refined (level - base)) p x.2.1 ∧ OutDomain n dom maxL level q) ∧
      level ≤ maxL ∧ M.all.Mem n level p ∧ M.all.Mem n level q := by
    rintro x hx level p q ⟨c1, c2, c3, c4, c5, rfl⟩
    have hb := gE.fv.leaves.between _ _ c4
    have ho := (hreg x hx c1 c2).outward (hbox.finer (level := level) (by omega) (by omega)) c1 c2 c5
    have hlen := mem_length c4.2
    refine ⟨⟨ho, outside_box hbox hdl (by omega) hb.2 (ho.out (by omega))⟩, hb.2, gE.fv.ghosts level p p c4 (near_refl _ _), gE.fv.ghosts level _ p c4 ?_⟩
    unfold walk
    exact near_mono hw (near_walk (w := 1) c1.1 le_rfl hlen (by norm_num) (by norm_num))
  have hcall : ∀ c ∈ (fieldEntries bcs).flatMap ev, ∃ x ∈ fieldEntries bcs, ∃ level p q, Constrains n M.cells level x p q ∧ c = bcCallOf n M.all x level p := by
    intro c hc
    obtain ⟨x, hx, hc⟩ := List.mem_flatMap.1 hc
    obtain ⟨level, p, q, k1, k2⟩ := (b2 x hx c).1 hc
    exact ⟨x, hx, level, p, q, k1, k2⟩
  have hcn : ∀ x level p, (bcCallOf (K := K) (m := m) n M.all x level p).cellNum = numOf n M.all level p := fun _ _ _ => rfl
  have hgn : ∀ x level p q, Constrains n M.cells level x p q → (bcCallOf (K := K) (m := m) n M.all x level p).ghostNum = numOf n M.all level q := by
    rintro x level p q ⟨-, -, -, -, -, rfl⟩
    rfl
  -- two calls with the same ghost
  have hsame : ∀ x ∈ fieldEntries bcs, ∀ level p q, Constrains n M.cells level x p q → ∀ x' ∈ fieldEntries bcs, ∀ level' p' q', Constrains n M.cells level' x' p' q' →
      (bcCallOf (K := K) (m := m) n M.all x level p).ghostNum = (bcCallOf n M.all x' level' p').ghostNum → level = level' ∧ q = q' ∧ p = p' := by
    intro x hx level p q hc x' hx' level' p' q' hc' h
    rw [hgn _ _ _ _ hc, hgn _ _ _ _ hc'] at h
    obtain ⟨⟨o1, -⟩, -, -, k1⟩ := hout x hx _ _ _ hc
    obtain ⟨⟨o1', -⟩, -, -, k1'⟩ := hout x' hx' _ _ _ hc'
    have hk := hnumb k1
    rw [h] at hk
    obtain ⟨rfl, rfl⟩ := number_inj gE.distinct hk (hnumb k1')
    obtain ⟨-, -, -, -, -, hq⟩ := hc
    obtain ⟨-, -, -, -, -, hq'⟩ := hc'
    exact ⟨rfl, rfl, (o1.unique o1' le_rfl le_rfl (hq.symm.trans hq')).2.2⟩
  have hOK : CallsOK h0 M.all.nbCells ((fieldEntries bcs).flatMap ev) := by
    refine ⟨fun c hc => ?_, fun c hc => ?_, fun c hc => ?_, fun c hc c' hc' => ?_, fun c hc c' hc' h => ?_⟩
    · obtain ⟨x, hx, level, p, q, k1, rfl⟩ := hcall c hc
      exact Option.isSome_iff_exists.1 (implicit_iff.2 k1.2.2.1)
    · obtain ⟨x, hx, level, p, q, k1, rfl⟩ := hcall c hc
      exact hN _ _ _ (hnumb (hout x hx _ _ _ k1).2.2.1)
    · obtain ⟨x, hx, level, p, q, k1, rfl⟩ := hcall c hc
      rw [hgn _ _ _ _ k1]
      exact hN _ _ _ (hnumb (hout x hx _ _ _ k1).2.2.2)
    · obtain ⟨x, hx, level, p, q, k1, rfl⟩ := hcall c hc
      obtain ⟨x', hx', level', p', q', k1', rfl⟩ := hcall c' hc'
      rw [hgn _ _ _ _ k1', hcn]
      intro h
      have hk := hnumb (hout x hx _ _ _ k1).2.2.1
      rw [h] at hk
      obtain ⟨⟨-, ho'⟩, hl', -, hm'⟩ := hout x' hx' _ _ _ k1'
      obtain ⟨rfl, rfl⟩ := number_inj gE.distinct hk (hnumb hm')
      exact (gE.outside hl' ho').1 k1.2.2.2.1
    · obtain ⟨x, hx, level, p, q, k1, rfl⟩ := hcall c hc
      obtain ⟨x', hx', level', p', q', k1', rfl⟩ := hcall c' hc'
      obtain ⟨rfl, -, rfl⟩ := hsame x hx _ _ _ k1 x' hx' _ _ _ k1' h
      rfl
  have hBl : ∀ c ∈ (fieldEntries bcs).flatMap ev, ¬ LeafNum n M.cells c.ghostNum := by
    intro c hc h
    obtain ⟨x, hx, level, p, q, k1, rfl⟩ := hcall c hc
    obtain ⟨⟨-, ho'⟩, hl', -, hm'⟩ := hout x hx _ _ _ k1
    rw [hgn _ _ _ _ k1, hleafnum _ _ _ (hnumb hm')] at h
    exact (gE.outside hl' ho').1 h
  have hGr : ∀ k ∈ G, (0 ≤ k ∧ k < M.all.nbCells) ∧ ¬ LeafNum n M.cells k ∧ ∀ c ∈ (fieldEntries bcs).flatMap ev, c.ghostNum ≠ k := by
    intro k hk
    obtain ⟨l, q, k1, k2⟩ := (g2 k).1 hk
    refine ⟨hN _ _ _ k1, ?_, fun c hc h => ?_⟩
    · rw [hleafnum _ _ _ k1]
      intro h
      rcases k2 with k2 | k2
      · exact gE.leaf_proj h k2
      · exact gE.leaf_pred h k2
    · obtain ⟨x, hx, level, p, q', k3, rfl⟩ := hcall c hc
      obtain ⟨⟨-, ho'⟩, hl', -, hm'⟩ := hout x hx _ _ _ k3
      rw [hgn _ _ _ _ k3] at h
      have h5 := hnumb hm'
      rw [h] at h5
      obtain ⟨rfl, rfl⟩ := number_inj gE.distinct k1 h5
      rcases k2 with k2 | k2
      · exact (gE.outside hl' ho').2.1 k2
      · exact (gE.outside hl' ho').2.2 k2
  exact ⟨ev, G, b1, b2, g1, g2, hout, hcall, hsame, hOK, hBl, hGr⟩

/-- The linear system whose scheme has the coefficients `E` and marks the rows of the leaves: a vector solves it if and only if the rows of the scheme have the right-hand side
in the leaves, each ghost of a boundary condition satisfies this condition — the last one, if several have it —, the other cells have the value 0. -/
theorem AdaptInv.system_iff [DecidableEq K] {n : Nat} (hn : n ≤ 2) {cfg : MeshConfig} {dom : LCA} {minL maxL margin base : Nat} {b : Box} {M : SubMeshes} {x : CA}
    (hinv : AdaptInv n cfg dom minL maxL M x) (hd : GoodDomain n dom minL maxL margin) (hm : cfg.maxStencilWidth + 3 ≤ margin) (hw : 1 ≤ cfg.maxStencilWidth)
    (hbox : BoxDomain n dom base b) (hdl : dom.level = maxL) (hbase : base ≤ minL)
    (h2 : (2 : K) ≠ 0) (origin : Fin (n + 1) → K) (h0 diag : K) (hdiag : diag ≠ 0) (bcs : List (FieldBc K n m))
    (hreg : ∀ x ∈ fieldEntries bcs, UnitVector n x.2.1 → OneAxis n x.2.1 → BdryRegion n dom x.2.1 x.2.2) (soa : Bool) (shift : Int) {E : List (MatEntry K)} {R : List Int}
    (hEr : ∀ e ∈ E, ∃ (k : Int) (i : Fin m), e.1 = dataIndex soa M.all.nbCells m shift k i ∧ LeafNum n M.cells k)
    (r2 : ∀ r, r ∈ R ↔ ∃ k, LeafNum n M.cells k ∧ ∃ i < m, r = dataIndex soa M.all.nbCells m shift k i) :
    ∃ A marked, finishMatrix n h0 diag ⟨soa, M.all.nbCells, m, m, shift, shift⟩ M.all M.cells bcs E R = some (A, marked) ∧
      (∃ B G, bcCalls n h0 M.all M.cells bcs = some B ∧ CallsOK h0 M.all.nbCells B ∧ eliminatedGhosts n M.all M.ghosts M.cells = some G ∧ ∀ k ∈ G, 0 ≤ k ∧ k < M.all.nbCells) ∧
      ∀ f rhs, IsVector soa M.all.nbCells m shift f rhs →
        ∃ rhs', prepareRhs n origin h0 ⟨soa, M.all.nbCells, m, m, shift, shift⟩ M.all M.ghosts M.cells bcs marked rhs = some rhs' ∧
        (∀ k, LeafNum n M.cells k → ∀ i : Fin m, rhs' (dataIndex soa M.all.nbCells m shift k i) = rhs (dataIndex soa M.all.nbCells m shift k i)) ∧
        ∀ u val y, IsVector soa M.all.nbCells m shift u y → FieldIs n M.all u val →
          ((∀ r, shift ≤ r → r < shift + (M.all.nbCells * m : Nat) → matVec A shift (M.all.nbCells * m) y r = rhs' r) ↔
            (∀ l q k, (l, q, k) ∈ M.all.numbered n → M.cells.Mem n l q → ∀ i : Fin m,
              matVec (schemeMatrix E) shift (M.all.nbCells * m) y (dataIndex soa M.all.nbCells m shift k i) = f k i) ∧
            (∀ l1 x l2 level p q, fieldEntries bcs = l1 ++ x :: l2 → Constrains n M.cells level x p q → (∀ z ∈ l2, ∀ p', ¬ Constrains n M.cells level z p' q) →
              ∀ i, x.1.kind.Satisfied h0 level (fun j => val level (walk n p j x.2.1) i) 1
                (x.1.value (fun _ => 0) ⟨fun _ => 0, 0, fun _ => 0, 0, 0⟩ (faceAt origin h0 level p x.2.1) i)) ∧
            ∀ l q k, (l, q, k) ∈ M.all.numbered n → ¬ M.cells.Mem n l q → (∀ x ∈ fieldEntries bcs, ∀ p, ¬ Constrains n M.cells l x p q) → u k = 0) := by
  classical
  have gE := hinv.elim hd hm hw
  obtain ⟨hN, hN', hleafnum⟩ := hinv.nums hd hm hw
  have hnumb : ∀ {l q}, M.all.Mem n l q → (l, q, numOf n M.all l q) ∈ M.all.numbered n := fun h => numOf_numbered gE.fv.refWF h
  obtain ⟨ev, G, b1, b2, g1, g2, hout, hcall, hsame, hOK, hBl, hGr⟩ := hinv.bcData hn hd hm hw hbox hdl hbase h0 bcs hreg
  have hcn : ∀ x level p, (bcCallOf (K := K) (m := m) n M.all x level p).cellNum = numOf n M.all level p := fun _ _ _ => rfl
  have hgn : ∀ x level p q, Constrains n M.cells level x p q → (bcCallOf (K := K) (m := m) n M.all x level p).ghostNum = numOf n M.all level q := by
    rintro x level p q ⟨-, -, -, -, -, rfl⟩
    rfl
  obtain ⟨A, marked, a1, a2⟩ := system_rows (origin := origin) (diag := diag) (Leaf := LeafNum n M.cells) h2 b1 g1
    (fun k ⟨l, q, hk⟩ => hN _ _ _ (hinv.fvNumbers.same _ _ _ hk)) hEr r2 hOK hBl hGr
  refine ⟨A, marked, a1, ⟨_, G, b1, hOK, g1, fun k hk => (hGr k hk).1⟩, fun f rhs hf => ?_⟩
  obtain ⟨rhs', p1, p2, p3, p4⟩ := a2 rhs
  refine ⟨rhs', p1, fun k hk i => (p2 k hk i).2, fun u val y hy hu => ?_⟩
  -- the leaves
  have rowLeaf : ∀ l q k, (l, q, k) ∈ M.all.numbered n → M.cells.Mem n l q → ∀ i : Fin m,
      (matVec A shift (M.all.nbCells * m) y (dataIndex soa M.all.nbCells m shift k i) = rhs' (dataIndex soa M.all.nbCells m shift k i) ↔
        matVec (schemeMatrix E) shift (M.all.nbCells * m) y (dataIndex soa M.all.nbCells m shift k i) = f k i) := by
    intro l q k hk hq i
    obtain ⟨q1, q2⟩ := p2 k ((hleafnum _ _ _ hk).2 hq) i
    have hr := hN _ _ _ hk
    have : matVec A shift (M.all.nbCells * m) y (dataIndex soa M.all.nbCells m shift k i) =
        matVec (schemeMatrix E) shift (M.all.nbCells * m) y (dataIndex soa M.all.nbCells m shift k i) := by
      unfold matVec
      rw [q1]
    rw [this, q2, hf.at hr.1 hr.2]
  -- the ghosts of the conditions
  have rowBc : ∀ l1 x l2 level p q, fieldEntries bcs = l1 ++ x :: l2 → Constrains n M.cells level x p q → (∀ z ∈ l2, ∀ p', ¬ Constrains n M.cells level z p' q) →
      ∀ i : Fin m, (matVec A shift (M.all.nbCells * m) y (dataIndex soa M.all.nbCells m shift (numOf n M.all level q) i) =
          rhs' (dataIndex soa M.all.nbCells m shift (numOf n M.all level q) i) ↔
        x.1.kind.Satisfied h0 level (fun j => val level (walk n p j x.2.1) i) 1 (x.1.value (fun _ => 0) ⟨fun _ => 0, 0, fun _ => 0, 0, 0⟩ (faceAt origin h0 level p x.2.1) i)) := by
    intro l1 x l2 level p q hl hc hlast i
    have hx : x ∈ fieldEntries bcs := by rw [hl]; simp
    obtain ⟨u1, c, u2, hev, hP, hlast'⟩ := exists_last (P := fun c : BcCall K n m => c.ghostNum = numOf n M.all level q) (ev x)
      ⟨bcCallOf n M.all x level p, (b2 x hx _).2 ⟨level, p, q, hc, rfl⟩, hgn _ _ _ _ hc⟩
    obtain ⟨level', p', q', hc', rfl⟩ := (b2 x hx c).1 (by rw [hev]; simp)
    obtain ⟨rfl, rfl, rfl⟩ := hsame x hx _ _ _ hc' x hx _ _ _ hc (by rw [hP, hgn _ _ _ _ hc])
    obtain ⟨eq, heq⟩ := Option.isSome_iff_exists.1 (implicit_iff (h0 := h0) (level := level') |>.2 hc.2.2.1)
    have hB : (fieldEntries bcs).flatMap ev = (l1.flatMap ev ++ u1) ++ bcCallOf n M.all x level' p' :: (u2 ++ l2.flatMap ev) := by
      rw [hl, List.flatMap_append, List.flatMap_cons, hev]
      simp
    obtain ⟨w1, w2⟩ := p3 _ _ _ hB (by
      intro c hc2
      rw [hP]
      rcases List.mem_append.1 hc2 with h | h
      · exact hlast' c h
      · obtain ⟨z, hz, h⟩ := List.mem_flatMap.1 h
        have hz' : z ∈ fieldEntries bcs := by rw [hl]; simp [hz]
        obtain ⟨level2, p2, q2, hc3, rfl⟩ := (b2 z hz' c).1 h
        intro h
        obtain ⟨h6, h7, -⟩ := hsame z hz' _ _ _ hc3 x hx _ _ _ hc (by rw [h, hgn _ _ _ _ hc])
        rw [h6, h7] at hc3
        exact hlast z hz p2 hc3) eq heq i
    obtain ⟨-, -, hmp, hmq⟩ := hout x hx _ _ _ hc
    have kp := hN _ _ _ (hnumb hmp)
    have kq := hN _ _ _ (hnumb hmq)
    rw [hgn _ _ _ _ hc, hcn] at w1
    rw [hgn _ _ _ _ hc] at w2
    have hne : dataIndex soa M.all.nbCells m shift (numOf n M.all level' p') i ≠ dataIndex soa M.all.nbCells m shift (numOf n M.all level' q') i := by
      intro h
      have := ((dataIndex_inj kp.1 kp.2 kq.1 kq.2).1 h).1
      have hb : bcCallOf n M.all x level' p' ∈ (fieldEntries bcs).flatMap ev := by rw [hB]; simp
      exact hOK.ne _ hb _ hb (by rw [hgn _ _ _ _ hc]; exact this)
    rw [matVec_two w1 hne (dataIndex_range kp.1 kp.2 i) (dataIndex_range kq.1 kq.2 i), w2, hy.at kp.1 kp.2, hy.at kq.1 kq.2, hu _ _ _ (hnumb hmp), hu _ _ _ (hnumb hmq),
      satisfied_implicit h2 heq]
    have hv : (bcCallOf n M.all x level' p').bc.implicitValue origin h0 (bcCallOf n M.all x level' p').dir (cellAt (bcCallOf n M.all x level' p').cells 0) i =
        x.1.value (fun _ => 0) ⟨fun _ => 0, 0, fun _ => 0, 0, 0⟩ (faceAt origin h0 level' p' x.2.1) i := by
      show x.1.value (fun _ => 0) ⟨fun _ => 0, 0, fun _ => 0, 0, 0⟩ (fun k => (userCell n origin h0 (mcell n M.all level' p')).faceCenter (fun d => x.2.1 d) k) i = _
      congr 1
      funext k
      show origin k + cellLength h0 level' * ((toPt (mcell n M.all level' p').pt k : K) + 1 / 2) + cellLength h0 level' / 2 * (x.2.1 k : K) = _
      have hpt : (mcell n M.all level' p').pt = p' := by
        obtain ⟨yz, z, rfl, _⟩ := exists_snoc (mem_length hmp.2)
        simp [MCell.pt, mcell]
      rw [hpt]
      unfold faceAt
      ring
    rw [hv, walk_zero]
    obtain ⟨-, -, -, -, -, hq⟩ := hc
    rw [hq]
  -- the other cells
  have rowElse : ∀ l q k, (l, q, k) ∈ M.all.numbered n → ¬ M.cells.Mem n l q → (∀ x ∈ fieldEntries bcs, ∀ p, ¬ Constrains n M.cells l x p q) → ∀ i : Fin m,
      (matVec A shift (M.all.nbCells * m) y (dataIndex soa M.all.nbCells m shift k i) = rhs' (dataIndex soa M.all.nbCells m shift k i) ↔ u k i = 0) := by
    intro l q k hk hq hno i
    have hr := hN _ _ _ hk
    obtain ⟨w1, w2⟩ := p4 k hr (by rw [hleafnum _ _ _ hk]; exact hq) (by
      intro c hc h
      obtain ⟨x, hx, level, p, q', hc', rfl⟩ := hcall c hc
      rw [hgn _ _ _ _ hc'] at h
      have h5 := hnumb (hout x hx _ _ _ hc').2.2.2
      rw [h] at h5
      obtain ⟨rfl, rfl⟩ := number_inj gE.distinct hk h5
      exact hno x hx p hc') i
    rw [matVec_one w1 (dataIndex_range hr.1 hr.2 i), w2, hy.at hr.1 hr.2, mul_eq_zero]
    exact or_iff_right hdiag
  constructor
  · intro hsol
    have hsol' : ∀ l q k, (l, q, k) ∈ M.all.numbered n → ∀ i : Fin m,
        matVec A shift (M.all.nbCells * m) y (dataIndex soa M.all.nbCells m shift k i) = rhs' (dataIndex soa M.all.nbCells m shift k i) := by
      intro l q k hk i
      have hr := hN _ _ _ hk
      exact hsol _ (dataIndex_range hr.1 hr.2 i).1 (dataIndex_range hr.1 hr.2 i).2
    refine ⟨fun l q k hk hq i => ?_, fun l1 x l2 level p q hl hc hlast i => ?_, fun l q k hk hq hno => ?_⟩
    · exact (rowLeaf l q k hk hq i).1 (hsol' l q k hk i)
    · have hx : x ∈ fieldEntries bcs := by rw [hl]; simp
      exact (rowBc l1 x l2 level p q hl hc hlast i).1 (hsol' _ _ _ (hnumb (hout x hx _ _ _ hc).2.2.2) i)
    · exact funext fun i => (rowElse l q k hk hq hno i).1 (hsol' l q k hk i)
  · rintro ⟨s1, s2, s3⟩ r hr0 hr1
    obtain ⟨k, i, hk, rfl⟩ := dataIndex_surj (soa := soa) hr0 hr1
    obtain ⟨l, q, hkn⟩ := hN' k hk.1 hk.2
    by_cases hq : M.cells.Mem n l q
    · exact (rowLeaf l q k hkn hq i).2 (s1 l q k hkn hq i)
    · by_cases hex : ∃ x ∈ fieldEntries bcs, ∃ p, Constrains n M.cells l x p q
      · obtain ⟨l1, x, l2, hl, ⟨p, hc⟩, hlast⟩ := exists_last _ hex
        have hx : x ∈ fieldEntries bcs := by rw [hl]; simp
        have : k = numOf n M.all l q := CA.number_unique gE.fv.refWF hkn (hnumb (hout x hx _ _ _ hc).2.2.2)
        rw [this]
        exact (rowBc l1 x l2 l p q hl hc (fun z hz p' h => hlast z hz ⟨p', h⟩) i).2 (s2 l1 x l2 l p q hl hc (fun z hz p' h => hlast z hz ⟨p', h⟩) i)
      · refine (rowElse l q k hkn hq (fun x hx p h => hex ⟨x, hx, p, h⟩) i).2 ?_
        rw [s3 l q k hkn hq (fun x hx p h => hex ⟨x, hx, p, h⟩)]
        rfl

end

end Samurai

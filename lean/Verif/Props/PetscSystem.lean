/-
C84: the linear system of an implicit scheme. The example is `cornerSystem`.
-/
import Verif.Props.PetscGhosts
import Verif.Lemmas.PetscSolve
import Verif.Props.Petsc
import Verif.Props.GhostExample

namespace Samurai

section
variable {K : Type} [Field K] {m : Nat}

/-- C84. The linear system of an implicit scheme, for every mesh of graded leaves of a box and every linear scheme with a stencil of two cells: a vector solves the system that
`assemble_matrix` and the preparation of the right-hand side build if and only if
1. the explicit scheme gives the right-hand side in the leaves, on the field whose eliminated ghosts have the values of the projection and of the prediction,
2. each ghost next to a leaf of a condition satisfies this condition — the last one, if several have it —, whose value is the one of the function at the centre of the
face,
3. the other cells have the value 0.
Missing: the function of a condition is called with a direction of zeros and without the cell (`C84_value_refuted`), so for functions of these the condition is not the one of the
explicit schemes; for constants and functions of the coordinates it is. -/
theorem C84_system_partial [DecidableEq K] (n : Nat) (hn : n ≤ 2) (cfg : MeshConfig) (cells : CA) (dom : LCA) (minL maxL margin base : Nat) (b : Box)
    (hd : GoodDomain n dom minL maxL margin) (hm : cfg.maxStencilWidth + cfg.predictionOrder + 3 ≤ margin) (g : GoodLeaves n cells dom minL maxL)
    (hw : 1 ≤ cfg.maxStencilWidth) (ho : cfg.predictionOrder ≤ 5) (hbox : BoxDomain n dom base b) (hdl : dom.level = maxL) (hbase : base ≤ minL)
    (h2 : (2 : K) ≠ 0) (origin : Fin (n + 1) → K) (h0 diag : K) (hdiag : diag ≠ 0) (ld : LinDef K (Fin m → K) (Fin m → K))
    (hS : ∀ d ≤ n, StencilOK n cfg.maxStencilWidth (unitDir d) (ld.stencil d)) (hS2 : ∀ d ≤ n, TwoPoint n (unitDir d) (ld.stencil d))
    (bcs : List (FieldBc K n m)) (hreg : ∀ x ∈ fieldEntries bcs, UnitVector n x.2.1 → OneAxis n x.2.1 → BdryRegion n dom x.2.1 x.2.2) (soa : Bool) (shift : Int) :
    ∃ M x sub rec A marked, mrMesh n cfg cells minL maxL = some (M, x) ∧ (∀ l q, M.cells.Mem n l q ↔ cells.Mem n l q) ∧ constructSubdomain n M.cells maxL = some sub ∧
      (∀ fuel, 2 * maxL < fuel → ghostRecursion n cfg.predictionOrder M.all M.ghosts M.cells fuel = some rec) ∧
      assembleMatrix n h0 diag ⟨soa, M.all.nbCells, m, m, shift, shift⟩ rec M.all sub M.cells maxL true ld.stencil (ld.flux h0) bcs = some (A, marked) ∧
      ∀ f rhs, IsVector soa M.all.nbCells m shift f rhs →
        ∃ rhs', prepareRhs n origin h0 ⟨soa, M.all.nbCells, m, m, shift, shift⟩ M.all M.ghosts M.cells bcs marked rhs = some rhs' ∧
        ∀ u val y, IsVector soa M.all.nbCells m shift u y → FieldIs n M.all u val →
          ((∀ r, shift ≤ r → r < shift + (M.all.nbCells * m : Nat) → matVec A shift (M.all.nbCells * m) y r = rhs' r) ↔
            (∀ u' val', (∀ l q k, (l, q, k) ∈ M.all.numbered n → ¬ ProjGhost n M.cells M.ghosts l q → ¬ PredGhost n M.cells M.ghosts l q → u' k = u k) → FieldIs n M.all u' val' →
              (∀ l q, ProjGhost n M.cells M.ghosts l q → MeanBelow (K := K) n val' l q) →
              (∀ l q, PredGhost n M.cells M.ghosts l q → TensorPredicted (K := K) n cfg.predictionOrder val' l q) →
              ∃ out, (∀ par, linApplyTo n h0 par u' M.all sub M.cells maxL true ld = some out) ∧
                ∀ l q k, (l, q, k) ∈ M.all.numbered n → M.cells.Mem n l q → out k = f k) ∧
            (∀ l1 x l2 level p q, fieldEntries bcs = l1 ++ x :: l2 → Constrains n M.cells level x p q → (∀ z ∈ l2, ∀ p', ¬ Constrains n M.cells level z p' q) →
              ∀ i, x.1.kind.Satisfied h0 level (fun j => val level (walk n p j x.2.1) i) 1
                (x.1.value (fun _ => 0) ⟨fun _ => 0, 0, fun _ => 0, 0, 0⟩ (faceAt origin h0 level p x.2.1) i)) ∧
            ∀ l q k, (l, q, k) ∈ M.all.numbered n → ¬ M.cells.Mem n l q → (∀ x ∈ fieldEntries bcs, ∀ p, ¬ Constrains n M.cells l x p q) → u k = 0) := by
  classical
  obtain ⟨M, x, sub, rec, E, e1, e2, e3, e4, e5, -, e7, e8⟩ := C83_matrix n cfg cells dom minL maxL margin hd hm g hw ho h0 ld hS soa true shift shift
  obtain ⟨M', x', h1, hinv, -⟩ := adaptInv_init' (cfg := cfg) hd (by omega) g
  rw [e1] at h1
  cases h1
  have gE := hinv.elim hd (by omega) hw
  obtain ⟨hN, hN', hleafnum⟩ := hinv.nums hd (by omega) hw
  obtain ⟨R, r1, r2⟩ := schemeMarks_spec gE.fv hinv.fvNumbers e3 ⟨soa, M.all.nbCells, m, m, shift, shift⟩ hS
  have hEr : ∀ e ∈ E, ∃ (k : Int) (i : Fin m), e.1 = dataIndex soa M.all.nbCells m shift k i ∧ LeafNum n M.cells k := by
    obtain ⟨y0, hy0⟩ := isVector_exists soa M.all.nbCells shift (fun _ (_ : Fin m) => (0 : K))
    obtain ⟨u', val', k1, k2, k3, k4⟩ := e8 fun _ _ => 0
    obtain ⟨y', hy'⟩ := isVector_exists soa M.all.nbCells shift u'
    obtain ⟨rec', q1, q2, q3, q4, q5⟩ := gE.elimination (K := K) ho
    have : rec' = rec := by
      have := (q1 _ (Nat.lt_succ_self _)).symm.trans (e4 _ (Nat.lt_succ_self _))
      exact Option.some.inj this
    subst this
    obtain ⟨E', _, j1, -, -, j3, -⟩ := assembleScheme_ok (L := ⟨soa, M.all.nbCells, m, m, shift, shift⟩) (rec := rec') rfl rfl gE.fv ⟨hinv.fvNumbers, hN⟩
      (fun e he t ht => by obtain ⟨l, q, w, -⟩ := q3 e he t ht; exact hN _ _ _ w) h0 u' hy' ((q5 _ u' val' k2).2 ⟨k3, k4⟩) ld.stencil (ld.flux h0) hS e3 true
    rw [e5] at j1
    cases j1
    exact j3
  obtain ⟨A, marked, a1, -, a2⟩ := hinv.system_iff hn hd (by omega) hw hbox hdl hbase h2 origin h0 diag hdiag bcs hreg soa shift hEr r2
  refine ⟨M, x, sub, rec, A, marked, e1, e2, e3, e4, by unfold assembleMatrix; rw [e5, r1]; exact a1, fun f rhs hf => ?_⟩
  obtain ⟨rhs', p1, -, p2⟩ := a2 f rhs hf
  refine ⟨rhs', p1, fun u val y hy hu => (p2 u val y hy hu).trans (and_congr_left fun _ => ⟨fun h u' val' k1 k2 k3 k4 => ?_, fun h l q k hk hq i => ?_⟩)⟩
  · obtain ⟨out, o1, o2⟩ := e7 (Or.inr hS2) u u' val' y hy k1 k2 k3 k4
    refine ⟨out, o1, fun l q k hk hq => funext fun i => ?_⟩
    have hr := hN _ _ _ hk
    rw [← o2.at hr.1 hr.2, h l q k hk hq i]
  · obtain ⟨u', val', k1, k2, k3, k4⟩ := e8 u
    obtain ⟨out, o1, o2⟩ := e7 (Or.inr hS2) u u' val' y hy k1 k2 k3 k4
    obtain ⟨out', o1', o2'⟩ := h u' val' k1 k2 k3 k4
    have : out' = out := Option.some.inj ((o1' true).symm.trans (o1 true))
    subst this
    have hr := hN _ _ _ hk
    rw [o2.at hr.1 hr.2, o2' l q k hk hq]

end

theorem inOut_two (n d : Nat) : TwoPoint n (unitDir d) (inOutStencil (unitDir d)) := by
  intro s hs
  simp only [inOutStencil, List.mem_cons, List.not_mem_nil, or_false] at hs
  rcases hs with rfl | rfl
  · exact .inl fun _ _ => rfl
  · exact .inr fun _ _ => rfl

/-- The system of the heat equation with two coupled components on the square with four leaves of level 2 in a corner and three leaves of level 1, `Dirichlet<1>` on the whole
boundary: in each solution the mean of the leaf (3, 2) of level 2 and of its ghost is the value that the function of the user gives for a direction of zeros, no cell and the
centre (1, 5/8) of the face. -/
theorem cornerSystem (soa : Bool) (v : (Nat → Int) → Cell Rat 2 → (Fin 2 → Rat) → Fin 2 → Rat) :
    ∃ M x R sub rec A marked, mrMesh 1 ⟨1, 1⟩ cornerMesh 1 2 = some (M, x) ∧ everywhereRegion 1 squareDomain = some R ∧ constructSubdomain 1 M.cells 2 = some sub ∧
      ghostRecursion 1 1 M.all M.ghosts M.cells 5 = some rec ∧
      assembleMatrix 1 (1 : Rat) 1 ⟨soa, M.all.nbCells, 2, 2, 0, 0⟩ rec M.all sub M.cells 2 true coupledFlux.stencil (coupledFlux.flux 1) [⟨.dirichlet 1, v, R⟩] = some (A, marked) ∧
      ∀ f rhs, IsVector soa M.all.nbCells 2 0 f rhs →
        ∃ rhs', prepareRhs 1 (fun _ => 0) 1 ⟨soa, M.all.nbCells, 2, 2, 0, 0⟩ M.all M.ghosts M.cells [⟨.dirichlet 1, v, R⟩] marked rhs = some rhs' ∧
        ∀ u val y, IsVector soa M.all.nbCells 2 0 u y → FieldIs 1 M.all u val →
          (∀ r, 0 ≤ r → r < (0 : Int) + (M.all.nbCells * 2 : Nat) → matVec A 0 (M.all.nbCells * 2) y r = rhs' r) →
          ∀ i, val 2 [2, 3] i + val 2 [2, 4] i = 2 * v (fun _ => 0) ⟨fun _ => 0, 0, fun _ => 0, 0, 0⟩ ![1, 5 / 8] i := by
  obtain ⟨_, R, r1, r2, r3⟩ := C72_directions 1 (by omega) squareDomain squareDomain_box.wf squareRange
  obtain ⟨M, x, sub, rec, A, marked, h1, h2, h3, h4, h5, h6⟩ := C84_system_partial (m := 2) 1 (by omega) ⟨1, 1⟩ cornerMesh squareDomain 1 2 5 0 _ (cornerDomain_good 5 (by omega))
    (by decide) cornerLeaves_good (by decide) (by decide) cornerDomain_box rfl (by omega) (by norm_num) (fun _ => 0) (1 : Rat) 1 (by norm_num) coupledFlux (fun d _ => inOut_ok 1 d)
    (fun d _ => inOut_two 1 d) [⟨.dirichlet 1, v, R⟩] (fun x hx _ hax => by
      simp only [fieldEntries, List.flatMap_cons, List.flatMap_nil, List.append_nil, List.mem_map] at hx
      obtain ⟨d, hd, rfl⟩ := hx
      exact (r2 d hd hax).1) soa 0
  refine ⟨M, x, R, sub, rec, A, marked, h1, r1, h3, h4 5 (by omega), h5, fun f rhs hf => ?_⟩
  obtain ⟨rhs', k1, k2⟩ := h6 f rhs hf
  refine ⟨rhs', k1, fun u val y hy hu hsol i => ?_⟩
  obtain ⟨-, s2, -⟩ := (k2 u val y hy hu).1 hsol
  have hex : ∃ z ∈ fieldEntries [(⟨.dirichlet 1, v, R⟩ : FieldBc Rat 1 2)], ∃ p, Constrains 1 M.cells 2 z p [2, 4] := by
    have hu : UnitVector 1 (unitDir 0) := ⟨fun d _ => by unfold unitDir; split_ifs <;> simp, 0, by omega, by decide⟩
    have ha : OneAxis 1 (unitDir 0) := ⟨0, by omega, by decide, fun k hk h => by unfold unitDir; rw [if_neg h]⟩
    obtain ⟨d, hd, hdv⟩ := r3 (unitDir 0) hu ha
    have hu' : UnitVector 1 d.1 := ⟨fun k hk => by rw [hdv k hk]; exact hu.1 k hk, 0, by omega, by rw [hdv 0 (by omega)]; decide⟩
    have ha' : OneAxis 1 d.1 := ⟨0, by omega, by rw [hdv 0 (by omega)]; decide, fun k hk h => by rw [hdv k hk]; unfold unitDir; rw [if_neg h]⟩
    obtain ⟨-, hm⟩ := r2 d hd ha'
    refine ⟨(⟨.dirichlet 1, v, R⟩, d), by simp [fieldEntries, hd], [2, 3], hu', ha', rfl, (h2 _ _).2 ((cornerMesh_mem _ _).2 (.inr ⟨rfl, 2, 3, by omega, by omega, by omega, by omega, rfl⟩)),
      ⟨[2, 3], (hm _).2 ⟨?_, ?_⟩, ?_⟩, ?_⟩
    · exact (squareDomain_box.mem _).2 (by show InBox (squareBox.refined 0) 1 _; simp [InBox, Box.refined, squareBox])
    · rw [shift_congr _ _ hdv]
      intro h
      exact absurd ((squareDomain_box.mem _).1 h) (by show ¬ InBox (squareBox.refined 0) 1 _; simp [InBox, Box.refined, squareBox, shiftPoint, unitDir])
    · rw [(r2 d hd ha').1.level]
      exact anc_zero.2 rfl
    · unfold walk
      rw [shift_congr (t := unitDir 0) _ _ fun k hk => by rw [hdv k hk, one_mul]]
      rfl
  obtain ⟨l1, z, l2, hl, ⟨p, hc⟩, hlast⟩ := exists_last _ hex
  have := s2 l1 z l2 2 p [2, 4] hl hc (fun w hw p' h => hlast w hw ⟨p', h⟩) i
  obtain ⟨c1, c2, c3, c4, c5, c6⟩ := hc
  obtain ⟨rfl, hz⟩ : p = [2, 3] ∧ ∀ k ≤ 1, z.2.1 k = unitDir 0 k := by
    rcases (cornerMesh_mem _ _).1 ((h2 _ _).1 c4) with ⟨h, -⟩ | ⟨-, a, b, a1, a2, b1, b2, rfl⟩
    · omega
    · simp only [walk, shiftPoint, List.cons.injEq, one_mul, Nat.sub_self, and_true] at c6
      have hv0 := c1.1 0 (by omega)
      have hv1 := c1.1 1 (by omega)
      obtain ⟨d, d1, d2, d3⟩ := c2
      have e0 : z.2.1 0 = 1 := by omega
      have e1 : z.2.1 1 = 0 := by
        rcases (by omega : d = 0 ∨ d = 1) with rfl | rfl
        · exact d3 1 le_rfl (by omega)
        · have := d3 0 (by omega) (by omega); omega
      refine ⟨?_, fun k hk => ?_⟩
      · simp only [List.cons.injEq, and_true]; omega
      · rcases (by omega : k = 0 ∨ k = 1) with rfl | rfl
        · exact e0
        · exact e1
  have hz1 : z.1 = ⟨.dirichlet 1, v, R⟩ := by
    have : z ∈ fieldEntries [(⟨.dirichlet 1, v, R⟩ : FieldBc Rat 1 2)] := by rw [hl]; simp
    simp only [fieldEntries, List.flatMap_cons, List.flatMap_nil, List.append_nil, List.mem_map] at this
    obtain ⟨d, hd, rfl⟩ := this
    rfl
  rw [hz1, satisfied_implicit (by norm_num) (eq := (fun c => [1 / 2, 0, 1 / 2].getD c 0, 1)) rfl] at this
  rw [show walk 1 [2, 3] 0 z.2.1 = [2, 3] from walk_zero _ _ _, ← c6] at this
  have hface : faceAt (n := 1) (fun _ => (0 : Rat)) 1 2 [2, 3] z.2.1 = ![1, 5 / 8] := by
    funext k
    fin_cases k
    · simp only [faceAt, hz 0 (by omega)]
      norm_num [cellLength, toPt, unitDir]
    · simp only [faceAt, hz 1 (by omega)]
      norm_num [cellLength, toPt, unitDir]
  rw [hface] at this
  simp at this
  linarith

/-- The implicit schemes call the function of a boundary condition with a direction of zeros and without the cell. With `Dirichlet<1>` and the value `direction[0]`, in no
solution of the system the ghost of the leaf (3, 2) of level 2 satisfies the condition that the explicit schemes impose: the value 1 on the face in the direction (1, 0). -/
theorem C84_value_refuted (soa : Bool) : ∃ (v : (Nat → Int) → Cell Rat 2 → (Fin 2 → Rat) → Fin 2 → Rat) (M : SubMeshes) (x : CA) (R : List ((Nat → Int) × LCA)) (sub : LCA)
    (rec : GhostMap Rat) (A : Int → Int → Rat) (marked : List Int), mrMesh 1 ⟨1, 1⟩ cornerMesh 1 2 = some (M, x) ∧ everywhereRegion 1 squareDomain = some R ∧
      constructSubdomain 1 M.cells 2 = some sub ∧ ghostRecursion 1 1 M.all M.ghosts M.cells 5 = some rec ∧
      assembleMatrix 1 (1 : Rat) 1 ⟨soa, M.all.nbCells, 2, 2, 0, 0⟩ rec M.all sub M.cells 2 true coupledFlux.stencil (coupledFlux.flux 1) [⟨.dirichlet 1, v, R⟩] = some (A, marked) ∧
      ∀ f rhs, IsVector soa M.all.nbCells 2 0 f rhs →
        ∃ rhs', prepareRhs 1 (fun _ => 0) 1 ⟨soa, M.all.nbCells, 2, 2, 0, 0⟩ M.all M.ghosts M.cells [⟨.dirichlet 1, v, R⟩] marked rhs = some rhs' ∧
        ∀ u val y, IsVector soa M.all.nbCells 2 0 u y → FieldIs 1 M.all u val →
          (∀ r, 0 ≤ r → r < (0 : Int) + (M.all.nbCells * 2 : Nat) → matVec A 0 (M.all.nbCells * 2) y r = rhs' r) →
          ∀ i, ¬ (BcKind.dirichlet 1).Satisfied 1 2 (fun j => val 2 (walk 1 [2, 3] j (unitDir 0)) i) 1
            (FieldBc.explicitValue (fun _ => 0) 1 ⟨.dirichlet 1, v, R⟩ (unitDir 0) (mcell 1 M.all 2 [2, 3]) i) := by
  obtain ⟨M, x, R, sub, rec, A, marked, h1, h2, h3, h4, h5, h6⟩ := cornerSystem soa fun dir _ _ _ => dir 0
  refine ⟨_, M, x, R, sub, rec, A, marked, h1, h2, h3, h4, h5, fun f rhs hf => ?_⟩
  obtain ⟨rhs', k1, k2⟩ := h6 f rhs hf
  refine ⟨rhs', k1, fun u val y hy hu hsol i h => ?_⟩
  have h7 := k2 u val y hy hu hsol i
  rw [satisfied_implicit (by norm_num) (eq := (fun c => [1 / 2, 0, 1 / 2].getD c 0, 1)) rfl, walk_zero,
    show walk 1 [2, 3] 1 (unitDir 0) = [2, 4] by decide] at h
  simp [FieldBc.explicitValue, unitDir] at h h7
  linarith

end Samurai

/-
C85: the solutions of an implicit scheme and the explicit scheme.
-/
import Verif.Props.PetscSystem
import Verif.Props.PetscExample

namespace Samurai

section
variable {K : Type} [Field K] {m : Nat}

theorem explicit_entries {n : Nat} (origin : Fin (n + 1) → K) (h0 : K) (bcs : List (FieldBc K n m)) (j : Fin m) :
    bcEntries (explicitConds origin h0 bcs j) = (fieldEntries bcs).map fun x => (⟨x.1.kind, fun dir c => x.1.explicitValue origin h0 dir c j, x.1.region⟩, x.2) := by
  unfold bcEntries explicitConds fieldEntries
  rw [List.flatMap_map, List.map_flatMap]
  refine congrArg (fun f => List.flatMap f bcs) (funext fun b => ?_)
  rw [List.map_map]
  rfl

theorem BcKind.Implicit.ghosts {k : BcKind} (h : k.Implicit) : k.ghosts = 1 := by
  cases k with
  | dirichlet o => cases h; rfl
  | neumann => rfl

theorem BcKind.Implicit.exists {k : BcKind} (h : k.Implicit) : k.Exists := by
  cases k with
  | dirichlet o => cases h; exact ⟨le_rfl, by omega⟩
  | neumann => trivial

/-- C85, dimension 1. On a mesh of graded leaves of an interval, with the default configuration, conditions `Dirichlet<1>` and `Neumann<1>` on the whole boundary, given by
constants or functions of the coordinates: the values of a field in the leaves are those of a solution of the linear system if and only if the explicit scheme, after
`update_ghost_mr` with the same conditions, gives the right-hand side in the leaves. -/
theorem C85_dim1_partial [CharZero K] [DecidableEq K] (cfg : MeshConfig) (hs : cfg.predictionOrder = 1) (hw : cfg.maxStencilWidth = 1) (cells : CA) (dom : LCA)
    (minL maxL base : Nat) (b : Box) (g : GoodLeaves 0 cells dom minL maxL)
    (hgd : GoodDomain 0 dom minL maxL (cfg.maxStencilWidth + cfg.predictionOrder + 3)) (hne : minL ≠ maxL) (hd : BoxDomain 0 dom base b)
    (hdl : dom.level = maxL) (hbase : base ≤ minL - 3)
    (hB : ∃ B : Int, 0 ≤ B ∧ B + 11 * 2 ^ dom.level + 2 < INT_MAX ∧ ∀ d ≤ 0, b.hi d * 2 ^ (dom.level - base) ≤ B)
    (origin : Fin 1 → K) (h0 diag : K) (hdiag : diag ≠ 0) (bcs : List (FieldBc K 0 m)) (hkind : ∀ c ∈ bcs, c.kind.Implicit) (hcoords : ∀ c ∈ bcs, c.OfCoords)
    (hreg : ∀ x ∈ fieldEntries bcs, UnitVector 0 x.2.1 → OneAxis 0 x.2.1 → BdryRegion 0 dom x.2.1 x.2.2) (hcov : FieldCovers dom bcs)
    (ld : LinDef K (Fin m → K) (Fin m → K)) (hS : ∀ d ≤ 0, StencilOK 0 cfg.maxStencilWidth (unitDir d) (ld.stencil d))
    (hS2 : ∀ d ≤ 0, TwoPoint 0 (unitDir d) (ld.stencil d)) (soa : Bool) (shift : Int) :
    ∃ M x S sub rec A marked, mrMesh 0 cfg cells minL maxL = some (M, x) ∧ constructSubdomain 0 cells maxL = some S ∧ constructSubdomain 0 M.cells maxL = some sub ∧
      (∀ fuel, 2 * maxL < fuel → ghostRecursion 0 cfg.predictionOrder M.all M.ghosts M.cells fuel = some rec) ∧
      assembleMatrix 0 h0 diag ⟨soa, M.all.nbCells, m, m, shift, shift⟩ rec M.all sub M.cells maxL true ld.stencil (ld.flux h0) bcs = some (A, marked) ∧
      ∀ f rhs, IsVector soa M.all.nbCells m shift f rhs →
        ∃ rhs', prepareRhs 0 origin h0 ⟨soa, M.all.nbCells, m, m, shift, shift⟩ M.all M.ghosts M.cells bcs marked rhs = some rhs' ∧
        ∀ u : Int → Fin m → K, ∃ w out,
          (∀ j, updateGhostMr 0 ⟨⟨M.cells, M.all, dom, minL, maxL, fun _ => false, h0, cfg⟩, M.proj, S⟩ (explicitConds origin h0 bcs j) (fun k => u k j) = some fun k => w k j) ∧
          (∀ par, linApplyTo 0 h0 par w M.all sub M.cells maxL true ld = some out) ∧
          ((∃ u2 y, IsVector soa M.all.nbCells m shift u2 y ∧ (∀ l q k, cells.Mem 0 l q → (l, q, k) ∈ M.all.numbered 0 → u2 k = u k) ∧
              ∀ r, shift ≤ r → r < shift + (M.all.nbCells * m : Nat) → matVec A shift (M.all.nbCells * m) y r = rhs' r) ↔
            ∀ l q k, cells.Mem 0 l q → (l, q, k) ∈ M.all.numbered 0 → out k = f k) := by
  classical
  have h2 : (2 : K) ≠ 0 := two_ne_zero
  obtain ⟨M, x, sub, rec, A, marked, e1, e2, e3, e4, e5, e6⟩ := C84_system_partial 0 (by omega) cfg cells dom minL maxL _ base b hgd le_rfl g (by omega) (by omega) hd hdl (by omega) h2
    origin h0 diag hdiag ld hS hS2 bcs hreg soa shift
  obtain ⟨M', x', sub', rec', E, j1, j2, j3, j4, j5, j6, j7, j8⟩ := C83_matrix 0 cfg cells dom minL maxL _ hgd le_rfl g (by omega) (by omega) h0 ld hS soa true shift shift
  rw [e1] at j1
  cases j1
  rw [e3] at j3
  cases j3
  obtain ⟨M', x', h1, hinv, -⟩ := adaptInv_init' (cfg := cfg) hgd (by omega) g
  rw [e1] at h1
  cases h1
  have gE := hinv.elim hgd (by omega) (by omega)
  rw [hw] at gE
  obtain ⟨S, s1, -⟩ := constructSubdomain_spec (maxL := maxL) g.wf g.between
  refine ⟨M, x, S, sub, rec, A, marked, e1, s1, e3, e4, e5, fun f rhs hf => ?_⟩
  obtain ⟨rhs', p1, p2⟩ := e6 f rhs hf
  refine ⟨rhs', p1, fun u => ?_⟩
  have hkz : ∀ z ∈ fieldEntries bcs, z.1 ∈ bcs ∧ z.2 ∈ z.1.region := by
    intro z hz
    obtain ⟨c, hc, hz⟩ := List.mem_flatMap.1 hz
    obtain ⟨d, hd, rfl⟩ := List.mem_map.1 hz
    exact ⟨hc, hd⟩
  obtain ⟨w, val, w1, w2, w3, w4, w5, -, w7⟩ := updated_dim1 cfg hs hw cells dom minL maxL base b g hgd hne hd hdl hbase hB h0 (explicitConds origin h0 bcs) (fun j c hc => by
    obtain ⟨c', hc', rfl⟩ := List.mem_map.1 hc
    refine ⟨(hkind c' hc').exists, by rw [(hkind c' hc').ghosts]; omega, fun d hd hu ha => hreg (c', d) ?_ hu ha⟩
    exact List.mem_flatMap.2 ⟨c', hc', List.mem_map.2 ⟨d, hd, rfl⟩⟩) e1 e2 s1 u
  obtain ⟨y0, hy0⟩ := isVector_exists soa M.all.nbCells shift w
  obtain ⟨out, o1, -⟩ := j6 w val y0 hy0 w2 w4 w5
  refine ⟨w, out, w1, o1, ?_⟩
  have hnumbers : (M.all.numbered 0).map (fun e => e.2.2) = (List.range M.all.nbCells).map fun (k : Nat) => (k : Int) := by
    obtain ⟨c0, hc⟩ := hinv.mesh
    exact hc.numbers
  have hN : ∀ l q k, (l, q, k) ∈ M.all.numbered 0 → 0 ≤ k ∧ k < M.all.nbCells := by
    intro l q k hk
    have : k ∈ (M.all.numbered 0).map fun e => e.2.2 := List.mem_map.2 ⟨_, hk, rfl⟩
    rw [hnumbers, List.mem_map] at this
    obtain ⟨i, hi, rfl⟩ := this
    rw [List.mem_range] at hi
    constructor <;> omega
  -- the cells next to the boundary
  have hcons : ∀ l q, M.ghosts.Mem 0 l q → M.cells.Mem 0 l q ∨ ProjGhost 0 M.cells M.ghosts l q ∨ PredGhost 0 M.cells M.ghosts l q ∨
      ∃ l1 z l2 p, fieldEntries bcs = l1 ++ z :: l2 ∧ Constrains 0 M.cells l z p q ∧ ∀ z' ∈ l2, ∀ p', ¬ Constrains 0 M.cells l z' p' q := by
    intro l q hq
    rcases gE.seg_cases hdl hq with h | h | h | ⟨p, mm, v, k1, k2, k3, k4, k5, k6, k7⟩
    · exact .inl h
    · exact .inr (.inl h)
    · exact .inr (.inr (.inl h))
    · refine .inr (.inr (.inr ?_))
      obtain ⟨z, hz, hzv, hzm⟩ := hcov mm v k5 k2 k3 k7
      have hv0 := hzv 0 le_rfl
      have hz1 : UnitVector 0 z.2.1 := ⟨fun k hk => by rw [hzv k hk]; exact k2.1 k hk, by
        obtain ⟨d, hd, h⟩ := k2.2
        exact ⟨d, hd, by rw [hzv d hd]; exact h⟩⟩
      have hz2 : OneAxis 0 z.2.1 := by
        obtain ⟨d, hd, h, h'⟩ := k3
        exact ⟨d, hd, by rw [hzv d hd]; exact h, fun k hk hkd => by rw [hzv k hk]; exact h' k hk hkd⟩
      have hex : ∃ z ∈ fieldEntries bcs, ∃ p, Constrains 0 M.cells l z p q := by
        refine ⟨z, hz, p, hz1, hz2, hkind _ (hkz z hz).1, k1, ⟨mm, hzm, ?_⟩, ?_⟩
        · rw [(hreg z hz hz1 hz2).level, hdl]
          exact k6
        · rw [k4]
          unfold walk
          exact shift_congr _ _ fun k hk => by rw [hzv k hk]
      obtain ⟨l1, z', l2, hl, ⟨p', hc⟩, hlast⟩ := exists_last _ hex
      exact ⟨l1, z', l2, p', hl, hc, fun z'' hz'' p'' h => hlast z'' hz'' ⟨p'', h⟩⟩
  -- the conditions of the explicit update
  have hbc : ∀ l1 z l2 level p q, fieldEntries bcs = l1 ++ z :: l2 → Constrains 0 M.cells level z p q → (∀ z' ∈ l2, ∀ p', ¬ Constrains 0 M.cells level z' p' q) →
      ∀ i, z.1.kind.Satisfied h0 level (fun j => val level (walk 0 p j z.2.1) i) 1 (z.1.value (fun _ => 0) ⟨fun _ => 0, 0, fun _ => 0, 0, 0⟩ (faceAt origin h0 level p z.2.1) i) := by
    intro l1 z l2 level p q hl hc hlast i
    have hz : z ∈ fieldEntries bcs := by rw [hl]; simp
    obtain ⟨c1, c2, c3, c4, c5, c6⟩ := hc
    have hb := gE.fv.leaves.between _ _ c4
    have hpm : M.all.Mem 0 level p := gE.fv.ghosts level p p c4 (near_refl _ _)
    have hbox := hd.finer (level := level) (by omega) (by omega)
    have hbd := w7 i level p hpm
    have := hbd.imposed (l1.map fun x => (⟨x.1.kind, fun dir c => x.1.explicitValue origin h0 dir c i, x.1.region⟩, x.2)) _ z.2 (l2.map fun x => (⟨x.1.kind, fun dir c => x.1.explicitValue origin h0 dir c i, x.1.region⟩, x.2))
      (by rw [explicit_entries, hl, List.map_append, List.map_cons]) p 1 (mcell 0 M.all level p)
      ⟨c1, c2, fun _ _ _ => rfl, c5, .inl c4, le_rfl, by show 1 ≤ z.1.kind.ghosts; rw [c3.ghosts]⟩ (mcell_is gE.fv.refWF hpm)
      (by
        show WideFor 0 _ z.1.kind.ghosts z.2.1
        rw [c3.ghosts]
        intro d hd' _
        have := hbox.pos d hd'
        push_cast
        omega)
      (by
        intro y' hy' himp
        obtain ⟨z', hz', rfl⟩ := List.mem_map.1 hy'
        obtain ⟨p', i', ⟨a1, a2, -, a4, -, a6, a7⟩, a8⟩ := himp
        have hz'' : z' ∈ fieldEntries bcs := by rw [hl]; simp [hz']
        have hk' := hkind _ (hkz z' hz'').1
        have : z'.1.kind.ghosts = 1 := hk'.ghosts
        have hi : i' = 1 := by
          have a7' : i' ≤ z'.1.kind.ghosts := a7
          omega
        subst hi
        have ow := (hreg z hz c1 c2).outward hbox c1 c2 c5
        have ow' := (hreg z' hz'' a1 a2).outward hbox a1 a2 a4
        have hpp := (ow.unique ow' le_rfl le_rfl a8).2.2
        subst hpp
        exact hlast z' hz' p ⟨a1, a2, hk', c4, a4, c6.trans a8⟩)
    have hv : z.1.explicitValue origin h0 z.2.1 (mcell 0 M.all level p) i = z.1.value (fun _ => 0) ⟨fun _ => 0, 0, fun _ => 0, 0, 0⟩ (faceAt origin h0 level p z.2.1) i := by
      unfold FieldBc.explicitValue
      rw [hcoords _ (hkz z hz).1 _ (fun _ => 0) _ ⟨fun _ => 0, 0, fun _ => 0, 0, 0⟩]
      congr 1
      funext k
      show origin k + cellLength h0 level * ((toPt (mcell 0 M.all level p).pt k : K) + 1 / 2) + cellLength h0 level / 2 * (z.2.1 k : K) = _
      rw [(mcell_is gE.fv.refWF hpm).2.1]
      unfold faceAt
      ring
    rw [← hv]
    exact this
  -- a field with the same values in the leaves and in the ghosts of the conditions
  have merge : ∀ u2 : Int → Fin m → K, (∀ l q k, M.cells.Mem 0 l q → (l, q, k) ∈ M.all.numbered 0 → u2 k = w k) →
      (∀ l1 z l2 l p q k, fieldEntries bcs = l1 ++ z :: l2 → Constrains 0 M.cells l z p q → (∀ z' ∈ l2, ∀ p', ¬ Constrains 0 M.cells l z' p' q) → (l, q, k) ∈ M.all.numbered 0 →
        u2 k = w k) →
      ∃ u' val', (∀ l q k, (l, q, k) ∈ M.all.numbered 0 → ¬ ProjGhost 0 M.cells M.ghosts l q → ¬ PredGhost 0 M.cells M.ghosts l q → u' k = u2 k) ∧ FieldIs 0 M.all u' val' ∧
        (∀ l q, ProjGhost 0 M.cells M.ghosts l q → MeanBelow (K := K) 0 val' l q) ∧
        (∀ l q, PredGhost 0 M.cells M.ghosts l q → TensorPredicted (K := K) 0 cfg.predictionOrder val' l q) ∧ ∀ par, linApplyTo 0 h0 par u' M.all sub M.cells maxL true ld = some out := by
    intro u2 hleaf hcond
    obtain ⟨val2, v2⟩ := field_values gE.fv.refWF u2
    have hD : ∀ l q k, (l, q, k) ∈ M.all.numbered 0 → ((∃ l' q', (l', q', k) ∈ M.all.numbered 0 ∧ M.ghosts.Mem 0 l' q') ↔ M.ghosts.Mem 0 l q) := by
      intro l q k hk
      constructor
      · rintro ⟨l', q', h1, h2⟩
        obtain ⟨rfl, rfl⟩ := number_inj gE.distinct hk h1
        exact h2
      · exact fun h => ⟨l, q, hk, h⟩
    refine ⟨fun k => if ∃ l' q', (l', q', k) ∈ M.all.numbered 0 ∧ M.ghosts.Mem 0 l' q' then w k else u2 k, fun l q => if M.ghosts.Mem 0 l q then val l q else val2 l q, ?_, ?_, ?_, ?_, ?_⟩
    · intro l q k hk hP hQ
      simp only [hD l q k hk]
      split_ifs with hG
      · rcases hcons l q hG with h | h | h | ⟨l1, z, l2, p, k1, k2, k3⟩
        · exact (hleaf l q k h hk).symm
        · exact absurd h hP
        · exact absurd h hQ
        · exact (hcond l1 z l2 l p q k k1 k2 k3 hk).symm
      · rfl
    · intro l q k hk
      simp only [hD l q k hk]
      split_ifs
      · exact w2 l q k hk
      · exact v2 l q k hk
    · intro l q hq
      have := w4 l q hq
      unfold MeanBelow at this ⊢
      simp only [if_pos hq.1]
      rw [this]
      congr 1
      refine congrArg List.sum (List.map_congr_left fun c hc => ?_)
      rw [if_pos (gE.child_proj hq (anc_one.2 (mem_childrenOf.1 hc).symm)).1]
    · intro l q hq
      have := w5 l q hq
      obtain ⟨x, rfl⟩ : ∃ x, q = [x] := by
        have := mem_length hq.2.1.2
        match q, this with
        | [x], _ => exact ⟨x, rfl⟩
      rw [hs, tensor_dim1] at this ⊢
      obtain ⟨-, q2, c, q3, q4⟩ := hq
      obtain ⟨_, hx, rfl⟩ : ∃ y, [x] = [y] ∧ c = [y / 2] := by
        have := mem_length q3.2
        match c, this with
        | [c], _ =>
          obtain ⟨y, h1, h2⟩ := anc_seg.1 q4
          exact ⟨y, h1, by rw [h2, pow_one]⟩
      cases hx
      have hg : ∀ s : Int, -1 ≤ s → s ≤ 1 → M.ghosts.Mem 0 (l - 1) [x / 2 + s] := fun s s1 s2 =>
        gE.near_cag q3 (.cons (by constructor <;> push_cast <;> omega) .nil)
      have g0 := hg 0 (by omega) (by omega)
      have gm := hg (-1) (by omega) (by omega)
      have gp := hg 1 (by omega) (by omega)
      rw [add_zero] at g0
      rw [← sub_eq_add_neg] at gm
      rw [if_pos q2, if_pos g0, if_pos gm, if_pos gp]
      exact this
    · intro par
      obtain ⟨o, -, k2, -⟩ := C65_linear_scheme 0 M.cells M.all dom sub minL maxL 1 h0 ld
        (fun k => if ∃ l' q', (l', q', k) ∈ M.all.numbered 0 ∧ M.ghosts.Mem 0 l' q' then w k else u2 k) true gE.fv hinv.fvNumbers e3 (by rw [hw] at hS; exact hS)
      rw [k2 par]
      congr 1
      refine gE.fv.linear_local hinv.fvNumbers e3 (by rw [hw] at hS; exact hS) hS2 ?_ (k2 par) (o1 par)
      rintro l q k hk ⟨p, hp, hn⟩
      simp only [hD l q k hk]
      rw [if_pos (gE.near_cag hp hn)]
  have hleafw : ∀ l q k, M.cells.Mem 0 l q → (l, q, k) ∈ M.all.numbered 0 → w k = u k := fun l q k h hk => w3 l q k ((e2 l q).1 h) hk
  have hin : ∀ l q, M.cells.Mem 0 l q → M.all.Mem 0 l q := fun l q h => gE.fv.ghosts l q q h (near_refl _ _)
  have heq : ∀ (k : BcKind) (level : Nat), k.Implicit → ∃ eq, bcEquation h0 level k = some eq := by
    intro k level hk
    cases k with
    | dirichlet o => cases hk; exact ⟨_, rfl⟩
    | neumann => exact ⟨_, rfl⟩
  constructor
  · rintro ⟨u2, y, hy, hu2, hsol⟩ l q k hlq hk
    obtain ⟨val2, v2⟩ := field_values gE.fv.refWF u2
    obtain ⟨s1, s2, -⟩ := (p2 u2 val2 y hy v2).1 hsol
    have hl : ∀ l q k, M.cells.Mem 0 l q → (l, q, k) ∈ M.all.numbered 0 → u2 k = w k := fun l q k h hk => by
      rw [hleafw l q k h hk, hu2 l q k ((e2 l q).1 h) hk]
    obtain ⟨u', val', m1, m2, m3, m4, m5⟩ := merge u2 hl (by
      intro l1 z l2 l p q k h1 h2' h3 hk
      have a := s2 l1 z l2 l p q h1 h2' h3
      have b := hbc l1 z l2 l p q h1 h2' h3
      obtain ⟨eq, he⟩ := heq z.1.kind l h2'.2.2.1
      obtain ⟨-, -, c2⟩ := bcEquation_coeffs h2 he
      have hp := numOf_numbered gE.fv.refWF (hin l p h2'.2.2.2.1)
      have hpp : val2 l p = val l p := by
        rw [← v2 l p _ hp, ← w2 l p _ hp]
        exact hl l p _ h2'.2.2.2.1 hp
      rw [v2 l q k hk, w2 l q k hk]
      funext i
      have a := a i
      have b := b i
      rw [satisfied_implicit h2 he, walk_zero, ← h2'.2.2.2.2.2] at a b
      rw [hpp, ← b] at a
      exact mul_left_cancel₀ c2 (add_left_cancel a))
    obtain ⟨out', t1, t2⟩ := s1 u' val' m1 m2 m3 m4
    have := (t1 true).symm.trans (m5 true)
    cases this
    exact t2 l q k hk ((e2 l q).2 hlq)
  · intro hout
    let keep : Nat → List Int → Prop := fun l q => M.cells.Mem 0 l q ∨ ∃ x ∈ fieldEntries bcs, ∃ p, Constrains 0 M.cells l x p q
    let u2 : Int → Fin m → K := fun k => if ∃ l q, (l, q, k) ∈ M.all.numbered 0 ∧ keep l q then w k else 0
    have hK : ∀ l q k, (l, q, k) ∈ M.all.numbered 0 → u2 k = if keep l q then w k else 0 := by
      intro l q k hk
      have : (∃ l' q', (l', q', k) ∈ M.all.numbered 0 ∧ keep l' q') ↔ keep l q := by
        constructor
        · rintro ⟨l', q', h1, h2⟩
          obtain ⟨rfl, rfl⟩ := number_inj gE.distinct hk h1
          exact h2
        · exact fun h => ⟨l, q, hk, h⟩
      show (if _ then _ else _) = _
      simp only [this]
    obtain ⟨y, hy⟩ := isVector_exists soa M.all.nbCells shift u2
    obtain ⟨val2, v2⟩ := field_values gE.fv.refWF u2
    have hl : ∀ l q k, M.cells.Mem 0 l q → (l, q, k) ∈ M.all.numbered 0 → u2 k = w k := fun l q k h hk => by rw [hK l q k hk, if_pos (.inl h)]
    have hc : ∀ l1 z l2 l p q k, fieldEntries bcs = l1 ++ z :: l2 → Constrains 0 M.cells l z p q → (∀ z' ∈ l2, ∀ p', ¬ Constrains 0 M.cells l z' p' q) →
        (l, q, k) ∈ M.all.numbered 0 → u2 k = w k := fun l1 z l2 l p q k h1 h2 _ hk => by
      rw [hK l q k hk, if_pos (.inr ⟨z, by rw [h1]; simp, p, h2⟩)]
    refine ⟨u2, y, hy, fun l q k h hk => by rw [hl l q k ((e2 l q).2 h) hk, hleafw l q k ((e2 l q).2 h) hk], ?_⟩
    rw [p2 u2 val2 y hy v2]
    obtain ⟨u0, val0, m1, m2, m3, m4, m5⟩ := merge u2 hl hc
    obtain ⟨out0, n1, n2⟩ := j7 (.inr hS2) u2 u0 val0 y hy m1 m2 m3 m4
    have := (n1 true).symm.trans (m5 true)
    cases this
    refine ⟨fun u' val' a1 a2 a3 a4 => ?_, ?_, ?_⟩
    · obtain ⟨out', b1, b2⟩ := j7 (.inr hS2) u2 u' val' y hy a1 a2 a3 a4
      refine ⟨out', b1, fun l q k hk hlq => ?_⟩
      rw [← hout l q k ((e2 l q).1 hlq) hk]
      funext i
      obtain ⟨k0, k1⟩ := hN l q k hk
      rw [← b2 k k0 k1 i, ← n2 k k0 k1 i]
    · intro l1 z l2 level p q h1 h2' h3 i
      have a := hbc l1 z l2 level p q h1 h2' h3 i
      obtain ⟨eq, he⟩ := heq z.1.kind level h2'.2.2.1
      have hp := numOf_numbered gE.fv.refWF (hin level p h2'.2.2.2.1)
      have hqm : M.all.Mem 0 level q := by
        have hn : Near 1 q p := by
          rw [h2'.2.2.2.2.2]
          unfold walk
          refine near_shift _ _ fun k hk => ?_
          rcases h2'.1.1 k hk with h | h | h <;> rw [h] <;> norm_num
        exact gE.fv.ghosts level q p h2'.2.2.2.1 hn
      have hq := numOf_numbered gE.fv.refWF hqm
      rw [satisfied_implicit h2 he, walk_zero, ← h2'.2.2.2.2.2] at a ⊢
      rw [← v2 level p _ hp, ← v2 level q _ hq, hl level p _ h2'.2.2.2.1 hp, hc l1 z l2 level p q _ h1 h2' h3 hq, w2 level p _ hp, w2 level q _ hq]
      exact a
    · intro l q k hk hnl hnc
      rw [hK l q k hk, if_neg]
      rintro (h | ⟨x, hx, p, h⟩)
      · exact hnl h
      · exact hnc x hx p h

end

/-- The theorem on a segment with leaves of two levels, a Dirichlet condition on the whole boundary, a flux that mixes the two components. -/
example (soa : Bool) (v : (Fin 1 → Rat) → Fin 2 → Rat) : ∃ M x S R sub rec A marked, mrMesh 0 ⟨1, 1⟩ segMesh 1 2 = some (M, x) ∧ constructSubdomain 0 segMesh 2 = some S ∧
    everywhereRegion 0 segDomain = some R ∧ constructSubdomain 0 M.cells 2 = some sub ∧ ghostRecursion 0 1 M.all M.ghosts M.cells 5 = some rec ∧
    assembleMatrix 0 (1 : Rat) 1 ⟨soa, M.all.nbCells, 2, 2, 0, 0⟩ rec M.all sub M.cells 2 true coupledFlux.stencil (coupledFlux.flux 1) [⟨.dirichlet 1, fun _ _ => v, R⟩] =
      some (A, marked) ∧
    ∀ f rhs, IsVector soa M.all.nbCells 2 0 f rhs →
      ∃ rhs', prepareRhs 0 (fun _ => 0) 1 ⟨soa, M.all.nbCells, 2, 2, 0, 0⟩ M.all M.ghosts M.cells [⟨.dirichlet 1, fun _ _ => v, R⟩] marked rhs = some rhs' ∧
      ∀ u : Int → Fin 2 → Rat, ∃ w out,
        (∀ j, updateGhostMr 0 ⟨⟨M.cells, M.all, segDomain, 1, 2, fun _ => false, 1, ⟨1, 1⟩⟩, M.proj, S⟩ (explicitConds (fun _ => 0) 1 [⟨.dirichlet 1, fun _ _ => v, R⟩] j)
          (fun k => u k j) = some fun k => w k j) ∧
        linApplyTo 0 1 true w M.all sub M.cells 2 true coupledFlux = some out ∧
        ((∃ u2 y, IsVector soa M.all.nbCells 2 0 u2 y ∧ (∀ l q k, segMesh.Mem 0 l q → (l, q, k) ∈ M.all.numbered 0 → u2 k = u k) ∧
            ∀ r, 0 ≤ r → r < (0 : Int) + (M.all.nbCells * 2 : Nat) → matVec A 0 (M.all.nbCells * 2) y r = rhs' r) ↔
          ∀ l q k, segMesh.Mem 0 l q → (l, q, k) ∈ M.all.numbered 0 → out k = f k) := by
  obtain ⟨_, R, r1, r2, r3⟩ := C72_directions 0 (by omega) segDomain segDomain_box.wf segRange
  have ent : ∀ x, x ∈ fieldEntries [(⟨.dirichlet 1, fun _ _ => v, R⟩ : FieldBc Rat 0 2)] ↔ ∃ d ∈ R, x = (⟨.dirichlet 1, fun _ _ => v, R⟩, d) := by
    intro x
    simp only [fieldEntries, List.flatMap_cons, List.flatMap_nil, List.append_nil, List.mem_map]
    constructor <;> rintro ⟨d, hd, rfl⟩ <;> exact ⟨d, hd, rfl⟩
  obtain ⟨M, x, S, sub, rec, A, marked, h1, h2, h3, h4, h5, h6⟩ := C85_dim1_partial (m := 2) ⟨1, 1⟩ rfl rfl segMesh segDomain 1 2 0 _ segLeaves_good (segDomain_good 5 (by omega))
    (by omega) segDomain_box rfl (by omega) ⟨4, by omega, by decide, fun _ _ => by show (1 : Int) * 2 ^ 2 ≤ 4; decide⟩ (fun _ => 0) (1 : Rat) 1 (by norm_num)
    [⟨.dirichlet 1, fun _ _ => v, R⟩] (by simp [BcKind.Implicit]) (by simp [FieldBc.OfCoords])
    (fun x hx _ hax => by obtain ⟨d, hd, rfl⟩ := (ent x).1 hx; exact (r2 d hd hax).1)
    (fun q w hq hw hax hn => by
      obtain ⟨d, hd, hdw⟩ := r3 w hw hax
      refine ⟨_, (ent _).2 ⟨d, hd, rfl⟩, hdw, ?_⟩
      have ha' : OneAxis 0 d.1 := by
        obtain ⟨k, hk, h, h'⟩ := hax
        exact ⟨k, hk, by rw [hdw k hk]; exact h, fun j hj hjk => by rw [hdw j hj]; exact h' j hj hjk⟩
      refine ((r2 d hd ha').2 q).2 ⟨hq, ?_⟩
      rw [shift_congr _ _ hdw]
      exact hn)
    coupledFlux (fun d _ => inOut_ok 0 d) (fun d _ => inOut_two 0 d) soa 0
  refine ⟨M, x, S, R, sub, rec, A, marked, h1, h2, r1, h3, h4 5 (by omega), h5, fun f rhs hf => ?_⟩
  obtain ⟨rhs', k1, k2⟩ := h6 f rhs hf
  refine ⟨rhs', k1, fun u => ?_⟩
  obtain ⟨w, out, w1, w2, w3⟩ := k2 u
  exact ⟨w, out, w1, w2 true, w3⟩

end Samurai

/-
C37, C39, C64: the explicit flux-based schemes.
-/
import Verif.Lemmas.FluxSum

namespace Samurai

variable {K V : Type} [Field K] [AddCommGroup V] [Module K V]

/-! ### the hypotheses -/

/-- The numbers of a multiresolution mesh. -/
theorem AdaptInv.fvNumbers {n : Nat} {cfg : MeshConfig} {dom : LCA} {minL maxL : Nat} {m : SubMeshes} {u : CA}
    (h : AdaptInv n cfg dom minL maxL m u) : FVNumbers n m.cells m.all := by
  obtain ⟨c0, h⟩ := h.mesh
  obtain ⟨w1, _, _, w4⟩ := h.wf
  refine ⟨?_, fun l p v hv => ?_⟩
  · rw [h.numbers]
    refine (List.nodup_map_iff ?_).2 List.nodup_range
    intro a b hab
    simpa using hab
  · obtain ⟨yz, i, x, h1, h2, rfl, rfl⟩ := CA.mem_numbered.1 hv
    obtain ⟨h3, h4⟩ := CA.mem_rows.1 h1
    have hm : m.cells.Mem n l (yz ++ [x]) := CA.mem_of_numbered w1 hv
    have hidx := h.index m.cells (by simp) l yz x hm
    have hg : getIndex (m.cells.lca l) n yz x = some (i.index + x) := num_get (w1 l h3) ⟨i, h4, h2, rfl⟩
    have hma : m.all.Mem n l (yz ++ [x]) := by
      obtain ⟨m0, c1, c2, _, _, c5⟩ := h.content
      exact (c5 l _).2 (c1.cells_all ((c2 l _).1 hm))
    obtain ⟨v, g1, g2⟩ := num_of_mem (w4 l hma.1) hma.2
    rw [← hidx, hg] at g1
    obtain rfl := Option.some.inj g1
    exact num_numbered hma.1 g2

theorem FVMesh.subdomain {n : Nat} {cells ref : CA} {dom : LCA} {minL maxL w : Nat} (g : FVMesh n cells ref dom minL maxL w) :
    ∃ sub, constructSubdomain n cells maxL = some sub := by
  obtain ⟨S, h, -⟩ := C56_subdomain n cells minL maxL g.leaves.wf g.leaves.between
  exact ⟨S, h⟩

/-- The fluxes of the advection equation with the upwind scheme, velocity `a d` in the direction `d`: the value of the left cell. -/
def upwindFlux (a : Nat → Rat) (u : Int → Rat) : FluxDef Rat where
  stencil := fun d => inOutStencil (unitDir d)
  flux := fun d => asConservative fun c => match c with | x :: _ => a d * u x.index | [] => 0

/-- The hypotheses of C64, C37 and C39 are met: the multiresolution mesh on the leaves of Props/Mesh.lean (two dimensions, two levels), the upwind scheme. -/
theorem exampleFlux (a : Nat → Rat) (u : Int → Rat) : ∃ m x sub, mrMesh 1 ⟨2, 1⟩ exampleMesh 1 2 = some (m, x) ∧ FVMesh 1 m.cells m.all exampleDomain 1 2 2 ∧
    FVNumbers 1 m.cells m.all ∧ constructSubdomain 1 m.cells 2 = some sub ∧
    (∀ d ≤ 1, StencilOK 1 2 (unitDir d) ((upwindFlux a u).stencil d)) ∧
    ∀ d c, ((upwindFlux a u).flux d c).2 = - ((upwindFlux a u).flux d c).1 := by
  obtain ⟨m, x, h1, h2, -⟩ := adaptInv_init' (cfg := ⟨2, 1⟩) (exampleDomain_good (2 + 1 + 4) (by omega)) (by decide) exampleLeaves_good
  have hf := h2.fv (exampleDomain_good (2 + 1 + 4) (by omega)) (by decide)
  obtain ⟨sub, hs⟩ := hf.subdomain
  refine ⟨m, x, sub, h1, hf, h2.fvNumbers, hs, fun d _ => ?_, fun _ _ => rfl⟩
  obtain ⟨o1, o2, o3⟩ := inOut_ok 1 d
  refine ⟨o1, o2, fun s hs k hk => ?_⟩
  have := o3 s hs k hk
  simp only [Nat.cast_one, Nat.cast_ofNat] at this ⊢
  omega

/-! ### C64 -/

/-- C64. Applying a flux-based scheme to a field, on a mesh of graded leaves that tile the domain: it succeeds (no cell of a stencil is missing);
on each leaf the output is the inverse of the volume times the sum, over the directions, of the fluxes through the interfaces of the leaf —
each interface with another leaf once, with the measure of the finer side, the flux being computed on the right cells at the finer level —
and, when the boundary is included, of the fluxes through the interfaces with the outside of the domain; the other cells stay at 0. -/
theorem C64_apply_scheme (n : Nat) (cells ref : CA) (dom sub : LCA) (minL maxL w : Nat) (h0 : K) (fd : FluxDef V) (bdry : Bool)
    (g : FVMesh n cells ref dom minL maxL w) (hnum : FVNumbers n cells ref) (hsub : constructSubdomain n cells maxL = some sub)
    (hS : ∀ d ≤ n, StencilOK n w (unitDir d) (fd.stencil d)) :
    ∃ fs bs bs' out, SchemeCalls n ref cells dom maxL fd.stencil fs bs bs' ∧ applyTo n h0 ref sub cells maxL bdry fd = some out ∧
      (∀ l p v, (l, p, v) ∈ cells.numbered n → out v = ((cellLength h0 l) ^ (n + 1))⁻¹ •
        ((List.range (n + 1)).map fun d => dirShare n h0 (fd.flux d) bdry (fs d) (bs d) (bs' d) (l, p)).sum) ∧
      ∀ i, (∀ l p, (l, p, i) ∉ cells.numbered n) → out i = 0 := by
  obtain ⟨rs, fs, bs, bs', h1, h2⟩ := g.schemeRegions hnum h0 fd hS hsub bdry
  have hval : ∀ i, ((List.range (n + 1)).flatMap rs).foldl Region.run (fun _ => (0 : V)) i =
      ((List.range (n + 1)).map fun d => updSum (regionUpds (rs d)) i).sum := by
    intro i
    rw [foldl_run, foldl_addTo, zero_add, updSum_regions]
  refine ⟨fs, bs, bs', ((List.range (n + 1)).flatMap rs).foldl Region.run fun _ => 0, fun d hd => ⟨(h2 d hd).interior, (h2 d hd).pos, (h2 d hd).neg⟩,
    by unfold applyTo; rw [h1]; rfl, fun l p v hv => ?_, fun i hi => ?_⟩
  · rw [hval, ← sum_map_smul]
    exact sum_map_congr fun d hd => (h2 d (by rw [List.mem_range] at hd; omega)).value g.refWF hnum hv
  · rw [hval]
    refine (sum_map_congr (g := fun _ => 0) fun d hd => ?_).trans (sum_map_zero' _)
    exact (h2 d (by rw [List.mem_range] at hd; omega)).leaves g.leaves.wf g.refWF hnum hi

/-- The calls of C64 are determined up to their order. -/
theorem SchemeCalls.unique {n : Nat} {ref cells : CA} {dom : LCA} {maxL : Nat} {S : Nat → List (Nat → Int)} {fs fs' : Nat → List FaceCall}
    {bs bs' cs cs' : Nat → List BdryCall} (h : SchemeCalls n ref cells dom maxL S fs bs bs') (h' : SchemeCalls n ref cells dom maxL S fs' cs cs')
    {d : Nat} (hd : d ≤ n) : ((fs d).map FaceCall.ends).Perm ((fs' d).map FaceCall.ends) ∧
      ((bs d).map fun f => f.cell.id).Perm ((cs d).map fun f => f.cell.id) ∧ ((bs' d).map fun f => f.cell.id).Perm ((cs' d).map fun f => f.cell.id) := by
  obtain ⟨a1, a2, a3⟩ := h d hd
  obtain ⟨b1, b2, b3⟩ := h' d hd
  exact ⟨(List.perm_ext_iff_of_nodup a1.nodup b1.nodup).2 fun e => (a1.mem e.1 e.2).trans (b1.mem e.1 e.2).symm,
    (List.perm_ext_iff_of_nodup a2.nodup b2.nodup).2 fun e => (a2.mem e.1 e.2).trans (b2.mem e.1 e.2).symm,
    (List.perm_ext_iff_of_nodup a3.nodup b3.nodup).2 fun e => (a3.mem e.1 e.2).trans (b3.mem e.1 e.2).symm⟩

/-! ### C37 -/

/-- C37. A conservative flux-based scheme (the flux in the negative direction is the opposite of the flux in the positive direction) on a mesh of
graded leaves, for every flux function, every stencil and every field: the sum over the leaves of volume times output is the sum of the fluxes through
the boundary of the domain; it is 0 without boundary. -/
theorem C37_conservation (n : Nat) (cells ref : CA) (dom sub : LCA) (minL maxL w : Nat) (h0 : K) (fd : FluxDef V) (bdry : Bool)
    (g : FVMesh n cells ref dom minL maxL w) (hnum : FVNumbers n cells ref) (hsub : constructSubdomain n cells maxL = some sub)
    (hS : ∀ d ≤ n, StencilOK n w (unitDir d) (fd.stencil d)) (hcons : ∀ d c, (fd.flux d c).2 = - (fd.flux d c).1) (hh : h0 ≠ 0) (h2 : (2 : K) ≠ 0) :
    ∃ fs bs bs' out, SchemeCalls n ref cells dom maxL fd.stencil fs bs bs' ∧ applyTo n h0 ref sub cells maxL bdry fd = some out ∧
      fluxIntegral n h0 cells out = if bdry then ((List.range (n + 1)).map fun d =>
        ((bs d).map (bdryShare n h0 fun c => (fd.flux d c).1)).sum - ((bs' d).map (bdryShare n h0 fun c => (fd.flux d c).1)).sum).sum else 0 := by
  obtain ⟨fs, bs, bs', out, k1, k2, k3, -⟩ := C64_apply_scheme n cells ref dom sub minL maxL w h0 fd bdry g hnum hsub hS
  refine ⟨fs, bs, bs', out, k1, k2, ?_⟩
  have hv : ∀ l : Nat, (cellLength h0 l) ^ (n + 1) ≠ 0 := fun l => pow_ne_zero _ (div_ne_zero hh (pow_ne_zero _ h2))
  have e1 : fluxIntegral n h0 cells out = ((cells.numbered n).map fun e =>
      ((List.range (n + 1)).map fun d => dirShare n h0 (fd.flux d) bdry (fs d) (bs d) (bs' d) (e.1, e.2.1)).sum).sum := by
    unfold fluxIntegral
    refine sum_map_congr fun e he => ?_
    rw [k3 e.1 e.2.1 e.2.2 he, smul_smul, mul_inv_cancel₀ (hv _), one_smul]
  rw [e1, sum_map_comm]
  have e2 : ∀ d ∈ List.range (n + 1), ((cells.numbered n).map fun e => dirShare n h0 (fd.flux d) bdry (fs d) (bs d) (bs' d) (e.1, e.2.1)).sum =
      if bdry then ((bs d).map (bdryShare n h0 fun c => (fd.flux d c).1)).sum - ((bs' d).map (bdryShare n h0 fun c => (fd.flux d c).1)).sum else 0 := by
    intro d hd
    obtain ⟨a1, a2, a3⟩ := k1 d (by rw [List.mem_range] at hd; omega)
    unfold dirShare
    rw [sum_map_add', sum_map_comm]
    have e3 : ((fs d).map fun f => ((cells.numbered n).map fun e => faceShare n h0 (fd.flux d) (e.1, e.2.1) f).sum).sum = 0 := by
      refine (sum_map_congr (g := fun _ => (0 : V)) fun f hf => ?_).trans (sum_map_zero' _)
      have hm := (a1.mem f.left.id f.right.id).1 (List.mem_map.2 ⟨f, hf, rfl⟩)
      rw [face_sum g.leaves.wf h0 _ hm.1 hm.2.1, hcons, add_neg_cancel, smul_zero]
    rw [e3, zero_add]
    cases bdry with
    | false => simp only [Bool.false_eq_true, if_false, sum_map_zero']
    | true =>
      simp only [if_true]
      have hn : - ((bs' d).map (bdryShare n h0 fun c => (fd.flux d c).1)).sum = ((bs' d).map fun f => bdryShare n h0 (fun c => (fd.flux d c).2) f).sum := by
        rw [← neg_one_smul K, ← sum_map_smul]
        refine sum_map_congr fun f _ => ?_
        unfold bdryShare
        simp only [hcons, neg_one_smul, smul_neg]
      rw [sum_map_add', sum_map_comm, sum_map_comm (cells.numbered n) (bs' d), sub_eq_add_neg, hn]
      congr 1
      · refine sum_map_congr fun f hf => leaf_pick g.leaves.wf ?_ _
        exact ((a2.mem f.cell.level f.cell.pt).1 (List.mem_map.2 ⟨f, hf, rfl⟩)).1
      · refine sum_map_congr fun f hf => leaf_pick g.leaves.wf ?_ _
        exact ((a3.mem f.cell.level f.cell.pt).1 (List.mem_map.2 ⟨f, hf, rfl⟩)).1
  rw [sum_map_congr e2]
  cases bdry with
  | false => simp only [Bool.false_eq_true, if_false, sum_map_zero']
  | true => simp only [if_true]

example (a : Nat → Rat) (u : Int → Rat) : ∃ m x sub out, mrMesh 1 ⟨2, 1⟩ exampleMesh 1 2 = some (m, x) ∧
    applyTo 1 (1 : Rat) m.all sub m.cells 2 false (upwindFlux a u) = some out ∧ fluxIntegral 1 (1 : Rat) m.cells out = 0 := by
  obtain ⟨m, x, sub, h1, h2, h3, h4, h5, h6⟩ := exampleFlux a u
  obtain ⟨_, _, _, out, -, k1, k2⟩ := C37_conservation 1 m.cells m.all exampleDomain sub 1 2 2 (1 : Rat) (upwindFlux a u) false h2 h3 h4 h5 h6
    (by norm_num) (by norm_num)
  exact ⟨m, x, sub, out, h1, k1, by simpa using k2⟩

/-- C37 for a time step `u - dt * scheme(u)`, without boundary: the integral of the solution does not change. -/
theorem C37_time_step (n : Nat) (cells ref : CA) (dom sub : LCA) (minL maxL w : Nat) (h0 dt : K) (fd : FluxDef V) (u : Int → V)
    (g : FVMesh n cells ref dom minL maxL w) (hnum : FVNumbers n cells ref) (hsub : constructSubdomain n cells maxL = some sub)
    (hS : ∀ d ≤ n, StencilOK n w (unitDir d) (fd.stencil d)) (hcons : ∀ d c, (fd.flux d c).2 = - (fd.flux d c).1) (hh : h0 ≠ 0) (h2 : (2 : K) ≠ 0) :
    ∃ out, applyTo n h0 ref sub cells maxL false fd = some out ∧
      fluxIntegral n h0 cells (fun i => u i - dt • out i) = fluxIntegral n h0 cells u := by
  obtain ⟨_, _, _, out, -, k1, k2⟩ := C37_conservation n cells ref dom sub minL maxL w h0 fd false g hnum hsub hS hcons hh h2
  refine ⟨out, k1, ?_⟩
  have : fluxIntegral n h0 cells (fun i => u i - dt • out i) = fluxIntegral n h0 cells u + (- dt) • fluxIntegral n h0 cells out := by
    unfold fluxIntegral
    rw [← sum_map_smul, ← sum_map_add']
    refine sum_map_congr fun e _ => ?_
    rw [smul_sub, neg_smul, sub_eq_add_neg, smul_comm]
  rw [this, k2]
  simp

/-- C37 on the meshes of the library: after any history of adaptations of a multiresolution mesh. -/
theorem C37_adapted_meshes [CharZero K] (n : Nat) (hn : n ≤ 2) (cfg : MeshConfig) (minL maxL : Nat) (dom : LCA) (cells : CA)
    (calls : List (AdaptCall K)) (h0 : K) (hh : h0 ≠ 0) (fd : FluxDef V)
    (hd : GoodDomain n dom minL maxL (cfg.maxStencilWidth + cfg.predictionOrder + 4)) (hmin : 1 ≤ minL) (hmm : minL ≤ maxL)
    (g : GoodLeaves n cells dom minL maxL) (hS : ∀ d ≤ n, StencilOK n cfg.maxStencilWidth (unitDir d) (fd.stencil d))
    (hcons : ∀ d c, (fd.flux d c).2 = - (fd.flux d c).1) :
    ∃ m u m' u' sub out, mrMesh n cfg cells minL maxL = some (m, u) ∧ runAdapt n cfg 1 minL maxL dom calls m u = some (m', u') ∧
      constructSubdomain n m'.cells maxL = some sub ∧ applyTo n h0 m'.all sub m'.cells maxL false fd = some out ∧
      fluxIntegral n h0 m'.cells out = 0 := by
  obtain ⟨m, u, h1, h2⟩ := adaptInv_init (cfg := cfg) hd (by omega) g
  obtain ⟨m', u', k1, k2⟩ := runAdapt_inv hn hd hmin hmm calls m u h2
  have hf := k2.fv hd (by omega)
  obtain ⟨sub, hs⟩ := hf.subdomain
  obtain ⟨_, _, _, out, -, j1, j2⟩ := C37_conservation n m'.cells m'.all dom sub minL maxL cfg.maxStencilWidth h0 fd false hf k2.fvNumbers hs hS hcons hh
    two_ne_zero
  exact ⟨m, u, m', u', sub, out, h1, k1, hs, j1, by simpa using j2⟩

/-! ### C39 -/

/-- C39. Every parallel execution of a flux-based scheme gives the output of the sequential execution: the tasks (one per interval) of a loop run in
any interleaving, the `omp atomic` updates of the interior interfaces in one step, the unprotected updates of the boundary interfaces as
a load and a store. A parallel execution exists. -/
theorem C39_schedule (n : Nat) (cells ref : CA) (dom sub : LCA) (minL maxL w : Nat) (h0 : K) (fd : FluxDef V) (bdry : Bool)
    (g : FVMesh n cells ref dom minL maxL w) (hnum : FVNumbers n cells ref) (hsub : constructSubdomain n cells maxL = some sub)
    (hS : ∀ d ≤ n, StencilOK n w (unitDir d) (fd.stencil d)) :
    ∃ rs out, schemeRegions n h0 ref sub cells maxL bdry fd = some rs ∧ applyTo n h0 ref sub cells maxL bdry fd = some out ∧
      ∀ out', ParRun rs (fun _ => 0) out' ↔ out' = out := by
  obtain ⟨rs, fs, bs, bs', h1, h2⟩ := g.schemeRegions hnum h0 fd hS hsub bdry
  refine ⟨_, _, h1, by unfold applyTo; rw [h1]; rfl, fun out' => ⟨fun h => par_run h fun r hr => ?_, fun h => h ▸ par_exists _ _⟩⟩
  obtain ⟨d, hd, hr⟩ := List.mem_flatMap.1 hr
  exact fun ha => apart_of_nodup _ ((h2 d (by rw [List.mem_range] at hd; omega)).race r hr ha)

example (a : Nat → Rat) (u : Int → Rat) : ∃ m x sub rs out, mrMesh 1 ⟨2, 1⟩ exampleMesh 1 2 = some (m, x) ∧
    schemeRegions 1 (1 : Rat) m.all sub m.cells 2 true (upwindFlux a u) = some rs ∧ ∀ out', ParRun rs (fun _ => 0) out' ↔ out' = out := by
  obtain ⟨m, x, sub, h1, h2, h3, h4, h5, h6⟩ := exampleFlux a u
  obtain ⟨rs, out, k1, -, k2⟩ := C39_schedule 1 m.cells m.all exampleDomain sub 1 2 2 (1 : Rat) (upwindFlux a u) true h2 h3 h4 h5
  exact ⟨m, x, sub, rs, out, h1, k1, k2⟩

/-- The executions of an unprotected loop whose tasks share a cell do depend on the schedule: an update is lost. (C39 is not a consequence of the way
executions are modelled.) -/
theorem C39_lost_update : ∃ m, PRun false (⟨fun _ => 0, [⟨none, [(0, 1)]⟩, ⟨none, [(0, 1)]⟩]⟩ : PState Rat) m ∧
    m ≠ Region.run (fun _ => 0) ⟨false, [[(0, 1)], [(0, 1)]]⟩ := by
  refine ⟨_, .step _ _ _ (.load (fun _ => 0) [] [⟨none, [(0, 1)]⟩] (0, 1) [] rfl)
    (.step _ _ _ (.load (fun _ => 0) [⟨some 0, [(0, 1)]⟩] [] (0, 1) [] rfl)
    (.step _ _ _ (.store (fun _ => 0) [] [⟨some 0, [(0, 1)]⟩] (0, 1) [] 0 rfl)
    (.step _ _ _ (.store _ [⟨none, []⟩] [] (0, 1) [] 0 rfl) (.done _ (by simp))))), fun h => ?_⟩
  have := congrFun h 0
  norm_num [Region.run, addTo] at this

end Samurai

/-
C65: the linear homogeneous flux-based schemes.
-/
import Verif.Props.Flux
import Verif.Lemmas.LinScheme
import Verif.Lemmas.LinUnique

namespace Samurai

variable {K U V : Type} [Field K] [AddCommGroup U] [Module K U] [AddCommGroup V] [Module K V]

/-- The fluxes of the heat equation: `(u_1 - u_0) / h`. -/
def diffusionFlux : LinDef Rat Rat Rat where
  stencil := fun d => inOutStencil (unitDir d)
  coeffs := fun _ h => [(-1 / h) • LinearMap.id, (1 / h) • LinearMap.id]

/-- The hypotheses of C65 are met. -/
theorem exampleLinFlux : ∃ m x sub, mrMesh 1 ⟨2, 1⟩ exampleMesh 1 2 = some (m, x) ∧ FVMesh 1 m.cells m.all exampleDomain 1 2 2 ∧
    FVNumbers 1 m.cells m.all ∧ constructSubdomain 1 m.cells 2 = some sub ∧ ∀ d ≤ 1, StencilOK 1 2 (unitDir d) (diffusionFlux.stencil d) := by
  obtain ⟨m, x, sub, h1, h2, h3, h4, h5, -⟩ := exampleFlux (fun _ => 1) (fun _ => 0)
  exact ⟨m, x, sub, h1, h2, h3, h4, h5⟩

/-- C65. On a mesh of graded leaves, for every linear scheme (coefficients that depend on the length of the cells, any stencil, any number of components)
and every field: the implementation by intervals succeeds (no assertion on the size of the intervals fails) and gives the output of the scheme with the
flux function `Σ_c A_c(h) u_c`, one interface after the other; so does the variant for several threads, in sequence and in every parallel execution. -/
theorem C65_linear_scheme (n : Nat) (cells ref : CA) (dom sub : LCA) (minL maxL w : Nat) (h0 : K) (ld : LinDef K U V) (u : Int → U) (bdry : Bool)
    (g : FVMesh n cells ref dom minL maxL w) (hnum : FVNumbers n cells ref) (hsub : constructSubdomain n cells maxL = some sub)
    (hS : ∀ d ≤ n, StencilOK n w (unitDir d) (ld.stencil d)) :
    ∃ out, applyTo n h0 ref sub cells maxL bdry (linFlux h0 u ld) = some out ∧
      (∀ par, linApplyTo n h0 par u ref sub cells maxL bdry ld = some out) ∧
      ∃ rs, linSchemeRegions n h0 true u ref sub cells maxL bdry ld = some rs ∧ ∀ out', ParRun rs (fun _ => 0) out' ↔ out' = out := by
  obtain ⟨rs, fs, bs, bs', h1, h2⟩ := g.schemeRegions hnum h0 (linFlux h0 u ld) hS hsub bdry
  refine ⟨_, by unfold applyTo; rw [h1]; rfl, fun par => ?_, ?_⟩
  · obtain ⟨rs', k1, k2⟩ := g.linScheme_sim par u h0 ld bdry h1
    unfold linApplyTo
    rw [k1, Option.map_some, regionSim_run k2]
  · obtain ⟨rs', k1, k2⟩ := g.linScheme_sim true u h0 ld bdry h1
    refine ⟨rs', k1, fun out' => ?_⟩
    show _ ↔ out' = (List.flatMap rs _).foldl Region.run _
    rw [← regionSim_run k2]
    refine ⟨fun h => par_run h (regionSim_apart k2 fun r hr ha => ?_), fun h => h ▸ par_exists _ _⟩
    obtain ⟨d, hd, hr⟩ := List.mem_flatMap.1 hr
    exact apart_of_nodup _ ((h2 d (by rw [List.mem_range] at hd; omega)).race r hr ha)

example (u : Int → Rat) : ∃ m x sub rs out, mrMesh 1 ⟨2, 1⟩ exampleMesh 1 2 = some (m, x) ∧
    linApplyTo 1 (1 : Rat) false u m.all sub m.cells 2 true diffusionFlux = some out ∧
    linSchemeRegions 1 (1 : Rat) true u m.all sub m.cells 2 true diffusionFlux = some rs ∧ ∀ out', ParRun rs (fun _ => 0) out' ↔ out' = out := by
  obtain ⟨m, x, sub, h1, h2, h3, h4, h5⟩ := exampleLinFlux
  obtain ⟨out, -, k1, rs, k2, k3⟩ := C65_linear_scheme 1 m.cells m.all exampleDomain sub 1 2 2 (1 : Rat) diffusionFlux u true h2 h3 h4 h5
  exact ⟨m, x, sub, rs, out, h1, k1 false, k2, k3⟩

/-- C65. A linear homogeneous scheme is conservative. -/
theorem C65_conservation (n : Nat) (cells ref : CA) (dom sub : LCA) (minL maxL w : Nat) (h0 : K) (ld : LinDef K U V) (u : Int → U) (par : Bool)
    (g : FVMesh n cells ref dom minL maxL w) (hnum : FVNumbers n cells ref) (hsub : constructSubdomain n cells maxL = some sub)
    (hS : ∀ d ≤ n, StencilOK n w (unitDir d) (ld.stencil d)) (hh : h0 ≠ 0) (h2 : (2 : K) ≠ 0) :
    ∃ out, linApplyTo n h0 par u ref sub cells maxL false ld = some out ∧ fluxIntegral n h0 cells out = 0 := by
  obtain ⟨out, k1, k2, -⟩ := C65_linear_scheme n cells ref dom sub minL maxL w h0 ld u false g hnum hsub hS
  obtain ⟨_, _, _, out', -, j1, j2⟩ := C37_conservation n cells ref dom sub minL maxL w h0 (linFlux h0 u ld) false g hnum hsub hS (fun _ _ => rfl) hh h2
  rw [k1] at j1
  cases j1
  exact ⟨out, k2 par, by simpa using j2⟩

example (u : Int → Rat) : ∃ m x sub out, mrMesh 1 ⟨2, 1⟩ exampleMesh 1 2 = some (m, x) ∧
    linApplyTo 1 (1 : Rat) true u m.all sub m.cells 2 false diffusionFlux = some out ∧ fluxIntegral 1 (1 : Rat) m.cells out = 0 := by
  obtain ⟨m, x, sub, h1, h2, h3, h4, h5⟩ := exampleLinFlux
  obtain ⟨out, k1, k2⟩ := C65_conservation 1 m.cells m.all exampleDomain sub 1 2 2 (1 : Rat) diffusionFlux u true h2 h3 h4 h5 (by norm_num) (by norm_num)
  exact ⟨m, x, sub, out, h1, k1, k2⟩

/-- C65. The output of a linear homogeneous scheme depends linearly on the field. -/
theorem C65_linearity (n : Nat) (cells ref : CA) (dom sub : LCA) (minL maxL w : Nat) (h0 : K) (ld : LinDef K U V) (bdry par : Bool)
    (g : FVMesh n cells ref dom minL maxL w) (hnum : FVNumbers n cells ref) (hsub : constructSubdomain n cells maxL = some sub)
    (hS : ∀ d ≤ n, StencilOK n w (unitDir d) (ld.stencil d)) (u v : Int → U) (s : K) :
    ∃ a b, linApplyTo n h0 par u ref sub cells maxL bdry ld = some a ∧ linApplyTo n h0 par v ref sub cells maxL bdry ld = some b ∧
      linApplyTo n h0 par (fun i => u i + s • v i) ref sub cells maxL bdry ld = some fun i => a i + s • b i := by
  have run : ∀ u : Int → U, ∃ fs bs bs' out, linApplyTo n h0 par u ref sub cells maxL bdry ld = some out ∧ SchemeCalls n ref cells dom maxL ld.stencil fs bs bs' ∧
      (∀ l p v, (l, p, v) ∈ cells.numbered n → out v = ((cellLength h0 l) ^ (n + 1))⁻¹ •
        ((List.range (n + 1)).map fun d => dirShare n h0 ((linFlux h0 u ld).flux d) bdry (fs d) (bs d) (bs' d) (l, p)).sum) ∧
      ∀ i, (∀ l p, (l, p, i) ∉ cells.numbered n) → out i = 0 := by
    intro u
    obtain ⟨out, k1, k2, -⟩ := C65_linear_scheme n cells ref dom sub minL maxL w h0 ld u bdry g hnum hsub hS
    obtain ⟨fs, bs, bs', out', j1, j2, j3, j4⟩ := C64_apply_scheme n cells ref dom sub minL maxL w h0 (linFlux h0 u ld) bdry g hnum hsub hS
    rw [k1] at j2
    cases j2
    exact ⟨fs, bs, bs', out, k2 par, j1, j3, j4⟩
  obtain ⟨fa, ba, ba', a, a1, a2, a3, a4⟩ := run u
  obtain ⟨fb, bb, bb', b, b1, b2, b3, b4⟩ := run v
  obtain ⟨fc, bc, bc', c, c1, c2, c3, c4⟩ := run fun i => u i + s • v i
  refine ⟨a, b, a1, b1, ?_⟩
  rw [c1]
  congr 1
  funext i
  by_cases hi : ∃ l p, (l, p, i) ∈ cells.numbered n
  · obtain ⟨l, p, hi⟩ := hi
    rw [a3 l p i hi, b3 l p i hi, c3 l p i hi, smul_comm s, ← smul_add]
    congr 1
    rw [← sum_map_smul s, ← sum_map_add']
    refine sum_map_congr fun d hd => ?_
    have hd : d ≤ n := by rw [List.mem_range] at hd; omega
    obtain ⟨p1, p2, p3⟩ := a2.perm g.refWF c2 hd
    obtain ⟨q1, q2, q3⟩ := b2.perm g.refWF c2 hd
    rw [dirShare_perm p1 p2 p3, dirShare_perm q1 q2 q3]
    refine dirShare_add s (fun C => linValue_add u v s _ C) (fun C => ?_) ..
    show - linValue _ _ C = - linValue _ _ C + s • - linValue _ _ C
    rw [linValue_add, neg_add, smul_neg]
  · have hi : ∀ l p, (l, p, i) ∉ cells.numbered n := fun l p h => hi ⟨l, p, h⟩
    rw [a4 i hi, b4 i hi, c4 i hi, smul_zero, add_zero]

example (u v : Int → Rat) : ∃ m x sub a b, mrMesh 1 ⟨2, 1⟩ exampleMesh 1 2 = some (m, x) ∧
    linApplyTo 1 (1 : Rat) false u m.all sub m.cells 2 true diffusionFlux = some a ∧ linApplyTo 1 (1 : Rat) false v m.all sub m.cells 2 true diffusionFlux = some b ∧
    linApplyTo 1 (1 : Rat) false (fun i => u i + 3 • v i) m.all sub m.cells 2 true diffusionFlux = some fun i => a i + 3 • b i := by
  obtain ⟨m, x, sub, h1, h2, h3, h4, h5⟩ := exampleLinFlux
  obtain ⟨a, b, k1, k2, k3⟩ := C65_linearity 1 m.cells m.all exampleDomain sub 1 2 2 (1 : Rat) diffusionFlux true false h2 h3 h4 h5 u v 3
  refine ⟨m, x, sub, a, b, h1, k1, k2, ?_⟩
  simpa [nsmul_eq_mul] using k3

end Samurai

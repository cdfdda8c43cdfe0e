/-
C67 for linear schemes, C68: the algebra of schemes.
-/
import Verif.Props.Operators

namespace Samurai

section
variable {K U V : Type} [Field K] [AddCommGroup U] [Module K U] [AddCommGroup V] [Module K V]

/-! ### C67 -/

/-- C67 for the linear schemes: on a uniform field `c`, if the sum of the coefficients applied to `c` does not depend on the length of the cells, the output is 0 on
all the leaves, at all the levels and level jumps, boundary included. -/
theorem C67_uniform_field (n : Nat) (cells ref : CA) (dom sub : LCA) (minL maxL w : Nat) (h0 : K) (ld : LinDef K U V) (par : Bool)
    (g : FVMesh n cells ref dom minL maxL w) (hnum : FVNumbers n cells ref) (hsub : constructSubdomain n cells maxL = some sub)
    (hS : ∀ d ≤ n, StencilOK n w (unitDir d) (ld.stencil d)) (h2 : (2 : K) ≠ 0) (u : Int → U) (c : U) (hu : FieldIs n ref u fun _ _ => c) (φ : Nat → V)
    (hlen : ∀ d ≤ n, ∀ h, (ld.coeffs d h).length = (ld.stencil d).length) (hφ : ∀ d ≤ n, ∀ h, ((ld.coeffs d h).map fun A => A c).sum = φ d) :
    ∃ out, linApplyTo n h0 par u ref sub cells maxL true ld = some out ∧ ∀ l p v, (l, p, v) ∈ cells.numbered n → out v = 0 := by
  obtain ⟨out, k1, k2, -⟩ := C65_linear_scheme n cells ref dom sub minL maxL w h0 ld u true g hnum hsub hS
  obtain ⟨out', j1, j2⟩ := C67_free_stream n cells ref dom sub minL maxL w h0 (linFlux h0 u ld) true g hnum hsub hS h2 φ (fun d hd l q C hC => by
    have hv : linValue u (ld.coeffs d (cellLength h0 (levelOf C))) C = φ d := by
      rw [linValue_const u c, hφ d hd]
      · rw [hlen d hd]; exact hC.length_eq
      · intro m hm
        obtain ⟨s, -, hs⟩ := forall₂_mem hC hm
        exact hu _ _ _ hs.2.2
    show (linValue u (ld.coeffs d (cellLength h0 (levelOf C))) C, - linValue u (ld.coeffs d (cellLength h0 (levelOf C))) C) = _
    rw [hv])
  rw [k1] at j1
  cases j1
  exact ⟨out, k2 par, fun l p v hv => j2 l p v hv (Or.inl rfl)⟩

/-- The hypotheses of C67 are met: the gradient of a uniform field, on a mesh with two levels. -/
example (s : Rat) : ∃ (m : SubMeshes) (x : CA) (sub : LCA) (out : Int → Fin 2 → Rat), mrMesh 1 ⟨2, 1⟩ exampleMesh 1 2 = some (m, x) ∧
    linApplyTo 1 (1 : Rat) false (fun _ _ => s : Int → Fin 1 → Rat) m.all sub m.cells 2 true (gradientOp 1) = some out ∧
    ∀ l p v, (l, p, v) ∈ m.cells.numbered 1 → out v = 0 := by
  obtain ⟨m, x, sub, h1, h2, h3, h4, -⟩ := exampleLinFlux
  obtain ⟨out, k1, k2⟩ := C67_uniform_field 1 m.cells m.all exampleDomain sub 1 2 2 (1 : Rat) (gradientOp 1) false h2 h3 h4 (fun d _ => line_ok (by omega) d)
    (by norm_num) (fun _ _ => s : Int → Fin 1 → Rat) (fun _ => s) (fun _ _ _ _ => rfl)
    (fun d => ([matMap fun i _ => if i.val = d then 1 / 2 else 0, matMap fun i _ => if i.val = d then 1 / 2 else 0].map fun A => A fun _ => s).sum)
    (fun d _ h => by show _ = (lineStencil d 2).length; rw [lineStencil_two]; rfl) (fun _ _ _ => rfl)
  exact ⟨m, x, sub, out, h1, k1, k2⟩

/-- The same for a flux function: the upwind scheme on a uniform field. -/
example (a : Nat → Rat) (s : Rat) : ∃ m x sub out, mrMesh 1 ⟨2, 1⟩ exampleMesh 1 2 = some (m, x) ∧
    applyTo 1 (1 : Rat) m.all sub m.cells 2 true (upwindFlux a fun _ => s) = some out ∧ ∀ l p v, (l, p, v) ∈ m.cells.numbered 1 → out v = 0 := by
  obtain ⟨m, x, sub, h1, h2, h3, h4, h5, h6⟩ := exampleFlux a fun _ => s
  obtain ⟨out, k1, k2⟩ := C67_free_stream 1 m.cells m.all exampleDomain sub 1 2 2 (1 : Rat) (upwindFlux a fun _ => s) true h2 h3 h4 h5 (by norm_num)
    (fun d => a d * s) (fun d _ l q C hC => by
      cases hC with
      | cons _ _ => rfl)
  exact ⟨m, x, sub, out, h1, k1, fun l p v hv => k2 l p v hv (Or.inl rfl)⟩

/-! ### C68 -/

variable [DecidableEq K]

/-- C68. `s * scheme` for a scheme with any flux function: the output is `s` times the output of the scheme. -/
theorem C68_scalar_nonlinear (n : Nat) (cells ref : CA) (dom sub : LCA) (minL maxL w : Nat) (h0 s : K) (a : NonlinScheme V)
    (g : FVMesh n cells ref dom minL maxL w) (hnum : FVNumbers n cells ref) (hsub : constructSubdomain n cells maxL = some sub)
    (hS : ∀ d ≤ n, StencilOK n w (unitDir d) (a.defn.stencil d)) :
    ∃ out, applyTo n h0 ref sub cells maxL a.bdry a.defn = some out ∧
      applyTo n h0 ref sub cells maxL (a.smul s).bdry (a.smul s).defn = some fun i => s • out i := by
  obtain ⟨x, y, h1, h2, h3⟩ := apply_combination h0 a.bdry g hnum hsub a.defn a.defn (a.smul s).defn (s - 1) hS rfl rfl (fun d _ C => by
    show (if s ≠ 1 then fun c => (s • (a.defn.flux d c).1, s • (a.defn.flux d c).2) else a.defn.flux d) C = _
    by_cases hs : s = 1
    · rw [if_neg (by simp [hs]), hs, sub_self, zero_smul, add_zero]
    · rw [if_pos hs, sub_smul, one_smul, add_sub_cancel]
      rfl)
  rw [h1] at h2
  cases h2
  refine ⟨x, h1, ?_⟩
  show applyTo n h0 ref sub cells maxL a.bdry _ = _
  rw [h3]
  congr 1
  funext i
  rw [sub_smul, one_smul, add_sub_cancel]

example (a : Nat → Rat) (u : Int → Rat) : ∃ m x sub out, mrMesh 1 ⟨2, 1⟩ exampleMesh 1 2 = some (m, x) ∧
    applyTo 1 (1 : Rat) m.all sub m.cells 2 true (upwindFlux a u) = some out ∧
    applyTo 1 (1 : Rat) m.all sub m.cells 2 true (NonlinScheme.smul (3 : Rat) ⟨upwindFlux a u, true⟩).defn = some fun i => (3 : Rat) • out i := by
  obtain ⟨m, x, sub, h1, h2, h3, h4, h5, h6⟩ := exampleFlux a u
  obtain ⟨out, k1, k2⟩ := C68_scalar_nonlinear 1 m.cells m.all exampleDomain sub 1 2 2 (1 : Rat) 3 ⟨upwindFlux a u, true⟩ h2 h3 h4 h5
  exact ⟨m, x, sub, out, h1, k1, k2⟩

/-- C68. `s * scheme` for a linear scheme. -/
theorem C68_scalar_linear (n : Nat) (cells ref : CA) (dom sub : LCA) (minL maxL w : Nat) (h0 s : K) (a : LinScheme K U V) (u : Int → U) (par : Bool)
    (g : FVMesh n cells ref dom minL maxL w) (hnum : FVNumbers n cells ref) (hsub : constructSubdomain n cells maxL = some sub)
    (hS : ∀ d ≤ n, StencilOK n w (unitDir d) (a.defn.stencil d)) :
    ∃ out, a.apply n h0 par u ref sub cells maxL = some out ∧ (a.smul s).apply n h0 par u ref sub cells maxL = some fun i => s • out i := by
  obtain ⟨out, k1, k2, -⟩ := C65_linear_scheme n cells ref dom sub minL maxL w h0 a.defn u a.bdry g hnum hsub hS
  obtain ⟨out', j1, j2, -⟩ := C65_linear_scheme n cells ref dom sub minL maxL w h0 (a.smul s).defn u a.bdry g hnum hsub hS
  obtain ⟨x, y, h1, h2, h3⟩ := apply_combination h0 a.bdry g hnum hsub (linFlux h0 u a.defn) (linFlux h0 u a.defn) (linFlux h0 u (a.smul s).defn) (s - 1) hS rfl rfl
    (fun d _ C => by
      have hv : linValue u ((a.smul s).defn.coeffs d (cellLength h0 (levelOf C))) C = s • linValue u (a.defn.coeffs d (cellLength h0 (levelOf C))) C := by
        show linValue u ((if s ≠ 1 then fun h => (a.defn.coeffs d h).map fun x => s • x else a.defn.coeffs d) (cellLength h0 (levelOf C))) C = _
        by_cases hs : s = 1
        · rw [if_neg (by simp [hs]), hs, one_smul]
        · rw [if_pos hs, linValue_map_smul]
      show (linValue u ((a.smul s).defn.coeffs d (cellLength h0 (levelOf C))) C, - linValue u ((a.smul s).defn.coeffs d (cellLength h0 (levelOf C))) C) =
        (linValue u (a.defn.coeffs d (cellLength h0 (levelOf C))) C, - linValue u (a.defn.coeffs d (cellLength h0 (levelOf C))) C) +
          (s - 1) • (linValue u (a.defn.coeffs d (cellLength h0 (levelOf C))) C, - linValue u (a.defn.coeffs d (cellLength h0 (levelOf C))) C)
      rw [hv, sub_smul, one_smul, add_sub_cancel, Prod.smul_mk, smul_neg])
  rw [h1] at h2
  cases h2
  rw [k1] at h1
  cases h1
  rw [j1] at h3
  cases h3
  refine ⟨out, k2 par, ?_⟩
  show linApplyTo n h0 par u ref sub cells maxL a.bdry _ = _
  rw [j2 par]
  congr 1
  funext i
  rw [sub_smul, one_smul, add_sub_cancel]

/-- C68. `-scheme`. -/
theorem C68_negation (n : Nat) (cells ref : CA) (dom sub : LCA) (minL maxL w : Nat) (h0 : K) (a : LinScheme K U V) (u : Int → U) (par : Bool)
    (g : FVMesh n cells ref dom minL maxL w) (hnum : FVNumbers n cells ref) (hsub : constructSubdomain n cells maxL = some sub)
    (hS : ∀ d ≤ n, StencilOK n w (unitDir d) (a.defn.stencil d)) :
    ∃ out, a.apply n h0 par u ref sub cells maxL = some out ∧ a.neg.apply n h0 par u ref sub cells maxL = some fun i => - out i := by
  obtain ⟨out, h1, h2⟩ := C68_scalar_linear n cells ref dom sub minL maxL w h0 (-1) a u par g hnum hsub hS
  refine ⟨out, h1, ?_⟩
  unfold LinScheme.neg
  rw [h2]
  congr 1
  funext i
  rw [neg_one_smul]

example (u : Int → Rat) : ∃ m x sub out, mrMesh 1 ⟨2, 1⟩ exampleMesh 1 2 = some (m, x) ∧
    (⟨diffusionFlux, true⟩ : LinScheme Rat Rat Rat).apply 1 1 false u m.all sub m.cells 2 = some out ∧
    (⟨diffusionFlux, true⟩ : LinScheme Rat Rat Rat).neg.apply 1 1 false u m.all sub m.cells 2 = some fun i => - out i := by
  obtain ⟨m, x, sub, h1, h2, h3, h4, h5⟩ := exampleLinFlux
  obtain ⟨out, k1, k2⟩ := C68_negation 1 m.cells m.all exampleDomain sub 1 2 2 (1 : Rat) ⟨diffusionFlux, true⟩ u false h2 h3 h4 h5
  exact ⟨m, x, sub, out, h1, k1, k2⟩

/-- C66, `make_laplacian_order2()`: the sum of the second differences. -/
theorem C66_laplacian (n : Nat) (cells ref : CA) (dom sub : LCA) (minL maxL w : Nat) (h0 : K) (par : Bool) (g : FVMesh n cells ref dom minL maxL w)
    (hnum : FVNumbers n cells ref) (hsub : constructSubdomain n cells maxL = some sub) (hw : 1 ≤ w) (m : Nat) (u : Int → Fin m → K)
    (val : Nat → List Int → Fin m → K) (hu : FieldIs n ref u val) :
    ∃ out, (laplacianOp m).apply n h0 par u ref sub cells maxL = some out ∧ ∀ l p v, (l, p, v) ∈ cells.numbered n → Regular n cells l p → ∀ i,
      out v i = ∑ d ∈ Finset.range (n + 1), (val l (after n d p) i - 2 * val l p i + val l (before n d p) i) / (cellLength h0 l) ^ 2 := by
  obtain ⟨out, h1, h2⟩ := C68_negation n cells ref dom sub minL maxL w h0 ⟨diffusionOp m fun _ => 1, true⟩ u par g hnum hsub (fun d _ => line_ok hw d)
  obtain ⟨out', j1, j2⟩ := C66_diffusion n cells ref dom sub minL maxL w h0 true par g hnum hsub hw m (fun _ => 1) u val hu
  have j1 : (⟨diffusionOp m fun _ => 1, true⟩ : LinScheme K (Fin m → K) (Fin m → K)).apply n h0 par u ref sub cells maxL = some out' := j1
  rw [h1] at j1
  cases j1
  refine ⟨_, h2, fun l p v hv hr i => ?_⟩
  show - out v i = _
  rw [j2 l p v hv hr i, ← Finset.sum_neg_distrib]
  exact Finset.sum_congr rfl fun d _ => by rw [← neg_div]; congr 1; ring

omit [DecidableEq K] in
/-- The part of C68 that holds for `scheme1 + scheme2` (same configuration): the output is the sum of the outputs when the two schemes have the same
stencils and both include, or both leave out, the boundary. Missing: schemes with other stencils or another treatment of the boundary, for which the sum is wrong (C68_sum_stencil_refuted,
C68_sum_boundary_refuted). -/
theorem C68_sum_partial (n : Nat) (cells ref : CA) (dom sub : LCA) (minL maxL w : Nat) (h0 : K) (a b : LinScheme K U V) (u : Int → U) (par : Bool)
    (g : FVMesh n cells ref dom minL maxL w) (hnum : FVNumbers n cells ref) (hsub : constructSubdomain n cells maxL = some sub)
    (hS : ∀ d ≤ n, StencilOK n w (unitDir d) (a.defn.stencil d)) (hlen : ∀ d ≤ n, ∀ h, (a.defn.coeffs d h).length = (b.defn.coeffs d h).length)
    (hst : b.defn.stencil = a.defn.stencil) (hbd : b.bdry = a.bdry) :
    ∃ x y, a.apply n h0 par u ref sub cells maxL = some x ∧ b.apply n h0 par u ref sub cells maxL = some y ∧
      (a.add b).apply n h0 par u ref sub cells maxL = some fun i => x i + y i := by
  obtain ⟨x, k1, k2, -⟩ := C65_linear_scheme n cells ref dom sub minL maxL w h0 a.defn u a.bdry g hnum hsub hS
  obtain ⟨y, i1, i2, -⟩ := C65_linear_scheme n cells ref dom sub minL maxL w h0 b.defn u a.bdry g hnum hsub (hst ▸ hS)
  obtain ⟨z, j1, j2, -⟩ := C65_linear_scheme n cells ref dom sub minL maxL w h0 (a.add b).defn u a.bdry g hnum hsub hS
  obtain ⟨x', y', h1, h2, h3⟩ := apply_combination h0 a.bdry g hnum hsub (linFlux h0 u a.defn) (linFlux h0 u b.defn) (linFlux h0 u (a.add b).defn) 1 hS hst rfl
    (fun d hd C => by
      have hv : linValue u ((a.add b).defn.coeffs d (cellLength h0 (levelOf C))) C = linValue u (a.defn.coeffs d (cellLength h0 (levelOf C))) C +
          linValue u (b.defn.coeffs d (cellLength h0 (levelOf C))) C := linValue_zip u _ _ C (hlen d hd _)
      show (linValue u ((a.add b).defn.coeffs d (cellLength h0 (levelOf C))) C, - linValue u ((a.add b).defn.coeffs d (cellLength h0 (levelOf C))) C) =
        (linValue u (a.defn.coeffs d (cellLength h0 (levelOf C))) C, - linValue u (a.defn.coeffs d (cellLength h0 (levelOf C))) C) +
          (1 : K) • (linValue u (b.defn.coeffs d (cellLength h0 (levelOf C))) C, - linValue u (b.defn.coeffs d (cellLength h0 (levelOf C))) C)
      rw [hv, one_smul, Prod.mk_add_mk, neg_add])
  rw [k1] at h1
  cases h1
  rw [i1] at h2
  cases h2
  rw [j1] at h3
  cases h3
  refine ⟨x, y, k2 par, ?_, ?_⟩
  · show linApplyTo n h0 par u ref sub cells maxL b.bdry _ = _
    rw [hbd]; exact i2 par
  · show linApplyTo n h0 par u ref sub cells maxL a.bdry _ = _
    rw [j2 par]
    simp only [one_smul]

example (u : Int → Rat) : ∃ m x sub a b, mrMesh 1 ⟨2, 1⟩ exampleMesh 1 2 = some (m, x) ∧
    (⟨diffusionFlux, true⟩ : LinScheme Rat Rat Rat).apply 1 1 false u m.all sub m.cells 2 = some a ∧
    ((⟨diffusionFlux, true⟩ : LinScheme Rat Rat Rat).smul 3).apply 1 1 false u m.all sub m.cells 2 = some b ∧
    (LinScheme.add ⟨diffusionFlux, true⟩ ((⟨diffusionFlux, true⟩ : LinScheme Rat Rat Rat).smul 3)).apply 1 1 false u m.all sub m.cells 2 = some fun i => a i + b i := by
  obtain ⟨m, x, sub, h1, h2, h3, h4, h5⟩ := exampleLinFlux
  obtain ⟨a, b, k1, k2, k3⟩ := C68_sum_partial 1 m.cells m.all exampleDomain sub 1 2 2 (1 : Rat) ⟨diffusionFlux, true⟩
    ((⟨diffusionFlux, true⟩ : LinScheme Rat Rat Rat).smul 3) u false h2 h3 h4 h5 (fun d _ h => rfl) rfl rfl
  exact ⟨m, x, sub, a, b, h1, k1, k2, k3⟩

end

/-- C68 fails for `scheme1 + scheme2` when the stencils differ: the coefficients of `scheme2` are applied to the cells of the stencil of `scheme1`. Here `scheme1` is
zero on the stencil (left, right) and `scheme2` takes the right cell, first in its stencil (right, left). -/
theorem C68_sum_stencil_refuted : ∃ (m : SubMeshes) (x : CA) (sub : LCA) (a b : LinScheme Rat Rat Rat) (u : Int → Rat) (oa ob oc : Int → Rat) (v : Int),
    mrMesh 1 ⟨2, 1⟩ wideMesh 1 2 = some (m, x) ∧ constructSubdomain 1 m.cells 2 = some sub ∧ a.bdry = b.bdry ∧ (2, [3, 2], v) ∈ m.cells.numbered 1 ∧
    a.apply 1 1 false u m.all sub m.cells 2 = some oa ∧ b.apply 1 1 false u m.all sub m.cells 2 = some ob ∧
    (a.add b).apply 1 1 false u m.all sub m.cells 2 = some oc ∧ oc v ≠ oa v + ob v := by
  obtain ⟨m, x, sub, h1, h2, h3, h4, v, h5, h6⟩ := wideFV
  obtain ⟨u, hu⟩ := field_exists h3.distinct (fun _ p => ((p.getD 1 0 : Int) : Rat) ^ 2)
  have hr : ∀ d ≤ 1, StencilOK 1 2 (unitDir d) [unitDir d, fun _ => 0] := by
    intro d _
    refine ⟨⟨fun _ => 0, by simp, fun _ _ => rfl⟩, ⟨unitDir d, by simp, fun _ _ => rfl⟩, fun s hs k hk => ?_⟩
    have := (line_ok (n := 1) (w := 2) (by omega) d).width s (by rw [lineStencil_two]; simp only [List.mem_cons, List.not_mem_nil, or_false] at hs ⊢; exact hs.symm) k hk
    exact this
  let a : LinScheme Rat Rat Rat := ⟨{ stencil := fun d => lineStencil d 2, coeffs := fun _ _ => [0, 0] }, true⟩
  let b : LinScheme Rat Rat Rat := ⟨{ stencil := fun d => [unitDir d, fun _ => 0], coeffs := fun _ _ => [LinearMap.id, 0] }, true⟩
  obtain ⟨oa, a1, a2⟩ := C66_linear 1 m.cells m.all wideDomain sub 1 2 2 (1 : Rat) a.defn true false h2 h3 h4 (fun d _ => line_ok (by omega) d) u _ hu
  obtain ⟨ob, b1, b2⟩ := C66_linear 1 m.cells m.all wideDomain sub 1 2 2 (1 : Rat) b.defn true false h2 h3 h4 hr u _ hu
  obtain ⟨oc, c1, c2⟩ := C66_linear 1 m.cells m.all wideDomain sub 1 2 2 (1 : Rat) (a.add b).defn true false h2 h3 h4 (fun d _ => line_ok (by omega) d) u _ hu
  refine ⟨m, x, sub, a, b, u, oa, ob, oc, v, h1, h4, rfl, h5, a1, b1, c1, ?_⟩
  rw [a2 2 [3, 2] v h5 h6, b2 2 [3, 2] v h5 h6, c2 2 [3, 2] v h5 h6]
  decide +kernel

/-- Four cells of level 1, in 1D. -/
def lineMesh : CA := match runLevelCalls 0 2 [(1, .interval [] (.mk' 0 4))] with
  | some cl => CA.ofCL cl
  | none => CA.empty 0 2

/-- The flux is the value of the left cell. -/
def leftFlux : LinDef Rat Rat Rat where
  stencil := fun d => inOutStencil (unitDir d)
  coeffs := fun _ _ => [LinearMap.id, 0]

/-- The outputs of two schemes and of their sum on the first cell of the four, for the field equal to 1. -/
def sumOnLine (a b : LinScheme Rat Rat Rat) : Option (Rat × Rat × Rat) :=
  match mrMesh 0 ⟨1, 1⟩ lineMesh 1 1 with
  | none => none
  | some (m, _) =>
    match constructSubdomain 0 m.cells 1, getIndex (m.cells.lca 1) 0 [] 0 with
    | some sub, some v =>
      match a.apply 0 1 false (fun _ => 1) m.all sub m.cells 1, b.apply 0 1 false (fun _ => 1) m.all sub m.cells 1, (a.add b).apply 0 1 false (fun _ => 1) m.all sub m.cells 1 with
      | some x, some y, some z => some (x v, y v, z v)
      | _, _, _ => none
    | _, _ => none

/-- C68 fails for `scheme1 + scheme2` when one scheme includes the boundary fluxes and the other does not, although the stencils are the same: the sum treats both like
`scheme1`. Here 0 + 2 = 0, and 2 + 0 = 4. -/
theorem C68_sum_boundary_refuted : sumOnLine ⟨leftFlux, true⟩ ⟨leftFlux, false⟩ = some (0, 2, 0) ∧ sumOnLine ⟨leftFlux, false⟩ ⟨leftFlux, true⟩ = some (2, 0, 4) := by
  decide +kernel

/-! ### sums of operators -/

section
variable {V : Type} [AddCommGroup V]

theorem run_add (rs : List (Region V)) (m : Int → V) (i : Int) : rs.foldl Region.run m i = m i + rs.foldl Region.run (fun _ => 0) i := by
  rw [foldl_run, foldl_run, foldl_addTo, foldl_addTo, zero_add]

/-- C68. The sum of several operators (`OperatorSum`), of any kind and with any stencils and boundary conditions: the output is the sum of the outputs of the operators. -/
theorem C68_operator_sum (ops : List (List (Region V))) :
    operatorSumApplyTo (ops.map some) = some fun i => (ops.map fun rs => rs.foldl Region.run (fun _ => 0) i).sum := by
  have : ∀ (ops : List (List (Region V))) (m : Int → V), operatorSumRun (ops.map some) m = some fun i => m i + (ops.map fun rs => rs.foldl Region.run (fun _ => 0) i).sum := by
    intro ops
    induction ops with
    | nil => intro m; simp [operatorSumRun]
    | cons rs ops ih =>
      intro m
      simp only [List.map_cons, operatorSumRun]
      rw [ih]
      congr 1
      funext i
      rw [run_add, List.sum_cons, add_assoc]
  unfold operatorSumApplyTo
  rw [this]
  simp only [zero_add]

/-- The sum of the upwind scheme with the boundary and of a scheme without the boundary. -/
example (a b : Nat → Rat) (u : Int → Rat) : ∃ m x sub ra rb oa ob, mrMesh 1 ⟨2, 1⟩ exampleMesh 1 2 = some (m, x) ∧
    schemeRegions 1 (1 : Rat) m.all sub m.cells 2 true (upwindFlux a u) = some ra ∧ applyTo 1 (1 : Rat) m.all sub m.cells 2 true (upwindFlux a u) = some oa ∧
    schemeRegions 1 (1 : Rat) m.all sub m.cells 2 false (upwindFlux b u) = some rb ∧ applyTo 1 (1 : Rat) m.all sub m.cells 2 false (upwindFlux b u) = some ob ∧
    operatorSumApplyTo [some ra, some rb] = some fun i => oa i + ob i := by
  obtain ⟨m, x, sub, h1, h2, h3, h4, h5, -⟩ := exampleFlux a u
  obtain ⟨ra, oa, k1, k2, -⟩ := C39_schedule 1 m.cells m.all exampleDomain sub 1 2 2 (1 : Rat) (upwindFlux a u) true h2 h3 h4 h5
  obtain ⟨rb, ob, j1, j2, -⟩ := C39_schedule 1 m.cells m.all exampleDomain sub 1 2 2 (1 : Rat) (upwindFlux b u) false h2 h3 h4 h5
  refine ⟨m, x, sub, ra, rb, oa, ob, h1, k1, k2, j1, j2, ?_⟩
  have := C68_operator_sum [ra, rb]
  unfold applyTo at k2 j2
  rw [k1] at k2
  rw [j1] at j2
  cases k2
  cases j2
  simpa using this

end

end Samurai

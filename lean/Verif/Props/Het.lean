/-
C69: the linear heterogeneous flux-based schemes. C70: mirror symmetry of the provided operators.
-/
import Verif.Props.Algebra

namespace Samurai

section
variable {K U V : Type} [Field K] [AddCommGroup U] [Module K U] [AddCommGroup V] [Module K V]

/-! ### C69 -/

/-- C69. A linear heterogeneous scheme (coefficients that depend on the cells of the stencil) gives, on every mesh of graded leaves and for every field, the output of
the scheme with the flux function `Σ_c A_c(cells) u_c`, one interface after the other (C64), boundary included or not. -/
theorem C69_heterogeneous_scheme (n : Nat) (cells ref : CA) (dom sub : LCA) (minL maxL w : Nat) (h0 : K) (hd : HetDef K U V) (u : Int → U) (bdry : Bool)
    (g : FVMesh n cells ref dom minL maxL w) (hnum : FVNumbers n cells ref) (hsub : constructSubdomain n cells maxL = some sub)
    (hS : ∀ d ≤ n, StencilOK n w (unitDir d) (hd.stencil d)) :
    ∃ out, applyTo n h0 ref sub cells maxL bdry (hetFlux u hd) = some out ∧ hetApplyTo n h0 u ref sub cells maxL bdry hd = some out := by
  obtain ⟨rs, out, h1, h2, -⟩ := C39_schedule n cells ref dom sub minL maxL w h0 (hetFlux u hd) bdry g hnum hsub hS
  obtain ⟨rs', k1, k2⟩ := hetScheme_sim u h0 hd bdry h1
  refine ⟨out, h2, ?_⟩
  unfold hetApplyTo
  unfold applyTo at h2
  rw [h1] at h2
  rw [k1, Option.map_some, sameRun_run k2]
  exact h2

/-- C69. A linear heterogeneous scheme is conservative. -/
theorem C69_conservation (n : Nat) (cells ref : CA) (dom sub : LCA) (minL maxL w : Nat) (h0 : K) (hd : HetDef K U V) (u : Int → U)
    (g : FVMesh n cells ref dom minL maxL w) (hnum : FVNumbers n cells ref) (hsub : constructSubdomain n cells maxL = some sub)
    (hS : ∀ d ≤ n, StencilOK n w (unitDir d) (hd.stencil d)) (hh : h0 ≠ 0) (h2 : (2 : K) ≠ 0) :
    ∃ out, hetApplyTo n h0 u ref sub cells maxL false hd = some out ∧ fluxIntegral n h0 cells out = 0 := by
  obtain ⟨out, k1, k2⟩ := C69_heterogeneous_scheme n cells ref dom sub minL maxL w h0 hd u false g hnum hsub hS
  obtain ⟨_, _, _, out', -, j1, j2⟩ := C37_conservation n cells ref dom sub minL maxL w h0 (hetFlux u hd) false g hnum hsub hS (fun _ _ => rfl) hh h2
  rw [k1] at j1
  cases j1
  exact ⟨out, k2, by simpa using j2⟩

/-- C69. The output depends linearly on the field. -/
theorem C69_linearity (n : Nat) (cells ref : CA) (dom sub : LCA) (minL maxL w : Nat) (h0 : K) (hd : HetDef K U V) (bdry : Bool)
    (g : FVMesh n cells ref dom minL maxL w) (hnum : FVNumbers n cells ref) (hsub : constructSubdomain n cells maxL = some sub)
    (hS : ∀ d ≤ n, StencilOK n w (unitDir d) (hd.stencil d)) (u v : Int → U) (s : K) :
    ∃ a b, hetApplyTo n h0 u ref sub cells maxL bdry hd = some a ∧ hetApplyTo n h0 v ref sub cells maxL bdry hd = some b ∧
      hetApplyTo n h0 (fun i => u i + s • v i) ref sub cells maxL bdry hd = some fun i => a i + s • b i := by
  obtain ⟨a, a1, a2⟩ := C69_heterogeneous_scheme n cells ref dom sub minL maxL w h0 hd u bdry g hnum hsub hS
  obtain ⟨b, b1, b2⟩ := C69_heterogeneous_scheme n cells ref dom sub minL maxL w h0 hd v bdry g hnum hsub hS
  obtain ⟨c, c1, c2⟩ := C69_heterogeneous_scheme n cells ref dom sub minL maxL w h0 hd (fun i => u i + s • v i) bdry g hnum hsub hS
  obtain ⟨x, y, h1, h2, h3⟩ := apply_combination h0 bdry g hnum hsub (hetFlux u hd) (hetFlux v hd) (hetFlux (fun i => u i + s • v i) hd) s hS rfl rfl (fun d _ C => by
    show (linValue _ (hd.coeffs d C) C, - linValue _ (hd.coeffs d C) C) = (linValue u (hd.coeffs d C) C, - linValue u (hd.coeffs d C) C) +
      s • (linValue v (hd.coeffs d C) C, - linValue v (hd.coeffs d C) C)
    rw [linValue_add, neg_add, Prod.smul_mk, Prod.mk_add_mk, smul_neg])
  rw [a1] at h1
  cases h1
  rw [b1] at h2
  cases h2
  rw [c1] at h3
  cases h3
  exact ⟨a, b, a2, b2, c2⟩

/-- The hypotheses are met: diffusion with a coefficient that depends on the cell. -/
example (k : Int → Nat → Rat) (u : Int → Fin 3 → Rat) : ∃ m x sub out, mrMesh 1 ⟨2, 1⟩ exampleMesh 1 2 = some (m, x) ∧
    hetApplyTo 1 (1 : Rat) u m.all sub m.cells 2 false (hetDiffusionOp 1 3 k) = some out ∧ fluxIntegral 1 (1 : Rat) m.cells out = 0 := by
  obtain ⟨m, x, sub, h1, h2, h3, h4, -⟩ := exampleLinFlux
  obtain ⟨out, k1, k2⟩ := C69_conservation 1 m.cells m.all exampleDomain sub 1 2 2 (1 : Rat) (hetDiffusionOp 1 3 k) u h2 h3 h4 (fun d _ => line_ok (by omega) d)
    (by norm_num) (by norm_num)
  exact ⟨m, x, sub, out, h1, k1, k2⟩

end

/-! ### values on the regular leaves -/

section
variable {K : Type} [Field K]

/-- The two cells of a stencil of two cells. -/
theorem two_cells {n : Nat} {ref : CA} {l d : Nat} {q : List Int} {C : List MCell} (h : List.Forall₂ (fun s c => CellIs n ref l (shiftPoint s n q) c) (lineStencil d 2) C) :
    ∃ a b, C = [a, b] ∧ a.level = l ∧ b.level = l ∧ (l, q, a.index) ∈ ref.numbered n ∧ (l, after n d q, b.index) ∈ ref.numbered n := by
  rw [lineStencil_two] at h
  cases h with
  | cons h1 h =>
    cases h with
    | cons h2 h =>
      cases h
      refine ⟨_, _, rfl, h1.1, h2.1, ?_, h2.2.2⟩
      have := h1.2.2
      rwa [shift_zero] at this

variable (n : Nat) (cells ref : CA) (dom sub : LCA) (minL maxL w : Nat) (h0 : K) (bdry : Bool) (g : FVMesh n cells ref dom minL maxL w)
  (hnum : FVNumbers n cells ref) (hsub : constructSubdomain n cells maxL = some sub) (hw : 1 ≤ w)
include g hnum hsub hw

/-- C69, `make_diffusion_order2(K)` with a field `K`: on a leaf that lies between leaves of its level, the flux through a face is computed with the coefficient of the cell
before the face. -/
theorem C69_diffusion (m : Nat) (k : Int → Nat → K) (kv : Nat → List Int → Nat → K) (hk : FieldIs n ref k kv) (u : Int → Fin m → K)
    (val : Nat → List Int → Fin m → K) (hu : FieldIs n ref u val) :
    ∃ out, hetApplyTo n h0 u ref sub cells maxL bdry (hetDiffusionOp h0 m k) = some out ∧ ∀ l p v, (l, p, v) ∈ cells.numbered n → Regular n cells l p → ∀ i,
      out v i = ∑ d ∈ Finset.range (n + 1), (kv l p d * (val l p i - val l (after n d p) i) - kv l (before n d p) d * (val l (before n d p) i - val l p i)) /
        (cellLength h0 l) ^ 2 := by
  obtain ⟨out, k1, k2⟩ := C69_heterogeneous_scheme n cells ref dom sub minL maxL w h0 (hetDiffusionOp h0 m k) u bdry g hnum hsub (fun d _ => line_ok hw d)
  obtain ⟨out', j1, j2⟩ := C66_regular_leaf n cells ref dom sub minL maxL w h0 (hetFlux u (hetDiffusionOp h0 m k)) bdry g hnum hsub (fun d _ => line_ok hw d)
  rw [k1] at j1
  cases j1
  refine ⟨out, k2, fun l p v hv hr i => ?_⟩
  obtain ⟨C, C', hC, h⟩ := j2 l p v hv hr
  rw [h, Pi.smul_apply, list_sum_apply, smul_eq_mul, ← smul_eq_mul, ← sum_map_smul, sum_list_range]
  refine Finset.sum_congr rfl fun d hd => ?_
  obtain ⟨c1, c2⟩ := hC d (by have := Finset.mem_range.1 hd; omega)
  obtain ⟨a, b, e1, l1, l2, a1, a2⟩ := two_cells c1
  obtain ⟨a', b', e2, l3, l4, b1, b2⟩ := two_cells c2
  have hf : ∀ a b : MCell, a.level = l → linValue u ((hetDiffusionOp h0 m k).coeffs d [a, b]) [a, b] i = k a.index d / cellLength h0 l * (u a.index i - u b.index i) := by
    intro a b ha
    show linValue u [matMap fun i j => if i = j then - k a.index d / cellLength h0 a.level * (-1) else 0, matMap fun i j => if i = j then k a.index d / cellLength h0 a.level * (-1) else 0] [a, b] i = _
    simp only [linValue, Pi.add_apply]
    rw [matMap_diag (fun _ => - k a.index d / cellLength h0 a.level * (-1)), matMap_diag (fun _ => k a.index d / cellLength h0 a.level * (-1)), ha]
    simp only [Pi.zero_apply]
    ring
  rw [after_before] at b2
  show _ • (linValue u ((hetDiffusionOp h0 m k).coeffs d (C d)) (C d) i + - linValue u ((hetDiffusionOp h0 m k).coeffs d (C' d)) (C' d) i) = _
  rw [e1, e2, hf a b l1, hf a' b' l3, hk _ _ _ a1, hk _ _ _ b1, hu _ _ _ a1, hu _ _ _ a2, hu _ _ _ b1, hu _ _ _ b2, smul_eq_mul]
  by_cases hh : cellLength h0 l = 0
  · rw [hh]; simp
  · field_simp
    ring

/-- C69, `make_convection_upwind(velocity_field)` for a scalar field: the velocity, and the side it comes from, are those of the cell before the face. -/
theorem C69_upwind [LinearOrder K] (a : Int → Nat → K) (av : Nat → List Int → Nat → K) (ha : FieldIs n ref a av) (u : Int → Fin 1 → K)
    (val : Nat → List Int → Fin 1 → K) (hu : FieldIs n ref u val) :
    ∃ op out, hetUpwindOp n 1 a = some op ∧ hetApplyTo n h0 u ref sub cells maxL bdry op = some out ∧
      ∀ l p v, (l, p, v) ∈ cells.numbered n → Regular n cells l p →
      out v 0 = ∑ d ∈ Finset.range (n + 1), (av l p d * (if 0 ≤ av l p d then val l p 0 else val l (after n d p) 0) -
        av l (before n d p) d * (if 0 ≤ av l (before n d p) d then val l (before n d p) 0 else val l p 0)) / cellLength h0 l := by
  let op : HetDef K (Fin 1 → K) (Fin 1 → K) :=
    { stencil := fun d => lineStencil d 2
      coeffs := fun d c => match c with
        | left :: _ => if 0 ≤ a left.index d then [upwindMatrix 1 d (a left.index d), 0] else [0, upwindMatrix 1 d (a left.index d)]
        | [] => [] }
  obtain ⟨out, k1, k2⟩ := C69_heterogeneous_scheme n cells ref dom sub minL maxL w h0 op u bdry g hnum hsub (fun d _ => line_ok hw d)
  obtain ⟨out', j1, j2⟩ := C66_regular_leaf n cells ref dom sub minL maxL w h0 (hetFlux u op) bdry g hnum hsub (fun d _ => line_ok hw d)
  rw [k1] at j1
  cases j1
  refine ⟨op, out, if_pos (Or.inl rfl), k2, fun l p v hv hr => ?_⟩
  obtain ⟨C, C', hC, h⟩ := j2 l p v hv hr
  rw [h, Pi.smul_apply, list_sum_apply, smul_eq_mul, ← smul_eq_mul, ← sum_map_smul, sum_list_range]
  refine Finset.sum_congr rfl fun d hd => ?_
  obtain ⟨c1, c2⟩ := hC d (by have := Finset.mem_range.1 hd; omega)
  obtain ⟨x, y, e1, -, -, a1, a2⟩ := two_cells c1
  obtain ⟨x', y', e2, -, -, b1, b2⟩ := two_cells c2
  have hm : ∀ (z : K) (t : Fin 1 → K), upwindMatrix 1 d z t 0 = z * t 0 := by
    intro z t
    show ∑ j : Fin 1, (if (1 : Nat) = 1 then z else if j.val = d then z else 0) * t j = _
    simp
  have hf : ∀ x y : MCell, linValue u (op.coeffs d [x, y]) [x, y] 0 = a x.index d * if 0 ≤ a x.index d then u x.index 0 else u y.index 0 := by
    intro x y
    show linValue u (if 0 ≤ a x.index d then [upwindMatrix 1 d (a x.index d), 0] else [0, upwindMatrix 1 d (a x.index d)]) [x, y] 0 = _
    by_cases hx : 0 ≤ a x.index d <;> simp only [hx, if_true, if_false, linValue, Pi.add_apply, hm, LinearMap.zero_apply, Pi.zero_apply, add_zero, zero_add]
  rw [after_before] at b2
  show _ • (linValue u (op.coeffs d (C d)) (C d) 0 + - linValue u (op.coeffs d (C' d)) (C' d) 0) = _
  rw [e1, e2, hf x y, hf x' y', ha _ _ _ a1, ha _ _ _ b1, hu _ _ _ a1, hu _ _ _ a2, hu _ _ _ b1, hu _ _ _ b2, smul_eq_mul, div_eq_mul_inv]
  ring

/-- C69, `make_convection_upwind()` (Burgers, scalar field): the flux is `u²` of the cell before the face, unless its value is negative: then of the cell after the face. -/
theorem C69_burgers [LinearOrder K] (u : Int → Fin 1 → K) (val : Nat → List Int → Fin 1 → K) (hu : FieldIs n ref u val) :
    ∃ out, applyTo n h0 ref sub cells maxL bdry (burgersScalar u) = some out ∧ ∀ l p v, (l, p, v) ∈ cells.numbered n → Regular n cells l p →
      out v 0 = ∑ d ∈ Finset.range (n + 1), ((if 0 ≤ val l p 0 then (val l p 0) ^ 2 else (val l (after n d p) 0) ^ 2) -
        if 0 ≤ val l (before n d p) 0 then (val l (before n d p) 0) ^ 2 else (val l p 0) ^ 2) / cellLength h0 l := by
  obtain ⟨out, k1, j2⟩ := C66_regular_leaf n cells ref dom sub minL maxL w h0 (burgersScalar u) bdry g hnum hsub (fun d _ => line_ok hw d)
  refine ⟨out, k1, fun l p v hv hr => ?_⟩
  obtain ⟨C, C', hC, h⟩ := j2 l p v hv hr
  rw [h, Pi.smul_apply, list_sum_apply, smul_eq_mul, ← smul_eq_mul, ← sum_map_smul, sum_list_range]
  refine Finset.sum_congr rfl fun d hd => ?_
  obtain ⟨c1, c2⟩ := hC d (by have := Finset.mem_range.1 hd; omega)
  obtain ⟨x, y, e1, -, -, a1, a2⟩ := two_cells c1
  obtain ⟨x', y', e2, -, -, b1, b2⟩ := two_cells c2
  rw [after_before] at b2
  have hf : ∀ x y : MCell, ((burgersScalar u).flux d [x, y]).1 0 = if 0 ≤ u x.index 0 then (u x.index 0) ^ 2 else (u y.index 0) ^ 2 := by
    intro x y
    show (if 0 ≤ u x.index 0 then u x.index 0 • u x.index else u y.index 0 • u y.index) 0 = _
    split <;> simp [sq]
  have hf2 : ∀ x y : MCell, ((burgersScalar u).flux d [x, y]).2 0 = - ((burgersScalar u).flux d [x, y]).1 0 := fun _ _ => rfl
  show _ • (((burgersScalar u).flux d (C d)).1 0 + ((burgersScalar u).flux d (C' d)).2 0) = _
  rw [e1, e2, hf2, hf x y, hf x' y', hu _ _ _ a1, hu _ _ _ a2, hu _ _ _ b1, hu _ _ _ b2, smul_eq_mul, div_eq_mul_inv]
  ring

end

/-! ### C70 -/

section
variable {K : Type} [Field K]

/-- `val'` is the mirror image of `val` seen from the leaf `p` of level `l`: the neighbours are exchanged in every direction. -/
def Mirror {X : Type} (n l : Nat) (p : List Int) (val val' : Nat → List Int → X) : Prop :=
  val' l p = val l p ∧ ∀ d ≤ n, val' l (after n d p) = val l (before n d p) ∧ val' l (before n d p) = val l (after n d p)

/-- The part of C70 that holds: the homogeneous diffusion gives the same value for a field and its mirror image. Missing: diffusion with a field of coefficients, and the
Burgers convection, which are not mirror symmetric (C70_diffusion_refuted, C70_burgers_refuted). -/
theorem C70_diffusion_partial (n : Nat) (cells ref : CA) (dom sub : LCA) (minL maxL w : Nat) (h0 : K) (bdry par : Bool) (g : FVMesh n cells ref dom minL maxL w)
    (hnum : FVNumbers n cells ref) (hsub : constructSubdomain n cells maxL = some sub) (hw : 1 ≤ w) (m : Nat) (k : Nat → K) (u u' : Int → Fin m → K)
    (val val' : Nat → List Int → Fin m → K) (hu : FieldIs n ref u val) (hu' : FieldIs n ref u' val') :
    ∃ out out', linApplyTo n h0 par u ref sub cells maxL bdry (diffusionOp m k) = some out ∧ linApplyTo n h0 par u' ref sub cells maxL bdry (diffusionOp m k) = some out' ∧
      ∀ l p v, (l, p, v) ∈ cells.numbered n → Regular n cells l p → Mirror n l p val val' → out' v = out v := by
  obtain ⟨out, k1, k2⟩ := C66_diffusion n cells ref dom sub minL maxL w h0 bdry par g hnum hsub hw m k u val hu
  obtain ⟨out', j1, j2⟩ := C66_diffusion n cells ref dom sub minL maxL w h0 bdry par g hnum hsub hw m k u' val' hu'
  refine ⟨out, out', k1, j1, fun l p v hv hr hm => ?_⟩
  funext i
  rw [k2 l p v hv hr, j2 l p v hv hr]
  refine Finset.sum_congr rfl fun d hd => ?_
  obtain ⟨m1, m2⟩ := hm.2 d (by have := Finset.mem_range.1 hd; omega)
  rw [hm.1, m1, m2]
  ring

/-- The part of C70 that holds: the upwind convection of a scalar field with the opposite velocity on the mirror image. -/
theorem C70_upwind_partial [LinearOrder K] [IsStrictOrderedRing K] (n : Nat) (cells ref : CA) (dom sub : LCA) (minL maxL w : Nat) (h0 : K) (bdry par : Bool) (g : FVMesh n cells ref dom minL maxL w)
    (hnum : FVNumbers n cells ref) (hsub : constructSubdomain n cells maxL = some sub) (hw : 1 ≤ w) (a : Nat → K) (u u' : Int → Fin 1 → K)
    (val val' : Nat → List Int → Fin 1 → K) (hu : FieldIs n ref u val) (hu' : FieldIs n ref u' val') :
    ∃ op op' out out', upwindOp n 1 a = some op ∧ upwindOp n 1 (fun d => - a d) = some op' ∧ linApplyTo n h0 par u ref sub cells maxL bdry op = some out ∧
      linApplyTo n h0 par u' ref sub cells maxL bdry op' = some out' ∧
      ∀ l p v, (l, p, v) ∈ cells.numbered n → Regular n cells l p → Mirror n l p val val' → out' v 0 = out v 0 := by
  obtain ⟨op, out, k0, k1, k2⟩ := C66_upwind n cells ref dom sub minL maxL w h0 bdry par g hnum hsub hw a u val hu
  obtain ⟨op', out', j0, j1, j2⟩ := C66_upwind n cells ref dom sub minL maxL w h0 bdry par g hnum hsub hw (fun d => - a d) u' val' hu'
  refine ⟨op, op', out, out', k0, j0, k1, j1, fun l p v hv hr hm => ?_⟩
  rw [k2 l p v hv hr, j2 l p v hv hr]
  refine Finset.sum_congr rfl fun d hd => ?_
  obtain ⟨m1, m2⟩ := hm.2 d (by have := Finset.mem_range.1 hd; omega)
  rw [hm.1, m1, m2]
  rcases lt_trichotomy (a d) 0 with h | h | h
  · rw [if_pos (by linarith), if_neg (by linarith)]; ring
  · simp [h]
  · rw [if_neg (by linarith), if_pos (by linarith)]; ring

end

/-- The hypotheses of the two theorems are met: `u = x²`, seen from the cell of index 2 in x. -/
example : ∃ (m : SubMeshes) (x : CA) (sub : LCA) (u u' : Int → Fin 1 → Rat) (out out' : Int → Fin 1 → Rat) (v : Int), mrMesh 1 ⟨2, 1⟩ wideMesh 1 2 = some (m, x) ∧
    (2, [3, 2], v) ∈ m.cells.numbered 1 ∧ u ≠ u' ∧ linApplyTo 1 (1 : Rat) false u m.all sub m.cells 2 true (diffusionOp 1 fun _ => 1) = some out ∧
    linApplyTo 1 (1 : Rat) false u' m.all sub m.cells 2 true (diffusionOp 1 fun _ => 1) = some out' ∧ out' v = out v := by
  obtain ⟨m, x, sub, h1, h2, h3, h4, v, h5, h6⟩ := wideFV
  obtain ⟨u, hu⟩ := field_exists h3.distinct (fun _ p => (fun _ => ((p.getD 1 0 : Int) : Rat) ^ 2 : Fin 1 → Rat))
  obtain ⟨u', hu'⟩ := field_exists h3.distinct (fun _ p => (fun _ => (4 - (p.getD 1 0 : Int) : Rat) ^ 2 : Fin 1 → Rat))
  obtain ⟨out, out', k1, k2, k3⟩ := C70_diffusion_partial 1 m.cells m.all wideDomain sub 1 2 2 (1 : Rat) true false h2 h3 h4 (by omega) 1 (fun _ => 1) u u' _ _ hu hu'
  refine ⟨m, x, sub, u, u', out, out', v, h1, h5, fun h => ?_, k1, k2, k3 2 [3, 2] v h5 h6 ⟨by decide +kernel, fun d hd => ?_⟩⟩
  · have hr : Regular 1 m.cells 2 [3, 2] := h6
    obtain ⟨w, -, hw⟩ := num_of_mem (yz := [3]) (x := 3) (h2.leaves.wf 2 (hr.2 0 (by omega)).1.1) (hr.2 0 (by omega)).1.2
    have hw := h3.same _ _ _ (num_numbered (hr.2 0 (by omega)).1.1 hw)
    have := (hu _ _ _ hw).symm.trans ((congrFun h w).trans (hu' _ _ _ hw))
    exact absurd this (by decide +kernel)
  · obtain rfl | rfl : d = 0 ∨ d = 1 := by omega
    all_goals decide +kernel

/-- C70 fails for the diffusion with a field of coefficients: `K = x`, `u = x²` (in cells) gives -7 · 16 in the cell 2, the mirror image gives -9 · 16. -/
theorem C70_diffusion_refuted : ∃ (m : SubMeshes) (x : CA) (sub : LCA) (k k' : Int → Nat → Rat) (u u' : Int → Fin 1 → Rat) (kv kv' : Nat → List Int → Nat → Rat)
    (val val' : Nat → List Int → Fin 1 → Rat) (out out' : Int → Fin 1 → Rat) (v : Int), mrMesh 1 ⟨2, 1⟩ wideMesh 1 2 = some (m, x) ∧
    constructSubdomain 1 m.cells 2 = some sub ∧ (2, [3, 2], v) ∈ m.cells.numbered 1 ∧ Regular 1 m.cells 2 [3, 2] ∧
    FieldIs 1 m.all k kv ∧ FieldIs 1 m.all k' kv' ∧ FieldIs 1 m.all u val ∧ FieldIs 1 m.all u' val' ∧ Mirror 1 2 [3, 2] kv kv' ∧ Mirror 1 2 [3, 2] val val' ∧
    hetApplyTo 1 (1 : Rat) u m.all sub m.cells 2 true (hetDiffusionOp 1 1 k) = some out ∧
    hetApplyTo 1 (1 : Rat) u' m.all sub m.cells 2 true (hetDiffusionOp 1 1 k') = some out' ∧ out v 0 = -112 ∧ out' v 0 = -144 := by
  obtain ⟨m, x, sub, h1, h2, h3, h4, v, h5, h6⟩ := wideFV
  obtain ⟨k, hk⟩ := field_exists h3.distinct (fun _ p => (fun _ => ((p.getD 1 0 : Int) : Rat) : Nat → Rat))
  obtain ⟨k', hk'⟩ := field_exists h3.distinct (fun _ p => (fun _ => (4 - (p.getD 1 0 : Int) : Rat) : Nat → Rat))
  obtain ⟨u, hu⟩ := field_exists h3.distinct (fun _ p => (fun _ => ((p.getD 1 0 : Int) : Rat) ^ 2 : Fin 1 → Rat))
  obtain ⟨u', hu'⟩ := field_exists h3.distinct (fun _ p => (fun _ => (4 - (p.getD 1 0 : Int) : Rat) ^ 2 : Fin 1 → Rat))
  obtain ⟨out, k1, k2⟩ := C69_diffusion 1 m.cells m.all wideDomain sub 1 2 2 (1 : Rat) true h2 h3 h4 (by omega) 1 k _ hk u _ hu
  obtain ⟨out', j1, j2⟩ := C69_diffusion 1 m.cells m.all wideDomain sub 1 2 2 (1 : Rat) true h2 h3 h4 (by omega) 1 k' _ hk' u' _ hu'
  refine ⟨m, x, sub, k, k', u, u', _, _, _, _, out, out', v, h1, h4, h5, h6, hk, hk', hu, hu', ⟨?_, fun d hd => ?_⟩, ⟨by decide +kernel, fun d hd => ?_⟩, k1, j1, ?_, ?_⟩
  · funext _; norm_num
  · obtain rfl | rfl : d = 0 ∨ d = 1 := by omega
    all_goals exact ⟨by funext _; norm_num [after, before, shiftPoint, unitDir], by funext _; norm_num [after, before, shiftPoint, unitDir]⟩
  · obtain rfl | rfl : d = 0 ∨ d = 1 := by omega
    all_goals decide +kernel
  · rw [k2 2 [3, 2] v h5 h6]; decide +kernel
  · rw [j2 2 [3, 2] v h5 h6]; decide +kernel

/-- C70 fails for the Burgers convection: the mirror image of a solution, with the opposite sign, must give the opposite output. With the values 2, -1, -1 (before, on and
after the cell in x, in every row) the output is (1 - 4) · 4 = -12; with the mirror image 1, 1, -2 it is 0 instead of 12. -/
theorem C70_burgers_refuted : ∃ (m : SubMeshes) (x : CA) (sub : LCA) (u u' : Int → Fin 1 → Rat) (val val' : Nat → List Int → Fin 1 → Rat)
    (out out' : Int → Fin 1 → Rat) (v : Int), mrMesh 1 ⟨2, 1⟩ wideMesh 1 2 = some (m, x) ∧ constructSubdomain 1 m.cells 2 = some sub ∧
    (2, [3, 2], v) ∈ m.cells.numbered 1 ∧ Regular 1 m.cells 2 [3, 2] ∧ FieldIs 1 m.all u val ∧ FieldIs 1 m.all u' val' ∧
    Mirror 1 2 [3, 2] (fun l p => - val l p) val' ∧ applyTo 1 (1 : Rat) m.all sub m.cells 2 true (burgersScalar u) = some out ∧
    applyTo 1 (1 : Rat) m.all sub m.cells 2 true (burgersScalar u') = some out' ∧ out v 0 = -12 ∧ out' v 0 = 0 := by
  obtain ⟨m, x, sub, h1, h2, h3, h4, v, h5, h6⟩ := wideFV
  obtain ⟨u, hu⟩ := field_exists h3.distinct (fun _ p => (fun _ => if p.getD 1 0 < 2 then 2 else -1 : Fin 1 → Rat))
  obtain ⟨u', hu'⟩ := field_exists h3.distinct (fun _ p => (fun _ => if p.getD 1 0 ≤ 2 then 1 else -2 : Fin 1 → Rat))
  obtain ⟨out, k1, k2⟩ := C69_burgers 1 m.cells m.all wideDomain sub 1 2 2 (1 : Rat) true h2 h3 h4 (by omega) u _ hu
  obtain ⟨out', j1, j2⟩ := C69_burgers 1 m.cells m.all wideDomain sub 1 2 2 (1 : Rat) true h2 h3 h4 (by omega) u' _ hu'
  refine ⟨m, x, sub, u, u', _, _, out, out', v, h1, h4, h5, h6, hu, hu', ⟨by decide +kernel, fun d hd => ?_⟩, k1, j1, ?_, ?_⟩
  · obtain rfl | rfl : d = 0 ∨ d = 1 := by omega
    all_goals decide +kernel
  · rw [k2 2 [3, 2] v h5 h6]; decide +kernel
  · rw [j2 2 [3, 2] v h5 h6]; decide +kernel

end Samurai

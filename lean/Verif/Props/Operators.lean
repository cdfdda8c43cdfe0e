/-
C66: the operators provided with the library, on the leaves that lie between leaves of their level.
-/
import Verif.Props.WideMesh

namespace Samurai

section
variable {K U V : Type} [Field K] [AddCommGroup U] [Module K U] [AddCommGroup V] [Module K V]

/-- C66. On a leaf that lies between leaves of its level, a flux-based scheme gives the sum, over the directions, of the difference of the fluxes through its two
faces divided by the length of the leaf; the flux of each face is computed on the cells of the stencil seen from the cell before the face. -/
theorem C66_regular_leaf (n : Nat) (cells ref : CA) (dom sub : LCA) (minL maxL w : Nat) (h0 : K) (fd : FluxDef V) (bdry : Bool)
    (g : FVMesh n cells ref dom minL maxL w) (hnum : FVNumbers n cells ref) (hsub : constructSubdomain n cells maxL = some sub)
    (hS : ∀ d ≤ n, StencilOK n w (unitDir d) (fd.stencil d)) :
    ∃ out, applyTo n h0 ref sub cells maxL bdry fd = some out ∧ ∀ l p v, (l, p, v) ∈ cells.numbered n → Regular n cells l p →
      ∃ C C' : Nat → List MCell, (∀ d ≤ n, List.Forall₂ (fun s c => CellIs n ref l (shiftPoint s n p) c) (fd.stencil d) (C d) ∧
        List.Forall₂ (fun s c => CellIs n ref l (shiftPoint s n (before n d p)) c) (fd.stencil d) (C' d)) ∧
        out v = (cellLength h0 l)⁻¹ • ((List.range (n + 1)).map fun d => (fd.flux d (C d)).1 + (fd.flux d (C' d)).2).sum := by
  obtain ⟨fs, bs, bs', out, k1, k2, k3, -⟩ := C64_apply_scheme n cells ref dom sub minL maxL w h0 fd bdry g hnum hsub hS
  refine ⟨out, k2, fun l p v hv hr => ?_⟩
  have hex : ∀ d, ∃ C C' : List MCell, d ≤ n → List.Forall₂ (fun s c => CellIs n ref l (shiftPoint s n p) c) (fd.stencil d) C ∧
      List.Forall₂ (fun s c => CellIs n ref l (shiftPoint s n (before n d p)) c) (fd.stencil d) C' ∧
      dirShare n h0 (fd.flux d) bdry (fs d) (bs d) (bs' d) (l, p) = (cellLength h0 l) ^ n • ((fd.flux d C).1 + (fd.flux d C').2) := by
    intro d
    by_cases hd : d ≤ n
    · obtain ⟨a1, a2, a3⟩ := k1 d hd
      obtain ⟨C, C', h⟩ := dirShare_regular (F := fd.flux d) h0 g hd a1 a2 a3 hr.1 (hr.2 d hd).1 (hr.2 d hd).2 bdry
      exact ⟨C, C', fun _ => h⟩
    · exact ⟨[], [], fun h => absurd h hd⟩
  choose C C' hC using hex
  refine ⟨C, C', fun d hd => ⟨(hC d hd).1, (hC d hd).2.1⟩, ?_⟩
  rw [k3 l p v hv, sum_map_congr fun d hd => (hC d (by rw [List.mem_range] at hd; omega)).2.2, sum_map_smul, vol_inv]

/-- C66, linear schemes: the fluxes are `Σ_s A_s(h) u(q + s)`. -/
theorem C66_linear (n : Nat) (cells ref : CA) (dom sub : LCA) (minL maxL w : Nat) (h0 : K) (ld : LinDef K U V) (bdry par : Bool)
    (g : FVMesh n cells ref dom minL maxL w) (hnum : FVNumbers n cells ref) (hsub : constructSubdomain n cells maxL = some sub)
    (hS : ∀ d ≤ n, StencilOK n w (unitDir d) (ld.stencil d)) (u : Int → U) (val : Nat → List Int → U) (hu : FieldIs n ref u val) :
    ∃ out, linApplyTo n h0 par u ref sub cells maxL bdry ld = some out ∧ ∀ l p v, (l, p, v) ∈ cells.numbered n → Regular n cells l p →
      out v = (cellLength h0 l)⁻¹ • ((List.range (n + 1)).map fun d => stencilSum n (val l) p (ld.coeffs d (cellLength h0 l)) (ld.stencil d) -
        stencilSum n (val l) (before n d p) (ld.coeffs d (cellLength h0 l)) (ld.stencil d)).sum := by
  obtain ⟨out, k1, k2, -⟩ := C65_linear_scheme n cells ref dom sub minL maxL w h0 ld u bdry g hnum hsub hS
  obtain ⟨out', j1, j2⟩ := C66_regular_leaf n cells ref dom sub minL maxL w h0 (linFlux h0 u ld) bdry g hnum hsub hS
  rw [k1] at j1
  cases j1
  refine ⟨out, k2 par, fun l p v hv hr => ?_⟩
  obtain ⟨C, C', hC, h⟩ := j2 l p v hv hr
  rw [h]
  congr 2
  refine List.map_congr_left fun d hd => ?_
  have hd' : d ≤ n := by rw [List.mem_range] at hd; omega
  obtain ⟨c1, c2⟩ := hC d hd'
  show linValue u (ld.coeffs d (cellLength h0 (levelOf (C d)))) (C d) + - linValue u (ld.coeffs d (cellLength h0 (levelOf (C' d)))) (C' d) = _
  rw [levelOf_stencil (hS d hd').ne_nil c1, levelOf_stencil (hS d hd').ne_nil c2, linValue_stencil hu _ c1, linValue_stencil hu _ c2, sub_eq_add_neg]
  rfl

/-! ### the values on a face -/

theorem stencilSum_two (n : Nat) (f : List Int → U) (q : List Int) (a b : U →ₗ[K] V) (d : Nat) :
    stencilSum n f q [a, b] (lineStencil d 2) = a (f q) + b (f (after n d q)) := by
  rw [lineStencil_two]
  simp only [stencilSum, add_zero]
  rw [shift_zero]
  rfl

theorem after_before (n d : Nat) (p : List Int) : after n d (before n d p) = p := shift_forth _ _

theorem matMap_diag {m : Nat} (c : Fin m → K) (u : Fin m → K) (i : Fin m) : matMap (fun i j => if i = j then c i else 0) u i = c i * u i := by
  show ∑ j, (if i = j then c i else 0) * u j = _
  simp

theorem matMap_row {n : Nat} (d : Nat) (c : K) (u : Fin 1 → K) (i : Fin (n + 1)) :
    matMap (fun (i : Fin (n + 1)) (_ : Fin 1) => if i.val = d then c else 0) u i = if i.val = d then c * u 0 else 0 := by
  show ∑ j, (if i.val = d then c else 0) * u j = _
  simp

theorem matMap_col {a b : Nat} (d : Nat) (hd : d < b) (c : K) (u : Fin b → K) (i : Fin a) :
    matMap (fun (_ : Fin a) (j : Fin b) => if j.val = d then c else 0) u i = c * u ⟨d, hd⟩ := by
  show ∑ j : Fin b, (if j.val = d then c else 0) * u j = _
  rw [Finset.sum_eq_single ⟨d, hd⟩]
  · simp
  · intro j _ hj
    rw [if_neg fun h => hj (Fin.ext h), zero_mul]
  · intro h; exact absurd (Finset.mem_univ _) h

theorem list_sum_apply {m : Nat} {ι : Type} (l : List ι) (f : ι → Fin m → K) (i : Fin m) : (l.map f).sum i = (l.map fun d => f d i).sum := by
  induction l with
  | nil => rfl
  | cons a l ih => simp only [List.map_cons, List.sum_cons, Pi.add_apply, ih]

theorem sum_list_range (f : Nat → K) (n : Nat) : ((List.range n).map f).sum = ∑ d ∈ Finset.range n, f d := by
  induction n with
  | zero => rfl
  | succ n ih => rw [List.range_succ, List.map_append, List.sum_append, Finset.sum_range_succ, ih, List.map_singleton, List.sum_singleton]

/-- A field of scalars on the faces of one direction only. -/
theorem sum_range_single (n d : Nat) (hd : d ≤ n) (x : K) : ((List.range (n + 1)).map fun e => if d = e then x else 0).sum = x := by
  have h : ∀ e ∈ List.range (n + 1), (if d = e then x else 0) = if e = d then x else 0 := fun e _ => by simp only [eq_comm]
  have : ((List.range (n + 1)).map fun e => if d = e then x else 0) = (List.range (n + 1)).map fun e => if d = id e then x else 0 := rfl
  rw [this]
  exact sum_pick id _ (by simpa using List.nodup_range) d (by simp; omega) x

/-! ### the provided operators -/

section
variable (n : Nat) (cells ref : CA) (dom sub : LCA) (minL maxL w : Nat) (h0 : K) (bdry par : Bool) (g : FVMesh n cells ref dom minL maxL w)
  (hnum : FVNumbers n cells ref) (hsub : constructSubdomain n cells maxL = some sub) (hw : 1 ≤ w)
include g hnum hsub hw

/-- C66, `make_diffusion_order2(K)`: `- Σ_d K_d ∂²/∂x_d²` by the three-point formula, for each component. -/
theorem C66_diffusion (m : Nat) (k : Nat → K) (u : Int → Fin m → K) (val : Nat → List Int → Fin m → K) (hu : FieldIs n ref u val) :
    ∃ out, linApplyTo n h0 par u ref sub cells maxL bdry (diffusionOp m k) = some out ∧ ∀ l p v, (l, p, v) ∈ cells.numbered n → Regular n cells l p → ∀ i,
      out v i = ∑ d ∈ Finset.range (n + 1), k d * (2 * val l p i - val l (after n d p) i - val l (before n d p) i) / (cellLength h0 l) ^ 2 := by
  obtain ⟨out, k1, k2⟩ := C66_linear n cells ref dom sub minL maxL w h0 (diffusionOp m k) bdry par g hnum hsub (fun d _ => line_ok hw d) u val hu
  refine ⟨out, k1, fun l p v hv hr i => ?_⟩
  rw [k2 l p v hv hr, Pi.smul_apply, list_sum_apply, smul_eq_mul, ← smul_eq_mul, ← sum_map_smul, sum_list_range]
  refine Finset.sum_congr rfl fun d _ => ?_
  show _ * ((stencilSum n (val l) p [_, _] (lineStencil d 2) - stencilSum n (val l) (before n d p) [_, _] (lineStencil d 2) : Fin m → K)) i = _
  rw [stencilSum_two, stencilSum_two, after_before]
  simp only [Pi.sub_apply, Pi.add_apply]
  rw [matMap_diag (fun _ => -1 / cellLength h0 l * - k d), matMap_diag (fun _ => 1 / cellLength h0 l * - k d), matMap_diag (fun _ => -1 / cellLength h0 l * - k d), matMap_diag (fun _ => 1 / cellLength h0 l * - k d)]
  by_cases hh : cellLength h0 l = 0
  · rw [hh]; simp
  · field_simp
    ring

/-- C66, `make_multi_diffusion_order2(K)`: one coefficient per component. -/
theorem C66_multi_diffusion (m : Nat) (k : Fin m → K) (u : Int → Fin m → K) (val : Nat → List Int → Fin m → K) (hu : FieldIs n ref u val) :
    ∃ out, linApplyTo n h0 par u ref sub cells maxL bdry (multiDiffusionOp m k) = some out ∧ ∀ l p v, (l, p, v) ∈ cells.numbered n → Regular n cells l p → ∀ i,
      out v i = ∑ d ∈ Finset.range (n + 1), k i * (2 * val l p i - val l (after n d p) i - val l (before n d p) i) / (cellLength h0 l) ^ 2 := by
  obtain ⟨out, k1, k2⟩ := C66_linear n cells ref dom sub minL maxL w h0 (multiDiffusionOp m k) bdry par g hnum hsub (fun d _ => line_ok hw d) u val hu
  refine ⟨out, k1, fun l p v hv hr i => ?_⟩
  rw [k2 l p v hv hr, Pi.smul_apply, list_sum_apply, smul_eq_mul, ← smul_eq_mul, ← sum_map_smul, sum_list_range]
  refine Finset.sum_congr rfl fun d _ => ?_
  show _ * ((stencilSum n (val l) p [_, _] (lineStencil d 2) - stencilSum n (val l) (before n d p) [_, _] (lineStencil d 2) : Fin m → K)) i = _
  rw [stencilSum_two, stencilSum_two, after_before]
  simp only [Pi.sub_apply, Pi.add_apply]
  rw [matMap_diag (fun i => -1 / cellLength h0 l * - k i), matMap_diag (fun i => 1 / cellLength h0 l * - k i), matMap_diag (fun i => -1 / cellLength h0 l * - k i), matMap_diag (fun i => 1 / cellLength h0 l * - k i)]
  by_cases hh : cellLength h0 l = 0
  · rw [hh]; simp
  · field_simp
    ring

/-- C66, `make_gradient_order2()`: the component `d` is the centred difference in the direction `d`. -/
theorem C66_gradient (u : Int → Fin 1 → K) (val : Nat → List Int → Fin 1 → K) (hu : FieldIs n ref u val) :
    ∃ out, linApplyTo n h0 par u ref sub cells maxL bdry (gradientOp n) = some out ∧ ∀ l p v, (l, p, v) ∈ cells.numbered n → Regular n cells l p →
      ∀ i : Fin (n + 1), out v i = (val l (after n i p) 0 - val l (before n i p) 0) / (2 * cellLength h0 l) := by
  obtain ⟨out, k1, k2⟩ := C66_linear n cells ref dom sub minL maxL w h0 (gradientOp n) bdry par g hnum hsub (fun d _ => line_ok hw d) u val hu
  refine ⟨out, k1, fun l p v hv hr i => ?_⟩
  rw [k2 l p v hv hr, Pi.smul_apply, list_sum_apply, smul_eq_mul, ← smul_eq_mul, ← sum_map_smul]
  refine Eq.trans (sum_map_congr (g := fun d => if i.val = d then (val l (after n i p) 0 - val l (before n i p) 0) / (2 * cellLength h0 l) else 0) fun d _ => ?_)
    (sum_range_single n i (by have := i.isLt; omega) _)
  show _ * ((stencilSum n (val l) p [_, _] (lineStencil d 2) - stencilSum n (val l) (before n d p) [_, _] (lineStencil d 2) : Fin (n + 1) → K)) i = _
  rw [stencilSum_two, stencilSum_two, after_before]
  simp only [Pi.sub_apply, Pi.add_apply]
  rw [matMap_row, matMap_row, matMap_row]
  split
  · rename_i h
    subst h
    rw [mul_comm 2, div_mul_eq_div_div, div_eq_mul_inv, div_eq_mul_inv, div_eq_mul_inv]
    ring
  · simp

/-- C66, `make_divergence_order2()`: the sum over `d` of the centred difference of the component `d` in the direction `d`. -/
theorem C66_divergence (u : Int → Fin (n + 1) → K) (val : Nat → List Int → Fin (n + 1) → K) (hu : FieldIs n ref u val) :
    ∃ out, linApplyTo n h0 par u ref sub cells maxL bdry (divergenceOp n) = some out ∧ ∀ l p v, (l, p, v) ∈ cells.numbered n → Regular n cells l p →
      out v 0 = ∑ d : Fin (n + 1), (val l (after n d p) d - val l (before n d p) d) / (2 * cellLength h0 l) := by
  obtain ⟨out, k1, k2⟩ := C66_linear n cells ref dom sub minL maxL w h0 (divergenceOp n) bdry par g hnum hsub (fun d _ => line_ok hw d) u val hu
  refine ⟨out, k1, fun l p v hv hr => ?_⟩
  rw [k2 l p v hv hr, Pi.smul_apply, list_sum_apply, smul_eq_mul, ← smul_eq_mul, ← sum_map_smul, Finset.sum_fin_eq_sum_range, sum_list_range]
  refine Finset.sum_congr rfl fun d hd => ?_
  have hd : d < n + 1 := Finset.mem_range.1 hd
  rw [dif_pos hd]
  show _ * ((stencilSum n (val l) p [_, _] (lineStencil d 2) - stencilSum n (val l) (before n d p) [_, _] (lineStencil d 2) : Fin 1 → K)) 0 = _
  rw [stencilSum_two, stencilSum_two, after_before]
  simp only [Pi.sub_apply, Pi.add_apply]
  rw [matMap_col d hd, matMap_col d hd, matMap_col d hd, mul_comm 2, div_mul_eq_div_div, div_eq_mul_inv, div_eq_mul_inv, div_eq_mul_inv]
  ring

/-- C66, `make_convection_upwind(velocity)` for a scalar field: `Σ_d a_d ∂u/∂x_d` by the difference on the side the flow comes from. -/
theorem C66_upwind [LinearOrder K] (a : Nat → K) (u : Int → Fin 1 → K) (val : Nat → List Int → Fin 1 → K) (hu : FieldIs n ref u val) :
    ∃ op out, upwindOp n 1 a = some op ∧ linApplyTo n h0 par u ref sub cells maxL bdry op = some out ∧
      ∀ l p v, (l, p, v) ∈ cells.numbered n → Regular n cells l p →
      out v 0 = ∑ d ∈ Finset.range (n + 1), if 0 ≤ a d then a d * (val l p 0 - val l (before n d p) 0) / cellLength h0 l
        else a d * (val l (after n d p) 0 - val l p 0) / cellLength h0 l := by
  obtain ⟨out, k1, k2⟩ := C66_linear n cells ref dom sub minL maxL w h0
    { stencil := fun d => lineStencil d 2, coeffs := fun d _ => if 0 ≤ a d then [upwindMatrix 1 d (a d), 0] else [0, upwindMatrix 1 d (a d)] }
    bdry par g hnum hsub (fun d _ => line_ok hw d) u val hu
  refine ⟨_, out, if_pos (Or.inl rfl), k1, fun l p v hv hr => ?_⟩
  rw [k2 l p v hv hr, Pi.smul_apply, list_sum_apply, smul_eq_mul, ← smul_eq_mul, ← sum_map_smul, sum_list_range]
  refine Finset.sum_congr rfl fun d _ => ?_
  have hm : ∀ x : Fin 1 → K, upwindMatrix 1 d (a d) x 0 = a d * x 0 := by
    intro x
    show ∑ j : Fin 1, (if (1 : Nat) = 1 then a d else if j.val = d then a d else 0) * x j = _
    simp
  by_cases ha : 0 ≤ a d <;> simp only [ha, if_true, if_false] <;>
  · rw [stencilSum_two, stencilSum_two, after_before]
    simp only [Pi.sub_apply, Pi.add_apply, hm, LinearMap.zero_apply, Pi.zero_apply, smul_eq_mul]
    rw [div_eq_mul_inv]
    ring

/-- C66, `make_convection_upwind(velocity)` for a field with at least `dim` components: every component of the output is the same, the sum over `d` of the
upwind difference of the component `d`. This is not the advection of each component (`C66_vector_upwind_refuted`). -/
theorem C66_vector_upwind_partial [LinearOrder K] (m : Nat) (hm : n < m) (hm' : m ≠ 1) (a : Nat → K) (u : Int → Fin m → K) (val : Nat → List Int → Fin m → K)
    (hu : FieldIs n ref u val) :
    ∃ op out, upwindOp n m a = some op ∧ linApplyTo n h0 par u ref sub cells maxL bdry op = some out ∧
      ∀ l p v, (l, p, v) ∈ cells.numbered n → Regular n cells l p → ∀ i,
      out v i = ∑ d : Fin (n + 1), if 0 ≤ a d then a d * (val l p (d.castLE hm) - val l (before n d p) (d.castLE hm)) / cellLength h0 l
        else a d * (val l (after n d p) (d.castLE hm) - val l p (d.castLE hm)) / cellLength h0 l := by
  obtain ⟨out, k1, k2⟩ := C66_linear n cells ref dom sub minL maxL w h0
    { stencil := fun d => lineStencil d 2, coeffs := fun d _ => if 0 ≤ a d then [upwindMatrix m d (a d), 0] else [0, upwindMatrix m d (a d)] }
    bdry par g hnum hsub (fun d _ => line_ok hw d) u val hu
  refine ⟨_, out, if_pos (Or.inr hm), k1, fun l p v hv hr i => ?_⟩
  rw [k2 l p v hv hr, Pi.smul_apply, list_sum_apply, smul_eq_mul, ← smul_eq_mul, ← sum_map_smul, sum_list_range, Finset.sum_fin_eq_sum_range]
  refine Finset.sum_congr rfl fun d hd => ?_
  have hd : d < n + 1 := Finset.mem_range.1 hd
  rw [dif_pos hd]
  have hx : ∀ x : Fin m → K, upwindMatrix m d (a d) x i = a d * x (Fin.castLE hm ⟨d, hd⟩) := by
    intro x
    have : upwindMatrix m d (a d) = matMap fun _ j => if j.val = d then a d else 0 := by
      unfold upwindMatrix
      simp only [if_neg hm']
    rw [this, matMap_col d (by omega)]
    rfl
  by_cases ha : 0 ≤ a d <;> simp only [ha, if_true, if_false] <;>
  · rw [stencilSum_two, stencilSum_two, after_before]
    simp only [Pi.sub_apply, Pi.add_apply, hx, LinearMap.zero_apply, Pi.zero_apply, smul_eq_mul]
    rw [div_eq_mul_inv]
    ring

end

/-- C66, `make_convection_upwind(velocity)`: the intended meaning, the advection of each component by the velocity `a`, fails for vector fields. With two components,
the velocity (1, 0), a first component equal to 0 and a second component equal to 4 x (cells of length 1/4), the output of the second component is 0 instead of 4. -/
theorem C66_vector_upwind_refuted : ∃ (m : SubMeshes) (x : CA) (sub : LCA) (a : Nat → Rat) (u : Int → Fin 2 → Rat) (val : Nat → List Int → Fin 2 → Rat)
    (op : LinDef Rat (Fin 2 → Rat) (Fin 2 → Rat)) (out : Int → Fin 2 → Rat) (l : Nat) (p : List Int) (v : Int),
    mrMesh 1 ⟨2, 1⟩ wideMesh 1 2 = some (m, x) ∧ constructSubdomain 1 m.cells 2 = some sub ∧ FieldIs 1 m.all u val ∧ upwindOp 1 2 a = some op ∧
    linApplyTo 1 (1 : Rat) false u m.all sub m.cells 2 true op = some out ∧ (l, p, v) ∈ m.cells.numbered 1 ∧ Regular 1 m.cells l p ∧ a 0 = 1 ∧ a 1 = 0 ∧
    out v 1 = 0 ∧ (val l p 1 - val l (before 1 0 p) 1) / cellLength (1 : Rat) l = 4 := by
  obtain ⟨m, x, sub, h1, h2, h3, h4, v, h5, h6⟩ := wideFV
  obtain ⟨u, hu⟩ := field_exists h3.distinct (fun _ p => (fun i => if i = 0 then 0 else (p.getD 1 0 : Rat) : Fin 2 → Rat))
  obtain ⟨op, out, k1, k2, k3⟩ := C66_vector_upwind_partial 1 m.cells m.all wideDomain sub 1 2 2 (1 : Rat) true false h2 h3 h4 (by omega) 2 (by omega) (by omega)
    (fun d => if d = 0 then 1 else 0) u _ hu
  refine ⟨m, x, sub, _, u, _, op, out, 2, [3, 2], v, h1, h4, hu, k1, k2, h5, h6, rfl, rfl, ?_, by decide +kernel⟩
  rw [k3 2 [3, 2] v h5 h6]
  decide +kernel

/-- C66: `make_convection_upwind(velocity)` writes outside the matrix of coefficients when the number of components is between 2 and `dim - 1`. -/
theorem C66_upwind_columns_refuted [LinearOrder K] (a : Nat → K) : upwindOp 2 2 a = none := if_neg (by omega)

/-! ### exactness -/

theorem shift_getD {s : Nat → Int} : ∀ (p : List Int) (n k : Nat), p.length = n + 1 → k ≤ n → (shiftPoint s n p).getD (n - k) 0 = p.getD (n - k) 0 + s k := by
  intro p
  induction p with
  | nil => intro n k h; simp at h
  | cons c p ih =>
    intro n k h hk
    rw [shiftPoint]
    by_cases hkn : k = n
    · subst hkn; simp
    · obtain ⟨n, rfl⟩ : ∃ n', n = n' + 1 := ⟨n - 1, by omega⟩
      rw [show n + 1 - k = (n - k) + 1 by omega, List.getD_cons_succ, List.getD_cons_succ]
      exact ih n k (by simpa using h) (by omega)

theorem centre_after {n d k : Nat} {p : List Int} (h : K) (hp : p.length = n + 1) (hk : k ≤ n) :
    centre n h (after n d p) k = centre n h p k + if k = d then h else 0 := by
  unfold centre after
  rw [shift_getD p n k hp hk]
  unfold unitDir
  split <;> push_cast <;> ring

theorem centre_before {n d k : Nat} {p : List Int} (h : K) (hp : p.length = n + 1) (hk : k ≤ n) :
    centre n h (before n d p) k = centre n h p k + if k = d then -h else 0 := by
  unfold centre before
  rw [shift_getD p n k hp hk]
  unfold unitDir
  split <;> push_cast <;> ring

/-- The quadratic function `c + Σ_k b_k x_k + Σ_jk q_jk x_j x_k`. -/
def quad (n : Nat) (c : K) (b : Nat → K) (q : Nat → Nat → K) (x : Nat → K) : K :=
  c + ∑ k ∈ Finset.range (n + 1), b k * x k + ∑ j ∈ Finset.range (n + 1), ∑ k ∈ Finset.range (n + 1), q j k * x j * x k

/-- Its derivative with respect to `x_d`. -/
def quadD (n : Nat) (b : Nat → K) (q : Nat → Nat → K) (d : Nat) (x : Nat → K) : K :=
  b d + ∑ k ∈ Finset.range (n + 1), (q d k + q k d) * x k

theorem quad_step (n d : Nat) (hd : d ≤ n) (c : K) (b : Nat → K) (q : Nat → Nat → K) (x y : Nat → K) (t : K) (hy : ∀ k ≤ n, y k = x k + if k = d then t else 0) :
    quad n c b q y = quad n c b q x + t * quadD n b q d x + t ^ 2 * q d d := by
  have hm : d ∈ Finset.range (n + 1) := Finset.mem_range.2 (by omega)
  have hk : ∀ k ∈ Finset.range (n + 1), y k = x k + if k = d then t else 0 := fun k h => hy k (by have := Finset.mem_range.1 h; omega)
  have e1 : ∑ k ∈ Finset.range (n + 1), b k * y k = ∑ k ∈ Finset.range (n + 1), b k * x k + b d * t := by
    rw [Finset.sum_congr rfl fun k h => by rw [hk k h, mul_add, mul_ite, mul_zero], Finset.sum_add_distrib, Finset.sum_ite_eq', if_pos hm]
  have e2 : ∀ j, ∑ k ∈ Finset.range (n + 1), q j k * y j * y k = ∑ k ∈ Finset.range (n + 1), q j k * y j * x k + q j d * y j * t := by
    intro j
    rw [Finset.sum_congr rfl fun k h => by rw [hk k h, mul_add, mul_ite, mul_zero], Finset.sum_add_distrib, Finset.sum_ite_eq', if_pos hm]
  have e3 : ∑ j ∈ Finset.range (n + 1), ∑ k ∈ Finset.range (n + 1), q j k * y j * x k =
      ∑ j ∈ Finset.range (n + 1), ∑ k ∈ Finset.range (n + 1), q j k * x j * x k + ∑ k ∈ Finset.range (n + 1), q d k * t * x k := by
    have : ∀ j ∈ Finset.range (n + 1), ∑ k ∈ Finset.range (n + 1), q j k * y j * x k =
        ∑ k ∈ Finset.range (n + 1), q j k * x j * x k + if j = d then ∑ k ∈ Finset.range (n + 1), q d k * t * x k else 0 := by
      intro j hj
      rw [hk j hj]
      split
      · rename_i h
        subst h
        rw [← Finset.sum_add_distrib]
        exact Finset.sum_congr rfl fun k _ => by ring
      · simp
    rw [Finset.sum_congr rfl this, Finset.sum_add_distrib, Finset.sum_ite_eq', if_pos hm]
  have e4 : ∑ j ∈ Finset.range (n + 1), q j d * y j * t = ∑ j ∈ Finset.range (n + 1), q j d * x j * t + q d d * t * t := by
    have : ∀ j ∈ Finset.range (n + 1), q j d * y j * t = q j d * x j * t + if j = d then q d d * t * t else 0 := by
      intro j hj
      rw [hk j hj]
      split
      · rename_i h
        subst h
        ring
      · simp
    rw [Finset.sum_congr rfl this, Finset.sum_add_distrib, Finset.sum_ite_eq', if_pos hm]
  have e5 : ∑ k ∈ Finset.range (n + 1), q d k * t * x k + ∑ j ∈ Finset.range (n + 1), q j d * x j * t = t * ∑ k ∈ Finset.range (n + 1), (q d k + q k d) * x k := by
    rw [← Finset.sum_add_distrib, Finset.mul_sum]
    exact Finset.sum_congr rfl fun k _ => by ring
  unfold quad quadD
  rw [e1, Finset.sum_congr rfl fun j _ => e2 j, Finset.sum_add_distrib, e3, e4, mul_add, ← e5]
  ring

/-- The field with the values of a quadratic function at the centres of the cells of length `h0 / 2^l`. -/
def quadField (n : Nat) (h0 c : K) (b : Nat → K) (q : Nat → Nat → K) (l : Nat) (p : List Int) : K := quad n c b q (centre n (cellLength h0 l) p)

theorem quadField_after {n d : Nat} (hd : d ≤ n) {h0 c : K} {b : Nat → K} {q : Nat → Nat → K} {l : Nat} {p : List Int} (hp : p.length = n + 1) :
    quadField n h0 c b q l (after n d p) = quadField n h0 c b q l p + cellLength h0 l * quadD n b q d (centre n (cellLength h0 l) p) + (cellLength h0 l) ^ 2 * q d d :=
  quad_step n d hd c b q _ _ _ fun _ hk => centre_after _ hp hk

theorem quadField_before {n d : Nat} (hd : d ≤ n) {h0 c : K} {b : Nat → K} {q : Nat → Nat → K} {l : Nat} {p : List Int} (hp : p.length = n + 1) :
    quadField n h0 c b q l (before n d p) = quadField n h0 c b q l p - cellLength h0 l * quadD n b q d (centre n (cellLength h0 l) p) + (cellLength h0 l) ^ 2 * q d d := by
  unfold quadField
  rw [quad_step n d hd c b q _ _ _ fun _ hk => centre_before (cellLength h0 l) hp hk]
  ring

theorem cellLength_ne {h0 : K} (hh : h0 ≠ 0) (h2 : (2 : K) ≠ 0) (l : Nat) : cellLength h0 l ≠ 0 := div_ne_zero hh (pow_ne_zero _ h2)

section
variable (n : Nat) (cells ref : CA) (dom sub : LCA) (minL maxL w : Nat) (h0 : K) (bdry par : Bool) (g : FVMesh n cells ref dom minL maxL w)
  (hnum : FVNumbers n cells ref) (hsub : constructSubdomain n cells maxL = some sub) (hw : 1 ≤ w) (hh : h0 ≠ 0) (h2 : (2 : K) ≠ 0)
include g hnum hsub hw hh h2

/-- C66. The diffusion operator is exact for the quadratic functions, on the leaves that lie between leaves of their level, at all the levels. -/
theorem C66_diffusion_exact (m : Nat) (k : Nat → K) (c : Fin m → K) (b : Fin m → Nat → K) (q : Fin m → Nat → Nat → K) (u : Int → Fin m → K)
    (hu : FieldIs n ref u fun l p i => quadField n h0 (c i) (b i) (q i) l p) :
    ∃ out, linApplyTo n h0 par u ref sub cells maxL bdry (diffusionOp m k) = some out ∧ ∀ l p v, (l, p, v) ∈ cells.numbered n → Regular n cells l p → ∀ i,
      out v i = - ∑ d ∈ Finset.range (n + 1), k d * (2 * q i d d) := by
  obtain ⟨out, k1, k2⟩ := C66_diffusion n cells ref dom sub minL maxL w h0 bdry par g hnum hsub hw m k u _ hu
  refine ⟨out, k1, fun l p v hv hr i => ?_⟩
  rw [k2 l p v hv hr i, ← Finset.sum_neg_distrib]
  refine Finset.sum_congr rfl fun d hd => ?_
  have hd : d ≤ n := by have := Finset.mem_range.1 hd; omega
  rw [quadField_after hd (mem_length' hr.1), quadField_before hd (mem_length' hr.1), div_eq_iff (pow_ne_zero 2 (cellLength_ne hh h2 l))]
  ring

/-- C66. The gradient is exact for the quadratic functions. -/
theorem C66_gradient_exact (c : K) (b : Nat → K) (q : Nat → Nat → K) (u : Int → Fin 1 → K) (hu : FieldIs n ref u fun l p _ => quadField n h0 c b q l p) :
    ∃ out, linApplyTo n h0 par u ref sub cells maxL bdry (gradientOp n) = some out ∧ ∀ l p v, (l, p, v) ∈ cells.numbered n → Regular n cells l p →
      ∀ i : Fin (n + 1), out v i = quadD n b q i (centre n (cellLength h0 l) p) := by
  obtain ⟨out, k1, k2⟩ := C66_gradient n cells ref dom sub minL maxL w h0 bdry par g hnum hsub hw u _ hu
  refine ⟨out, k1, fun l p v hv hr i => ?_⟩
  have hd : i.val ≤ n := by have := i.isLt; omega
  rw [k2 l p v hv hr i, quadField_after hd (mem_length' hr.1), quadField_before hd (mem_length' hr.1), div_eq_iff (mul_ne_zero h2 (cellLength_ne hh h2 l))]
  ring

/-- C66. The divergence is exact for the fields whose components are quadratic functions. -/
theorem C66_divergence_exact (c : Fin (n + 1) → K) (b : Fin (n + 1) → Nat → K) (q : Fin (n + 1) → Nat → Nat → K) (u : Int → Fin (n + 1) → K)
    (hu : FieldIs n ref u fun l p i => quadField n h0 (c i) (b i) (q i) l p) :
    ∃ out, linApplyTo n h0 par u ref sub cells maxL bdry (divergenceOp n) = some out ∧ ∀ l p v, (l, p, v) ∈ cells.numbered n → Regular n cells l p →
      out v 0 = ∑ d : Fin (n + 1), quadD n (b d) (q d) d (centre n (cellLength h0 l) p) := by
  obtain ⟨out, k1, k2⟩ := C66_divergence n cells ref dom sub minL maxL w h0 bdry par g hnum hsub hw u _ hu
  refine ⟨out, k1, fun l p v hv hr => ?_⟩
  rw [k2 l p v hv hr]
  refine Finset.sum_congr rfl fun d _ => ?_
  have hd : d.val ≤ n := by have := d.isLt; omega
  rw [quadField_after hd (mem_length' hr.1), quadField_before hd (mem_length' hr.1), div_eq_iff (mul_ne_zero h2 (cellLength_ne hh h2 l))]
  ring

/-- C66. The upwind convection of a scalar field is exact for the affine functions. -/
theorem C66_upwind_exact [LinearOrder K] (a : Nat → K) (c : K) (b : Nat → K) (u : Int → Fin 1 → K)
    (hu : FieldIs n ref u fun l p _ => quadField n h0 c b (fun _ _ => 0) l p) :
    ∃ op out, upwindOp n 1 a = some op ∧ linApplyTo n h0 par u ref sub cells maxL bdry op = some out ∧
      ∀ l p v, (l, p, v) ∈ cells.numbered n → Regular n cells l p → out v 0 = ∑ d ∈ Finset.range (n + 1), a d * b d := by
  obtain ⟨op, out, k0, k1, k2⟩ := C66_upwind n cells ref dom sub minL maxL w h0 bdry par g hnum hsub hw a u _ hu
  refine ⟨op, out, k0, k1, fun l p v hv hr => ?_⟩
  rw [k2 l p v hv hr]
  refine Finset.sum_congr rfl fun d hd => ?_
  have hd : d ≤ n := by have := Finset.mem_range.1 hd; omega
  rw [quadField_after hd (mem_length' hr.1), quadField_before hd (mem_length' hr.1)]
  have hq : quadD n b (fun _ _ => 0) d (centre n (cellLength h0 l) p) = b d := by unfold quadD; simp
  rw [hq]
  split <;>
  · rw [div_eq_iff (cellLength_ne hh h2 l)]
    ring

end

/-- The hypotheses are met: the gradient of `x²  + 3 x y - y` at the centre (5/8, 7/8) of a leaf of level 2. -/
example : ∃ (m : SubMeshes) (x : CA) (sub : LCA) (u : Int → Fin 1 → Rat) (out : Int → Fin 2 → Rat) (v : Int), mrMesh 1 ⟨2, 1⟩ wideMesh 1 2 = some (m, x) ∧
    (2, [3, 2], v) ∈ m.cells.numbered 1 ∧ linApplyTo 1 (1 : Rat) false u m.all sub m.cells 2 true (gradientOp 1) = some out ∧
    out v 0 = 2 * (5 / 8) + 3 * (7 / 8) ∧ out v 1 = 3 * (5 / 8) - 1 := by
  obtain ⟨m, x, sub, h1, h2, h3, h4, v, h5, h6⟩ := wideFV
  obtain ⟨u, hu⟩ := field_exists h3.distinct (fun l p => (fun _ => quadField 1 (1 : Rat) 0 (fun k => if k = 1 then -1 else 0)
    (fun j k => if j = 0 ∧ k = 0 then 1 else if j = 0 ∧ k = 1 then 3 else 0) l p : Fin 1 → Rat))
  obtain ⟨out, k1, k2⟩ := C66_gradient_exact 1 m.cells m.all wideDomain sub 1 2 2 (1 : Rat) true false h2 h3 h4 (by omega) (by norm_num) (by norm_num) _ _ _ u hu
  refine ⟨m, x, sub, u, out, v, h1, h5, k1, ?_, ?_⟩
  · rw [k2 2 [3, 2] v h5 h6]; decide +kernel
  · rw [k2 2 [3, 2] v h5 h6]; decide +kernel

end

end Samurai

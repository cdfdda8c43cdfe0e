import Verif.Lemmas.CellScheme
import Verif.Props.Algebra
import Verif.Props.Stencil

namespace Samurai

section
variable {K U V : Type} [Field K] [AddCommGroup U] [Module K U] [AddCommGroup V] [Module K V]

omit [AddCommGroup U] in
theorem values_exist {n : Nat} {ref : CA} (hw : ref.WF n) (u : Int → U) : ∃ val : Nat → List Int → U, FieldIs n ref u val := by
  refine ⟨fun l p => u (numOf n ref l p), fun l p i hi => ?_⟩
  beta_reduce
  rw [CA.number_unique hw (numOf_numbered hw (CA.mem_of_numbered hw hi)) hi]

theorem FVMesh.cellApply {n : Nat} {cells ref : CA} {dom : LCA} {minL maxL w : Nat} (g : FVMesh n cells ref dom minL maxL w) (hnum : FVNumbers n cells ref) (h0 : K)
    {cd : CellDef K U V} (hS : CellStencilOK n w cd.stencil cd.center) {u : Int → U} {val : Nat → List Int → U} (hu : FieldIs n ref u val) :
    ∃ out, cellApplyTo n h0 u ref cells cd = some out ∧ LeafValues n cells out fun l p => stencilSum n (val l) p (cd.coeffs (cellLength h0 l)) cd.stencil := by
  obtain ⟨rs, h1, h2, h3⟩ := g.cellRegions hnum h0 hS hu
  refine ⟨_, by unfold cellApplyTo; rw [h1]; rfl, fun l p v hv => ?_, fun v hv => ?_⟩
  · beta_reduce
    rw [foldl_run, foldl_addTo, zero_add, h2 l p v hv]
  · beta_reduce
    rw [foldl_run, foldl_addTo, zero_add, h3 v hv]

/-- C86. A linear cell-based scheme, of any stencil with its centre and any coefficients: on every leaf `p` of level `l` the output is `Σ_s A_s(h_l) u(p + s)`, with the values
of the field in the cells of the level `l` around `p`, leaves or ghosts, and the other cells get 0. -/
theorem C86_linear (n : Nat) (cells ref : CA) (dom : LCA) (minL maxL w : Nat) (h0 : K) (cd : CellDef K U V) (g : FVMesh n cells ref dom minL maxL w)
    (hnum : FVNumbers n cells ref) (hS : CellStencilOK n w cd.stencil cd.center) (u : Int → U) (val : Nat → List Int → U) (hu : FieldIs n ref u val) :
    ∃ out, cellApplyTo n h0 u ref cells cd = some out ∧ LeafValues n cells out fun l p => stencilSum n (val l) p (cd.coeffs (cellLength h0 l)) cd.stencil :=
  g.cellApply hnum h0 hS hu

omit [AddCommGroup U] in
/-- C86. A non-linear cell-based scheme: on every leaf `p` of level `l` the output is the value of the scheme function on the cells `p + s` of level `l`, in the order of the
stencil and with their numbers, and the other cells get 0. -/
theorem C86_nonlinear (n : Nat) (cells ref : CA) (dom : LCA) (minL maxL w : Nat) (cf : CellFun U V) (g : FVMesh n cells ref dom minL maxL w)
    (hnum : FVNumbers n cells ref) (hS : CellStencilOK n w cf.stencil cf.center) (u : Int → U) :
    ∃ out, cellFunApplyTo n u ref cells cf = some out ∧
      (∀ l p v, (l, p, v) ∈ cells.numbered n → ∃ c, List.Forall₂ (fun s m => CellIs n ref l (shiftPoint s n p) m) cf.stencil c ∧ out v = cf.value c u) ∧
      ∀ v, (∀ l p, (l, p, v) ∉ cells.numbered n) → out v = 0 := by
  obtain ⟨rs, h1, h2, h3⟩ := g.cellFunRegions hnum hS u
  refine ⟨_, by unfold cellFunApplyTo; rw [h1]; rfl, fun l p v hv => ?_, fun v hv => ?_⟩
  · obtain ⟨c, c1, c2⟩ := h2 l p v hv
    exact ⟨c, c1, by beta_reduce; rw [foldl_run, foldl_addTo, zero_add, c2]⟩
  · beta_reduce
    rw [foldl_run, foldl_addTo, zero_add, h3 v hv]

/-! ### algebra -/

theorem stencilSum_smul (n : Nat) (f : List Int → U) (q : List Int) (s : K) : ∀ (A : List (U →ₗ[K] V)) (S : List (Nat → Int)),
    stencilSum n f q (A.map fun x => s • x) S = s • stencilSum n f q A S := by
  intro A
  induction A with
  | nil => intro S; simp [stencilSum]
  | cons a A ih =>
    intro S
    cases S with
    | nil => simp [stencilSum]
    | cons t S => rw [List.map_cons, stencilSum, stencilSum, ih, smul_add, LinearMap.smul_apply]

theorem stencilSum_add (n : Nat) (f : List Int → U) (q : List Int) : ∀ (A B : List (U →ₗ[K] V)) (S : List (Nat → Int)), A.length = B.length →
    stencilSum n f q (List.zipWith (fun x y => x + y) A B) S = stencilSum n f q A S + stencilSum n f q B S := by
  intro A
  induction A with
  | nil =>
    intro B S h
    obtain rfl : B = [] := List.length_eq_zero_iff.1 h.symm
    simp [stencilSum]
  | cons a A ih =>
    intro B S h
    cases B with
    | nil => simp at h
    | cons b B =>
      cases S with
      | nil => simp [stencilSum]
      | cons t S =>
        rw [List.zipWith_cons_cons, stencilSum, stencilSum, stencilSum, ih B S (by simpa using h), LinearMap.add_apply]
        abel

/-- The fields with values on the leaves and 0 elsewhere are equal when the values are. -/
theorem LeafValues.ext {n : Nat} {cells : CA} {out out' : Int → V} {val : Nat → List Int → V} (h : LeafValues n cells out val) (h' : LeafValues n cells out' val) : out = out' := by
  funext v
  by_cases hv : ∃ l p, (l, p, v) ∈ cells.numbered n
  · obtain ⟨l, p, hv⟩ := hv
    rw [h.1 l p v hv, h'.1 l p v hv]
  · rw [h.2 v fun l p hp => hv ⟨l, p, hp⟩, h'.2 v fun l p hp => hv ⟨l, p, hp⟩]

/-- C86. `s * scheme`, `-scheme` and, for schemes with the same stencil, `scheme1 + scheme2` and `scheme1 - scheme2`: the outputs are the multiples, the sums and the
differences of the outputs. -/
theorem C86_algebra_partial (n : Nat) (cells ref : CA) (dom : LCA) (minL maxL w : Nat) (h0 s : K) (a b : CellDef K U V) (g : FVMesh n cells ref dom minL maxL w)
    (hnum : FVNumbers n cells ref) (hS : CellStencilOK n w a.stencil a.center) (hst : b.stencil = a.stencil) (hc : b.center = a.center)
    (hl : ∀ h, (a.coeffs h).length = (b.coeffs h).length) (u : Int → U) :
    ∃ oa ob, cellApplyTo n h0 u ref cells a = some oa ∧ cellApplyTo n h0 u ref cells b = some ob ∧
      cellApplyTo n h0 u ref cells (a.smul s) = some (fun v => s • oa v) ∧ cellApplyTo n h0 u ref cells a.neg = some (fun v => - oa v) ∧
      cellApplyTo n h0 u ref cells (a.add b) = some (fun v => oa v + ob v) ∧ cellApplyTo n h0 u ref cells (a.sub b) = some (fun v => oa v - ob v) := by
  obtain ⟨val, hu⟩ := values_exist g.refWF u
  have hSb : CellStencilOK n w b.stencil b.center := by rw [hst, hc]; exact hS
  obtain ⟨oa, a1, a2⟩ := g.cellApply hnum h0 hS hu
  obtain ⟨ob, b1, b2⟩ := g.cellApply hnum h0 hSb hu
  have smul : ∀ t : K, cellApplyTo n h0 u ref cells (a.smul t) = some (fun v => t • oa v) := by
    intro t
    obtain ⟨o, o1, o2⟩ := g.cellApply (cd := a.smul t) hnum h0 hS hu
    rw [o1, LeafValues.ext o2 (out' := fun v => t • oa v) ⟨fun l p v hv => ?_, fun v hv => ?_⟩]
    · beta_reduce
      rw [a2.1 l p v hv]
      exact (stencilSum_smul n (val l) p t _ _).symm
    · beta_reduce
      rw [a2.2 v hv, smul_zero]
  refine ⟨oa, ob, a1, b1, smul s, ?_, ?_, ?_⟩
  · unfold CellDef.neg
    rw [smul]
    simp
  · obtain ⟨o, o1, o2⟩ := g.cellApply (cd := a.add b) hnum h0 hS hu
    rw [o1, LeafValues.ext o2 (out' := fun v => oa v + ob v) ⟨fun l p v hv => ?_, fun v hv => ?_⟩]
    · beta_reduce
      rw [a2.1 l p v hv, b2.1 l p v hv, hst]
      exact (stencilSum_add n (val l) p _ _ _ (hl _)).symm
    · beta_reduce
      rw [a2.2 v hv, b2.2 v hv, add_zero]
  · obtain ⟨o, o1, o2⟩ := g.cellApply (cd := a.sub b) hnum h0 hS hu
    rw [o1, LeafValues.ext o2 (out' := fun v => oa v - ob v) ⟨fun l p v hv => ?_, fun v hv => ?_⟩]
    · beta_reduce
      rw [a2.1 l p v hv, b2.1 l p v hv, hst]
      have e : stencilSum n (val l) p ((a.sub b).coeffs (cellLength h0 l)) a.stencil =
          stencilSum n (val l) p (a.coeffs (cellLength h0 l)) a.stencil + stencilSum n (val l) p ((b.coeffs (cellLength h0 l)).map fun x => (-1 : K) • x) a.stencil :=
        stencilSum_add n (val l) p _ _ _ ((hl _).trans (List.length_map _).symm)
      rw [stencilSum_smul, neg_one_smul, ← sub_eq_add_neg] at e
      exact e.symm
    · beta_reduce
      rw [a2.2 v hv, b2.2 v hv, sub_zero]

/-- The forward difference, on the stencil (centre, right), and the difference of the left neighbour and of the centre, on the stencil (centre, left). -/
def forwardDiff : CellDef Rat Rat Rat := ⟨[fun _ => 0, unitDir 0], 0, fun _ => [-1 • LinearMap.id, LinearMap.id]⟩
def backwardDiff : CellDef Rat Rat Rat := ⟨[fun _ => 0, fun k => - unitDir 0 k], 0, fun _ => [-1 • LinearMap.id, LinearMap.id]⟩

/-- The outputs of two schemes and of their sum on the second of four cells in 1D, for the field whose values are the squares of the numbers of the cells. -/
def sumCellsOnLine (a b : CellDef Rat Rat Rat) : Option (Rat × Rat × Rat) :=
  match mrMesh 0 ⟨1, 1⟩ lineMesh 1 1 with
  | none => none
  | some (m, _) =>
    match getIndex (m.cells.lca 1) 0 [] 1 with
    | some v =>
      match cellApplyTo 0 1 (fun i => (i : Rat) ^ 2) m.all m.cells a, cellApplyTo 0 1 (fun i => (i : Rat) ^ 2) m.all m.cells b,
        cellApplyTo 0 1 (fun i => (i : Rat) ^ 2) m.all m.cells (a.add b) with
      | some x, some y, some z => some (x v, y v, z v)
      | _, _, _ => none
    | none => none

/-- C86 fails for `scheme1 + scheme2` when the stencils differ: the coefficients of `scheme2` are applied to the cells of the stencil of `scheme1`. -/
theorem C86_sum_stencil_refuted : ∃ x y z, sumCellsOnLine forwardDiff backwardDiff = some (x, y, z) ∧ z ≠ x + y := by
  have h : ((sumCellsOnLine forwardDiff backwardDiff).map fun r => decide (r.2.2 ≠ r.1 + r.2.1)) = some true := by decide +kernel
  obtain ⟨r, h1, h2⟩ := Option.map_eq_some_iff.1 h
  exact ⟨r.1, r.2.1, r.2.2, h1, by simpa using h2⟩

omit [AddCommGroup U] in
/-- C86. The same for non-linear schemes with the same stencil. -/
theorem C86_algebra_nonlinear_partial (n : Nat) (cells ref : CA) (dom : LCA) (minL maxL w : Nat) (s : K) (a b : CellFun U V) (g : FVMesh n cells ref dom minL maxL w)
    (hnum : FVNumbers n cells ref) (hS : CellStencilOK n w a.stencil a.center) (hst : b.stencil = a.stencil) (hc : b.center = a.center) (u : Int → U) :
    ∃ oa ob, cellFunApplyTo n u ref cells a = some oa ∧ cellFunApplyTo n u ref cells b = some ob ∧
      cellFunApplyTo n u ref cells (a.smul s) = some (fun v => s • oa v) ∧ cellFunApplyTo n u ref cells (a.add b) = some (fun v => oa v + ob v) := by
  have hSb : CellStencilOK n w b.stencil b.center := by rw [hst, hc]; exact hS
  obtain ⟨oa, a1, a2, a3⟩ := C86_nonlinear n cells ref dom minL maxL w a g hnum hS u
  obtain ⟨ob, b1, b2, b3⟩ := C86_nonlinear n cells ref dom minL maxL w b g hnum hSb u
  obtain ⟨oc, c1, c2, c3⟩ := C86_nonlinear n cells ref dom minL maxL w (a.smul s) g hnum hS u
  obtain ⟨od, d1, d2, d3⟩ := C86_nonlinear n cells ref dom minL maxL w (a.add b) g hnum hS u
  refine ⟨oa, ob, a1, b1, ?_, ?_⟩
  · rw [c1]
    congr 1
    funext v
    by_cases hv : ∃ l p, (l, p, v) ∈ cells.numbered n
    · obtain ⟨l, p, hv⟩ := hv
      obtain ⟨x, x1, x2⟩ := a2 l p v hv
      obtain ⟨y, y1, y2⟩ := c2 l p v hv
      rw [x2, y2, cells_unique g.refWF y1 x1]
      rfl
    · rw [c3 v fun l p hp => hv ⟨l, p, hp⟩, a3 v fun l p hp => hv ⟨l, p, hp⟩, smul_zero]
  · rw [d1]
    congr 1
    funext v
    by_cases hv : ∃ l p, (l, p, v) ∈ cells.numbered n
    · obtain ⟨l, p, hv⟩ := hv
      obtain ⟨x, x1, x2⟩ := a2 l p v hv
      obtain ⟨y, y1, y2⟩ := b2 l p v hv
      obtain ⟨z, z1, z2⟩ := d2 l p v hv
      rw [hst] at y1
      rw [x2, y2, z2, cells_unique g.refWF z1 x1, cells_unique g.refWF y1 x1]
      rfl
    · rw [d3 v fun l p hp => hv ⟨l, p, hp⟩, a3 v fun l p hp => hv ⟨l, p, hp⟩, b3 v fun l p hp => hv ⟨l, p, hp⟩, add_zero]

/-- C86. `scheme1 + scheme2` of a linear and of a non-linear scheme on one cell: the output is the sum of the outputs. -/
theorem C86_algebra_mixed (n : Nat) (cells ref : CA) (dom : LCA) (minL maxL w : Nat) (h0 : K) (a : CellDef K U V) (b : CellFun U V) (g : FVMesh n cells ref dom minL maxL w)
    (hnum : FVNumbers n cells ref) (z : Nat → Int) (hz : ∀ k ≤ n, z k = 0) (ha : a.stencil = [z]) (hac : a.center = 0) (hb : b.stencil = [z]) (hbc : b.center = 0)
    (hl : ∀ h, (a.coeffs h).length = 1) (u : Int → U) :
    ∃ oa ob, cellApplyTo n h0 u ref cells a = some oa ∧ cellFunApplyTo n u ref cells b = some ob ∧ cellFunApplyTo n u ref cells (a.addFun h0 b) = some (fun v => oa v + ob v) := by
  have hSa : CellStencilOK n w a.stencil a.center := by
    rw [ha, hac]
    refine ⟨⟨z, rfl, hz⟩, fun s hs k hk => ?_⟩
    obtain rfl := List.mem_singleton.1 hs
    rw [hz k hk]
    omega
  have hSb : CellStencilOK n w b.stencil b.center := by rw [hb, hbc, ← ha, ← hac]; exact hSa
  obtain ⟨val, hu⟩ := values_exist g.refWF u
  obtain ⟨oa, a1, a2, a3⟩ := g.cellApply hnum h0 hSa hu
  obtain ⟨ob, b1, b2, b3⟩ := C86_nonlinear n cells ref dom minL maxL w b g hnum hSb u
  obtain ⟨od, d1, d2, d3⟩ := C86_nonlinear n cells ref dom minL maxL w (a.addFun h0 b) g hnum hSb u
  refine ⟨oa, ob, a1, b1, ?_⟩
  rw [d1]
  congr 1
  funext v
  by_cases hv : ∃ l p, (l, p, v) ∈ cells.numbered n
  · obtain ⟨l, p, hv⟩ := hv
    obtain ⟨y, y1, y2⟩ := b2 l p v hv
    obtain ⟨x, x1, x2⟩ := d2 l p v hv
    have hx : x = y := cells_unique g.refWF x1 y1
    subst hx
    rw [a2 l p v hv, x2, y2, ha]
    have x1 : List.Forall₂ (fun s m => CellIs n ref l (shiftPoint s n p) m) b.stencil x := x1
    rw [hb] at x1
    cases x1 with
    | @cons _ c _ _ hc hn =>
      cases hn
      obtain ⟨A, hA⟩ := List.length_eq_one_iff.1 (hl (cellLength h0 l))
      show b.value [c] u + (a.coeffs (cellLength h0 c.level)).headD 0 (u c.index) = _
      have e : stencilSum n (val l) p (a.coeffs (cellLength h0 l)) [z] = A (val l (shiftPoint z n p)) + 0 := by rw [hA]; rfl
      rw [hc.1, hu _ _ _ hc.2.2, hA]
      beta_reduce
      rw [e, add_zero, add_comm]
      rfl
  · rw [d3 v fun l p hp => hv ⟨l, p, hp⟩, a3 v fun l p hp => hv ⟨l, p, hp⟩, b3 v fun l p hp => hv ⟨l, p, hp⟩, add_zero]

end

/-! ### operators -/

section
variable {K : Type} [Field K]

theorem star_zero (n : Nat) (hn : n ≤ 2) : ∃ z : Nat → Int, starStencil n 0 = some [z] ∧ ∀ k ≤ n, z k = 0 := by
  have : n = 0 ∨ n = 1 ∨ n = 2 := by omega
  obtain rfl | rfl | rfl := this
  · exact ⟨vec [0], rfl, by decide⟩
  · exact ⟨vec [0, 0], rfl, by decide⟩
  · exact ⟨vec [0, 0, 0], rfl, by decide⟩

/-- C86. In dimension 1, 2 and 3: the identity gives back the values of the leaves, the zero operator gives 0. -/
theorem C86_identity (n m p : Nat) (hn : n ≤ 2) (cells ref : CA) (dom : LCA) (minL maxL w : Nat) (h0 : K) (g : FVMesh n cells ref dom minL maxL w)
    (hnum : FVNumbers n cells ref) (u : Int → Fin m → K) (val : Nat → List Int → Fin m → K) (hu : FieldIs n ref u val) :
    (∃ cd out, identityOp n m = some cd ∧ cellApplyTo n h0 u ref cells cd = some out ∧ LeafValues n cells out val) ∧
    ∃ cd, zeroOp n m p = some cd ∧ cellApplyTo n h0 u ref cells cd = some fun _ => 0 := by
  obtain ⟨z, h1, h2⟩ := star_zero n hn
  have hS : CellStencilOK n w [z] 0 := by
    refine ⟨⟨z, rfl, h2⟩, fun s hs k hk => ?_⟩
    obtain rfl := List.mem_singleton.1 hs
    rw [h2 k hk]
    omega
  constructor
  · obtain ⟨out, o1, o2, o3⟩ := g.cellApply (cd := (⟨[z], 0, fun _ => [LinearMap.id]⟩ : CellDef K (Fin m → K) (Fin m → K))) hnum h0 hS hu
    refine ⟨_, out, by unfold identityOp; rw [h1]; rfl, o1, fun l q v hv => ?_, o3⟩
    rw [o2 l q v hv]
    show val l (shiftPoint z n q) + 0 = _
    rw [add_zero, shift_congr (t := fun _ => 0) q n h2, shift_zero]
  · obtain ⟨out, o1, o2, o3⟩ := g.cellApply (cd := (⟨[z], 0, fun _ => [0]⟩ : CellDef K (Fin m → K) (Fin p → K))) hnum h0 hS hu
    refine ⟨_, by unfold zeroOp; rw [h1]; rfl, ?_⟩
    rw [o1]
    congr 1
    funext v
    by_cases hv : ∃ l p, (l, p, v) ∈ cells.numbered n
    · obtain ⟨l, q, hv⟩ := hv
      rw [o2 l q v hv]
      show (0 : Fin p → K) + 0 = 0
      rw [add_zero]
    · rw [o3 v fun l p hp => hv ⟨l, p, hp⟩]

theorem star_one (n : Nat) (hn : n ≤ 2) : ∃ S, starStencil n 1 = some S ∧ (∃ s, S[1]? = some s ∧ ∀ k ≤ n, s k = 0) ∧ (∀ s ∈ S, ∀ k ≤ n, - 1 ≤ s k ∧ s k ≤ 1) ∧
    ∀ {U : Type} [AddCommGroup U] [Module K U] (f : List Int → U) (q : List Int) (a b : K),
      stencilSum n f q ((List.range (1 + 2 * (n + 1))).map fun c => (if c = 1 then a else b) • (LinearMap.id : U →ₗ[K] U)) S =
        a • f q + b • ((List.range (n + 1)).map fun d => f (after n d q) + f (before n d q)).sum := by
  have hsh : ∀ {n : Nat} {s t : Nat → Int} (q : List Int), (∀ k ≤ n, s k = t k) → shiftPoint s n q = shiftPoint t n q := fun q h => shift_congr q _ h
  have : n = 0 ∨ n = 1 ∨ n = 2 := by omega
  obtain rfl | rfl | rfl := this
  · refine ⟨_, rfl, ⟨_, rfl, by decide⟩, by decide +kernel, fun f q a b => ?_⟩
    have e0 : shiftPoint (vec [0]) 0 q = q := by rw [hsh (t := fun _ => 0) q (by decide), shift_zero]
    have e1 : shiftPoint (vec [1]) 0 q = after 0 0 q := hsh q (by decide)
    have e2 : shiftPoint (vec [-1]) 0 q = before 0 0 q := hsh q (by decide)
    show b • f (shiftPoint (vec [-1]) 0 q) + (a • f (shiftPoint (vec [0]) 0 q) + (b • f (shiftPoint (vec [1]) 0 q) + 0)) =
      a • f q + b • (f (after 0 0 q) + f (before 0 0 q) + 0)
    rw [e0, e1, e2]
    module
  · refine ⟨_, rfl, ⟨_, rfl, by decide⟩, by decide +kernel, fun f q a b => ?_⟩
    have e0 : shiftPoint (vec [0, 0]) 1 q = q := by rw [hsh (t := fun _ => 0) q (by decide), shift_zero]
    have e1 : shiftPoint (vec [1, 0]) 1 q = after 1 0 q := hsh q (by decide)
    have e2 : shiftPoint (vec [-1, 0]) 1 q = before 1 0 q := hsh q (by decide)
    have e3 : shiftPoint (vec [0, 1]) 1 q = after 1 1 q := hsh q (by decide)
    have e4 : shiftPoint (vec [0, -1]) 1 q = before 1 1 q := hsh q (by decide)
    show b • f (shiftPoint (vec [-1, 0]) 1 q) + (a • f (shiftPoint (vec [0, 0]) 1 q) + (b • f (shiftPoint (vec [1, 0]) 1 q) +
      (b • f (shiftPoint (vec [0, -1]) 1 q) + (b • f (shiftPoint (vec [0, 1]) 1 q) + 0)))) =
      a • f q + b • (f (after 1 0 q) + f (before 1 0 q) + (f (after 1 1 q) + f (before 1 1 q) + 0))
    rw [e0, e1, e2, e3, e4]
    module
  · refine ⟨_, rfl, ⟨_, rfl, by decide⟩, by decide +kernel, fun f q a b => ?_⟩
    have e0 : shiftPoint (vec [0, 0, 0]) 2 q = q := by rw [hsh (t := fun _ => 0) q (by decide), shift_zero]
    have e1 : shiftPoint (vec [1, 0, 0]) 2 q = after 2 0 q := hsh q (by decide)
    have e2 : shiftPoint (vec [-1, 0, 0]) 2 q = before 2 0 q := hsh q (by decide)
    have e3 : shiftPoint (vec [0, 1, 0]) 2 q = after 2 1 q := hsh q (by decide)
    have e4 : shiftPoint (vec [0, -1, 0]) 2 q = before 2 1 q := hsh q (by decide)
    have e5 : shiftPoint (vec [0, 0, 1]) 2 q = after 2 2 q := hsh q (by decide)
    have e6 : shiftPoint (vec [0, 0, -1]) 2 q = before 2 2 q := hsh q (by decide)
    show b • f (shiftPoint (vec [-1, 0, 0]) 2 q) + (a • f (shiftPoint (vec [0, 0, 0]) 2 q) + (b • f (shiftPoint (vec [1, 0, 0]) 2 q) +
      (b • f (shiftPoint (vec [0, -1, 0]) 2 q) + (b • f (shiftPoint (vec [0, 1, 0]) 2 q) + (b • f (shiftPoint (vec [0, 0, -1]) 2 q) + (b • f (shiftPoint (vec [0, 0, 1]) 2 q) + 0)))))) =
      a • f q + b • (f (after 2 0 q) + f (before 2 0 q) + (f (after 2 1 q) + f (before 2 1 q) + (f (after 2 2 q) + f (before 2 2 q) + 0)))
    rw [e0, e1, e2, e3, e4, e5, e6]
    module

/-- C86. In dimension 1, 2 and 3, `make_diffusion_old`: on every leaf of side `h` the output is `-Δ_h u = Σ_d (2 u(p) - u(p + e_d) - u(p - e_d)) / h²`. -/
theorem C86_diffusion (n m : Nat) (hn : n ≤ 2) (cells ref : CA) (dom : LCA) (minL maxL w : Nat) (hw : 1 ≤ w) (h0 : K) (g : FVMesh n cells ref dom minL maxL w)
    (hnum : FVNumbers n cells ref) (u : Int → Fin m → K) (val : Nat → List Int → Fin m → K) (hu : FieldIs n ref u val) :
    ∃ cd out, diffusionOld n m = some cd ∧ cellApplyTo n h0 u ref cells cd = some out ∧
      LeafValues n cells out fun l p => (1 / (cellLength h0 l * cellLength h0 l)) •
        ((List.range (n + 1)).map fun d => (2 : K) • val l p - val l (after n d p) - val l (before n d p)).sum := by
  obtain ⟨S, h1, h2, h3, h4⟩ := star_one (K := K) n hn
  have hS : CellStencilOK n w S 1 := ⟨h2, fun s hs k hk => by have := h3 s hs k hk; omega⟩
  obtain ⟨out, o1, o2, o3⟩ := g.cellApply (cd := (⟨S, 1, fun h => (List.range (1 + 2 * (n + 1))).map fun c =>
    (if c = 1 then ((2 * (n + 1) : Nat) : K) else -1) • (1 / (h * h)) • LinearMap.id⟩ : CellDef K (Fin m → K) (Fin m → K))) hnum h0 hS hu
  refine ⟨_, out, by unfold diffusionOld; rw [h1]; rfl, o1, fun l p v hv => ?_, o3⟩
  rw [o2 l p v hv]
  have e := h4 (val l) p (((2 * (n + 1) : Nat) : K) * (1 / (cellLength h0 l * cellLength h0 l))) (-1 * (1 / (cellLength h0 l * cellLength h0 l)))
  simp only [smul_smul, ite_mul] at e ⊢
  refine Eq.trans ?_ (e.trans ?_)
  · rfl
  · have s1 : ((List.range (n + 1)).map fun d => (2 : K) • val l p - val l (after n d p) - val l (before n d p)).sum =
        ((2 * (n + 1) : Nat) : K) • val l p - ((List.range (n + 1)).map fun d => val l (after n d p) + val l (before n d p)).sum := by
      have : ∀ k : Nat, ((List.range k).map fun d => (2 : K) • val l p - val l (after n d p) - val l (before n d p)).sum =
          ((2 * k : Nat) : K) • val l p - ((List.range k).map fun d => val l (after n d p) + val l (before n d p)).sum := by
        intro k
        induction k with
        | zero => simp
        | succ k ih =>
          rw [List.range_succ, List.map_append, List.map_append, List.sum_append, List.sum_append, ih]
          simp only [List.map_cons, List.map_nil, List.sum_cons, List.sum_nil]
          push_cast
          module
      exact this (n + 1)
    rw [s1]
    module

/-- A graded mesh in 2D with two levels: the hypotheses are met. -/
example (u : Int → Fin 2 → Rat) : ∃ m x val cd out, mrMesh 1 ⟨2, 1⟩ exampleMesh 1 2 = some (m, x) ∧ diffusionOld 1 2 = some cd ∧ cellApplyTo 1 (1 : Rat) u m.all m.cells cd = some out ∧
    FieldIs 1 m.all u val ∧ LeafValues 1 m.cells out fun l p => (1 / (cellLength (1 : Rat) l * cellLength 1 l)) •
      ((List.range 2).map fun d => (2 : Rat) • val l p - val l (after 1 d p) - val l (before 1 d p)).sum := by
  obtain ⟨m, x, sub, h1, h2, h3, h4, h5⟩ := exampleLinFlux
  obtain ⟨val, hu⟩ := values_exist h2.refWF u
  obtain ⟨cd, out, k1, k2, k3⟩ := C86_diffusion 1 2 (by omega) m.cells m.all exampleDomain 1 2 2 (by omega) (1 : Rat) h2 h3 u val hu
  exact ⟨m, x, val, cd, out, h1, k1, k2, hu, k3⟩

/-- A reaction term `u² - u`: the sum of a non-linear and of a linear scheme on one cell. -/
example (u : Int → Rat) : ∃ m x a b, mrMesh 1 ⟨2, 1⟩ exampleMesh 1 2 = some (m, x) ∧
    cellApplyTo 1 (1 : Rat) u m.all m.cells (⟨[fun _ => 0], 0, fun _ => [-1 • LinearMap.id]⟩ : CellDef Rat Rat Rat) = some a ∧
    cellFunApplyTo 1 u m.all m.cells ⟨[fun _ => 0], 0, fun c f => f (cellAt c 0).index ^ 2⟩ = some b ∧
    cellFunApplyTo 1 u m.all m.cells (CellDef.addFun (1 : Rat) (⟨[fun _ => 0], 0, fun _ => [-1 • LinearMap.id]⟩ : CellDef Rat Rat Rat)
      ⟨[fun _ => 0], 0, fun c f => f (cellAt c 0).index ^ 2⟩) = some fun v => a v + b v := by
  obtain ⟨m, x, sub, h1, h2, h3, h4, h5⟩ := exampleLinFlux
  obtain ⟨a, b, k1, k2, k3⟩ := C86_algebra_mixed 1 m.cells m.all exampleDomain 1 2 2 (1 : Rat) (⟨[fun _ => 0], 0, fun _ => [-1 • LinearMap.id]⟩ : CellDef Rat Rat Rat)
    ⟨[fun _ => 0], 0, fun c f => f (cellAt c 0).index ^ 2⟩ h2 h3 (fun _ => 0) (fun _ _ => rfl) rfl rfl rfl rfl (fun _ => rfl) u
  exact ⟨m, x, a, b, h1, k1, k2, k3⟩

/-- Sums and differences with the same stencil. -/
example (u : Int → Rat) : ∃ m x a b, mrMesh 1 ⟨2, 1⟩ exampleMesh 1 2 = some (m, x) ∧ cellApplyTo 1 (1 : Rat) u m.all m.cells forwardDiff = some a ∧
    cellApplyTo 1 (1 : Rat) u m.all m.cells (forwardDiff.smul 3) = some b ∧ cellApplyTo 1 (1 : Rat) u m.all m.cells (forwardDiff.sub (forwardDiff.smul 3)) = some fun v => a v - b v := by
  obtain ⟨m, x, sub, h1, h2, h3, h4, h5⟩ := exampleLinFlux
  have hS : CellStencilOK 1 2 forwardDiff.stencil forwardDiff.center := ⟨⟨_, rfl, fun _ _ => rfl⟩, by decide⟩
  obtain ⟨a, b, k1, k2, -, -, -, k3⟩ := C86_algebra_partial 1 m.cells m.all exampleDomain 1 2 2 (1 : Rat) 2 forwardDiff (forwardDiff.smul 3) h2 h3 hS rfl rfl (fun _ => rfl) u
  exact ⟨m, x, a, b, h1, k1, k2, k3⟩

end

end Samurai

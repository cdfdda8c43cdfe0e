/-
The derivative of a non-linear scheme is the scheme of the Jacobians.
-/
import Verif.Lemmas.NewtonScheme
import Verif.Lemmas.PetscLocal
import Verif.Spec.Newton
import Mathlib.Analysis.Calculus.Deriv.Add
import Mathlib.Analysis.Calculus.Deriv.Mul

namespace Samurai

section
variable {K : Type} [NontriviallyNormedField K] {m p : Nat}

theorem hasDerivAt_list_sum {α : Type} {x : K} (l : List α) (f : K → α → K) (f' : α → K) (h : ∀ a ∈ l, HasDerivAt (fun t => f t a) (f' a) x) :
    HasDerivAt (fun t => (l.map (f t)).sum) (l.map f').sum x := by
  induction l with
  | nil => exact hasDerivAt_const x 0
  | cons a l ih =>
    simp only [List.map_cons, List.sum_cons]
    exact (h a (by simp)).add (ih fun b hb => h b (by simp [hb]))

theorem hasDerivAt_dirShare {n : Nat} {h0 : K} {F : K → List MCell → (Fin p → K) × (Fin p → K)} {G : List MCell → (Fin p → K) × (Fin p → K)} {bdry : Bool}
    {fs : List FaceCall} {bs bs' : List BdryCall} {c : Nat × List Int} {i : Fin p} (h1 : ∀ C, HasDerivAt (fun t => (F t C).1 i) ((G C).1 i) 0)
    (h2 : ∀ C, HasDerivAt (fun t => (F t C).2 i) ((G C).2 i) 0) :
    HasDerivAt (fun t => dirShare n h0 (F t) bdry fs bs bs' c i) (dirShare n h0 G bdry fs bs bs' c i) 0 := by
  unfold dirShare
  simp only [Pi.add_apply, list_sum_at]
  refine HasDerivAt.add (hasDerivAt_list_sum fs _ _ fun f _ => ?_) ?_
  · unfold faceShare
    simp only [Pi.add_apply]
    refine HasDerivAt.add ?_ ?_
    · split_ifs
      · simp only [Pi.smul_apply, smul_eq_mul]
        exact (h1 _).const_mul _
      · exact hasDerivAt_const _ _
    · split_ifs
      · simp only [Pi.smul_apply, smul_eq_mul]
        exact (h2 _).const_mul _
      · exact hasDerivAt_const _ _
  · cases bdry
    · exact hasDerivAt_const _ _
    · simp only [if_true, Pi.add_apply, list_sum_at]
      refine HasDerivAt.add (hasDerivAt_list_sum bs _ _ fun f _ => ?_) (hasDerivAt_list_sum bs' _ _ fun f _ => ?_)
      · split_ifs
        · simp only [bdryShare, Pi.smul_apply, smul_eq_mul]
          exact (h1 _).const_mul _
        · exact hasDerivAt_const _ _
      · split_ifs
        · simp only [bdryShare, Pi.smul_apply, smul_eq_mul]
          exact (h2 _).const_mul _
        · exact hasDerivAt_const _ _

theorem NonlinDef.HasJacobian.functions {nd : NonlinDef K (Fin m → K) (Fin p → K)} {n : Nat} {u : Int → Fin m → K} (h : nd.HasJacobian n u) :
    ((List.range (n + 1)).all fun d => (nd.fluxFunction d).isSome) = true ∧ ((List.range (n + 1)).all fun d => (nd.jacFunction d).isSome) = true := by
  constructor <;>
  · rw [List.all_eq_true]
    intro d hd
    obtain ⟨F, J, h1, h2, -⟩ := h d (by rw [List.mem_range] at hd; omega)
    simp [h1, h2]

variable {n : Nat} {cells ref : CA} {dom sub : LCA} {minL maxL w : Nat}

/-- The scheme on the fields `u + t v`: its derivative with respect to `t` is the scheme whose fluxes are those of the Jacobians at `u`. -/
theorem FVMesh.nonlin_deriv (g : FVMesh n cells ref dom minL maxL w) (hnum : FVNumbers n cells ref) (hsub : constructSubdomain n cells maxL = some sub) (h0 : K)
    (nd : NonlinDef K (Fin m → K) (Fin p → K)) (hS : ∀ d ≤ n, StencilOK n w (unitDir d) (nd.stencil d)) (bdry : Bool) (u v : Int → Fin m → K) (hJ : nd.HasJacobian n u) :
    ∃ (o : K → Int → Fin p → K) (o' : Int → Fin p → K), (∀ t, nonlinApply n h0 ref sub cells maxL bdry nd (fun k => u k + t • v k) = some (o t)) ∧
      applyTo n h0 ref sub cells maxL bdry ⟨nd.stencil, fun d => pairFlux v (nd.jacAt u d)⟩ = some o' ∧
      ∀ k i, HasDerivAt (fun t => o t k i) (o' k i) 0 := by
  have run : ∀ t : K, ∃ o, nonlinApply n h0 ref sub cells maxL bdry nd (fun k => u k + t • v k) = some o ∧ ∃ fs bs bs', SchemeCalls n ref cells dom maxL nd.stencil fs bs bs' ∧
      (∀ l q k, (l, q, k) ∈ cells.numbered n → o k = ((cellLength h0 l) ^ (n + 1))⁻¹ •
        ((List.range (n + 1)).map fun d => dirShare n h0 ((nd.fluxAt fun k => u k + t • v k).flux d) bdry (fs d) (bs d) (bs' d) (l, q)).sum) ∧
      ∀ k, (∀ l q, (l, q, k) ∉ cells.numbered n) → o k = 0 := by
    intro t
    obtain ⟨fs, bs, bs', o, j1, j2, j3, j4⟩ := C64_apply_scheme n cells ref dom sub minL maxL w h0 (nd.fluxAt fun k => u k + t • v k) bdry g hnum hsub hS
    exact ⟨o, by unfold nonlinApply; rw [if_pos hJ.functions.1]; exact j2, fs, bs, bs', j1, j3, j4⟩
  choose o k1 fs bs bs' k2 k3 k4 using run
  obtain ⟨fs', ba, ba', o', j1, j2, j3, j4⟩ := C64_apply_scheme n cells ref dom sub minL maxL w h0 ⟨nd.stencil, fun d => pairFlux v (nd.jacAt u d)⟩ bdry g hnum hsub hS
  refine ⟨o, o', k1, j2, fun k i => ?_⟩
  by_cases hk : ∃ l q, (l, q, k) ∈ cells.numbered n
  · obtain ⟨l, q, hk⟩ := hk
    have e : (fun t => o t k i) = fun t => ((cellLength h0 l) ^ (n + 1))⁻¹ *
        ((List.range (n + 1)).map fun d => dirShare n h0 ((nd.fluxAt fun k => u k + t • v k).flux d) bdry (fs' d) (ba d) (ba' d) (l, q) i).sum := by
      funext t
      rw [k3 t l q k hk, Pi.smul_apply, smul_eq_mul, list_sum_at]
      congr 1
      refine sum_map_congr fun d hd => ?_
      obtain ⟨p1, p2, p3⟩ := (k2 t).perm g.refWF j1 (d := d) (by rw [List.mem_range] at hd; omega)
      rw [dirShare_perm p1 p2 p3]
    rw [e, j3 l q k hk, Pi.smul_apply, smul_eq_mul, list_sum_at]
    refine (hasDerivAt_list_sum _ _ _ fun d hd => ?_).const_mul _
    obtain ⟨F, J, f1, f2, f3⟩ := hJ d (by rw [List.mem_range] at hd; omega)
    have e1 : ∀ t : K, (nd.fluxAt fun k => u k + t • v k).flux d = fun C => F C fun k => u k + t • v k := by
      intro t
      funext C
      simp only [NonlinDef.fluxAt, f1]
    have e2 : nd.jacAt u d = fun C => J C u := by
      funext C
      simp only [NonlinDef.jacAt, f2]
    simp only [e1, e2]
    exact hasDerivAt_dirShare (fun C => (f3 C).fst v i) fun C => (f3 C).snd v i
  · have hk : ∀ l q, (l, q, k) ∉ cells.numbered n := fun l q h => hk ⟨l, q, h⟩
    have e : (fun t => o t k i) = fun _ => 0 := by
      funext t
      rw [k4 t k hk]
      rfl
    rw [e, j4 k hk]
    exact hasDerivAt_const _ _

end

end Samurai

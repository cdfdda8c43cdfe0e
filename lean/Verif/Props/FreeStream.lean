/-
C67: a uniform flow is not changed by a scheme.
-/
import Verif.Lemmas.Side
import Verif.Props.LinFlux

namespace Samurai

section
variable {K U V : Type} [Field K] [AddCommGroup U] [Module K U] [AddCommGroup V] [Module K V]

/-- C67. Free-stream preservation. On every mesh of graded leaves: if the conservative flux in each direction `d` is the same, `φ d`, on all the interfaces (for
instance because the field is uniform), the scheme with the boundary fluxes gives 0 on all the leaves: the interfaces on the two sides of a leaf have the same
area, whatever the levels of the neighbours. Without the boundary fluxes this holds for the leaves that do not touch the boundary. -/
theorem C67_free_stream (n : Nat) (cells ref : CA) (dom sub : LCA) (minL maxL w : Nat) (h0 : K) (fd : FluxDef V) (bdry : Bool)
    (g : FVMesh n cells ref dom minL maxL w) (hnum : FVNumbers n cells ref) (hsub : constructSubdomain n cells maxL = some sub)
    (hS : ∀ d ≤ n, StencilOK n w (unitDir d) (fd.stencil d)) (h2 : (2 : K) ≠ 0) (φ : Nat → V)
    (hφ : ∀ d ≤ n, ∀ (l : Nat) (q : List Int) (C : List MCell), List.Forall₂ (fun s c => CellIs n ref l (shiftPoint s n q) c) (fd.stencil d) C →
      fd.flux d C = (φ d, - φ d)) :
    ∃ out, applyTo n h0 ref sub cells maxL bdry fd = some out ∧ ∀ l p v, (l, p, v) ∈ cells.numbered n →
      (bdry = true ∨ ∀ d ≤ n, ¬ Outside n dom maxL l (shiftPoint (unitDir d) n p) ∧ ¬ Outside n dom maxL l (shiftPoint (fun k => - unitDir d k) n p)) →
      out v = 0 := by
  obtain ⟨fs, bs, bs', out, k1, k2, k3, -⟩ := C64_apply_scheme n cells ref dom sub minL maxL w h0 fd bdry g hnum hsub hS
  refine ⟨out, k2, fun l p v hv hin => ?_⟩
  rw [k3 l p v hv, (sum_map_congr (g := fun _ => (0 : V)) fun d hd => ?_).trans (sum_map_zero' _), smul_zero]
  have hd' : d ≤ n := by rw [List.mem_range] at hd; omega
  obtain ⟨a1, a2, a3⟩ := k1 d hd'
  refine dirShare_uniform h2 h0 g hd' a1 a2 a3 (φ d) (hφ d hd') ?_ bdry (hin.imp id fun h => h d hd')
  exact CA.mem_of_numbered g.leaves.wf hv

end

end Samurai

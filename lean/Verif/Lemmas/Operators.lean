import Verif.Props.FreeStream
import Verif.Lemmas.Het
import Mathlib.Tactic.Abel
import Mathlib.Tactic.FieldSimp
import Mathlib.Tactic.LinearCombination
import Mathlib.Algebra.BigOperators.Fin

namespace Samurai

section
variable {K U V : Type} [Field K] [AddCommGroup U] [Module K U] [AddCommGroup V] [Module K V]

/-! ### stencils -/

theorem lineStencil_two (d : Nat) : lineStencil d 2 = [fun _ => 0, unitDir d] := by
  have h1 : Int.tdiv (- ((2 : Nat) : Int)) 2 + 1 = 0 := by decide
  unfold lineStencil lineStencilFrom
  rw [h1]
  simp only [List.range_succ, List.range_zero, List.nil_append, List.map_cons, List.map_nil, List.cons_append]
  congr 1
  funext k
  simp

theorem line_ok {n w : Nat} (hw : 1 ≤ w) (d : Nat) : StencilOK n w (unitDir d) (lineStencil d 2) := by
  rw [lineStencil_two]
  refine ⟨⟨_, List.mem_cons_self, fun _ _ => rfl⟩, ⟨unitDir d, by simp, fun _ _ => rfl⟩, fun s hs k _ => ?_⟩
  have := unitDir_le d k
  simp only [List.mem_cons, List.not_mem_nil, or_false] at hs
  rcases hs with rfl | rfl
  · show - (w : Int) ≤ 0 ∧ (0 : Int) ≤ w ∧ - (w : Int) ≤ 0 - unitDir d k ∧ 0 - unitDir d k ≤ w
    omega
  · omega

/-! ### fields -/

/-- A field with given values on the cells. -/
theorem field_exists {n : Nat} {ref : CA} (h : ((ref.numbered n).map fun e => e.2.2).Nodup) (val : Nat → List Int → U) :
    ∃ u : Int → U, FieldIs n ref u val := by
  classical
  refine ⟨fun i => if h : ∃ e : Nat × List Int, (e.1, e.2, i) ∈ ref.numbered n then val h.choose.1 h.choose.2 else 0, fun l p i hi => ?_⟩
  have hx : ∃ e : Nat × List Int, (e.1, e.2, i) ∈ ref.numbered n := ⟨(l, p), hi⟩
  simp only []
  rw [dif_pos hx]
  have := List.inj_on_of_nodup_map h hx.choose_spec hi rfl
  simp only [Prod.mk.injEq] at this
  rw [this.1, this.2.1]

theorem linValue_stencil {n : Nat} {ref : CA} {u : Int → U} {val : Nat → List Int → U} (hu : FieldIs n ref u val) {l : Nat} {q : List Int} :
    ∀ {S : List (Nat → Int)} {C : List MCell} (A : List (U →ₗ[K] V)), List.Forall₂ (fun s c => CellIs n ref l (shiftPoint s n q) c) S C →
      linValue u A C = stencilSum n (val l) q A S := by
  intro S C A h
  induction h generalizing A with
  | nil => cases A <;> rfl
  | cons h _ ih =>
    cases A with
    | nil => rfl
    | cons a A =>
      unfold linValue stencilSum
      rw [ih A, hu _ _ _ h.2.2]

theorem levelOf_stencil {n : Nat} {ref : CA} {l : Nat} {q : List Int} {S : List (Nat → Int)} {C : List MCell} (hS : S ≠ [])
    (h : List.Forall₂ (fun s c => CellIs n ref l (shiftPoint s n q) c) S C) : levelOf C = l := by
  cases h with
  | nil => exact absurd rfl hS
  | cons h _ => exact h.1

theorem StencilOK.ne_nil {n w : Nat} {dir : Nat → Int} {S : List (Nat → Int)} (h : StencilOK n w dir S) : S ≠ [] := by
  obtain ⟨s, hs, -⟩ := h.orig
  rintro rfl
  simp at hs

/-! ### a regular cell -/

theorem vol_inv (h : K) (n : Nat) (x : V) : (h ^ (n + 1))⁻¹ • (h ^ n • x) = h⁻¹ • x := by
  rw [smul_smul]
  congr 1
  by_cases hh : h = 0
  · subst hh
    cases n with
    | zero => simp
    | succ n => simp
  · rw [pow_succ, mul_inv, mul_assoc, mul_comm h⁻¹, ← mul_assoc, inv_mul_cancel₀ (pow_ne_zero n hh), one_mul]

/-! ### combinations of schemes -/

theorem apply_combination {n : Nat} {cells ref : CA} {dom sub : LCA} {minL maxL w : Nat} (h0 : K) (bdry : Bool)
    (g : FVMesh n cells ref dom minL maxL w) (hnum : FVNumbers n cells ref) (hsub : constructSubdomain n cells maxL = some sub)
    (fa fb fc : FluxDef V) (s : K) (hS : ∀ d ≤ n, StencilOK n w (unitDir d) (fa.stencil d)) (hb : fb.stencil = fa.stencil) (hc : fc.stencil = fa.stencil)
    (hf : ∀ d ≤ n, ∀ C, fc.flux d C = fa.flux d C + s • fb.flux d C) :
    ∃ a b, applyTo n h0 ref sub cells maxL bdry fa = some a ∧ applyTo n h0 ref sub cells maxL bdry fb = some b ∧
      applyTo n h0 ref sub cells maxL bdry fc = some fun i => a i + s • b i := by
  obtain ⟨fsa, ba, ba', a, a2, a1, a3, a4⟩ := C64_apply_scheme n cells ref dom sub minL maxL w h0 fa bdry g hnum hsub hS
  obtain ⟨fsb, bb, bb', b, b2, b1, b3, b4⟩ := C64_apply_scheme n cells ref dom sub minL maxL w h0 fb bdry g hnum hsub (hb ▸ hS)
  obtain ⟨fsc, bc, bc', c, c2, c1, c3, c4⟩ := C64_apply_scheme n cells ref dom sub minL maxL w h0 fc bdry g hnum hsub (hc ▸ hS)
  refine ⟨a, b, a1, b1, ?_⟩
  rw [c1]
  congr 1
  funext i
  by_cases hi : ∃ l p, (l, p, i) ∈ cells.numbered n
  · obtain ⟨l, p, hi⟩ := hi
    rw [a3 l p i hi, b3 l p i hi, c3 l p i hi, smul_comm s, ← smul_add]
    congr 1
    rw [← sum_map_smul s, ← sum_map_add']
    refine sum_map_congr fun d hd => ?_
    have hd : d ≤ n := by rw [List.mem_range] at hd; omega
    rw [hb] at b2
    rw [hc] at c2
    obtain ⟨p1, p2, p3⟩ := a2.perm g.refWF c2 hd
    obtain ⟨q1, q2, q3⟩ := b2.perm g.refWF c2 hd
    rw [dirShare_perm p1 p2 p3, dirShare_perm q1 q2 q3]
    exact dirShare_add s (fun C => by rw [hf d hd]; rfl) (fun C => by rw [hf d hd]; rfl) ..
  · have hi : ∀ l p, (l, p, i) ∉ cells.numbered n := fun l p h => hi ⟨l, p, h⟩
    rw [a4 i hi, b4 i hi, c4 i hi, smul_zero, add_zero]

theorem linValue_map_smul (u : Int → U) (s : K) : ∀ (A : List (U →ₗ[K] V)) (C : List MCell),
    linValue u (A.map fun x => s • x) C = s • linValue u A C := by
  intro A
  induction A with
  | nil => intro C; simp [linValue]
  | cons a A ih =>
    intro C
    cases C with
    | nil => simp [linValue]
    | cons c C =>
      simp only [List.map_cons, linValue]
      rw [ih C, smul_add]
      rfl

theorem linValue_zip (u : Int → U) : ∀ (A B : List (U →ₗ[K] V)) (C : List MCell), A.length = B.length →
    linValue u (List.zipWith (fun x y => x + y) A B) C = linValue u A C + linValue u B C := by
  intro A
  induction A with
  | nil =>
    intro B C h
    obtain rfl : B = [] := List.length_eq_zero_iff.1 h.symm
    simp [linValue]
  | cons a A ih =>
    intro B C h
    cases B with
    | nil => simp at h
    | cons b B =>
      cases C with
      | nil => simp [linValue]
      | cons c C =>
        simp only [List.zipWith_cons_cons, linValue]
        rw [ih B C (by simpa using h), LinearMap.add_apply]
        abel

theorem linValue_const (u : Int → U) (c : U) : ∀ (A : List (U →ₗ[K] V)) (C : List MCell), A.length = C.length → (∀ m ∈ C, u m.index = c) →
    linValue u A C = (A.map fun x => x c).sum := by
  intro A
  induction A with
  | nil => intro C _ _; simp [linValue]
  | cons a A ih =>
    intro C h hc
    cases C with
    | nil => simp at h
    | cons m C =>
      simp only [List.map_cons, List.sum_cons, linValue]
      rw [ih C (by simpa using h) (fun m hm => hc m (List.mem_cons_of_mem _ hm)), hc m List.mem_cons_self]

end

end Samurai

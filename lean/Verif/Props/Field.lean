/-
Expressions of fields.
-/
import Verif.Lemmas.Field
import Verif.Props.Bc
import Verif.Props.PetscExample

namespace Samurai

variable {U : Type} [Inhabited U] {n : Nat}

/-- C96, partial: `field = expression` succeeds, sets each component of each leaf of the field to the function of the values that the operands have in this same cell, each in its own
mesh, as they were before the assignment (the field itself can be an operand), and changes nothing else: neither the other cells of the field (ghosts), nor the other fields.
The operands have the same number of components and the same layout as the field, or are scalar fields if the field is scalar or stored by components (SOA); any numbers can be used.
Missing: scalar fields with vector fields stored by cells, see `C96_field_expression_refuted`. -/
theorem C96_field_expression_partial {env : Nat → FieldState U} {a : Nat} {e : FieldExpr U} (hok : ∀ k, k = a ∨ e.Uses k → (env k).OK n)
    (hin : ∀ k, e.Uses k → ∀ l p, (env a).cells.Mem n l p → (env k).ref.Mem n l p) (hf : ∀ k, e.Uses k → (env k).Fits (env a).size (env a).soa) :
    ∃ env', assignExpr n a e env = some env' ∧ (∀ k, k ≠ a → env' k = env k) ∧ env' a = { env a with data := (env' a).data } ∧
      (∀ l p v c, (env a).cells.Mem n l p → (l, p, v) ∈ (env a).ref.numbered n → c < (env a).size → ∀ read : Nat → Nat → U,
        (∀ k v', e.Uses k → (l, p, v') ∈ (env k).ref.numbered n → read k c = (env k).data v' (if (env k).size = 1 then 0 else c)) →
        (env' a).data v c = e.valueAt read c) ∧
      ∀ v c, ((∀ l p, (env a).cells.Mem n l p → (l, p, v) ∉ (env a).ref.numbered n) ∨ (env a).size ≤ c) → (env' a).data v c = (env a).data v c := by
  have ha := hok a (Or.inl rfl)
  obtain ⟨c', h0⟩ := forEachCA_const ha.cellsWF (fun (s : Option (Nat → FieldState U)) l yz i => s.bind fun env => assignRow n a e env l yz i) (some env)
  have hmem : ∀ r ∈ (env a).cells.rows n, ∀ x ∈ r.2.2, (env a).cells.Mem n r.1 (r.2.1 ++ [x]) := fun r hr x hx =>
    (CA.mem_iff_rows ha.cellsWF).2 ⟨r.2.1, r.2.2, x, hr, hx, rfl⟩
  obtain ⟨env', h1, h2, h3, h4⟩ := assignRows_ok (n := n) (a := a) (e := e) ((env a).cells.rows n) env (CA.rows_disjoint ha.cellsWF)
    (fun r hr => ⟨(rows_valid (ha.cellsWF r.1 (CA.mem_rows.1 hr).1) (CA.mem_rows.1 hr).2).2, ha.steps r hr⟩) (fun k hk => (hok k hk).refWF) ha.numbers
    (fun k hk r hr x hx => by
      rcases hk with rfl | hk
      · exact ha.leaves _ _ (hmem r hr x hx)
      · exact hin k hk _ _ (hmem r hr x hx)) hf
  refine ⟨env', ?_, h2.1, h2.2, ?_, ?_⟩
  · unfold assignExpr
    rw [h0, h1]
    rfl
  · intro l p v c hm hv hc read hread
    obtain ⟨yz, i, x, hr, hx, rfl⟩ := (CA.mem_iff_rows ha.cellsWF).1 hm
    rw [(numbered_numOf ha.refWF hv).2, h3 _ hr x hx c hc]
    refine valueAt_congr e fun k hk => ?_
    exact (hread k _ hk (numOf_numbered (hok k (Or.inr hk)).refWF (hin k hk _ _ hm))).symm
  · intro v c h
    refine h4 v c (h.imp_left fun h r hr x hx hh => ?_)
    refine h _ _ (hmem r hr x hx) ?_
    rw [hh]
    exact numOf_numbered ha.refWF (ha.leaves _ _ (hmem r hr x hx))

/-! ### concrete cases -/

/-- The leaves of `segMesh` with their numbers. -/
def segRef : CA := (updateIndexCA 0 segMesh).getD segMesh

theorem segRef_spec : segRef.WF 0 ∧ segRef.NumbersDiffer 0 ∧ ∀ l p, segRef.Mem 0 l p ↔ segMesh.Mem 0 l p := by
  obtain ⟨c, g1, g2, g3, g4, g5, g6⟩ := C08_levels 0 _ segMesh_spec.2.1
  have he : segRef = c := by unfold segRef; rw [g1]; rfl
  rw [he]
  refine ⟨g3, ?_, g4⟩
  unfold CA.NumbersDiffer
  rw [g6]
  refine (List.nodup_map_iff ?_).2 List.nodup_range
  intro a b hab
  simpa using hab

/-- A field on the leaves of `segMesh`. -/
def segField (size : Nat) (soa : Bool) (data : Int → Nat → Int) : FieldState Int := ⟨segMesh, segRef, size, soa, data⟩

theorem segField_ok (size : Nat) (soa : Bool) (data : Int → Nat → Int) : (segField size soa data).OK 0 :=
  ⟨segMesh_spec.2.1, by show ∀ r ∈ segMesh.rows 0, r.2.2.step = 1; decide +kernel, segRef_spec.1, segRef_spec.2.1, fun l p h => (segRef_spec.2.2 l p).2 h⟩

/-- The vector field number 0, `vec`, and the scalar field number 1, `w`. -/
def mixEnv (size : Nat) (soa : Bool) : Nat → FieldState Int
  | 1 => segField 1 false fun v _ => v + 1
  | _ => segField size soa fun v c => 10 * v + c

/-- `vec * w + 5`. -/
def mixExpr : FieldExpr Int := .fn 2 (fun x => x 0 + x 1) fun j => if j = 0 then .fn 2 (fun x => x 0 * x 1) fun j => if j = 0 then .field 0 else .field 1 else .const 5

theorem mixExpr_uses (k : Nat) (h : mixExpr.Uses k) : k = 0 ∨ k = 1 := by
  obtain ⟨j, h⟩ := h
  simp only [] at h
  split at h
  · obtain ⟨i, h⟩ := h
    simp only [] at h
    split at h
    · exact Or.inl h.symm
    · exact Or.inr h.symm
  · exact h.elim

/-- C96_field_expression_partial for `vec = vec * w + 5` with a field of three components stored by components and a scalar field, on two levels. -/
example : (∀ k, k = 0 ∨ mixExpr.Uses k → (mixEnv 3 true k).OK 0) ∧
    (∀ k, mixExpr.Uses k → ∀ l p, (mixEnv 3 true 0).cells.Mem 0 l p → (mixEnv 3 true k).ref.Mem 0 l p) ∧
    (∀ k, mixExpr.Uses k → (mixEnv 3 true k).Fits (mixEnv 3 true 0).size (mixEnv 3 true 0).soa) ∧ (mixEnv 3 true 0).cells.Mem 0 2 [3] ∧ mixExpr.Uses 0 ∧ mixExpr.Uses 1 := by
  refine ⟨fun k hk => ?_, fun k hk l p h => ?_, fun k hk => ?_, (segMesh_mem 2 [3]).2 (Or.inr ⟨rfl, 3, by omega, by omega, rfl⟩), ⟨0, 0, rfl⟩, ⟨0, 1, rfl⟩⟩
  · rcases hk with rfl | hk
    · exact segField_ok _ _ _
    · rcases mixExpr_uses k hk with rfl | rfl <;> exact segField_ok _ _ _
  · rcases mixExpr_uses k hk with rfl | rfl <;> exact (segRef_spec.2.2 l p).2 h
  · rcases mixExpr_uses k hk with rfl | rfl
    · exact Or.inl ⟨rfl, Or.inr rfl⟩
    · exact Or.inr ⟨rfl, rfl⟩

/-- C96 does not hold for a scalar field with a vector field stored by cells (the default layout): xtensor aligns the last dimension of the arrays, the components of the vector
field, with the cells of the scalar field. With two components, `vec = vec * w + 5` gives a wrong value in a leaf, silently; with three components it throws. -/
theorem C96_field_expression_refuted :
    (∀ size k, k = 0 ∨ k = 1 → (mixEnv size false k).OK 0 ∧ ((mixEnv size false k).size = size ∨ (mixEnv size false k).size = 1) ∧ (mixEnv size false k).cells = segMesh) ∧
    (∃ env', assignExpr 0 0 mixExpr (mixEnv 2 false) = some env' ∧ ∃ v, segMesh.Mem 0 2 [2] ∧ (2, [2], v) ∈ segRef.numbered 0 ∧
      (env' 0).data v 1 ≠ (mixEnv 2 false 0).data v 1 * (mixEnv 2 false 1).data v 0 + 5) ∧
    assignExpr 0 0 mixExpr (mixEnv 3 false) = none := by
  refine ⟨fun size k hk => ?_, ?_, ?_⟩
  · rcases hk with rfl | rfl
    · exact ⟨segField_ok _ _ _, Or.inl rfl, rfl⟩
    · exact ⟨segField_ok _ _ _, Or.inr rfl, rfl⟩
  · have h : ((assignExpr 0 0 mixExpr (mixEnv 2 false)).map fun env' => decide ((2, [2], 1) ∈ segRef.numbered 0 ∧
        (env' 0).data 1 1 ≠ (mixEnv 2 false 0).data 1 1 * (mixEnv 2 false 1).data 1 0 + 5)) = some true := by decide +kernel
    obtain ⟨env', h1, h2⟩ := Option.map_eq_some_iff.1 h
    exact ⟨env', h1, 1, (segMesh_mem 2 [2]).2 (Or.inr ⟨rfl, 2, by omega, by omega, rfl⟩), of_decide_eq_true h2⟩
  · have h : (assignExpr 0 0 mixExpr (mixEnv 3 false)).isNone = true := by decide +kernel
    exact Option.isNone_iff_eq_none.1 h

end Samurai

/-
Fields made from a function, and the error with respect to an exact solution.
-/
import Verif.Model.FieldError
import Verif.Lemmas.Hdf5
import Verif.Lemmas.UpdateIntegral
import Verif.Props.Field
import Verif.Lemmas.Quadrature

namespace Samurai

variable {n m : Nat}

/-- With one point, the quadrature is the value at the centre times the volume of the cell. -/
theorem midpoint (hn : n ≤ 2) (cell : Cell ℝ (n + 1)) (f : (Fin (n + 1) → ℝ) → ℝ) : gaussQuadrature 0 cell f = some (cell.length ^ (n + 1) * f cell.center) := by
  match n, hn with
  | 0, _ =>
    have e : (![cell.length / 2 * 0 + cell.center 0] : Fin 1 → ℝ) = cell.center := by funext i; fin_cases i; simp
    simp only [gaussQuadrature, glRequired, glTable, quadratureSum, List.map_cons, List.map_nil, List.foldl_cons, List.foldl_nil, Int.cast_zero, zero_div, Option.map_some, e]
    congr 1; norm_num; ring
  | 1, _ =>
    have e : (![cell.length / 2 * 0 + cell.center 0, cell.length / 2 * 0 + cell.center 1] : Fin 2 → ℝ) = cell.center := by funext i; fin_cases i <;> simp
    simp only [gaussQuadrature, glRequired, glTable, quadratureSum, List.map_cons, List.map_nil, List.foldl_cons, List.foldl_nil, Int.cast_zero, zero_div, Option.map_some, e]
    congr 1; norm_num; ring
  | 2, _ =>
    have e : (![cell.length / 2 * 0 + cell.center 0, cell.length / 2 * 0 + cell.center 1, cell.length / 2 * 0 + cell.center 2] : Fin 3 → ℝ) = cell.center := by
      funext i; fin_cases i <;> simp
    simp only [gaussQuadrature, glRequired, glTable, quadratureSum, List.map_cons, List.map_nil, List.foldl_cons, List.foldl_nil, Int.cast_zero, zero_div, Option.map_some, e]
    congr 1; norm_num; ring

/-- The centre of the cell `p` of level `l`: `origin + scaling (p + 1/2) / 2^l` in each direction. -/
noncomputable def FieldMesh.centerOf (M : FieldMesh n) (l : Nat) (p : List Int) (i : Fin (n + 1)) : ℝ := M.origin i + M.scaling * ((toPt p i : ℝ) + 1 / 2) / 2 ^ l

/-- The volume of a cell of level `l`. -/
noncomputable def FieldMesh.volume (M : FieldMesh n) (l : Nat) : ℝ := (M.scaling / 2 ^ l) ^ (n + 1)

theorem cell_center (M : FieldMesh n) (l : Nat) (p : List Int) (k : Int) : (M.cell l p k).center = M.centerOf l p := by
  funext i
  simp only [Cell.center, FieldMesh.cell, Cell.mk', cellLength, FieldMesh.centerOf]
  ring

/-- C97, first part: `make_field(name, mesh, f)` gives the value of `f` at its centre to each leaf, and 0 to all the other cells. -/
theorem C97_make_field (M : FieldMesh n) (hw : M.cells.WF n) (hd : M.cells.NumbersDiffer n) (f : (Fin (n + 1) → ℝ) → Fin m → ℝ) :
    ∃ u, makeFieldFn M f = some u ∧ (∀ l p k, (l, p, k) ∈ M.cells.numbered n → u k = f (M.centerOf l p)) ∧
      ∀ k, (∀ l p, (l, p, k) ∉ M.cells.numbered n) → u k = fun _ => 0 := by
  unfold makeFieldFn
  rw [forEachCellCA_spec hw]
  have key : ∀ (L : List (Nat × List Int × Int)) (u0 : Int → Fin m → ℝ), (L.map fun e => e.2.2).Nodup →
      (∀ e ∈ L, (L.foldl (fun u e => Function.update u e.2.2 (f (M.cell e.1 e.2.1 e.2.2).center)) u0) e.2.2 = f (M.centerOf e.1 e.2.1)) ∧
      ∀ k, (∀ e ∈ L, e.2.2 ≠ k) → (L.foldl (fun u e => Function.update u e.2.2 (f (M.cell e.1 e.2.1 e.2.2).center)) u0) k = u0 k := by
    intro L
    induction L with
    | nil => intro u0 _; simp
    | cons e L ih =>
      intro u0 hnd
      rw [List.map_cons, List.nodup_cons] at hnd
      obtain ⟨i1, i2⟩ := ih (Function.update u0 e.2.2 (f (M.cell e.1 e.2.1 e.2.2).center)) hnd.2
      refine ⟨fun e' he' => ?_, fun k hk => ?_⟩
      · rcases List.mem_cons.1 he' with rfl | he'
        · rw [List.foldl_cons, i2 _ fun e2 h2 hh => hnd.1 (List.mem_map.2 ⟨e2, h2, hh⟩), Function.update_self, cell_center]
        · exact i1 e' he'
      · rw [List.foldl_cons, i2 k fun e2 h2 => hk e2 (List.mem_cons_of_mem _ h2), Function.update_of_ne (fun hh => hk e List.mem_cons_self hh.symm)]
  obtain ⟨k1, k2⟩ := key (M.cells.numbered n) (fun _ _ => 0) hd
  exact ⟨_, rfl, fun l p k h => k1 _ h, fun k h => k2 k fun e he hh => h e.1 e.2.1 (by rw [← hh]; exact he)⟩

theorem l2Sums_eq (hn : n ≤ 2) (M : FieldMesh n) (hw : M.cells.WF n) (u : Int → Fin m → ℝ) (exact : (Fin (n + 1) → ℝ) → Fin m → ℝ) :
    l2Sums M u exact = some (((M.cells.numbered n).map fun e => M.volume e.1 * ∑ c, (exact (M.centerOf e.1 e.2.1) c - u e.2.2 c) ^ 2).sum,
      ((M.cells.numbered n).map fun e => M.volume e.1 * ∑ c, exact (M.centerOf e.1 e.2.1) c ^ 2).sum) := by
  unfold l2Sums
  rw [forEachCellCA_spec hw]
  simp only [midpoint hn, Option.bind_some, Option.map_some, id, cell_center]
  have key : ∀ (L : List (Nat × List Int × Int)) (s : ℝ × ℝ),
      L.foldl (fun (s : Option (ℝ × ℝ)) e => s.bind fun s =>
        some (s.1 + (M.cell e.1 e.2.1 e.2.2).length ^ (n + 1) * ∑ c, (exact (M.centerOf e.1 e.2.1) c - u e.2.2 c) * (exact (M.centerOf e.1 e.2.1) c - u e.2.2 c),
          s.2 + (M.cell e.1 e.2.1 e.2.2).length ^ (n + 1) * ∑ c, exact (M.centerOf e.1 e.2.1) c * exact (M.centerOf e.1 e.2.1) c)) (some s) =
      some (s.1 + (L.map fun e => M.volume e.1 * ∑ c, (exact (M.centerOf e.1 e.2.1) c - u e.2.2 c) ^ 2).sum,
        s.2 + (L.map fun e => M.volume e.1 * ∑ c, exact (M.centerOf e.1 e.2.1) c ^ 2).sum) := by
    intro L
    induction L with
    | nil => intro s; simp
    | cons e L ih =>
      intro s
      rw [List.foldl_cons, Option.bind_some, ih]
      simp only [List.map_cons, List.sum_cons, ← add_assoc, pow_two]
      rfl
  rw [key]
  simp

/-- The sum over the leaves of the array is the sum over any list of the leaves, each once. -/
theorem sum_leaves {c : CA} (hw : c.WF n) {L : List (Nat × List Int)} (hnd : L.Nodup) (hL : ∀ l p, (l, p) ∈ L ↔ c.Mem n l p) (g : Nat → List Int → ℝ) (g' : Nat → List Int → Int → ℝ)
    (hg : ∀ l p k, (l, p, k) ∈ c.numbered n → g' l p k = g l p) : ((c.numbered n).map fun e => g' e.1 e.2.1 e.2.2).sum = (L.map fun e => g e.1 e.2).sum := by
  have h1 : ((c.numbered n).map fun e => g' e.1 e.2.1 e.2.2) = (((c.numbered n).map fun e => (e.1, e.2.1)).map fun e => g e.1 e.2) := by
    rw [List.map_map]
    exact List.map_congr_left fun e he => hg e.1 e.2.1 e.2.2 he
  rw [h1]
  refine List.Perm.sum_eq (List.Perm.map _ ?_)
  refine (List.perm_ext_iff_of_nodup (leaves_nodup hw) hnd).2 fun e => ?_
  rw [show e = (e.1, e.2) from rfl, hL]
  constructor
  · intro h
    obtain ⟨e', he', hh⟩ := List.mem_map.1 h
    have hh' : e'.1 = e.1 ∧ e'.2.1 = e.2 := ⟨congrArg Prod.fst hh, congrArg Prod.snd hh⟩
    rw [← hh'.1, ← hh'.2]
    exact CA.mem_of_numbered hw he'
  · intro h
    exact List.mem_map.2 ⟨_, numOf_numbered hw h, rfl⟩

/-- C97, second part: `L2_error(field, exact)` is the square root of the sum over the leaves, each of them counted once, of the volume of the leaf times the square of the norm of the
difference between the exact solution at the centre of the leaf and the value of the field; the relative error is its quotient by the same norm of the exact solution. In dimension 1, 2 and 3. -/
theorem C97_L2_error (hn : n ≤ 2) (M : FieldMesh n) (hw : M.cells.WF n) (u : Int → Fin m → ℝ) (exact : (Fin (n + 1) → ℝ) → Fin m → ℝ)
    (leaves : List (Nat × List Int)) (hnd : leaves.Nodup) (hL : ∀ l p, (l, p) ∈ leaves ↔ M.cells.Mem n l p)
    (val : Nat → List Int → Fin m → ℝ) (hval : ∀ l p k, (l, p, k) ∈ M.cells.numbered n → u k = val l p) :
    l2Error false M u exact = some (Real.sqrt (leaves.map fun e => M.volume e.1 * ∑ c, (exact (M.centerOf e.1 e.2) c - val e.1 e.2 c) ^ 2).sum) ∧
    ((leaves.map fun e => M.volume e.1 * ∑ c, exact (M.centerOf e.1 e.2) c ^ 2).sum > 0 →
      l2Error true M u exact = some (Real.sqrt (leaves.map fun e => M.volume e.1 * ∑ c, (exact (M.centerOf e.1 e.2) c - val e.1 e.2 c) ^ 2).sum /
        Real.sqrt (leaves.map fun e => M.volume e.1 * ∑ c, exact (M.centerOf e.1 e.2) c ^ 2).sum)) := by
  unfold l2Error
  rw [l2Sums_eq hn M hw,
    sum_leaves hw hnd hL (fun l p => M.volume l * ∑ c, (exact (M.centerOf l p) c - val l p c) ^ 2)
      (fun l p k => M.volume l * ∑ c, (exact (M.centerOf l p) c - u k c) ^ 2) (fun l p k h => by rw [hval l p k h]),
    sum_leaves hw hnd hL (fun l p => M.volume l * ∑ c, exact (M.centerOf l p) c ^ 2) (fun l p k => M.volume l * ∑ c, exact (M.centerOf l p) c ^ 2) (fun _ _ _ _ => rfl)]
  refine ⟨by simp, fun hpos => ?_⟩
  have := (Real.sqrt_pos.2 hpos).ne'
  simp [this]

/-- C97, third part: the error is 0 exactly if the field has the value of the exact solution at the centre of all the leaves, as a field made with this function. -/
theorem C97_zero (hn : n ≤ 2) (M : FieldMesh n) (hw : M.cells.WF n) (hs : 0 < M.scaling) (u : Int → Fin m → ℝ) (exact : (Fin (n + 1) → ℝ) → Fin m → ℝ) :
    l2Error false M u exact = some 0 ↔ ∀ l p k, (l, p, k) ∈ M.cells.numbered n → u k = exact (M.centerOf l p) := by
  unfold l2Error
  rw [l2Sums_eq hn M hw]
  simp only [Option.bind_some, Bool.false_eq_true, if_false, Option.some.injEq]
  have hv : ∀ l, 0 < M.volume l := fun l => by unfold FieldMesh.volume; positivity
  have hnn : ∀ x ∈ (M.cells.numbered n).map fun e => M.volume e.1 * ∑ c, (exact (M.centerOf e.1 e.2.1) c - u e.2.2 c) ^ 2, (0 : ℝ) ≤ x := fun x hx => by
    obtain ⟨e, _, rfl⟩ := List.mem_map.1 hx
    exact mul_nonneg (hv _).le (Finset.sum_nonneg fun _ _ => sq_nonneg _)
  rw [Real.sqrt_eq_zero (List.sum_nonneg hnn)]
  constructor
  · intro h l p k hk
    have h1 := (List.single_le_sum hnn _ (List.mem_map.2 ⟨(l, p, k), hk, rfl⟩)).trans h.le
    have h2 : ∑ c, (exact (M.centerOf l p) c - u k c) ^ 2 ≤ 0 := by
      by_contra hc
      exact absurd h1 (not_le.2 (mul_pos (hv l) (not_le.1 hc)))
    funext c
    have h3 := (Finset.single_le_sum (f := fun c => (exact (M.centerOf l p) c - u k c) ^ 2) (fun _ _ => sq_nonneg _) (Finset.mem_univ c)).trans h2
    have h4 := pow_eq_zero_iff (two_ne_zero) |>.1 (le_antisymm h3 (sq_nonneg _))
    linarith
  · intro h
    refine List.sum_eq_zero fun x hx => ?_
    obtain ⟨e, he, rfl⟩ := List.mem_map.1 hx
    rw [h e.1 e.2.1 e.2.2 he]
    simp

/-- C97, fourth part: two scalar fields on a mesh are equal for `operator==` exactly if they differ by at most `1e-15` in all the leaves, whatever the values in the other cells. -/
theorem C97_equal (cells : CA) (hw : cells.WF n) (u v : Int → ℝ) :
    ∃ b, fieldEq n cells u v = some b ∧ (b = true ↔ ∀ l p k, (l, p, k) ∈ cells.numbered n → |u k - v k| ≤ 1 / 10 ^ 15) := by
  unfold fieldEq
  rw [forEachCellCA_spec hw]
  refine ⟨_, rfl, ?_⟩
  have key : ∀ (L : List (Nat × List Int × Int)) (b : Bool), (L.foldl (fun same e => if |u e.2.2 - v e.2.2| > 1 / 10 ^ 15 then false else same) b = true ↔
      b = true ∧ ∀ e ∈ L, |u e.2.2 - v e.2.2| ≤ 1 / 10 ^ 15) := by
    intro L
    induction L with
    | nil => intro b; simp
    | cons e L ih =>
      intro b
      rw [List.foldl_cons, ih]
      by_cases h : |u e.2.2 - v e.2.2| > 1 / 10 ^ 15
      · rw [if_pos h]
        constructor
        · rintro ⟨hh, _⟩; exact absurd hh (by simp)
        · rintro ⟨_, hh⟩; exact absurd (hh e List.mem_cons_self) (not_le.2 h)
      · rw [if_neg h, List.forall_mem_cons]
        exact ⟨fun hh => ⟨hh.1, not_lt.1 h, hh.2⟩, fun hh => ⟨hh.1, hh.2.2⟩⟩
  rw [key]
  exact ⟨fun h l p k hk => h.2 _ hk, fun h => ⟨rfl, fun e he => h e.1 e.2.1 e.2.2 he⟩⟩

/-! ### concrete cases -/

/-- The interval with a leaf of level 1 and two of level 2. -/
noncomputable def segFieldMesh : FieldMesh 0 := ⟨segRef, fun _ => 0, 1⟩

/-- C97_make_field, C97_L2_error, C97_zero and C97_equal on this interval: a field with two components made from a function; its error with respect to this function is 0. -/
example (f : (Fin 1 → ℝ) → Fin 2 → ℝ) : segRef.Mem 0 2 [3] ∧ ∃ u, makeFieldFn segFieldMesh f = some u ∧ l2Error false segFieldMesh u f = some 0 := by
  obtain ⟨u, h1, h2, -⟩ := C97_make_field segFieldMesh segRef_spec.1 segRef_spec.2.1 f
  refine ⟨(segRef_spec.2.2 2 [3]).2 ((segMesh_mem 2 [3]).2 (Or.inr ⟨rfl, 3, by omega, by omega, rfl⟩)), u, h1, ?_⟩
  exact (C97_zero (by omega) segFieldMesh segRef_spec.1 (by show (0 : ℝ) < 1; norm_num) u f).2 h2

theorem segLeaves_list (l : Nat) (p : List Int) : (l, p) ∈ [(1, [0]), (2, [2]), (2, [3])] ↔ segRef.Mem 0 l p := by
  rw [segRef_spec.2.2, segMesh_mem]
  simp only [List.mem_cons, Prod.mk.injEq, List.not_mem_nil, or_false]
  constructor
  · rintro (h | ⟨rfl, rfl⟩ | ⟨rfl, rfl⟩)
    · exact Or.inl h
    · exact Or.inr ⟨rfl, 2, by omega, by omega, rfl⟩
    · exact Or.inr ⟨rfl, 3, by omega, by omega, rfl⟩
  · rintro (h | ⟨rfl, x, x1, x2, rfl⟩)
    · exact Or.inl h
    · rcases (show x = 2 ∨ x = 3 by omega) with rfl | rfl
      · exact Or.inr (Or.inl ⟨rfl, rfl⟩)
      · exact Or.inr (Or.inr ⟨rfl, rfl⟩)

/-- C97_L2_error: the leaves are `[0]` at level 1 and `[2]`, `[3]` at level 2. -/
example (u : Int → Fin 2 → ℝ) (f : (Fin 1 → ℝ) → Fin 2 → ℝ) : ∃ val : Nat → List Int → Fin 2 → ℝ, (∀ l p k, (l, p, k) ∈ segRef.numbered 0 → u k = val l p) ∧
    l2Error false segFieldMesh u f = some (Real.sqrt ([(1, [0]), (2, [2]), (2, [3])].map fun e : Nat × List Int =>
      segFieldMesh.volume e.1 * ∑ c, (f (segFieldMesh.centerOf e.1 e.2) c - val e.1 e.2 c) ^ 2).sum) := by
  have hv : ∀ l p k, (l, p, k) ∈ segRef.numbered 0 → u k = u (numOf 0 segRef l p) := fun l p k h => by rw [← (numbered_numOf segRef_spec.1 h).2]
  have hL : ∀ l p, (l, p) ∈ [(1, [0]), (2, [2]), (2, [3])] ↔ segRef.Mem 0 l p := segLeaves_list
  exact ⟨fun l p => u (numOf 0 segRef l p), hv, (C97_L2_error (n := 0) (by omega) segFieldMesh segRef_spec.1 u f _ (by decide) hL (fun l p => u (numOf 0 segRef l p)) hv).1⟩

/-- `operator==` is not transitive. -/
theorem C97_equal_not_transitive : ∃ u v w : Int → ℝ, fieldEq 0 segRef u v = some true ∧ fieldEq 0 segRef v w = some true ∧ fieldEq 0 segRef u w = some false := by
  have hmem : (1, [0], numOf 0 segRef 1 [0]) ∈ segRef.numbered 0 := numOf_numbered segRef_spec.1 ((segRef_spec.2.2 _ _).2 ((segMesh_mem _ _).2 (Or.inl ⟨rfl, rfl⟩)))
  obtain ⟨a, a1, a2⟩ := C97_equal segRef segRef_spec.1 (fun _ => 0) (fun _ => 1 / 10 ^ 15)
  obtain ⟨b, b1, b2⟩ := C97_equal segRef segRef_spec.1 (fun _ => 1 / 10 ^ 15) (fun _ => 2 / 10 ^ 15)
  obtain ⟨c, c1, c2⟩ := C97_equal segRef segRef_spec.1 (fun _ => 0) (fun _ => 2 / 10 ^ 15)
  refine ⟨fun _ => 0, fun _ => 1 / 10 ^ 15, fun _ => 2 / 10 ^ 15, ?_, ?_, ?_⟩
  · rw [a1, a2.2 fun _ _ _ _ => by rw [abs_le]; constructor <;> norm_num]
  · rw [b1, b2.2 fun _ _ _ _ => by rw [abs_le]; constructor <;> norm_num]
  · rw [c1]
    cases c with
    | false => rfl
    | true =>
      have := c2.1 rfl _ _ _ hmem
      rw [abs_le] at this
      norm_num at this

end Samurai

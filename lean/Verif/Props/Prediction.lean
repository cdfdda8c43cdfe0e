/-
Properties C29-C32, C53: prediction, projection and details.
-/
import Verif.Lemmas.Prediction

namespace Samurai
variable {K : Type} [Field K]

/-! ### C53 -/

/-- C53. The two ways of predicting, from the coarse cell (`dest_on_level = true`) and from the fine cell
(`dest_on_level = false`), give each fine cell the same value. -/
theorem C53_same_value (dim order : Nat) (hd : 1 ≤ dim ∧ dim ≤ 3) (f : Pt → K) (p : Pt) (a : Nat → Bool) :
    predictFine dim order f (childPt p a) = predictChild dim order f p a := by
  unfold predictFine
  rw [parentPt_childPt]
  have h0 : isOdd (childPt p a 0) = a 0 := isOdd_two_mul _ _
  have h1 : isOdd (childPt p a 1) = a 1 := isOdd_two_mul _ _
  have h2 : isOdd (childPt p a 2) = a 2 := isOdd_two_mul _ _
  rcases (by omega : dim = 1 ∨ dim = 2 ∨ dim = 3) with rfl | rfl | rfl
  · simp only [predictChild, predict1, h0]
    cases a 0 <;> rfl
  · simp only [predictChild, predict2, h0, h1]
    cases a 0 <;> cases a 1 <;> rfl
  · simp only [predictChild, predict3, h0, h1, h2]
    cases a 0 <;> cases a 1 <;> cases a 2 <;> rfl

omit [Field K] in
theorem zipWith_maps (op : K → K → K) (f g : Nat → K) (n : Nat) :
    List.zipWith op ((List.range n).map f) ((List.range n).map g) = (List.range n).map fun k => op (f k) (g k) := by
  apply List.ext_getElem <;> simp

omit [Field K] in
theorem zip_maps (f : Nat → Int) (g : Nat → K) (n : Nat) :
    ((List.range n).map f).zip ((List.range n).map g) = (List.range n).map fun k => (f k, g k) := by
  apply List.ext_getElem <;> simp

theorem predictEven_eq (i : Interval) (hi : i.start < i.stop) (src qs : Int → K) :
    ∃ m n, predictEven i src qs = some ((List.range n).map fun (k : Nat) =>
        (2 * (m + (k : Int)), src (m + (k : Int)) + qs (m + (k : Int))))
      ∧ i.start ≤ 2 * m ∧ 2 * m ≤ i.start + 1 ∧ i.stop ≤ 2 * (m + (n : Int)) ∧ 2 * (m + (n : Int)) ≤ i.stop + 1 := by
  refine ⟨(i.start + 1) / 2, ((i.stop + 1) / 2 - (i.start + 1) / 2).toNat, ?_, by omega, by omega, by omega, by omega⟩
  obtain ⟨s, e, st, ix⟩ := i
  simp only at hi
  have hc2 : coords2 (Interval.evenElements ⟨s, e, st, ix⟩) = (List.range ((e + 1) / 2 - (s + 1) / 2).toNat).map
      fun (k : Nat) => 2 * ((s + 1) / 2 + (k : Int)) := by
    unfold coords2
    simp only [Interval.evenElements]
    apply List.ext_getElem
    · simp only [List.length_map, List.length_range]; split <;> split <;> omega
    · intro k _ _; simp only [List.getElem_map, List.getElem_range]; split <;> omega
  have hc1 : ∀ (u : Int → K), Interval.isValid (Interval.evenElements ⟨s, e, st, ix⟩) →
      (coords1 ((Interval.evenElements ⟨s, e, st, ix⟩).shiftRight 1)).map u =
      (List.range ((e + 1) / 2 - (s + 1) / 2).toNat).map fun (k : Nat) => u ((s + 1) / 2 + (k : Int)) := by
    intro u hv
    unfold coords1
    replace hv : s + (if s % 2 = 1 then 1 else 0) < e - (if e % 2 = 1 then 0 else 1) := of_decide_eq_true hv
    simp only [Interval.evenElements, Interval.shiftRight, shr]
    apply List.ext_getElem
    · simp only [List.length_map, List.length_range]; split <;> split <;> simp_all <;> omega
    · intro k _ _
      simp only [List.getElem_map, List.getElem_range]
      congr 1
      split <;> omega
  have hq : (((coords1 (Interval.shiftRight ⟨s, e, st, ix⟩ 1)).map qs).drop (if s % 2 = 1 then 1 else 0)) =
      (List.range ((e + 1) / 2 - (s + 1) / 2).toNat).map fun (k : Nat) => qs ((s + 1) / 2 + (k : Int)) := by
    unfold coords1
    simp only [Interval.shiftRight, shr]
    apply List.ext_getElem
    · simp only [List.length_map, List.length_range, List.length_drop]; split <;> omega
    · intro k _ _
      simp only [List.getElem_map, List.getElem_range, List.getElem_drop]
      congr 1
      split <;> omega
  unfold predictEven
  simp only
  split
  · rename_i hv
    rw [hc1 src hv, hq, hc2]
    simp only [zipArrays, assignCells, List.length_map, if_true, zipWith_maps, Option.bind_some, zip_maps]
  · rename_i hv
    replace hv : ¬ (s + (if s % 2 = 1 then 1 else 0) < e - (if e % 2 = 1 then 0 else 1)) := fun h => hv (decide_eq_true h)
    have : ((e + 1) / 2 - (s + 1) / 2).toNat = 0 := by
      split at hv <;> split at hv <;> omega
    simp [this]

theorem predictOdd_eq (i : Interval) (hi : i.start < i.stop) (src qs : Int → K) :
    ∃ m n, predictOdd i src qs = some ((List.range n).map fun (k : Nat) =>
        (2 * (m + (k : Int)) + 1, src (m + (k : Int)) - qs (m + (k : Int))))
      ∧ i.start ≤ 2 * m + 1 ∧ 2 * m + 1 ≤ i.start + 1 ∧ i.stop ≤ 2 * (m + (n : Int)) + 1
      ∧ 2 * (m + (n : Int)) + 1 ≤ i.stop + 1 := by
  refine ⟨i.start / 2, (i.stop / 2 - i.start / 2).toNat, ?_, by omega, by omega, by omega, by omega⟩
  obtain ⟨s, e, st, ix⟩ := i
  simp only at hi
  have hc2 : coords2 (Interval.oddElements ⟨s, e, st, ix⟩) = (List.range (e / 2 - s / 2).toNat).map
      fun (k : Nat) => 2 * (s / 2 + (k : Int)) + 1 := by
    unfold coords2
    simp only [Interval.oddElements]
    apply List.ext_getElem
    · simp only [List.length_map, List.length_range]; split <;> split <;> omega
    · intro k _ _; simp only [List.getElem_map, List.getElem_range]; split <;> omega
  have hc1 : ∀ (u : Int → K), Interval.isValid (Interval.oddElements ⟨s, e, st, ix⟩) →
      (coords1 ((Interval.oddElements ⟨s, e, st, ix⟩).shiftRight 1)).map u =
      (List.range (e / 2 - s / 2).toNat).map fun (k : Nat) => u (s / 2 + (k : Int)) := by
    intro u hv
    unfold coords1
    replace hv : s + (if s % 2 = 1 then 0 else 1) < e - (if e % 2 = 1 then 1 else 0) := of_decide_eq_true hv
    simp only [Interval.oddElements, Interval.shiftRight, shr]
    apply List.ext_getElem
    · simp only [List.length_map, List.length_range]; split <;> split <;> simp_all <;> omega
    · intro k _ _
      simp only [List.getElem_map, List.getElem_range]
      congr 1
      split <;> omega
  have hq : (((coords1 (Interval.shiftRight ⟨s, e, st, ix⟩ 1)).map qs).take
      (((coords1 (Interval.shiftRight ⟨s, e, st, ix⟩ 1)).map qs).length - (if e % 2 = 1 then 1 else 0))) =
      (List.range (e / 2 - s / 2).toNat).map fun (k : Nat) => qs (s / 2 + (k : Int)) := by
    unfold coords1
    simp only [Interval.shiftRight, shr]
    apply List.ext_getElem
    · simp only [List.length_map, List.length_range, List.length_take]; split <;> omega
    · intro k _ _
      simp only [List.getElem_map, List.getElem_range, List.getElem_take]
      rfl
  unfold predictOdd
  simp only
  split
  · rename_i hv
    rw [hc1 src hv, hq, hc2]
    simp only [zipArrays, assignCells, List.length_map, if_true, zipWith_maps, Option.bind_some, zip_maps]
  · rename_i hv
    replace hv : ¬ (s + (if s % 2 = 1 then 0 else 1) < e - (if e % 2 = 1 then 1 else 0)) := fun h => hv (decide_eq_true h)
    have : (e / 2 - s / 2).toNat = 0 := by
      split at hv <;> split at hv <;> omega
    simp [this]

/-- C53. The assignment of the even cells of an interval (whose arrays are the views of the coarse arrays shifted by
`dec_even`) has arrays of equal lengths and gives each even cell of the interval, once, the value of its own parent
plus the correction of its own parent. -/
theorem C53_even_cells (i : Interval) (hi : i.start < i.stop) (src qs : Int → K) :
    ∃ L, predictEven i src qs = some L ∧ (L.map Prod.fst).Nodup
      ∧ ∀ x v, (x, v) ∈ L ↔ i.start ≤ x ∧ x < i.stop ∧ x % 2 = 0 ∧ v = src (x / 2) + qs (x / 2) := by
  obtain ⟨m, n, he, h1, h2, h3, h4⟩ := predictEven_eq i hi src qs
  refine ⟨_, he, ?_, ?_⟩
  · rw [List.map_map]
    refine List.Nodup.map (fun x y h => ?_) List.nodup_range
    simp at h; omega
  · intro x v
    simp only [List.mem_map, List.mem_range, Prod.mk.injEq]
    constructor
    · rintro ⟨k, hk, rfl, rfl⟩
      refine ⟨by omega, by omega, by omega, ?_⟩
      rw [show 2 * (m + (k : Int)) / 2 = m + k by omega]
    · rintro ⟨a1, a2, a3, rfl⟩
      refine ⟨(x / 2 - m).toNat, by omega, by omega, ?_⟩
      rw [show m + (((x / 2 - m).toNat : Nat) : Int) = x / 2 by omega]

/-- C53, odd cells: the correction is subtracted. -/
theorem C53_odd_cells (i : Interval) (hi : i.start < i.stop) (src qs : Int → K) :
    ∃ L, predictOdd i src qs = some L ∧ (L.map Prod.fst).Nodup
      ∧ ∀ x v, (x, v) ∈ L ↔ i.start ≤ x ∧ x < i.stop ∧ x % 2 = 1 ∧ v = src (x / 2) - qs (x / 2) := by
  obtain ⟨m, n, he, h1, h2, h3, h4⟩ := predictOdd_eq i hi src qs
  refine ⟨_, he, ?_, ?_⟩
  · rw [List.map_map]
    refine List.Nodup.map (fun x y h => ?_) List.nodup_range
    simp at h; omega
  · intro x v
    simp only [List.mem_map, List.mem_range, Prod.mk.injEq]
    constructor
    · rintro ⟨k, hk, rfl, rfl⟩
      refine ⟨by omega, by omega, by omega, ?_⟩
      rw [show (2 * (m + (k : Int)) + 1) / 2 = m + k by omega]
    · rintro ⟨a1, a2, a3, rfl⟩
      refine ⟨(x / 2 - m).toNat, by omega, by omega, ?_⟩
      rw [show m + (((x / 2 - m).toNat : Nat) : Int) = x / 2 by omega]

example : ∃ i : Interval, i.start < i.stop ∧ i.start % 2 = 1 ∧ i.stop % 2 = 1 ∧
    predictEven i (fun x => (x : ℚ)) (fun x => 10 * x) = some [(-2, -11), (0, 0)] := by
  exact ⟨⟨-3, 1, 1, 0⟩, by decide, by decide, by decide, by decide +kernel⟩

/-! ### C29 -/

/-- C29. Projection after prediction gives back the coarse value: the mean of the children of `p`, when they have
the predicted values, is the value of `p`. -/
theorem C29_projection_prediction [CharZero K] (dim order : Nat) (hd : 1 ≤ dim ∧ dim ≤ 3) (f g : Pt → K) (p : Pt)
    (hg : ∀ a, g (childPt p a) = predictChild dim order f p a) : project dim g p = f p := by
  rcases (by omega : dim = 1 ∨ dim = 2 ∨ dim = 3) with rfl | rfl | rfl
  · simp only [project, hg, predictChild, predict1]
    split <;> simp <;> ring
  · simp only [project, hg, predictChild, predict2]
    split <;> simp <;> ring
  · simp only [project, hg, predictChild, predict3]
    split <;> simp <;> ring

/-- C29, for the other way of predicting: it always applies. -/
theorem C29_projection_predictFine [CharZero K] (dim order : Nat) (hd : 1 ≤ dim ∧ dim ≤ 3) (f : Pt → K) (p : Pt) :
    project dim (predictFine dim order f) p = f p :=
  C29_projection_prediction dim order hd f _ p fun a => C53_same_value dim order hd f p a

/-- The hypothesis of `C29_projection_prediction` is met by the field of the predicted values. -/
example : ∃ (f g : Pt → ℚ) (p : Pt), (∀ a, g (childPt p a) = predictChild 2 3 f p a) ∧ g ≠ 0 :=
  ⟨fun q => q 0 + 3 * q 1, predictFine 2 3 fun q => q 0 + 3 * q 1, fun _ => 5,
    fun a => C53_same_value 2 3 (by omega) _ _ a, fun h => by
      have h1 := C29_projection_predictFine (K := ℚ) 2 3 (by omega) (fun q => (q 0 : ℚ) + 3 * q 1) (fun _ => 5)
      rw [h] at h1
      norm_num [project] at h1⟩

/-! ### C30 -/

theorem predictChild_separable (dim order : Nat) (hd : 1 ≤ dim ∧ dim ≤ 3) (ho : 1 ≤ order) (f : Pt → K)
    (A : Nat → Int → K) (hA : ∀ d, dim ≤ d → ∀ x, A d x = 0) (hf : Separable f A) (p : Pt) (a : Nat → Bool) :
    predictChild dim order f p a = ∑ d ∈ Finset.range dim,
      (A d (p d) + childSign (a d) * Qs order d (fun q => A d (q d)) p) := by
  have hQ : ∀ d, d < 3 → Qs order d f p = Qs order d (fun q => A d (q d)) p := fun d hd' =>
    qsOp_separable _ _ _ hd' f A hf _ _
  have ho' : order ≠ 0 := by omega
  have hf' : f p = A 0 (p 0) + A 1 (p 1) + A 2 (p 2) := hf p
  rcases (by omega : dim = 1 ∨ dim = 2 ∨ dim = 3) with rfl | rfl | rfl
  · have h1 := hA 1 (by omega)
    have h2 := hA 2 (by omega)
    simp only [predictChild, predict1, ho', if_false, hQ 0 (by omega), hf', h1, h2, Finset.sum_range_succ,
      Finset.sum_range_zero]
    cases a 0 <;> simp [childSign] <;> ring
  · have h2 := hA 2 (by omega)
    simp only [predictChild, predict2, ho', if_false, hQ 0 (by omega), hQ 1 (by omega),
      Qs2_separable order 0 1 (by omega) (by omega) f A hf, hf', h2, Finset.sum_range_succ, Finset.sum_range_zero]
    cases a 0 <;> cases a 1 <;> simp [childSign] <;> ring
  · simp only [predictChild, predict3, ho', if_false, hQ 0 (by omega), hQ 1 (by omega), hQ 2 (by omega),
      Qs2_separable order 0 1 (by omega) (by omega) f A hf, Qs2_separable order 0 2 (by omega) (by omega) f A hf,
      Qs2_separable order 1 2 (by omega) (by omega) f A hf, Qs3_separable order f A hf, hf', Finset.sum_range_succ,
      Finset.sum_range_zero]
    cases a 0 <;> cases a 1 <;> cases a 2 <;> simp [childSign] <;> ring

/-- C30. In any dimension, prediction of order `s` is exact on the cell means of a sum of polynomials of one variable
each, of degree at most `2 s`: the predicted value of each child is the mean over the child. -/
theorem C30_exact (dim order : Nat) (hd : 1 ≤ dim ∧ dim ≤ 3) (ho : order ≤ 5) (u : Nat → Polynomial ℝ)
    (hu : ∀ d, (u d).natDegree ≤ 2 * order) (x0 : Nat → ℝ) (h : ℝ) (hh : h ≠ 0) (f : Pt → ℝ)
    (hf : ∀ q : Pt, f q = ∑ d ∈ Finset.range dim, cellMean (fun x => (u d).eval x) (x0 d) h (q d))
    (p : Pt) (a : Nat → Bool) :
    predictChild dim order f p a
      = ∑ d ∈ Finset.range dim, cellMean (fun x => (u d).eval x) (x0 d) (h / 2) (childPt p a d) := by
  rcases Nat.eq_zero_or_pos order with rfl | hpos
  · have hc : ∀ d (h : ℝ) (i : Int), h ≠ 0 → cellMean (fun x => (u d).eval x) (x0 d) h i = (u d).coeff 0 := by
      intro d h i hh
      rw [cellMean_eq (u d) 1 (by have := hu d; omega)]
      simp [cellIncr]
      field_simp
      ring
    have : predictChild dim 0 f p a = f p := by
      rcases (by omega : dim = 1 ∨ dim = 2 ∨ dim = 3) with rfl | rfl | rfl <;> rfl
    rw [this, hf]
    refine Finset.sum_congr rfl fun d _ => ?_
    rw [hc d h _ hh, hc d (h / 2) _ (by simpa using hh)]
  · let A : Nat → Int → ℝ := fun d i => if d < dim then cellMean (fun x => (u d).eval x) (x0 d) h i else 0
    have hs : Separable f A := by
      intro q
      rw [hf q]
      rcases (by omega : dim = 1 ∨ dim = 2 ∨ dim = 3) with rfl | rfl | rfl <;>
        simp [A, Finset.sum_range_succ]
    rw [predictChild_separable dim order hd hpos f A (fun d hd x => by simp [A]; omega) hs]
    refine Finset.sum_congr rfl fun d hd' => ?_
    have hd'' : d < dim := by simpa using hd'
    simp only [A, hd'', if_true, childSign, childPt]
    cases a d
    · simp only [if_false, Bool.false_eq_true, one_mul, add_zero]
      exact Qs_mean order d ⟨hpos, ho⟩ (u d) (hu d) (x0 d) h p
    · simp only [if_true]
      rw [← Qs_mean_odd order d ⟨hpos, ho⟩ (u d) (hu d) (x0 d) h p]
      ring

/-- C30 in dimension 1: exact on the means of every polynomial of degree at most `2 s`. -/
theorem C30_exact_dim1 (order : Nat) (ho : order ≤ 5) (u : Polynomial ℝ) (hu : u.natDegree ≤ 2 * order)
    (x0 h : ℝ) (hh : h ≠ 0) (f : Pt → ℝ) (hf : ∀ q : Pt, f q = cellMean (fun x => u.eval x) x0 h (q 0))
    (p : Pt) (a : Nat → Bool) :
    predictChild 1 order f p a = cellMean (fun x => u.eval x) x0 (h / 2) (2 * p 0 + (if a 0 then 1 else 0)) := by
  have := C30_exact 1 order (by omega) ho (fun _ => u) (fun _ => hu) (fun _ => x0) h hh f
    (fun q => by simp [hf]) p a
  simpa [childPt] using this

/-- C30: affine functions, given by their values at the centres of the cells (which are their means), are exact in
every dimension for every order from 1 to 5: each child gets the value at its own centre. -/
theorem C30_affine [CharZero K] (dim order : Nat) (hd : 1 ≤ dim ∧ dim ≤ 3) (ho : 1 ≤ order ∧ order ≤ 5) (c h : K)
    (l x0 : Nat → K) (f : Pt → K)
    (hf : ∀ q : Pt, f q = c + ∑ d ∈ Finset.range dim, l d * (x0 d + (q d + 1 / 2) * h)) (p : Pt) (a : Nat → Bool) :
    predictChild dim order f p a
      = c + ∑ d ∈ Finset.range dim, l d * (x0 d + (childPt p a d + 1 / 2) * (h / 2)) := by
  let A : Nat → Int → K := fun d i => if d < dim then (if d = 0 then c else 0) + l d * (x0 d + (i + 1 / 2) * h) else 0
  have hs : Separable f A := by
    intro q
    rw [hf q]
    rcases (by omega : dim = 1 ∨ dim = 2 ∨ dim = 3) with rfl | rfl | rfl <;>
      simp [A, Finset.sum_range_succ] <;> ring
  rw [predictChild_separable dim order hd ho.1 f A (fun d hd x => by simp [A]; omega) hs]
  have key : ∀ d, d < dim → A d (p d) + childSign (a d) * Qs order d (fun q => A d (q d)) p
      = (if d = 0 then c else 0) + l d * (x0 d + (childPt p a d + 1 / 2) * (h / 2)) := by
    intro d hd'
    have e : Qs order d (fun q => A d (q d)) p = - (l d * h / 4) := by
      simp only [A, hd', if_true]
      rcases (by omega : order = 1 ∨ order = 2 ∨ order = 3 ∨ order = 4 ∨ order = 5) with rfl | rfl | rfl | rfl | rfl
      · rw [Qs_order1]; simp only [move_same]; push_cast; ring
      · rw [Qs_order2]; simp only [move_same]; push_cast; ring
      · rw [Qs_order3]; simp only [move_same]; push_cast; ring
      · rw [Qs_order4]; simp only [move_same]; push_cast; ring
      · rw [Qs_order5]; simp only [move_same]; push_cast; ring
    rw [e]
    simp only [A, hd', if_true, childPt, childSign]
    cases a d <;> simp <;> ring
  rw [Finset.sum_congr rfl fun d hd' => key d (by simpa using hd'), Finset.sum_add_distrib]
  congr 1
  rcases (by omega : dim = 1 ∨ dim = 2 ∨ dim = 3) with rfl | rfl | rfl <;> simp [Finset.sum_range_succ]

/-- The hypotheses of C30: `x^4 + y` in dimension 2 at order 2. -/
example : ∃ (u : Nat → Polynomial ℝ), (∀ d, (u d).natDegree ≤ 2 * 2) ∧ (u 0).natDegree = 4 := by
  refine ⟨fun d => if d = 0 then Polynomial.X ^ 4 else Polynomial.X, fun d => ?_, ?_⟩
  · by_cases h : d = 0 <;> simp [h]
  · simp

/-! ### C31 -/

/-- C31 in dimension 1: prediction is the interpolation with the coefficients `interp_coeffs`, the ones used by
reconstruction. -/
theorem C31_dim1 (order : Nat) (ho : order ≤ 5) (f : Pt → K) (p : Pt) (a : Nat → Bool) :
    predictChild 1 order f p a = tensorPredict (fun b => interpCoeffs order (childSign b)) 1 f p a := by
  rcases Nat.eq_zero_or_pos order with rfl | hpos
  · have h0 : move p 0 0 = p := by funext e; simp [move]
    simp [predictChild, predict1, tensorPredict, interpolate, interpCoeffs, h0]
  · show _ = interpolate _ (fun s => f (move p 0 s))
    rw [interpolate_eq order 0 ⟨hpos, ho⟩]
    have ho' : order ≠ 0 := by omega
    simp only [predictChild, predict1, ho', if_false, childSign]
    cases a 0 <;> simp <;> ring

theorem tensor_dim2 (order : Nat) (ho : 1 ≤ order ∧ order ≤ 5) (f : Pt → K) (p : Pt) (a : Nat → Bool) :
    tensorPredict (fun b => interpCoeffs order (childSign b)) 2 f p a
      = f p + childSign (a 0) * Qs order 0 f p + childSign (a 1) * Qs order 1 f p
        + childSign (a 0) * childSign (a 1) * Qs order 1 (Qs order 0 f) p := by
  have h1 : ∀ q, tensorPredict (fun b => interpCoeffs order (childSign b)) 1 f q a
      = f q + childSign (a 0) * Qs order 0 f q := fun q => interpolate_eq order 0 ho (a 0) f q
  show interpolate _ (fun s => tensorPredict _ 1 f (move p 1 s) a) = _
  simp only [h1]
  rw [interpolate_eq order 1 ho (a 1) (fun q => f q + childSign (a 0) * Qs order 0 f q),
    Qs_add order 1 f (fun q => childSign (a 0) * Qs order 0 f q), Qs_smul]
  ring

theorem tensor_dim3 (order : Nat) (ho : 1 ≤ order ∧ order ≤ 5) (f : Pt → K) (p : Pt) (a : Nat → Bool) :
    tensorPredict (fun b => interpCoeffs order (childSign b)) 3 f p a
      = f p + childSign (a 0) * Qs order 0 f p + childSign (a 1) * Qs order 1 f p + childSign (a 2) * Qs order 2 f p
        + childSign (a 0) * childSign (a 1) * Qs order 1 (Qs order 0 f) p
        + childSign (a 0) * childSign (a 2) * Qs order 2 (Qs order 0 f) p
        + childSign (a 1) * childSign (a 2) * Qs order 2 (Qs order 1 f) p
        + childSign (a 0) * childSign (a 1) * childSign (a 2) * Qs order 2 (Qs order 1 (Qs order 0 f)) p := by
  have h1 := fun q => tensor_dim2 order ho f q a
  show interpolate _ (fun s => tensorPredict _ 2 f (move p 2 s) a) = _
  simp only [h1]
  rw [interpolate_eq order 2 ho (a 2) (fun q => f q + childSign (a 0) * Qs order 0 f q + childSign (a 1) * Qs order 1 f q
      + childSign (a 0) * childSign (a 1) * Qs order 1 (Qs order 0 f) q)]
  rw [Qs_add order 2 (fun q => f q + childSign (a 0) * Qs order 0 f q + childSign (a 1) * Qs order 1 f q)
      (fun q => childSign (a 0) * childSign (a 1) * Qs order 1 (Qs order 0 f) q),
    Qs_add order 2 (fun q => f q + childSign (a 0) * Qs order 0 f q) (fun q => childSign (a 1) * Qs order 1 f q),
    Qs_add order 2 f (fun q => childSign (a 0) * Qs order 0 f q), Qs_smul, Qs_smul, Qs_smul]
  ring

/-- C31, part that holds: in dimensions 1 to 3, on fields which are a sum of functions of one coordinate each,
prediction is the tensor product. Missing: fields with mixed differences (see `C31_refuted`). -/
theorem C31_separable_partial (dim order : Nat) (hd : 1 ≤ dim ∧ dim ≤ 3) (ho : 1 ≤ order ∧ order ≤ 5) (f : Pt → K)
    (A : Nat → Int → K) (hA : ∀ d, dim ≤ d → ∀ x, A d x = 0) (hf : ∀ q : Pt, f q = A 0 (q 0) + A 1 (q 1) + A 2 (q 2))
    (p : Pt) (a : Nat → Bool) :
    predictChild dim order f p a = tensorPredict (fun b => interpCoeffs order (childSign b)) dim f p a := by
  have hf : Separable f A := hf
  have hQ : ∀ d, d < 3 → ∀ p, Qs order d f p = Qs order d (fun q => A d (q d)) p := fun d hd' p =>
    qsOp_separable _ _ _ hd' f A hf _ _
  have hQQ : ∀ d e, d < 3 → e ≠ d → Qs order e (Qs order d f) p = 0 := by
    intro d e hd' hed
    refine Qs_const order e _ p fun s => ?_
    rw [hQ d hd', hQ d hd']
    rcases (by omega : order = 1 ∨ order = 2 ∨ order = 3 ∨ order = 4 ∨ order = 5) with rfl | rfl | rfl | rfl | rfl
    · simp [Qs_order1, move, hed.symm]
    · simp [Qs_order2, move, hed.symm]
    · simp [Qs_order3, move, hed.symm]
    · simp [Qs_order4, move, hed.symm]
    · simp [Qs_order5, move, hed.symm]
  have hQQQ : Qs order 2 (Qs order 1 (Qs order 0 f)) p = 0 := by
    have h0 : ∀ q s, Qs order 0 f (move q 1 s) = Qs order 0 f q := by
      intro q s
      rw [hQ 0 (by omega), hQ 0 (by omega)]
      rcases (by omega : order = 1 ∨ order = 2 ∨ order = 3 ∨ order = 4 ∨ order = 5) with rfl | rfl | rfl | rfl | rfl
      · simp [Qs_order1, move]
      · simp [Qs_order2, move]
      · simp [Qs_order3, move]
      · simp [Qs_order4, move]
      · simp [Qs_order5, move]
    refine Qs_const order 2 _ p fun s => ?_
    rw [Qs_const order 1 _ _ (fun s => h0 _ s), Qs_const order 1 _ _ (fun s => h0 _ s)]
  rcases (by omega : dim = 1 ∨ dim = 2 ∨ dim = 3) with rfl | rfl | rfl
  · exact C31_dim1 order ho.2 f p a
  · rw [tensor_dim2 order ho, hQQ 0 1 (by omega) (by omega),
      predictChild_separable 2 order (by omega) ho.1 f A hA hf, hQ 0 (by omega), hQ 1 (by omega)]
    have hf' : f p = A 0 (p 0) + A 1 (p 1) + A 2 (p 2) := hf p
    simp only [Finset.sum_range_succ, Finset.sum_range_zero, hf', hA 2 (by omega)]
    ring
  · rw [tensor_dim3 order ho, hQQ 0 1 (by omega) (by omega), hQQ 0 2 (by omega) (by omega),
      hQQ 1 2 (by omega) (by omega), hQQQ,
      predictChild_separable 3 order (by omega) ho.1 f A hA hf, hQ 0 (by omega), hQ 1 (by omega), hQ 2 (by omega)]
    have hf' : f p = A 0 (p 0) + A 1 (p 1) + A 2 (p 2) := hf p
    simp only [Finset.sum_range_succ, Finset.sum_range_zero, hf']
    ring

/-- C31 is false in dimension 2, at every order: the cross term has the wrong sign (and, from order 2 on, the nested
sum starts too late). Witness: the field which is 1 in the cell (1, 1) and 0 elsewhere, seen from the cell (0, 0). -/
theorem C31_refuted (order : Nat) (ho : 1 ≤ order ∧ order ≤ 5) :
    ∃ (f : Pt → ℚ) (p : Pt) (a : Nat → Bool),
      predictChild 2 order f p a ≠ tensorPredict (fun b => interpCoeffs order (childSign b)) 2 f p a := by
  refine ⟨fun q => if q 0 = 1 ∧ q 1 = 1 then 1 else 0, fun _ => 0, fun _ => false, ?_⟩
  rw [tensor_dim2 order ho]
  have ho' : order ≠ 0 := by omega
  simp only [predictChild, predict2, ho', if_false]
  rcases (by omega : order = 1 ∨ order = 2 ∨ order = 3 ∨ order = 4 ∨ order = 5) with rfl | rfl | rfl | rfl | rfl
  · norm_num [Qs_order1, Qs2, qsOp, qsFrom, fieldHack, move, childSign, predictionCoeffs]
  · simp [Qs_order2, Qs2, qsOp, qsFrom, fieldHack, move, childSign, predictionCoeffs]
  · simp [Qs_order3, Qs2, qsOp, qsFrom, fieldHack, move, childSign, predictionCoeffs]
  · simp [Qs_order4, Qs2, qsOp, qsFrom, fieldHack, move, childSign, predictionCoeffs]
  · simp [Qs_order5, Qs2, qsOp, qsFrom, fieldHack, move, childSign, predictionCoeffs]

/-- C31 is false: the order 1 prediction is not exact on the means of `x * y` (the mean over the cell `(i, j)` of the
unit grid is `(i + 1/2) (j + 1/2)`, over the cell of the grid of step 1/2 it is `(i/2 + 1/4) (j/2 + 1/4)`). -/
theorem C31_xy_refuted :
    ∃ (p : Pt) (a : Nat → Bool), predictChild 2 1 (fun q => ((q 0 : ℚ) + 1 / 2) * (q 1 + 1 / 2)) p a
      ≠ ((childPt p a 0 : ℚ) / 2 + 1 / 4) * ((childPt p a 1 : ℚ) / 2 + 1 / 4) := by
  refine ⟨fun _ => 0, fun _ => false, ?_⟩
  norm_num [predictChild, predict2, Qs_order1, Qs2, qsOp, qsFrom, fieldHack, move, childPt, predictionCoeffs]

/-! ### C32 -/

/-- C32. Value = prediction + detail, for every child. -/
theorem C32_restore (dim order : Nat) (hd : 1 ≤ dim ∧ dim ≤ 3) (ho : 1 ≤ order) (g f : Pt → K) (p : Pt)
    (a : Nat → Bool) : g (childPt p a) = predictChild dim order f p a + detailChild dim order g f p a := by
  have ho' : order ≠ 0 := by omega
  rcases (by omega : dim = 1 ∨ dim = 2 ∨ dim = 3) with rfl | rfl | rfl
  · simp only [predictChild, predict1, detailChild, ho', if_false]
    cases a 0 <;> simp
  · simp only [predictChild, predict2, detailChild, ho', if_false]
    cases a 0 <;> cases a 1 <;> simp
  · simp only [predictChild, predict3, detailChild, ho', if_false]
    cases a 0 <;> cases a 1 <;> cases a 2 <;> simp

/-- C32. The detail of a child is zero exactly when the prediction gives its value. -/
theorem C32_zero_iff (dim order : Nat) (hd : 1 ≤ dim ∧ dim ≤ 3) (ho : 1 ≤ order) (g f : Pt → K) (p : Pt)
    (a : Nat → Bool) : detailChild dim order g f p a = 0 ↔ predictChild dim order f p a = g (childPt p a) := by
  rw [C32_restore dim order hd ho g f p a]
  constructor
  · intro h; rw [h, add_zero]
  · intro h; simpa using h

/-- C32. The detail a cell gets with respect to its parent when its own level is processed is the one it gets as a
child when the level below is processed. -/
theorem C32_self (dim order : Nat) (hd : 1 ≤ dim ∧ dim ≤ 3) (ho : 1 ≤ order) (g f : Pt → K) (p : Pt)
    (a : Nat → Bool) : detailSelf dim order g f (childPt p a) = detailChild dim order g f p a := by
  unfold detailSelf
  rw [C53_same_value dim order hd, C32_restore dim order hd ho g f p a]
  ring

/-- C32. The mean of the details of the children of a cell is zero when the value of the cell is the projection of the
values of its children. -/
theorem C32_mean_zero [CharZero K] (dim order : Nat) (hd : 1 ≤ dim ∧ dim ≤ 3) (ho : 1 ≤ order) (g f det : Pt → K)
    (p : Pt) (hf : f p = project dim g p) (hdet : ∀ a, det (childPt p a) = detailChild dim order g f p a) :
    project dim det p = 0 := by
  have hadd : project dim g p = project dim (fun q => predictFine dim order f q) p + project dim det p := by
    have hq : ∀ a, g (childPt p a) = predictFine dim order f (childPt p a) + det (childPt p a) := fun a => by
      rw [hdet a, C53_same_value dim order hd, ← C32_restore dim order hd ho]
    rcases (by omega : dim = 1 ∨ dim = 2 ∨ dim = 3) with rfl | rfl | rfl <;> simp only [project, hq] <;> ring
  rw [C29_projection_predictFine dim order hd, hf] at hadd
  simpa using hadd

/-- The hypotheses of `C32_mean_zero`: any fine field, its projection and its details. -/
example (g : Pt → ℚ) (p : Pt) : ∃ f det : Pt → ℚ, f p = project 3 g p ∧
    ∀ a, det (childPt p a) = detailChild 3 1 g f p a :=
  ⟨project 3 g, detailSelf 3 1 g (project 3 g), rfl, fun a => C32_self 3 1 (by omega) (by omega) _ _ _ a⟩

end Samurai

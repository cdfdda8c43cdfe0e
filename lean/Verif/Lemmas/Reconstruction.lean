/-
Lemmas on prediction maps and the memoised prediction.
-/
import Verif.Spec.Reconstruction
import Verif.Lemmas.Prediction

namespace Samurai
variable {K : Type} [Field K]

theorem combine_nil (f : List Int → K) : combine [] f = 0 := rfl

theorem combine_cons (c : List Int × K) (m : PMap K) (f : List Int → K) :
    combine (c :: m) f = c.2 * f c.1 + combine m f := by simp [combine]

theorem combine_addAt (m : PMap K) (k : List Int) (v : K) (f : List Int → K) :
    combine (m.addAt k v) f = combine m f + v * f k := by
  induction m with
  | nil => simp [PMap.addAt, combine]
  | cons c m ih =>
    obtain ⟨k', w⟩ := c
    simp only [PMap.addAt]
    split
    · rename_i h; subst h; simp only [combine_cons]; ring
    · simp only [combine_cons, ih]; ring

theorem combine_add (m p : PMap K) (f : List Int → K) : combine (m.add p) f = combine m f + combine p f := by
  unfold PMap.add
  induction p generalizing m with
  | nil => simp [combine_nil]
  | cons c p ih => simp only [List.foldl_cons, ih, combine_addAt, combine_cons]; ring

theorem combine_scale (x : K) (m : PMap K) (f : List Int → K) : combine (PMap.scale x m) f = x * combine m f := by
  unfold PMap.scale
  induction m with
  | nil => simp [combine_nil]
  | cons c m ih => simp only [List.map_cons, combine_cons, ih]; ring

/-! ### The cache -/

/-- The prediction without a static map. -/
def predPure (order : Nat) : Nat → List Int → PMap K
  | 0, idx => PMap.single idx
  | level + 1, idx =>
    (loops (2 * order + 1) idx.length).foldl
      (fun (m : PMap K) cs => if cs.all (· == order) then m
        else m.add (PMap.scale (loopWeight order idx cs) (predPure order level (loopIndex order idx cs))))
      (predPure order level (idx.map (shr · 1)))

/-- The entries up to a level are the right ones. -/
def PredCache.Good (order : Nat) (c : PredCache K) (L : Nat) : Prop :=
  ∀ l, l ≤ L → ∀ idx m, c l idx = some m → m = predPure order l idx

theorem prediction_spec (order level : Nat) (idx : List Int) (c : PredCache K) (hc : c.Good order level) :
    (prediction order level idx c).1 = predPure order level idx
      ∧ (prediction order level idx c).2.Good order level
      ∧ ∀ l, level < l → (prediction order level idx c).2 l = c l := by
  induction level generalizing idx c with
  | zero => exact ⟨rfl, hc, fun _ _ => rfl⟩
  | succ level ih =>
    unfold prediction
    cases hl : c (level + 1) idx with
    | some m => exact ⟨hc _ (Nat.le_refl _) _ _ hl, hc, fun _ _ => rfl⟩
    | none =>
      simp only
      have hc0 : c.Good order level := fun l hl' => hc l (by omega)
      obtain ⟨h1, h2, h3⟩ := ih (idx.map (shr · 1)) c hc0
      generalize hr : prediction order level (idx.map (shr · 1)) c = r at *
      -- the loop
      have key : ∀ (L : List (List Nat)) (c' : PredCache K) (m : PMap K), c'.Good order level →
          c' (level + 1) idx = some m →
          (∀ j, j ≠ idx → c' (level + 1) j = c (level + 1) j) → (∀ l, level + 1 < l → c' l = c l) →
          let c2 := predLoop order (level + 1) idx (prediction order level) L c'
          c2.Good order level ∧
          c2 (level + 1) idx = some (L.foldl (fun (m : PMap K) cs => if cs.all (· == order) then m
            else m.add (PMap.scale (loopWeight order idx cs) (predPure order level (loopIndex order idx cs)))) m) ∧
          (∀ j, j ≠ idx → c2 (level + 1) j = c (level + 1) j) ∧ (∀ l, level + 1 < l → c2 l = c l) := by
        intro L
        induction L with
        | nil => intro c' m hg hm hj hl'; exact ⟨hg, hm, hj, hl'⟩
        | cons cs L ihL =>
          intro c' m hg hm hj hl'
          simp only [predLoop, List.foldl_cons]
          split
          · exact ihL c' m hg hm hj hl'
          · obtain ⟨g1, g2, g3⟩ := ih (loopIndex order idx cs) c' hg
            apply ihL
            · intro l hll j m' hm'
              simp only [PredCache.set] at hm'
              rw [if_neg (by omega)] at hm'
              exact g2 l hll j m' hm'
            · simp only [PredCache.set, PredCache.get, g3 (level + 1) (by omega), hm, g1]
              simp
            · intro j hjne
              simp only [PredCache.set]
              rw [if_neg (by simp [hjne]), g3 (level + 1) (by omega)]
              exact hj j hjne
            · intro l hll
              funext j
              simp only [PredCache.set]
              rw [if_neg (by omega), g3 l (by omega), hl' l hll]
      have hk := key (loops (2 * order + 1) idx.length) (r.2.set (level + 1) idx r.1) r.1 ?_ ?_ ?_ ?_
      · obtain ⟨k1, k2, k3, k4⟩ := hk
        simp only [PredCache.get, k2, Option.getD_some]
        refine ⟨by simp only [predPure, h1], ?_, k4⟩
        intro l hll j m hm
        rcases Nat.lt_or_ge level l with hlt | hge
        · obtain rfl : l = level + 1 := by omega
          by_cases hj : j = idx
          · subst hj
            rw [k2] at hm
            simp only [predPure, ← h1]
            exact (Option.some.inj hm).symm
          · rw [k3 j hj] at hm
            exact hc _ (Nat.le_refl _) _ _ hm
        · exact k1 l hge j m hm
      · intro l hll j m hm
        simp only [PredCache.set] at hm
        rw [if_neg (by omega)] at hm
        exact h2 l hll j m hm
      · simp [PredCache.set]
      · intro j hj
        simp only [PredCache.set]
        rw [if_neg (by simp [hj]), h3 _ (by omega)]
      · intro l hll
        funext j
        simp only [PredCache.set]
        rw [if_neg (by omega), h3 _ (by omega)]

/-- The static map at the start of the program. -/
def PredCache.empty : PredCache K := fun _ _ => none

/-- All the entries are the right ones. -/
def PredCache.GoodAll (order : Nat) (c : PredCache K) : Prop := ∀ L, c.Good order L

theorem PredCache.empty_good (order : Nat) : (PredCache.empty : PredCache K).GoodAll order := fun _ _ _ _ _ h => by
  simp [PredCache.empty] at h

theorem prediction_good (order level : Nat) (idx : List Int) (c : PredCache K) (hc : c.GoodAll order) :
    (prediction order level idx c).1 = predPure order level idx ∧ (prediction order level idx c).2.GoodAll order := by
  obtain ⟨h1, h2, h3⟩ := prediction_spec order level idx c (hc level)
  refine ⟨h1, fun L l hl j m hm => ?_⟩
  rcases Nat.lt_or_ge level l with hlt | hge
  · rw [h3 l hlt] at hm
    exact hc L l hl j m hm
  · exact h2 l hge j m hm

theorem runPredictions_good (order : Nat) (qs : List (Nat × List Int)) (c : PredCache K) (hc : c.GoodAll order) :
    (runPredictions order qs c).GoodAll order := by
  induction qs generalizing c with
  | nil => exact hc
  | cons q qs ih => exact ih _ (prediction_good order q.1 q.2 c hc).2

/-! ### The value -/

theorem sum_map_range (n : Nat) (F : Nat → K) : ((List.range n).map F).sum = ∑ k ∈ Finset.range n, F k := by
  induction n with
  | zero => simp
  | succ n ih => simp [List.range_succ, Finset.sum_range_succ, ih]

theorem sum_flatMap {α β : Type} (l : List α) (g : α → List β) (F : β → K) :
    ((l.flatMap g).map F).sum = (l.map fun x => ((g x).map F).sum).sum := by
  induction l with
  | nil => simp
  | cons a l ih => simp [List.flatMap_cons, ih]

theorem loops_sum_succ (m n : Nat) (F : List Nat → K) :
    ((loops m (n + 1)).map F).sum = ∑ c ∈ Finset.range m, ((loops m n).map fun cs => F (c :: cs)).sum := by
  simp only [loops, sum_flatMap, sum_map_range, List.map_map]
  rfl

/-- The sum over the positions without the central one. -/
theorem loops_sum_skip (order n : Nat) (F : List Nat → K) :
    ((loops (2 * order + 1) n).map fun cs => if cs.all (· == order) then 0 else F cs).sum
      + F (List.replicate n order) = ((loops (2 * order + 1) n).map F).sum := by
  induction n generalizing F with
  | zero => simp [loops]
  | succ n ih =>
    rw [loops_sum_succ, loops_sum_succ]
    have : ∀ c, ((loops (2 * order + 1) n).map fun cs =>
        if (c :: cs).all (· == order) then (0 : K) else F (c :: cs)).sum
        = ((loops (2 * order + 1) n).map fun cs => F (c :: cs)).sum
          - (if c = order then F (c :: List.replicate n order) else 0) := by
      intro c
      by_cases hc : c = order
      · subst hc
        rw [← ih fun cs => F (c :: cs)]
        simp
      · simp [hc]
    simp only [this, Finset.sum_sub_distrib, Finset.sum_ite_eq', Finset.mem_range]
    rw [if_pos (by omega), List.replicate_succ]
    ring

theorem interpCoeffs_length (order : Nat) (ho : order ≤ 5) (s : K) : (interpCoeffs order s).length = 2 * order + 1 := by
  rcases (by omega : order = 0 ∨ order = 1 ∨ order = 2 ∨ order = 3 ∨ order = 4 ∨ order = 5)
    with rfl | rfl | rfl | rfl | rfl | rfl <;> rfl

theorem interpCoeffs_centre (order : Nat) (ho : order ≤ 5) (s : K) : (interpCoeffs order s).getD order 0 = 1 := by
  rcases (by omega : order = 0 ∨ order = 1 ∨ order = 2 ∨ order = 3 ∨ order = 4 ∨ order = 5)
    with rfl | rfl | rfl | rfl | rfl | rfl <;> rfl

theorem loopWeight_centre (order : Nat) (ho : order ≤ 5) (idx : List Int) :
    (loopWeight order idx (List.replicate idx.length order) : K) = 1 := by
  induction idx with
  | nil => rfl
  | cons x xs ih =>
    simp only [List.length_cons, List.replicate_succ, loopWeight, ih, mul_one]
    exact interpCoeffs_centre order ho _

theorem loopIndex_centre (order : Nat) (idx : List Int) :
    loopIndex order idx (List.replicate idx.length order) = idx.map (shr · 1) := by
  induction idx with
  | nil => rfl
  | cons x xs ih => simp [List.replicate_succ, loopIndex, ih]

theorem interpolate_range (order : Nat) (ho : order ≤ 5) (s : K) (u : Int → K) :
    interpolate (interpCoeffs order s) u
      = ∑ c ∈ Finset.range (2 * order + 1), (interpCoeffs order s).getD c 0 * u ((c : Int) - (order : Int)) := by
  unfold interpolate
  rw [sum_map_range, interpCoeffs_length order ho, show (2 * order + 1) / 2 = order by omega]

/-- The nested loops compute the tensor product. -/
theorem loops_predictAt (order : Nat) (ho : order ≤ 5) (idx : List Int) (f : List Int → K) :
    ((loops (2 * order + 1) idx.length).map fun cs => loopWeight order idx cs * f (loopIndex order idx cs)).sum
      = predictAt (coeffsOf order) idx f := by
  induction idx generalizing f with
  | nil => simp [loops, loopWeight, loopIndex, predictAt]
  | cons x xs ih =>
    rw [List.length_cons, loops_sum_succ]
    show _ = interpolate (interpCoeffs order (if decide (x % 2 = 1) then -1 else 1))
      fun s => predictAt (coeffsOf order) xs fun ys => f ((x / 2 + s) :: ys)
    rw [interpolate_range order ho]
    refine Finset.sum_congr rfl fun c _ => ?_
    have := ih fun ys => f ((x / 2 + ((c : Int) - (order : Int))) :: ys)
    rw [← this, ← List.sum_map_mul_left]
    refine congrArg List.sum (List.map_congr_left fun cs _ => ?_)
    simp only [loopWeight, loopIndex, shr, pow_one, decide_eq_true_eq]
    ring

theorem combine_foldl (order level : Nat) (idx : List Int) (f : List Int → K) (L : List (List Nat)) (m : PMap K) :
    combine (L.foldl (fun (m : PMap K) cs => if cs.all (· == order) then m
        else m.add (PMap.scale (loopWeight order idx cs) (predPure order level (loopIndex order idx cs)))) m) f
      = (L.map fun cs => if cs.all (· == order) then 0
          else loopWeight order idx cs * combine (predPure order level (loopIndex order idx cs)) f).sum + combine m f := by
  induction L generalizing m with
  | nil => simp
  | cons cs L ih =>
    simp only [List.foldl_cons, List.map_cons, List.sum_cons, ih]
    split
    · ring
    · rw [combine_add, combine_scale]; ring

theorem combine_predPure (order : Nat) (ho : order ≤ 5) (level : Nat) (idx : List Int) (f : List Int → K) :
    combine (predPure order level idx) f = iterPredict (coeffsOf order) level f idx := by
  induction level generalizing idx with
  | zero => simp [predPure, PMap.single, combine, iterPredict]
  | succ level ih =>
    simp only [predPure, combine_foldl]
    simp only [iterPredict]
    rw [← loops_predictAt order ho idx]
    have h := loops_sum_skip order idx.length fun cs =>
      loopWeight order idx cs * iterPredict (coeffsOf order) level f (loopIndex order idx cs)
    rw [loopWeight_centre order ho, loopIndex_centre, one_mul] at h
    rw [← h]
    simp only [ih]

/-! ### Constants, products, translations -/

theorem interpolate_smul (c : List K) (x : K) (u : Int → K) : interpolate c (fun s => x * u s) = x * interpolate c u := by
  unfold interpolate
  rw [← List.sum_map_mul_left]
  exact congrArg List.sum (List.map_congr_left fun k _ => by ring)

theorem interpolate_const (order : Nat) (ho : order ≤ 5) (b : Bool) (x : K) :
    interpolate (coeffsOf order b) (fun _ => x) = x := by
  unfold coeffsOf
  rcases (by omega : order = 0 ∨ order = 1 ∨ order = 2 ∨ order = 3 ∨ order = 4 ∨ order = 5)
    with rfl | rfl | rfl | rfl | rfl | rfl <;>
  · simp only [interpolate, interpCoeffs, List.length_cons, List.length_nil, List.range_succ, List.range_zero]
    simp
    try ring

theorem predictAt_const (order : Nat) (ho : order ≤ 5) (idx : List Int) (x : K) :
    predictAt (coeffsOf order) idx (fun _ => x) = x := by
  induction idx with
  | nil => rfl
  | cons y ys ih => simp only [predictAt, ih]; exact interpolate_const order ho _ x

theorem iterPredict_const (order : Nat) (ho : order ≤ 5) (l : Nat) (idx : List Int) (x : K) :
    iterPredict (coeffsOf order) l (fun _ => x) idx = x := by
  induction l generalizing idx with
  | zero => rfl
  | succ l ih =>
    simp only [iterPredict]
    rw [show iterPredict (coeffsOf order) l (fun _ => x) = fun _ => x from funext ih]
    exact predictAt_const order ho idx x

theorem predictAt_smul (c : Bool → List K) (idx : List Int) (x : K) (f : List Int → K) :
    predictAt c idx (fun ys => x * f ys) = x * predictAt c idx f := by
  induction idx generalizing f with
  | nil => rfl
  | cons y ys ih =>
    simp only [predictAt]
    rw [← interpolate_smul]
    congr 1
    funext s
    exact ih _

/-- Exactness of the one-dimensional interpolation on means of polynomials. -/
theorem interpolate_mean (order : Nat) (ho : order ≤ 5) (u : Polynomial ℝ) (hu : u.natDegree ≤ 2 * order) (x0 h : ℝ)
    (hh : h ≠ 0) (y : Int) :
    interpolate (coeffsOf order (decide (y % 2 = 1))) (fun s => cellMean (fun t => u.eval t) x0 h (y / 2 + s))
      = cellMean (fun t => u.eval t) x0 (h / 2) y := by
  rcases Nat.eq_zero_or_pos order with rfl | hpos
  · have hc : ∀ (h : ℝ) (i : Int), h ≠ 0 → cellMean (fun x => u.eval x) x0 h i = u.coeff 0 := by
      intro h i hh
      rw [cellMean_eq u 1 (by omega)]
      simp [cellIncr]
      field_simp
      ring
    simp only [hc h _ hh, hc (h / 2) _ (by simpa using hh)]
    exact interpolate_const 0 ho _ _
  · let p : Pt := fun _ => y / 2
    have e := interpolate_eq (K := ℝ) order 0 ⟨hpos, ho⟩ (decide (y % 2 = 1))
      (fun q => cellMean (fun t => u.eval t) x0 h (q 0)) p
    simp only [move_same] at e
    show interpolate (interpCoeffs order (childSign (decide (y % 2 = 1)))) _ = _
    rw [e]
    by_cases hy : y % 2 = 1
    · have := Qs_mean_odd order 0 ⟨hpos, ho⟩ u hu x0 h p
      rw [show 2 * p 0 + 1 = y by show 2 * (y / 2) + 1 = y; omega] at this
      rw [← this]
      simp [childSign, hy, p]
      ring
    · have := Qs_mean order 0 ⟨hpos, ho⟩ u hu x0 h p
      rw [show 2 * p 0 = y by show 2 * (y / 2) = y; omega] at this
      rw [← this]
      simp [childSign, hy, p]

theorem predictAt_productMean (order : Nat) (ho : order ≤ 5) (us : List (Polynomial ℝ × ℝ))
    (hu : ∀ u ∈ us, u.1.natDegree ≤ 2 * order) (h : ℝ) (hh : h ≠ 0) (idx : List Int) (hl : idx.length = us.length) :
    predictAt (coeffsOf order) idx (productMean us h) = productMean us (h / 2) idx := by
  induction us generalizing idx with
  | nil =>
    obtain rfl : idx = [] := by simpa using hl
    simp [predictAt, productMean]
  | cons u us ih =>
    cases idx with
    | nil => simp at hl
    | cons y ys =>
      simp only [predictAt]
      have e : ∀ (h : ℝ) x xs, productMean (u :: us) h (x :: xs)
          = cellMean (fun t => u.1.eval t) u.2 h x * productMean us h xs := by
        intro h x xs; simp [productMean]
      simp only [e, predictAt_smul, ih (fun v hv => hu v (by simp [hv])) ys (by simpa using hl)]
      have := interpolate_smul (coeffsOf order (decide (y % 2 = 1))) (productMean us (h / 2) ys)
        (fun s => cellMean (fun t => u.1.eval t) u.2 h (y / 2 + s))
      simp only [mul_comm (productMean us (h / 2) ys)] at this
      rw [this, interpolate_mean order ho u.1 (hu u (by simp)) u.2 h hh]

theorem predictAt_congr (c : Bool → List K) (idx : List Int) (f g : List Int → K)
    (h : ∀ ys : List Int, ys.length = idx.length → f ys = g ys) : predictAt c idx f = predictAt c idx g := by
  induction idx generalizing f g with
  | nil => exact h [] rfl
  | cons y ys ih =>
    simp only [predictAt]
    congr 1
    funext s
    exact ih _ _ fun zs hz => h _ (by simp [hz])

theorem iterPredict_productMean (order : Nat) (ho : order ≤ 5) (us : List (Polynomial ℝ × ℝ))
    (hu : ∀ u ∈ us, u.1.natDegree ≤ 2 * order) (h : ℝ) (hh : h ≠ 0) (l : Nat) (idx : List Int)
    (hl : idx.length = us.length) :
    iterPredict (coeffsOf order) l (productMean us h) idx = productMean us (h / 2 ^ l) idx := by
  induction l generalizing idx with
  | zero => simp [iterPredict]
  | succ l ih =>
    simp only [iterPredict]
    rw [predictAt_congr _ _ _ (productMean us (h / 2 ^ l)) fun ys hy => ih ys (by omega),
      predictAt_productMean order ho us hu _ (by positivity) idx hl]
    congr 1
    rw [pow_succ, div_div]

/-- Translation by `t` coarse cells. -/
def translateBy (t : List Int) (k : Int) (idx : List Int) : List Int := List.zipWith (fun a b => a + k * b) idx t

theorem predictAt_translate (c : Bool → List K) (t : List Int) (k : Int) (idx : List Int) (hl : idx.length = t.length)
    (f : List Int → K) :
    predictAt c (translateBy t (2 * k) idx) f = predictAt c idx (fun ys => f (translateBy t k ys)) := by
  induction idx generalizing t f with
  | nil =>
    obtain rfl : t = [] := by simpa using hl.symm
    rfl
  | cons y ys ih =>
    cases t with
    | nil => simp at hl
    | cons b t =>
      have e : translateBy (b :: t) (2 * k) (y :: ys) = (y + 2 * k * b) :: translateBy t (2 * k) ys := rfl
      rw [e]
      simp only [predictAt]
      have e1 : (y + 2 * k * b) % 2 = y % 2 := by
        rw [mul_assoc, Int.add_mul_emod_self_left]
      have e2 : (y + 2 * k * b) / 2 = y / 2 + k * b := by
        rw [mul_assoc, Int.add_mul_ediv_left _ _ (by omega)]
      rw [e1, e2]
      congr 1
      funext s
      rw [ih t (by simpa using hl)]
      congr 1
      funext zs
      congr 1
      simp only [translateBy, List.zipWith_cons_cons]
      congr 1
      ring

theorem iterPredict_translate (c : Bool → List K) (t : List Int) (l : Nat) (idx : List Int) (hl : idx.length = t.length)
    (f : List Int → K) :
    iterPredict c l f (translateBy t (2 ^ l) idx) = iterPredict c l (fun ys => f (translateBy t 1 ys)) idx := by
  induction l generalizing idx with
  | zero => simp [iterPredict]
  | succ l ih =>
    simp only [iterPredict]
    rw [pow_succ, mul_comm, predictAt_translate c t _ idx hl]
    exact predictAt_congr _ _ _ _ fun ys hy => ih ys (by omega)

end Samurai

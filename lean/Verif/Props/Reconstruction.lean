/-
Properties C34-C36, C54: multi-level prediction, portion.
-/
import Verif.Lemmas.Reconstruction

namespace Samurai
variable {K : Type} [Field K]

/-! ### C34 -/

/-- C34. `prediction` returns the same map for the same arguments whatever calls were made before. -/
theorem C34_history (order : Nat) (history : List (Nat × List Int)) (level : Nat) (idx : List Int) :
    (prediction order level idx (runPredictions order history PredCache.empty)).1
      = (prediction order level idx (PredCache.empty : PredCache K)).1 := by
  rw [(prediction_good order level idx _ (runPredictions_good order history _ (PredCache.empty_good order))).1,
    (prediction_good order level idx _ (PredCache.empty_good order)).1]

/-- C34. The coefficients returned, applied to the values of any coarse field, give the composition of `level` one-level
tensor-product predictions, whatever calls were made before. -/
theorem C34_composition (order : Nat) (ho : order ≤ 5) (history : List (Nat × List Int)) (level : Nat) (idx : List Int)
    (f : List Int → K) :
    combine (prediction order level idx (runPredictions order history PredCache.empty)).1 f
      = iterPredict (coeffsOf order) level f idx := by
  rw [(prediction_good order level idx _ (runPredictions_good order history _ (PredCache.empty_good order))).1]
  exact combine_predPure order ho level idx f

/-- A history which fills the map with the entry asked for, and others. -/
example : (runPredictions 1 [(2, [1]), (1, [0])] (PredCache.empty : PredCache ℚ)) 2 [1] ≠ none := by decide +kernel

/-! ### C36 -/

/-- C36. The coefficients sum to one. -/
theorem C36_sum_one (order : Nat) (ho : order ≤ 5) (history : List (Nat × List Int)) (level : Nat) (idx : List Int) :
    ((prediction order level idx (runPredictions order history (PredCache.empty : PredCache K))).1.map Prod.snd).sum
      = 1 := by
  have h := C34_composition (K := K) order ho history level idx fun _ => 1
  rw [iterPredict_const order ho] at h
  simpa [combine] using h

/-- C36, beyond constants: on the cell means of a product of one polynomial of degree at most `2 order` per direction,
the prediction through any number of levels is exact. -/
theorem C36_polynomials (order : Nat) (ho : order ≤ 5) (history : List (Nat × List Int)) (level : Nat) (idx : List Int)
    (us : List (Polynomial ℝ × ℝ)) (hl : idx.length = us.length) (hu : ∀ u ∈ us, u.1.natDegree ≤ 2 * order) (h : ℝ)
    (hh : h ≠ 0) :
    combine (prediction order level idx (runPredictions order history PredCache.empty)).1 (productMean us h)
      = productMean us (h / 2 ^ level) idx := by
  rw [C34_composition order ho]
  exact iterPredict_productMean order ho us hu h hh level idx hl

/-- `x * y` in two dimensions meets the hypotheses at order 1. -/
example : ∃ us : List (Polynomial ℝ × ℝ), us.length = 2 ∧ ∀ u ∈ us, u.1.natDegree ≤ 2 * 1 := by
  refine ⟨[(Polynomial.X, 0), (Polynomial.X, 0)], rfl, ?_⟩
  intro u hu
  simp at hu
  subst hu
  simp

/-! ### C35 -/

theorem applyMap_eq (m : PMap K) (f : List Int → K) (i : List Int) :
    applyMap m f i = combine m fun k => f (List.zipWith (· + ·) i k) := rfl

/-- C35 for single cells: `portion` with values `ii` at the cell `i` is the multi-level prediction at the cell
`i * 2^delta_l + ii`, whatever calls were made before. -/
theorem C35_portion_cell (order : Nat) (ho : order ≤ 5) (history : List (Nat × List Int)) (f : List Int → K)
    (i : List Int) (deltaL : Nat) (ii : List Int) (hl : ii.length = i.length) :
    (portionAt order f i deltaL ii (runPredictions order history PredCache.empty)).1
      = iterPredict (coeffsOf order) deltaL f (List.zipWith (fun a b => a * 2 ^ deltaL + b) i ii) := by
  unfold portionAt
  simp only [applyMap_eq]
  rw [C34_composition order ho]
  have e : List.zipWith (fun a b => a * 2 ^ deltaL + b) i ii = translateBy i (2 ^ deltaL) ii := by
    unfold translateBy
    rw [List.zipWith_comm]
    congr 1
    funext a b; ring
  rw [e, iterPredict_translate _ i deltaL ii hl]
  congr 1
  funext k
  unfold translateBy
  rw [List.zipWith_comm]
  congr 2
  funext a b; ring

/-- Calls of `portion` with intervals: level, `delta_l` and intervals. -/
def runPortions (order : Nat) (f : List Int → K) (i : List Int) :
    List (Nat × Nat × List Interval) → PortionCache K → PortionCache K
  | [], c => c
  | q :: qs, c => runPortions order f i qs (portionBox order f q.1 i q.2.1 q.2.2 c).2

/-- The static maps at the start of the program. -/
def PortionCache.empty : PortionCache K := ⟨PredCache.empty, fun _ _ => none⟩

/-- C35 is false: the static map of `portion` does not contain `delta_l`. After `portion(f, 3, i, 1, [0,1))` the value of
`portion(f, 3, i, 2, [0,1))` is the one for `delta_l = 1`. -/
theorem C35_refuted : ∃ (f : List Int → ℚ) (i : List Int) (ii : List Interval),
    (portionBox 1 f 3 i 2 ii (runPortions 1 f i [(3, 1, ii)] PortionCache.empty)).1
      ≠ (portionBox 1 f 3 i 2 ii PortionCache.empty).1 :=
  ⟨fun k => (k.headD 0 : ℚ), [0], [⟨0, 1, 1, 0⟩], by decide +kernel⟩

theorem sumPredictions_good (order deltaL : Nat) (xs : List (List Int)) (m : PMap K) (c : PredCache K)
    (hc : c.GoodAll order) :
    (sumPredictions order deltaL xs m c).1 = xs.foldl (fun (m : PMap K) x => m.add (predPure order deltaL x)) m
      ∧ (sumPredictions order deltaL xs m c).2.GoodAll order := by
  induction xs generalizing m c with
  | nil => exact ⟨rfl, hc⟩
  | cons x xs ih =>
    obtain ⟨h1, h2⟩ := prediction_good order deltaL x c hc
    obtain ⟨h3, h4⟩ := ih (m.add (prediction order deltaL x c).1) _ h2
    refine ⟨?_, h4⟩
    rw [List.foldl_cons, ← h1]
    exact h3

theorem combine_foldl_add (order deltaL : Nat) (xs : List (List Int)) (m : PMap K) (f : List Int → K) :
    combine (xs.foldl (fun (m : PMap K) x => m.add (predPure order deltaL x)) m) f
      = combine m f + (xs.map fun x => combine (predPure order deltaL x) f).sum := by
  induction xs generalizing m with
  | nil => simp
  | cons x xs ih => simp only [List.foldl_cons, ih, combine_add, List.map_cons, List.sum_cons]; ring

/-- Invariant of the maps when `delta_l` is a function of the key. -/
def PortionCache.Good (order : Nat) (delta : Nat → List Interval → Nat) (c : PortionCache K) : Prop :=
  c.preds.GoodAll order ∧ ∀ l ii m, c.portions l ii = some m →
    m = (boxPoints ii).foldl (fun (m : PMap K) x => m.add (predPure order (delta l ii) x)) []

theorem portionBox_good (order : Nat) (delta : Nat → List Interval → Nat) (f : List Int → K) (level : Nat) (i : List Int)
    (ii : List Interval) (c : PortionCache K) (hc : c.Good order delta) :
    (portionBox order f level i (delta level ii) ii c).1
      = ((boxPoints ii).map fun x => combine (predPure order (delta level ii) x)
          fun k => f (List.zipWith (· + ·) i k)).sum
      ∧ (portionBox order f level i (delta level ii) ii c).2.Good order delta := by
  unfold portionBox
  cases hp : c.portions level ii with
  | some m =>
    simp only
    refine ⟨?_, hc⟩
    rw [hc.2 level ii m hp, applyMap_eq, combine_foldl_add, combine_nil, zero_add]
  | none =>
    simp only
    obtain ⟨h1, h2⟩ := sumPredictions_good order (delta level ii) (boxPoints ii) [] c.preds hc.1
    refine ⟨?_, h2, ?_⟩
    · rw [h1, applyMap_eq, combine_foldl_add, combine_nil, zero_add]
    · intro l jj m hm
      simp only at hm
      split at hm
      · rename_i h
        obtain ⟨rfl, rfl⟩ := h
        rw [← Option.some.inj hm, h1]
      · exact hc.2 l jj m hm

theorem runPortions_good (order : Nat) (delta : Nat → List Interval → Nat) (f : List Int → K) (i : List Int)
    (qs : List (Nat × Nat × List Interval)) (hq : ∀ q ∈ qs, q.2.1 = delta q.1 q.2.2) (c : PortionCache K)
    (hc : c.Good order delta) : (runPortions order f i qs c).Good order delta := by
  induction qs generalizing c with
  | nil => exact hc
  | cons q qs ih =>
    refine ih (fun q' hq' => hq q' (by simp [hq'])) _ ?_
    rw [hq q (by simp)]
    exact (portionBox_good order delta f q.1 i q.2.2 c hc).2

/-- C35, part that holds: if in the history all the calls with the same level and intervals have the same `delta_l`
(a function `delta` of them), `portion` returns, whatever calls were made before, the sum of the multi-level predictions
at the cells `i * 2^delta_l + x` for `x` in the product of the intervals. Missing: histories mixing two `delta_l` for
one key (see `C35_refuted`). -/
theorem C35_same_delta_partial (order : Nat) (ho : order ≤ 5) (delta : Nat → List Interval → Nat)
    (history : List (Nat × Nat × List Interval)) (hh : ∀ q ∈ history, q.2.1 = delta q.1 q.2.2)
    (f g : List Int → K) (level : Nat) (i j : List Int) (ii : List Interval) (hl : ii.length = i.length) :
    (portionBox order f level i (delta level ii) ii (runPortions order g j history PortionCache.empty)).1
      = ((boxPoints ii).map fun x =>
          iterPredict (coeffsOf order) (delta level ii) f
            (List.zipWith (fun a b => a * 2 ^ (delta level ii) + b) i x)).sum := by
  have hg := runPortions_good order delta g j history hh PortionCache.empty
    ⟨PredCache.empty_good order, fun _ _ _ h => by simp [PortionCache.empty] at h⟩
  rw [(portionBox_good order delta f level i ii _ hg).1]
  have hlen : ∀ (jj : List Interval) (x : List Int), x ∈ boxPoints jj → x.length = jj.length := by
    intro jj
    induction jj with
    | nil => intro x hx; simp [boxPoints] at hx; simp [hx]
    | cons k jj ih =>
      intro x hx
      simp only [boxPoints, List.mem_flatMap, List.mem_map] at hx
      obtain ⟨y, _, ys, hys, rfl⟩ := hx
      simp [ih ys hys]
  refine congrArg List.sum (List.map_congr_left fun x hx => ?_)
  have h := C35_portion_cell (K := K) order ho [] f i (delta level ii) x (by rw [hlen ii x hx, hl])
  rw [← h]
  unfold portionAt
  simp only [applyMap_eq, runPredictions]
  rw [(prediction_good order _ x _ (PredCache.empty_good order)).1]

/-- A history in which `delta_l` is a function of the key. -/
example : ∃ (delta : Nat → List Interval → Nat) (history : List (Nat × Nat × List Interval)),
    history.length = 2 ∧ ∀ q ∈ history, q.2.1 = delta q.1 q.2.2 :=
  ⟨fun l _ => 5 - l, [(3, 2, [⟨0, 1, 1, 0⟩]), (4, 1, [⟨0, 1, 1, 0⟩])], rfl, by decide⟩

/-! ### C54 -/

theorem fineOffsets_mem (m n : Nat) (o : List Int) :
    o ∈ fineOffsets m n ↔ o.length = n ∧ ∀ x ∈ o, 0 ≤ x ∧ x < (m : Int) := by
  induction n generalizing o with
  | zero => simp only [fineOffsets, List.mem_singleton]; constructor
            · rintro rfl; simp
            · rintro ⟨h, _⟩; simpa using h
  | succ n ih =>
    simp only [fineOffsets, List.mem_flatMap, List.mem_map, List.mem_range]
    constructor
    · rintro ⟨k, hk, o', ho', rfl⟩
      obtain ⟨h1, h2⟩ := (ih o').1 ho'
      refine ⟨by simp [h1], fun x hx => ?_⟩
      rcases List.mem_append.1 hx with hx | hx
      · exact h2 x hx
      · simp at hx; omega
    · rintro ⟨h1, h2⟩
      have hne : o ≠ [] := by rintro rfl; simp at h1
      refine ⟨(o.getLast hne).toNat, ?_, o.dropLast, (ih _).2 ⟨by simp [h1], fun x hx => h2 x (List.mem_of_mem_dropLast hx)⟩, ?_⟩
      · have := h2 _ (List.getLast_mem hne); omega
      · have := h2 _ (List.getLast_mem hne)
        rw [Int.toNat_of_nonneg this.1]
        exact List.dropLast_append_getLast hne

theorem fineOffsets_nodup (m n : Nat) : (fineOffsets m n).Nodup := by
  induction n with
  | zero => simp [fineOffsets]
  | succ n ih =>
    simp only [fineOffsets]
    unfold List.Nodup
    rw [List.pairwise_flatMap]
    refine ⟨fun k _ => List.Nodup.map (fun a b h => List.append_cancel_right h) ih, ?_⟩
    refine List.nodup_range.imp fun {a b} hab => ?_
    intro x hx y hy hxy
    simp only [List.mem_map] at hx hy
    obtain ⟨x', _, rfl⟩ := hx
    obtain ⟨y', _, rfl⟩ := hy
    have := (List.append_inj' hxy rfl).2
    simp at this
    omega

theorem fineCell_length (delta : Nat) (i o : List Int) (h : o.length = i.length) : (fineCell delta i o).length = i.length := by
  simp [fineCell, h]

theorem fineCell_div (delta : Nat) (i o : List Int) (hl : o.length = i.length)
    (ho : ∀ x ∈ o, 0 ≤ x ∧ x < ((2 ^ delta : Nat) : Int)) : (fineCell delta i o).map (· / 2 ^ delta) = i := by
  induction i generalizing o with
  | nil => simp [fineCell]
  | cons a i ih =>
    cases o with
    | nil => simp at hl
    | cons b o =>
      have hb := ho b (by simp)
      have := ih o (by simpa using hl) fun x hx => ho x (by simp [hx])
      simp only [fineCell, List.zipWith_cons_cons, List.map_cons] at this ⊢
      rw [this]
      congr 1
      push_cast at hb
      unfold shl
      rw [add_comm, Int.add_mul_ediv_right _ _ (by positivity), Int.ediv_eq_zero_of_lt hb.1 hb.2, zero_add]

theorem fineCell_mod (delta : Nat) (i q : List Int) (h : q.map (· / 2 ^ delta) = i) :
    fineCell delta i (q.map (· % 2 ^ delta)) = q := by
  subst h
  induction q with
  | nil => rfl
  | cons x q ih =>
    simp only [fineCell, List.map_cons, List.zipWith_cons_cons] at ih ⊢
    rw [ih]
    congr 1
    unfold shl
    rw [mul_comm]
    exact Int.mul_ediv_add_emod x _

theorem fineCell_inj (delta : Nat) (i o o' : List Int) (hl : o.length = i.length) (hl' : o'.length = i.length)
    (h : fineCell delta i o = fineCell delta i o') : o = o' := by
  induction i generalizing o o' with
  | nil =>
    rw [List.length_eq_zero_iff.1 hl, List.length_eq_zero_iff.1 hl']
  | cons a i ih =>
    cases o with
    | nil => simp at hl
    | cons b o =>
      cases o' with
      | nil => simp at hl'
      | cons b' o' =>
        simp only [fineCell, List.zipWith_cons_cons, List.cons.injEq] at h
        have := ih o o' (by simpa using hl) (by simpa using hl') h.2
        rw [this]
        congr 1
        omega

theorem reconstructOffsets_spec (order delta : Nat) (src : List Int → K) (i : List Int) (os : List (List Int))
    (hn : os.Nodup) (hl : ∀ o ∈ os, o.length = i.length) (s : (List Int → K) × PredCache K)
    (hc : s.2.GoodAll order) :
    let r := reconstructOffsets order delta src i os s
    r.2.GoodAll order ∧ (∀ q, (∀ o ∈ os, q ≠ fineCell delta i o) → r.1 q = s.1 q)
      ∧ ∀ o ∈ os, r.1 (fineCell delta i o) = s.1 (fineCell delta i o) + applyMap (predPure order delta o) src i := by
  induction os generalizing s with
  | nil => exact ⟨hc, fun _ _ => rfl, fun o ho => by simp at ho⟩
  | cons o os ih =>
    obtain ⟨h1, h2⟩ := prediction_good order delta o s.2 hc
    obtain ⟨k1, k2, k3⟩ := ih (List.nodup_cons.1 hn).2 (fun o' h => hl o' (by simp [h]))
      ((fun q => if q = fineCell delta i o then s.1 q + applyMap (prediction order delta o s.2).1 src i else s.1 q),
        (prediction order delta o s.2).2) h2
    refine ⟨k1, fun q hq => ?_, fun o' ho' => ?_⟩
    · refine (k2 q fun o' h => hq o' (by simp [h])).trans ?_
      exact if_neg (hq o (by simp))
    · rcases List.mem_cons.1 ho' with rfl | ho'
      · refine (k2 _ fun o'' h heq => ?_).trans ?_
        · have := fineCell_inj delta i o' o'' (hl _ (by simp)) (hl _ (by simp [h])) heq
          exact (List.nodup_cons.1 hn).1 (this ▸ h)
        · simp only [if_true, h1]
      · refine (k3 o' ho').trans ?_
        have hne : fineCell delta i o' ≠ fineCell delta i o := fun heq =>
          (List.nodup_cons.1 hn).1 (fineCell_inj delta i o' o (hl _ (by simp [ho'])) (hl _ (by simp)) heq ▸ ho')
        simp only [if_neg hne]

theorem reconstructCell_spec (order : Nat) (ho : order ≤ 5) (rl level : Nat) (hlv : level ≤ rl) (src : List Int → K)
    (i : List Int) (s : (List Int → K) × PredCache K) (hc : s.2.GoodAll order)
    (h0 : ∀ q : List Int, q.map (· / 2 ^ (rl - level)) = i → s.1 q = 0) :
    let r := reconstructCell order rl level src i s
    r.2.GoodAll order ∧ (∀ q : List Int, q.map (· / 2 ^ (rl - level)) ≠ i → r.1 q = s.1 q)
      ∧ ∀ q : List Int, q.map (· / 2 ^ (rl - level)) = i → r.1 q = iterPredict (coeffsOf order) (rl - level) src q := by
  generalize hd : rl - level = delta at *
  unfold reconstructCell
  simp only [hd]
  by_cases hz : delta = 0
  · subst hz
    simp only [if_true]
    refine ⟨hc, fun q hq => ?_, fun q hq => ?_⟩
    · exact if_neg (by simpa using hq)
    · have : q = i := by simpa using hq
      subst this
      simp [iterPredict]
  · simp only [if_neg hz]
    have hlen : ∀ o ∈ fineOffsets (2 ^ delta) i.length, o.length = i.length := fun o h => ((fineOffsets_mem _ _ _).1 h).1
    obtain ⟨k1, k2, k3⟩ := reconstructOffsets_spec order delta src i (fineOffsets (2 ^ delta) i.length)
      (fineOffsets_nodup _ _) hlen s hc
    refine ⟨k1, fun q hq => ?_, fun q hq => ?_⟩
    · refine k2 q fun o ho heq => hq ?_
      obtain ⟨h1, h2⟩ := (fineOffsets_mem _ _ _).1 ho
      rw [heq]
      exact fineCell_div delta i o h1 h2
    · have hq' := fineCell_mod delta i q hq
      have hmem : q.map (· % 2 ^ delta) ∈ fineOffsets (2 ^ delta) i.length := by
        refine (fineOffsets_mem _ _ _).2 ⟨by rw [← hq]; simp, fun x hx => ?_⟩
        simp only [List.mem_map] at hx
        obtain ⟨y, _, rfl⟩ := hx
        push_cast
        exact ⟨Int.emod_nonneg _ (by positivity), Int.emod_lt_of_pos _ (by positivity)⟩
      have := k3 _ hmem
      rw [hq', h0 q hq, zero_add] at this
      rw [this]
      have h2 := C35_portion_cell (K := K) order ho [] src i delta (q.map (· % 2 ^ delta)) (by rw [← hq]; simp)
      unfold portionAt at h2
      simp only [runPredictions, (prediction_good order _ _ _ (PredCache.empty_good order)).1] at h2
      rw [h2]
      congr 1

/-- C54. `reconstruction` of a field: if no finest cell is under two leaves, every finest cell under the leaf `(l, i)`
gets the multi-level prediction of the field of level `l` at that cell, and every other cell gets 0; whatever calls of
`prediction` were made before. -/
theorem C54_reconstruction (order : Nat) (ho : order ≤ 5) (rl : Nat) (src : Nat → List Int → K)
    (leaves : List (Nat × List Int)) (hlv : ∀ c ∈ leaves, c.1 ≤ rl)
    (hdis : leaves.Pairwise fun c c' => ∀ q : List Int,
      ¬ (q.map (· / 2 ^ (rl - c.1)) = c.2 ∧ q.map (· / 2 ^ (rl - c'.1)) = c'.2))
    (history : List (Nat × List Int)) :
    let r := (reconstruction order rl src leaves (runPredictions order history PredCache.empty)).1
    (∀ c ∈ leaves, ∀ q : List Int, q.map (· / 2 ^ (rl - c.1)) = c.2 →
        r q = iterPredict (coeffsOf order) (rl - c.1) (src c.1) q)
      ∧ ∀ q : List Int, (∀ c ∈ leaves, q.map (· / 2 ^ (rl - c.1)) ≠ c.2) → r q = 0 := by
  have key : ∀ (s : (List Int → K) × PredCache K), s.2.GoodAll order →
      (∀ c ∈ leaves, ∀ q : List Int, q.map (· / 2 ^ (rl - c.1)) = c.2 → s.1 q = 0) →
      let r := (reconstructLeaves order rl src leaves s).1
      (∀ c ∈ leaves, ∀ q : List Int, q.map (· / 2 ^ (rl - c.1)) = c.2 →
        r q = iterPredict (coeffsOf order) (rl - c.1) (src c.1) q)
      ∧ ∀ q : List Int, (∀ c ∈ leaves, q.map (· / 2 ^ (rl - c.1)) ≠ c.2) → r q = s.1 q := by
    induction leaves with
    | nil => intro s _ _; exact ⟨fun c h => by simp at h, fun _ _ => rfl⟩
    | cons c leaves ih =>
      intro s hs h0
      obtain ⟨hd1, hd2⟩ := List.pairwise_cons.1 hdis
      obtain ⟨k1, k2, k3⟩ := reconstructCell_spec order ho rl c.1 (hlv c (by simp)) (src c.1) c.2 s hs
        (h0 c (by simp))
      have hih := ih (fun c' h => hlv c' (by simp [h])) hd2 (reconstructCell order rl c.1 (src c.1) c.2 s) k1
        (fun c' hc' q hq => by
          rw [k2 q fun h => hd1 c' hc' q ⟨h, hq⟩]
          exact h0 c' (by simp [hc']) q hq)
      refine ⟨fun c' hc' q hq => ?_, fun q hq => ?_⟩
      · rcases List.mem_cons.1 hc' with rfl | hc'
        · exact (hih.2 q fun c'' hc'' h => hd1 c'' hc'' q ⟨hq, h⟩).trans (k3 q hq)
        · exact hih.1 c' hc' q hq
      · exact (hih.2 q fun c' hc' => hq c' (by simp [hc'])).trans (k2 q (hq c (by simp)))
  exact key (fun _ => 0, runPredictions order history PredCache.empty)
    (runPredictions_good order history _ (PredCache.empty_good order)) fun _ _ _ _ => rfl

/-- Leaves of two levels meeting the hypotheses. -/
example : ∃ leaves : List (Nat × List Int), leaves = [(1, [0]), (2, [2]), (2, [3])] ∧ (∀ c ∈ leaves, c.1 ≤ 3) ∧
    leaves.Pairwise fun c c' => ∀ q : List Int,
      ¬ (q.map (· / 2 ^ (3 - c.1)) = c.2 ∧ q.map (· / 2 ^ (3 - c'.1)) = c'.2) := by
  refine ⟨_, rfl, by decide, ?_⟩
  have h1 : ∀ q : List Int, ¬ (q.map (· / 4) = [0] ∧ q.map (· / 2) = [2]) := by
    rintro (_ | ⟨x, _ | ⟨y, q⟩⟩) <;> simp <;> omega
  have h2 : ∀ q : List Int, ¬ (q.map (· / 4) = [0] ∧ q.map (· / 2) = [3]) := by
    rintro (_ | ⟨x, _ | ⟨y, q⟩⟩) <;> simp <;> omega
  have h3 : ∀ q : List Int, ¬ (q.map (· / 2) = [2] ∧ q.map (· / 2) = [3]) := by
    rintro q ⟨h, h'⟩; rw [h] at h'; simp at h'
  refine List.Pairwise.cons ?_ (List.Pairwise.cons ?_ (List.Pairwise.cons ?_ List.Pairwise.nil))
  · intro c hc
    simp at hc
    rcases hc with rfl | rfl
    · exact h1
    · exact h2
  · intro c hc
    simp at hc
    subst hc
    exact h3
  · simp

end Samurai

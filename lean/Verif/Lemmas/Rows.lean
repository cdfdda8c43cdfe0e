import Verif.Lemmas.GridUnique

namespace Samurai

/-! ### index arithmetic on lists -/

theorem slice_getElem? {α : Type} (l : List α) (lo hi j : Nat) :
    (slice l lo hi)[j]? = if lo + j < hi then l[lo + j]? else none := by
  unfold slice
  rw [List.getElem?_drop, List.getElem?_take]

theorem mem_slice {α : Type} {l : List α} {lo hi : Nat} {a : α} :
    a ∈ slice l lo hi ↔ ∃ k, lo ≤ k ∧ k < hi ∧ l[k]? = some a := by
  rw [List.mem_iff_getElem?]
  constructor
  · rintro ⟨j, hj⟩
    rw [slice_getElem?] at hj
    split at hj
    · exact ⟨lo + j, by omega, by omega, hj⟩
    · simp at hj
  · rintro ⟨k, h1, h2, h3⟩
    refine ⟨k - lo, ?_⟩
    rw [slice_getElem?, if_pos (by omega), show lo + (k - lo) = k by omega]
    exact h3

theorem slice_length {α : Type} {l : List α} {lo hi : Nat} (h : hi ≤ l.length) :
    (slice l lo hi).length = hi - lo := by
  unfold slice
  simp [Nat.min_eq_left h]

theorem Canonical.tail {i : Interval} {l : List Interval} (h : Canonical (i :: l)) : Canonical l :=
  h.cons.2.canonical

theorem Canonical.valid {l : List Interval} (h : Canonical l) {i : Interval} (hi : i ∈ l) :
    i.start < i.stop := by
  obtain ⟨b, hb⟩ := canonical_iff.1 h
  exact hb.valid hi

theorem Canonical.gap {l : List Interval} (h : Canonical l) {j k : Nat} (hjk : j < k) {a b : Interval}
    (ha : l[j]? = some a) (hb : l[k]? = some b) : a.stop < b.start := by
  induction l generalizing j k with
  | nil => simp at ha
  | cons i l ih =>
    cases k with
    | zero => omega
    | succ k =>
      rw [List.getElem?_cons_succ] at hb
      cases j with
      | zero =>
        simp only [List.getElem?_cons_zero, Option.some.injEq] at ha
        subst ha
        exact (h.cons.2.of_mem (List.mem_of_getElem? hb)).1
      | succ j =>
        rw [List.getElem?_cons_succ] at ha
        exact ih h.tail (by omega) ha hb

/-- Canonicity of a slice in terms of positions. -/
theorem slice_gap {l : List Interval} {lo hi : Nat} (h : Canonical (slice l lo hi)) {j k : Nat}
    (h1 : lo ≤ j) (hjk : j < k) (h2 : k < hi) {a b : Interval}
    (ha : l[j]? = some a) (hb : l[k]? = some b) : a.stop < b.start := by
  refine h.gap (j := j - lo) (k := k - lo) (by omega) ?_ ?_
  · rw [slice_getElem?, if_pos (by omega), show lo + (j - lo) = j by omega]; exact ha
  · rw [slice_getElem?, if_pos (by omega), show lo + (k - lo) = k by omega]; exact hb

/-! ### searching -/

theorem lowerBoundLoop_spec {l : List Interval} {v : Int} {lo hi : Nat} (hhi : hi ≤ l.length)
    (hc : Canonical (slice l lo hi)) (fuel first count : Nat) (hf : count ≤ fuel)
    (h1 : lo ≤ first) (h2 : first + count ≤ hi)
    (hlow : ∀ k a, lo ≤ k → k < first → l[k]? = some a → a.stop < v)
    (hup : ∀ k a, first + count ≤ k → k < hi → l[k]? = some a → ¬ a.stop < v) :
    ∃ r, lowerBoundLoop l v fuel first count = some r ∧ lo ≤ r ∧ r ≤ hi ∧
      (∀ k a, lo ≤ k → k < r → l[k]? = some a → a.stop < v) ∧
      (∀ k a, r ≤ k → k < hi → l[k]? = some a → ¬ a.stop < v) := by
  induction fuel generalizing first count with
  | zero =>
    obtain rfl : count = 0 := by omega
    exact ⟨first, by simp [lowerBoundLoop], h1, by omega, hlow, by simpa using hup⟩
  | succ fuel ih =>
    unfold lowerBoundLoop
    split
    · rename_i h0
      subst h0
      exact ⟨first, rfl, h1, by omega, hlow, by simpa using hup⟩
    · rename_i h0
      simp only []
      have hlt : first + count / 2 < l.length := by omega
      have hget : l[first + count / 2]? = some l[first + count / 2] := List.getElem?_eq_getElem hlt
      generalize hi' : l[first + count / 2] = i at hget
      have hval : ∀ k a, lo ≤ k → k < hi → l[k]? = some a → a.start < a.stop := by
        intro k a hk1 hk2 hka
        exact hc.valid (mem_slice.2 ⟨k, hk1, hk2, hka⟩)
      rw [hget]
      simp only []
      split
      · rename_i hlt'
        refine ih (first + count / 2 + 1) _ (by omega) (by omega) (by omega) ?_ ?_
        · intro k a hk1 hk2 hka
          rcases Nat.lt_or_eq_of_le (Nat.lt_succ_iff.1 hk2) with hk | rfl
          · have := slice_gap hc hk1 hk (by omega) hka hget
            have := hval _ _ (by omega) (by omega) hget
            omega
          · rw [hget] at hka; cases hka; exact hlt'
        · intro k a hk1 hk2 hka
          exact hup k a (by omega) hk2 hka
      · rename_i hlt'
        refine ih first _ (by omega) h1 (by omega) hlow ?_
        intro k a hk1 hk2 hka
        rcases Nat.lt_or_eq_of_le hk1 with hk | rfl
        · have := slice_gap hc (by omega) hk hk2 hget hka
          have := hval _ _ (by omega) hk2 hka
          omega
        · rw [hget] at hka; cases hka; exact hlt'

theorem lowerBound_spec {l : List Interval} {v : Int} {lo hi : Nat} (hhi : hi ≤ l.length)
    (hc : Canonical (slice l lo hi)) (first count : Nat) (h1 : lo ≤ first) (h2 : first + count ≤ hi)
    (hlow : ∀ k a, lo ≤ k → k < first → l[k]? = some a → a.stop < v)
    (hup : ∀ k a, first + count ≤ k → k < hi → l[k]? = some a → ¬ a.stop < v) :
    ∃ r, lowerBound l v first count = some r ∧ lo ≤ r ∧ r ≤ hi ∧
      (∀ k a, lo ≤ k → k < r → l[k]? = some a → a.stop < v) ∧
      (∀ k a, r ≤ k → k < hi → l[k]? = some a → ¬ a.stop < v) :=
  lowerBoundLoop_spec hhi hc count first count le_rfl h1 h2 hlow hup

theorem search_spec {l : List Interval} {lo hi : Nat} (hlo : lo ≤ hi) (hhi : hi ≤ l.length)
    (hc : Canonical (slice l lo hi)) (v : Int) :
    (∃ k i, lo ≤ k ∧ k < hi ∧ l[k]? = some i ∧ v ∈ i ∧ myBinarySearch l lo hi v = some ((k : Int) - lo)) ∨
    (¬ MemList v (slice l lo hi) ∧ myBinarySearch l lo hi v = some (-1)) := by
  obtain ⟨r, hr, h1, h2, h3, h4⟩ := lowerBound_spec (v := v) hhi hc lo (hi - lo) le_rfl (by omega)
    (fun k a h h' => by omega) (fun k a h h' => by omega)
  have hval : ∀ k a, lo ≤ k → k < hi → l[k]? = some a → a.start < a.stop := by
    intro k a hk1 hk2 hka
    exact hc.valid (mem_slice.2 ⟨k, hk1, hk2, hka⟩)
  -- if v is in some interval of the slice, it is the one found
  have key : ∀ k i, lo ≤ k → k < hi → l[k]? = some i → v ∈ i → k = r := by
    intro k i hk1 hk2 hki hv
    have hv := Interval.mem_def.1 hv
    by_contra hne
    rcases Nat.lt_or_gt_of_ne hne with h | h
    · have := h3 k i hk1 h hki; omega
    · have hlt : r < l.length := by omega
      have hg := List.getElem?_eq_getElem hlt
      have := h4 r _ le_rfl (by omega) hg
      have := slice_gap hc h1 h hk2 hg hki
      omega
  unfold myBinarySearch
  rw [hr]
  simp only []
  split
  · rename_i hrl
    right
    refine ⟨?_, rfl⟩
    rintro ⟨i, hi, hv⟩
    obtain ⟨k, hk1, hk2, hki⟩ := mem_slice.1 hi
    have := key k i hk1 hk2 hki hv
    omega
  · rename_i hrl
    have hlt : r < l.length := by omega
    have hg := List.getElem?_eq_getElem hlt
    generalize l[r] = i at hg
    have h5 := h4 r i le_rfl (by omega) hg
    rw [hg]
    simp only [h5, decide_false, Bool.not_false, if_true]
    split
    · rename_i hci
      left
      refine ⟨r, i, h1, by omega, hg, ?_, rfl⟩
      simpa [Interval.contains, Interval.mem_def] using hci
    · rename_i hci
      right
      refine ⟨?_, rfl⟩
      rintro ⟨i', hi', hv⟩
      obtain ⟨k, hk1, hk2, hki⟩ := mem_slice.1 hi'
      have := key k i' hk1 hk2 hki hv
      subst this
      rw [hg] at hki; cases hki
      apply hci
      simpa [Interval.contains, Interval.mem_def] using hv

/-! ### rows -/

/-- A row all of whose descendants can be reached without leaving the storage. -/
def RowOK (L : LCA) : Nat → Nat → Nat → Prop
  | 0, lo, hi => lo < hi ∧ hi ≤ (L.cells 0).length ∧ Canonical (slice (L.cells 0) lo hi)
  | d + 1, lo, hi =>
    lo < hi ∧ hi ≤ (L.cells (d + 1)).length ∧ Canonical (slice (L.cells (d + 1)) lo hi) ∧
    ∀ i ∈ slice (L.cells (d + 1)) lo hi, ∀ c ∈ i, 0 ≤ i.index + c ∧
      ∃ a b, (L.offsets d)[(i.index + c).toNat]? = some a ∧
        (L.offsets d)[(i.index + c).toNat + 1]? = some b ∧ RowOK L d a b

theorem RowOK.base {L : LCA} {d lo hi : Nat} (h : RowOK L d lo hi) :
    lo < hi ∧ hi ≤ (L.cells d).length ∧ Canonical (slice (L.cells d) lo hi) := by
  cases d with
  | zero => exact h
  | succ d => exact ⟨h.1, h.2.1, h.2.2.1⟩

theorem indexFrom_bounds {l : List Interval} {a : Int} (h : IndexFrom a l)
    {i : Interval} (hi : i ∈ l) {c : Int} (hc : c ∈ i) :
    a ≤ i.index + c ∧ i.index + c < a + totalSize l := by
  induction l generalizing a with
  | nil => simp at hi
  | cons j l ih =>
    have ht : totalSize (j :: l) = j.size + totalSize l := by simp [totalSize]
    rcases List.mem_cons.1 hi with rfl | hi
    · have h1 := h.1
      have := Interval.mem_def.1 hc
      rw [ht]
      unfold Interval.size
      omega
    · have := ih h.2 hi
      rw [ht]
      omega

theorem LCA.WF.rowOK_sub {n : Nat} {L : LCA} (h : L.WF n) (hne : L.cells n ≠ []) {d : Nat} (hd : d < n)
    {j a b : Nat} (ha : (L.offsets d)[j]? = some a) (hb : (L.offsets d)[j + 1]? = some b) :
    RowOK L d a b := by
  induction d generalizing j a b with
  | zero => exact (h.seg 0 hd hne).2 j a b ha hb
  | succ d ih =>
    obtain ⟨h1, h2, h3⟩ := (h.seg (d + 1) hd hne).2 j a b ha hb
    refine ⟨h1, h2, h3, fun i hi c hc => ?_⟩
    have hil : i ∈ L.cells (d + 1) := by
      obtain ⟨k, _, _, hk⟩ := mem_slice.1 hi
      exact List.mem_of_getElem? hk
    obtain ⟨h4, h5⟩ := indexFrom_bounds (h.index d (by omega)) hil hc
    have hlen := h.count d (by omega) hne
    refine ⟨h4, ?_⟩
    have l1 : (i.index + c).toNat < (L.offsets d).length := by omega
    have l2 : (i.index + c).toNat + 1 < (L.offsets d).length := by omega
    exact ⟨_, _, List.getElem?_eq_getElem l1, List.getElem?_eq_getElem l2,
      ih (by omega) (List.getElem?_eq_getElem l1) (List.getElem?_eq_getElem l2)⟩

/-- The top row of a non-empty well-formed array. -/
theorem LCA.WF.rowOK {n : Nat} {L : LCA} (h : L.WF n) (hne : L.cells n ≠ []) :
    RowOK L n 0 (L.cells n).length := by
  have hpos : 0 < (L.cells n).length := List.length_pos_iff.2 hne
  have htop : Canonical (slice (L.cells n) 0 (L.cells n).length) := by rw [slice_full]; exact h.top
  cases n with
  | zero => exact ⟨hpos, le_rfl, htop⟩
  | succ n =>
    refine ⟨hpos, le_rfl, htop, fun i hi c hc => ?_⟩
    rw [slice_full] at hi
    obtain ⟨h4, h5⟩ := indexFrom_bounds (h.index n (by omega)) hi hc
    have hlen := h.count n (by omega) hne
    refine ⟨h4, ?_⟩
    have l1 : (i.index + c).toNat < (L.offsets n).length := by omega
    have l2 : (i.index + c).toNat + 1 < (L.offsets n).length := by omega
    exact ⟨_, _, List.getElem?_eq_getElem l1, List.getElem?_eq_getElem l2,
      LCA.WF.rowOK_sub h hne (by omega) (List.getElem?_eq_getElem l1) (List.getElem?_eq_getElem l2)⟩

/-! ### chains: the outer coordinates of a stored interval, read bottom-up -/

/-- `Chain n L d k path`: the interval number `k` of direction `d` lies in the row whose outer
coordinates (outermost first, `n - d` of them) are `path`. `m` is `n - d`. -/
def Chain (L : LCA) : (m d k : Nat) → List Int → Prop
  | 0, d, k, path => path = [] ∧ k < (L.cells d).length
  | m + 1, d, k, path =>
    ∃ k' i c path' a b, path = path' ++ [c] ∧ Chain L m (d + 1) k' path' ∧
      (L.cells (d + 1))[k']? = some i ∧ c ∈ i ∧ 0 ≤ i.index + c ∧
      (L.offsets d)[(i.index + c).toNat]? = some a ∧ (L.offsets d)[(i.index + c).toNat + 1]? = some b ∧
      a ≤ k ∧ k < b

theorem SegOK.mono {c : List Interval} {o : List Nat} (h : SegOK c o) {j k a b : Nat} (hjk : j ≤ k)
    (ha : o[j]? = some a) (hb : o[k]? = some b) : a ≤ b := by
  induction k generalizing b with
  | zero =>
    obtain rfl : j = 0 := by omega
    rw [ha] at hb; cases hb; exact le_rfl
  | succ k ih =>
    rcases Nat.lt_or_eq_of_le hjk with hlt | rfl
    · have hk : k < o.length := by
        have := (List.getElem?_eq_some_iff.1 hb).1; omega
      have hg := List.getElem?_eq_getElem hk
      have := ih (by omega) hg
      have := (h.2 k _ b hg hb).1
      omega
    · rw [ha] at hb; cases hb; exact le_rfl

theorem SegOK.row_unique {c : List Interval} {o : List Nat} (h : SegOK c o) {j j' a b a' b' k : Nat}
    (ha : o[j]? = some a) (hb : o[j + 1]? = some b) (ha' : o[j']? = some a') (hb' : o[j' + 1]? = some b')
    (h1 : a ≤ k) (h2 : k < b) (h3 : a' ≤ k) (h4 : k < b') : j = j' := by
  by_contra hne
  rcases Nat.lt_or_gt_of_ne hne with hl | hl
  · have := h.mono (show j + 1 ≤ j' by omega) hb ha'; omega
  · have := h.mono (show j' + 1 ≤ j by omega) hb' ha; omega

theorem totalSize_cons (i : Interval) (l : List Interval) : totalSize (i :: l) = i.size + totalSize l := by
  simp [totalSize]

/-- Position and coordinate of an offset number are unique. -/
theorem indexFrom_unique {l : List Interval} {a : Int} (h : IndexFrom a l) {k k' : Nat}
    {i i' : Interval} (hk : l[k]? = some i) (hk' : l[k']? = some i') {c c' : Int} (hc : c ∈ i) (hc' : c' ∈ i')
    (he : i.index + c = i'.index + c') : k = k' ∧ c = c' := by
  induction l generalizing a k k' with
  | nil => simp at hk
  | cons j l ih =>
    have m1 := Interval.mem_def.1 hc
    have m2 := Interval.mem_def.1 hc'
    cases k with
    | zero =>
      simp only [List.getElem?_cons_zero, Option.some.injEq] at hk
      subst hk
      cases k' with
      | zero =>
        simp only [List.getElem?_cons_zero, Option.some.injEq] at hk'
        subst hk'
        exact ⟨rfl, by omega⟩
      | succ k' =>
        rw [List.getElem?_cons_succ] at hk'
        have := (indexFrom_bounds h.2 (List.mem_of_getElem? hk') hc').1
        have h1 := h.1
        unfold Interval.size at this
        omega
    | succ k =>
      rw [List.getElem?_cons_succ] at hk
      cases k' with
      | zero =>
        simp only [List.getElem?_cons_zero, Option.some.injEq] at hk'
        subst hk'
        have := (indexFrom_bounds h.2 (List.mem_of_getElem? hk) hc).1
        have h1 := h.1
        unfold Interval.size at this
        omega
      | succ k' =>
        rw [List.getElem?_cons_succ] at hk'
        have := ih h.2 hk hk'
        exact ⟨by omega, this.2⟩

theorem Chain.unique {n : Nat} {L : LCA} (h : L.WF n) (hne : L.cells n ≠ []) {m d k : Nat} (hmd : m + d = n)
    {p p' : List Int} (hp : Chain L m d k p) (hp' : Chain L m d k p') : p = p' := by
  induction m generalizing d k p p' with
  | zero => rw [hp.1, hp'.1]
  | succ m ih =>
    obtain ⟨k1, i1, c1, q1, a1, b1, rfl, hq1, hg1, hc1, hz1, ha1, hb1, hl1, hu1⟩ := hp
    obtain ⟨k2, i2, c2, q2, a2, b2, rfl, hq2, hg2, hc2, hz2, ha2, hb2, hl2, hu2⟩ := hp'
    have hj := (h.seg d (by omega) hne).row_unique ha1 hb1 ha2 hb2 hl1 hu1 hl2 hu2
    obtain ⟨rfl, rfl⟩ := indexFrom_unique (h.index d (by omega)) hg1 hg2 hc1 hc2 (by omega)
    rw [ih (by omega) hq1 hq2]

end Samurai

import Verif.Lemmas.Rows

namespace Samurai

/-! ### the list of all rows -/

theorem indexFrom_at {l : List Interval} {a : Int} (h : IndexFrom a l) {k : Nat} {i : Interval}
    (hk : l[k]? = some i) : i.index + i.start = a + totalSize (l.take k) := by
  induction l generalizing a k with
  | nil => simp at hk
  | cons j l ih =>
    cases k with
    | zero =>
      simp only [List.getElem?_cons_zero, Option.some.injEq] at hk
      subst hk
      simpa [totalSize] using h.1
    | succ k =>
      rw [List.getElem?_cons_succ] at hk
      rw [ih h.2 hk, List.take_succ_cons, totalSize_cons]
      push_cast
      ring

theorem totalSize_take_succ {l : List Interval} {k : Nat} {i : Interval} (hk : l[k]? = some i) :
    totalSize (l.take (k + 1)) = totalSize (l.take k) + i.size := by
  rw [List.take_add_one, hk]
  simp [totalSize]

theorem totalSize_take_le {l : List Interval} (k : Nat) : totalSize (l.take k) ≤ totalSize l := by
  have : totalSize l = totalSize (l.take k) + totalSize (l.drop k) := by
    conv_lhs => rw [← List.take_append_drop k l]
    rw [totalSize, List.map_append, List.sum_append]
    rfl
  omega

/-- Position, among the x-intervals, of the first one below the interval `k` of direction `d`. -/
def startPos (L : LCA) : Nat → Nat → Nat
  | 0, k => k
  | d + 1, k => startPos L d ((L.offsets d).getD (totalSize ((L.cells (d + 1)).take k)) 0)

/-- The list `l` of rows is what is stored from `base` to `next`, under the outer coordinates `q`. -/
def Good (L : LCA) (n base : Nat) (l : List (List Int × Interval)) (q : List Int) (next : Nat) : Prop :=
  base + l.length = next ∧
  ∀ t e, l[t]? = some e → (L.cells 0)[base + t]? = some e.2 ∧ Chain L n 0 (base + t) (q ++ e.1)

theorem Good.nil {L : LCA} {n base : Nat} {q : List Int} : Good L n base [] q base :=
  ⟨by simp, by simp⟩

theorem Good.append {L : LCA} {n a b c : Nat} {l l' : List (List Int × Interval)} {q : List Int}
    (h : Good L n a l q b) (h' : Good L n b l' q c) : Good L n a (l ++ l') q c := by
  refine ⟨?_, ?_⟩
  · have := h.1; have := h'.1; simp; omega
  · intro t e he
    rw [List.getElem?_append] at he
    split at he
    · exact h.2 t e he
    · rename_i ht
      have := h'.2 _ e he
      have h1 := h.1
      rw [show b + (t - l.length) = a + t by omega] at this
      exact this

theorem Good.map_cons {L : LCA} {n a b : Nat} {l : List (List Int × Interval)} {q : List Int} {c : Int}
    (h : Good L n a l (q ++ [c]) b) : Good L n a (l.map fun e => (c :: e.1, e.2)) q b := by
  refine ⟨by simpa using h.1, ?_⟩
  intro t e he
  rw [List.getElem?_map, Option.map_eq_some_iff] at he
  obtain ⟨e', he', rfl⟩ := he
  have := h.2 t e' he'
  simpa using this

theorem slice_cons {α : Type} {l : List α} {lo hi : Nat} {a : α} (h : lo < hi) (ha : l[lo]? = some a) :
    slice l lo hi = a :: slice l (lo + 1) hi := by
  apply List.ext_getElem?
  intro j
  rw [slice_getElem?]
  cases j with
  | zero => simp [h, ha]
  | succ j =>
    rw [List.getElem?_cons_succ, slice_getElem?]
    simp only [show lo + (j + 1) = lo + 1 + j by omega]

theorem slice_nil {α : Type} {l : List α} {lo : Nat} : slice l lo lo = [] := by
  simp [slice]

theorem rowList_good {n : Nat} {L : LCA} (h : L.WF n) (hne : L.cells n ≠ []) (d : Nat) :
    ∀ m lo hi q, m + d = n → lo ≤ hi → hi ≤ (L.cells d).length →
      (∀ k, lo ≤ k → k < hi → Chain L m d k q) →
      Good L n (startPos L d lo) (rowList L d lo hi) q (startPos L d hi) := by
  induction d with
  | zero =>
    intro m lo hi q hm hlo hhi hq
    obtain rfl : m = n := by omega
    refine ⟨?_, ?_⟩
    · simp [rowList, startPos, slice_length hhi]; omega
    · intro t e he
      simp only [rowList, List.getElem?_map, Option.map_eq_some_iff, slice_getElem?] at he
      obtain ⟨i, hi', rfl⟩ := he
      split at hi'
      · refine ⟨hi', ?_⟩
        simpa [startPos] using hq (lo + t) (by omega) (by assumption)
      · simp at hi'
  | succ d ih =>
    intro m lo hi q hm hlo hhi hq
    have hcount := h.count d (by omega) hne
    have hseg := h.seg d (by omega) hne
    -- one coordinate
    have hcoord : ∀ k i r, lo ≤ k → k < hi → (L.cells (d + 1))[k]? = some i → r < i.size →
        ∃ a b, (L.offsets d)[(i.index + (i.start + (r : Int))).toNat]? = some a ∧
          (L.offsets d)[(i.index + (i.start + (r : Int))).toNat + 1]? = some b ∧
          (i.index + (i.start + (r : Int))).toNat = totalSize ((L.cells (d + 1)).take k) + r ∧
          Good L n (startPos L d a) (rowList L d a b) (q ++ [i.start + r]) (startPos L d b) := by
      intro k i r hk1 hk2 hki hr
      have hat := indexFrom_at (h.index d (by omega)) hki
      have hmem : (i.start + (r : Int)) ∈ i := by
        rw [Interval.mem_def]; unfold Interval.size at hr; omega
      have hb := indexFrom_bounds (h.index d (by omega)) (List.mem_of_getElem? hki) hmem
      have l1 : (i.index + (i.start + (r : Int))).toNat < (L.offsets d).length := by omega
      have l2 : (i.index + (i.start + (r : Int))).toNat + 1 < (L.offsets d).length := by omega
      have g1 := List.getElem?_eq_getElem l1
      have g2 := List.getElem?_eq_getElem l2
      have hs := hseg.2 _ _ _ g1 g2
      refine ⟨_, _, g1, g2, by omega, ?_⟩
      refine ih (m + 1) _ _ _ (by omega) (by omega) hs.2.1 ?_
      intro k' hk'1 hk'2
      exact ⟨k, i, i.start + r, q, _, _, rfl, hq k hk1 hk2, hki, hmem, hb.1, g1, g2, hk'1, hk'2⟩
    -- the offsets number j as a getD
    -- one interval
    have hint : ∀ k i, lo ≤ k → k < hi → (L.cells (d + 1))[k]? = some i → ∀ r, r ≤ i.size →
        Good L n (startPos L (d + 1) k)
          (((List.range r).map fun (t : Nat) => i.start + (t : Int)).flatMap fun c =>
            match (L.offsets d)[(i.index + c).toNat]?, (L.offsets d)[(i.index + c).toNat + 1]? with
            | some a, some b => (rowList L d a b).map fun e => (c :: e.1, e.2)
            | _, _ => []) q
          (startPos L d ((L.offsets d).getD (totalSize ((L.cells (d + 1)).take k) + r) 0)) := by
      intro k i hk1 hk2 hki r
      induction r with
      | zero => intro _; exact Good.nil
      | succ r ihr =>
        intro hr
        rw [List.range_succ, List.map_append, List.flatMap_append]
        refine (ihr (by omega)).append ?_
        obtain ⟨a, b, g1, g2, hj, hg⟩ := hcoord k i r hk1 hk2 hki (by omega)
        simp only [List.map_cons, List.map_nil, List.flatMap_cons, List.flatMap_nil, List.append_nil, g1, g2]
        rw [hj] at g1 g2
        rw [List.getD_eq_getElem?_getD, List.getD_eq_getElem?_getD, g1, ← Nat.add_assoc, g2]
        exact hg.map_cons
    -- all the intervals
    have hall : ∀ s lo', lo ≤ lo' → lo' + s = hi →
        Good L n (startPos L (d + 1) lo') (rowList L (d + 1) lo' hi) q (startPos L (d + 1) hi) := by
      intro s
      induction s with
      | zero =>
        intro lo' _ he
        obtain rfl : lo' = hi := by omega
        unfold rowList
        rw [slice_nil]
        exact Good.nil
      | succ s ihs =>
        intro lo' h1 he
        have hlt : lo' < (L.cells (d + 1)).length := by omega
        have hg := List.getElem?_eq_getElem hlt
        generalize (L.cells (d + 1))[lo'] = i at hg
        have hrec := ihs (lo' + 1) (by omega) (by omega)
        unfold rowList at hrec ⊢
        rw [slice_cons (by omega) hg, List.flatMap_cons]
        refine Good.append ?_ hrec
        have := hint lo' i h1 (by omega) hg i.size le_rfl
        rw [← totalSize_take_succ hg] at this
        exact this
    exact hall (hi - lo) lo le_rfl (by omega)

theorem startPos_zero {n : Nat} {L : LCA} (h : L.WF n) (hne : L.cells n ≠ []) {d : Nat} (hd : d ≤ n) :
    startPos L d 0 = 0 := by
  induction d with
  | zero => rfl
  | succ d ih =>
    unfold startPos
    have := (h.seg d (by omega) hne).1
    simp only [List.take_zero, totalSize, List.map_nil, List.sum_nil]
    rw [List.getD_eq_getElem?_getD, this]
    exact ih (by omega)

theorem startPos_len {n : Nat} {L : LCA} (h : L.WF n) (hne : L.cells n ≠ []) {d : Nat} (hd : d ≤ n) :
    startPos L d (L.cells d).length = (L.cells 0).length := by
  induction d with
  | zero => rfl
  | succ d ih =>
    unfold startPos
    have hl := h.last d (by omega) hne
    have hc := h.count d (by omega) hne
    rw [List.getLast?_eq_getElem?, hc] at hl
    simp only [Nat.add_sub_cancel] at hl
    rw [List.take_length, List.getD_eq_getElem?_getD, hl]
    exact ih (by omega)

/-- The list of rows follows the storage order of the x-intervals. -/
theorem rows_good {n : Nat} {L : LCA} (h : L.WF n) (hne : L.cells n ≠ []) :
    Good L n 0 (L.rows n) [] (L.cells 0).length := by
  have := rowList_good h hne n 0 0 (L.cells n).length [] (by omega) (by omega) le_rfl
    (fun k _ hk => ⟨rfl, hk⟩)
  rw [startPos_zero h hne le_rfl, startPos_len h hne le_rfl] at this
  exact this

theorem rows_empty {n : Nat} {L : LCA} (h : L.cells n = []) : L.rows n = [] := by
  unfold LCA.rows
  cases n <;> simp [rowList, h, slice]

theorem rows_map_snd {n : Nat} {L : LCA} (h : L.WF n) : (L.rows n).map Prod.snd = L.cells 0 := by
  by_cases hne : L.cells n = []
  · rw [rows_empty hne, (h.empty hne).1 0 (by omega)]; rfl
  · have hg := rows_good h hne
    apply List.ext_getElem?
    intro k
    rw [List.getElem?_map]
    by_cases hk : k < (L.rows n).length
    · have := (hg.2 k _ (List.getElem?_eq_getElem hk)).1
      rw [List.getElem?_eq_getElem hk, Option.map_some, ← this, Nat.zero_add]
    · have h1 := hg.1
      rw [List.getElem?_eq_none (by omega), List.getElem?_eq_none (by omega)]
      rfl

theorem rows_length {n : Nat} {L : LCA} (h : L.WF n) : (L.rows n).length = (L.cells 0).length := by
  rw [← rows_map_snd h, List.length_map]

theorem rows_getElem? {n : Nat} {L : LCA} (h : L.WF n) (hne : L.cells n ≠ []) {k : Nat} {i : Interval}
    {p : List Int} (hk : (L.cells 0)[k]? = some i) (hp : Chain L n 0 k p) : (L.rows n)[k]? = some (p, i) := by
  have hg := rows_good h hne
  have hlt : k < (L.rows n).length := by
    rw [rows_length h]; exact (List.getElem?_eq_some_iff.1 hk).1
  have hget := List.getElem?_eq_getElem hlt
  have := hg.2 k _ hget
  rw [Nat.zero_add, hk] at this
  obtain ⟨h1, h2⟩ := this
  rw [hget]
  have h3 : (L.rows n)[k].1 = p := Chain.unique h hne (by omega) h2 hp
  simp only [Option.some.injEq] at h1 ⊢
  rw [h1, ← h3]

theorem coords_mem {i : Interval} {x : Int} : x ∈ coords i ↔ x ∈ i := by
  unfold coords
  rw [Interval.mem_def, List.mem_map]
  constructor
  · rintro ⟨k, hk, rfl⟩
    rw [List.mem_range] at hk
    unfold Interval.size at hk
    omega
  · intro hx
    refine ⟨(x - i.start).toNat, ?_, by omega⟩
    rw [List.mem_range]
    unfold Interval.size
    omega

theorem coords_sorted (i : Interval) : (coords i).Pairwise (· < ·) := by
  unfold coords
  rw [List.pairwise_map]
  refine List.pairwise_lt_range.imp ?_
  intro a b hab
  omega

theorem memRow_iff_rowList {L : LCA} {d lo hi : Nat} (h : RowOK L d lo hi) (p : List Int) :
    MemRow L d lo hi p ↔ ∃ e ∈ rowList L d lo hi, ∃ x ∈ e.2, p = e.1 ++ [x] := by
  induction d generalizing lo hi p with
  | zero =>
    match p with
    | [] => simp [MemRow]
    | [x] =>
      simp only [MemRow, MemList, rowList, List.mem_map]
      constructor
      · rintro ⟨i, hi, hx⟩
        exact ⟨([], i), ⟨i, hi, rfl⟩, x, hx, rfl⟩
      · rintro ⟨_, ⟨i, hi, rfl⟩, y, hy, he⟩
        simp only [List.nil_append, List.cons.injEq, and_true] at he
        subst he
        exact ⟨i, hi, hy⟩
    | x :: y :: q =>
      simp only [MemRow, rowList, List.mem_map, false_iff]
      rintro ⟨_, ⟨i, hi, rfl⟩, y, hy, he⟩
      simp at he
  | succ d ih =>
    match p with
    | [] => simp [MemRow]
    | c :: p =>
      simp only [MemRow, rowList, List.mem_flatMap]
      constructor
      · rintro ⟨i, hi, hc, hz, a, b, ha, hb, hm⟩
        obtain ⟨_, a', b', ha', hb', hr⟩ := h.2.2.2 i hi c hc
        rw [ha] at ha'; rw [hb] at hb'
        cases ha'; cases hb'
        obtain ⟨e, he, x, hx, rfl⟩ := (ih hr p).1 hm
        refine ⟨(c :: e.1, e.2), ⟨i, hi, c, coords_mem.2 hc, ?_⟩, x, hx, rfl⟩
        rw [ha, hb]
        exact List.mem_map.2 ⟨e, he, rfl⟩
      · rintro ⟨e, ⟨i, hi, c', hc', he⟩, x, hx, hp⟩
        rw [coords_mem] at hc'
        obtain ⟨hz, a, b, ha, hb, hr⟩ := h.2.2.2 i hi c' hc'
        rw [ha, hb] at he
        obtain ⟨e', he', rfl⟩ := List.mem_map.1 he
        simp only [List.cons_append, List.cons.injEq] at hp
        obtain ⟨rfl, rfl⟩ := hp
        exact ⟨i, hi, hc', hz, a, b, ha, hb, (ih hr _).2 ⟨e', he', x, hx, rfl⟩⟩

theorem mem_iff_rows {n : Nat} {L : LCA} (h : L.WF n) (p : List Int) :
    L.Mem n p ↔ ∃ e ∈ L.rows n, ∃ x ∈ e.2, p = e.1 ++ [x] := by
  by_cases hne : L.cells n = []
  · rw [rows_empty hne]
    unfold LCA.Mem
    simp only [List.not_mem_nil, false_and, exists_false, iff_false]
    rw [hne]
    cases n with
    | zero =>
      match p with
      | [] => simp [MemRow]
      | [x] => simp [MemRow, hne, slice, MemList]
      | _ :: _ :: _ => simp [MemRow]
    | succ n =>
      match p with
      | [] => simp [MemRow]
      | c :: p => simp [MemRow, hne, slice]
  · exact memRow_iff_rowList (LCA.WF.rowOK h hne) p

/-- The rows come in increasing lexicographic order. -/
theorem rowList_sorted {L : LCA} {d lo hi : Nat} (h : RowOK L d lo hi) :
    (rowList L d lo hi).Pairwise fun e e' => ∀ x ∈ e.2, ∀ y ∈ e'.2, e.1 ++ [x] < e'.1 ++ [y] := by
  induction d generalizing lo hi with
  | zero =>
    unfold rowList
    rw [List.pairwise_map, List.pairwise_iff_getElem]
    intro a b ha hb hab x hx y hy
    have := h.2.2.gap hab (List.getElem?_eq_getElem ha) (List.getElem?_eq_getElem hb)
    have hx := Interval.mem_def.1 hx
    have hy := Interval.mem_def.1 hy
    simp only [List.nil_append] at hx hy ⊢
    exact List.Lex.rel (by omega)
  | succ d ih =>
    unfold rowList
    have hhead : ∀ i ∈ slice (L.cells (d + 1)) lo hi, ∀ c ∈ i, ∀ e : List Int × Interval,
        (e ∈ (match (L.offsets d)[(i.index + c).toNat]?, (L.offsets d)[(i.index + c).toNat + 1]? with
            | some a, some b => (rowList L d a b).map fun (e : List Int × Interval) => (c :: e.1, e.2)
            | _, _ => [])) → ∃ q, e.1 = c :: q := by
      intro i hi c hc e he
      obtain ⟨hz, a, b, ha, hb, hr⟩ := h.2.2.2 i hi c hc
      rw [ha, hb] at he
      obtain ⟨e', he', rfl⟩ := List.mem_map.1 he
      exact ⟨_, rfl⟩
    rw [List.pairwise_flatMap]
    constructor
    · intro i hi
      rw [List.pairwise_flatMap]
      constructor
      · intro c hc
        rw [coords_mem] at hc
        obtain ⟨hz, a, b, ha, hb, hr⟩ := h.2.2.2 i hi c hc
        simp only [ha, hb]
        rw [List.pairwise_map]
        refine (ih hr).imp ?_
        intro e e' hee x hx y hy
        exact List.Lex.cons (hee x hx y hy)
      · refine (coords_sorted i).imp_of_mem ?_
        intro c c' hc hc' hlt e he e' he' x hx y hy
        obtain ⟨q, hq⟩ := hhead i hi c (coords_mem.1 hc) e he
        obtain ⟨q', hq'⟩ := hhead i hi c' (coords_mem.1 hc') e' he'
        rw [hq, hq']
        exact List.Lex.rel hlt
    · rw [List.pairwise_iff_getElem]
      intro a b ha hb hab e he e' he' x hx y hy
      obtain ⟨c, hc, he⟩ := List.mem_flatMap.1 he
      obtain ⟨c', hc', he'⟩ := List.mem_flatMap.1 he'
      rw [coords_mem] at hc hc'
      have := h.2.2.1.gap hab (List.getElem?_eq_getElem ha) (List.getElem?_eq_getElem hb)
      obtain ⟨q, hq⟩ := hhead _ (List.getElem_mem ha) c hc e he
      obtain ⟨q', hq'⟩ := hhead _ (List.getElem_mem hb) c' hc' e' he'
      have hc := Interval.mem_def.1 hc
      have hc' := Interval.mem_def.1 hc'
      rw [hq, hq']
      exact List.Lex.rel (by omega)

theorem rows_sorted {n : Nat} {L : LCA} (h : L.WF n) :
    (L.rows n).Pairwise fun e e' => ∀ x ∈ e.2, ∀ y ∈ e'.2, e.1 ++ [x] < e'.1 ++ [y] := by
  by_cases hne : L.cells n = []
  · rw [rows_empty hne]; exact List.Pairwise.nil
  · exact rowList_sorted (LCA.WF.rowOK h hne)

/-! ### lookup -/

theorem findImpl_spec {n : Nat} {L : LCA} {d lo hi : Nat} (h : RowOK L d lo hi) {m : Nat} {q : List Int}
    (hq : ∀ k, lo ≤ k → k < hi → Chain L m d k q) {p : List Int} (hp : p.length = d + 1) (hmd : m + d = n) :
    (∃ k i r x, findImpl L d lo hi p = some ((k : Nat) : Int) ∧ (L.cells 0)[k]? = some i ∧ p = r ++ [x] ∧ x ∈ i ∧
      Chain L n 0 k (q ++ r) ∧ MemRow L d lo hi p) ∨
    (findImpl L d lo hi p = some (-1) ∧ ¬ MemRow L d lo hi p) := by
  induction d generalizing lo hi m q p with
  | zero =>
    obtain ⟨x, rfl⟩ := List.length_eq_one_iff.1 hp
    obtain rfl : m = n := by omega
    rcases search_spec h.1.le h.2.1 h.2.2 x with ⟨k, i, h1, h2, h3, h4, h5⟩ | ⟨h1, h2⟩
    · left
      refine ⟨k, i, [], x, ?_, h3, rfl, h4, by simpa using hq k h1 h2, ⟨i, mem_slice.2 ⟨k, h1, h2, h3⟩, h4⟩⟩
      simp only [findImpl, h5]
      rw [if_pos (by omega)]
      simp
    · right
      exact ⟨by simp [findImpl, h2], h1⟩
  | succ d ih =>
    match p, hp with
    | c :: p, hp =>
      rcases search_spec h.1.le h.2.1 h.2.2.1 c with ⟨k, i, h1, h2, h3, h4, h5⟩ | ⟨h1, h2⟩
      · have hmem : i ∈ slice (L.cells (d + 1)) lo hi := mem_slice.2 ⟨k, h1, h2, h3⟩
        obtain ⟨hz, a, b, ha, hb, hr⟩ := h.2.2.2 i hmem c h4
        have hfind : findImpl L (d + 1) lo hi (c :: p) = findImpl L d a b p := by
          simp only [findImpl, h5]
          rw [if_pos (by omega), show ((k : Int) - lo).toNat + lo = k by omega, h3]
          simp only [ha, hb]
          rw [if_neg (by omega)]
        have hchain : ∀ k', a ≤ k' → k' < b → Chain L (m + 1) d k' (q ++ [c]) := fun k' hk1 hk2 =>
          ⟨k, i, c, q, a, b, rfl, hq k h1 h2, h3, h4, hz, ha, hb, hk1, hk2⟩
        rcases ih hr hchain (p := p) (by simpa using hp) (by omega) with
          ⟨k', i', r, x, e1, e2, e3, e4, e5, e6⟩ | ⟨e1, e2⟩
        · left
          refine ⟨k', i', c :: r, x, by rw [hfind, e1], e2, by rw [e3]; rfl, e4, by simpa using e5, ?_⟩
          exact ⟨i, hmem, h4, hz, a, b, ha, hb, e6⟩
        · right
          refine ⟨by rw [hfind, e1], ?_⟩
          rintro ⟨i', hi', hc', hz', a', b', ha', hb', hm⟩
          obtain ⟨k', hk1, hk2, hk3⟩ := mem_slice.1 hi'
          have : k' = k := by
            by_contra hne
            have hc4 := Interval.mem_def.1 h4
            have hc5 := Interval.mem_def.1 hc'
            rcases Nat.lt_or_gt_of_ne hne with hl | hl
            · have := slice_gap h.2.2.1 hk1 hl h2 hk3 h3; omega
            · have := slice_gap h.2.2.1 h1 hl hk2 h3 hk3; omega
          subst this
          rw [h3] at hk3; cases hk3
          rw [ha] at ha'; rw [hb] at hb'; cases ha'; cases hb'
          exact e2 hm
      · right
        refine ⟨by simp [findImpl, h2], ?_⟩
        rintro ⟨i', hi', hc', _⟩
        exact h1 ⟨i', hi', hc'⟩

end Samurai

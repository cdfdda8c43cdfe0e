import Verif.Lemmas.GhostOps
import Verif.Lemmas.Range
import Verif.Lemmas.BcAdapted
import Verif.Spec.Bc

namespace Samurai

theorem memRow_length {L : LCA} : ∀ d lo hi p, MemRow L d lo hi p → p.length = d + 1 := by
  intro d
  induction d with
  | zero =>
    intro lo hi p h
    match p with
    | [x] => rfl
    | [] => exact absurd h (by simp [MemRow])
    | x :: y :: p => exact absurd h (by simp [MemRow])
  | succ d ih =>
    intro lo hi p h
    match p with
    | [] => exact absurd h (by simp [MemRow])
    | c :: p =>
      obtain ⟨_, _, _, _, a, b, _, _, h⟩ := h
      simp [ih a b p h]

/-- Every coordinate of a stored interval of direction `d` is the coordinate of a cell. -/
theorem coord_point {n : Nat} {L : LCA} (h : L.WF n) {d : Nat} (hd : d ≤ n) {i : Interval} (hi : i ∈ L.cells d)
    {c : Int} (hc : c ∈ i) : ∃ p, L.Mem n p ∧ toPt p d = c := by
  have hne : L.cells n ≠ [] := by
    intro h0
    rw [(h.empty h0).1 d hd] at hi
    simp at hi
  obtain ⟨k, hk⟩ := List.mem_iff_getElem?.1 hi
  obtain ⟨path, hp⟩ := chain_exists h hne (n - d) d k (by omega) (List.getElem?_eq_some_iff.1 hk).1
  obtain ⟨lo, hi', h1, h2, h3, h4⟩ := chain_row h hne (n - d) d k path (by omega) hp
  obtain ⟨q, hq⟩ := rowOK_mem d lo hi' h3 i (mem_slice.2 ⟨k, h1, h2, hk⟩) c hc
  have hl : q.length = d := by
    have := memRow_length _ _ _ _ hq
    simpa using this
  refine ⟨_, h4 _ hq, ?_⟩
  unfold toPt
  rw [List.reverse_append, List.reverse_cons, List.getD_eq_getElem?_getD, List.append_assoc,
    List.getElem?_append_right (by simp [hl]), List.length_reverse, hl, Nat.sub_self]
  simp

/-- Every coordinate of a cell is in a stored interval. -/
theorem point_coord {n : Nat} {L : LCA} {p : List Int} (h : L.Mem n p) {d : Nat} (hd : d ≤ n) : ∃ i ∈ L.cells d, toPt p d ∈ i := by
  have key : ∀ m, d ≤ m → ∀ lo hi p, MemRow L m lo hi p → ∃ i ∈ L.cells d, toPt p d ∈ i := by
    intro m
    induction m with
    | zero =>
      intro hm lo hi p h
      obtain rfl : d = 0 := by omega
      match p with
      | [x] =>
        obtain ⟨i, hi, hx⟩ := h
        obtain ⟨k, _, _, hk⟩ := mem_slice.1 hi
        exact ⟨i, List.mem_iff_getElem?.2 ⟨k, hk⟩, by simpa [toPt] using hx⟩
      | [] => exact absurd h (by simp [MemRow])
      | x :: y :: p => exact absurd h (by simp [MemRow])
    | succ m ih =>
      intro hm lo hi p h
      match p with
      | [] => exact absurd h (by simp [MemRow])
      | c :: p =>
        have hlen := memRow_length _ _ _ _ h
        simp only [List.length_cons, Nat.add_right_cancel_iff] at hlen
        obtain ⟨i, hi, hc, _, a, b, _, _, h⟩ := h
        by_cases hdm : d = m + 1
        · obtain ⟨k, _, _, hk⟩ := mem_slice.1 hi
          subst hdm
          refine ⟨i, List.mem_iff_getElem?.2 ⟨k, hk⟩, ?_⟩
          rw [← hlen, toPt_cons_eq]
          exact hc
        · obtain ⟨j, j1, j2⟩ := ih (by omega) a b p h
          exact ⟨j, j1, by rw [toPt_cons_lt _ _ (by omega)]; exact j2⟩
  exact key n hd _ _ p h

theorem inBox_at {b : Box} {n : Nat} (hb : ∀ d ≤ n, b.lo d < b.hi d) {d : Nat} (_ : d ≤ n) {c : Int} (hc : b.lo d ≤ c ∧ c < b.hi d) :
    ∃ p, InBox b n p ∧ toPt p d = c := by
  refine ⟨ofPt (n + 1) fun k => if k = d then c else b.lo k, inBox_iff.2 ⟨ofPt_length _ _, fun k hk => ?_⟩, ?_⟩
  · rw [toPt_ofPt _ (by omega)]
    split
    · subst k; exact hc
    · exact ⟨le_rfl, hb k hk⟩
  · rw [toPt_ofPt _ (by omega), if_pos rfl]

theorem minIndex_box {n : Nat} {L : LCA} {b : Box} (h : L.WF n) (hb : ∀ d ≤ n, b.lo d < b.hi d) (hm : ∀ p, L.Mem n p ↔ InBox b n p)
    {d : Nat} (hd : d ≤ n) : minIndex L d = some (b.lo d) ∧ maxIndex L d = some (b.hi d) := by
  have hval : ∀ i ∈ L.cells d, i.start < i.stop := by
    intro i hi
    refine h.valid (fun h0 => ?_) hd hi
    rw [(h.empty h0).1 d hd] at hi
    simp at hi
  have hin : ∀ i ∈ L.cells d, ∀ c ∈ i, b.lo d ≤ c ∧ c < b.hi d := by
    intro i hi c hc
    obtain ⟨p, hp, rfl⟩ := coord_point h hd hi hc
    exact (inBox_iff.1 ((hm p).1 hp)).2 d hd
  have hex : ∀ c, b.lo d ≤ c ∧ c < b.hi d → ∃ i ∈ L.cells d, c ∈ i := by
    intro c hc
    obtain ⟨p, hp, rfl⟩ := inBox_at hb hd hc
    exact point_coord ((hm p).2 hp) hd
  have hbd := hb d hd
  constructor
  · unfold minIndex
    rw [List.min?_eq_some_iff]
    constructor
    · obtain ⟨i, hi, hc⟩ := hex (b.lo d) ⟨le_rfl, hbd⟩
      have hc := Interval.mem_def.1 hc
      have := hin i hi i.start (Interval.mem_def.2 ⟨le_rfl, hval i hi⟩)
      exact List.mem_map.2 ⟨i, hi, by omega⟩
    · intro a ha
      obtain ⟨i, hi, rfl⟩ := List.mem_map.1 ha
      exact (hin i hi i.start (Interval.mem_def.2 ⟨le_rfl, hval i hi⟩)).1
  · unfold maxIndex
    rw [List.max?_eq_some_iff]
    constructor
    · obtain ⟨i, hi, hc⟩ := hex (b.hi d - 1) ⟨by omega, by omega⟩
      have hc := Interval.mem_def.1 hc
      have hv := hval i hi
      have := hin i hi (i.stop - 1) (Interval.mem_def.2 ⟨by omega, by omega⟩)
      exact List.mem_map.2 ⟨i, hi, by omega⟩
    · intro a ha
      obtain ⟨i, hi, rfl⟩ := List.mem_map.1 ha
      have hv := hval i hi
      have := hin i hi (i.stop - 1) (Interval.mem_def.2 ⟨by omega, by omega⟩)
      omega

theorem domainIndices_box {n : Nat} {L : LCA} {b : Box} (h : L.WF n) (hb : ∀ d ≤ n, b.lo d < b.hi d) (hm : ∀ p, L.Mem n p ↔ InBox b n p) :
    domainIndices n L = some ((List.range (n + 1)).map fun d => (b.lo d, b.hi d)) := by
  have key : ∀ l : List Nat, (∀ d ∈ l, d ≤ n) → (l.mapM fun d => match minIndex L d, maxIndex L d with
    | some a, some b => some (a, b)
    | _, _ => none) = some (l.map fun d => (b.lo d, b.hi d)) := by
    intro l
    induction l with
    | nil => intro _; rfl
    | cons d l ih =>
      intro hl
      obtain ⟨h1, h2⟩ := minIndex_box h hb hm (d := d) (hl d (by simp))
      rw [List.mapM_cons, ih fun k hk => hl k (by simp [hk]), h1, h2]
      rfl
  exact key _ fun d hd => by rw [List.mem_range] at hd; omega

theorem shr_mul_pow (a : Int) (k : Nat) : shr (a * 2 ^ k) k = a := by
  unfold shr
  exact Int.mul_ediv_cancel a (by positivity)

end Samurai

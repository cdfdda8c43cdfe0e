import Verif.Lemmas.CellList
import Verif.Lemmas.SetHolds

namespace Samurai

/-- The offset number `j` belongs to a coordinate of the intervals. -/
theorem indexFrom_inv {l : List Interval} {a : Int} (h : IndexFrom a l) {j : Nat} (hj : j < totalSize l) :
    ∃ (k : Nat) (i : Interval) (c : Int), l[k]? = some i ∧ c ∈ i ∧ i.index + c = a + j := by
  induction l generalizing a j with
  | nil => simp [totalSize] at hj
  | cons i l ih =>
    by_cases hs : j < i.size
    · refine ⟨0, i, i.start + j, rfl, ?_, ?_⟩
      · unfold Interval.size at hs
        rw [Interval.mem_def]
        omega
      · have := h.1
        omega
    · have hts : totalSize (i :: l) = i.size + totalSize l := by simp [totalSize]
      obtain ⟨k, i', c, h1, h2, h3⟩ := ih h.2 (j := j - i.size) (by omega)
      exact ⟨k + 1, i', c, h1, h2, by omega⟩

theorem chain_exists {n : Nat} {L : LCA} (h : L.WF n) (hne : L.cells n ≠ []) (m : Nat) :
    ∀ d k, m + d = n → k < (L.cells d).length → ∃ path, Chain L m d k path := by
  induction m with
  | zero => intro d k _ hk; exact ⟨[], rfl, hk⟩
  | succ m ih =>
    intro d k hm hk
    have hd : d < n := by omega
    have hseg := h.seg d hd hne
    have hlast := h.last d hd hne
    rw [List.getLast?_eq_getElem?] at hlast
    have key : ∀ s : Nat, (∃ v, (L.offsets d)[s]? = some v ∧ k < v) →
        ∃ j a b, (L.offsets d)[j]? = some a ∧ (L.offsets d)[j + 1]? = some b ∧ a ≤ k ∧ k < b := by
      intro s
      induction s with
      | zero =>
        rintro ⟨v, hv, hkv⟩
        rw [hseg.1] at hv
        simp only [Option.some.injEq] at hv
        omega
      | succ s ih =>
        rintro ⟨v, hv, hkv⟩
        have hs : s < (L.offsets d).length := by
          have := (List.getElem?_eq_some_iff.1 hv).1; omega
        by_cases hkw : k < (L.offsets d)[s]
        · exact ih ⟨_, List.getElem?_eq_getElem hs, hkw⟩
        · exact ⟨s, _, _, List.getElem?_eq_getElem hs, hv, by omega, hkv⟩
    obtain ⟨j, a, b, e1, e2, e3, e4⟩ := key _ ⟨_, hlast, hk⟩
    have hcount := h.count d hd hne
    have hj := (List.getElem?_eq_some_iff.1 e2).1
    obtain ⟨k', i, c, g1, g2, g3⟩ := indexFrom_inv (h.index d hd) (j := j) (by omega)
    obtain ⟨path, hp⟩ := ih (d + 1) k' (by omega) (List.getElem?_eq_some_iff.1 g1).1
    refine ⟨path ++ [c], k', i, c, path, a, b, rfl, hp, g1, g2, by omega, ?_, ?_, e3, e4⟩
    · rw [show (i.index + c).toNat = j by omega]; exact e1
    · rw [show (i.index + c).toNat = j by omega]; exact e2

theorem chain_row {n : Nat} {L : LCA} (h : L.WF n) (hne : L.cells n ≠ []) (m : Nat) :
    ∀ d k path, m + d = n → Chain L m d k path →
      ∃ lo hi, lo ≤ k ∧ k < hi ∧ RowOK L d lo hi ∧ ∀ q, MemRow L d lo hi q → L.Mem n (path ++ q) := by
  induction m with
  | zero =>
    intro d k path hm hc
    obtain rfl : d = n := by omega
    obtain ⟨rfl, hk⟩ := hc
    exact ⟨0, _, by omega, hk, h.rowOK hne, fun q hq => hq⟩
  | succ m ih =>
    intro d k path hm hc
    obtain ⟨k', i, c, path', a, b, rfl, hp, g1, g2, g3, g4, g5, g6, g7⟩ := hc
    obtain ⟨lo, hi, h1, h2, h3, h4⟩ := ih (d + 1) k' path' (by omega) hp
    have hmem : i ∈ slice (L.cells (d + 1)) lo hi := mem_slice.2 ⟨k', h1, h2, g1⟩
    obtain ⟨_, a', b', e1, e2, e3⟩ := h3.2.2.2 i hmem c g2
    rw [g4] at e1; rw [g5] at e2
    cases e1; cases e2
    refine ⟨a, b, g6, g7, e3, fun q hq => ?_⟩
    rw [List.append_assoc]
    exact h4 _ ⟨i, hmem, g2, g3, a, b, g4, g5, hq⟩

theorem rowOK_mem {L : LCA} (d : Nat) : ∀ lo hi, RowOK L d lo hi → ∀ i ∈ slice (L.cells d) lo hi, ∀ c ∈ i,
    ∃ q, MemRow L d lo hi (c :: q) := by
  induction d with
  | zero => intro lo hi _ i hi' c hc; exact ⟨[], i, hi', hc⟩
  | succ d ih =>
    intro lo hi h i hi' c hc
    obtain ⟨h0, a, b, e1, e2, e3⟩ := h.2.2.2 i hi' c hc
    obtain ⟨b1, b2, b3⟩ := e3.base
    have hg := List.getElem?_eq_getElem (l := L.cells d) (i := a) (by omega)
    have hm : (L.cells d)[a] ∈ slice (L.cells d) a b := mem_slice.2 ⟨a, le_rfl, b1, hg⟩
    obtain ⟨q, hq⟩ := ih a b e3 _ hm (L.cells d)[a].start ⟨le_rfl, b3.valid hm⟩
    exact ⟨_, i, hi', hc, h0, a, b, e1, e2, hq⟩

/-- Every coordinate of every stored interval is a coordinate of a cell. -/
theorem coord_mem {n : Nat} {L : LCA} (h : L.WF n) {d : Nat} (hd : d ≤ n) {i : Interval} (hi : i ∈ L.cells d)
    {c : Int} (hc : c ∈ i) : ∃ p, L.Mem n p ∧ c ∈ p := by
  have hne : L.cells n ≠ [] := by
    intro h0
    rw [(h.empty h0).1 d hd] at hi
    simp at hi
  obtain ⟨k, hk⟩ := List.mem_iff_getElem?.1 hi
  obtain ⟨path, hp⟩ := chain_exists h hne (n - d) d k (by omega) (List.getElem?_eq_some_iff.1 hk).1
  obtain ⟨lo, hi', h1, h2, h3, h4⟩ := chain_row h hne (n - d) d k path (by omega) hp
  obtain ⟨q, hq⟩ := rowOK_mem d lo hi' h3 i (mem_slice.2 ⟨k, h1, h2, hk⟩) c hc
  exact ⟨_, h4 _ hq, by simp⟩

theorem stop_le_of_mem {n : Nat} {L : LCA} (h : L.WF n) {B : Int} (hB : ∀ p, L.Mem n p → ∀ c ∈ p, c < B)
    {d : Nat} (hd : d ≤ n) {i : Interval} (hi : i ∈ L.cells d) : i.stop ≤ B := by
  have hne : L.cells n ≠ [] := by
    intro h0
    rw [(h.empty h0).1 d hd] at hi
    simp at hi
  have hv := h.valid hne hd hi
  obtain ⟨p, hp, hc⟩ := coord_mem h hd hi (c := i.stop - 1) (Interval.mem_def.2 ⟨by omega, by omega⟩)
  have := hB p hp _ hc
  omega

/-- A mesh whose coordinates are small is in the range of the sweep. -/
theorem inRange_mesh {n m : Nat} {L : LCA} (h : L.WF n) {B : Int} (hB : ∀ p, L.Mem n p → ∀ c ∈ p, c < B)
    (hm : (B + 1) * 2 ^ (m - L.level) + 1 < INT_MAX) : (Node.mesh L).InRange n m := by
  intro d hd i hi
  have := stop_le_of_mem h hB hd hi
  simp only [Node.off, Node.level, add_zero]
  refine lt_of_le_of_lt ?_ hm
  have hp := pow_two_pos (m - L.level)
  gcongr

end Samurai

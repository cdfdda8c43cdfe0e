import Verif.Lemmas.RowList

namespace Samurai

/-- Following the path `q` from the row `lo .. hi-1` of direction `d` one arrives at the row
`a .. b-1`. -/
def RowAt (L : LCA) : Nat → Nat → Nat → List Int → Nat → Nat → Prop
  | _, lo, hi, [], a, b => a = lo ∧ b = hi
  | d + 1, lo, hi, c :: q, a, b =>
    ∃ i ∈ slice (L.cells (d + 1)) lo hi, c ∈ i ∧ 0 ≤ i.index + c ∧
      ∃ a' b', (L.offsets d)[(i.index + c).toNat]? = some a' ∧
        (L.offsets d)[(i.index + c).toNat + 1]? = some b' ∧ RowAt L d a' b' q a b
  | 0, _, _, _ :: _, _, _ => False

@[simp] theorem rowAt_nil {L : LCA} {d lo hi a b : Nat} : RowAt L d lo hi [] a b ↔ a = lo ∧ b = hi := by
  cases d <;> rfl

/-- One step down. -/
def RowStep (L : LCA) (e a' b' : Nat) (c : Int) (a b : Nat) : Prop :=
  ∃ i ∈ slice (L.cells (e + 1)) a' b', c ∈ i ∧ 0 ≤ i.index + c ∧
    (L.offsets e)[(i.index + c).toNat]? = some a ∧ (L.offsets e)[(i.index + c).toNat + 1]? = some b

theorem rowAt_snoc {L : LCA} {e : Nat} {c : Int} {a b : Nat} (q : List Int) :
    ∀ {d lo hi : Nat}, d = q.length + (e + 1) →
    (RowAt L d lo hi (q ++ [c]) a b ↔ ∃ a' b', RowAt L d lo hi q a' b' ∧ RowStep L e a' b' c a b) := by
  induction q with
  | nil =>
    intro d lo hi hd
    obtain rfl : d = e + 1 := by simpa using hd
    constructor
    · rintro ⟨i, h1, h2, h3, a', b', h4, h5, h6⟩
      obtain ⟨rfl, rfl⟩ := rowAt_nil.1 h6
      exact ⟨lo, hi, rowAt_nil.2 ⟨rfl, rfl⟩, i, h1, h2, h3, h4, h5⟩
    · rintro ⟨_, _, h6, i, h1, h2, h3, h4, h5⟩
      obtain ⟨rfl, rfl⟩ := rowAt_nil.1 h6
      exact ⟨i, h1, h2, h3, a, b, h4, h5, rowAt_nil.2 ⟨rfl, rfl⟩⟩
  | cons x q ih =>
    intro d lo hi hd
    obtain ⟨d, rfl⟩ : ∃ d', d = d' + 1 := ⟨d - 1, by simp at hd; omega⟩
    have hd' : d = q.length + (e + 1) := by simp at hd; omega
    constructor
    · rintro ⟨i, h1, h2, h3, a1, b1, h4, h5, h6⟩
      obtain ⟨a', b', h7, h8⟩ := (ih hd').1 h6
      exact ⟨a', b', ⟨i, h1, h2, h3, a1, b1, h4, h5, h7⟩, h8⟩
    · rintro ⟨a', b', ⟨i, h1, h2, h3, a1, b1, h4, h5, h7⟩, h8⟩
      exact ⟨i, h1, h2, h3, a1, b1, h4, h5, (ih hd').2 ⟨a', b', h7, h8⟩⟩

theorem rowAt_rowOK {L : LCA} (q : List Int) : ∀ {d e lo hi a b : Nat}, RowOK L d lo hi → d = q.length + e →
    RowAt L d lo hi q a b → RowOK L e a b := by
  induction q with
  | nil =>
    intro d e lo hi a b h hd h6
    obtain ⟨rfl, rfl⟩ := rowAt_nil.1 h6
    obtain rfl : d = e := by simpa using hd
    exact h
  | cons c q ih =>
    intro d e lo hi a b h hd hr
    obtain ⟨d, rfl⟩ : ∃ d', d = d' + 1 := ⟨d - 1, by simp at hd; omega⟩
    obtain ⟨i, h1, h2, h3, a1, b1, h4, h5, h6⟩ := hr
    obtain ⟨_, a2, b2, h7, h8, h9⟩ := h.2.2.2 i h1 c h2
    rw [h4] at h7; rw [h5] at h8
    cases h7; cases h8
    exact ih h9 (by simp at hd; omega) h6

theorem slice_unique {l : List Interval} {lo hi : Nat} (h : Canonical (slice l lo hi)) {i j : Interval}
    (hi' : i ∈ slice l lo hi) (hj : j ∈ slice l lo hi) {c : Int} (hci : c ∈ i) (hcj : c ∈ j) : i = j := by
  obtain ⟨k, h1, h2, h3⟩ := mem_slice.1 hi'
  obtain ⟨k', h1', h2', h3'⟩ := mem_slice.1 hj
  have m1 := Interval.mem_def.1 hci
  have m2 := Interval.mem_def.1 hcj
  rcases Nat.lt_trichotomy k k' with hlt | rfl | hlt
  · have := slice_gap h h1 hlt h2' h3 h3'; omega
  · rw [h3] at h3'; exact Option.some.inj h3'
  · have := slice_gap h h1' hlt h2 h3' h3; omega

theorem rowAt_unique {L : LCA} (q : List Int) : ∀ {d e lo hi a b a' b' : Nat}, RowOK L d lo hi →
    d = q.length + e → RowAt L d lo hi q a b → RowAt L d lo hi q a' b' → a = a' ∧ b = b' := by
  induction q with
  | nil =>
    intro d e lo hi a b a' b' h hd h6 h7
    obtain ⟨rfl, rfl⟩ := rowAt_nil.1 h6
    obtain ⟨rfl, rfl⟩ := rowAt_nil.1 h7
    exact ⟨rfl, rfl⟩
  | cons c q ih =>
    intro d e lo hi a b a' b' h hd hr hr'
    obtain ⟨d, rfl⟩ : ∃ d', d = d' + 1 := ⟨d - 1, by simp at hd; omega⟩
    obtain ⟨i, h1, h2, h3, a1, b1, h4, h5, h6⟩ := hr
    obtain ⟨i', h1', h2', h3', a1', b1', h4', h5', h6'⟩ := hr'
    obtain rfl := slice_unique h.base.2.2 h1 h1' h2 h2'
    obtain ⟨_, a2, b2, h7, h8, h9⟩ := h.2.2.2 i h1 c h2
    rw [h4] at h7 h4'; rw [h5] at h8 h5'
    cases h7; cases h8; cases h4'; cases h5'
    exact ih (e := e) h9 (by simp at hd; omega) h6 h6'

theorem memRow_append {L : LCA} (q r : List Int) : ∀ {d e lo hi : Nat}, d = q.length + e →
    (MemRow L d lo hi (q ++ r) ↔ ∃ a b, RowAt L d lo hi q a b ∧ MemRow L e a b r) := by
  induction q with
  | nil =>
    intro d e lo hi hd
    obtain rfl : d = e := by simpa using hd
    constructor
    · intro h; exact ⟨lo, hi, rowAt_nil.2 ⟨rfl, rfl⟩, h⟩
    · rintro ⟨_, _, h6, h⟩
      obtain ⟨rfl, rfl⟩ := rowAt_nil.1 h6
      exact h
  | cons c q ih =>
    intro d e lo hi hd
    obtain ⟨d, rfl⟩ : ∃ d', d = d' + 1 := ⟨d - 1, by simp at hd; omega⟩
    have hd' : d = q.length + e := by simp at hd; omega
    constructor
    · rintro ⟨i, h1, h2, h3, a1, b1, h4, h5, h6⟩
      obtain ⟨a, b, h7, h8⟩ := (ih hd').1 h6
      exact ⟨a, b, ⟨i, h1, h2, h3, a1, b1, h4, h5, h7⟩, h8⟩
    · rintro ⟨a, b, ⟨i, h1, h2, h3, a1, b1, h4, h5, h7⟩, h8⟩
      exact ⟨i, h1, h2, h3, a1, b1, h4, h5, (ih hd').2 ⟨a, b, h7, h8⟩⟩

/-- `q ++ [x]` is the beginning of a stored point; `x` is a coordinate of direction `e`. -/
def Pref (L : LCA) (n : Nat) (q : List Int) (e : Nat) (x : Int) : Prop :=
  ∃ a b, RowAt L n 0 (L.cells n).length q a b ∧ MemList x (slice (L.cells e) a b)

theorem pref_full {L : LCA} {n : Nat} {q : List Int} (hq : q.length = n) (x : Int) :
    Pref L n q 0 x ↔ L.Mem n (q ++ [x]) := by
  unfold Pref LCA.Mem
  rw [memRow_append (e := 0) q [x] (by omega)]
  rfl

theorem pref_closed {L : LCA} {n : Nat} {q : List Int} {e : Nat} {c x : Int} (hn : n = q.length + (e + 1))
    (h : Pref L n (q ++ [c]) e x) : Pref L n q (e + 1) c := by
  obtain ⟨a, b, h1, _⟩ := h
  obtain ⟨a', b', h3, i, h4, h5, _⟩ := (rowAt_snoc q hn).1 h1
  exact ⟨a', b', h3, i, h4, h5⟩

end Samurai

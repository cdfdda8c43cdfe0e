import Verif.Lemmas.ListOfIntervals
import Verif.Lemmas.Interval

namespace Samurai

/-- Projection of the bounds of an interval `k` levels up. -/
def ps (k : Nat) (i : Interval) : Int := shr i.start k
def pe (k : Nat) (i : Interval) : Int := shr (i.stop - 1) k + 1

/-- The merging done by `update`: absorb the intervals whose projection touches `v`. -/
def mergeRun (k : Nat) (v : Int) : List Interval → Int × List Interval
  | [] => (v, [])
  | j :: l => if v ≥ ps k j then mergeRun k (pe k j) l else (v, j :: l)

/-- The projected and merged list, with a current interval `[s, v)`. -/
def mergeGo (k : Nat) (s v : Int) : List Interval → List Interval
  | [] => [Interval.mk' s v]
  | j :: l => if v ≥ ps k j then mergeGo k s (pe k j) l else Interval.mk' s v :: mergeGo k (ps k j) (pe k j) l

/-- The projected and merged list. -/
def mergeProj (k : Nat) : List Interval → List Interval
  | [] => []
  | i :: l => mergeGo k (ps k i) (pe k i) l

theorem mergeGo_run (k : Nat) (s v : Int) (l : List Interval) :
    mergeGo k s v l = Interval.mk' s (mergeRun k v l).1 :: mergeProj k (mergeRun k v l).2 := by
  induction l generalizing v with
  | nil => rfl
  | cons j l ih =>
    unfold mergeGo mergeRun
    split
    · rw [ih]
    · rfl

theorem ps_lt_pe {k : Nat} {i : Interval} (h : i.start < i.stop) : ps k i < pe k i := by
  unfold ps pe
  have := shr_le_shr k (show i.start ≤ i.stop - 1 by omega)
  omega

theorem mem_proj {k : Nat} {i : Interval} (h : i.start < i.stop) {x : Int} :
    (ps k i ≤ x ∧ x < pe k i) ↔ ∃ y ∈ i, shr y k = x := by
  rw [← mem_shiftRight h]
  rfl

theorem mergeGo_spec {k : Nat} {l : List Interval} : ∀ {s v b : Int}, s < v → v = shr (b - 1) k + 1 →
    CanonFrom b l → CanonFrom (s - 1) (mergeGo k s v l) ∧
      ∀ x, MemList x (mergeGo k s v l) ↔ (s ≤ x ∧ x < v) ∨ ∃ y, MemList y l ∧ shr y k = x := by
  induction l with
  | nil =>
    intro s v b hs _ _
    exact ⟨⟨by show s - 1 < s; omega, hs, trivial⟩, by simp [mergeGo, Interval.mem_def, Interval.mk']⟩
  | cons j l ih =>
    intro s v b hs hv h
    obtain ⟨h1, h2, h3⟩ := h
    have hpj := ps_lt_pe (k := k) h2
    have hle : v ≤ pe k j := by
      have := shr_le_shr k (show b - 1 ≤ j.stop - 1 by omega)
      unfold pe; omega
    have hj : ∀ x, (∃ y, MemList y (j :: l) ∧ shr y k = x) ↔
        (ps k j ≤ x ∧ x < pe k j) ∨ ∃ y, MemList y l ∧ shr y k = x := by
      intro x
      rw [mem_proj h2]
      simp only [memList_cons, or_and_right, exists_or]
    unfold mergeGo
    split
    · rename_i hge
      obtain ⟨g1, g2⟩ := ih (s := s) (v := pe k j) (b := j.stop) (by omega) rfl h3
      refine ⟨g1, fun x => ?_⟩
      rw [g2, hj]
      constructor
      · rintro (h | h)
        · by_cases hx : x < v
          · exact Or.inl ⟨h.1, hx⟩
          · exact Or.inr (Or.inl ⟨by omega, h.2⟩)
        · exact Or.inr (Or.inr h)
      · rintro (h | h | h)
        · exact Or.inl ⟨h.1, by omega⟩
        · refine Or.inl ⟨?_, h.2⟩
          have := shr_le_shr k (show b - 1 ≤ j.start by omega)
          unfold ps at h
          omega
        · exact Or.inr h
    · rename_i hge
      obtain ⟨g1, g2⟩ := ih (s := ps k j) (v := pe k j) (b := j.stop) hpj rfl h3
      refine ⟨⟨by show s - 1 < s; omega, hs, ?_⟩, fun x => ?_⟩
      · have hvp : v ≤ ps k j - 1 := by omega
        exact g1.mono hvp
      · rw [memList_cons, g2, hj]
        rfl

theorem mergeProj_spec {k : Nat} {l : List Interval} (h : Canonical l) :
    Canonical (mergeProj k l) ∧ ∀ x, MemList x (mergeProj k l) ↔ ∃ y, MemList y l ∧ shr y k = x := by
  cases l with
  | nil => exact ⟨trivial, by simp [mergeProj]⟩
  | cons i l =>
    obtain ⟨h1, h2⟩ := h.cons
    obtain ⟨g1, g2⟩ := mergeGo_spec (k := k) (ps_lt_pe h1) rfl h2
    refine ⟨g1.canonical, fun x => ?_⟩
    show MemList x (mergeGo k (ps k i) (pe k i) l) ↔ _
    rw [g2, mem_proj h1]
    simp only [memList_cons, or_and_right, exists_or]

/-- Projection by shifting left. -/
theorem canonical_shiftLeft {k : Nat} {l : List Interval} (h : Canonical l) :
    Canonical (l.map (·.shiftLeft k)) ∧ ∀ x, MemList x (l.map (·.shiftLeft k)) ↔ MemList (shr x k) l := by
  constructor
  · obtain ⟨b, hb⟩ := canonical_iff.1 h
    clear h
    apply CanonFrom.canonical (b := shl b k)
    induction l generalizing b with
    | nil => trivial
    | cons i l ih =>
      exact ⟨(shl_lt_shl k).2 hb.1, (shl_lt_shl k).2 hb.2.1, ih _ hb.2.2⟩
  · intro x
    simp only [MemList, List.mem_map]
    constructor
    · rintro ⟨i, ⟨j, hj, rfl⟩, hx⟩; exact ⟨j, hj, mem_shiftLeft.1 hx⟩
    · rintro ⟨i, hi, hx⟩; exact ⟨_, ⟨i, hi, rfl⟩, mem_shiftLeft.2 hx⟩

theorem canonical_translate {t : Int} {l : List Interval} (h : Canonical l) :
    Canonical (l.map (·.addAssign t)) ∧ ∀ x, MemList x (l.map (·.addAssign t)) ↔ MemList (x - t) l := by
  constructor
  · obtain ⟨b, hb⟩ := canonical_iff.1 h
    clear h
    apply CanonFrom.canonical (b := b + t)
    induction l generalizing b with
    | nil => trivial
    | cons i l ih =>
      obtain ⟨h1, h2, h3⟩ := hb
      exact ⟨by simp only [Interval.addAssign]; omega, by simp only [Interval.addAssign]; omega, ih _ h3⟩
  · intro x
    simp only [MemList, List.mem_map]
    constructor
    · rintro ⟨i, ⟨j, hj, rfl⟩, hx⟩
      exact ⟨j, hj, by simp only [Interval.mem_def, Interval.addAssign] at *; omega⟩
    · rintro ⟨i, hi, hx⟩
      exact ⟨_, ⟨i, hi, rfl⟩, by simp only [Interval.mem_def, Interval.addAssign] at *; omega⟩

end Samurai

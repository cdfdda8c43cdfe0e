import Verif.Model.ListOfIntervals
import Verif.Lemmas.Interval

namespace Samurai

/-- Canonical list all of whose coordinates (and the first gap) are above `b`. -/
def CanonFrom : Int → List Interval → Prop
  | _, [] => True
  | b, i :: l => b < i.start ∧ i.start < i.stop ∧ CanonFrom i.stop l

theorem CanonFrom.mono {a b : Int} {l : List Interval} (h : CanonFrom b l) (hab : a ≤ b) :
    CanonFrom a l := by
  cases l with
  | nil => trivial
  | cons i l => exact ⟨by have := h.1; omega, h.2⟩

theorem Canonical.cons {i : Interval} {l : List Interval} (h : Canonical (i :: l)) :
    i.start < i.stop ∧ CanonFrom i.stop l := by
  induction l generalizing i with
  | nil => exact ⟨h, trivial⟩
  | cons j l ih =>
    obtain ⟨h1, h2, h3⟩ := h
    obtain ⟨h4, h5⟩ := ih h3
    exact ⟨h1, h2, h4, h5⟩

theorem canonFrom_of_canonical {b : Int} {i : Interval} {l : List Interval}
    (h : Canonical (i :: l)) (hb : b < i.start) : CanonFrom b (i :: l) :=
  ⟨hb, h.cons.1, h.cons.2⟩

theorem CanonFrom.canonical {b : Int} {l : List Interval} (h : CanonFrom b l) : Canonical l := by
  induction l generalizing b with
  | nil => trivial
  | cons i l ih =>
    cases l with
    | nil => exact h.2.1
    | cons j l => exact ⟨h.2.1, h.2.2.1, ih h.2.2⟩

theorem canonical_iff {l : List Interval} : Canonical l ↔ ∃ b, CanonFrom b l := by
  constructor
  · intro h
    cases l with
    | nil => exact ⟨0, trivial⟩
    | cons i l => exact ⟨i.start - 1, canonFrom_of_canonical h (by omega)⟩
  · rintro ⟨b, h⟩; exact h.canonical

@[simp] theorem memList_nil {x : Int} : MemList x [] ↔ False := by simp [MemList]

@[simp] theorem memList_cons {x : Int} {i : Interval} {l : List Interval} :
    MemList x (i :: l) ↔ x ∈ i ∨ MemList x l := by simp [MemList]

@[simp] theorem memList_append {x : Int} {l m : List Interval} :
    MemList x (l ++ m) ↔ MemList x l ∨ MemList x m := by
  simp [MemList, or_and_right, exists_or]

theorem CanonFrom.lt_of_mem {b : Int} {l : List Interval} (h : CanonFrom b l) {x : Int}
    (hx : MemList x l) : b < x := by
  induction l generalizing b with
  | nil => simp at hx
  | cons i l ih =>
    rcases memList_cons.1 hx with hx | hx
    · have := h.1; have := Interval.mem_def.1 hx; omega
    · have := ih h.2.2 hx; have := h.1; have := h.2.1; omega

theorem CanonFrom.of_mem {b : Int} {l : List Interval} (h : CanonFrom b l) {i : Interval}
    (hi : i ∈ l) : b < i.start ∧ i.start < i.stop := by
  induction l generalizing b with
  | nil => simp at hi
  | cons j l ih =>
    rcases List.mem_cons.1 hi with rfl | hi
    · exact ⟨h.1, h.2.1⟩
    · have := ih h.2.2 hi; have := h.1; have := h.2.1; omega

theorem CanonFrom.valid {b : Int} {l : List Interval} (h : CanonFrom b l) {i : Interval}
    (hi : i ∈ l) : i.start < i.stop := (h.of_mem hi).2

theorem absorb_spec {v it : Interval} {l : List Interval} {b : Int}
    (hb : b < it.start) (hit : it.start < it.stop) (hv : it.start ≤ v.start) (hvs : v.stop ≤ it.stop)
    (h : ∃ c, it.start ≤ c ∧ c ≤ it.stop ∧ (c = it.stop ∨ it.stop = v.stop) ∧ CanonFrom c l) :
    CanonFrom b (absorb v it l) ∧ ∀ x, MemList x (absorb v it l) ↔ x ∈ it ∨ MemList x l := by
  induction l generalizing it with
  | nil => exact ⟨⟨hb, hit, trivial⟩, by simp [absorb]⟩
  | cons n tl ih =>
    obtain ⟨c, hc0, hc, hc2, hcl⟩ := h
    unfold absorb
    split
    · rename_i hge
      have hn := hcl.1
      have hn2 := hcl.2.1
      obtain ⟨h1, h2⟩ := ih (it := { it with stop := max n.stop v.stop }) hb
        (by simp; omega) hv (by simp)
        ⟨n.stop, by simp; omega, by simp, by simp; omega, hcl.2.2⟩
      refine ⟨h1, fun x => ?_⟩
      rw [h2, memList_cons, ← or_assoc]
      apply or_congr_left
      simp only [Interval.mem_def]
      omega
    · rename_i hge
      refine ⟨⟨hb, hit, ?_, hcl.2⟩, fun x => by rw [memList_cons]⟩
      rcases hc2 with rfl | h2
      · exact hcl.1
      · omega

theorem insertValid_spec {v : Interval} {l : List Interval} {b : Int} (hv : v.start < v.stop)
    (hb : b < v.start) (h : CanonFrom b l) :
    CanonFrom b (insertValid v l) ∧ ∀ x, MemList x (insertValid v l) ↔ x ∈ v ∨ MemList x l := by
  induction l generalizing b with
  | nil => exact ⟨⟨hb, hv, trivial⟩, by simp [insertValid]⟩
  | cons it tl ih =>
    unfold insertValid
    split
    · split
      · rename_i h1 h2
        exact ⟨⟨hb, hv, h2, h.2⟩, by simp⟩
      · rename_i h1 h2
        have hi1 := h.1
        have hi2 := h.2.1
        obtain ⟨h3, h4⟩ := absorb_spec (v := v)
          (it := { it with start := min it.start v.start, stop := max it.stop v.stop })
          (l := tl) (b := b) (by simp; omega) (by simp; omega) (by simp) (by simp)
          ⟨it.stop, by simp; omega, by simp, by simp; omega, h.2.2⟩
        refine ⟨h3, fun x => ?_⟩
        rw [h4, memList_cons, ← or_assoc]
        apply or_congr_left
        simp only [Interval.mem_def]
        omega
    · rename_i h1
      obtain ⟨h3, h4⟩ := ih (b := it.stop) (by omega) h.2.2
      refine ⟨⟨h.1, h.2.1, h3⟩, fun x => ?_⟩
      rw [memList_cons, h4, memList_cons]
      tauto

theorem insertValid_ne_nil (v : Interval) (l : List Interval) : insertValid v l ≠ [] := by
  have habs : ∀ (l : List Interval) (it : Interval), absorb v it l ≠ [] := by
    intro l
    induction l with
    | nil => intro it; simp [absorb]
    | cons n tl ih =>
      intro it
      unfold absorb
      split
      · exact ih _
      · simp
  cases l with
  | nil => simp [insertValid]
  | cons it tl =>
    unfold insertValid
    split
    · split
      · simp
      · exact habs _ _
    · simp

theorem addInterval_canonical {l : List Interval} {v : Interval} (h : Canonical l) :
    Canonical (addInterval l v) ∧
      ∀ x, MemList x (addInterval l v) ↔ x ∈ v ∨ MemList x l := by
  unfold addInterval
  split
  · rename_i hv
    have hv : v.start < v.stop := by simpa [Interval.isValid] using hv
    obtain ⟨b, hb⟩ := canonical_iff.1 h
    obtain ⟨h1, h2⟩ := insertValid_spec (b := min b (v.start - 1)) hv (by omega)
      (hb.mono (by omega))
    exact ⟨h1.canonical, h2⟩
  · rename_i hv
    have hv : ¬ v.start < v.stop := by simpa [Interval.isValid] using hv
    refine ⟨h, fun x => ?_⟩
    rw [Interval.mem_def]
    constructor
    · exact Or.inr
    · rintro (h | h)
      · omega
      · exact h

theorem canonFrom_unique {b c : Int} {l m : List Interval} (hl : CanonFrom b l) (hm : CanonFrom c m)
    (h : ∀ x, MemList x l ↔ MemList x m) : bounds l = bounds m := by
  induction l generalizing b c m with
  | nil =>
    cases m with
    | nil => rfl
    | cons j m =>
      have := (h j.start).2 (memList_cons.2 (Or.inl (Interval.mem_def.2 ⟨le_rfl, hm.2.1⟩)))
      simp at this
  | cons i l ih =>
    cases m with
    | nil =>
      have := (h i.start).1 (memList_cons.2 (Or.inl (Interval.mem_def.2 ⟨le_rfl, hl.2.1⟩)))
      simp at this
    | cons j m =>
      obtain ⟨hb, hi, hl⟩ := hl
      obtain ⟨hc, hj, hm⟩ := hm
      have e1 : j.start ≤ i.start := by
        rcases memList_cons.1 ((h i.start).1 (memList_cons.2 (Or.inl ⟨le_rfl, hi⟩))) with h1 | h1
        · exact h1.1
        · have := hm.lt_of_mem h1; omega
      have e2 : i.start ≤ j.start := by
        rcases memList_cons.1 ((h j.start).2 (memList_cons.2 (Or.inl ⟨le_rfl, hj⟩))) with h1 | h1
        · exact h1.1
        · have := hl.lt_of_mem h1; omega
      have e3 : i.stop ≤ j.stop := by
        by_contra hlt
        rcases memList_cons.1 ((h j.stop).1 (memList_cons.2 (Or.inl ⟨by omega, by omega⟩))) with h1 | h1
        · have := h1.2; omega
        · have := hm.lt_of_mem h1; omega
      have e4 : j.stop ≤ i.stop := by
        by_contra hlt
        rcases memList_cons.1 ((h i.stop).2 (memList_cons.2 (Or.inl ⟨by omega, by omega⟩))) with h1 | h1
        · have := h1.2; omega
        · have := hl.lt_of_mem h1; omega
      have es : i.start = j.start := by omega
      have ee : i.stop = j.stop := by omega
      have := ih hl hm (fun x => by
        have := h x
        rw [memList_cons, memList_cons] at this
        constructor
        · intro hx
          rcases this.1 (Or.inr hx) with h1 | h1
          · have := hl.lt_of_mem hx; have := h1.2; omega
          · exact h1
        · intro hx
          rcases this.2 (Or.inr hx) with h1 | h1
          · have := hm.lt_of_mem hx; have := h1.2; omega
          · exact h1)
      simp only [bounds, List.map_cons] at this ⊢
      rw [this, es, ee]

theorem canonical_unique {l m : List Interval} (hl : Canonical l) (hm : Canonical m)
    (h : ∀ x, MemList x l ↔ MemList x m) : bounds l = bounds m := by
  obtain ⟨b, hb⟩ := canonical_iff.1 hl
  obtain ⟨c, hc⟩ := canonical_iff.1 hm
  exact canonFrom_unique hb hc h

/-- Default step and index. -/
def Plain (i : Interval) : Prop := i.step = 1 ∧ i.index = 0

theorem absorb_plain {v it : Interval} {l : List Interval} (hit : Plain it)
    (h : ∀ i ∈ l, Plain i) : ∀ i ∈ absorb v it l, Plain i := by
  induction l generalizing it with
  | nil => simpa [absorb] using hit
  | cons n tl ih =>
    unfold absorb
    split
    · exact ih hit (fun i hi => h i (List.mem_cons_of_mem _ hi))
    · intro i hi
      rcases List.mem_cons.1 hi with rfl | hi
      · exact hit
      · exact h i hi

theorem insertValid_plain {v : Interval} {l : List Interval} (hv : Plain v)
    (h : ∀ i ∈ l, Plain i) : ∀ i ∈ insertValid v l, Plain i := by
  induction l with
  | nil => simpa [insertValid] using hv
  | cons it tl ih =>
    have h1 : Plain it := h it List.mem_cons_self
    have h2 : ∀ i ∈ tl, Plain i := fun i hi => h i (List.mem_cons_of_mem _ hi)
    unfold insertValid
    split
    · split
      · intro i hi
        rcases List.mem_cons.1 hi with rfl | hi
        · exact hv
        · exact h i hi
      · exact absorb_plain h1 h2
    · intro i hi
      rcases List.mem_cons.1 hi with rfl | hi
      · exact h1
      · exact ih h2 i hi

theorem addInterval_plain {v : Interval} {l : List Interval} (hv : Plain v)
    (h : ∀ i ∈ l, Plain i) : ∀ i ∈ addInterval l v, Plain i := by
  unfold addInterval
  split
  · exact insertValid_plain hv h
  · exact h

theorem eq_of_bounds_plain {l m : List Interval} (hl : ∀ i ∈ l, Plain i) (hm : ∀ i ∈ m, Plain i)
    (h : bounds l = bounds m) : l = m := by
  induction l generalizing m with
  | nil => cases m with
    | nil => rfl
    | cons => simp [bounds] at h
  | cons i l ih =>
    cases m with
    | nil => simp [bounds] at h
    | cons j m =>
      simp only [bounds, List.map_cons, List.cons.injEq, Prod.mk.injEq] at h
      have h1 := hl i List.mem_cons_self
      have h2 := hm j List.mem_cons_self
      rw [ih (fun k hk => hl k (List.mem_cons_of_mem _ hk)) (fun k hk => hm k (List.mem_cons_of_mem _ hk)) h.2]
      congr 1
      cases i; cases j
      simp_all [Plain]

end Samurai

import Verif.Lemmas.ListOfIntervals

namespace Samurai

/-- The integers a call asks to add: those of a valid interval, or the point. -/
def ListCall.Adds : ListCall → Int → Prop
  | .interval i, x => i.start ≤ x ∧ x < i.stop
  | .point p, x => x = p

/-- C04: after any history the list holds exactly the integers that were added. -/
theorem C04_content (h : List ListCall) (x : Int) :
    MemList x (runCalls h) ↔ ∃ c ∈ h, c.Adds x := by
  suffices H : ∀ l, Canonical l → (Canonical (h.foldl ListCall.run l) ∧
      (MemList x (h.foldl ListCall.run l) ↔ (MemList x l ∨ ∃ c ∈ h, c.Adds x))) by
    simpa [runCalls] using (H [] trivial).2
  induction h with
  | nil => intro l hl; simpa using hl
  | cons c h ih =>
    intro l hl
    have hc : Canonical (c.run l) ∧ (MemList x (c.run l) ↔ (c.Adds x ∨ MemList x l)) := by
      cases c with
      | interval i =>
        have := addInterval_canonical (v := i) hl
        exact ⟨this.1, this.2 x⟩
      | point p =>
        have := addInterval_canonical (v := Interval.mk' p (p + 1)) hl
        refine ⟨this.1, (this.2 x).trans (or_congr_left ?_)⟩
        simp only [Interval.mem_def, Interval.mk', ListCall.Adds]
        omega
    obtain ⟨h1, h2⟩ := ih _ hc.1
    refine ⟨h1, ?_⟩
    rw [List.foldl_cons, h2, hc.2]
    simp only [List.mem_cons, exists_eq_or_imp]
    tauto

/-- C05: at every moment of any history the list is canonical. -/
theorem C05_canonical (h : List ListCall) : Canonical (runCalls h) := by
  suffices H : ∀ l, Canonical l → Canonical (h.foldl ListCall.run l) from H [] trivial
  induction h with
  | nil => intro l hl; exact hl
  | cons c h ih =>
    intro l hl
    refine ih _ ?_
    cases c with
    | interval i => exact (addInterval_canonical hl).1
    | point p => exact (addInterval_canonical hl).1

/-- C05: two histories that add the same integers leave the same intervals, whatever the order,
multiplicity and splitting of the insertions. -/
theorem C05_order_independent (h₁ h₂ : List ListCall)
    (h : ∀ x, (∃ c ∈ h₁, c.Adds x) ↔ ∃ c ∈ h₂, c.Adds x) :
    bounds (runCalls h₁) = bounds (runCalls h₂) :=
  canonical_unique (C05_canonical h₁) (C05_canonical h₂)
    (fun x => by rw [C04_content, C04_content]; exact h x)

/-- Two different histories with the same content: hypotheses of `C05_order_independent` are met
by a case with overlap, adjacency, an invalid interval and points. -/
example :
    let h₁ : List ListCall := [.interval (.mk' 4 6), .interval (.mk' 0 2), .point 2, .interval (.mk' 9 3)]
    let h₂ : List ListCall := [.interval (.mk' 1 3), .point 5, .interval (.mk' 0 2), .point 4]
    (∀ x, (∃ c ∈ h₁, c.Adds x) ↔ ∃ c ∈ h₂, c.Adds x) ∧ bounds (runCalls h₁) = [(0, 3), (4, 6)] := by
  refine ⟨fun x => ?_, by decide⟩
  simp [ListCall.Adds, Interval.mk']
  omega

end Samurai

import Verif.Spec.Bc
import Verif.Lemmas.InterfaceSets

namespace Samurai

theorem toPt_cons_lt (c : Int) (p : List Int) {d : Nat} (h : d < p.length) : toPt (c :: p) d = toPt p d := by
  unfold toPt
  rw [List.reverse_cons, List.getD_eq_getElem?_getD, List.getD_eq_getElem?_getD, List.getElem?_append_left (by simpa using h)]

theorem toPt_cons_eq (c : Int) (p : List Int) : toPt (c :: p) p.length = c := by
  unfold toPt
  rw [List.reverse_cons, List.getD_eq_getElem?_getD, List.getElem?_append_right (by simp)]
  simp

theorem toPt_shift {s : Nat → Int} {p : List Int} : ∀ {n : Nat}, p.length = n + 1 → ∀ {d : Nat}, d ≤ n →
    toPt (shiftPoint s n p) d = toPt p d + s d := by
  induction p with
  | nil => intro n h; simp at h
  | cons c p ih =>
    intro n h d hd
    have hp : p.length = n := by simpa using h
    show toPt ((c + s n) :: shiftPoint s (n - 1) p) d = _
    have hl := shift_length s p (n - 1)
    rcases Nat.lt_or_eq_of_le hd with hlt | rfl
    · rw [toPt_cons_lt _ _ (by rw [hl]; omega), toPt_cons_lt _ _ (by omega)]
      exact ih (n := n - 1) (by omega) (by omega)
    · have h1 : toPt ((c + s d) :: shiftPoint s (d - 1) p) d = c + s d := by
        have := toPt_cons_eq (c + s d) (shiftPoint s (d - 1) p)
        rwa [hl, hp] at this
      have h2 : toPt (c :: p) d = c := by
        have := toPt_cons_eq c p
        rwa [hp] at this
      rw [h1, h2]

theorem toPt_ext {p : List Int} : ∀ {q : List Int} {n : Nat}, p.length = n → q.length = n → (∀ d < n, toPt p d = toPt q d) → p = q := by
  induction p with
  | nil => intro q n h1 h2 _; subst h1; simpa using h2
  | cons c p ih =>
    intro q n h1 h2 h
    cases q with
    | nil => subst h2; simp at h1
    | cons c' q =>
      have hp : p.length = n - 1 := by simp at h1; omega
      have hq : q.length = n - 1 := by simp at h2; omega
      have hn : 1 ≤ n := by simp at h1; omega
      have h0 := h (n - 1) (by omega)
      have e1 := toPt_cons_eq c p
      have e2 := toPt_cons_eq c' q
      rw [hp] at e1
      rw [hq] at e2
      rw [e1, e2] at h0
      rw [h0, ih hp hq fun d hd => by
        have := h d (by omega)
        rwa [toPt_cons_lt _ _ (by omega), toPt_cons_lt _ _ (by omega)] at this]

theorem inBox_iff {b : Box} {p : List Int} : ∀ {n : Nat}, InBox b n p ↔ p.length = n + 1 ∧ ∀ d ≤ n, b.lo d ≤ toPt p d ∧ toPt p d < b.hi d := by
  induction p with
  | nil => intro n; cases n <;> simp [InBox]
  | cons c p ih =>
    intro n
    cases n with
    | zero =>
      cases p with
      | nil => simp [InBox, toPt]
      | cons c' p => simp [InBox]
    | succ n =>
      show (b.lo (n + 1) ≤ c ∧ c < b.hi (n + 1)) ∧ InBox b n p ↔ _
      rw [ih]
      have e1 := toPt_cons_eq c p
      constructor
      · rintro ⟨h1, h2, h3⟩
        rw [h2] at e1
        refine ⟨by simp [h2], fun d hd => ?_⟩
        rcases Nat.lt_or_eq_of_le hd with hlt | rfl
        · rw [toPt_cons_lt _ _ (by omega)]; exact h3 d (by omega)
        · rw [e1]; exact h1
      · rintro ⟨h2, h3⟩
        have h2 : p.length = n + 1 := by simpa using h2
        rw [h2] at e1
        refine ⟨?_, h2, fun d hd => ?_⟩
        · have := h3 (n + 1) le_rfl; rwa [e1] at this
        · have := h3 d (by omega); rwa [toPt_cons_lt _ _ (by omega)] at this

theorem walk_length (n : Nat) (p : List Int) (i : Int) (v : Nat → Int) : (walk n p i v).length = p.length := shift_length _ _ _

theorem toPt_walk {n : Nat} {p : List Int} (hp : p.length = n + 1) (i : Int) (v : Nat → Int) {d : Nat} (hd : d ≤ n) :
    toPt (walk n p i v) d = toPt p d + i * v d := toPt_shift hp hd

theorem Outward.length {n : Nat} {b : Box} {p : List Int} {v : Nat → Int} (h : Outward n b p v) : p.length = n + 1 := (inBox_iff.1 h.1).1

/-- An outward component starts from the last layer of cells. -/
theorem Outward.edge {n : Nat} {b : Box} {p : List Int} {v : Nat → Int} (h : Outward n b p v) {d : Nat} (hd : d ≤ n) :
    v d = 0 ∨ (v d = 1 ∧ toPt p d = b.hi d - 1) ∨ (v d = -1 ∧ toPt p d = b.lo d) := by
  obtain ⟨h1, h2, h3⟩ := h
  have h1 := (inBox_iff.1 h1).2 d hd
  rcases h2.1 d hd with hv | hv | hv
  · have := h3 d hd (by omega)
    right; right; refine ⟨hv, ?_⟩; rw [hv] at this; omega
  · left; exact hv
  · have := h3 d hd (by omega)
    right; left; refine ⟨hv, ?_⟩; rw [hv] at this; omega

/-- Where a ghost is: the distance to the box in each direction. -/
theorem Outward.coord {n : Nat} {b : Box} {p : List Int} {v : Nat → Int} (h : Outward n b p v) {i : Int} (hi : 1 ≤ i) {d : Nat} (hd : d ≤ n) :
    (v d = 0 ∧ toPt (walk n p i v) d = toPt p d) ∨ (v d = 1 ∧ toPt (walk n p i v) d = b.hi d - 1 + i ∧ toPt p d = b.hi d - 1) ∨
      (v d = -1 ∧ toPt (walk n p i v) d = b.lo d - i ∧ toPt p d = b.lo d) := by
  have hw := toPt_walk h.length i v hd
  rcases h.edge hd with h1 | ⟨h1, h2⟩ | ⟨h1, h2⟩
  · left; refine ⟨h1, ?_⟩; rw [hw, h1]; omega
  · right; left; refine ⟨h1, ?_, h2⟩; rw [hw, h1, h2]; omega
  · right; right; refine ⟨h1, ?_, h2⟩; rw [hw, h1, h2]; omega

theorem Outward.out {n : Nat} {b : Box} {p : List Int} {v : Nat → Int} (h : Outward n b p v) {i : Int} (hi : 1 ≤ i) : ¬ InBox b n (walk n p i v) := by
  obtain ⟨d, hd, hv⟩ := h.2.1.2
  intro hb
  have h1 := (inBox_iff.1 hb).2 d hd
  rcases h.coord hi hd with h2 | ⟨h2, h3, _⟩ | ⟨h2, h3, _⟩
  · exact hv h2.1
  · omega
  · omega

/-- A ghost determines the boundary cell, the direction and the distance. -/
theorem Outward.unique {n : Nat} {b : Box} {p q : List Int} {v w : Nat → Int} (hp : Outward n b p v) (hq : Outward n b q w) {i j : Int}
    (hi : 1 ≤ i) (hj : 1 ≤ j) (h : walk n p i v = walk n q j w) : i = j ∧ (∀ d ≤ n, v d = w d) ∧ p = q := by
  have hpb := (inBox_iff.1 hp.1).2
  have hqb := (inBox_iff.1 hq.1).2
  have hvw : ∀ d ≤ n, v d = w d ∧ toPt p d = toPt q d ∧ (v d ≠ 0 → i = j) := by
    intro d hd
    have e : toPt (walk n p i v) d = toPt (walk n q j w) d := by rw [h]
    have h1 := hpb d hd
    have h2 := hqb d hd
    rcases hp.coord hi hd with ⟨a1, a2⟩ | ⟨a1, a2, a3⟩ | ⟨a1, a2, a3⟩ <;> rcases hq.coord hj hd with ⟨c1, c2⟩ | ⟨c1, c2, c3⟩ | ⟨c1, c2, c3⟩ <;>
      refine ⟨?_, ?_, ?_⟩ <;> omega
  obtain ⟨d, hd, hv⟩ := hp.2.1.2
  exact ⟨(hvw d hd).2.2 hv, fun d hd => (hvw d hd).1, toPt_ext hp.length hq.length fun d hd => (hvw d (by omega)).2.1⟩

/-- A walk with a nonpositive number of steps does not reach a ghost of the same direction. -/
theorem Outward.inner {n : Nat} {b : Box} {p q : List Int} {v : Nat → Int} (hp : Outward n b p v) (hq : Outward n b q v) {i j : Int}
    (hi : 1 ≤ i) (hj : j ≤ 0) : walk n p i v ≠ walk n q j v := by
  intro h
  obtain ⟨d, hd, hv⟩ := hp.2.1.2
  have e : toPt (walk n p i v) d = toPt (walk n q j v) d := by rw [h]
  rw [toPt_walk hq.length j v hd] at e
  have h2 := (inBox_iff.1 hq.1).2 d hd
  rcases hp.coord hi hd with ⟨a1, a2⟩ | ⟨a1, a2, a3⟩ | ⟨a1, a2, a3⟩
  · exact hv a1
  · rw [a1] at e; omega
  · rw [a1] at e; omega

theorem walk_inj {n : Nat} {p : List Int} (hp : p.length = n + 1) {v : Nat → Int} (hv : ∃ d ≤ n, v d ≠ 0) {i j : Int} (h : walk n p i v = walk n p j v) :
    i = j := by
  obtain ⟨d, hd, hv⟩ := hv
  have e : toPt (walk n p i v) d = toPt (walk n p j v) d := by rw [h]
  rw [toPt_walk hp i v hd, toPt_walk hp j v hd] at e
  have : i * v d = j * v d := by omega
  exact Int.eq_of_mul_eq_mul_right hv this

theorem walk_zero (n : Nat) (p : List Int) (v : Nat → Int) : walk n p 0 v = p := by
  unfold walk
  rw [show (fun d => 0 * v d) = fun _ : Nat => (0 : Int) by funext d; ring, shift_zero]

/-- The inner cells of a boundary cell, in a direction along an axis in which the box is wide enough. -/
theorem Outward.inside {n : Nat} {b : Box} {p : List Int} {v : Nat → Int} (hp : Outward n b p v) {k : Nat}
    (hw : ∀ d ≤ n, v d ≠ 0 → (k : Int) ≤ b.hi d - b.lo d) {j : Nat} (hj : j < k) : InBox b n (walk n p (- (j : Int)) v) := by
  rw [inBox_iff]
  refine ⟨by rw [walk_length, hp.length], fun d hd => ?_⟩
  rw [toPt_walk hp.length _ v hd]
  have h1 := (inBox_iff.1 hp.1).2 d hd
  rcases hp.edge hd with h2 | ⟨h2, h3⟩ | ⟨h2, h3⟩
  · rw [h2]; omega
  · have := hw d hd (by omega); rw [h2]; omega
  · have := hw d hd (by omega); rw [h2]; omega

theorem walk_congr {n : Nat} {p : List Int} {i : Int} {v w : Nat → Int} (h : ∀ d ≤ n, v d = w d) : walk n p i v = walk n p i w :=
  shift_congr _ _ fun d hd => by rw [h d hd]

theorem Outward.congr {n : Nat} {b : Box} {p : List Int} {v w : Nat → Int} (h : ∀ d ≤ n, v d = w d) (hp : Outward n b p v) : Outward n b p w := by
  obtain ⟨h1, ⟨h2, d, hd, h3⟩, h4⟩ := hp
  refine ⟨h1, ⟨fun d hd => by rw [← h d hd]; exact h2 d hd, d, hd, by rw [← h d hd]; exact h3⟩, fun d hd hv => ?_⟩
  rw [← h d hd] at hv ⊢
  exact h4 d hd hv

end Samurai

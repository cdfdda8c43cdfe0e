import Verif.Lemmas.RowList
import Verif.Model.Iterator

namespace Samurai

/-- The cursors of directions `d` and `d + 1` designate the same row, with `P first end` holding of
the bounds of this row. -/
def LinkAt (L : LCA) (it : LCAIter) (d : Nat) (P : Nat → Nat → Prop) : Prop :=
  ∃ i a b, (L.cells (d + 1))[it.cur (d + 1)]? = some i ∧ it.idx d ∈ i ∧ i.index + it.idx d = (it.off d : Int) ∧
    (L.offsets d)[it.off d]? = some a ∧ (L.offsets d)[it.off d + 1]? = some b ∧ P a b

def Link (L : LCA) (it : LCAIter) (d : Nat) : Prop :=
  LinkAt L it d fun a b => a ≤ it.cur d ∧ it.cur d < b

/-- The iterator is at the x-interval number `k`. -/
def IterAt (L : LCA) (n k : Nat) (it : LCAIter) : Prop :=
  it.cur 0 = k ∧ k < (L.cells 0).length ∧ it.cur n < (L.cells n).length ∧ ∀ d < n, Link L it d

theorem LinkAt.mono {L : LCA} {it : LCAIter} {d : Nat} {P Q : Nat → Nat → Prop} (h : LinkAt L it d P)
    (hPQ : ∀ a b, P a b → Q a b) : LinkAt L it d Q := by
  obtain ⟨i, a, b, h1, h2, h3, h4, h5, h6⟩ := h
  exact ⟨i, a, b, h1, h2, h3, h4, h5, hPQ a b h6⟩

/-- A link depends on the cursors it mentions only. -/
theorem LinkAt.congr {L : LCA} {it it' : LCAIter} {d : Nat} {P : Nat → Nat → Prop} (h : LinkAt L it d P)
    (h1 : it'.cur (d + 1) = it.cur (d + 1)) (h2 : it'.idx d = it.idx d) (h3 : it'.off d = it.off d) :
    LinkAt L it' d P := by
  unfold LinkAt at h ⊢
  rw [h1, h2, h3]
  exact h

theorem iterNextLoop_frame {L : LCA} {m d : Nat} {it it' : LCAIter} (h : iterNextLoop L m d it = some it') :
    (∀ k ≤ d, it'.cur k = it.cur k) ∧ (∀ k < d, it'.off k = it.off k ∧ it'.idx k = it.idx k) := by
  induction m generalizing d it with
  | zero => simp only [iterNextLoop, Option.some.injEq] at h; subst h; simp
  | succ m ih =>
    simp only [iterNextLoop] at h
    split at h
    · simp at h
    · split at h
      · split at h
        · simp at h
        · split at h
          · split at h
            all_goals
              obtain ⟨h1, h2⟩ := ih h
              refine ⟨fun k hk => ?_, fun k hk => ?_⟩
              · rw [h1 k (by omega)]; simp [Function.update_of_ne (show k ≠ d + 1 by omega)]
              · have := h2 k (by omega)
                rw [this.1, this.2]
                simp [Function.update_of_ne (show k ≠ d by omega)]
          · obtain ⟨h1, h2⟩ := ih h
            refine ⟨fun k hk => h1 k (by omega), fun k hk => ?_⟩
            have := h2 k (by omega)
            rw [this.1, this.2]
            simp [Function.update_of_ne (show k ≠ d by omega)]
      · simp only [Option.some.injEq] at h; subst h; simp

theorem iterNextLoop_spec {n : Nat} {L : LCA} (h : L.WF n) (hne : L.cells n ≠ []) {m d : Nat} (hmd : m + d = n)
    {it : LCAIter} (hb : it.cur d < (L.cells d).length)
    (hw : d < n → LinkAt L it d fun a b => a ≤ it.cur d ∧ it.cur d ≤ b)
    (hl : ∀ k, d < k → k < n → Link L it k) :
    ∃ it', iterNextLoop L m d it = some it' ∧ it'.cur n < (L.cells n).length ∧ ∀ k, d ≤ k → k < n → Link L it' k := by
  induction m generalizing d it with
  | zero =>
    obtain rfl : d = n := by omega
    exact ⟨it, rfl, hb, fun k h1 h2 => by omega⟩
  | succ m ih =>
    obtain ⟨i, a, b, hi, hx, hj, ha, hb', hab⟩ := hw (by omega)
    have hx' := Interval.mem_def.1 hx
    have hseg := h.seg d (by omega) hne
    have hcount := h.count d (by omega) hne
    have hlast := h.last d (by omega) hne
    rw [List.getLast?_eq_getElem?, hcount, Nat.add_sub_cancel] at hlast
    simp only [iterNextLoop, hb']
    by_cases hcb : it.cur d = b
    · rw [if_pos hcb]
      simp only [hi, Function.update_self]
      -- the next row exists
      have hoff : it.off d + 1 < totalSize (L.cells (d + 1)) := by
        have h1 := (List.getElem?_eq_some_iff.1 hb').1
        by_contra hcon
        have : it.off d + 1 = totalSize (L.cells (d + 1)) := by omega
        rw [this, hlast] at hb'
        simp only [Option.some.injEq] at hb'
        omega
      have hg2 : (L.offsets d)[it.off d + 1 + 1]? = some ((L.offsets d)[it.off d + 1 + 1]'(by omega)) :=
        List.getElem?_eq_getElem _
      generalize ((L.offsets d)[it.off d + 1 + 1]'(by omega)) = b2 at hg2
      have hb2 := (hseg.2 _ _ _ hb' hg2).1
      split
      · -- next interval
        rename_i hstop
        have hnext : it.cur (d + 1) + 1 < (L.cells (d + 1)).length := by
          have h1 := (List.getElem?_eq_some_iff.1 hi).1
          by_contra hcon
          have h2 := totalSize_take_succ hi
          rw [show it.cur (d + 1) + 1 = (L.cells (d + 1)).length by omega, List.take_length] at h2
          have h3 := indexFrom_at (h.index d (by omega)) hi
          unfold Interval.size at h2
          omega
        have hgi := List.getElem?_eq_getElem hnext
        generalize (L.cells (d + 1))[it.cur (d + 1) + 1] = i' at hgi
        simp only [hgi]
        have hval : i'.start < i'.stop := by
          have hmem := List.mem_of_getElem? hgi
          -- validity through the row of i'
          rcases Nat.lt_or_ge (d + 1) n with hdn | hdn
          · -- each row of d + 1 is canonical; locate i'
            have hl1 := h.last (d + 1) hdn hne
            have hs1 := h.seg (d + 1) hdn hne
            obtain ⟨j, a', b', e1, e2, e3, e4⟩ : ∃ j a' b', (L.offsets (d + 1))[j]? = some a' ∧
                (L.offsets (d + 1))[j + 1]? = some b' ∧ a' ≤ it.cur (d + 1) + 1 ∧ it.cur (d + 1) + 1 < b' := by
              obtain ⟨i2, a2, b2, q1, q2, q3, q4, q5, q6⟩ := hl (d + 1) (by omega) hdn
              rcases Nat.lt_or_ge (it.cur (d + 1) + 1) b2 with hlt | hge
              · exact ⟨_, a2, b2, q4, q5, by omega, hlt⟩
              · have q7 : it.cur (d + 1) + 1 = b2 := by omega
                have hc1 := h.count (d + 1) hdn hne
                rw [List.getLast?_eq_getElem?] at hl1
                have q8 : it.off (d + 1) + 1 + 1 < (L.offsets (d + 1)).length := by
                  have := (List.getElem?_eq_some_iff.1 q5).1
                  by_contra hcon
                  rw [show (L.offsets (d + 1)).length - 1 = it.off (d + 1) + 1 by omega, q5] at hl1
                  simp only [Option.some.injEq] at hl1
                  omega
                have q9 := List.getElem?_eq_getElem q8
                have := (hs1.2 _ _ _ q5 q9).1
                exact ⟨_, _, _, q5, q9, by omega, by omega⟩
            exact ((hs1.2 j a' b' e1 e2).2.2).valid (mem_slice.2 ⟨_, e3, e4, hgi⟩)
          · obtain rfl : d + 1 = n := by omega
            exact h.top.valid hmem
        have hidx : i'.index + i'.start = ((it.off d + 1 : Nat) : Int) := by
          have h1 := indexFrom_at (h.index d (by omega)) hgi
          have h2 := indexFrom_at (h.index d (by omega)) hi
          have h3 := totalSize_take_succ hi
          unfold Interval.size at h3
          rw [h1, h3]
          push_cast
          omega
        obtain ⟨it', e1, e2, e3⟩ := ih (d := d + 1) (by omega)
          (it := { cur := Function.update it.cur (d + 1) (it.cur (d + 1) + 1)
                   off := Function.update it.off d (it.off d + 1)
                   idx := Function.update (Function.update it.idx d (it.idx d + 1)) d i'.start })
          (by simpa using hnext)
          (by
            intro hdn
            obtain ⟨i2, a2, b2, q1, q2, q3, q4, q5, q6⟩ := hl (d + 1) (by omega) hdn
            refine ⟨i2, a2, b2, ?_, ?_, ?_, ?_, ?_, ?_⟩ <;>
              simp [Function.update_of_ne, q1, q2, q3, q4, q5]
            omega)
          (by
            intro k hk1 hk2
            refine (hl k (by omega) hk2).congr ?_ ?_ ?_ |>.mono ?_
            · simp; rw [Function.update_of_ne (by omega)]
            · simp; rw [Function.update_of_ne (by omega)]
            · simp; rw [Function.update_of_ne (by omega)]
            · intro a b hab
              simp only []
              rw [Function.update_of_ne (by omega)]
              exact hab)
        refine ⟨it', e1, e2, ?_⟩
        intro k hk1 hk2
        rcases Nat.lt_or_eq_of_le hk1 with hk | rfl
        · exact e3 k hk hk2
        · obtain ⟨f1, f2⟩ := iterNextLoop_frame e1
          have f1d := f1 d (by omega)
          have f1d1 := f1 (d + 1) le_rfl
          have f2d := f2 d (by omega)
          simp only [Function.update_self, Function.update_of_ne (show d ≠ d + 1 by omega)] at f1d f1d1 f2d
          refine ⟨i', b, b2, ?_, ?_, ?_, ?_, ?_, ?_⟩
          · rw [f1d1]; exact hgi
          · rw [f2d.2, Interval.mem_def]; omega
          · rw [f2d.2, f2d.1]; exact hidx
          · rw [f2d.1]; exact hb'
          · rw [f2d.1]; exact hg2
          · rw [f1d]; omega
      · -- same interval
        rename_i hstop
        obtain ⟨it', e1, e2, e3⟩ := ih (d := d + 1) (by omega)
          (it := { it with
                   off := Function.update it.off d (it.off d + 1)
                   idx := Function.update it.idx d (it.idx d + 1) })
          (List.getElem?_eq_some_iff.1 hi).1
          (by
            intro hdn
            refine ((hl (d + 1) (by omega) hdn).congr ?_ ?_ ?_).mono ?_
            · rfl
            · simp
            · simp
            · intro a b hab; exact ⟨hab.1, hab.2.le⟩)
          (by
            intro k hk1 hk2
            refine ((hl k (by omega) hk2).congr ?_ ?_ ?_).mono ?_
            · rfl
            · simp; rw [Function.update_of_ne (by omega)]
            · simp; rw [Function.update_of_ne (by omega)]
            · intro a b hab; exact hab)
        refine ⟨it', e1, e2, ?_⟩
        intro k hk1 hk2
        rcases Nat.lt_or_eq_of_le hk1 with hk | rfl
        · exact e3 k hk hk2
        · obtain ⟨f1, f2⟩ := iterNextLoop_frame e1
          have f1d := f1 d (by omega)
          have f1d1 := f1 (d + 1) le_rfl
          have f2d := f2 d (by omega)
          simp only [Function.update_self] at f1d f1d1 f2d
          refine ⟨i, b, b2, ?_, ?_, ?_, ?_, ?_, ?_⟩
          · rw [f1d1]; exact hi
          · rw [f2d.2, Interval.mem_def]; omega
          · rw [f2d.2, f2d.1]; push_cast; omega
          · rw [f2d.1]; exact hb'
          · rw [f2d.1]; exact hg2
          · rw [f1d]; omega
    · rw [if_neg hcb]
      refine ⟨it, rfl, ?_, ?_⟩
      · rcases Nat.lt_or_ge (d + 1) n with hdn | hdn
        · obtain ⟨i2, a2, b2, q1, _⟩ := hl (n - 1) (by omega) (by omega)
          rw [show n - 1 + 1 = n by omega] at q1
          exact (List.getElem?_eq_some_iff.1 q1).1
        · obtain rfl : d + 1 = n := by omega
          exact (List.getElem?_eq_some_iff.1 hi).1
      · intro k hk1 hk2
        rcases Nat.lt_or_eq_of_le hk1 with hk | rfl
        · exact hl k hk hk2
        · exact ⟨i, a, b, hi, hx, hj, ha, hb', hab.1, by omega⟩

theorem iterNext_spec {n : Nat} {L : LCA} (h : L.WF n) (hne : L.cells n ≠ []) {k : Nat} {it : LCAIter}
    (hit : IterAt L n k it) (hk : k + 1 < (L.cells 0).length) :
    ∃ it', iterNext L n it = some it' ∧ IterAt L n (k + 1) it' := by
  obtain ⟨rfl, h1, h2, h3⟩ := hit
  unfold iterNext
  rw [if_neg (by omega)]
  obtain ⟨it', e1, e2, e3⟩ := iterNextLoop_spec h hne (m := n) (d := 0) (by omega)
    (it := { it with cur := Function.update it.cur 0 (it.cur 0 + 1) })
    (by simpa using hk)
    (by
      intro hn
      refine ((h3 0 hn).congr ?_ rfl rfl).mono ?_
      · simp
      · intro a b hab; simp; omega)
    (by
      intro k hk1 hk2
      refine ((h3 k hk2).congr ?_ rfl rfl).mono ?_
      · simp
      · intro a b hab; simp only []; rw [Function.update_of_ne (by omega)]; exact hab)
  refine ⟨it', e1, ?_, hk, e2, fun d hd => e3 d (by omega) hd⟩
  have := (iterNextLoop_frame e1).1 0 le_rfl
  simpa using this

theorem iterNextLoop_end {n : Nat} {L : LCA} (h : L.WF n) (hne : L.cells n ≠ []) {m d : Nat} (hmd : m + d = n)
    {it : LCAIter} (hb : it.cur d = (L.cells d).length)
    (hw : d < n → LinkAt L it d fun a b => a < it.cur d ∧ it.cur d ≤ b)
    (hl : ∀ k, d < k → k < n → Link L it k) :
    ∃ it', iterNextLoop L m d it = some it' := by
  induction m generalizing d it with
  | zero => exact ⟨it, rfl⟩
  | succ m ih =>
    obtain ⟨i, a, b, hi, hx, hj, ha, hb', hab⟩ := hw (by omega)
    have hx' := Interval.mem_def.1 hx
    have hseg := h.seg d (by omega) hne
    have hcount := h.count d (by omega) hne
    have hlast := h.last d (by omega) hne
    rw [List.getLast?_eq_getElem?, hcount, Nat.add_sub_cancel] at hlast
    have hble := (hseg.2 _ _ _ ha hb').2.1
    have hcb : it.cur d = b := by omega
    simp only [iterNextLoop, hb']
    rw [if_pos hcb]
    simp only [hi, Function.update_self]
    have hoff : it.off d + 1 = totalSize (L.cells (d + 1)) := by
      have h1 := (List.getElem?_eq_some_iff.1 hb').1
      by_contra hcon
      have hl2 : it.off d + 1 + 1 < (L.offsets d).length := by omega
      have := (hseg.2 _ _ _ hb' (List.getElem?_eq_getElem hl2)).2
      have := (hseg.2 _ _ _ hb' (List.getElem?_eq_getElem hl2)).1
      omega
    have h1 := (List.getElem?_eq_some_iff.1 hi).1
    have h2 := totalSize_take_succ hi
    have h3 := indexFrom_at (h.index d (by omega)) hi
    have h4 := totalSize_take_le (l := L.cells (d + 1)) (it.cur (d + 1) + 1)
    unfold Interval.size at h2
    have hstop : it.idx d + 1 = i.stop := by omega
    rw [if_pos hstop]
    -- i is the last interval
    have hend : it.cur (d + 1) + 1 = (L.cells (d + 1)).length := by
      by_contra hcon
      have hlt : it.cur (d + 1) + 1 < (L.cells (d + 1)).length := by omega
      have hgi := List.getElem?_eq_getElem hlt
      generalize (L.cells (d + 1))[it.cur (d + 1) + 1] = i' at hgi
      have h5 := totalSize_take_succ hgi
      have h6 := totalSize_take_le (l := L.cells (d + 1)) (it.cur (d + 1) + 1 + 1)
      have hval : i'.start < i'.stop := by
        rcases Nat.lt_or_ge (d + 1) n with hdn | hdn
        · have hl1 := h.last (d + 1) hdn hne
          have hs1 := h.seg (d + 1) hdn hne
          obtain ⟨i2, a2, b2, q1, q2, q3, q4, q5, q6⟩ := hl (d + 1) (by omega) hdn
          rcases Nat.lt_or_ge (it.cur (d + 1) + 1) b2 with hlt | hge
          · exact ((hs1.2 _ _ _ q4 q5).2.2).valid (mem_slice.2 ⟨_, by omega, hlt, hgi⟩)
          · rw [List.getLast?_eq_getElem?] at hl1
            have q8 : it.off (d + 1) + 1 + 1 < (L.offsets (d + 1)).length := by
              have := (List.getElem?_eq_some_iff.1 q5).1
              by_contra hcon
              rw [show (L.offsets (d + 1)).length - 1 = it.off (d + 1) + 1 by omega, q5] at hl1
              simp only [Option.some.injEq] at hl1
              omega
            have q9 := List.getElem?_eq_getElem q8
            have := (hs1.2 _ _ _ q5 q9).1
            exact ((hs1.2 _ _ _ q5 q9).2.2).valid (mem_slice.2 ⟨_, by omega, by omega, hgi⟩)
        · obtain rfl : d + 1 = n := by omega
          exact h.top.valid (List.mem_of_getElem? hgi)
      unfold Interval.size at h5
      omega
    rw [List.getElem?_eq_none (by omega)]
    simp only []
    apply ih (d := d + 1) (by omega)
    · simpa using hend
    · intro hdn
      obtain ⟨i2, a2, b2, q1, q2, q3, q4, q5, q6⟩ := hl (d + 1) (by omega) hdn
      refine ⟨i2, a2, b2, ?_, ?_, ?_, ?_, ?_, ?_⟩ <;>
        simp [Function.update_of_ne, q1, q2, q3, q4, q5]
      omega
    · intro k hk1 hk2
      refine (hl k (by omega) hk2).congr ?_ ?_ ?_ |>.mono ?_
      · simp; rw [Function.update_of_ne (by omega)]
      · simp; rw [Function.update_of_ne (by omega)]
      · simp; rw [Function.update_of_ne (by omega)]
      · intro a b hab
        simp only []
        rw [Function.update_of_ne (by omega)]
        exact hab

theorem iterNext_last {n : Nat} {L : LCA} (h : L.WF n) (hne : L.cells n ≠ []) {k : Nat} {it : LCAIter}
    (hit : IterAt L n k it) (hk : k + 1 = (L.cells 0).length) :
    ∃ it', iterNext L n it = some it' ∧ it'.cur 0 = (L.cells 0).length := by
  obtain ⟨rfl, h1, h2, h3⟩ := hit
  unfold iterNext
  rw [if_neg (by omega)]
  obtain ⟨it', e1⟩ := iterNextLoop_end h hne (m := n) (d := 0) (by omega)
    (it := { it with cur := Function.update it.cur 0 (it.cur 0 + 1) })
    (by simpa using hk)
    (by
      intro hn
      refine ((h3 0 hn).congr ?_ rfl rfl).mono ?_
      · simp
      · intro a b hab; simp; omega)
    (by
      intro k hk1 hk2
      refine ((h3 k hk2).congr ?_ rfl rfl).mono ?_
      · simp
      · intro a b hab; simp only []; rw [Function.update_of_ne (by omega)]; exact hab)
  refine ⟨it', e1, ?_⟩
  have := (iterNextLoop_frame e1).1 0 le_rfl
  simp at this
  omega

/-! ### decrement -/

theorem iterPrevLoop_frame {L : LCA} {m d : Nat} {it it' : LCAIter} (h : iterPrevLoop L m d it = some it') :
    (∀ k ≤ d, it'.cur k = it.cur k) ∧ (∀ k < d, it'.off k = it.off k ∧ it'.idx k = it.idx k) := by
  induction m generalizing d it with
  | zero => simp only [iterPrevLoop, Option.some.injEq] at h; subst h; simp
  | succ m ih =>
    simp only [iterPrevLoop] at h
    split at h
    · simp at h
    · split at h
      · split at h
        · simp at h
        · split at h
          · simp at h
          · split at h
            · split at h
              · split at h
                · simp at h
                · obtain ⟨h1, h2⟩ := ih h
                  refine ⟨fun k hk => ?_, fun k hk => ?_⟩
                  · rw [h1 k (by omega)]; simp [Function.update_of_ne (show k ≠ d + 1 by omega)]
                  · have := h2 k (by omega)
                    rw [this.1, this.2]
                    simp [Function.update_of_ne (show k ≠ d by omega)]
              · obtain ⟨h1, h2⟩ := ih h
                refine ⟨fun k hk => h1 k (by omega), fun k hk => ?_⟩
                have := h2 k (by omega)
                rw [this.1, this.2]
                simp [Function.update_of_ne (show k ≠ d by omega)]
            · obtain ⟨h1, h2⟩ := ih h
              refine ⟨fun k hk => h1 k (by omega), fun k hk => ?_⟩
              have := h2 k (by omega)
              rw [this.1, this.2]
              simp [Function.update_of_ne (show k ≠ d by omega)]
      · simp only [Option.some.injEq] at h; subst h; simp

theorem iterPrevLoop_spec {n : Nat} {L : LCA} (h : L.WF n) (hne : L.cells n ≠ []) {m d : Nat} (hmd : m + d = n)
    {it : LCAIter} (hb : it.cur d < (L.cells d).length)
    (hw : d < n → LinkAt L it d fun a b => a ≤ it.cur d + 1 ∧ it.cur d < b)
    (hl : ∀ k, d < k → k < n → Link L it k) :
    ∃ it', iterPrevLoop L m d it = some it' ∧ it'.cur n < (L.cells n).length ∧ ∀ k, d ≤ k → k < n → Link L it' k := by
  induction m generalizing d it with
  | zero =>
    obtain rfl : d = n := by omega
    exact ⟨it, rfl, hb, fun k h1 h2 => by omega⟩
  | succ m ih =>
    obtain ⟨i, a, b, hi, hx, hj, ha, hb', hab⟩ := hw (by omega)
    have hx' := Interval.mem_def.1 hx
    have hseg := h.seg d (by omega) hne
    have hilt := (List.getElem?_eq_some_iff.1 hi).1
    simp only [iterPrevLoop, ha]
    by_cases hca : it.cur d + 1 = a
    · rw [if_pos hca]
      have hoff : it.off d ≠ 0 := by
        intro h0
        rw [h0, hseg.1] at ha
        simp only [Option.some.injEq] at ha
        omega
      rw [if_neg hoff]
      simp only [hi]
      have hl0 : it.off d - 1 < (L.offsets d).length := by
        have := (List.getElem?_eq_some_iff.1 ha).1; omega
      have hg0 := List.getElem?_eq_getElem hl0
      generalize (L.offsets d)[it.off d - 1] = a0 at hg0
      have ha0 := (hseg.2 _ _ _ hg0 (by rw [show it.off d - 1 + 1 = it.off d by omega]; exact ha)).1
      split
      · -- previous interval
        rename_i hstart
        have h2 := indexFrom_at (h.index d (by omega)) hi
        have hcur : it.cur (d + 1) ≠ 0 := by
          intro h0
          rw [h0] at h2
          simp [totalSize] at h2
          omega
        rw [if_pos hcur]
        have hplt : it.cur (d + 1) - 1 < (L.cells (d + 1)).length := by omega
        have hgi := List.getElem?_eq_getElem hplt
        generalize (L.cells (d + 1))[it.cur (d + 1) - 1] = i' at hgi
        simp only [hgi]
        have h1 := indexFrom_at (h.index d (by omega)) hgi
        have h3 := totalSize_take_succ hgi
        rw [show it.cur (d + 1) - 1 + 1 = it.cur (d + 1) by omega] at h3
        have hval : i'.start < i'.stop := by
          rcases Nat.lt_or_ge (d + 1) n with hdn | hdn
          · have hs1 := h.seg (d + 1) hdn hne
            obtain ⟨i2, a2, b2, q1, q2, q3, q4, q5, q6⟩ := hl (d + 1) (by omega) hdn
            rcases Nat.lt_or_ge a2 (it.cur (d + 1)) with hlt | hge
            · exact ((hs1.2 _ _ _ q4 q5).2.2).valid (mem_slice.2 ⟨_, by omega, by omega, hgi⟩)
            · have q8 : it.off (d + 1) ≠ 0 := by
                intro h0
                rw [h0, hs1.1] at q4
                simp only [Option.some.injEq] at q4
                omega
              have q9 : it.off (d + 1) - 1 < (L.offsets (d + 1)).length := by
                have := (List.getElem?_eq_some_iff.1 q4).1; omega
              have q10 := List.getElem?_eq_getElem q9
              have q11 : (L.offsets (d + 1))[it.off (d + 1) - 1 + 1]? = some a2 := by
                rw [show it.off (d + 1) - 1 + 1 = it.off (d + 1) by omega]; exact q4
              have := (hs1.2 _ _ _ q10 q11).1
              exact ((hs1.2 _ _ _ q10 q11).2.2).valid (mem_slice.2 ⟨_, by omega, by omega, hgi⟩)
          · obtain rfl : d + 1 = n := by omega
            exact h.top.valid (List.mem_of_getElem? hgi)
        unfold Interval.size at h3
        obtain ⟨it', e1, e2, e3⟩ := ih (d := d + 1) (by omega)
          (it := { cur := Function.update it.cur (d + 1) (it.cur (d + 1) - 1)
                   off := Function.update it.off d (it.off d - 1)
                   idx := Function.update it.idx d (i'.stop - 1) })
          (by simpa using hplt)
          (by
            intro hdn
            obtain ⟨i2, a2, b2, q1, q2, q3, q4, q5, q6⟩ := hl (d + 1) (by omega) hdn
            refine ⟨i2, a2, b2, ?_, ?_, ?_, ?_, ?_, ?_⟩ <;>
              simp [Function.update_of_ne, q1, q2, q3, q4, q5]
            omega)
          (by
            intro k hk1 hk2
            refine (hl k (by omega) hk2).congr ?_ ?_ ?_ |>.mono ?_
            · simp; rw [Function.update_of_ne (by omega)]
            · simp; rw [Function.update_of_ne (by omega)]
            · simp; rw [Function.update_of_ne (by omega)]
            · intro a b hab
              simp only []
              rw [Function.update_of_ne (by omega)]
              exact hab)
        refine ⟨it', e1, e2, ?_⟩
        intro k hk1 hk2
        rcases Nat.lt_or_eq_of_le hk1 with hk | rfl
        · exact e3 k hk hk2
        · obtain ⟨f1, f2⟩ := iterPrevLoop_frame e1
          have f1d := f1 d (by omega)
          have f1d1 := f1 (d + 1) le_rfl
          have f2d := f2 d (by omega)
          simp only [Function.update_self, Function.update_of_ne (show d ≠ d + 1 by omega)] at f1d f1d1 f2d
          refine ⟨i', a0, a, ?_, ?_, ?_, ?_, ?_, ?_⟩
          · rw [f1d1]; exact hgi
          · rw [f2d.2, Interval.mem_def]; omega
          · rw [f2d.2, f2d.1]; omega
          · rw [f2d.1]; exact hg0
          · rw [f2d.1, show it.off d - 1 + 1 = it.off d by omega]; exact ha
          · rw [f1d]; omega
      · -- same interval
        rename_i hstart
        obtain ⟨it', e1, e2, e3⟩ := ih (d := d + 1) (by omega)
          (it := { it with
                   off := Function.update it.off d (it.off d - 1)
                   idx := Function.update it.idx d (it.idx d - 1) })
          hilt
          (by
            intro hdn
            refine ((hl (d + 1) (by omega) hdn).congr ?_ ?_ ?_).mono ?_
            · rfl
            · simp
            · simp
            · intro a b hab; exact ⟨by simp; omega, hab.2⟩)
          (by
            intro k hk1 hk2
            refine ((hl k (by omega) hk2).congr ?_ ?_ ?_).mono ?_
            · rfl
            · simp; rw [Function.update_of_ne (by omega)]
            · simp; rw [Function.update_of_ne (by omega)]
            · intro a b hab; exact hab)
        refine ⟨it', e1, e2, ?_⟩
        intro k hk1 hk2
        rcases Nat.lt_or_eq_of_le hk1 with hk | rfl
        · exact e3 k hk hk2
        · obtain ⟨f1, f2⟩ := iterPrevLoop_frame e1
          have f1d := f1 d (by omega)
          have f1d1 := f1 (d + 1) le_rfl
          have f2d := f2 d (by omega)
          simp only [Function.update_self] at f1d f1d1 f2d
          refine ⟨i, a0, a, ?_, ?_, ?_, ?_, ?_, ?_⟩
          · rw [f1d1]; exact hi
          · rw [f2d.2, Interval.mem_def]; omega
          · rw [f2d.2, f2d.1]; omega
          · rw [f2d.1]; exact hg0
          · rw [f2d.1, show it.off d - 1 + 1 = it.off d by omega]; exact ha
          · rw [f1d]; omega
    · rw [if_neg hca]
      refine ⟨it, rfl, ?_, ?_⟩
      · rcases Nat.lt_or_ge (d + 1) n with hdn | hdn
        · obtain ⟨i2, a2, b2, q1, _⟩ := hl (n - 1) (by omega) (by omega)
          rw [show n - 1 + 1 = n by omega] at q1
          exact (List.getElem?_eq_some_iff.1 q1).1
        · obtain rfl : d + 1 = n := by omega
          exact hilt
      · intro k hk1 hk2
        rcases Nat.lt_or_eq_of_le hk1 with hk | rfl
        · exact hl k hk hk2
        · exact ⟨i, a, b, hi, hx, hj, ha, hb', by omega, hab.2⟩

/-- The state from which one can decrement: at a stored interval, or `end()`. -/
def IterCan (L : LCA) (n k : Nat) (it : LCAIter) : Prop :=
  it.cur 0 = k ∧ k ≤ (L.cells 0).length ∧
  (0 < n → LinkAt L it 0 fun a b => a ≤ it.cur 0 ∧ it.cur 0 ≤ b) ∧ ∀ d, 0 < d → d < n → Link L it d

theorem IterAt.can {L : LCA} {n k : Nat} {it : LCAIter} (h : IterAt L n k it) : IterCan L n k it := by
  refine ⟨h.1, h.2.1.le, fun hn => (h.2.2.2 0 hn).mono ?_, fun d _ hd => h.2.2.2 d hd⟩
  intro a b hab
  exact ⟨hab.1, hab.2.le⟩

theorem iterPrev_spec {n : Nat} {L : LCA} (h : L.WF n) (hne : L.cells n ≠ []) {k : Nat} {it : LCAIter}
    (hit : IterCan L n (k + 1) it) :
    ∃ it', iterPrev L n it = some it' ∧ IterAt L n k it' := by
  obtain ⟨h0, h1, h2, h3⟩ := hit
  unfold iterPrev
  rw [if_neg (by omega)]
  obtain ⟨it', e1, e2, e3⟩ := iterPrevLoop_spec h hne (m := n) (d := 0) (by omega)
    (it := { it with cur := Function.update it.cur 0 (it.cur 0 - 1) })
    (by simp; omega)
    (by
      intro hn
      refine ((h2 hn).congr ?_ rfl rfl).mono ?_
      · simp
      · intro a b hab; simp; omega)
    (by
      intro k hk1 hk2
      refine ((h3 k hk1 hk2).congr ?_ rfl rfl).mono ?_
      · simp
      · intro a b hab; simp only []; rw [Function.update_of_ne (by omega)]; exact hab)
  have := (iterPrevLoop_frame e1).1 0 le_rfl
  simp at this
  exact ⟨it', e1, by omega, by omega, e2, fun d hd => e3 d (by omega) hd⟩

/-! ### begin, end, dereference -/

/-- Every direction of a non-empty array has a first interval, which is valid. -/
theorem LCA.WF.head {n : Nat} {L : LCA} (h : L.WF n) (hne : L.cells n ≠ []) (e : Nat) :
    ∀ d, d + e = n → ∃ i, (L.cells d)[0]? = some i ∧ i.start < i.stop := by
  induction e with
  | zero =>
    intro d hd
    obtain rfl : d = n := by omega
    have hpos : 0 < (L.cells d).length := List.length_pos_iff.2 hne
    exact ⟨_, List.getElem?_eq_getElem hpos, h.top.valid (List.getElem_mem hpos)⟩
  | succ e ih =>
    intro d hd
    obtain ⟨i, hi, hv⟩ := ih (d + 1) (by omega)
    have hseg := h.seg d (by omega) hne
    have hcount := h.count d (by omega) hne
    have h1 := totalSize_take_succ hi
    have h2 := totalSize_take_le (l := L.cells (d + 1)) (0 + 1)
    unfold Interval.size at h1
    have g0 : 1 < (L.offsets d).length := by omega
    obtain ⟨q1, q2, q3⟩ := hseg.2 0 _ _ hseg.1 (List.getElem?_eq_getElem g0)
    have hlt : 0 < (L.cells d).length := by omega
    refine ⟨_, List.getElem?_eq_getElem hlt, q3.valid (mem_slice.2 ⟨0, le_rfl, q1, List.getElem?_eq_getElem hlt⟩)⟩

theorem LCA.WF.cells_ne_nil {n : Nat} {L : LCA} (h : L.WF n) (hne : L.cells n ≠ []) {d : Nat} (hd : d ≤ n) :
    L.cells d ≠ [] := by
  obtain ⟨i, hi, _⟩ := h.head hne (n - d) d (by omega)
  intro hnil
  rw [hnil] at hi
  simp at hi

/-- Every stored interval is valid. -/
theorem LCA.WF.valid {n : Nat} {L : LCA} (h : L.WF n) (hne : L.cells n ≠ []) {d : Nat} (hd : d ≤ n) {i : Interval}
    (hi : i ∈ L.cells d) : i.start < i.stop := by
  rcases Nat.lt_or_eq_of_le hd with hlt | rfl
  · obtain ⟨k, hk⟩ := List.mem_iff_getElem?.1 hi
    have hkl := (List.getElem?_eq_some_iff.1 hk).1
    have hseg := h.seg d hlt hne
    have hlast := h.last d hlt hne
    rw [List.getLast?_eq_getElem?] at hlast
    -- the row of k
    have key : ∀ s : Nat, (∃ v, (L.offsets d)[s]? = some v ∧ k < v) →
        ∃ j a b, (L.offsets d)[j]? = some a ∧ (L.offsets d)[j + 1]? = some b ∧ a ≤ k ∧ k < b := by
      intro s
      induction s with
      | zero =>
        rintro ⟨v, hv, hkv⟩
        rw [hseg.1] at hv
        simp only [Option.some.injEq] at hv
        omega
      | succ s ih =>
        rintro ⟨v, hv, hkv⟩
        have hs : s < (L.offsets d).length := by
          have := (List.getElem?_eq_some_iff.1 hv).1; omega
        by_cases hkw : k < (L.offsets d)[s]
        · exact ih ⟨_, List.getElem?_eq_getElem hs, hkw⟩
        · exact ⟨s, _, _, List.getElem?_eq_getElem hs, hv, by omega, hkv⟩
    obtain ⟨j, a, b, e1, e2, e3, e4⟩ := key _ ⟨_, hlast, hkl⟩
    exact ((hseg.2 j a b e1 e2).2.2).valid (mem_slice.2 ⟨k, e3, e4, hk⟩)
  · exact h.top.valid hi

theorem LCA.WF.offsets_len {n : Nat} {L : LCA} (h : L.WF n) (hne : L.cells n ≠ []) {d : Nat} (hd : d < n) :
    2 ≤ (L.offsets d).length := by
  obtain ⟨i, hi, hv⟩ := h.head hne (n - (d + 1)) (d + 1) (by omega)
  have hcount := h.count d hd hne
  have h1 := totalSize_take_succ hi
  have h2 := totalSize_take_le (l := L.cells (d + 1)) (0 + 1)
  unfold Interval.size at h1
  omega

theorem iterBegin_spec {n : Nat} {L : LCA} (h : L.WF n) (hne : L.cells n ≠ []) :
    ∃ it, iterBegin L n = some it ∧ IterAt L n 0 it := by
  have hpos : ∀ d, d ≤ n → 0 < (L.cells d).length := fun d hd => List.length_pos_iff.2 (h.cells_ne_nil hne hd)
  unfold iterBegin
  rw [if_pos]
  · refine ⟨_, rfl, rfl, hpos 0 (by omega), hpos n le_rfl, fun d hd => ?_⟩
    obtain ⟨i, hi, hv⟩ := h.head hne (n - (d + 1)) (d + 1) (by omega)
    have hseg := h.seg d hd hne
    have hlen := h.offsets_len hne hd
    have g1 : 0 + 1 < (L.offsets d).length := by omega
    have hs := hseg.2 0 _ _ hseg.1 (List.getElem?_eq_getElem g1)
    have h2 := indexFrom_at (h.index d hd) hi
    refine ⟨i, 0, _, hi, ?_, ?_, hseg.1, List.getElem?_eq_getElem g1, le_rfl, hs.1⟩
    · simp only [hi]; rw [Interval.mem_def]; omega
    · simp only [hi]; simpa [totalSize] using h2
  · rw [List.all_eq_true]
    intro d hd
    have := h.cells_ne_nil hne (d := d + 1) (by rw [List.mem_range] at hd; omega)
    simpa using this

theorem iterEnd_spec {n : Nat} {L : LCA} (h : L.WF n) (hne : L.cells n ≠ []) :
    ∃ it, iterEnd L n = some it ∧ IterCan L n (L.cells 0).length it := by
  have hpos : ∀ d, d ≤ n → 0 < (L.cells d).length := fun d hd => List.length_pos_iff.2 (h.cells_ne_nil hne hd)
  have hlink : ∀ d, d < n → ∃ i a b, (L.cells (d + 1))[(L.cells (d + 1)).length - 1]? = some i ∧ i.stop - 1 ∈ i ∧
      i.index + (i.stop - 1) = (((L.offsets d).length - 2 : Nat) : Int) ∧
      (L.offsets d)[(L.offsets d).length - 2]? = some a ∧
      (L.offsets d)[(L.offsets d).length - 2 + 1]? = some b ∧ a < b ∧ b = (L.cells d).length := by
    intro d hd
    have hp := hpos (d + 1) (by omega)
    have hlt : (L.cells (d + 1)).length - 1 < (L.cells (d + 1)).length := by omega
    have hg := List.getElem?_eq_getElem hlt
    generalize (L.cells (d + 1))[(L.cells (d + 1)).length - 1] = i at hg
    have hv := h.valid hne (by omega) (List.mem_of_getElem? hg)
    have hlen := h.offsets_len hne hd
    have hseg := h.seg d hd hne
    have hcount := h.count d hd hne
    have hlast := h.last d hd hne
    rw [List.getLast?_eq_getElem?] at hlast
    have h1 := indexFrom_at (h.index d hd) hg
    have h2 := totalSize_take_succ hg
    rw [show (L.cells (d + 1)).length - 1 + 1 = (L.cells (d + 1)).length by omega, List.take_length] at h2
    unfold Interval.size at h2
    have ga : (L.offsets d).length - 2 < (L.offsets d).length := by omega
    have gb : (L.offsets d)[(L.offsets d).length - 2 + 1]? = some (L.cells d).length := by
      rw [show (L.offsets d).length - 2 + 1 = (L.offsets d).length - 1 by omega]; exact hlast
    refine ⟨i, _, _, hg, ?_, ?_, List.getElem?_eq_getElem ga, gb, (hseg.2 _ _ _ (List.getElem?_eq_getElem ga) gb).1, rfl⟩
    · rw [Interval.mem_def]; omega
    · omega
  unfold iterEnd
  rw [if_pos]
  · refine ⟨_, rfl, rfl, le_rfl, fun hn => ?_, fun d hd0 hd => ?_⟩
    · obtain ⟨i, a, b, q1, q2, q3, q4, q5, q6, q7⟩ := hlink 0 hn
      refine ⟨i, a, b, by simpa using q1, by simpa only [q1] using q2, by simpa only [q1] using q3, q4, q5, ?_⟩
      simp; omega
    · obtain ⟨i, a, b, q1, q2, q3, q4, q5, q6, q7⟩ := hlink d hd
      have := hpos d (by omega)
      refine ⟨i, a, b, by simpa using q1, by simpa only [q1] using q2, by simpa only [q1] using q3, q4, q5, ?_⟩
      simp only []
      rw [if_neg (by omega)]
      omega
  · rw [Bool.and_eq_true, List.all_eq_true, List.all_eq_true]
    constructor
    · intro d hd
      have := h.cells_ne_nil hne (d := d) (by rw [List.mem_range] at hd; omega)
      simpa using this
    · intro d hd
      have := h.offsets_len hne (d := d) (by rwa [List.mem_range] at hd)
      simpa using this

theorem iterAt_chain {n : Nat} {L : LCA} {k : Nat} {it : LCAIter} (hit : IterAt L n k it) (m : Nat) :
    ∀ d, m + d = n → Chain L m d (it.cur d) (((List.range m).map fun t => it.idx (d + t)).reverse) := by
  induction m with
  | zero =>
    intro d hd
    obtain rfl : d = n := by omega
    exact ⟨rfl, hit.2.2.1⟩
  | succ m ih =>
    intro d hd
    obtain ⟨i, a, b, q1, q2, q3, q4, q5, q6, q7⟩ := hit.2.2.2 d (by omega)
    refine ⟨it.cur (d + 1), i, it.idx d, _, a, b, ?_, ih (d + 1) (by omega), q1, q2, by omega, ?_, ?_, q6, q7⟩
    · rw [List.range_succ_eq_map, List.map_cons, List.reverse_cons, List.map_map]
      congr 2
      apply List.map_congr_left
      intro t _
      simp only [Function.comp]
      congr 1
      omega
    · rw [q3]; simpa using q4
    · rw [q3]; simpa using q5

/-- The iterator at position `k` shows the row number `k`. -/
theorem iterDeref_spec {n : Nat} {L : LCA} (h : L.WF n) (hne : L.cells n ≠ []) {k : Nat} {it : LCAIter}
    (hit : IterAt L n k it) : iterDeref L n it = (L.rows n)[k]? ∧ k < (L.rows n).length := by
  have hc := iterAt_chain hit n 0 (by omega)
  simp only [Nat.zero_add] at hc
  rw [hit.1] at hc
  have hg := List.getElem?_eq_getElem hit.2.1
  have := rows_getElem? h hne hg hc
  refine ⟨?_, by rw [rows_length h]; exact hit.2.1⟩
  unfold iterDeref iterIndex
  rw [hit.1, hg, this]

end Samurai

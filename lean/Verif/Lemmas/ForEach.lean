import Verif.Lemmas.Iterator

namespace Samurai

/-- Same storage up to the content of the x-intervals. -/
def SameShape (L' L : LCA) : Prop :=
  L'.offsets = L.offsets ∧ (∀ d, L'.cells (d + 1) = L.cells (d + 1)) ∧ (L'.cells 0).length = (L.cells 0).length

theorem iterNextLoop_shape {L' L : LCA} (h : SameShape L' L) (m d : Nat) (it : LCAIter) :
    iterNextLoop L' m d it = iterNextLoop L m d it := by
  induction m generalizing d it with
  | zero => rfl
  | succ m ih =>
    simp only [iterNextLoop, h.1, h.2.1, ih]

theorem iterNext_shape {L' L : LCA} (h : SameShape L' L) (n : Nat) (it : LCAIter) :
    iterNext L' n it = iterNext L n it := by
  unfold iterNext
  rw [h.2.2, iterNextLoop_shape h]

theorem iterEnd_shape {L' L : LCA} (h : SameShape L' L) {n : Nat} {e : LCAIter} (he : iterEnd L n = some e) :
    ∃ e', iterEnd L' n = some e' ∧ e'.cur 0 = (L.cells 0).length := by
  unfold iterEnd at he ⊢
  split at he
  · rename_i hc
    rw [if_pos]
    · exact ⟨_, rfl, by simpa using h.2.2⟩
    · rw [Bool.and_eq_true, List.all_eq_true, List.all_eq_true] at hc ⊢
      refine ⟨fun d hd => ?_, fun d hd => ?_⟩
      · have := hc.1 d hd
        cases d with
        | zero =>
          cases h0 : L.cells 0 with
          | nil => rw [h0] at this; simp at this
          | cons a l =>
            cases h1 : L'.cells 0 with
            | nil => have := h.2.2; rw [h0, h1] at this; simp at this
            | cons => rfl
        | succ d => rw [h.2.1]; exact this
      · rw [h.1]; exact hc.2 d hd
  · simp at he

/-- The effect of visiting a list of rows: the new intervals and the final state. -/
def visit {σ : Type} (f : σ → List Int → Interval → σ × Interval) :
    List (List Int × Interval) → σ → List Interval × σ
  | [], s => ([], s)
  | e :: l, s =>
    let r := f s e.1 e.2
    let t := visit f l r.1
    (r.2 :: t.1, t.2)

theorem visit_length {σ : Type} (f : σ → List Int → Interval → σ × Interval) (l : List (List Int × Interval)) (s : σ) :
    (visit f l s).1.length = l.length := by
  induction l generalizing s with
  | nil => rfl
  | cons e l ih => simp [visit, ih]

theorem forEachLoop_spec {σ : Type} {n : Nat} {L : LCA} (h : L.WF n) (hne : L.cells n ≠ [])
    (f : σ → List Int → Interval → σ × Interval) (m : Nat) :
    ∀ k it s (pre : List Interval) (L' : LCA), m + k = (L.cells 0).length →
      (k < (L.cells 0).length → IterAt L n k it) → it.cur 0 = k → pre.length = k →
      L'.level = L.level → L'.offsets = L.offsets → (∀ d, L'.cells (d + 1) = L.cells (d + 1)) →
      L'.cells 0 = pre ++ (L.cells 0).drop k →
      ∃ L'', forEachLoop n f (m + 1) L' it s = some (L'', (visit f ((L.rows n).drop k) s).2) ∧
        L''.level = L.level ∧ L''.offsets = L.offsets ∧ (∀ d, L''.cells (d + 1) = L.cells (d + 1)) ∧
        L''.cells 0 = pre ++ (visit f ((L.rows n).drop k) s).1 := by
  have hrl := rows_length h
  obtain ⟨e, he, _⟩ := iterEnd_spec h hne
  induction m with
  | zero =>
    intro k it s pre L' hk hit hcur hpre hlev hoff hcells hx
    have hshape : SameShape L' L := ⟨hoff, hcells, by rw [hx]; simp; omega⟩
    obtain ⟨e', he', hcur'⟩ := iterEnd_shape hshape he
    have heq : iterEqual it e' = true := by simp [iterEqual]; omega
    simp only [forEachLoop, he', heq, if_true]
    have hd : (L.rows n).drop k = [] := List.drop_eq_nil_of_le (by omega)
    refine ⟨L', by rw [hd]; rfl, hlev, hoff, hcells, ?_⟩
    rw [hd, hx, List.drop_eq_nil_of_le (by omega)]
    rfl
  | succ m ih =>
    intro k it s pre L' hk hit hcur hpre hlev hoff hcells hx
    have hklt : k < (L.cells 0).length := by omega
    have hat := hit hklt
    have hshape : SameShape L' L := ⟨hoff, hcells, by rw [hx]; simp; omega⟩
    obtain ⟨e', he', hcur'⟩ := iterEnd_shape hshape he
    obtain ⟨hder, hkr⟩ := iterDeref_spec h hne hat
    rw [List.getElem?_eq_getElem hkr] at hder
    generalize hrow : (L.rows n)[k] = row at hder
    have hdrop : (L.rows n).drop k = row :: (L.rows n).drop (k + 1) := by
      rw [List.drop_eq_getElem_cons hkr, hrow]
    have hxk : (L.cells 0)[k]? = some row.2 := by
      unfold iterDeref at hder
      rw [hcur] at hder
      split at hder
      · simp at hder
      · rename_i i hi
        simp only [Option.some.injEq] at hder
        rw [← hder, hi]
    have hder' : iterDeref L' n it = some row := by
      unfold iterDeref at hder ⊢
      have : (L'.cells 0)[it.cur 0]? = (L.cells 0)[it.cur 0]? := by
        rw [hx, List.getElem?_append_right (by omega), List.getElem?_drop]
        congr 1; omega
      rw [this]; exact hder
    have hset : (L'.setX (it.cur 0) (f s row.1 row.2).2).cells 0
        = (pre ++ [(f s row.1 row.2).2]) ++ (L.cells 0).drop (k + 1) := by
      unfold LCA.setX
      simp only [Function.update_self]
      rw [hx, hcur, List.set_append_right _ _ (by omega), hpre, Nat.sub_self,
        List.drop_eq_getElem_cons hklt, List.set_cons_zero]
      simp
    have hcells' : ∀ d, (L'.setX (it.cur 0) (f s row.1 row.2).2).cells (d + 1) = L.cells (d + 1) := by
      intro d
      unfold LCA.setX
      simp [hcells]
    have hshape' : SameShape (L'.setX (it.cur 0) (f s row.1 row.2).2) L :=
      ⟨hoff, hcells', by rw [hset]; simp; omega⟩
    have hnext : ∃ it', iterNext L n it = some it' ∧ (k + 1 < (L.cells 0).length → IterAt L n (k + 1) it') ∧
        it'.cur 0 = k + 1 := by
      rcases Nat.lt_or_ge (k + 1) (L.cells 0).length with hlt | hge
      · obtain ⟨it', q1, q2⟩ := iterNext_spec h hne hat hlt
        exact ⟨it', q1, fun _ => q2, q2.1⟩
      · obtain ⟨it', q1, q2⟩ := iterNext_last h hne hat (by omega)
        exact ⟨it', q1, fun _ => by omega, by omega⟩
    obtain ⟨it', q1, q2, q3⟩ := hnext
    obtain ⟨L'', r1, r2, r3, r4, r5⟩ := ih (k + 1) it' (f s row.1 row.2).1 (pre ++ [(f s row.1 row.2).2])
      (L'.setX (it.cur 0) (f s row.1 row.2).2) (by omega) q2 q3 (by simp; omega) hlev hoff hcells' hset
    refine ⟨L'', ?_, r2, r3, r4, ?_⟩
    · rw [hdrop]
      rw [show m + 1 + 1 = (m + 1) + 1 from rfl, forEachLoop]
      have hneq : iterEqual it e' = false := by simp [iterEqual]; omega
      simp only [he', hneq, Bool.false_eq_true, if_false, hder', iterNext_shape hshape', q1]
      rw [r1]
      rfl
    · rw [r5, hdrop]
      simp [visit]

theorem forEachInterval_spec {σ : Type} {n : Nat} {L : LCA} (h : L.WF n)
    (f : σ → List Int → Interval → σ × Interval) (s : σ) :
    ∃ L'', forEachInterval n f L s = some (L'', (visit f (L.rows n) s).2) ∧
      L''.level = L.level ∧ L''.offsets = L.offsets ∧ (∀ d, L''.cells (d + 1) = L.cells (d + 1)) ∧
      L''.cells 0 = (visit f (L.rows n) s).1 := by
  unfold forEachInterval
  by_cases hne : L.cells n = []
  · have h0 := (h.empty hne).1 0 (by omega)
    rw [h0, if_pos (by rfl), rows_empty hne]
    exact ⟨L, rfl, rfl, rfl, fun _ => rfl, h0⟩
  · have h0 := h.cells_ne_nil hne (d := 0) (by omega)
    rw [if_neg (by simpa using h0)]
    obtain ⟨it, hb, hit⟩ := iterBegin_spec h hne
    rw [hb]
    have := forEachLoop_spec h hne f (L.cells 0).length 0 it s [] L (by omega) (fun _ => hit) hit.1 rfl rfl rfl
      (fun _ => rfl) (by simp)
    simpa using this

theorem forEachCell_spec {σ : Type} {n : Nat} {L : LCA} (h : L.WF n) (hne : L.cells n ≠ [])
    (f : σ → List Int → Int → σ) (s : σ) :
    forEachCell n f L s = some ((L.numbered n).foldl (fun s e => f s e.1 e.2) s) := by
  unfold forEachCell
  obtain ⟨it, hb, hit⟩ := iterBegin_spec h hne
  rw [hb]
  obtain ⟨L'', q, -⟩ := forEachLoop_spec h hne (fun s yz i => (forEachX f yz i s, i)) (L.cells 0).length 0 it s [] L
    (by omega) (fun _ => hit) hit.1 rfl rfl rfl (fun _ => rfl) (by simp)
  simp only [q, Option.map_some, List.drop_zero]
  congr 1
  unfold LCA.numbered
  clear q
  generalize L.rows n = l
  induction l generalizing s with
  | nil => rfl
  | cons e l ih =>
    simp only [visit, List.flatMap_cons, List.foldl_append]
    rw [ih]
    congr 1
    unfold forEachX coords Interval.size
    rw [List.map_map, List.foldl_map]
    rfl

end Samurai

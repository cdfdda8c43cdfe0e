import Verif.Lemmas.MRMesh
import Verif.Props.Arrays

namespace Samurai

/-! ### the x-interval of a cell -/

/-- The interval of a row holding an x coordinate is unique. -/
theorem row_unique {n : Nat} {L : LCA} (h : L.WF n) {yz : List Int} {i j : Interval} (hi : (yz, i) ∈ L.rows n)
    (hj : (yz, j) ∈ L.rows n) {x : Int} (hxi : x ∈ i) (hxj : x ∈ j) : i = j := by
  have hs := rows_sorted h
  obtain ⟨a, ha⟩ := List.mem_iff_getElem?.1 hi
  obtain ⟨b, hb⟩ := List.mem_iff_getElem?.1 hj
  obtain ⟨ha1, ha2⟩ := List.getElem?_eq_some_iff.1 ha
  obtain ⟨hb1, hb2⟩ := List.getElem?_eq_some_iff.1 hb
  rw [List.pairwise_iff_getElem] at hs
  rcases lt_trichotomy a b with hab | hab | hab
  · have := hs a b ha1 hb1 hab x (by rw [ha2]; exact hxi) x (by rw [hb2]; exact hxj)
    rw [ha2, hb2] at this
    exact absurd this (List.lt_irrefl _)
  · subst hab
    rw [ha2] at hb2
    exact (Prod.mk.inj hb2).2
  · have := hs b a hb1 ha1 hab x (by rw [hb2]; exact hxj) x (by rw [ha2]; exact hxi)
    rw [ha2, hb2] at this
    exact absurd this (List.lt_irrefl _)

theorem getInterval_row {n : Nat} {L : LCA} (h : L.WF n) {yz : List Int} {i : Interval} (hi : (yz, i) ∈ L.rows n)
    {x : Int} (hx : x ∈ i) : getInterval L n (yz ++ [x]) = some i := by
  obtain ⟨k, j, h1, h2, h3⟩ := C09_find_present n L h yz x ((mem_iff_rows h _).2 ⟨_, hi, x, hx, rfl⟩)
  have hj := row_unique h hi (List.mem_of_getElem? h2) hx h3
  subst hj
  have hx : (L.cells 0)[k]? = some i := by
    rw [← rows_map_snd h, List.getElem?_map, h2]; rfl
  unfold getInterval
  rw [h1]
  simp only []
  rw [if_neg (by omega)]
  simpa using hx

theorem canonical_gap {l : List Interval} (h : Canonical l) {i j : Interval} (hi : i ∈ l) (hj : j ∈ l) :
    i.stop ≠ j.start := by
  obtain ⟨b, hb⟩ := canonical_iff.1 h
  clear h
  have low : ∀ {l : List Interval} {b : Int}, CanonFrom b l → ∀ k ∈ l, b < k.start ∧ k.start < k.stop := by
    intro l
    induction l with
    | nil => simp
    | cons a l ih =>
      intro b hb k hk
      rcases List.mem_cons.1 hk with rfl | hk
      · exact ⟨hb.1, hb.2.1⟩
      · have := ih hb.2.2 k hk
        have := hb.1
        have := hb.2.1
        omega
  induction l generalizing b with
  | nil => simp at hi
  | cons a l ih =>
    rcases List.mem_cons.1 hi with rfl | hi' <;> rcases List.mem_cons.1 hj with rfl | hj'
    · have := hb.2.1; omega
    · have := low hb.2.2 j hj'; omega
    · have := low hb.2.2 i hi'
      have := hb.2.1
      omega
    · exact ih hi' hj' _ hb.2.2

theorem canonical_same {l : List Interval} (h : Canonical l) {i j : Interval} (hi : i ∈ l) (hj : j ∈ l) {c : Int}
    (hci : c ∈ i) (hcj : c ∈ j) : i = j := by
  obtain ⟨b, hb⟩ := canonical_iff.1 h
  clear h
  have low : ∀ {l : List Interval} {b : Int}, CanonFrom b l → ∀ k ∈ l, b < k.start := by
    intro l
    induction l with
    | nil => simp
    | cons a l ih =>
      intro b hb k hk
      rcases List.mem_cons.1 hk with rfl | hk
      · exact hb.1
      · have := ih hb.2.2 k hk
        have := hb.1
        have := hb.2.1
        omega
  have m1 := Interval.mem_def.1 hci
  have m2 := Interval.mem_def.1 hcj
  induction l generalizing b with
  | nil => simp at hi
  | cons a l ih =>
    rcases List.mem_cons.1 hi with rfl | hi' <;> rcases List.mem_cons.1 hj with rfl | hj'
    · rfl
    · have := low hb.2.2 j hj'; omega
    · have := low hb.2.2 i hi'; omega
    · exact ih hi' hj' _ hb.2.2

theorem rowList_gap {L : LCA} (d : Nat) : ∀ lo hi, RowOK L d lo hi → ∀ e ∈ rowList L d lo hi, ∀ e' ∈ rowList L d lo hi,
    e.1 = e'.1 → e.2.stop ≠ e'.2.start := by
  induction d with
  | zero =>
    intro lo hi h e he e' he' _
    obtain ⟨i, hi', rfl⟩ := List.mem_map.1 he
    obtain ⟨j, hj', rfl⟩ := List.mem_map.1 he'
    exact canonical_gap h.2.2 hi' hj'
  | succ d ih =>
    intro lo hi h e he e' he' heq
    obtain ⟨i, hi', he⟩ := List.mem_flatMap.1 he
    obtain ⟨c, hc, he⟩ := List.mem_flatMap.1 he
    obtain ⟨j, hj', he'⟩ := List.mem_flatMap.1 he'
    obtain ⟨c', hc', he'⟩ := List.mem_flatMap.1 he'
    obtain ⟨_, a, b, e1, e2, e3⟩ := h.2.2.2 i hi' c (coords_mem.1 hc)
    obtain ⟨_, a', b', e1', e2', e3'⟩ := h.2.2.2 j hj' c' (coords_mem.1 hc')
    rw [e1, e2] at he
    rw [e1', e2'] at he'
    obtain ⟨f, hf, rfl⟩ := List.mem_map.1 he
    obtain ⟨f', hf', rfl⟩ := List.mem_map.1 he'
    simp only [List.cons.injEq] at heq
    obtain ⟨rfl, heq⟩ := heq
    obtain rfl := canonical_same h.2.2.1 hi' hj' (coords_mem.1 hc) (coords_mem.1 hc')
    rw [e1] at e1'
    rw [e2] at e2'
    cases e1'; cases e2'
    exact ih a b e3 f hf f' hf' heq

/-- Two x-intervals of the same row do not touch. -/
theorem rows_gap {n : Nat} {L : LCA} (h : L.WF n) {yz : List Int} {i j : Interval} (hi : (yz, i) ∈ L.rows n)
    (hj : (yz, j) ∈ L.rows n) : i.stop ≠ j.start := by
  have hne : L.cells n ≠ [] := by
    intro h0
    rw [rows_empty h0] at hi
    simp at hi
  exact rowList_gap n 0 _ (h.rowOK hne) _ hi _ hj rfl

/-- The cells of an interval which all belong to an array are in the same x-interval of this array. -/
theorem same_interval {n : Nat} {L : LCA} (h : L.WF n) {yz : List Int} {i : Interval}
    (hi : ∀ x ∈ i, L.Mem n (yz ++ [x])) (hv : i.start < i.stop) :
    ∃ j, (yz, j) ∈ L.rows n ∧ ∀ x ∈ i, x ∈ j := by
  have row : ∀ x ∈ i, ∃ j, (yz, j) ∈ L.rows n ∧ x ∈ j := by
    intro x hx
    obtain ⟨e, he, y, hy, heq⟩ := (mem_iff_rows h _).1 (hi x hx)
    obtain ⟨h1, rfl⟩ := snoc_inj heq
    exact ⟨e.2, by rw [h1]; exact he, hy⟩
  obtain ⟨j, hj, hsj⟩ := row i.start (Interval.mem_def.2 ⟨le_rfl, hv⟩)
  refine ⟨j, hj, ?_⟩
  have key : ∀ k : Nat, i.start + k < i.stop → i.start + k ∈ j := by
    intro k
    induction k with
    | zero => intro _; simpa using hsj
    | succ k ih =>
      intro hk
      push_cast at hk ⊢
      have hm := Interval.mem_def.1 (ih (by omega))
      obtain ⟨j', hj', hx'⟩ := row (i.start + (k + 1)) (Interval.mem_def.2 ⟨by omega, by omega⟩)
      have hm' := Interval.mem_def.1 hx'
      by_cases hlt : i.start + (k + 1) < j.stop
      · exact Interval.mem_def.2 ⟨by omega, by omega⟩
      · exfalso
        by_cases hst : j'.start = j.stop
        · exact rows_gap h hj hj' hst.symm
        · have hin : i.start + k ∈ j' := Interval.mem_def.2 ⟨by omega, by omega⟩
          have := row_unique h hj hj' (Interval.mem_def.2 hm) hin
          subst this
          omega
  intro x hx
  have hx := Interval.mem_def.1 hx
  have := key (x - i.start).toNat (by omega)
  rwa [show i.start + ((x - i.start).toNat : Int) = x by omega] at this

/-! ### rows after renumbering -/

theorem chain_congr {L L' : LCA} (ho : L'.offsets = L.offsets) (hc : ∀ d, L'.cells (d + 1) = L.cells (d + 1))
    (h0 : (L'.cells 0).length = (L.cells 0).length) (m : Nat) : ∀ d k p, Chain L m d k p → Chain L' m d k p := by
  induction m with
  | zero =>
    intro d k p hp
    refine ⟨hp.1, ?_⟩
    cases d with
    | zero => rw [h0]; exact hp.2
    | succ d => rw [hc]; exact hp.2
  | succ m ih =>
    rintro d k p ⟨k', i, c, p', a, b, rfl, hp, g1, g2, g3, g4, g5, g6⟩
    exact ⟨k', i, c, p', a, b, rfl, ih _ _ _ hp, by rw [hc]; exact g1, g2, g3, by rw [ho]; exact g4, by rw [ho]; exact g5, g6⟩

theorem rows_reindex {n : Nat} {L L' : LCA} (h : L.WF n) (h' : L'.WF n) (ho : L'.offsets = L.offsets)
    (hc : ∀ d, L'.cells (d + 1) = L.cells (d + 1)) (g : List Int × Interval → Interval)
    (hg : L'.cells 0 = (L.rows n).map g) : L'.rows n = (L.rows n).map fun e => (e.1, g e) := by
  have hlen : (L'.cells 0).length = (L.cells 0).length := by rw [hg, List.length_map, rows_length h]
  by_cases hne : L.rows n = []
  · have : L'.cells 0 = [] := by rw [hg, hne]; rfl
    have h2 : L'.rows n = [] := by
      have := rows_length h'
      rw [‹L'.cells 0 = []›] at this
      exact List.eq_nil_of_length_eq_zero this
    rw [hne, h2]; rfl
  · have hcn : L.cells n ≠ [] := fun h0 => hne (rows_empty h0)
    have hcn' : L'.cells n ≠ [] := by
      intro h0
      have := rows_length h'
      rw [rows_empty h0, hlen, ← rows_length h] at this
      exact hne (List.eq_nil_of_length_eq_zero this.symm)
    apply List.ext_getElem?
    intro k
    rw [List.getElem?_map]
    by_cases hk : k < (L.rows n).length
    · have hget := List.getElem?_eq_getElem hk
      have hch := ((rows_good h hcn).2 k _ hget).2
      rw [Nat.zero_add] at hch
      have hk' : (L'.cells 0)[k]? = some (g (L.rows n)[k]) := by rw [hg, List.getElem?_map, hget]; rfl
      rw [rows_getElem? h' hcn' hk' (chain_congr ho hc hlen n 0 k _ hch), hget]
      rfl
    · rw [List.getElem?_eq_none (by rw [rows_length h', hlen, ← rows_length h]; omega), List.getElem?_eq_none (by omega)]
      rfl

theorem visit_pure {σ : Type} (f : σ → List Int → Interval → σ × Interval) (s : σ) (g : List Int × Interval → Interval)
    (l : List (List Int × Interval)) (hf : ∀ e ∈ l, f s e.1 e.2 = (s, g e)) : visit f l s = (l.map g, s) := by
  induction l with
  | nil => rfl
  | cons e l ih =>
    simp only [visit, hf e List.mem_cons_self, ih fun e' he' => hf e' (List.mem_cons_of_mem _ he'), List.map_cons]

theorem forEachLevels_pure {σ : Type} {n : Nat} (f : σ → Nat → List Int → Interval → σ × Interval) (s : σ)
    (g : Nat → List Int × Interval → Interval) (ls : List Nat) (hnd : ls.Nodup) :
    ∀ c : CA, (∀ l ∈ ls, (c.lca l).WF n) → (∀ l ∈ ls, ∀ e ∈ (c.lca l).rows n, f s l e.1 e.2 = (s, g l e)) →
    ∃ c', ls.foldlM (forEachStep n f) (c, s) = some (c', s) ∧ c'.maxSize = c.maxSize ∧
      (∀ l, l ∉ ls → c'.lca l = c.lca l) ∧
      ∀ l ∈ ls, (c'.lca l).level = (c.lca l).level ∧ (c'.lca l).offsets = (c.lca l).offsets ∧
        (∀ d, (c'.lca l).cells (d + 1) = (c.lca l).cells (d + 1)) ∧ (c'.lca l).cells 0 = ((c.lca l).rows n).map (g l) := by
  induction ls with
  | nil => intro c _ _; exact ⟨c, rfl, rfl, fun _ _ => rfl, by simp⟩
  | cons l ls ih =>
    intro c hwf hf
    have hlnot : l ∉ ls := (List.nodup_cons.1 hnd).1
    obtain ⟨L', h1, h2, h3, h4, h5⟩ := forEachInterval_spec (hwf l List.mem_cons_self) (fun s => f s l) s
    rw [visit_pure _ s (g l) _ (hf l List.mem_cons_self)] at h1 h5
    have hne : ∀ k ∈ ls, k ≠ l := fun k hk h => hlnot (h ▸ hk)
    obtain ⟨c', q1, q2, q3, q4⟩ := ih (List.nodup_cons.1 hnd).2 { c with lca := Function.update c.lca l L' }
      (by
        intro k hk
        simp only [Function.update_of_ne (hne k hk)]
        exact hwf k (List.mem_cons_of_mem _ hk))
      (by
        intro k hk
        simp only [Function.update_of_ne (hne k hk)]
        exact hf k (List.mem_cons_of_mem _ hk))
    refine ⟨c', ?_, q2, ?_, ?_⟩
    · rw [List.foldlM_cons]
      simp only [forEachStep, h1]
      exact q1
    · intro k hk
      rw [List.mem_cons, not_or] at hk
      rw [q3 k hk.2]
      simp only [Function.update_of_ne hk.1]
    · intro k hk
      rcases List.mem_cons.1 hk with rfl | hk
      · rw [q3 k hlnot]
        simp only [Function.update_self]
        exact ⟨h2, h3, h4, h5⟩
      · have := q4 k hk
        simp only [Function.update_of_ne (hne k hk)] at this
        exact this

theorem forEachCA_pure {σ : Type} {n : Nat} (f : σ → Nat → List Int → Interval → σ × Interval) (s : σ)
    (g : Nat → List Int × Interval → Interval) {c : CA} (h : c.WF n)
    (hf : ∀ l ≤ c.maxSize, ∀ e ∈ (c.lca l).rows n, f s l e.1 e.2 = (s, g l e)) :
    ∃ c', forEachIntervalCA n f c s = some (c', s) ∧ c'.maxSize = c.maxSize ∧
      ∀ l ≤ c.maxSize, (c'.lca l).level = (c.lca l).level ∧ (c'.lca l).offsets = (c.lca l).offsets ∧
        (∀ d, (c'.lca l).cells (d + 1) = (c.lca l).cells (d + 1)) ∧ (c'.lca l).cells 0 = ((c.lca l).rows n).map (g l) := by
  obtain ⟨c', h1, h2, h3, h4⟩ := forEachLevels_pure f s g c.levels c.levels_nodup c
    (fun l hl => h l (CA.levels_le hl)) (fun l hl => hf l (CA.levels_le hl))
  refine ⟨c', h1, h2, fun l hl => ?_⟩
  by_cases hm : l ∈ c.levels
  · exact h4 l hm
  · rw [h3 l hm]
    have he : (c.lca l).isEmpty = true := by
      unfold CA.levels at hm
      rw [List.mem_range'_1] at hm
      rcases c.level_cases with ⟨g1, g2, g3⟩ | ⟨g1, g2, -, -, g3, g4⟩
      · exact g1 l hl
      · by_cases hlt : l < c.minLevel
        · exact g3 l hlt
        · exact g4 l (by omega) hl
    have hr := (rows_eq_nil_iff (h l hl)).2 he
    refine ⟨rfl, rfl, fun _ => rfl, ?_⟩
    rw [hr, ← rows_map_snd (h l hl), hr]
    rfl

/-- Renumbering a sub-mesh of the reference mesh. -/
theorem renumberSub_spec {n : Nat} {ref c : CA} (hr : ref.WF n) (hc : c.WF n)
    (hsub : ∀ l p, c.Mem n l p → ref.Mem n l p) :
    ∃ c', renumberSub n ref c = some c' ∧ c'.maxSize = c.maxSize ∧ c'.WF n ∧ (∀ l ≤ c.maxSize, (c'.lca l).level = (c.lca l).level) ∧
      (∀ l p, c'.Mem n l p ↔ c.Mem n l p) ∧
      ∀ l yz x, c.Mem n l (yz ++ [x]) → getIndex (c'.lca l) n yz x = getIndex (ref.lca l) n yz x := by
  let g : Nat → List Int × Interval → Interval := fun l e =>
    match getInterval (ref.lca l) n (e.1 ++ [e.2.start]) with
    | none => e.2
    | some r => { e.2 with index := r.index }
  have hin : ∀ l ≤ c.maxSize, ∀ e ∈ (c.lca l).rows n, ∃ j, (e.1, j) ∈ (ref.lca l).rows n ∧ (∀ x ∈ e.2, x ∈ j) ∧
      l ≤ ref.maxSize ∧ getInterval (ref.lca l) n (e.1 ++ [e.2.start]) = some j := by
    intro l hl e he
    have hv := (rows_valid (hc l hl) he).2
    have hmem : ∀ x ∈ e.2, ref.Mem n l (e.1 ++ [x]) := fun x hx =>
      hsub l _ ⟨hl, (mem_iff_rows (hc l hl) _).2 ⟨e, he, x, hx, rfl⟩⟩
    have hs : e.2.start ∈ e.2 := Interval.mem_def.2 ⟨le_rfl, hv⟩
    have hlr := (hmem _ hs).1
    obtain ⟨j, h1, h2⟩ := same_interval (hr l hlr) (fun x hx => (hmem x hx).2) hv
    exact ⟨j, h1, h2, hlr, getInterval_row (hr l hlr) h1 (h2 _ hs)⟩
  obtain ⟨c', h1, h2, h3⟩ := forEachCA_pure (renumberInterval n ref) true g hc (by
    intro l hl e he
    obtain ⟨j, _, _, _, hj⟩ := hin l hl e he
    simp only [g, renumberInterval, hj])
  have hgb : ∀ l e, (g l e).start = e.2.start ∧ (g l e).stop = e.2.stop := by
    intro l e
    simp only [g]
    split <;> exact ⟨rfl, rfl⟩
  have hre : ∀ l ≤ c.maxSize, (c'.lca l).WF n ∧ ∀ p, (c'.lca l).Mem n p ↔ (c.lca l).Mem n p := by
    intro l hl
    obtain ⟨_, a2, a3, a4⟩ := h3 l hl
    refine reindex (hc l hl) a2 a3 ?_
    rw [a4, ← rows_map_snd (hc l hl)]
    unfold bounds
    rw [List.map_map, List.map_map]
    apply List.map_congr_left
    intro e _
    simp only [Function.comp, hgb]
  have hrows : ∀ l ≤ c.maxSize, (c'.lca l).rows n = ((c.lca l).rows n).map fun e => (e.1, g l e) := by
    intro l hl
    obtain ⟨_, a2, a3, a4⟩ := h3 l hl
    exact rows_reindex (hc l hl) (hre l hl).1 a2 a3 (g l) a4
  refine ⟨c', ?_, h2, fun l hl => (hre l (by omega)).1, fun l hl => (h3 l hl).1, fun l p => ?_, ?_⟩
  · unfold renumberSub
    rw [h1]
  · unfold CA.Mem
    rw [h2]
    constructor
    · rintro ⟨hl, hp⟩; exact ⟨hl, ((hre l hl).2 p).1 hp⟩
    · rintro ⟨hl, hp⟩; exact ⟨hl, ((hre l hl).2 p).2 hp⟩
  · rintro l yz x ⟨hl, hp⟩
    obtain ⟨e, he, y, hy, heq⟩ := (mem_iff_rows (hc l hl) _).1 hp
    obtain ⟨h4, rfl⟩ := snoc_inj heq
    obtain ⟨j, e1, e2, e3, e4⟩ := hin l hl e he
    have hg : g l e = { e.2 with index := j.index } := by simp only [g, e4]
    have hrow : (yz, g l e) ∈ (c'.lca l).rows n := by
      rw [hrows l hl, h4]
      exact List.mem_map.2 ⟨e, he, rfl⟩
    unfold getIndex
    rw [getInterval_row (hre l hl).1 hrow (by rw [hg]; exact hy), h4, getInterval_row (hr l e3) e1 (e2 _ hy), hg]
    rfl

end Samurai

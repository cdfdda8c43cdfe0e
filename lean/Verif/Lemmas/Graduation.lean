import Verif.Spec.Graduation
import Verif.Lemmas.AdaptStep
import Mathlib.Algebra.BigOperators.Group.Finset.Basic
import Mathlib.Algebra.Order.BigOperators.Group.Finset

namespace Samurai

/-! ### the sets -/

theorem gradSet_spec {n M g : Nat} {c : CA} {level below : Nat} {s : Nat → Int} (hw : c.WF n) (hl : c.Leveled) (hM : M ≤ c.maxSize)
    {D : Int} (hD0 : 0 ≤ D) (hD : D + ((g : Int) + 2) * 2 ^ M + 2 < INT_MAX) (hb : c.Below n M D) (hs : ∀ d, s d ≤ (g : Int))
    (h1 : level ≤ M) (h2 : below < level) :
    ∃ calls, gradSet n c level below s = some calls ∧ OkCalls n calls ∧
      ∀ p, Covers calls p ↔ c.Mem n below p ∧ ∃ q, c.Mem n level q ∧ Anc (level - below) p (shiftPoint s n q) := by
  have use : ∀ {l : Nat}, l ≤ M → (c.lca l).WF n ∧ (c.lca l).level ≤ M ∧ (c.lca l).BelowAt n M D := by
    intro l h
    refine ⟨hw l (by omega), by rw [hl l (by omega)]; exact h, fun p hp x hx => ?_⟩
    rw [hl l (by omega)]
    exact hb l p ⟨by omega, hp⟩ x hx
  have ha : (Expr.op .inter (.leaf (.translate (.mesh (c.lca level)) s)) (.leaf (.mesh (c.lca below)))).Admissible n :=
    usableT_admissible hD0 hD ⟨⟨_, s, Or.inr ⟨rfl, hs⟩, use h1⟩, ⟨_, fun _ => 0, Or.inl rfl, use (by omega)⟩⟩
  have hf : (Expr.op .inter (.leaf (.translate (.mesh (c.lca level)) s)) (.leaf (.mesh (c.lca below)))).finest = level := by
    show Nat.max (c.lca level).level (c.lca below).level = level
    rw [hl level (by omega), hl below (by omega)]
    exact Nat.max_eq_left (by omega)
  obtain ⟨calls, g1, g2, g3⟩ := runSet_ok ha (ref := below) (by omega)
  refine ⟨calls, g1, g2, fun p => (g3 p).trans ?_⟩
  show AtLevel (c.lca level).level below _ p ∧ AtLevel (c.lca below).level below _ p ↔ _
  rw [hl level (by omega), hl below (by omega), atLevel_same, and_comm]
  refine and_congr ⟨fun h => ⟨by omega, h⟩, fun h => h.2⟩ ?_
  unfold AtLevel
  rw [if_neg (by omega)]
  constructor
  · rintro ⟨q, hq, ha⟩
    refine ⟨subPoint s n q, ⟨by omega, hq⟩, ?_⟩
    rw [sub_shift]
    exact ha
  · rintro ⟨q, hq, ha⟩
    refine ⟨shiftPoint s n q, ?_, ha⟩
    show (c.lca level).Mem n (subPoint s n (shiftPoint s n q))
    rw [shift_sub]
    exact hq.2

/-! ### the tags -/

theorem gradMark_fold {n : Nat} {c : CA} (hw : c.WF n) (hnd : c.NumbersDiffer n) {below : Nat} (hbl : below ≤ c.maxSize) :
    ∀ (calls : List Call) (tag : Int → Bool), OkCalls n calls → (∀ p, Covers calls p → c.Mem n below p) →
    ∃ tag', calls.foldlM (gradMark n c below) tag = some tag' ∧
      ∀ l p v, (l, p, v) ∈ c.numbered n → (tag' v = true ↔ tag v = true ∨ (l = below ∧ Covers calls p)) := by
  intro calls
  induction calls with
  | nil =>
    intro tag _ _
    exact ⟨tag, rfl, fun l p v _ => by simp [Covers]⟩
  | cons k calls ih =>
    intro tag hok hcov
    obtain ⟨o1, o2, _, _⟩ := hok k List.mem_cons_self
    have hk : ∀ x ∈ k.2, (c.lca below).Mem n (k.1 ++ [x]) := fun x hx => (hcov _ ⟨k, List.mem_cons_self, x, hx, rfl⟩).2
    obtain ⟨j, hj, hjx⟩ := same_interval (hw below hbl) hk o2
    have hs : k.2.start ∈ k.2 := Interval.mem_def.2 ⟨le_rfl, o2⟩
    have hget := getInterval_row (hw below hbl) hj (hjx _ hs)
    obtain ⟨tag', h1, h2⟩ := ih (fun v => if j.index + k.2.start ≤ v ∧ v < j.index + k.2.stop then true else tag v)
      (fun e he => hok e (List.mem_cons_of_mem _ he))
      fun p hp => hcov p (by obtain ⟨e, he, r⟩ := hp; exact ⟨e, List.mem_cons_of_mem _ he, r⟩)
    refine ⟨tag', ?_, fun l p v hv => ?_⟩
    · rw [List.foldlM_cons]
      unfold gradMark
      rw [hget]
      exact h1
    · rw [h2 l p v hv]
      have key : (j.index + k.2.start ≤ v ∧ v < j.index + k.2.stop) ↔ (l = below ∧ ∃ x ∈ k.2, p = k.1 ++ [x]) := by
        constructor
        · intro hr
          have hx : v - j.index ∈ k.2 := Interval.mem_def.2 ⟨by omega, by omega⟩
          have hin : (below, k.1 ++ [v - j.index], v) ∈ c.numbered n :=
            CA.mem_numbered.2 ⟨k.1, j, v - j.index, CA.mem_rows.2 ⟨hbl, hj⟩, hjx _ hx, rfl, by omega⟩
          have := List.inj_on_of_nodup_map hnd hv hin rfl
          simp only [Prod.mk.injEq] at this
          exact ⟨this.1, _, hx, this.2.1⟩
        · rintro ⟨rfl, x, hx, rfl⟩
          have hin : (l, k.1 ++ [x], j.index + x) ∈ c.numbered n :=
            CA.mem_numbered.2 ⟨k.1, j, x, CA.mem_rows.2 ⟨hbl, hj⟩, hjx _ hx, rfl, rfl⟩
          have := CA.number_unique hw hv hin
          have hx := Interval.mem_def.1 hx
          omega
      have hcc : Covers (k :: calls) p ↔ (∃ x ∈ k.2, p = k.1 ++ [x]) ∨ Covers calls p := by
        unfold Covers
        simp
      rw [hcc]
      by_cases hc : j.index + k.2.start ≤ v ∧ v < j.index + k.2.stop
      · rw [if_pos hc]
        obtain ⟨h3, h4⟩ := key.1 hc
        exact ⟨fun _ => Or.inr ⟨h3, Or.inl h4⟩, fun _ => Or.inl rfl⟩
      · rw [if_neg hc]
        refine or_congr Iff.rfl ⟨fun h => ⟨h.1, Or.inr h.2⟩, fun h => ⟨h.1, h.2.resolve_left fun h3 => hc (key.2 ⟨h.1, h3⟩)⟩⟩

/-- The cell `(l, p)` is tagged: a leaf at least two levels finer, moved by a vector of the stencil, falls in it. -/
def GradTagged (n : Nat) (stencil : List (Nat → Int)) (c : CA) (l : Nat) (p : List Int) : Prop :=
  ∃ l' q s, s ∈ stencil ∧ l + 2 ≤ l' ∧ c.Mem n l' q ∧ Anc (l' - l) p (shiftPoint s n q)

theorem mem_gradTurns {minL maxL : Nat} {stencil : List (Nat → Int)} {level below : Nat} {s : Nat → Int} :
    (level, below, s) ∈ gradTurns minL maxL stencil ↔ minL ≤ below ∧ below + 2 ≤ level ∧ level ≤ maxL ∧ s ∈ stencil := by
  unfold gradTurns
  simp only [List.mem_flatMap, List.mem_range'_1, List.mem_map, Prod.mk.injEq]
  constructor
  · rintro ⟨a, ha, b, hb, t, ht, rfl, rfl, rfl⟩
    exact ⟨by omega, by omega, by omega, ht⟩
  · rintro ⟨h1, h2, h3, h4⟩
    exact ⟨level, by omega, below, by omega, s, h4, rfl, rfl, rfl⟩

/-- What the loop keeps: an array of levels `minL .. maxL`, in the range of `int`, with different numbers. -/
structure GradInv (n minL maxL g : Nat) (c : CA) : Prop where
  wf : c.WF n
  leveled : c.Leveled
  size : maxL ≤ c.maxSize
  between : c.Between n minL maxL
  range : ∃ D : Int, 0 ≤ D ∧ D + ((g : Int) + 2) * 2 ^ maxL + 2 < INT_MAX ∧ c.Below n maxL D
  numbers : c.NumbersDiffer n

theorem gradTags_spec {n minL maxL g : Nat} {stencil : List (Nat → Int)} {c : CA} (h : GradInv n minL maxL g c)
    (hs : ∀ s ∈ stencil, ∀ d, s d ≤ (g : Int)) :
    ∃ tag, gradTags n minL maxL stencil c = some tag ∧
      ∀ l p v, (l, p, v) ∈ c.numbered n → (tag v = true ↔ GradTagged n stencil c l p) := by
  obtain ⟨D, d1, d2, d3⟩ := h.range
  have key : ∀ (turns : List (Nat × Nat × (Nat → Int))) (tag : Int → Bool),
      (∀ t ∈ turns, t.1 ≤ maxL ∧ t.2.1 < t.1 ∧ t.2.2 ∈ stencil) →
      ∃ tag', turns.foldlM (gradTurn n c) tag = some tag' ∧ ∀ l p v, (l, p, v) ∈ c.numbered n →
        (tag' v = true ↔ tag v = true ∨ ∃ t ∈ turns, l = t.2.1 ∧ ∃ q, c.Mem n t.1 q ∧ Anc (t.1 - t.2.1) p (shiftPoint t.2.2 n q)) := by
    intro turns
    induction turns with
    | nil => intro tag _; exact ⟨tag, rfl, fun l p v _ => by simp⟩
    | cons t turns ih =>
      intro tag ht
      obtain ⟨t1, t2, t3⟩ := ht t List.mem_cons_self
      obtain ⟨calls, g1, g2, g3⟩ := gradSet_spec (s := t.2.2) h.wf h.leveled h.size d1 d2 d3 (hs _ t3) t1 t2
      obtain ⟨tag1, m1, m2⟩ := gradMark_fold h.wf h.numbers (below := t.2.1) (by have := h.size; omega) calls tag g2
        fun p hp => ((g3 p).1 hp).1
      obtain ⟨tag', i1, i2⟩ := ih tag1 fun t ht' => ht t (List.mem_cons_of_mem _ ht')
      refine ⟨tag', ?_, fun l p v hv => ?_⟩
      · rw [List.foldlM_cons]
        unfold gradTurn
        rw [g1]
        simp only []
        rw [m1]
        exact i1
      · rw [i2 l p v hv, m2 l p v hv, g3, or_assoc]
        refine or_congr Iff.rfl ?_
        simp only [List.mem_cons, exists_eq_or_imp]
        refine or_congr ?_ Iff.rfl
        constructor
        · rintro ⟨rfl, _, h3⟩; exact ⟨rfl, h3⟩
        · rintro ⟨rfl, h3⟩; exact ⟨rfl, CA.mem_of_numbered h.wf hv, h3⟩
  obtain ⟨tag, h1, h2⟩ := key (gradTurns minL maxL stencil) (fun _ => false) (by
    rintro ⟨a, b, s⟩ ht
    obtain ⟨h1, h2, h3, h4⟩ := mem_gradTurns.1 ht
    exact ⟨h3, by simp only; omega, h4⟩)
  refine ⟨tag, h1, fun l p v hv => ?_⟩
  rw [h2 l p v hv]
  constructor
  · rintro (h0 | ⟨⟨a, b, s⟩, ht, rfl, q, hq, ha⟩)
    · simp at h0
    · obtain ⟨g1, g2, g3, g4⟩ := mem_gradTurns.1 ht
      exact ⟨a, q, s, g4, g2, hq, ha⟩
  · rintro ⟨l', q, s, g1, g2, g3, g4⟩
    exact Or.inr ⟨(l', l, s), mem_gradTurns.2 ⟨(h.between _ _ (CA.mem_of_numbered h.wf hv)).1, g2, (h.between _ _ g3).2, g1⟩, rfl, q, g3, g4⟩

/-! ### the new mesh -/

/-- The array is made from a cell list and numbered, as by the constructor. -/
def CA.Built (n : Nat) (c : CA) : Prop :=
  ∃ (h : List (Nat × CellCall)) (cl : CL n), (∀ e ∈ h, e.1 ≤ c.maxSize ∧ e.2.idx.length = n ∧ e.2.Valid ∧ e.2.PlainCall) ∧
    runLevelCalls n c.maxSize h = some cl ∧ updateIndexCA n (CA.ofCL cl) = some c

theorem CA.Built.spec {n : Nat} {c : CA} (hb : c.Built n) : c.WF n ∧ c.Leveled ∧ c.NumbersDiffer n := by
  obtain ⟨h, cl, h1, h2, h3⟩ := hb
  obtain ⟨a1, a2, a3, _⟩ := ofCL_spec h2 (fun e he => (h1 e he).1) (fun e he => (h1 e he).2.1) fun e he => (h1 e he).2.2.1
  obtain ⟨c', g1, _, g3, _, _, g6⟩ := C08_levels n _ a2
  rw [h3] at g1
  obtain rfl := Option.some.inj g1
  refine ⟨g3, updateIndexCA_leveled a2 a3 h3, ?_⟩
  unfold CA.NumbersDiffer
  rw [g6]
  refine (List.nodup_map_iff ?_).2 List.nodup_range
  intro a b hab
  simpa using hab

theorem built_unique {n : Nat} {c c' : CA} (h : c.Built n) (h' : c'.Built n) (hm : c.maxSize = c'.maxSize)
    (hmem : ∀ l p, c.Mem n l p ↔ c'.Mem n l p) : c = c' := by
  obtain ⟨k, cl, h1, h2, h3⟩ := h
  obtain ⟨k', cl', h1', h2', h3'⟩ := h'
  obtain ⟨a1, a2, a3, a4⟩ := ofCL_spec h2 (fun e he => (h1 e he).1) (fun e he => (h1 e he).2.1) fun e he => (h1 e he).2.2.1
  obtain ⟨b1, b2, b3, b4⟩ := ofCL_spec h2' (fun e he => (h1' e he).1) (fun e he => (h1' e he).2.1) fun e he => (h1' e he).2.2.1
  obtain ⟨d, g1, g2, _, g4, _⟩ := C08_levels n _ a2
  rw [h3] at g1
  obtain rfl := Option.some.inj g1
  obtain ⟨d, g1', g2', _, g4', _⟩ := C08_levels n _ b2
  rw [h3'] at g1'
  obtain rfl := Option.some.inj g1'
  obtain ⟨e, r1, r2, r3⟩ := runLevelCalls_spec (n := n) (maxSize := c.maxSize) (h := k) fun e he => (h1 e he).1
  rw [h2] at r1
  obtain rfl := Option.some.inj r1
  obtain ⟨e, r1', r2', r3'⟩ := runLevelCalls_spec (n := n) (maxSize := c'.maxSize) (h := k') fun e he => (h1' e he).1
  rw [h2'] at r1'
  obtain rfl := Option.some.inj r1'
  have hcl : cl.lcl = cl'.lcl := by
    funext l
    rw [r3, r3']
    obtain ⟨x1, x2, x3, x4, x5⟩ := runCellCalls_spec n l (callsAt l k) fun e he => (h1 _ (mem_callsAt.1 he)).2.1
    obtain ⟨y1, y2, y3, y4, y5⟩ := runCellCalls_spec n l (callsAt l k') fun e he => (h1' _ (mem_callsAt.1 he)).2.1
    have hg : (runCellCalls n l (callsAt l k)).grid = (runCellCalls n l (callsAt l k')).grid := by
      refine grid_unique x1 y1 (x3 fun e he => (h1 _ (mem_callsAt.1 he)).2.2.1) (y3 fun e he => (h1' _ (mem_callsAt.1 he)).2.2.1)
        (x4 fun e he => (h1 _ (mem_callsAt.1 he)).2.2.2) (y4 fun e he => (h1' _ (mem_callsAt.1 he)).2.2.2) (fun p => ?_)
      rw [x2, y2]
      simp only [mem_callsAt]
      rw [← a4, ← b4]
      by_cases hl : l ≤ c.maxSize
      · have := hmem l p
        rw [g4, g4'] at this
        unfold CA.Mem at this
        rw [a1, b1, ← hm] at this
        simpa [hl] using this
      · rw [a4, b4]
        constructor
        · rintro ⟨e, he, _⟩; exact absurd (h1 _ he).1 hl
        · rintro ⟨e, he, _⟩; exact absurd (h1' _ he).1 (by rw [← hm]; exact hl)
    cases hx : runCellCalls n l (callsAt l k)
    cases hy : runCellCalls n l (callsAt l k')
    rw [hx] at hg x5; rw [hy] at hg y5
    simp only [] at hg x5 y5
    rw [hg, x5, y5]
  have : cl = cl' := by
    cases cl; cases cl'
    simp only [] at hcl r2 r2'
    subst hcl
    rw [r2, r2', hm]
  rw [this, h3'] at h3
  exact (Option.some.inj h3).symm

theorem gradCell_adds {tagged : Bool} {l : Nat} {yz : List Int} {x : Int} {l' : Nat} {p : List Int} :
    (∃ c, (l', c) ∈ gradCell tagged l yz x ∧ c.Adds p) ↔
      (tagged = true ∧ l' = l + 1 ∧ Anc 1 (yz ++ [x]) p) ∨ (tagged = false ∧ l' = l ∧ p = yz ++ [x]) := by
  unfold gradCell
  cases tagged with
  | false =>
    simp only [Bool.false_eq_true, if_false, false_and, false_or, true_and, List.mem_singleton, Prod.mk.injEq]
    constructor
    · rintro ⟨c, ⟨rfl, rfl⟩, ha⟩; exact ⟨rfl, ha⟩
    · rintro ⟨rfl, h⟩; exact ⟨_, ⟨rfl, rfl⟩, h⟩
  | true =>
    simp only [if_true, true_and, Bool.true_eq_false, false_and, or_false]
    constructor
    · rintro ⟨c, hc, ha⟩
      obtain ⟨st, hst, heq⟩ := List.mem_map.1 hc
      simp only [Prod.mk.injEq] at heq
      obtain ⟨rfl, rfl⟩ := heq
      exact ⟨rfl, child_adds.1 ⟨st, hst, ha⟩⟩
    · rintro ⟨rfl, h⟩
      obtain ⟨st, hst, ha⟩ := child_adds.2 h
      exact ⟨_, List.mem_map.2 ⟨st, hst, rfl⟩, ha⟩

theorem gradCell_ok {tagged : Bool} {n l m : Nat} {yz : List Int} {x : Int} (hy : yz.length = n) (hl : l ≤ m)
    (ht : tagged = true → l < m) :
    ∀ e ∈ gradCell tagged l yz x, e.1 ≤ m ∧ e.2.idx.length = n ∧ e.2.Valid ∧ e.2.PlainCall := by
  intro e he
  unfold gradCell at he
  split at he
  · rename_i h
    obtain ⟨st, hst, rfl⟩ := List.mem_map.1 he
    have h1 := (mem_nestedIndices.1 hst).1
    have := ht h
    refine ⟨by simp only; omega, by simp [CellCall.idx, h1, hy], ?_, ?_⟩
    · show 2 * x < 2 * x + 2
      omega
    · simp [CellCall.PlainCall, Interval.mk']
  · rw [List.mem_singleton] at he
    subst he
    exact ⟨hl, hy, trivial, trivial⟩

theorem gradMesh_spec {n : Nat} {tag : Int → Bool} {c : CA} (hw : c.WF n)
    {T : Nat → List Int → Prop} (hT : ∀ l p v, (l, p, v) ∈ c.numbered n → (tag v = true ↔ T l p))
    (hlt : ∀ l p, c.Mem n l p → T l p → l < c.maxSize) :
    ∃ new, gradMesh n tag c = some new ∧ new.maxSize = c.maxSize ∧ new.Built n ∧
      ∀ l p, new.Mem n l p ↔ (c.Mem n l p ∧ ¬ T l p) ∨ ∃ l0 q, l = l0 + 1 ∧ c.Mem n l0 q ∧ T l0 q ∧ Anc 1 q p := by
  have hcol := collectCalls_spec hw (gradInterval tag)
  have hmem : ∀ e, e ∈ ((c.rows n).flatMap fun e => gradInterval tag e.1 e.2.1 e.2.2) ↔
      ∃ l yz i x, (l, yz, i) ∈ c.rows n ∧ x ∈ i ∧ e ∈ gradCell (tag (i.index + x)) l yz x := by
    intro e
    constructor
    · intro he
      obtain ⟨⟨l, yz, i⟩, hr, he⟩ := List.mem_flatMap.1 he
      obtain ⟨k, hk, he⟩ := List.mem_flatMap.1 he
      rw [List.mem_range] at hk
      refine ⟨l, yz, i, i.start + k, hr, Interval.mem_def.2 ⟨by omega, by simp only at hk; omega⟩, ?_⟩
      rw [show i.index + (i.start + (k : Int)) = i.start + i.index + (k : Int) by ring]
      exact he
    · rintro ⟨l, yz, i, x, hr, hx, he⟩
      have hx := Interval.mem_def.1 hx
      refine List.mem_flatMap.2 ⟨(l, yz, i), hr, List.mem_flatMap.2 ⟨(x - i.start).toNat, List.mem_range.2 (by simp only; omega), ?_⟩⟩
      simp only
      rw [show i.start + i.index + ((x - i.start).toNat : Int) = i.index + x by omega,
        show i.start + ((x - i.start).toNat : Int) = x by omega]
      exact he
  have hok : ∀ e ∈ ((c.rows n).flatMap fun e => gradInterval tag e.1 e.2.1 e.2.2),
      e.1 ≤ c.maxSize ∧ e.2.idx.length = n ∧ e.2.Valid ∧ e.2.PlainCall := by
    intro e he
    obtain ⟨l, yz, i, x, hr, hx, he⟩ := (hmem e).1 he
    obtain ⟨g1, g2⟩ := CA.mem_rows.1 hr
    have hnum : (l, yz ++ [x], i.index + x) ∈ c.numbered n := CA.mem_numbered.2 ⟨yz, i, x, hr, hx, rfl, rfl⟩
    exact gradCell_ok (rows_valid (hw l g1) g2).1 g1 (fun ht => hlt _ _ (CA.mem_of_numbered hw hnum) ((hT _ _ _ hnum).1 ht)) e he
  obtain ⟨cl, h1, h2, h3⟩ := runLevelCalls_spec (n := n) fun e he => (hok e he).1
  obtain ⟨a1, a2, a3, a4⟩ := ofCL_spec h1 (fun e he => (hok e he).1) (fun e he => (hok e he).2.1) fun e he => (hok e he).2.2.1
  obtain ⟨new, g1, g2, g3, g4, _⟩ := C08_levels n _ a2
  have hm : new.maxSize = c.maxSize := g2.trans a1
  refine ⟨new, ?_, hm, ⟨_, cl, by rw [hm]; exact hok, by rw [hm]; exact h1, g1⟩, fun l p => ?_⟩
  · unfold gradMesh
    rw [hcol]
    simp only []
    unfold runLevelCalls at h1
    rw [h1]
    exact g1
  · have hmm : new.Mem n l p ↔ ∃ k, (l, k) ∈ ((c.rows n).flatMap fun e => gradInterval tag e.1 e.2.1 e.2.2) ∧ k.Adds p := by
      rw [g4]
      unfold CA.Mem
      rw [a4, a1]
      exact ⟨fun h => h.2, fun h => ⟨by obtain ⟨k, hk, _⟩ := h; exact (hok _ hk).1, h⟩⟩
    rw [hmm]
    constructor
    · rintro ⟨k, hk, ha⟩
      obtain ⟨l', yz, i, x, hr, hx, he⟩ := (hmem _).1 hk
      have hnum : (l', yz ++ [x], i.index + x) ∈ c.numbered n := CA.mem_numbered.2 ⟨yz, i, x, hr, hx, rfl, rfl⟩
      rcases gradCell_adds.1 ⟨k, he, ha⟩ with ⟨t1, rfl, t3⟩ | ⟨t1, rfl, rfl⟩
      · exact Or.inr ⟨l', _, rfl, CA.mem_of_numbered hw hnum, (hT _ _ _ hnum).1 t1, t3⟩
      · refine Or.inl ⟨CA.mem_of_numbered hw hnum, fun ht => ?_⟩
        rw [(hT _ _ _ hnum).2 ht] at t1
        simp at t1
    · intro h
      obtain ⟨l', q, hq, hcase⟩ : ∃ l' q, c.Mem n l' q ∧ ((T l' q ∧ l = l' + 1 ∧ Anc 1 q p) ∨ (¬ T l' q ∧ l = l' ∧ p = q)) := by
        rcases h with ⟨h1, h2⟩ | ⟨l0, q, rfl, h2, h3, h4⟩
        · exact ⟨l, p, h1, Or.inr ⟨h2, rfl, rfl⟩⟩
        · exact ⟨l0, q, h2, Or.inl ⟨h3, rfl, h4⟩⟩
      obtain ⟨v, hv⟩ := CA.exists_number hw hq
      obtain ⟨yz, i, x, hr, hx, rfl, rfl⟩ := CA.mem_numbered.1 hv
      have hb : (tag (i.index + x) = true ∧ l = l' + 1 ∧ Anc 1 (yz ++ [x]) p) ∨ (tag (i.index + x) = false ∧ l = l' ∧ p = yz ++ [x]) := by
        rcases hcase with ⟨c1, c2, c3⟩ | ⟨c1, c2, c3⟩
        · exact Or.inl ⟨(hT _ _ _ hv).2 c1, c2, c3⟩
        · refine Or.inr ⟨?_, c2, c3⟩
          rw [← Bool.not_eq_true, hT _ _ _ hv]
          exact c1
      obtain ⟨k, hk, ha⟩ := gradCell_adds.2 hb
      exact ⟨k, (hmem _).2 ⟨l', yz, i, x, hr, hx, hk⟩, ha⟩

end Samurai

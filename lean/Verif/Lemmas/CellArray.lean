import Verif.Lemmas.Numbering
import Verif.Spec.CellArray

namespace Samurai

theorem isEmpty_iff {n : Nat} {L : LCA} (h : L.WF n) : L.isEmpty = true ↔ L.cells n = [] := by
  unfold LCA.isEmpty
  rw [List.isEmpty_iff]
  constructor
  · intro h0
    by_contra hne
    exact h.cells_ne_nil hne (d := 0) (by omega) h0
  · intro h0
    exact (h.empty h0).1 0 (by omega)

theorem rows_eq_nil_iff {n : Nat} {L : LCA} (h : L.WF n) : L.rows n = [] ↔ L.isEmpty = true := by
  constructor
  · intro hr
    unfold LCA.isEmpty
    rw [← rows_map_snd h, hr]; rfl
  · intro he
    exact rows_empty ((isEmpty_iff h).1 he)

theorem find?_range {n : Nat} {p : Nat → Bool} {k : Nat} :
    (List.range n).find? p = some k ↔ k < n ∧ p k = true ∧ ∀ j < k, p j = false := by
  rw [List.find?_range_eq_some]
  simp only [List.mem_range]
  constructor
  · rintro ⟨h1, h2, h3⟩
    exact ⟨h2, h1, fun j hj => by simpa using h3 j hj⟩
  · rintro ⟨h1, h2, h3⟩
    exact ⟨h2, h1, fun j hj => by simpa using h3 j hj⟩

theorem find?_range_none {n : Nat} {p : Nat → Bool} :
    (List.range n).find? p = none ↔ ∀ j < n, p j = false := by
  rw [List.find?_eq_none]
  simp

theorem find?_reverse_range {n : Nat} {p : Nat → Bool} {k : Nat} :
    ((List.range n).reverse).find? p = some k → k < n ∧ p k = true ∧ ∀ j, k < j → j < n → p j = false := by
  induction n with
  | zero => simp
  | succ n ih =>
    rw [List.range_succ, List.reverse_append, List.reverse_singleton, List.singleton_append, List.find?_cons]
    split
    · rename_i hp
      intro h
      simp only [Option.some.injEq] at h
      subst h
      exact ⟨by omega, hp, fun j h1 h2 => by omega⟩
    · rename_i hp
      intro h
      obtain ⟨h1, h2, h3⟩ := ih h
      refine ⟨by omega, h2, fun j hj1 hj2 => ?_⟩
      rcases Nat.lt_or_eq_of_le (Nat.lt_succ_iff.1 hj2) with hlt | rfl
      · exact h3 j hj1 hlt
      · exact hp

/-- The range of levels: all levels outside it are empty. -/
theorem CA.level_cases (c : CA) :
    ((∀ l ≤ c.maxSize, (c.lca l).isEmpty = true) ∧ c.minLevel = c.maxSize + 1 ∧ c.maxLevel = 0) ∨
    (c.minLevel ≤ c.maxLevel ∧ c.maxLevel ≤ c.maxSize ∧ (c.lca c.minLevel).isEmpty = false ∧
      (c.lca c.maxLevel).isEmpty = false ∧ (∀ l < c.minLevel, (c.lca l).isEmpty = true) ∧
      ∀ l, c.maxLevel < l → l ≤ c.maxSize → (c.lca l).isEmpty = true) := by
  cases hmin : (List.range (c.maxSize + 1)).find? fun l => !(c.lca l).isEmpty with
  | none =>
    left
    have hall := find?_range_none.1 hmin
    have hmax : ((List.range (c.maxSize + 1)).reverse).find? (fun l => !(c.lca l).isEmpty) = none := by
      rw [List.find?_eq_none]
      intro l hl
      rw [List.mem_reverse, List.mem_range] at hl
      simpa using hall l hl
    refine ⟨fun l hl => by simpa using hall l (by omega), ?_, ?_⟩
    · unfold CA.minLevel; rw [hmin]
    · unfold CA.maxLevel; rw [hmax]
  | some a =>
    right
    obtain ⟨h1, h2, h3⟩ := find?_range.1 hmin
    cases hmax : ((List.range (c.maxSize + 1)).reverse).find? fun l => !(c.lca l).isEmpty with
    | none =>
      rw [List.find?_eq_none] at hmax
      have := hmax a (by rw [List.mem_reverse, List.mem_range]; exact h1)
      simp at this h2
      rw [h2] at this
      simp at this
    | some b =>
      obtain ⟨g1, g2, g3⟩ := find?_reverse_range hmax
      have e1 : c.minLevel = a := by unfold CA.minLevel; rw [hmin]
      have e2 : c.maxLevel = b := by unfold CA.maxLevel; rw [hmax]
      rw [e1, e2]
      refine ⟨?_, by omega, by simpa using h2, by simpa using g2, fun l hl => by simpa using h3 l hl,
        fun l hl1 hl2 => by simpa using g3 l hl1 (by omega)⟩
      by_contra hlt
      have := h3 b (by omega)
      simp at this g2
      rw [this] at g2
      simp at g2

/-- Summing over the levels of the loop is summing over all the levels, the others being empty. -/
theorem flatMap_levels {β : Type} (c : CA) (g : Nat → List β)
    (hg : ∀ l ≤ c.maxSize, (c.lca l).isEmpty = true → g l = []) :
    (List.range (c.maxSize + 1)).flatMap g = c.levels.flatMap g := by
  rcases c.level_cases with ⟨h1, h2, h3⟩ | ⟨h1, h2, -, -, h3, h4⟩
  · unfold CA.levels
    rw [h2, h3, show 0 + 1 - (c.maxSize + 1) = 0 by omega]
    simp only [List.range'_zero, List.flatMap_nil, List.flatMap_eq_nil_iff, List.mem_range]
    intro l hl
    exact hg l (by omega) (h1 l (by omega))
  · have hsplit : List.range (c.maxSize + 1) =
        List.range c.minLevel ++ (c.levels ++ List.range' (c.maxLevel + 1) (c.maxSize - c.maxLevel)) := by
      unfold CA.levels
      rw [List.range_eq_range', List.range_eq_range']
      have e1 : List.range' c.minLevel (c.maxLevel + 1 - c.minLevel) ++
          List.range' (c.maxLevel + 1) (c.maxSize - c.maxLevel) =
          List.range' c.minLevel (c.maxSize + 1 - c.minLevel) := by
        have := List.range'_append_1 (s := c.minLevel) (m := c.maxLevel + 1 - c.minLevel)
          (n := c.maxSize - c.maxLevel)
        rw [show c.minLevel + (c.maxLevel + 1 - c.minLevel) = c.maxLevel + 1 by omega] at this
        rw [this]
        congr 1
        omega
      rw [e1]
      have := List.range'_append_1 (s := 0) (m := c.minLevel) (n := c.maxSize + 1 - c.minLevel)
      rw [Nat.zero_add] at this
      rw [this]
      congr 1
      omega
    rw [hsplit, List.flatMap_append, List.flatMap_append]
    have z1 : (List.range c.minLevel).flatMap g = [] := by
      simp only [List.flatMap_eq_nil_iff, List.mem_range]
      intro l hl
      exact hg l (by omega) (h3 l hl)
    have z2 : (List.range' (c.maxLevel + 1) (c.maxSize - c.maxLevel)).flatMap g = [] := by
      simp only [List.flatMap_eq_nil_iff, List.mem_range'_1]
      intro l hl
      exact hg l (by omega) (h4 l (by omega) (by omega))
    rw [z1, z2]
    simp

theorem CA.levels_le {c : CA} {l : Nat} (h : l ∈ c.levels) : l ≤ c.maxSize := by
  unfold CA.levels at h
  rw [List.mem_range'_1] at h
  rcases c.level_cases with ⟨h1, h2, h3⟩ | ⟨h1, h2, _⟩
  · omega
  · omega

theorem CA.levels_nodup (c : CA) : c.levels.Nodup := List.nodup_range'

/-- `for_each_interval` on the levels: each level is visited in turn from the state left by the
previous ones. -/
theorem forEachLevels_spec {n : Nat} (ls : List Nat) (hnd : ls.Nodup) :
    ∀ (c : CA) (s : Nat), (∀ l ∈ ls, (c.lca l).WF n) →
    ∃ c' s', ls.foldlM (forEachStep n fun acc _ => indexer acc) (c, s) = some (c', s') ∧
      c'.maxSize = c.maxSize ∧ (∀ l, l ∉ ls → c'.lca l = c.lca l) ∧
      (∀ l ∈ ls, (c'.lca l).WF n ∧ (c'.lca l).level = (c.lca l).level ∧
        (∀ p, (c'.lca l).Mem n p ↔ (c.lca l).Mem n p) ∧ (c'.lca l).nbCells = (c.lca l).nbCells ∧
        ((c'.lca l).isEmpty = (c.lca l).isEmpty)) ∧
      (ls.flatMap fun l => ((c'.lca l).numbered n).map Prod.snd) =
        (List.range ((ls.map fun l => (c.lca l).nbCells).sum)).map fun (k : Nat) => (s : Int) + (k : Int) := by
  induction ls with
  | nil =>
    intro c s _
    exact ⟨c, s, rfl, rfl, fun _ _ => rfl, by simp, by simp⟩
  | cons l ls ih =>
    intro c s hwf
    have hl := hwf l List.mem_cons_self
    obtain ⟨L', h1, h2, h3, h4, h5⟩ := forEachInterval_spec hl indexer s
    obtain ⟨v1, v2, v3⟩ := visit_indexer ((c.lca l).rows n) s
    rw [rows_map_snd hl] at v2 v3
    rw [← h5] at v1 v2
    obtain ⟨w1, w2⟩ := reindex hl h3 h4 v2
    have hlnot : l ∉ ls := (List.nodup_cons.1 hnd).1
    obtain ⟨c', s', q1, q2, q3, q4, q5⟩ := ih (List.nodup_cons.1 hnd).2
      { c with lca := Function.update c.lca l L' } (visit indexer ((c.lca l).rows n) s).2
      (by
        intro k hk
        have hne : k ≠ l := fun h => hlnot (h ▸ hk)
        simp only [Function.update_of_ne hne]
        exact hwf k (List.mem_cons_of_mem _ hk))
    have hcl : c'.lca l = L' := by
      rw [q3 l hlnot]
      simp
    refine ⟨c', s', ?_, q2, ?_, ?_, ?_⟩
    · rw [List.foldlM_cons]
      have h1' : forEachInterval n (fun s => indexer s) (c.lca l) s = _ := h1
      simp only [forEachStep, h1']
      exact q1
    · intro k hk
      rw [List.mem_cons, not_or] at hk
      rw [q3 k hk.2]
      simp [Function.update_of_ne hk.1]
    · intro k hk
      rcases List.mem_cons.1 hk with rfl | hk
      · rw [hcl]
        refine ⟨w1, h2, w2, ?_, ?_⟩
        · rw [nbCells_eq, nbCells_eq, totalSize_bounds v2]
        · unfold LCA.isEmpty
          have := congrArg List.length v2
          simp only [bounds, List.length_map] at this
          rw [Bool.eq_iff_iff, List.isEmpty_iff, List.isEmpty_iff, ← List.length_eq_zero_iff,
            ← List.length_eq_zero_iff, this]
      · have hne : k ≠ l := fun h => hlnot (h ▸ hk)
        have := q4 k hk
        simpa only [Function.update_of_ne hne] using this
    · rw [List.flatMap_cons, q5, hcl, numbered_snd w1, indexFrom_numbers v1, List.map_cons, List.sum_cons,
        List.range_add, List.map_append]
      have e1 : totalSize (L'.cells 0) = (c.lca l).nbCells := by rw [nbCells_eq, totalSize_bounds v2]
      rw [e1]
      congr 1
      rw [List.map_map]
      have e2 : (ls.map fun k => (Function.update c.lca l L' k).nbCells) = ls.map fun k => (c.lca k).nbCells := by
        apply List.map_congr_left
        intro k hk
        have hne : k ≠ l := fun h => hlnot (h ▸ hk)
        rw [Function.update_of_ne hne]
      simp only [e2]
      apply List.map_congr_left
      intro k _
      simp only [Function.comp]
      rw [v3, ← nbCells_eq]
      push_cast
      ring

theorem CA.nbCells_levels {c : CA} : c.nbCells = (c.levels.map fun l => (c.lca l).nbCells).sum := by
  have h := flatMap_levels c (fun l => List.replicate (c.lca l).nbCells ()) (by
    intro l _ he
    unfold LCA.isEmpty at he
    rw [List.isEmpty_iff] at he
    simp [nbCells_eq, he, totalSize])
  have h2 := congrArg List.length h
  simp only [List.length_flatMap, List.length_replicate] at h2
  rw [← h2]
  unfold CA.nbCells
  rw [← List.foldl_map (f := fun l => (c.lca l).nbCells) (g := fun acc s => acc + s), List.sum_eq_foldl]

/-! ### the iterator over all the levels -/

/-- No empty level between two non-empty ones. -/
def CA.NoGap (c : CA) : Prop := ∀ l, c.minLevel ≤ l → l ≤ c.maxLevel → (c.lca l).isEmpty = false

/-- What remains to be visited above the level `l`. -/
def CA.rest (n : Nat) (c : CA) (l : Nat) : List (Nat × List Int × Interval) :=
  (List.range' (l + 1) (c.maxLevel - l)).flatMap fun l => ((c.lca l).rows n).map fun e => (l, e.1, e.2)

theorem caWalk_spec {n : Nat} {c : CA} (h : c.WF n) (hgap : c.NoGap) (hmm : c.minLevel ≤ c.maxLevel)
    (hms : c.maxLevel ≤ c.maxSize) (fuel : Nat) :
    ∀ (l k : Nat) (it : LCAIter), c.minLevel ≤ l → l ≤ c.maxLevel →
      (k < ((c.lca l).cells 0).length → IterAt (c.lca l) n k it) → it.cur 0 = k →
      (k < ((c.lca l).cells 0).length ∨ (l = c.maxLevel ∧ k = ((c.lca l).cells 0).length)) →
      ((c.lca l).cells 0).length - k + (c.rest n l).length < fuel →
      caWalk c n fuel ⟨l, it⟩ = some ((((c.lca l).rows n).drop k).map (fun e => (l, e.1, e.2)) ++ c.rest n l) := by
  have hne : ∀ l, c.minLevel ≤ l → l ≤ c.maxLevel → (c.lca l).cells n ≠ [] := by
    intro l h1 h2 h0
    have := hgap l h1 h2
    rw [(isEmpty_iff (h l (by omega))).2 h0] at this
    simp at this
  induction fuel with
  | zero => intro l k it _ _ _ _ _ hf; omega
  | succ fuel ih =>
    intro l k it hl1 hl2 hit hcur hk hf
    have hwm := h c.maxLevel hms
    obtain ⟨e, he, hec⟩ := iterEnd_spec hwm (hne c.maxLevel hmm le_rfl)
    have hce : caEnd c n = some ⟨c.maxLevel, e⟩ := by
      unfold caEnd caEndAt; rw [he]; rfl
    have hwl := h l (by omega)
    have hnel := hne l hl1 hl2
    have hrl := rows_length hwl
    simp only [caWalk, hce]
    rcases hk with hklt | ⟨rfl, hkeq⟩
    · have hat := hit hklt
      have hneq : caEqual ⟨l, it⟩ ⟨c.maxLevel, e⟩ = false := by
        unfold caEqual iterEqual
        by_cases hlm : l = c.maxLevel
        · subst hlm
          have := hec.1
          simp; omega
        · simp [hlm]
      rw [hneq]
      simp only [Bool.false_eq_true, if_false]
      obtain ⟨hder, hkr⟩ := iterDeref_spec hwl hnel hat
      rw [hder, List.getElem?_eq_getElem hkr]
      simp only []
      have hdrop := List.drop_eq_getElem_cons hkr
      rw [hdrop]
      -- the next position
      have hstep : ∃ l' k' it', caNext c n ⟨l, it⟩ = some ⟨l', it'⟩ ∧ c.minLevel ≤ l' ∧ l' ≤ c.maxLevel ∧
          (k' < ((c.lca l').cells 0).length → IterAt (c.lca l') n k' it') ∧ it'.cur 0 = k' ∧
          (k' < ((c.lca l').cells 0).length ∨ (l' = c.maxLevel ∧ k' = ((c.lca l').cells 0).length)) ∧
          (((c.lca l').rows n).drop k').map (fun e => (l', e.1, e.2)) ++ c.rest n l' =
            (((c.lca l).rows n).drop (k + 1)).map (fun e => (l, e.1, e.2)) ++ c.rest n l ∧
          ((c.lca l').cells 0).length - k' + (c.rest n l').length + 1 =
            ((c.lca l).cells 0).length - k + (c.rest n l).length := by
        unfold caNext
        rw [hce]
        simp only [hneq, Bool.false_eq_true, if_false]
        obtain ⟨e', he', hec'⟩ := iterEnd_spec hwl hnel
        have hce' : caEndAt c n l = some ⟨l, e'⟩ := by unfold caEndAt; rw [he']; rfl
        rcases Nat.lt_or_ge (k + 1) ((c.lca l).cells 0).length with hlt | hge
        · obtain ⟨it', q1, q2⟩ := iterNext_spec hwl hnel hat hlt
          refine ⟨l, k + 1, it', ?_, hl1, hl2, fun _ => q2, q2.1, Or.inl hlt, rfl, by omega⟩
          rw [q1]
          simp only []
          split
          · rw [hce']
            have : caEqual ⟨l, it'⟩ ⟨l, e'⟩ = false := by
              unfold caEqual iterEqual
              have := hec'.1
              have := q2.1
              simp; omega
            simp [this]
          · rfl
        · obtain ⟨it', q1, q2⟩ := iterNext_last hwl hnel hat (by omega)
          rw [q1]
          simp only []
          rcases Nat.lt_or_eq_of_le hl2 with hlm | rfl
          · rw [if_pos hlm, hce']
            have : caEqual ⟨l, it'⟩ ⟨l, e'⟩ = true := by
              unfold caEqual iterEqual
              have := hec'.1
              simp; omega
            simp only [this, if_true]
            have hw1 := h (l + 1) (by omega)
            have hn1 := hne (l + 1) (by omega) (by omega)
            obtain ⟨it1, hb1, hb2⟩ := iterBegin_spec hw1 hn1
            have hpos : 0 < ((c.lca (l + 1)).cells 0).length := hb2.2.1
            have hrest : c.rest n l = (((c.lca (l + 1)).rows n).map fun e => (l + 1, e.1, e.2)) ++ c.rest n (l + 1) := by
              unfold CA.rest
              rw [show c.maxLevel - l = (c.maxLevel - (l + 1)) + 1 by omega, List.range'_succ, List.flatMap_cons]
            refine ⟨l + 1, 0, it1, ?_, by omega, by omega, fun _ => hb2, hb2.1, Or.inl hpos, ?_, ?_⟩
            · unfold caBeginAt; rw [hb1]; rfl
            · rw [hrest, List.drop_zero, List.drop_eq_nil_of_le (by omega)]; rfl
            · rw [hrest, List.length_append, List.length_map, rows_length hw1]
              omega
          · rw [if_neg (by omega)]
            refine ⟨c.maxLevel, k + 1, it', rfl, hl1, le_rfl, fun hc => by omega, by omega, Or.inr ⟨rfl, by omega⟩, rfl, by omega⟩
      obtain ⟨l', k', it', s1, s2, s3, s4, s5, s6, s7, s8⟩ := hstep
      rw [s1]
      simp only []
      rw [ih l' k' it' s2 s3 s4 s5 s6 (by omega), s7]
      rfl
    · have heq : caEqual ⟨c.maxLevel, it⟩ ⟨c.maxLevel, e⟩ = true := by
        unfold caEqual iterEqual
        have := hec.1
        simp; omega
      rw [heq]
      simp only [if_true]
      have hr0 : c.rest n c.maxLevel = [] := by simp [CA.rest]
      rw [hr0, List.drop_eq_nil_of_le (by omega)]
      rfl

end Samurai

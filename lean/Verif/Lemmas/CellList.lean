import Verif.Model.CellList
import Verif.Lemmas.CellArray
import Verif.Props.LevelCellArray
import Verif.Spec.Mesh

namespace Samurai

theorem initFromGrid_level (n : Nat) (g : Grid n) (s : LCA) : (initFromGrid n g s).level = s.level := by
  induction n generalizing s with
  | zero => rfl
  | succ n ih =>
    have key : ∀ (g : List (Int × Grid n)) (st : LCA × Interval),
        (List.foldl (initStep n (initFromGrid n)) st g).1.level = st.1.level := by
      intro g
      induction g with
      | nil => intro st; rfl
      | cons e g ihg =>
        intro st
        rw [List.foldl_cons, ihg]
        unfold initStep
        simp only [LCA.pushOffset]
        split
        · split
          · simp only [LCA.pushCell, ih]
          · simp only [ih]
        · simp only [ih]
    unfold initFromGrid
    simp only []
    split
    · simp only [LCA.pushCell]
      exact key g (s, _)
    · exact key g (s, _)

theorem ofList_level {n : Nat} (c : LCL n) : (LCA.ofList c).level = c.level := by
  unfold LCA.ofList
  simp only []
  split
  · rfl
  · rw [closeOffsets_level, initFromGrid_level]

/-- The calls made on one level. -/
def callsAt (l : Nat) (h : List (Nat × CellCall)) : List CellCall :=
  h.filterMap fun e => if e.1 = l then some e.2 else none

theorem mem_callsAt {l : Nat} {h : List (Nat × CellCall)} {c : CellCall} : c ∈ callsAt l h ↔ (l, c) ∈ h := by
  unfold callsAt
  rw [List.mem_filterMap]
  constructor
  · rintro ⟨⟨a, b⟩, h1, h2⟩
    simp only [Option.ite_none_right_eq_some, Option.some.injEq] at h2
    obtain ⟨rfl, rfl⟩ := h2
    exact h1
  · intro hc
    exact ⟨(l, c), hc, by simp⟩

/-- Executing calls on a cell list: level by level. -/
theorem CL.calls_spec {n : Nat} (h : List (Nat × CellCall)) : ∀ cl : CL n, (∀ e ∈ h, e.1 ≤ cl.maxSize) →
    ∃ cl', cl.calls h = some cl' ∧ cl'.maxSize = cl.maxSize ∧
      ∀ l, cl'.lcl l = (callsAt l h).foldl CellCall.run (cl.lcl l) := by
  induction h with
  | nil => intro cl _; exact ⟨cl, rfl, rfl, fun _ => rfl⟩
  | cons e h ih =>
    intro cl hle
    have he := hle e List.mem_cons_self
    obtain ⟨cl', h1, h2, h3⟩ := ih { cl with lcl := Function.update cl.lcl e.1 (e.2.run (cl.lcl e.1)) }
      (fun e' he' => hle e' (List.mem_cons_of_mem _ he'))
    refine ⟨cl', ?_, h2, fun l => ?_⟩
    · unfold CL.calls at h1 ⊢
      rw [List.foldlM_cons, CL.call, if_pos he]
      exact h1
    · rw [h3]
      unfold callsAt
      by_cases hl : e.1 = l
      · subst hl
        rw [List.filterMap_cons_some (b := e.2) (by simp), List.foldl_cons]
        simp
      · rw [List.filterMap_cons_none (by simp [hl])]
        simp only []
        rw [Function.update_of_ne (fun h => hl h.symm)]

/-- A history of calls on a new cell list. -/
def runLevelCalls (n maxSize : Nat) (h : List (Nat × CellCall)) : Option (CL n) := (CL.new n maxSize).calls h

theorem CL.calls_append {n : Nat} (cl : CL n) (h h' : List (Nat × CellCall)) :
    cl.calls (h ++ h') = (cl.calls h).bind fun c => c.calls h' := by
  unfold CL.calls
  rw [List.foldlM_append]
  rfl

theorem runLevelCalls_spec {n maxSize : Nat} {h : List (Nat × CellCall)} (hle : ∀ e ∈ h, e.1 ≤ maxSize) :
    ∃ cl, runLevelCalls n maxSize h = some cl ∧ cl.maxSize = maxSize ∧
      ∀ l, cl.lcl l = runCellCalls n l (callsAt l h) := by
  obtain ⟨cl, h1, h2, h3⟩ := CL.calls_spec h (CL.new n maxSize) hle
  exact ⟨cl, h1, h2, h3⟩

/-- The array built from a history of calls: content, well-formedness. -/
theorem ofCL_spec {n maxSize : Nat} {h : List (Nat × CellCall)} {cl : CL n}
    (hcl : runLevelCalls n maxSize h = some cl) (hle : ∀ e ∈ h, e.1 ≤ maxSize)
    (hi : ∀ e ∈ h, e.2.idx.length = n) (hv : ∀ e ∈ h, e.2.Valid) :
    (CA.ofCL cl).maxSize = maxSize ∧ (CA.ofCL cl).WF n ∧ (CA.ofCL cl).Leveled ∧
      (∀ l p, ((CA.ofCL cl).lca l).Mem n p ↔ ∃ c, (l, c) ∈ h ∧ c.Adds p) := by
  obtain ⟨cl', h1, h2, h3⟩ := runLevelCalls_spec (n := n) hle
  rw [hcl, Option.some.injEq] at h1
  subst h1
  have hi' : ∀ l, ∀ c ∈ callsAt l h, c.idx.length = n := fun l c hc => hi _ (mem_callsAt.1 hc)
  have hv' : ∀ l, ∀ c ∈ callsAt l h, c.Valid := fun l c hc => hv _ (mem_callsAt.1 hc)
  refine ⟨h2, fun l _ => ?_, fun l _ => ?_, fun l p => ?_⟩
  · show (LCA.ofList (cl.lcl l)).WF n
    rw [h3]
    exact C06_wellformed n l _ (hi' l) (hv' l)
  · show (LCA.ofList (cl.lcl l)).level = l
    rw [h3]
    exact ofList_level _ |>.trans (runCellCalls_spec n l _ (hi' l)).2.2.2.2
  · show (LCA.ofList (cl.lcl l)).Mem n p ↔ _
    rw [h3, C06_content n l _ (hi' l)]
    simp only [mem_callsAt]

theorem empty_spec (n maxSize : Nat) : (CA.empty n maxSize).maxSize = maxSize ∧ (CA.empty n maxSize).WF n ∧
    (CA.empty n maxSize).Leveled ∧ ∀ l p, ¬ ((CA.empty n maxSize).lca l).Mem n p := by
  obtain ⟨h1, h2, h3, h4⟩ := ofCL_spec (n := n) (maxSize := maxSize) (h := []) (cl := CL.new n maxSize) rfl
    (by simp) (by simp) (by simp)
  exact ⟨h1, h2, h3, fun l p hp => by have := (h4 l p).1 hp; simp at this⟩

/-! ### traversal that does not change the array -/

theorem visit_const {σ : Type} (g : σ → List Int → Interval → σ) (l : List (List Int × Interval)) (s : σ) :
    visit (fun s yz i => (g s yz i, i)) l s = (l.map Prod.snd, l.foldl (fun s e => g s e.1 e.2) s) := by
  induction l generalizing s with
  | nil => rfl
  | cons e l ih => simp [visit, ih]

theorem rows_congr {n : Nat} {L L' : LCA} (hc : L'.cells = L.cells) (ho : L'.offsets = L.offsets) :
    L'.rows n = L.rows n := by
  have key : ∀ d lo hi, rowList L' d lo hi = rowList L d lo hi := by
    intro d
    induction d with
    | zero => intro lo hi; simp only [rowList, hc]
    | succ d ih => intro lo hi; simp only [rowList, hc, ho, ih]
  unfold LCA.rows
  rw [hc, key]

theorem forEachLevels_const {σ : Type} {n : Nat} (g : σ → Nat → List Int → Interval → σ) (ls : List Nat) (hnd : ls.Nodup) :
    ∀ (c : CA) (s : σ), (∀ l ∈ ls, (c.lca l).WF n) →
    ∃ c', ls.foldlM (forEachStep n fun s l yz i => (g s l yz i, i)) (c, s) =
      some (c', (ls.flatMap fun l => ((c.lca l).rows n).map fun e => (l, e.1, e.2)).foldl (fun s e => g s e.1 e.2.1 e.2.2) s) := by
  induction ls with
  | nil => intro c s _; exact ⟨c, rfl⟩
  | cons l ls ih =>
    intro c s hwf
    have hl := hwf l List.mem_cons_self
    obtain ⟨L', h1, h2, h3, h4, h5⟩ := forEachInterval_spec hl (fun s yz i => (g s l yz i, i)) s
    rw [visit_const] at h1 h5
    have hlnot : l ∉ ls := (List.nodup_cons.1 hnd).1
    obtain ⟨c', q⟩ := ih (List.nodup_cons.1 hnd).2
      { c with lca := Function.update c.lca l L' } (((c.lca l).rows n).foldl (fun s e => g s l e.1 e.2) s)
      (by
        intro k hk
        have hne : k ≠ l := fun h => hlnot (h ▸ hk)
        simp only [Function.update_of_ne hne]
        exact hwf k (List.mem_cons_of_mem _ hk))
    refine ⟨c', ?_⟩
    rw [List.foldlM_cons]
    simp only [forEachStep, h1]
    refine Eq.trans q ?_
    have e2 : (ls.flatMap fun k => ((Function.update c.lca l L' k).rows n).map fun e => (k, e.1, e.2)) =
        ls.flatMap fun k => ((c.lca k).rows n).map fun e => (k, e.1, e.2) := by
      rw [List.flatMap_def, List.flatMap_def]
      congr 1
      apply List.map_congr_left
      intro k hk
      have hne : k ≠ l := fun h => hlnot (h ▸ hk)
      rw [Function.update_of_ne hne]
    simp only [e2, List.flatMap_cons, List.foldl_append, List.foldl_map]

theorem forEachCA_const {σ : Type} {n : Nat} {c : CA} (h : c.WF n) (g : σ → Nat → List Int → Interval → σ) (s : σ) :
    ∃ c', forEachIntervalCA n (fun s l yz i => (g s l yz i, i)) c s =
      some (c', (c.rows n).foldl (fun s e => g s e.1 e.2.1 e.2.2) s) := by
  obtain ⟨c', h1⟩ := forEachLevels_const g c.levels c.levels_nodup c s (fun l hl => h l (CA.levels_le hl))
  refine ⟨c', ?_⟩
  unfold forEachIntervalCA CA.rows
  rw [h1, flatMap_levels]
  intro l hl he
  rw [(rows_eq_nil_iff (h l hl)).2 he]
  rfl

/-- The calls collected by a traversal are those of the rows, in order. -/
theorem collectCalls_spec {n : Nat} {c : CA} (h : c.WF n) (g : Nat → List Int → Interval → List (Nat × CellCall)) :
    collectCalls n g c = some ((c.rows n).flatMap fun e => g e.1 e.2.1 e.2.2) := by
  obtain ⟨c', h1⟩ := forEachCA_const h (fun acc l yz i => acc ++ g l yz i) []
  unfold collectCalls
  rw [h1, Option.map_some]
  have key : ∀ (l : List (Nat × List Int × Interval)) t,
      l.foldl (fun s e => s ++ g e.1 e.2.1 e.2.2) t = t ++ l.flatMap fun e => g e.1 e.2.1 e.2.2 := by
    intro l
    induction l with
    | nil => intro t; simp
    | cons e l ih => intro t; rw [List.foldl_cons, ih, List.flatMap_cons, List.append_assoc]
  rw [key, List.nil_append]

theorem CA.mem_rows {n : Nat} {c : CA} {l : Nat} {yz : List Int} {i : Interval} :
    (l, yz, i) ∈ c.rows n ↔ l ≤ c.maxSize ∧ (yz, i) ∈ (c.lca l).rows n := by
  unfold CA.rows
  rw [List.mem_flatMap]
  constructor
  · rintro ⟨l', hl', h⟩
    rw [List.mem_map] at h
    obtain ⟨e, he, heq⟩ := h
    simp only [Prod.mk.injEq] at heq
    obtain ⟨rfl, rfl, rfl⟩ := heq
    rw [List.mem_range] at hl'
    exact ⟨by omega, he⟩
  · rintro ⟨h1, h2⟩
    exact ⟨l, List.mem_range.2 (by omega), List.mem_map.2 ⟨_, h2, rfl⟩⟩

theorem CA.mem_iff_rows {n : Nat} {c : CA} (h : c.WF n) {l : Nat} {p : List Int} :
    c.Mem n l p ↔ ∃ yz i x, (l, yz, i) ∈ c.rows n ∧ x ∈ i ∧ p = yz ++ [x] := by
  unfold CA.Mem
  constructor
  · rintro ⟨h1, h2⟩
    obtain ⟨e, he, x, hx, rfl⟩ := (Samurai.mem_iff_rows (h l h1) p).1 h2
    exact ⟨e.1, e.2, x, CA.mem_rows.2 ⟨h1, he⟩, hx, rfl⟩
  · rintro ⟨yz, i, x, h1, hx, rfl⟩
    obtain ⟨h1, h2⟩ := CA.mem_rows.1 h1
    exact ⟨h1, (Samurai.mem_iff_rows (h l h1) _).2 ⟨_, h2, x, hx, rfl⟩⟩

theorem mem_length {n : Nat} {L : LCA} {p : List Int} (h : L.Mem n p) : p.length = n + 1 := by
  have key : ∀ d lo hi p, MemRow L d lo hi p → p.length = d + 1 := by
    intro d
    induction d with
    | zero =>
      intro lo hi p hp
      match p, hp with
      | [x], _ => rfl
    | succ d ih =>
      intro lo hi p hp
      match p, hp with
      | c :: p, ⟨i, _, _, _, a, b, _, _, hr⟩ => simp [ih _ _ _ hr]
  exact key _ _ _ _ h

theorem rows_valid {n : Nat} {L : LCA} (h : L.WF n) {e : List Int × Interval} (he : e ∈ L.rows n) :
    e.1.length = n ∧ e.2.start < e.2.stop := by
  have hne : L.cells n ≠ [] := by
    intro h0
    rw [rows_empty h0] at he
    simp at he
  have h2 : e.2 ∈ L.cells 0 := by
    rw [← rows_map_snd h]
    exact List.mem_map_of_mem he
  have hv := h.valid hne (d := 0) (by omega) h2
  have : L.Mem n (e.1 ++ [e.2.start]) := (Samurai.mem_iff_rows h _).2 ⟨e, he, e.2.start, ⟨le_rfl, hv⟩, rfl⟩
  have := mem_length this
  simp at this
  exact ⟨this, hv⟩

end Samurai

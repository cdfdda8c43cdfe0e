/-
Lemmas for C120: the arrays of a level without their innermost direction, and the runs of a level.
-/
import Verif.Model.Statistics
import Verif.Spec.Statistics
import Verif.Lemmas.Renumber
import Verif.Lemmas.Numbering
import Verif.Lemmas.CellList
import Mathlib.Data.List.Nodup

namespace Samurai

/-- The array without its innermost direction. -/
def LCA.outer (L : LCA) : LCA where
  level := L.level
  cells d := L.cells (d + 1)
  offsets d := L.offsets (d + 1)

theorem outer_wf {n : Nat} {L : LCA} (h : L.WF (n + 1)) : L.outer.WF n where
  top := h.top
  empty := fun he => ⟨fun d hd => (h.empty he).1 (d + 1) (by omega), fun d hd => (h.empty he).2 (d + 1) (by omega)⟩
  index := fun d hd => h.index (d + 1) (by omega)
  count := fun d hd he => h.count (d + 1) (by omega) he
  last := fun d hd he => h.last (d + 1) (by omega) he
  seg := fun d hd he => h.seg (d + 1) (by omega) he

/-- The rows of an array, from the cells of the array without its innermost direction. -/
theorem rowList_outer (L : LCA) : ∀ d lo hi, rowList L (d + 1) lo hi = (rowList L.outer d lo hi).flatMap fun e => (coords e.2).flatMap fun c =>
    match (L.offsets 0)[(e.2.index + c).toNat]?, (L.offsets 0)[(e.2.index + c).toNat + 1]? with
    | some a, some b => (slice (L.cells 0) a b).map fun i => (e.1 ++ [c], i)
    | _, _ => []
  | 0, lo, hi => by
    show (slice (L.cells 1) lo hi).flatMap _ = ((slice (L.cells 1) lo hi).map _).flatMap _
    rw [List.flatMap_map]
    congr 1
    funext i
    congr 1
    funext c
    simp only [rowList]
    cases (L.offsets 0)[(i.index + c).toNat]? with
    | none => rfl
    | some a => cases (L.offsets 0)[(i.index + c).toNat + 1]? with
      | none => rfl
      | some b => simp only [List.map_map]; rfl
  | d + 1, lo, hi => by
    show (slice (L.cells (d + 2)) lo hi).flatMap _ = ((slice (L.cells (d + 2)) lo hi).flatMap _).flatMap _
    rw [List.flatMap_assoc]
    congr 1
    funext i
    rw [List.flatMap_assoc]
    congr 1
    funext c
    have key : ∀ (oa ob : Option Nat), (match oa, ob with
        | some a, some b => (rowList L (d + 1) a b).map fun e : List Int × Interval => (c :: e.1, e.2)
        | _, _ => []) = (match oa, ob with
        | some a, some b => (rowList L.outer d a b).map fun e : List Int × Interval => (c :: e.1, e.2)
        | _, _ => []).flatMap fun e : List Int × Interval => (coords e.2).flatMap fun c =>
          match (L.offsets 0)[(e.2.index + c).toNat]?, (L.offsets 0)[(e.2.index + c).toNat + 1]? with
          | some a, some b => (slice (L.cells 0) a b).map fun i => (e.1 ++ [c], i)
          | _, _ => [] := by
      intro oa ob
      cases oa with
      | none => rfl
      | some a => cases ob with
        | none => rfl
        | some b =>
          simp only []
          rw [rowList_outer L d a b, List.map_flatMap, List.flatMap_map]
          congr 1
          funext e
          rw [List.map_flatMap]
          congr 1
          funext x
          cases (L.offsets 0)[(e.2.index + x).toNat]? with
          | none => rfl
          | some a => cases (L.offsets 0)[(e.2.index + x).toNat + 1]? with
            | none => rfl
            | some b => simp only [List.map_map]; rfl
    exact key _ _

/-- The part of the innermost intervals below the cell number `k` of the outer directions. -/
def LCA.row (L : LCA) (k : Nat) : List Interval := slice (L.cells 0) ((L.offsets 0).getD k 0) ((L.offsets 0).getD (k + 1) 0)

theorem outer_numbers {n : Nat} {L : LCA} (h : L.WF (n + 1)) :
    (L.outer.numbered n).map Prod.snd = (List.range (totalSize (L.cells 1))).map fun (k : Nat) => (k : Int) := by
  rw [numbered_snd (outer_wf h)]
  have := indexFrom_numbers (h.index 0 (by omega))
  simp only [Int.zero_add] at this
  exact this

theorem rows_outer {n : Nat} {L : LCA} (h : L.WF (n + 1)) (hne : L.cells (n + 1) ≠ []) :
    L.rows (n + 1) = (L.outer.numbered n).flatMap fun e => (L.row e.2.toNat).map fun i => (e.1, i) := by
  have hnum := outer_numbers h
  unfold LCA.rows
  rw [rowList_outer]
  show (L.outer.rows n).flatMap _ = _
  have hb : ∀ e ∈ L.outer.numbered n, ∃ k < totalSize (L.cells 1), e.2 = (k : Int) := by
    intro e he
    have : e.2 ∈ (L.outer.numbered n).map Prod.snd := List.mem_map.2 ⟨e, he, rfl⟩
    rw [hnum] at this
    obtain ⟨k, hk, h1⟩ := List.mem_map.1 this
    exact ⟨k, List.mem_range.1 hk, h1.symm⟩
  unfold LCA.numbered at hb ⊢
  rw [List.flatMap_assoc]
  have hlen : (L.offsets 0).length = totalSize (L.cells 1) + 1 := h.count 0 (by omega) hne
  apply List.flatMap_congr
  intro e he
  rw [List.flatMap_map]
  apply List.flatMap_congr
  intro x hx
  obtain ⟨k, hk, h1⟩ := hb (e.1 ++ [x], e.2.index + x) (List.mem_flatMap.2 ⟨e, he, List.mem_map.2 ⟨x, hx, rfl⟩⟩)
  simp only at h1
  have ha : k < (L.offsets 0).length := by omega
  have hb' : k + 1 < (L.offsets 0).length := by omega
  simp only [LCA.row, h1, Int.toNat_natCast, List.getElem?_eq_getElem ha, List.getElem?_eq_getElem hb', List.getD_eq_getElem?_getD, Option.getD_some]

/-- The runs of a level, from its rows. -/
def LCA.runs (n : Nat) (L : LCA) : List (List Int × Int × Int) := (L.rows n).map fun e => (e.1, e.2.start, e.2.stop)

theorem mem_at {n : Nat} {L : LCA} (h : L.WF n) {o : List Int} {x : Int} : L.Mem n (o ++ [x]) ↔ ∃ i, (o, i) ∈ L.rows n ∧ x ∈ i := by
  rw [mem_iff_rows h]
  constructor
  · rintro ⟨e, he, y, hy, heq⟩
    obtain ⟨h1, h2⟩ := List.append_inj' heq rfl
    simp only [List.cons.injEq, and_true] at h2
    subst h1 h2
    exact ⟨e.2, he, hy⟩
  · rintro ⟨i, hi, hx⟩
    exact ⟨_, hi, x, hx, rfl⟩

theorem run_of_row {n : Nat} {L : LCA} (h : L.WF n) {o : List Int} {i : Interval} (hi : (o, i) ∈ L.rows n) : IsRun (L.Mem n) (o, i.start, i.stop) := by
  have hv : i.start < i.stop := (rows_valid h hi).2
  refine ⟨hv, fun x h1 h2 => (mem_at h).2 ⟨i, hi, h1, h2⟩, fun hm => ?_, fun hm => ?_⟩
  · obtain ⟨j, hj, hx⟩ := (mem_at h).1 hm
    rw [Interval.mem_def] at hx
    have hg := rows_gap h hj hi
    have : i.start ∈ j := by rw [Interval.mem_def]; simp only at hx; omega
    have e := row_unique h hi hj (Interval.mem_def.2 ⟨le_rfl, hv⟩) this
    subst e
    simp only at hx
    omega
  · obtain ⟨j, hj, hx⟩ := (mem_at h).1 hm
    rw [Interval.mem_def] at hx
    have hg := rows_gap h hi hj
    simp only at hx
    have : i.stop - 1 ∈ j := by rw [Interval.mem_def]; omega
    have e := row_unique h hi hj (Interval.mem_def.2 ⟨by omega, by omega⟩) this
    subst e
    omega

theorem mem_runs {n : Nat} {L : LCA} (h : L.WF n) (r : List Int × Int × Int) : r ∈ L.runs n ↔ IsRun (L.Mem n) r := by
  constructor
  · intro hr
    obtain ⟨e, he, rfl⟩ := List.mem_map.1 hr
    exact run_of_row h he
  · intro hr
    obtain ⟨o, a, b⟩ := r
    obtain ⟨h1, h2, h3, h4⟩ := hr
    simp only at h1 h2 h3 h4
    obtain ⟨i, hi, hx⟩ := (mem_at h).1 (h2 a le_rfl h1)
    rw [Interval.mem_def] at hx
    obtain ⟨-, -, -, k4⟩ := run_of_row h hi
    simp only at k4
    have ea : i.start = a := by
      by_contra hne
      exact h3 ((mem_at h).2 ⟨i, hi, Interval.mem_def.2 ⟨by omega, by omega⟩⟩)
    have eb : i.stop = b := by
      rcases lt_trichotomy i.stop b with hlt | heq | hgt
      · exact absurd (h2 i.stop (by omega) hlt) k4
      · exact heq
      · exact absurd ((mem_at h).2 ⟨i, hi, Interval.mem_def.2 ⟨by omega, by omega⟩⟩) h4
    exact List.mem_map.2 ⟨(o, i), hi, by rw [ea, eb]⟩

theorem runs_nodup {n : Nat} {L : LCA} (h : L.WF n) : (L.runs n).Nodup := by
  unfold LCA.runs
  rw [List.Nodup, List.pairwise_map]
  refine List.Pairwise.imp_of_mem ?_ (rows_sorted h)
  intro e e' he he' hlt heq
  simp only [Prod.mk.injEq] at heq
  obtain ⟨h1, h2, h3⟩ := heq
  have v := (rows_valid h he).2
  have v' := (rows_valid h he').2
  have := hlt e.2.start (Interval.mem_def.2 ⟨le_rfl, v⟩) e'.2.start (Interval.mem_def.2 ⟨le_rfl, v'⟩)
  rw [h1, h2] at this
  exact absurd this (List.lt_irrefl _)

theorem runs_length {n : Nat} {L : LCA} (h : L.WF n) : (L.runs n).length = (L.cells 0).length := by
  unfold LCA.runs
  rw [List.length_map, rows_length h]

theorem row_spec {n : Nat} {L : LCA} (h : L.WF (n + 1)) (hne : L.cells (n + 1) ≠ []) {k : Nat} (hk : k < totalSize (L.cells 1)) :
    0 < (L.row k).length ∧ (L.row k).length = (L.offsets 0).getD (k + 1) 0 - (L.offsets 0).getD k 0 := by
  have hlen : (L.offsets 0).length = totalSize (L.cells 1) + 1 := h.count 0 (by omega) hne
  have ha : k < (L.offsets 0).length := by omega
  have hb : k + 1 < (L.offsets 0).length := by omega
  obtain ⟨h1, h2, -⟩ := (h.seg 0 (by omega) hne).2 k _ _ (List.getElem?_eq_getElem ha) (List.getElem?_eq_getElem hb)
  simp only [LCA.row, List.getD_eq_getElem?_getD, List.getElem?_eq_getElem ha, List.getElem?_eq_getElem hb, Option.getD_some]
  rw [slice_length h2]
  exact ⟨by omega, rfl⟩

theorem outer_number {n : Nat} {L : LCA} (h : L.WF (n + 1)) {e : List Int × Int} (he : e ∈ L.outer.numbered n) :
    ∃ k < totalSize (L.cells 1), e.2 = (k : Int) := by
  have : e.2 ∈ (L.outer.numbered n).map Prod.snd := List.mem_map.2 ⟨e, he, rfl⟩
  rw [outer_numbers h] at this
  obtain ⟨k, hk, h1⟩ := List.mem_map.1 this
  exact ⟨k, List.mem_range.1 hk, h1.symm⟩

theorem outer_mem {n : Nat} {L : LCA} (h : L.WF (n + 1)) (q : List Int) : L.outer.Mem n q ↔ ∃ x, L.Mem (n + 1) (q ++ [x]) := by
  by_cases hne : L.cells (n + 1) = []
  · constructor
    · intro hm
      rw [mem_iff_rows (outer_wf h), rows_empty (L := L.outer) hne] at hm
      simp at hm
    · rintro ⟨x, hm⟩
      rw [mem_iff_rows h, rows_empty hne] at hm
      simp at hm
  rw [← numbered_mem (outer_wf h)]
  constructor
  · intro hq
    obtain ⟨e, he, rfl⟩ := List.mem_map.1 hq
    obtain ⟨k, hk, hek⟩ := outer_number h he
    obtain ⟨i, hi⟩ := List.exists_mem_of_length_pos (row_spec h hne hk).1
    have hr : (e.1, i) ∈ L.rows (n + 1) := by
      rw [rows_outer h hne]
      exact List.mem_flatMap.2 ⟨e, he, List.mem_map.2 ⟨i, by rw [hek, Int.toNat_natCast]; exact hi, rfl⟩⟩
    exact ⟨i.start, (mem_at h).2 ⟨i, hr, Interval.mem_def.2 ⟨le_rfl, (rows_valid h hr).2⟩⟩⟩
  · rintro ⟨x, hm⟩
    obtain ⟨i, hi, -⟩ := (mem_at h).1 hm
    rw [rows_outer h hne] at hi
    obtain ⟨e, he, hi⟩ := List.mem_flatMap.1 hi
    obtain ⟨j, -, hj⟩ := List.mem_map.1 hi
    simp only [Prod.mk.injEq] at hj
    exact List.mem_map.2 ⟨e, he, hj.1⟩

/-- The array without its `d` innermost directions. -/
theorem outer_iterate : ∀ (d n : Nat) (L : LCA), L.WF (n + d) → (LCA.outer^[d] L).WF n ∧ (∀ q, (LCA.outer^[d] L).Mem n q ↔ Shadow d (L.Mem (n + d)) q) ∧
    ∀ k, (LCA.outer^[d] L).cells k = L.cells (k + d)
  | 0, n, L, h => by
    refine ⟨h, fun q => ?_, fun k => rfl⟩
    constructor
    · intro hq; exact ⟨[], rfl, by rw [List.append_nil]; exact hq⟩
    · rintro ⟨p, hp, hm⟩
      rw [List.length_eq_zero_iff.1 hp, List.append_nil] at hm
      exact hm
  | d + 1, n, L, h => by
    obtain ⟨h1, h2, h3⟩ := outer_iterate d n L.outer (outer_wf (n := n + d) h)
    rw [Function.iterate_succ_apply]
    refine ⟨h1, fun q => (h2 q).trans ?_, fun k => h3 k⟩
    constructor
    · rintro ⟨p, hp, hm⟩
      obtain ⟨x, hx⟩ := (outer_mem (n := n + d) h _).1 hm
      exact ⟨p ++ [x], by simp [hp], by rw [← List.append_assoc]; exact hx⟩
    · rintro ⟨p, hp, hm⟩
      obtain ⟨p', x, rfl⟩ : ∃ p' x, p = p' ++ [x] := by
        rcases List.eq_nil_or_concat p with rfl | ⟨p', x, rfl⟩
        · simp at hp
        · exact ⟨p', x, List.concat_eq_append⟩
      refine ⟨p', by simpa using hp, (outer_mem (n := n + d) h _).2 ⟨x, ?_⟩⟩
      rw [List.append_assoc]; exact hm

theorem NumberOf.unique {α : Type} {P : α → Prop} {k k' : Nat} (h : NumberOf P k) (h' : NumberOf P k') : k = k' := by
  obtain ⟨l, h1, h2, rfl⟩ := h
  obtain ⟨l', h1', h2', rfl⟩ := h'
  exact ((List.perm_ext_iff_of_nodup h1 h1').2 fun x => (h2 x).trans (h2' x).symm).length_eq

theorem numbered_nodup {n : Nat} {L : LCA} (h : L.WF n) : ((L.numbered n).map Prod.fst).Nodup := by
  rw [List.Nodup]
  refine (numbered_sorted h).imp ?_
  rintro a b hab rfl
  exact List.lt_irrefl _ hab

/-- The number of runs below each cell of the outer directions. -/
theorem numberOf_row {n : Nat} {L : LCA} (h : L.WF (n + 1)) (hne : L.cells (n + 1) ≠ []) {e : List Int × Int} (he : e ∈ L.outer.numbered n) :
    NumberOf (fun r => IsRun (L.Mem (n + 1)) r ∧ r.1 = e.1) (L.row e.2.toNat).length := by
  have hruns : L.runs (n + 1) = (L.outer.numbered n).flatMap fun e => (L.row e.2.toNat).map fun i => (e.1, i.start, i.stop) := by
    unfold LCA.runs
    rw [rows_outer h hne, List.map_flatMap]
    simp only [List.map_map]
    rfl
  refine ⟨(L.row e.2.toNat).map fun i => (e.1, i.start, i.stop), ?_, ?_, by rw [List.length_map]⟩
  · have := runs_nodup h
    rw [hruns, List.nodup_flatMap] at this
    exact this.1 e he
  · intro r
    show _ ↔ IsRun (L.Mem (n + 1)) r ∧ r.1 = e.1
    rw [← mem_runs h, hruns]
    constructor
    · intro hr
      refine ⟨List.mem_flatMap.2 ⟨e, he, hr⟩, ?_⟩
      obtain ⟨i, -, rfl⟩ := List.mem_map.1 hr
      rfl
    · rintro ⟨hr, hre⟩
      obtain ⟨e', he', hr⟩ := List.mem_flatMap.1 hr
      have h1 : r.1 = e'.1 := by
        obtain ⟨i, -, rfl⟩ := List.mem_map.1 hr
        rfl
      have hs : ((L.outer.numbered n).map Prod.fst).Nodup := numbered_nodup (outer_wf h)
      have : e' = e := List.inj_on_of_nodup_map hs he' he (h1.symm.trans hre)
      subst this
      exact hr

theorem minMax_spec {l : List Nat} (hl : l ≠ []) : ∃ m M, minMax l = some (m, M) ∧ Extremes (fun k => k ∈ l) m M := by
  obtain ⟨m, hm⟩ := Option.isSome_iff_exists.1 (List.isSome_min?_of_ne_nil hl)
  obtain ⟨M, hM⟩ := Option.isSome_iff_exists.1 (List.isSome_max?_of_ne_nil hl)
  refine ⟨m, M, by simp only [minMax, hm, hM], ?_, ?_⟩
  · exact List.min?_eq_some_iff.1 hm
  · exact List.max?_eq_some_iff.1 hM

theorem Extremes.congr {P Q : Nat → Prop} {m M : Nat} (h : Extremes P m M) (hpq : ∀ k, P k ↔ Q k) : Extremes Q m M := by
  have : P = Q := funext fun k => propext (hpq k)
  rw [← this]; exact h

/-- The differences of the offsets are the numbers of intervals of the rows. -/
theorem differences {n : Nat} {L : LCA} (h : L.WF (n + 1)) (hne : L.cells (n + 1) ≠ []) :
    (adjacentDifference (L.offsets 0)).drop 1 = (List.range (totalSize (L.cells 1))).map fun k => (L.row k).length := by
  have hlen : (L.offsets 0).length = totalSize (L.cells 1) + 1 := h.count 0 (by omega) hne
  obtain ⟨a, l, hal⟩ : ∃ a l, L.offsets 0 = a :: l := by
    cases ho : L.offsets 0 with
    | nil => rw [ho] at hlen; simp at hlen
    | cons a l => exact ⟨a, l, rfl⟩
  have hll : l.length = totalSize (L.cells 1) := by rw [hal] at hlen; simpa using hlen
  rw [hal]
  simp only [adjacentDifference, List.drop_succ_cons, List.drop_zero]
  apply List.ext_getElem
  · simp [hll]
  · intro k h1 h2
    have hk : k < totalSize (L.cells 1) := by simpa using h2
    simp only [List.getElem_zipWith, List.getElem_map, List.getElem_range]
    rw [(row_spec h hne hk).2, hal]
    simp only [List.getD_eq_getElem?_getD]
    rw [List.getElem?_eq_getElem (by simp; omega), List.getElem?_eq_getElem (by simp; omega)]
    simp

theorem stats_mapM {α β : Type} {f : α → Option β} : ∀ {l : List α}, (∀ a ∈ l, ∃ b, f a = some b) →
    ∃ bs, l.mapM f = some bs ∧ bs.length = l.length ∧ ∀ (k : Nat) (a : α), l[k]? = some a → bs[k]? = f a
  | [], _ => ⟨[], rfl, rfl, by simp⟩
  | a :: l, h => by
    obtain ⟨b, hb⟩ := h a (by simp)
    obtain ⟨bs, h1, h2, h3⟩ := stats_mapM (l := l) fun a ha => h a (by simp [ha])
    refine ⟨b :: bs, by rw [List.mapM_cons, hb, h1]; rfl, by simp [h2], ?_⟩
    intro k a' hk
    cases k with
    | zero => simp only [List.getElem?_cons_zero, Option.some.injEq] at hk ⊢; rw [← hk, hb]
    | succ k => simpa using h3 k a' (by simpa using hk)

theorem recordsOf_snoc {R : Type} (calls : List (String × R)) (e : String × R) : recordsOf (calls ++ [e]) = pushRecord (recordsOf calls) e.1 e.2 := by
  funext t
  simp only [recordsOf, pushRecord, List.filter_append]
  by_cases ht : t = e.1
  · subst ht
    simp only [if_true]
    by_cases h0 : (calls.filter fun x => x.1 = e.1) = []
    · simp [h0]
    · simp [h0]
  · have hf : ¬ e.1 = t := fun h => ht h.symm
    have he : [e].filter (fun x => decide (x.1 = t)) = [] := by simp [hf]
    rw [he, List.append_nil]
    simp [ht]

end Samurai

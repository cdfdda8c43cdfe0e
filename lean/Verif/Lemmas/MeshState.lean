/-
Lemmas on archives, the partition of a domain and the iteration on a set.
-/
import Verif.Model.MeshState
import Verif.Lemmas.Mesh
import Verif.Lemmas.MeshFull
import Verif.Lemmas.Renumber

namespace Samurai

/-! ### archives -/

theorem loadN_save {α : Type} {save : α → List Int} {load : List Int → Option (α × List Int)} (h : ∀ x ar, load (save x ++ ar) = some (x, ar)) :
    ∀ (l : List α) (ar : List Int), loadN load l.length (l.flatMap save ++ ar) = some (l, ar) := by
  intro l
  induction l with
  | nil => intro ar; rfl
  | cons x l ih =>
    intro ar
    show loadN load (l.length + 1) _ = _
    rw [List.flatMap_cons, List.append_assoc]
    unfold loadN
    rw [h]
    simp only []
    rw [ih]

theorem loadVec_save {α : Type} {save : α → List Int} {load : List Int → Option (α × List Int)} (h : ∀ x ar, load (save x ++ ar) = some (x, ar))
    (l : List α) (ar : List Int) : loadVec load (saveVec save l ++ ar) = some (l, ar) := by
  unfold saveVec
  rw [List.cons_append]
  show loadN load (l.length : Int).toNat _ = _
  rw [Int.toNat_natCast]
  exact loadN_save h l ar

theorem loadInterval_save (i : Interval) (ar : List Int) : loadInterval (saveInterval i ++ ar) = some (i, ar) := rfl

theorem loadNat_save (k : Nat) (ar : List Int) : loadNat ([(k : Int)] ++ ar) = some (k, ar) := by
  show some ((k : Int).toNat, ar) = _
  rw [Int.toNat_natCast]

/-- A loop over an array: each element read is what `f` makes of the saved one and of the existing one. -/
theorem loadArr_save {α : Type} {save : α → List Int} {load : α → List Int → Option (α × List Int)} {f : α → α → α}
    (h : ∀ old x ar, load old (save x ++ ar) = some (f old x, ar)) :
    ∀ (k d : Nat) (b a : Nat → α) (ar : List Int),
      loadArr load k d b (((List.range' d k).flatMap fun d => save (a d)) ++ ar) = some (fun e => if d ≤ e ∧ e < d + k then f (b e) (a e) else b e, ar) := by
  intro k
  induction k with
  | zero =>
    intro d b a ar
    show some (b, ar) = _
    congr 2
    funext e
    rw [if_neg (by omega)]
  | succ k ih =>
    intro d b a ar
    rw [List.range'_succ, List.flatMap_cons, List.append_assoc]
    unfold loadArr
    rw [h]
    simp only []
    rw [ih]
    congr 2
    funext e
    by_cases he : e = d
    · subst he
      rw [if_neg (by omega), if_pos (by omega), Function.update_self]
    · rw [Function.update_of_ne he]
      by_cases h' : d + 1 ≤ e ∧ e < d + 1 + k
      · rw [if_pos h', if_pos (by omega)]
      · rw [if_neg h', if_neg (by omega)]

theorem loadArr_save' {α : Type} {save : α → List Int} {load : α → List Int → Option (α × List Int)} {f : α → α → α}
    (h : ∀ old x ar, load old (save x ++ ar) = some (f old x, ar)) (k : Nat) (b a : Nat → α) (ar : List Int) :
    loadArr load k 0 b (saveArr save k a ++ ar) = some (fun e => if e < k then f (b e) (a e) else b e, ar) := by
  unfold saveArr
  rw [List.range_eq_range', loadArr_save h]
  congr 2
  funext e
  by_cases he : e < k
  · rw [if_pos (by omega), if_pos he]
  · rw [if_neg (by omega), if_neg he]

/-- What reading a saved array of level makes of an existing one: intervals, offsets and level are those of the saved one. -/
def readGLCA (n : Nat) (old L : GLCA) : GLCA :=
  { old with lca := ⟨L.lca.level, fun d => if d < n + 1 then L.lca.cells d else old.lca.cells d, fun d => if d < n then L.lca.offsets d else old.lca.offsets d⟩ }

theorem loadGLCA_save (n : Nat) (old L : GLCA) (ar : List Int) : loadGLCA n old (saveGLCA n L ++ ar) = some (readGLCA n old L, ar) := by
  unfold loadGLCA saveGLCA
  rw [List.append_assoc, List.append_assoc,
    loadArr_save' (f := fun _ x => x) (save := saveVec saveInterval) (fun _ x ar => loadVec_save loadInterval_save x ar)]
  simp only []
  rw [loadArr_save' (f := fun _ x => x) (save := saveVec fun k : Nat => [(k : Int)]) (fun _ x ar => loadVec_save loadNat_save x ar)]
  simp only []
  rw [loadNat_save]
  rfl

/-- The same for an array of levels. -/
def readGCA (n : Nat) (old c : GCA) : GCA := { old with lca := fun l => if l < old.maxSize + 1 then readGLCA n (old.lca l) (c.lca l) else old.lca l }

theorem loadGCA_save (n : Nat) (old c : GCA) (hm : c.maxSize = old.maxSize) (ar : List Int) : loadGCA n old (saveGCA n c ++ ar) = some (readGCA n old c, ar) := by
  unfold loadGCA saveGCA
  rw [hm, loadArr_save' (f := readGLCA n) (loadGLCA_save n)]
  rfl

theorem loadGCAs_save (n : Nat) : ∀ (old cs : List GCA), List.Forall₂ (fun o c => c.maxSize = o.maxSize) old cs → ∀ ar : List Int,
    loadGCAs n old (cs.flatMap (saveGCA n) ++ ar) = some (List.zipWith (readGCA n) old cs, ar) := by
  intro old cs h
  induction h with
  | nil => intro ar; rfl
  | cons h1 _ ih =>
    intro ar
    rw [List.flatMap_cons, List.append_assoc]
    unfold loadGCAs
    rw [loadGCA_save n _ _ h1]
    simp only []
    rw [ih]
    rfl

/-! ### partition -/

theorem lcaOfCalls_mem {n level : Nat} {calls : List Call} (h : ∀ c ∈ calls, c.1.length = n ∧ c.2.start < c.2.stop) :
    (lcaOfCalls n level calls).WF n ∧ ∀ p, (lcaOfCalls n level calls).Mem n p ↔ Covers calls p := by
  have hi : ∀ c ∈ calls.map (fun c : Call => CellCall.interval c.1 c.2), c.idx.length = n := by
    intro c hc
    obtain ⟨c', hc', rfl⟩ := List.mem_map.1 hc
    exact (h c' hc').1
  have hv : ∀ c ∈ calls.map (fun c : Call => CellCall.interval c.1 c.2), c.Valid := by
    intro c hc
    obtain ⟨c', hc', rfl⟩ := List.mem_map.1 hc
    exact (h c' hc').2
  refine ⟨C06_wellformed n level _ hi hv, fun p => ?_⟩
  unfold lcaOfCalls
  rw [C06_content n level _ hi]
  unfold Covers
  constructor
  · rintro ⟨c, hc, ha⟩
    obtain ⟨c', hc', rfl⟩ := List.mem_map.1 hc
    obtain ⟨x, h1, h2, h3⟩ := ha
    exact ⟨c', hc', x, ⟨h1, h2⟩, h3⟩
  · rintro ⟨c, hc, x, hx, rfl⟩
    exact ⟨_, List.mem_map.2 ⟨c, hc, rfl⟩, x, hx.1, hx.2, rfl⟩

theorem partition_fold (lo hi : Nat) : ∀ (l : List Call) (k : Nat) (acc : List Call),
    ∃ out, l.foldl (fun s e => partitionStep lo hi s e.1 e.2) (k, acc) = (k + l.length, out) ∧
      ∀ c, c ∈ out ↔ c ∈ acc ∨ ∃ j, l[j]? = some c ∧ lo ≤ k + j ∧ k + j < hi := by
  intro l
  induction l with
  | nil => intro k acc; exact ⟨acc, rfl, fun c => by simp⟩
  | cons e l ih =>
    intro k acc
    obtain ⟨out, h1, h2⟩ := ih (k + 1) (if lo ≤ k ∧ k < hi then acc ++ [(e.1, e.2)] else acc)
    refine ⟨out, ?_, fun c => ?_⟩
    · rw [List.foldl_cons]
      show List.foldl _ (k + 1, if lo ≤ k ∧ k < hi then acc ++ [(e.1, e.2)] else acc) l = _
      rw [h1, List.length_cons]
      congr 1
      omega
    · rw [h2]
      constructor
      · rintro (h | ⟨j, h3, h4, h5⟩)
        · split at h
          · rename_i hk
            rcases List.mem_append.1 h with h | h
            · exact Or.inl h
            · rw [List.mem_singleton] at h
              exact Or.inr ⟨0, by rw [h]; rfl, by omega, by omega⟩
          · exact Or.inl h
        · exact Or.inr ⟨j + 1, h3, by omega, by omega⟩
      · rintro (h | ⟨j, h3, h4, h5⟩)
        · left
          split
          · exact List.mem_append.2 (Or.inl h)
          · exact h
        · cases j with
          | zero =>
            left
            rw [if_pos (by omega)]
            have : e = c := by simpa using h3
            exact List.mem_append.2 (Or.inr (by rw [← this]; exact List.mem_singleton.2 rfl))
          | succ j => exact Or.inr ⟨j, h3, by omega, by omega⟩

theorem partition_spec {n : Nat} {domain : LCA} (h : domain.WF n) (startLevel rank size : Nat) :
    ∃ L, partitionMesh n startLevel domain rank size = some L ∧ L.WF n ∧ ∀ p, L.Mem n p ↔
      ∃ j c, (domain.rows n)[j]? = some c ∧ rank * (domain.nbIntervals n / size) ≤ j ∧ j < (rank + 1) * (domain.nbIntervals n / size) ∧ ∃ x ∈ c.2, p = c.1 ++ [x] := by
  obtain ⟨L', h1⟩ := forEach_const h (partitionStep (rank * (domain.nbIntervals n / size)) ((rank + 1) * (domain.nbIntervals n / size))) (0, [])
  obtain ⟨out, h2, h3⟩ := partition_fold (rank * (domain.nbIntervals n / size)) ((rank + 1) * (domain.nbIntervals n / size)) (domain.rows n) 0 []
  have hv : ∀ c ∈ out, c.1.length = n ∧ c.2.start < c.2.stop := by
    intro c hc
    rcases (h3 c).1 hc with h | ⟨j, h4, -⟩
    · cases h
    · exact rows_valid h (List.mem_of_getElem? h4)
  obtain ⟨w1, w2⟩ := lcaOfCalls_mem (level := startLevel) hv
  refine ⟨lcaOfCalls n startLevel out, ?_, w1, fun p => ?_⟩
  · unfold partitionMesh
    simp only []
    rw [h1, h2]
    rfl
  · rw [w2]
    unfold Covers
    constructor
    · rintro ⟨c, hc, x, hx, e⟩
      rcases (h3 c).1 hc with h | ⟨j, h4, h5, h6⟩
      · cases h
      · exact ⟨j, c, h4, by omega, by omega, x, hx, e⟩
    · rintro ⟨j, c, h4, h5, h6, x, hx, e⟩
      exact ⟨c, (h3 c).2 (Or.inr ⟨j, h4, by omega, by omega⟩), x, hx, e⟩

/-- A cell lies in one row only. -/
theorem rows_cell_unique {n : Nat} {L : LCA} (h : L.WF n) {a b : Nat} {c d : List Int × Interval} (ha : (L.rows n)[a]? = some c) (hb : (L.rows n)[b]? = some d)
    {x y : Int} (hx : x ∈ c.2) (hy : y ∈ d.2) (he : c.1 ++ [x] = d.1 ++ [y]) : a = b := by
  have hs := rows_sorted h
  rw [List.pairwise_iff_getElem] at hs
  obtain ⟨ha1, ha2⟩ := List.getElem?_eq_some_iff.1 ha
  obtain ⟨hb1, hb2⟩ := List.getElem?_eq_some_iff.1 hb
  subst ha2 hb2
  rcases Nat.lt_trichotomy a b with h | h | h
  · have := hs a b ha1 hb1 h x hx y hy
    rw [he] at this
    exact absurd this (List.lt_irrefl _)
  · exact h
  · have := hs b a hb1 ha1 h y hy x hx
    rw [he] at this
    exact absurd this (List.lt_irrefl _)

end Samurai

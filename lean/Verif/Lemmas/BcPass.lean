import Verif.Lemmas.BcGeo
import Verif.Lemmas.FluxScheme
import Verif.Lemmas.Stencil
import Verif.Lemmas.Update

namespace Samurai

/-! ### the stencil of a direction -/

/-- The direction of the stencils after `convert_for_direction`. -/
def convDir (n : Nat) (dir : Nat → Int) : Nat → Int := fun k =>
  if n = 0 then (if k = 0 then dir 0 else 0)
  else
    let d := findDirectionIndex n dir
    let d := if d = 0 then d + 1 else d
    if k = d then dir d else if k = 0 then dir 0 else 0

theorem convert_line (n : Nat) (dir : Nat → Int) (k : Nat) :
    convertForDirection n (lineStencil 0 (2 * k)) dir = (List.range (2 * k)).map fun i : Nat => fun d => ((i : Int) - k + 1) * convDir n dir d := by
  unfold convertForDirection lineStencil lineStencilFrom
  have h0 : Int.tdiv (-((2 * k : Nat) : Int)) 2 + 1 = - (k : Int) + 1 := by
    rw [Int.neg_tdiv, Int.tdiv_eq_ediv_of_nonneg (by omega)]; omega
  rw [h0]
  by_cases hn : n = 0
  · rw [if_pos hn, List.map_map]
    apply List.map_congr_left
    intro i _
    funext d
    simp only [Function.comp, convDir, if_pos hn]
    by_cases hd : d = 0
    · simp only [if_pos hd]; ring
    · simp only [if_neg hd]; ring
  · rw [if_neg hn, List.map_map]
    apply List.map_congr_left
    intro i _
    funext q
    simp only [Function.comp, convDir, if_neg hn, rotateVec]
    have hd : (if findDirectionIndex n dir = 0 then findDirectionIndex n dir + 1 else findDirectionIndex n dir) ≠ 0 := by
      split <;> omega
    generalize (if findDirectionIndex n dir = 0 then findDirectionIndex n dir + 1 else findDirectionIndex n dir) = e at hd
    by_cases h1 : q = e
    · simp only [if_pos h1, if_neg hd, if_true]; ring
    · simp only [if_neg h1]
      by_cases h2 : q = 0
      · simp only [if_pos h2, if_neg hd, if_true]; ring
      · simp only [if_neg h2]; ring

theorem findDirFrom_first (dir : Nat → Int) : ∀ (k i : Nat), (∃ d, i ≤ d ∧ d < i + k ∧ dir d ≠ 0) →
    i ≤ findDirFrom dir k i ∧ findDirFrom dir k i < i + k ∧ dir (findDirFrom dir k i) ≠ 0 := by
  intro k
  induction k with
  | zero => rintro i ⟨d, h1, h2, _⟩; omega
  | succ k ih =>
    rintro i ⟨d, h1, h2, h3⟩
    unfold findDirFrom
    by_cases hi : dir i ≠ 0
    · rw [if_pos hi]; exact ⟨le_rfl, by omega, hi⟩
    · rw [if_neg hi]
      have := ih (i + 1) ⟨d, by
        rcases Nat.eq_or_lt_of_le h1 with rfl | h
        · exact absurd h3 hi
        · omega, by omega, h3⟩
      exact ⟨by omega, by omega, this.2.2⟩

theorem findDirectionIndex_spec {n : Nat} {dir : Nat → Int} (h : ∃ d ≤ n, dir d ≠ 0) :
    findDirectionIndex n dir ≤ n ∧ dir (findDirectionIndex n dir) ≠ 0 := by
  obtain ⟨d, h1, h2⟩ := h
  have := findDirFrom_first dir (n + 1) 0 ⟨d, by omega, by omega, h2⟩
  exact ⟨by unfold findDirectionIndex; omega, this.2.2⟩

theorem convDir_sub (n : Nat) (dir : Nat → Int) (k : Nat) : convDir n dir k = dir k ∨ convDir n dir k = 0 := by
  unfold convDir
  by_cases hn : n = 0
  · simp only [if_pos hn]
    by_cases h : k = 0
    · left; rw [if_pos h, h]
    · right; rw [if_neg h]
  · simp only [if_neg hn]
    generalize (if findDirectionIndex n dir = 0 then findDirectionIndex n dir + 1 else findDirectionIndex n dir) = e
    by_cases h1 : k = e
    · left; rw [if_pos h1, h1]
    · rw [if_neg h1]
      by_cases h2 : k = 0
      · left; rw [if_pos h2, h2]
      · right; rw [if_neg h2]

theorem convDir_ne {n : Nat} {dir : Nat → Int} (h : ∃ d ≤ n, dir d ≠ 0) : ∃ d ≤ n, convDir n dir d ≠ 0 := by
  obtain ⟨h1, h2⟩ := findDirectionIndex_spec h
  refine ⟨findDirectionIndex n dir, h1, ?_⟩
  unfold convDir
  by_cases hn : n = 0
  · simp only [if_pos hn]
    rw [if_pos (by omega)]
    rwa [show findDirectionIndex n dir = 0 by omega] at h2
  · simp only [if_neg hn]
    by_cases h0 : findDirectionIndex n dir = 0
    · rw [h0] at h2
      simp only [h0, if_true]
      rw [if_neg (by omega)]
      exact h2
    · simp only [if_neg h0, if_true]
      exact h2

theorem convDir_le_one {n : Nat} (hn : n ≤ 1) (dir : Nat → Int) : ∀ d ≤ n, convDir n dir d = dir d := by
  intro d hd
  unfold convDir
  rcases Nat.eq_zero_or_pos n with h0 | h0
  · simp only [if_pos h0]
    rw [if_pos (by omega), show d = 0 by omega]
  · simp only [if_neg (by omega : n ≠ 0)]
    by_cases hd0 : d = 0
    · rw [hd0]
      rw [if_neg (by split <;> omega)]
      rfl
    · have hd1 : d = 1 := by omega
      have hle : findDirectionIndex n dir ≤ 1 := by
        have : ∀ (k i : Nat), findDirFrom dir k i < i + k ∨ findDirFrom dir k i = 0 := by
          intro k
          induction k with
          | zero => intro i; right; rfl
          | succ k ih =>
            intro i
            unfold findDirFrom
            split
            · left; omega
            · rcases ih (i + 1) with h | h <;> omega
        have := this (n + 1) 0
        unfold findDirectionIndex
        omega
      rw [if_pos (by split <;> omega)]
      have : (if findDirectionIndex n dir = 0 then findDirectionIndex n dir + 1 else findDirectionIndex n dir) = d := by split <;> omega
      rw [this]

theorem convDir_axis {n : Nat} {dir : Nat → Int} (h : OneAxis n dir) : ∀ d ≤ n, convDir n dir d = dir d := by
  obtain ⟨e, he, hne, h0⟩ := h
  obtain ⟨d, hd, hc⟩ := convDir_ne ⟨e, he, hne⟩
  have hde : d = e := by
    by_contra hcon
    rcases convDir_sub n dir d with h | h
    · rw [h, h0 d hd hcon] at hc; exact hc rfl
    · exact hc h
  intro q hq
  rcases convDir_sub n dir q with h | h
  · exact h
  · by_cases hqe : q = e
    · rw [hqe, ← hde] at h; exact absurd h hc
    · rw [h, h0 q hq hqe]

theorem Outward.sub {n : Nat} {b : Box} {p : List Int} {v w : Nat → Int} (h : Outward n b p v) (hs : ∀ d ≤ n, w d = v d ∨ w d = 0)
    (hne : ∃ d ≤ n, w d ≠ 0) : Outward n b p w := by
  obtain ⟨h1, ⟨h2, _⟩, h4⟩ := h
  refine ⟨h1, ⟨fun d hd => ?_, hne⟩, fun d hd hw => ?_⟩
  · rcases hs d hd with h | h
    · rw [h]; exact h2 d hd
    · right; left; exact h
  · rcases hs d hd with h | h
    · rw [h] at hw ⊢; exact h4 d hd hw
    · exact absurd h hw

theorem Outward.conv {n : Nat} {b : Box} {p : List Int} {v : Nat → Int} (h : Outward n b p v) : Outward n b p (convDir n v) :=
  h.sub (fun d _ => convDir_sub n v d) (convDir_ne h.2.1.2)

/-! ### cells and numbers -/

/-- The number of a cell. -/
def numOf (n : Nat) (ref : CA) (level : Nat) (p : List Int) : Int := (getIndex (ref.lca level) n p.dropLast (p.getLastD 0)).getD 0

/-- The cell with the coordinates `p`. -/
def mcell (n : Nat) (ref : CA) (level : Nat) (p : List Int) : MCell := ⟨level, p.dropLast, p.getLastD 0, numOf n ref level p⟩

theorem cellNum_eq {n : Nat} {ref : CA} {level : Nat} (hw : (ref.lca level).WF n) {p : List Int} {m : MCell} (h : CellNum n ref level p m) :
    m = mcell n ref level p := by
  obtain ⟨h1, h2, h3⟩ := h
  obtain ⟨ml, yz, x, idx⟩ := m
  simp only [MCell.pt] at h2
  simp only at h1 h3
  subst h1 h2
  unfold mcell numOf
  have := num_get hw h3
  simp [this]

theorem numOf_num {n : Nat} {ref : CA} {level : Nat} (hw : (ref.lca level).WF n) {yz : List Int} {x : Int} (h : (ref.lca level).Mem n (yz ++ [x])) :
    Num n (ref.lca level) yz x (numOf n ref level (yz ++ [x])) := by
  obtain ⟨v, h1, h2⟩ := num_of_mem hw h
  unfold numOf
  simpa [h1] using h2

theorem exists_snoc {n : Nat} {p : List Int} (h : p.length = n + 1) : ∃ yz x, p = yz ++ [x] ∧ yz.length = n := by
  refine ⟨p.dropLast, p.getLast (by intro h0; rw [h0] at h; simp at h), (List.dropLast_append_getLast _).symm, ?_⟩
  rw [List.length_dropLast]; omega

theorem numOf_numbered {n : Nat} {ref : CA} (hw : ref.WF n) {level : Nat} {p : List Int} (h : ref.Mem n level p) :
    (level, p, numOf n ref level p) ∈ ref.numbered n := by
  have hl := mem_length h.2
  obtain ⟨yz, x, rfl, _⟩ := exists_snoc hl
  exact num_numbered h.1 (numOf_num (hw level h.1) h.2)

theorem mcell_is {n : Nat} {ref : CA} (hw : ref.WF n) {level : Nat} {p : List Int} (h : ref.Mem n level p) :
    CellIs n ref level p (mcell n ref level p) := by
  have hl := mem_length h.2
  refine ⟨rfl, ?_, numOf_numbered hw h⟩
  obtain ⟨yz, x, rfl, _⟩ := exists_snoc hl
  simp [mcell, MCell.pt]

theorem numOf_inj {n : Nat} {ref : CA} (hw : ref.WF n) (hd : ref.NumbersDiffer n) {level : Nat} {p q : List Int} (hp : ref.Mem n level p)
    (hq : ref.Mem n level q) (h : numOf n ref level p = numOf n ref level q) : p = q := by
  have h1 := numOf_numbered hw hp
  have h2 := numOf_numbered hw hq
  rw [h] at h1
  exact (number_inj hd h1 h2).2

/-- The arguments of the callback of `for_each_stencil` on the cell `p`. -/
def lineCells (n : Nat) (ref : CA) (level k : Nat) (v : Nat → Int) (p : List Int) : List MCell :=
  (List.range (2 * k)).map fun i : Nat => mcell n ref level (walk n p ((i : Int) - k + 1) v)

theorem cellAt_line {n : Nat} {ref : CA} {level k : Nat} {v : Nat → Int} {p : List Int} {i : Nat} (h : i < 2 * k) :
    cellAt (lineCells n ref level k v p) i = mcell n ref level (walk n p ((i : Int) - k + 1) v) := by
  unfold cellAt lineCells
  rw [List.getD_eq_getElem?_getD, List.getElem?_map, List.getElem?_range h]
  rfl

theorem origin_line {n : Nat} {v : Nat → Int} (hv : ∃ d ≤ n, v d ≠ 0) {k : Nat} (hk : 1 ≤ k) :
    stencilOrigin n ((List.range (2 * k)).map fun i : Nat => fun d => ((i : Int) - k + 1) * v d) = some (k - 1) := by
  obtain ⟨i, h1, s, h2, h3⟩ := stencilFind_of (n := n) (S := (List.range (2 * k)).map fun i : Nat => fun d => ((i : Int) - k + 1) * v d)
    (v := fun _ => 0) ⟨_, List.mem_map.2 ⟨k - 1, List.mem_range.2 (by omega), rfl⟩, fun d _ => by
      show (((k - 1 : Nat) : Int) - k + 1) * v d = 0
      rw [show ((k - 1 : Nat) : Int) - k + 1 = 0 by omega]; ring⟩
  have h1 : stencilOrigin n ((List.range (2 * k)).map fun i : Nat => fun d => ((i : Int) - k + 1) * v d) = some i := h1
  rw [h1]
  rw [List.getElem?_map] at h2
  by_cases hi : i < 2 * k
  · rw [List.getElem?_range hi] at h2
    simp only [Option.map_some, Option.some.injEq] at h2
    obtain ⟨d, hd, hne⟩ := hv
    have := h3 d hd
    rw [← h2] at this
    rcases Int.mul_eq_zero.1 this with h | h
    · congr 1; omega
    · exact absurd h hne
  · rw [List.getElem?_eq_none (by simpa using hi)] at h2
    simp at h2

/-! ### `__apply_bc_on_subset` -/

section
variable {K : Type}

theorem forall₂_eq_map {α β : Type} {R : α → β → Prop} {g : α → β} (h : ∀ a b, R a b → b = g a) : ∀ {l : List α} {l' : List β}, List.Forall₂ R l l' →
    l' = l.map g := by
  intro l l' hl
  induction hl with
  | nil => rfl
  | cons h1 _ ih => rw [List.map_cons, ← h _ _ h1, ← ih]

/-- The pass is a loop on the cells of the set, each cell once. -/
theorem applyOnSubset_spec {n : Nat} {ref : CA} (hw : ref.WF n) {level : Nat} (hl : level ≤ ref.maxSize) {v : Nat → Int} (hv : UnitVector n v)
    {k : Nat} (hk : 1 ≤ k) {e : Expr Node} (ha : e.Admissible n) (hf : level ≤ e.finest) {P : List Int → Prop} (hP : ∀ p, e.HoldsAt n level p ↔ P p)
    (havail : ∀ p, P p → ∀ j : Int, - (k : Int) < j → j ≤ k → ref.Mem n level (walk n p j v))
    (f : (Int → K) → List MCell → K → Int → K) (value : MCell → K) (u : Int → K) :
    ∃ ps : List (List Int), ps.Nodup ∧ (∀ p, p ∈ ps ↔ P p) ∧
      applyOnSubset n ref level ((List.range (2 * k)).map fun i : Nat => fun d => ((i : Int) - k + 1) * v d) e f value u =
        some (ps.foldl (fun u p => f u (lineCells n ref level k v p) (value (mcell n ref level p))) u) := by
  obtain ⟨calls, c1, c2, c3, c4⟩ := runSet_canon ha hf
  have hmem : ∀ p, p ∈ callCells calls ↔ P p := fun p => by rw [mem_callCells, c4, hP]
  have hS0 : ∀ s ∈ ((List.range (2 * k)).map fun i : Nat => fun d => ((i : Int) - k + 1) * v d), ∃ j : Int, - (k : Int) < j ∧ j ≤ k ∧ s = fun d => j * v d := by
    intro s hs
    obtain ⟨i, hi, rfl⟩ := List.mem_map.1 hs
    have := List.mem_range.1 hi
    exact ⟨_, by omega, by omega, rfl⟩
  have rows : ∀ c ∈ calls, ∃ fs, stencilRow n ref ((List.range (2 * k)).map fun i : Nat => fun d => ((i : Int) - k + 1) * v d) level c = some fs ∧
      List.Forall₂ (CellsOf n ref level ((List.range (2 * k)).map fun i : Nat => fun d => ((i : Int) - k + 1) * v d))
        ((coords1 c.2).map fun x => c.1 ++ [x]) fs := by
    intro c hc
    have hlen := c3 c hc
    obtain ⟨hlt, _⟩ := c2.2 c hc
    have hin : ∀ x ∈ c.2, P (c.1 ++ [x]) := fun x hx => (hP _).1 ((c4 _).1 ⟨c, hc, x, hx, rfl⟩)
    have hav : Avail n (ref.lca level) ((List.range (2 * k)).map fun i : Nat => fun d => ((i : Int) - k + 1) * v d) c := by
      refine ⟨fun x hx => ?_, fun s hs x hx => ?_, fun s hs h0 x hx t ht => ?_⟩
      · have := (havail _ (hin x hx) 0 (by omega) (by omega)).2
        rwa [walk_zero] at this
      · obtain ⟨j, j1, j2, rfl⟩ := hS0 s hs
        have := (havail _ (hin x hx) j j1 j2).2
        unfold walk at this
        rwa [shift_snoc' hlen] at this
      · obtain ⟨j, j1, j2, rfl⟩ := hS0 s hs
        simp only at h0 ht
        have main : ∀ j' : Int, - (k : Int) < j' → j' ≤ k → (∀ q < n, j' * v (q + 1) = 0) → (ref.lca level).Mem n (c.1 ++ [x + j' * v 0]) := by
          intro j' a1 a2 a3
          have := (havail _ (hin x hx) j' a1 a2).2
          unfold walk at this
          rw [shift_snoc' hlen] at this
          have e : shiftPoint (fun d => j' * v d) n c.1 = c.1 := by
            subst hlen; exact shift_row a3
          rwa [e] at this
        by_cases hj : j = 0
        · subst hj
          have : t = 0 := by omega
          subst this
          have := main 0 (by omega) (by omega) (fun q _ => by ring)
          rwa [show (0 : Int) * v 0 = 0 by ring] at this
        · have hz : ∀ q < n, v (q + 1) = 0 := fun q hq => by
            rcases Int.mul_eq_zero.1 (h0 q hq) with h | h
            · exact absurd h hj
            · exact h
          rcases hv.1 0 (by omega) with h | h | h
          · rw [h] at ht
            have := main (-t) (by omega) (by omega) (fun q hq => by rw [hz q hq]; ring)
            rw [h] at this
            rwa [show - t * -1 = t by ring] at this
          · rw [h] at ht
            have : t = 0 := by omega
            subst this
            have := main 0 (by omega) (by omega) (fun q _ => by ring)
            rwa [show (0 : Int) * v 0 = 0 by ring] at this
          · rw [h] at ht
            have := main t (by omega) (by omega) (fun q hq => by rw [hz q hq]; ring)
            rw [h] at this
            rwa [show t * 1 = t by ring] at this
    obtain ⟨l, l1, l2⟩ := stencilInit_spec (hw level hl) hlen hlt hav ⟨_, List.mem_map.2 ⟨k - 1, List.mem_range.2 (by omega), rfl⟩, fun d _ => by
      show (((k - 1 : Nat) : Int) - k + 1) * v d = 0
      rw [show ((k - 1 : Nat) : Int) - k + 1 = 0 by omega]; ring⟩
    refine ⟨_, by unfold stencilRow; rw [l1]; rfl, ?_⟩
    have hs := slide_of (next := stencilNext) (fun i => l.map fun m => m.at i) (fun i => stencilNext_at l i) c.2.size
    simp only [map_at_zero] at hs
    rw [hs, rowCells_eq]
    apply forall₂_range
    intro i hi
    exact slides_cells hlen l2 hi
  obtain ⟨fs, f1, f2⟩ := facesOf_spec rows
  have hfs : fs = (callCells calls).map (lineCells n ref level k v) := by
    refine forall₂_eq_map (fun p l hl' => ?_) f2
    unfold CellsOf at hl'
    rw [List.forall₂_map_left_iff] at hl'
    exact forall₂_eq_map (fun i m hm => cellNum_eq (hw level hl) hm) hl'
  refine ⟨callCells calls, callCells_nodup c2, hmem, ?_⟩
  unfold applyOnSubset stencilsOf
  rw [origin_line hv.2 hk, c1]
  simp only []
  rw [f1]
  simp only []
  rw [hfs, List.foldl_map]
  have : ∀ p, cellAt (lineCells n ref level k v p) (k - 1) = mcell n ref level p := fun p => by
    rw [cellAt_line (by omega), show ((k - 1 : Nat) : Int) - k + 1 = 0 by omega, walk_zero]
  simp only [this]

/-! ### a pass as one simultaneous assignment -/

/-- A loop whose steps write the numbers `W p` with values computed from numbers that no step writes. -/
theorem foldl_pass {α : Type} {step : (Int → K) → α → Int → K} {W : α → Int → Prop} {R : α → Int → Prop} {val : (Int → K) → α → Int → K} :
    ∀ {ps : List α}, ps.Nodup → (∀ p ∈ ps, ∀ u i, (¬ W p i → step u p i = u i) ∧ (W p i → step u p i = val u p i)) →
      (∀ p ∈ ps, ∀ u u' : Int → K, (∀ i, R p i → u i = u' i) → ∀ i, W p i → val u p i = val u' p i) →
      (∀ p ∈ ps, ∀ q ∈ ps, ∀ i, W p i → ¬ R q i) → (∀ p ∈ ps, ∀ q ∈ ps, p ≠ q → ∀ i, W p i → ¬ W q i) → ∀ u,
      (∀ i, (∀ p ∈ ps, ¬ W p i) → ps.foldl step u i = u i) ∧ ∀ p ∈ ps, ∀ i, W p i → ps.foldl step u i = val u p i := by
  intro ps
  induction ps with
  | nil => intro _ _ _ _ _ u; exact ⟨fun i _ => rfl, fun p hp => by simp at hp⟩
  | cons a ps ih =>
    intro hnd hstep hval hRW hWW u
    rw [List.nodup_cons] at hnd
    obtain ⟨i1, i2⟩ := ih hnd.2 (fun p hp => hstep p (List.mem_cons_of_mem _ hp)) (fun p hp => hval p (List.mem_cons_of_mem _ hp))
      (fun p hp q hq => hRW p (List.mem_cons_of_mem _ hp) q (List.mem_cons_of_mem _ hq))
      (fun p hp q hq => hWW p (List.mem_cons_of_mem _ hp) q (List.mem_cons_of_mem _ hq)) (step u a)
    constructor
    · intro i hi
      rw [List.foldl_cons, i1 i fun p hp => hi p (List.mem_cons_of_mem _ hp)]
      exact (hstep a (by simp) u i).1 (hi a (by simp))
    · intro p hp i hW
      rw [List.foldl_cons]
      rcases List.mem_cons.1 hp with rfl | hp'
      · rw [i1 i fun q hq hq' => hWW p (by simp) q (List.mem_cons_of_mem _ hq) (by rintro rfl; exact hnd.1 hq) i hW hq']
        exact (hstep p (by simp) u i).2 hW
      · rw [i2 p hp' i hW]
        apply hval p hp _ _ _ i hW
        intro j hj
        exact (hstep a (by simp) u j).1 fun hW' => hRW a (by simp) p hp j hW' hj

end

end Samurai

import Verif.Lemmas.AdaptTags

namespace Samurai

/-! ### the criteria, exactly -/

/-- The family of the parent `p` is below the threshold. In dimension 1 only the first child is looked at. -/
def SmallFamily (n : Nat) (D : DetailMasks) (level : Nat) (p : List Int) : Prop :=
  (if n = 0 then ((childrenOf p).take 1).all (D.small (level + 1)) else (childrenOf p).all (D.small (level + 1))) = true

theorem foldl_put_const {K : Type} (l : Nat) (v : K) (L : List (List Int)) (l' : Nat) (p' : List Int) (new : CellField K) :
    L.foldl (fun (new : CellField K) p => new.put l p v) new l' p' = if l' = l ∧ p' ∈ L then v else new l' p' :=
  foldl_put l (fun _ => v) L l' p' new

open Classical in
theorem tagToCoarsen {n minL level : Nat} {D : DetailMasks} {calls : List Call} {t : TagField} (l : Nat) (q : List Int) :
    tagCells (toCoarsenCell n minL D level) calls t l q =
      if l = level + 1 ∧ Covers calls (parentOf q) ∧ minL < level + 1 ∧ SmallFamily n D level (parentOf q) then CellFlag.coarsen else t l q := by
  rw [← mem_callCells]
  unfold tagCells
  generalize callCells calls = L
  have hcell : ∀ (t : TagField) p, toCoarsenCell n minL D level t p l q =
      if l = level + 1 ∧ parentOf q = p ∧ minL < level + 1 ∧ SmallFamily n D level p then CellFlag.coarsen else t l q := by
    intro t p
    unfold toCoarsenCell
    by_cases h1 : level + 1 > minL
    · rw [if_pos h1]
      by_cases h2 : SmallFamily n D level p
      · have h2' := h2
        unfold SmallFamily at h2'
        rw [if_pos h2', foldl_put_const]
        simp only [mem_children, h2, and_true, show minL < level + 1 from h1]
      · have h2' := h2
        unfold SmallFamily at h2'
        rw [if_neg h2', if_neg (fun h => h2 h.2.2.2)]
    · rw [if_neg h1, if_neg (fun h => h1 h.2.2.1)]
  induction L generalizing t with
  | nil => simp
  | cons p L ih =>
    rw [List.foldl_cons, ih, hcell]
    by_cases h1 : parentOf q ∈ L
    · simp only [List.mem_cons, h1, or_true, true_and]
      split
      · rfl
      · rename_i h2
        rw [if_neg (fun h => h2 ⟨h.1, h.2.2.1, by rw [h.2.1]; exact h.2.2.2⟩)]
    · rw [if_neg (fun h => h1 h.2.1)]
      by_cases h3 : parentOf q = p
      · subst h3
        simp
      · rw [if_neg (fun h => h3 h.2.1), if_neg (fun h => (List.mem_cons.1 h.2.1).elim h3 h1)]

/-- The effect of `to_refine_mr_op` on the tag of one child. -/
def refinedTag (maxL : Nat) (D : DetailMasks) (level : Nat) (q : List Int) (v : BitVec 32) : BitVec 32 :=
  if level + 1 < maxL ∧ D.large (level + 1) q = true then CellFlag.refine
  else if D.largeParent level (parentOf q) = true then v ||| CellFlag.keep else v

theorem refinedTag_idem (maxL : Nat) (D : DetailMasks) (level : Nat) (q : List Int) (v : BitVec 32) :
    refinedTag maxL D level q (refinedTag maxL D level q v) = refinedTag maxL D level q v := by
  unfold refinedTag
  split
  · rfl
  · split
    · rw [or_idem]
    · rfl

theorem tagToRefine {maxL level : Nat} {D : DetailMasks} {calls : List Call} {t : TagField} (l : Nat) (q : List Int)
    [Decidable (Covers calls (parentOf q))] :
    tagCells (toRefineCell maxL D level) calls t l q =
      if l = level + 1 ∧ Covers calls (parentOf q) then refinedTag maxL D level q (t l q) else t l q := by
  have hfold : ∀ (L : List (List Int)) (t : TagField),
      L.foldl (fun (t : TagField) q => if D.large (level + 1) q then t.put (level + 1) q CellFlag.refine else t) t l q =
        if l = level + 1 ∧ q ∈ L ∧ D.large (level + 1) q = true then CellFlag.refine else t l q := by
    intro L
    induction L with
    | nil => intro t; simp
    | cons p L ih =>
      intro t
      rw [List.foldl_cons, ih]
      by_cases hp : D.large (level + 1) p = true
      · rw [if_pos hp, put_apply]
        by_cases h1 : l = level + 1 ∧ q ∈ L ∧ D.large (level + 1) q = true
        · rw [if_pos h1, if_pos ⟨h1.1, List.mem_cons_of_mem _ h1.2.1, h1.2.2⟩]
        · rw [if_neg h1]
          by_cases h2 : l = level + 1 ∧ q = p
          · rw [if_pos h2, if_pos ⟨h2.1, by rw [h2.2]; exact List.mem_cons_self, by rw [h2.2]; exact hp⟩]
          · rw [if_neg h2, if_neg]
            rintro ⟨a, b, c⟩
            rcases List.mem_cons.1 b with b | b
            · exact h2 ⟨a, b⟩
            · exact h1 ⟨a, b, c⟩
      · rw [if_neg hp]
        by_cases h1 : l = level + 1 ∧ q ∈ L ∧ D.large (level + 1) q = true
        · rw [if_pos h1, if_pos ⟨h1.1, List.mem_cons_of_mem _ h1.2.1, h1.2.2⟩]
        · rw [if_neg h1, if_neg]
          rintro ⟨a, b, c⟩
          rcases List.mem_cons.1 b with b | b
          · rw [b] at c; exact hp c
          · exact h1 ⟨a, b, c⟩
  have hcell : ∀ (t : TagField) p, toRefineCell maxL D level t p l q =
      if l = level + 1 ∧ parentOf q = p then refinedTag maxL D level q (t l q) else t l q := by
    intro t p
    unfold toRefineCell refinedTag
    have hk : (if D.largeParent level p = true then (childrenOf p).foldl (fun t q => TagField.add CellFlag.keep t (level + 1) q) t else t) l q =
        if (l = level + 1 ∧ parentOf q = p) ∧ D.largeParent level p = true then t l q ||| CellFlag.keep else t l q := by
      by_cases h : D.largeParent level p = true
      · rw [if_pos h, foldl_add]
        simp only [mem_children, h, and_true]
      · rw [if_neg h, if_neg (fun h' => h h'.2)]
    by_cases h1 : level + 1 < maxL
    · rw [if_pos h1, hfold, hk]
      simp only [mem_children, h1, true_and]
      by_cases h2 : l = level + 1 ∧ parentOf q = p
      · rw [if_pos h2]
        obtain ⟨rfl, rfl⟩ := h2
        simp
      · rw [if_neg h2, if_neg (fun h => h2 ⟨h.1, h.2.1⟩), if_neg (fun h => h2 h.1)]
    · rw [if_neg h1, hk]
      simp only [h1, false_and, if_false]
      by_cases h2 : l = level + 1 ∧ parentOf q = p
      · obtain ⟨rfl, rfl⟩ := h2
        simp
      · rw [if_neg h2, if_neg (fun h => h2 h.1)]
  have key : ∀ (L : List (List Int)) (t : TagField), L.foldl (toRefineCell maxL D level) t l q =
      if l = level + 1 ∧ parentOf q ∈ L then refinedTag maxL D level q (t l q) else t l q := by
    intro L
    induction L with
    | nil => intro t; simp
    | cons p L ih =>
      intro t
      rw [List.foldl_cons, ih, hcell]
      by_cases h1 : l = level + 1 ∧ parentOf q ∈ L
      · rw [if_pos h1]
        rw [if_pos (show l = level + 1 ∧ parentOf q ∈ p :: L from ⟨h1.1, List.mem_cons_of_mem _ h1.2⟩)]
        split
        · rw [refinedTag_idem]
        · rfl
      · rw [if_neg h1]
        by_cases h2 : l = level + 1 ∧ parentOf q = p
        · rw [if_pos h2, if_pos ⟨h2.1, by rw [h2.2]; exact List.mem_cons_self⟩]
        · rw [if_neg h2, if_neg]
          rintro ⟨a, b⟩
          exact (List.mem_cons.1 b).elim (fun b => h2 ⟨a, b⟩) fun b => h1 ⟨a, b⟩
  unfold tagCells
  rw [key]
  by_cases h : l = level + 1 ∧ Covers calls (parentOf q)
  · rw [if_pos h, if_pos ⟨h.1, mem_callCells.2 h.2⟩]
  · rw [if_neg h, if_neg (fun h' => h ⟨h'.1, mem_callCells.1 h'.2⟩)]

open Classical in
theorem tagLeaves_apply {n : Nat} {cells : CA} (hw : cells.WF n) (l : Nat) (p : List Int) :
    tagLeaves n cells l p = if cells.Mem n l p then CellFlag.keep else 0#32 := by
  have key : ∀ (L : List (Nat × List Int × Int)) (t : TagField) l p,
      L.foldl (fun (t : TagField) e => t.put e.1 e.2.1 CellFlag.keep) t l p = CellFlag.keep ∧ (∃ v, (l, p, v) ∈ L) ∨
      L.foldl (fun (t : TagField) e => t.put e.1 e.2.1 CellFlag.keep) t l p = t l p ∧ ¬ ∃ v, (l, p, v) ∈ L := by
    intro L
    induction L with
    | nil => intro t l p; simp
    | cons e L ih =>
      intro t l p
      rw [List.foldl_cons]
      rcases ih (t.put e.1 e.2.1 CellFlag.keep) l p with ⟨h1, v, h2⟩ | ⟨h1, h2⟩
      · exact Or.inl ⟨h1, v, List.mem_cons_of_mem _ h2⟩
      · rw [h1, put_apply]
        by_cases he : l = e.1 ∧ p = e.2.1
        · exact Or.inl ⟨by rw [if_pos he], e.2.2, by rw [he.1, he.2]; exact List.mem_cons_self⟩
        · refine Or.inr ⟨by rw [if_neg he], ?_⟩
          rintro ⟨v, hv⟩
          rcases List.mem_cons.1 hv with h | h
          · exact he ⟨by rw [← h], by rw [← h]⟩
          · exact h2 ⟨v, h⟩
  unfold tagLeaves
  rcases key (cells.numbered n) (fun _ _ => 0#32) l p with ⟨h1, v, h2⟩ | ⟨h1, h2⟩
  · rw [h1, if_pos (CA.mem_of_numbered hw h2)]
  · rw [h1, if_neg (fun h => h2 (CA.exists_number hw h))]

theorem tagLeaves_keep {n : Nat} {cells : CA} (hw : cells.WF n) :
    (∀ l p, (tagLeaves n cells).Keep l p ↔ cells.Mem n l p) ∧ ∀ l p, ¬ (tagLeaves n cells).Refine l p := by
  refine ⟨fun l p => ?_, fun l p => ?_⟩
  · unfold TagField.Keep
    rw [tagLeaves_apply hw]
    split
    · rename_i h; exact ⟨fun _ => h, fun _ => by decide⟩
    · rename_i h; exact ⟨fun h' => absurd h' (by decide), fun h' => absurd h' h⟩
  · unfold TagField.Refine
    rw [tagLeaves_apply hw]
    split <;> decide

/-! ### invariants of the passes after the criteria -/

theorem balance_bound {n level : Nat} {s : Nat → Int} {K : Nat → List Int → Prop} (calls : List Call)
    (hK : ∀ p, Covers calls p → K level (subPoint s n p)) :
    ∀ t : TagField, (∀ l q, t.Keep l q → K l q) → ∀ l q, (calls.foldl (balanceRow n level s) t).Keep l q → K l q := by
  induction calls with
  | nil => exact fun t h => h
  | cons c cs ih =>
    intro t h
    rw [List.foldl_cons]
    refine ih (fun p hp => hK p ?_) _ fun l q hk => ?_
    · rw [← mem_callCells] at hp ⊢
      unfold callCells at hp ⊢
      rw [List.flatMap_cons]
      exact List.mem_append_right _ hp
    · unfold TagField.Keep balanceRow at hk
      split at hk
      · rename_i h1
        rcases (bits_copyKeep _ _).1.1 hk with h2 | h2
        · exact h l q h2
        · rw [h1.1, ← shift_sub s q n]
          refine hK _ ?_
          rw [← mem_callCells]
          unfold callCells
          rw [List.flatMap_cons]
          exact List.mem_append_left _ h1.2
      · exact h l q hk

section
variable {n gw : Nat} {dom : LCA} {minL maxL : Nat}

theorem harten_passes {m : SubMeshes} (S : AdaptSets n gw m.cells m.ghosts m.all dom maxL) (P : TagField → Prop)
    (hmax : ∀ level calls t, 1 ≤ level → (∀ p, Covers calls p ↔ (∃ c, m.cells.Mem n level c ∧ parentOf c = p) ∧ m.all.Mem n (level - 1) p) →
      P t → P (tagCells (maximumCell (level - 1)) calls t))
    (hkeep : ∀ level calls t, (∀ p, Covers calls p ↔ m.cells.Mem n level p) → P t → P (tagCells (keepAroundCell level) calls t))
    {enlarge : Bool} (henl : enlarge = true → ∀ level calls calls' t, P t →
      P (tagCells (tagToKeepCell CellFlag.enlarge level) calls' (tagCells (enlargeCell level) calls t)))
    (hbal : ∀ level s calls t, 1 ≤ level → s ∈ gradStencils n gw →
      (∀ p, Covers calls p ↔ (∃ c, m.cells.Mem n level c ∧ parentOf c = p) ∧ m.all.Mem n (level - 1) (subPoint s n p)) →
      P t → P (calls.foldl (balanceRow n (level - 1) s) t))
    (hgrad : ∀ level s calls t, minL < level → s ∈ gradStencils n gw →
      (∀ p, Covers calls p ↔ m.cells.Mem n level (subPoint s n p) ∧ m.all.Mem n (level - 1) (parentOf p) ∧
        AtLevel dom.level level (dom.Mem n) p) → P t → P (tagCells (graduateCell level) calls t))
    {ite : Nat} {D : DetailMasks} (hite : minL ≤ maxL - ite + 1) {t0 : TagField}
    (h0 : (List.range' minL (maxL - ite + 1 - minL)).foldlM (criteriaLevel n minL maxL D m.cells m.all) (tagLeaves n m.cells) = some t0)
    (hP : P t0) : ∃ t, hartenTags n gw minL maxL ite enlarge D m dom = some t ∧ P t := by
  obtain ⟨t1, a1, a2⟩ := foldRange (keepLevel n enlarge m.cells m.ghosts) (fun _ t => P t) minL (maxL - ite + 1 - minL) (by
    intro k s h1 h2 hs
    obtain ⟨calls, c1, c2⟩ := S.leaves k (by omega)
    obtain ⟨calls', g1⟩ := S.ghosts k (by omega)
    unfold keepLevel
    rw [c1]
    cases enlarge with
    | false => exact ⟨_, rfl, hkeep k calls s c2 hs⟩
    | true =>
      simp only [if_true]
      rw [g1]
      exact ⟨_, rfl, henl rfl k calls calls' _ (hkeep k calls s c2 hs)⟩) t0 hP
  have hb : ∀ level, 1 ≤ level → level ≤ maxL → ∀ (L : List (Nat → Int)), (∀ s ∈ L, s ∈ gradStencils n gw) → ∀ t, P t →
      ∃ t', L.foldlM (balanceStep n level m.cells m.all) t = some t' ∧ P t' := by
    intro level h1 h2 L
    induction L with
    | nil => exact fun _ t h => ⟨t, rfl, h⟩
    | cons s L ih =>
      intro hL t h
      obtain ⟨calls, c1, c2⟩ := S.balance level s h1 h2 (hL s List.mem_cons_self)
      obtain ⟨t', r1, r2⟩ := ih (fun s' h => hL s' (List.mem_cons_of_mem _ h)) _ (hbal level s calls t h1 (hL s List.mem_cons_self) c2 h)
      refine ⟨t', ?_, r2⟩
      rw [List.foldlM_cons]
      unfold balanceStep
      rw [c1]
      exact r1
  have hg : ∀ level, minL < level → level ≤ maxL → ∀ (L : List (Nat → Int)), (∀ s ∈ L, s ∈ gradStencils n gw) → ∀ t, P t →
      ∃ t', L.foldlM (graduateStep n level m.cells m.all dom) t = some t' ∧ P t' := by
    intro level h1 h2 L
    induction L with
    | nil => exact fun _ t h => ⟨t, rfl, h⟩
    | cons s L ih =>
      intro hL t h
      obtain ⟨calls, c1, c2⟩ := S.graduate level s (by omega) h2 (hL s List.mem_cons_self)
      obtain ⟨t', r1, r2⟩ := ih (fun s' h => hL s' (List.mem_cons_of_mem _ h)) _ (hgrad level s calls t h1 (hL s List.mem_cons_self) c2 h)
      refine ⟨t', ?_, r2⟩
      rw [List.foldlM_cons]
      unfold graduateStep
      rw [c1]
      exact r1
  obtain ⟨t2, b1, b2⟩ := foldDown (coarsenLevel n gw m.cells m.all) (fun _ t => P t) 1 maxL le_rfl (by
    intro k s h1 h2 hs
    obtain ⟨calls, c1, c2⟩ := S.parents k h1 h2
    unfold coarsenLevel
    rw [c1]
    exact hb k h1 h2 _ (fun _ h => h) _ (hmax k calls s h1 c2 hs)) maxL t1 le_rfl a2
  obtain ⟨t3, d1, d2⟩ := foldDown (refineLevel n gw m.cells m.all dom) (fun _ t => P t) (minL + 1) maxL (by omega) (by
    intro k s h1 h2 hs
    obtain ⟨calls, c1, c2⟩ := S.leaves k h2
    unfold refineLevel
    rw [c1]
    exact hg k (by omega) h2 _ (fun _ h => h) _ (hkeep k calls s c2 hs)) maxL t2 le_rfl b2
  obtain ⟨t4, e1, e2⟩ := foldDown (maximumLevel n m.cells m.all) (fun _ t => P t) 1 maxL le_rfl (by
    intro k s h1 h2 hs
    obtain ⟨calls, c1, c2⟩ := S.parents k h1 h2
    unfold maximumLevel
    rw [c1]
    exact ⟨_, rfl, hmax k calls s h1 c2 hs⟩) maxL t3 le_rfl d2
  refine ⟨t4, ?_, e2⟩
  unfold hartenTags
  rw [h0]; simp only []
  rw [a1]; simp only []
  rw [b1]; simp only []
  rw [d1]
  exact e1

/-- Two sets of cells of all levels, which contain respectively the cells that the passes keep and refine when they contain them before. -/
structure Closed (n gw minL : Nat) (cells : CA) (K R : Nat → List Int → Prop) : Prop where
  around : ∀ l p q, cells.Mem n l p → R l p → Near 1 q p → K l q
  family : ∀ l d c c', cells.Mem n l d → parentOf c = parentOf d → K l c → parentOf c' = parentOf d → K l c'
  parent : ∀ l c, 1 ≤ l → cells.Mem n l c → K (l - 1) (parentOf c)
  balance : ∀ l c s, 1 ≤ l → s ∈ gradStencils n gw → cells.Mem n l c → K (l - 1) (subPoint s n (parentOf c))
  graduate : ∀ l p s, minL < l → s ∈ gradStencils n gw → cells.Mem n l (subPoint s n p) → K l p → R (l - 1) (parentOf p)

/-- If the criteria keep and refine only cells of closed sets, so does the whole step; the kept and the refined cells stay so; and the families
of children that are all coarsened stay so. -/
theorem harten_bounds {m : SubMeshes} (S : AdaptSets n gw m.cells m.ghosts m.all dom maxL) {K R : Nat → List Int → Prop}
    (C : Closed n gw minL m.cells K R) {ite : Nat} {D : DetailMasks} (hite : minL ≤ maxL - ite + 1) {t0 : TagField}
    (h0 : (List.range' minL (maxL - ite + 1 - minL)).foldlM (criteriaLevel n minL maxL D m.cells m.all) (tagLeaves n m.cells) = some t0)
    (hK : ∀ l q, t0.Keep l q → K l q) (hR : ∀ l q, t0.Refine l q → R l q) :
    ∃ t, hartenTags n gw minL maxL ite false D m dom = some t ∧ (∀ l q, t.Keep l q → K l q) ∧ (∀ l q, t.Refine l q → R l q) ∧
      (∀ l q, t0.Keep l q → t.Keep l q) ∧ (∀ l q, t0.Refine l q → t.Refine l q) ∧
      ∀ l p, AllCoarsen t0 l p → AllCoarsen t l p := by
  refine harten_passes S (fun t => (∀ l q, t.Keep l q → K l q) ∧ (∀ l q, t.Refine l q → R l q) ∧
      (∀ l q, t0.Keep l q → t.Keep l q) ∧ (∀ l q, t0.Refine l q → t.Refine l q) ∧
      ∀ l p, AllCoarsen t0 l p → AllCoarsen t l p) ?_ ?_ (fun h => absurd h (by decide)) ?_ ?_ hite h0
    ⟨hK, hR, fun _ _ h => h, fun _ _ h => h, fun _ _ h => h⟩
  · rintro level calls t hl hc ⟨i1, i2, i3, i4, i5⟩
    obtain ⟨m1, m2, m3⟩ := tagMaximum (level := level - 1) (calls := calls) (t := t)
    refine ⟨fun l q h => ?_, fun l q h => i2 l q ((m3 l q).1 h), fun l q h => (m1 l q).2 (Or.inl (i3 l q h)), fun l q h => (m3 l q).2 (i4 l q h),
      fun l p h c hc' => ?_⟩
    · rcases (m1 l q).1 h with h | ⟨rfl, h1, c, h2, h3⟩ | ⟨rfl, h1, h2⟩
      · exact i1 l q h
      · obtain ⟨⟨d, h4, h5⟩, _⟩ := (hc _).1 h1
        rw [show level - 1 + 1 = level by omega] at h3 ⊢
        exact C.family level d c q h4 (h2.trans h5.symm) (i1 _ _ h3) h5.symm
      · obtain ⟨⟨d, h4, rfl⟩, _⟩ := (hc _).1 h1
        exact C.parent level d hl h4
    · refine (m2 (l + 1) c).2 ⟨i5 l p h c hc', fun h1 _ => ?_⟩
      have : l = level - 1 := by omega
      subst this
      rw [hc']
      exact i5 _ p h
  · rintro level calls t hc ⟨i1, i2, i3, i4, i5⟩
    obtain ⟨m1, m2, m3⟩ := tagKeepAround (level := level) (calls := calls) (t := t)
    refine ⟨fun l q h => ?_, fun l q h => i2 l q ((m3 l q).1 h), fun l q h => (m1 l q).2 (Or.inl (i3 l q h)), fun l q h => (m3 l q).2 (i4 l q h),
      fun l p h c hc' => (m2 _ _).2 (i5 l p h c hc')⟩
    rcases (m1 l q).1 h with h | ⟨rfl, p, h1, h2, h3⟩
    · exact i1 l q h
    · exact C.around l p q ((hc p).1 h1) (i2 _ _ h2) h3
  · rintro level s calls t hl hs hc ⟨i1, i2, i3, i4, i5⟩
    obtain ⟨⟨m1, m2, m3⟩, _⟩ := tagBalance (n := n) (level := level - 1) (s := s) (calls := calls) (t := t)
    refine ⟨balance_bound calls (fun p hp => ?_) t i1, fun l q h => i2 l q ((m3 l q).1 h), fun l q h => m1 l q (i3 l q h),
      fun l q h => (m3 l q).2 (i4 l q h), fun l p h c hc' => (m2 _ _).2 (i5 l p h c hc')⟩
    obtain ⟨⟨c, h1, rfl⟩, _⟩ := (hc p).1 hp
    exact C.balance level c s hl hs h1
  · rintro level s calls t hl hs hc ⟨i1, i2, i3, i4, i5⟩
    obtain ⟨m1, m2, m3⟩ := tagGraduate (level := level) (calls := calls) (t := t)
    refine ⟨fun l q h => i1 l q ((m1 l q).1 h), fun l q h => ?_, fun l q h => (m1 l q).2 (i3 l q h), fun l q h => (m3 l q).2 (Or.inl (i4 l q h)),
      fun l p h c hc' => (m2 _ _).2 (i5 l p h c hc')⟩
    rcases (m3 l q).1 h with h | ⟨rfl, p, h1, h2, rfl⟩
    · exact i2 l q h
    · exact C.graduate level p s hl hs ((hc p).1 h1).1 (i1 _ _ h2)

end

end Samurai

import Verif.Lemmas.AMRTags

namespace Samurai

/-- What the sets of `graduation` contain. -/
structure AMRSets (n : Nat) (S : List (Nat → Int)) (cells all : CA) (maxL : Nat) : Prop where
  ghosts : ∀ level, 1 ≤ level → level ≤ maxL → ∃ calls, parentSet n cells all level = some calls ∧
    ∀ p, Covers calls p ↔ (∃ c, cells.Mem n level c ∧ parentOf c = p) ∧ all.Mem n (level - 1) p
  leaves : ∀ level, level ≤ maxL → ∃ calls,
    runDefault n (.op .inter (opnd (cells.lca level)) (opnd (cells.lca level))) = some calls ∧ ∀ p, Covers calls p ↔ cells.Mem n level p
  parents : ∀ level, 1 ≤ level → level ≤ maxL → ∃ calls,
    runSet n (.op .inter (opnd (cells.lca level)) (opnd (cells.lca level))) (level - 1) = some calls ∧
      ∀ p, Covers calls p ↔ ∃ c, cells.Mem n level c ∧ parentOf c = p
  graduate : ∀ level s, 1 ≤ level → level ≤ maxL → s ∈ S → ∃ calls,
    runSet n (.op .inter (.leaf (.translate (.mesh (cells.lca level)) s)) (.leaf (.mesh (cells.lca (level - 1))))) level = some calls ∧
    OkCalls n calls ∧ ∀ p, Covers calls p ↔ cells.Mem n level (subPoint s n p) ∧ cells.Mem n (level - 1) (parentOf p)

theorem amrSets {n g : Nat} {S : List (Nat → Int)} {cells all : CA} {maxL : Nat} (w1 : cells.WF n) (w3 : all.WF n)
    (l1 : cells.Leveled) (l3 : all.Leveled) (s1 : maxL ≤ cells.maxSize) (s3 : maxL ≤ all.maxSize) {D : Int} (hD0 : 0 ≤ D)
    (hD : D + ((g : Int) + 2) * 2 ^ maxL + 2 < INT_MAX) (b1 : cells.Below n maxL D) (b3 : all.Below n maxL D)
    (hS : ∀ s ∈ S, ∀ d, s d ≤ (g : Int)) : AMRSets n S cells all maxL := by
  have use : ∀ {c : CA}, c.WF n → c.Leveled → maxL ≤ c.maxSize → c.Below n maxL D → ∀ {l : Nat}, l ≤ maxL →
      UsableT n maxL g D (.mesh (c.lca l)) ∧ ∀ s : Nat → Int, (∀ d, s d ≤ (g : Int)) →
        UsableT n maxL g D (.translate (.mesh (c.lca l)) s) := by
    intro c hw hl hm hb l h
    have hbt : (c.lca l).BelowAt n maxL D := by
      intro p hp x hx
      rw [hl l (by omega)]
      exact hb l p ⟨by omega, hp⟩ x hx
    have hll : (c.lca l).level ≤ maxL := by rw [hl l (by omega)]; exact h
    exact ⟨⟨_, fun _ => 0, Or.inl rfl, hw l (by omega), hll, hbt⟩, fun s hs => ⟨_, s, Or.inr ⟨rfl, hs⟩, hw l (by omega), hll, hbt⟩⟩
  have mem : ∀ {c : CA}, maxL ≤ c.maxSize → ∀ {l p}, l ≤ maxL → (c.Mem n l p ↔ (c.lca l).Mem n p) := by
    intro c hm l p hl
    exact ⟨fun h => h.2, fun h => ⟨by omega, h⟩⟩
  have two : ∀ level, level ≤ maxL → (Expr.op .inter (opnd (cells.lca level)) (opnd (cells.lca level))).Admissible n ∧
      (Expr.op .inter (opnd (cells.lca level)) (opnd (cells.lca level))).finest = level := by
    intro level h2
    refine ⟨usableT_admissible hD0 hD ⟨(use w1 l1 s1 b1 h2).1, (use w1 l1 s1 b1 h2).1⟩, ?_⟩
    show Nat.max (cells.lca level).level (cells.lca level).level = level
    rw [l1 level (by omega)]
    exact Nat.max_self _
  refine ⟨fun level h1 h2 => ?_, fun level h2 => ?_, fun level h1 h2 => ?_, fun level s h1 h2 hs => ?_⟩
  · have ha : (Expr.op .inter (.leaf (.mesh (cells.lca level))) (.leaf (.mesh (all.lca (level - 1))))).Admissible n :=
      usableT_admissible hD0 hD ⟨(use w1 l1 s1 b1 h2).1, (use w3 l3 s3 b3 (by omega)).1⟩
    have hf : (Expr.op .inter (.leaf (.mesh (cells.lca level))) (.leaf (.mesh (all.lca (level - 1))))).finest = level := by
      show Nat.max (cells.lca level).level (all.lca (level - 1)).level = level
      rw [l1 level (by omega), l3 (level - 1) (by omega)]
      exact Nat.max_eq_left (by omega)
    obtain ⟨calls, g1, _, g3⟩ := runSet_ok ha (ref := level - 1) (by omega)
    refine ⟨calls, ?_, fun p => (g3 p).trans ?_⟩
    · unfold parentSet
      rw [if_neg (by omega)]
      exact g1
    · show AtLevel (cells.lca level).level (level - 1) _ p ∧ AtLevel (all.lca (level - 1)).level (level - 1) _ p ↔ _
      rw [l1 level (by omega), l3 (level - 1) (by omega), atLevel_up (by omega), atLevel_same]
      simp only [anc_one]
      rw [mem s3 (by omega)]
      simp only [mem s1 h2]
      rfl
  · obtain ⟨ha, hf⟩ := two level h2
    obtain ⟨calls, g1, _, g3⟩ := runDefault_ok ha
    refine ⟨calls, g1, fun p => (g3 p).trans ?_⟩
    rw [hf]
    show AtLevel (cells.lca level).level level _ p ∧ AtLevel (cells.lca level).level level _ p ↔ _
    rw [l1 level (by omega), atLevel_same, and_self, mem s1 h2]
    rfl
  · obtain ⟨ha, hf⟩ := two level h2
    obtain ⟨calls, g1, _, g3⟩ := runSet_ok ha (ref := level - 1) (by omega)
    refine ⟨calls, g1, fun p => (g3 p).trans ?_⟩
    show AtLevel (cells.lca level).level (level - 1) _ p ∧ AtLevel (cells.lca level).level (level - 1) _ p ↔ _
    rw [l1 level (by omega), atLevel_up (by omega), and_self]
    simp only [anc_one]
    simp only [mem s1 h2]
    rfl
  · have ha : (Expr.op .inter (.leaf (.translate (.mesh (cells.lca level)) s)) (.leaf (.mesh (cells.lca (level - 1))))).Admissible n :=
      usableT_admissible hD0 hD ⟨(use w1 l1 s1 b1 h2).2 s (hS s hs), (use w1 l1 s1 b1 (by omega)).1⟩
    have hf : level ≤ (Expr.op .inter (.leaf (.translate (.mesh (cells.lca level)) s)) (.leaf (.mesh (cells.lca (level - 1))))).finest := by
      show level ≤ Nat.max (cells.lca level).level _
      rw [l1 level (by omega)]
      exact Nat.le_max_left _ _
    obtain ⟨calls, g1, g2, g3⟩ := runSet_ok ha hf
    refine ⟨calls, g1, g2, fun p => (g3 p).trans ?_⟩
    show AtLevel (cells.lca level).level level _ p ∧ AtLevel (cells.lca (level - 1)).level level _ p ↔ _
    rw [l1 level (by omega), l1 (level - 1) (by omega), atLevel_same, atLevel_parent (by omega), mem s1 h2, mem s1 (by omega)]
    rfl

/-! ### one level -/

/-- What the operators need: the cells they use are in the reference mesh, the leaves do not overlap. -/
structure AMRRoom (n gw : Nat) (cells all : CA) : Prop where
  wf : all.WF n
  noOverlap : cells.NoOverlap n
  around : ∀ l c p, cells.Mem n l c → Near gw p c → all.Mem n l p
  near : ∀ l c p, cells.Mem n l c → Near 1 p c → all.Mem n l p

variable {n gw : Nat} {S : List (Nat → Int)} {cells all : CA} {maxL : Nat}

theorem graduateTagCell_eq (R : AMRRoom n gw cells all) {s : Nat → Int} {level : Nat} {p : List Int} (h1 : cells.Mem n level (subPoint s n p))
    (h2 : cells.Mem n (level - 1) (parentOf p)) (t : TagField) :
    graduateTagCell n all s level t p = some (graduatePure n s level t p) := by
  have c1 : hasCells n all level [unshiftPoint s n p] = true :=
    hasCells_of R.wf (by rintro q hq; rw [List.mem_singleton.1 hq, unshift_eq]; exact R.near _ _ _ h1 (near_refl 1 _))
  have c2 : hasCells n all (level - 1) [p.map fun y => shr y 1] = true :=
    hasCells_of R.wf (by rintro q hq; rw [List.mem_singleton.1 hq]; exact R.near _ _ _ h2 (near_refl 1 _))
  unfold graduateTagCell graduatePure
  simp only [c1, c2, Bool.and_self, if_true]

theorem graduate_row (R : AMRRoom n gw cells all) {s : Nat → Int} (hs : n = 0 → s 0 ≤ 1 ∧ -1 ≤ s 0) {level : Nat} {c : Call} (hl : c.1.length = n)
    (hc : c.2.start < c.2.stop) (h : ∀ x ∈ c.2, cells.Mem n level (subPoint s n (c.1 ++ [x])) ∧ cells.Mem n (level - 1) (parentOf (c.1 ++ [x])))
    (h1 : 1 ≤ level) (t : TagField) :
    graduateTagRow n all s level t c = some ((callCells [c]).foldl (graduatePure n s level) t) := by
  have hmem : ∀ p ∈ callCells [c], ∃ x ∈ c.2, p = c.1 ++ [x] := by
    intro p hp
    obtain ⟨c', hc', x, hx, rfl⟩ := mem_callCells.1 hp
    rw [List.mem_singleton.1 hc'] at hx ⊢
    exact ⟨x, hx, rfl⟩
  unfold graduateTagRow
  rw [if_neg]
  · exact foldlM_checked (fun p hp t => by
      obtain ⟨x, hx, rfl⟩ := hmem p hp
      exact graduateTagCell_eq R (h x hx).1 (h x hx).2 t) t
  · rintro ⟨hn, hne⟩
    subst hn
    obtain ⟨s1, s2⟩ := hs rfl
    have hnil : c.1 = [] := List.length_eq_zero_iff.1 hl
    have bad : ∀ x, cells.Mem 0 level [x] → cells.Mem 0 (level - 1) [shr x 1] → False := by
      intro x k1 k2
      have := (R.noOverlap (level - 1) [shr x 1] level [x] k2 k1 (by omega) (by
        rw [show level - (level - 1) = 1 by omega]; exact anc_one.2 rfl)).1
      omega
    have one : c.2.stop = c.2.start + 1 := by
      by_contra hcon
      have e1 := h c.2.start (Interval.mem_def.2 ⟨le_rfl, hc⟩)
      have e2 := h (c.2.start + 1) (Interval.mem_def.2 ⟨by omega, by omega⟩)
      rw [hnil] at e1 e2
      simp only [List.nil_append, subPoint, parentOf, List.map_cons, List.map_nil] at e1 e2
      have : s 0 = 1 ∨ s 0 = 0 ∨ s 0 = -1 := by omega
      rcases this with h0 | h0 | h0
      · rw [h0, show c.2.start + 1 - 1 = c.2.start by omega] at e2
        exact bad _ e2.1 e1.2
      · rw [h0, show c.2.start - 0 = c.2.start by omega] at e1
        exact bad _ e1.1 e1.2
      · rw [h0, show c.2.start - -1 = c.2.start + 1 by omega] at e1
        exact bad _ e1.1 e2.2
    apply hne
    unfold Interval.shiftRight
    simp only [one, Int.add_sub_cancel]
    omega

theorem callCells_cons (c : Call) (L : List Call) : callCells (c :: L) = callCells [c] ++ callCells L := by
  unfold callCells
  simp

theorem foldlM_rows {f : TagField → Call → Option TagField} {g : TagField → List Int → TagField} {L : List Call}
    (h : ∀ c ∈ L, ∀ t, f t c = some ((callCells [c]).foldl g t)) : ∀ t, L.foldlM f t = some ((callCells L).foldl g t) := by
  induction L with
  | nil => intro t; rfl
  | cons c L ih =>
    intro t
    rw [List.foldlM_cons, h c (by simp), callCells_cons c L, List.foldl_append]
    exact ih (fun b hb => h b (by simp [hb])) _

/-- `graduate(tag, s)` for all the vectors of the stencil. -/
theorem graduate_all (A : AMRSets n S cells all maxL) (R : AMRRoom n gw cells all) (hS : n = 0 → ∀ s ∈ S, s 0 ≤ 1 ∧ -1 ≤ s 0)
    {level : Nat} (h1 : 1 ≤ level) (h2 : level ≤ maxL) : ∀ (S' : List (Nat → Int)), (∀ s ∈ S', s ∈ S) → ∀ t : TagField,
    ∃ t', S'.foldlM (graduateTagStep n level cells all) t = some t' ∧
      Adds t t' (fun l q => l = level - 1 ∧ ∃ s ∈ S', ∃ c, cells.Mem n level c ∧ t.Keep level c ∧ parentOf (shiftPoint s n c) = q ∧ cells.Mem n (level - 1) q)
        (fun l q => l = level - 1 ∧ ∃ s ∈ S', ∃ c, cells.Mem n level c ∧ t.Refine level c ∧ parentOf (shiftPoint s n c) = q ∧ cells.Mem n (level - 1) q) := by
  intro S'
  induction S' with
  | nil => intro _ t; exact ⟨t, rfl, (Adds.nothing t).congr (fun l q => by simp) fun l q => by simp⟩
  | cons s S' ih =>
    intro hsub t
    have hs : s ∈ S := hsub s (by simp)
    obtain ⟨calls, c1, c2, c3⟩ := A.graduate level s h1 h2 hs
    have e1 : graduateTagStep n level cells all t s = some ((callCells calls).foldl (graduatePure n s level) t) := by
      unfold graduateTagStep
      rw [c1]
      refine foldlM_rows (fun c hc t => ?_) t
      refine graduate_row R (fun hn => hS hn s hs) (c2 c hc).1 (c2 c hc).2.1 (fun x hx => ?_) h1 t
      exact (c3 _).1 ⟨c, hc, x, hx, rfl⟩
    have a1 := adds_graduate (n := n) (s := s) h1 (callCells calls) t
    generalize (callCells calls).foldl (graduatePure n s level) t = t1 at e1 a1
    have a1 : Adds t t1
        (fun l q => l = level - 1 ∧ ∃ c, cells.Mem n level c ∧ t.Keep level c ∧ parentOf (shiftPoint s n c) = q ∧ cells.Mem n (level - 1) q)
        (fun l q => l = level - 1 ∧ ∃ c, cells.Mem n level c ∧ t.Refine level c ∧ parentOf (shiftPoint s n c) = q ∧ cells.Mem n (level - 1) q) := by
      have key : ∀ (P : List Int → Prop) (q : List Int), (∃ p ∈ callCells calls, P (unshiftPoint s n p) ∧ parentOf p = q) ↔
          ∃ c, cells.Mem n level c ∧ P c ∧ parentOf (shiftPoint s n c) = q ∧ cells.Mem n (level - 1) q := by
        intro P q
        constructor
        · rintro ⟨p, hp, k1, rfl⟩
          obtain ⟨k2, k3⟩ := (c3 p).1 (mem_callCells.1 hp)
          rw [unshift_eq] at k1
          exact ⟨_, k2, k1, by rw [sub_shift], k3⟩
        · rintro ⟨c, k1, k2, rfl, k3⟩
          refine ⟨shiftPoint s n c, mem_callCells.2 ((c3 _).2 ⟨by rw [shift_sub]; exact k1, k3⟩), ?_, rfl⟩
          rw [unshift_eq, shift_sub]; exact k2
      refine a1.congr (fun l q => ?_) fun l q => ?_
      · rw [key (fun c => t.Keep level c) q]
      · rw [key (fun c => t.Refine level c) q]
    obtain ⟨t2, e2, a2⟩ := ih (fun s hs => hsub s (by simp [hs])) t1
    have hne : level ≠ level - 1 := by omega
    refine ⟨t2, ?_, (a1.trans a2).congr (fun l q => ?_) fun l q => ?_⟩
    · rw [List.foldlM_cons, e1]; exact e2
    · simp only [a1.keep, hne, false_and, or_false, List.mem_cons, exists_eq_or_imp]
      rw [← and_or_left]
    · simp only [a1.refine, hne, false_and, or_false, List.mem_cons, exists_eq_or_imp]
      rw [← and_or_left]

/-- The flags `keep` of the leaves and ghosts of level `level` after the second and third operators. -/
def LevelKeep (n gw : Nat) (cells : CA) (t : TagField) (level : Nat) (q : List Int) : Prop :=
  (t.Keep level q ∨ ∃ c, cells.Mem n level c ∧ t.Refine level c ∧ Near gw q c) ∨
    ∃ c r, cells.Mem n level c ∧ parentOf c = parentOf q ∧ parentOf r = parentOf q ∧
      (t.Keep level r ∨ ∃ c, cells.Mem n level c ∧ t.Refine level c ∧ Near gw r c)

/-- One turn of the loop of `graduation`. -/
theorem graduationLevel_spec (A : AMRSets n S cells all maxL) (R : AMRRoom n gw cells all) (hS : n = 0 → ∀ s ∈ S, s 0 ≤ 1 ∧ -1 ≤ s 0)
    {level : Nat} (h1 : 1 ≤ level) (h2 : level ≤ maxL) (t : TagField) :
    ∃ t', graduationLevel n gw S cells all t level = some t' ∧ (∀ l q, t'.Coarsen l q ↔ t.Coarsen l q) ∧
      (∀ l, l ≠ level → l ≠ level - 1 → ∀ q, (t'.Keep l q ↔ t.Keep l q) ∧ (t'.Refine l q ↔ t.Refine l q)) ∧
      (∀ q, (t'.Keep level q ↔ LevelKeep n gw cells t level q) ∧ (t'.Refine level q ↔ t.Refine level q)) ∧
      ∀ q, (t'.Keep (level - 1) q ↔ t.Keep (level - 1) q ∨ ((∃ c, cells.Mem n level c ∧ parentOf c = q) ∧ all.Mem n (level - 1) q) ∨
          ∃ s ∈ S, ∃ c, cells.Mem n level c ∧ LevelKeep n gw cells t level c ∧ parentOf (shiftPoint s n c) = q ∧ cells.Mem n (level - 1) q) ∧
        (t'.Refine (level - 1) q ↔ t.Refine (level - 1) q ∨
          ∃ s ∈ S, ∃ c, cells.Mem n level c ∧ t.Refine level c ∧ parentOf (shiftPoint s n c) = q ∧ cells.Mem n (level - 1) q) := by
  have hne : level ≠ level - 1 := by omega
  have hne' : level - 1 + 1 = level := by omega
  -- parents of the leaves
  obtain ⟨k1, a1, b1⟩ := A.ghosts level h1 h2
  have e1 : (callCells k1).foldlM (keepCell n all (level - 1)) t =
      some ((callCells k1).foldl (fun t q => TagField.add CellFlag.keep t (level - 1) q) t) :=
    foldlM_checked (fun p hp t => by
      unfold keepCell
      rw [if_pos]
      exact hasCells_of R.wf (by rintro q hq; rw [List.mem_singleton.1 hq]; exact ((b1 p).1 (mem_callCells.1 hp)).2)) t
  have d1 := adds_keep (level := level - 1) (callCells k1) t
  generalize (callCells k1).foldl (fun t q => TagField.add CellFlag.keep t (level - 1) q) t = t1 at e1 d1
  -- around the leaves to refine
  obtain ⟨k2, a2, b2⟩ := A.leaves level h2
  have e2 : (callCells k2).foldlM (keepAroundCellW n all gw level) t1 = some ((callCells k2).foldl (keepAroundPure gw level) t1) :=
    foldlM_checked (fun p hp t => by
      unfold keepAroundCellW keepAroundPure
      rw [if_pos]
      exact hasCells_of R.wf (fun q hq => R.around level p q ((b2 p).1 (mem_callCells.1 hp)) (mem_boxAroundW.1 hq))) t1
  have d2 := adds_around (w := gw) (level := level) (callCells k2) t1
  generalize (callCells k2).foldl (keepAroundPure gw level) t1 = t2 at e2 d2
  -- siblings
  obtain ⟨k3, a3, b3⟩ := A.parents level h1 h2
  have e3 : (callCells k3).foldlM (keepChildrenCell n all (level - 1)) t2 = some ((callCells k3).foldl (keepChildrenPure (level - 1)) t2) :=
    foldlM_checked (fun p hp t => by
      unfold keepChildrenCell keepChildrenPure
      rw [if_pos]
      obtain ⟨c, c1, c2⟩ := (b3 p).1 (mem_callCells.1 hp)
      exact hasCells_of R.wf (fun q hq => by
        rw [hne']
        exact R.near level c q c1 (near_siblings (by rw [c2, mem_children.1 hq])))) t2
  have d3 := adds_children (level := level - 1) (callCells k3) t2
  generalize (callCells k3).foldl (keepChildrenPure (level - 1)) t2 = t3 at e3 d3
  obtain ⟨t4, e4, d4⟩ := graduate_all A R hS h1 h2 S (fun _ h => h) t3
  -- the flags of the level after each operator
  have r1 : ∀ q, t1.Refine level q ↔ t.Refine level q := fun q => by rw [d1.refine, or_false]
  have r2 : ∀ q, t2.Refine level q ↔ t.Refine level q := fun q => by rw [d2.refine, or_false, r1]
  have r3 : ∀ q, t3.Refine level q ↔ t.Refine level q := fun q => by rw [d3.refine, or_false, r2]
  have q1 : ∀ q, t1.Keep level q ↔ t.Keep level q := fun q => by
    rw [d1.keep]; simp only [hne, false_and, or_false]
  have q2 : ∀ q, t2.Keep level q ↔ t.Keep level q ∨ ∃ c, cells.Mem n level c ∧ t.Refine level c ∧ Near gw q c := fun q => by
    rw [d2.keep, q1]
    simp only [true_and, r1, mem_callCells, b2]
  have q3 : ∀ q, t3.Keep level q ↔ LevelKeep n gw cells t level q := fun q => by
    rw [d3.keep, q2]
    unfold LevelKeep AnyKeep
    rw [mem_callCells, b3, hne']
    simp only [true_and, q2]
    refine or_congr_right ⟨?_, ?_⟩
    · rintro ⟨⟨c, c1, c2⟩, r, r1, r2⟩
      exact ⟨c, r, c1, c2, r1, r2⟩
    · rintro ⟨c, r, c1, c2, r1, r2⟩
      exact ⟨⟨c, c1, c2⟩, r, r1, r2⟩
  refine ⟨t4, ?_, fun l q => ?_, fun l l1 l2 q => ⟨?_, ?_⟩, fun q => ⟨?_, ?_⟩, fun q => ⟨?_, ?_⟩⟩
  · unfold graduationLevel
    rw [a1]; simp only []
    rw [e1]; simp only []
    rw [a2]; simp only []
    rw [e2]; simp only []
    rw [a3]; simp only []
    rw [e3]
    exact e4
  · rw [d4.coarsen, d3.coarsen, d2.coarsen, d1.coarsen]
  · rw [d4.keep, d3.keep, d2.keep, d1.keep]
    simp only [l1, l2, hne', false_and, or_false]
  · rw [d4.refine, d3.refine, d2.refine, d1.refine]
    simp only [l2, false_and, or_false]
  · rw [d4.keep, q3]
    simp only [hne, false_and, or_false]
  · rw [d4.refine, r3]
    simp only [hne, false_and, or_false]
  · rw [d4.keep, d3.keep, d2.keep, d1.keep]
    simp only [q3, mem_callCells, b1, hne', hne.symm, false_and, or_false, true_and]
    rw [or_assoc]
  · rw [d4.refine, d3.refine, d2.refine, d1.refine]
    simp only [r3, or_false, true_and]

end Samurai

import Verif.Lemmas.AdaptSets

namespace Samurai

/-! ### the tags after the criteria -/

/-- Every leaf has a flag; `coarsen` only above `minL`, `refine` only between `minL` and `hi`. -/
def TagW (n : Nat) (cells : CA) (minL hi : Nat) (t : TagField) : Prop :=
  (∀ l p, cells.Mem n l p → t.Keep l p ∨ t.Refine l p ∨ (t.Coarsen l p ∧ minL < l)) ∧ ∀ l p, t.Refine l p → minL ≤ l ∧ l ≤ hi

theorem TagW.put {n : Nat} {cells : CA} {minL hi : Nat} {t : TagField} (h : TagW n cells minL hi t) {l : Nat} {p : List Int}
    {v : BitVec 32} (h1 : v.getLsbD 0 = true ∨ v.getLsbD 2 = true ∨ (v.getLsbD 1 = true ∧ minL < l))
    (h2 : v.getLsbD 2 = true → minL ≤ l ∧ l ≤ hi) : TagW n cells minL hi (t.put l p v) := by
  refine ⟨fun l' p' hm => ?_, fun l' p' hr => ?_⟩
  · unfold TagField.Keep TagField.Refine TagField.Coarsen
    rw [put_apply]
    split
    · rename_i h3
      rw [h3.1]; exact h1
    · exact h.1 l' p' hm
  · unfold TagField.Refine at hr
    rw [put_apply] at hr
    split at hr
    · rename_i h3
      rw [h3.1]; exact h2 hr
    · exact h.2 l' p' hr

theorem TagW.foldl {α : Type} {n : Nat} {cells : CA} {minL hi : Nat} {f : TagField → α → TagField} (hf : ∀ t a, TagW n cells minL hi t → TagW n cells minL hi (f t a))
    (L : List α) : ∀ t, TagW n cells minL hi t → TagW n cells minL hi (L.foldl f t) := by
  induction L with
  | nil => exact fun t h => h
  | cons a L ih => exact fun t h => ih _ (hf t a h)

theorem TagW.addKeep {n : Nat} {cells : CA} {minL hi : Nat} {t : TagField} (h : TagW n cells minL hi t) {l : Nat} {p : List Int} :
    TagW n cells minL hi (TagField.add CellFlag.keep t l p) := by
  unfold TagField.add
  refine h.put (Or.inl (bits_keep _).1) fun hr => ?_
  rw [(bits_keep _).2.2] at hr
  exact h.2 l p hr

theorem tagLeaves_W {n : Nat} {cells : CA} (hw : cells.WF n) (minL hi : Nat) : TagW n cells minL hi (tagLeaves n cells) := by
  have key : ∀ (L : List (Nat × List Int × Int)) (t : TagField), (∀ l p, ¬ t.Refine l p) →
      (∀ l p, ¬ (L.foldl (fun (t : TagField) e => t.put e.1 e.2.1 CellFlag.keep) t).Refine l p) ∧
      ∀ l p, (t.Keep l p ∨ ∃ v, (l, p, v) ∈ L) → (L.foldl (fun (t : TagField) e => t.put e.1 e.2.1 CellFlag.keep) t).Keep l p := by
    intro L
    induction L with
    | nil => intro t h; exact ⟨h, fun l p hp => hp.elim id fun ⟨v, hv⟩ => absurd hv (by simp)⟩
    | cons e L ih =>
      intro t h
      obtain ⟨i1, i2⟩ := ih (t.put e.1 e.2.1 CellFlag.keep) (by
        intro l p hr
        unfold TagField.Refine at hr
        rw [put_apply] at hr
        split at hr
        · exact absurd hr (by decide)
        · exact h l p hr)
      refine ⟨i1, fun l p hp => i2 l p ?_⟩
      unfold TagField.Keep
      rw [put_apply]
      by_cases he : l = e.1 ∧ p = e.2.1
      · rw [if_pos he]; exact Or.inl (by decide)
      · rw [if_neg he]
        rcases hp with hp | ⟨v, hv⟩
        · exact Or.inl hp
        · rcases List.mem_cons.1 hv with h3 | h3
          · exact absurd ⟨by rw [← h3], by rw [← h3]⟩ he
          · exact Or.inr ⟨v, h3⟩
  obtain ⟨k1, k2⟩ := key (cells.numbered n) (fun _ _ => 0#32) (by intro l p h; exact absurd h (by simp [TagField.Refine]))
  exact ⟨fun l p hm => Or.inl (k2 l p (Or.inr (CA.exists_number hw hm))), fun l p hr => absurd hr (k1 l p)⟩

theorem toCoarsen_W {n minL hi level : Nat} {cells : CA} {D : DetailMasks} {calls : List Call} {t : TagField} (h : TagW n cells minL hi t) :
    TagW n cells minL hi (tagCells (toCoarsenCell n minL D level) calls t) := by
  refine TagW.foldl (fun t p h => ?_) _ t h
  unfold toCoarsenCell
  split
  · rename_i hl
    simp only []
    generalize (if n = 0 then (List.take 1 (childrenOf p)).all (D.small (level + 1)) else (childrenOf p).all (D.small (level + 1))) = b
    cases b
    · exact h
    · exact TagW.foldl (fun t q h => h.put (Or.inr (Or.inr ⟨by decide, hl⟩)) (fun hr => absurd hr (by decide))) _ t h
  · exact h

theorem toRefine_W {n minL hi maxL level : Nat} {cells : CA} {D : DetailMasks} {calls : List Call} {t : TagField}
    (h1 : minL ≤ level + 1) (h2 : level + 1 ≤ hi) (h : TagW n cells minL hi t) :
    TagW n cells minL hi (tagCells (toRefineCell maxL D level) calls t) := by
  refine TagW.foldl (fun t p h => ?_) _ t h
  unfold toRefineCell
  simp only []
  have h3 : TagW n cells minL hi (if D.largeParent level p then
      (childrenOf p).foldl (fun t q => TagField.add CellFlag.keep t (level + 1) q) t else t) := by
    split
    · exact TagW.foldl (fun t q h => h.addKeep) _ t h
    · exact h
  generalize (if D.largeParent level p then
      (childrenOf p).foldl (fun t q => TagField.add CellFlag.keep t (level + 1) q) t else t) = t' at h3
  split
  · refine TagW.foldl (fun t q h => ?_) _ t' h3
    split
    · exact h.put (Or.inr (Or.inl (by decide))) fun _ => ⟨h1, h2⟩
    · exact h
  · exact h3

section
variable {n gw : Nat} {cells ghosts all : CA} {dom : LCA} {minL maxL : Nat}

theorem criteria_W (S : AdaptSets n gw cells ghosts all dom maxL) (hmin : 1 ≤ minL) {ite : Nat} {D : DetailMasks} {t : TagField}
    (hite : minL ≤ maxL - ite + 1) (h : TagW n cells minL (maxL - ite) t) :
    ∃ t', (List.range' minL (maxL - ite + 1 - minL)).foldlM (criteriaLevel n minL maxL D cells all) t = some t' ∧
      TagW n cells minL (maxL - ite) t' := by
  refine foldRange _ (fun _ t => TagW n cells minL (maxL - ite) t) minL _ ?_ t h
  intro k s h1 h2 hs
  obtain ⟨calls, c1, _⟩ := S.parents k (by omega) (by omega)
  unfold criteriaLevel
  rw [c1]
  refine ⟨_, rfl, toRefine_W (by omega) (by omega) (toCoarsen_W hs)⟩

/-! ### after `keep_around_refine` -/

/-- Every leaf is kept or (above `minL`) coarsened. -/
def TagReady (n : Nat) (cells : CA) (minL : Nat) (t : TagField) : Prop :=
  ∀ l p, cells.Mem n l p → t.Keep l p ∨ (t.Coarsen l p ∧ minL < l)

/-- The leaves to refine of level in `[lo, hi)` are kept, and the cells around too. -/
def RefKept (n : Nat) (cells : CA) (lo hi : Nat) (t : TagField) : Prop :=
  ∀ l p, lo ≤ l → l < hi → cells.Mem n l p → t.Refine l p → ∀ q, Near 1 q p → t.Keep l q

theorem RefKept.more {lo hi : Nat} {t t' : TagField} (h : RefKept n cells lo hi t) (hm : MoreKeep t t') : RefKept n cells lo hi t' :=
  fun l p h1 h2 h3 h4 q h5 => hm.1 l q (h l p h1 h2 h3 ((hm.2.2 l p).1 h4) q h5)

theorem TagW.more {hi : Nat} {t t' : TagField} (h : TagW n cells minL hi t) (hm : MoreKeep t t') : TagW n cells minL hi t' :=
  ⟨fun l p hp => (h.1 l p hp).imp (hm.1 l p) (Or.imp (hm.2.2 l p).2 (And.imp (hm.2.1 l p).2 id)), fun l p hr => h.2 l p ((hm.2.2 l p).1 hr)⟩

theorem keep_pass (S : AdaptSets n gw cells ghosts all dom maxL) {ite : Nat} {enlarge : Bool} {t : TagField}
    (hite : minL ≤ maxL - ite + 1) (h : TagW n cells minL (maxL - ite) t) :
    ∃ t', (List.range' minL (maxL - ite + 1 - minL)).foldlM (keepLevel n enlarge cells ghosts) t = some t' ∧
      TagW n cells minL (maxL - ite) t' ∧ RefKept n cells minL (maxL - ite + 1) t' := by
  have hf := foldRange (keepLevel n enlarge cells ghosts)
    (fun k t => TagW n cells minL (maxL - ite) t ∧ RefKept n cells minL k t) minL (maxL - ite + 1 - minL) (by
      intro k s h1 h2 hs
      obtain ⟨calls, c1, c2⟩ := S.leaves k (by omega)
      obtain ⟨calls', g1⟩ := S.ghosts k (by omega)
      have hk := moreKeep_around (level := k) (calls := calls) s
      have hr : RefKept n cells minL (k + 1) (tagCells (keepAroundCell k) calls s) := by
        intro l p h3 h4 h5 h6 q h7
        by_cases hl : l = k
        · subst hl
          exact (tagKeepAround.1 l q).2 (Or.inr ⟨rfl, p, (c2 p).2 h5, (hk.2.2 l p).1 h6, h7⟩)
        · exact (hs.2.more hk) l p h3 (by omega) h5 h6 q h7
      unfold keepLevel
      rw [c1]
      simp only []
      cases enlarge
      · exact ⟨_, rfl, hs.1.more hk, hr⟩
      · rw [if_pos rfl, g1]
        have hm := (moreKeep_enlarge (level := k) (calls := calls) (tagCells (keepAroundCell k) calls s)).trans
          (moreKeep_tagToKeep (flag := CellFlag.enlarge) (level := k) (calls := calls') _)
        exact ⟨_, rfl, (hs.1.more hk).more hm, hr.more hm⟩) t ⟨h, fun l p h1 h2 => by omega⟩
  rwa [show minL + (maxL - ite + 1 - minL) = maxL - ite + 1 by omega] at hf

theorem ready_of {hi : Nat} {t : TagField} (hw : TagW n cells minL hi t) (hr : RefKept n cells minL (hi + 1) t) :
    TagReady n cells minL t ∧ ∀ l p, cells.Mem n l p → t.Refine l p → t.Keep l p := by
  have h2 : ∀ l p, cells.Mem n l p → t.Refine l p → t.Keep l p := by
    intro l p hp h
    obtain ⟨h1, h2⟩ := hw.2 l p h
    exact hr l p h1 (by omega) hp h p (near_refl 1 p)
  refine ⟨fun l p hp => ?_, h2⟩
  rcases hw.1 l p hp with h | h | h
  · exact Or.inl h
  · exact Or.inl (h2 l p hp h)
  · exact Or.inr h

/-! ### the passes with `maximum` -/

/-- The siblings of a leaf above `minL` are leaves or have leaves as children; the parents of leaves are in the reference mesh. -/
structure Families (n : Nat) (cells all : CA) (minL maxL : Nat) : Prop where
  between : cells.Between n minL maxL
  siblings : ∀ l q s, minL < l → cells.Mem n l q → parentOf s = parentOf q →
    cells.Mem n l s ∨ ∃ c, cells.Mem n (l + 1) c ∧ parentOf c = s
  parent : ∀ l q, minL < l → cells.Mem n l q → all.Mem n (l - 1) (parentOf q)

/-- The parents of the leaves of level above `k` and `minL` are kept. -/
def ParentsKept (n : Nat) (cells : CA) (minL k : Nat) (t : TagField) : Prop :=
  ∀ l c, k < l → minL < l → cells.Mem n l c → t.Keep (l - 1) (parentOf c)

/-- For the leaves of level above `k` and `minL`: a family is kept or coarsened together. -/
def FamilyTags (n : Nat) (cells : CA) (minL k : Nat) (t : TagField) : Prop :=
  ∀ l c s, k < l → minL < l → cells.Mem n l c → parentOf s = parentOf c →
    (t.Keep l s → t.Keep l c) ∧ (t.Coarsen l c → t.Coarsen l s)

theorem maximum_step (F : Families n cells all minL maxL) {level : Nat} (hlev : 1 ≤ level) {calls : List Call}
    (hc : ∀ p, Covers calls p ↔ (∃ c, cells.Mem n level c ∧ parentOf c = p) ∧ all.Mem n (level - 1) p)
    {t : TagField} (hr : TagReady n cells minL t) (hp : ParentsKept n cells minL level t) :
    TagReady n cells minL (tagCells (maximumCell (level - 1)) calls t) ∧
    ParentsKept n cells minL (level - 1) (tagCells (maximumCell (level - 1)) calls t) ∧
    (∀ l q, t.Keep l q → (tagCells (maximumCell (level - 1)) calls t).Keep l q) ∧
    (∀ l q, (tagCells (maximumCell (level - 1)) calls t).Refine l q ↔ t.Refine l q) ∧
    (FamilyTags n cells minL level t → FamilyTags n cells minL (level - 1) (tagCells (maximumCell (level - 1)) calls t)) := by
  obtain ⟨m1, m2, m3⟩ := tagMaximum (level := level - 1) (calls := calls) (t := t)
  have hmono : ∀ l q, t.Keep l q → (tagCells (maximumCell (level - 1)) calls t).Keep l q := fun l q h => (m1 l q).2 (Or.inl h)
  have e : level - 1 + 1 = level := by omega
  have hcov : ∀ c, minL < level → cells.Mem n level c → Covers calls (parentOf c) := fun c h1 h2 =>
    (hc _).2 ⟨⟨c, h2, rfl⟩, F.parent level c h1 h2⟩
  have hcase : ∀ c, minL < level → cells.Mem n level c → AnyKeep t (level - 1) (parentOf c) ∨ AllCoarsen t (level - 1) (parentOf c) := by
    intro c h1 h2
    by_contra hno
    rw [not_or] at hno
    refine hno.2 fun s hs => ?_
    rw [e]
    have hk : ¬ t.Keep level s := fun hk => hno.1 ⟨s, hs, by rw [e]; exact hk⟩
    rcases F.siblings level c s h1 h2 hs with h3 | ⟨d, h3, h4⟩
    · rcases hr level s h3 with h4 | h4
      · exact absurd h4 hk
      · exact h4.1
    · refine absurd ?_ hk
      have := hp (level + 1) d (by omega) (by omega) h3
      rwa [h4] at this
  refine ⟨fun l p hm => ?_, fun l c h1 h2 h3 => ?_, hmono, m3, fun hf l c s h1 h2 h3 h4 => ?_⟩
  · rcases hr l p hm with h | ⟨h, h'⟩
    · exact Or.inl (hmono l p h)
    · by_cases hl : l = level
      · subst hl
        rcases hcase p h' hm with h1 | h1
        · exact Or.inl ((m1 l p).2 (Or.inr (Or.inl ⟨by omega, hcov p h' hm, h1⟩)))
        · exact Or.inr ⟨(m2 l p).2 ⟨h, fun _ _ => h1⟩, h'⟩
      · exact Or.inr ⟨(m2 l p).2 ⟨h, fun h1 => absurd (h1.trans e) hl⟩, h'⟩
  · by_cases hl : l = level
    · subst hl
      exact (m1 _ _).2 (Or.inr (Or.inr ⟨rfl, hcov c h2 h3, hcase c h2 h3⟩))
    · exact hmono _ _ (hp l c (by omega) h2 h3)
  · by_cases hl : l = level
    · subst hl
      constructor
      · intro hk
        refine (m1 l c).2 ?_
        rcases (m1 l s).1 hk with h | ⟨h, h5, h6⟩ | ⟨h, _⟩
        · exact Or.inr (Or.inl ⟨e.symm, hcov c h2 h3, s, h4, by rw [e]; exact h⟩)
        · exact Or.inr (Or.inl ⟨e.symm, hcov c h2 h3, by rw [← h4]; exact h6⟩)
        · omega
      · intro hk
        have h5 := ((m2 l c).1 hk).2 e.symm (hcov c h2 h3)
        refine (m2 l s).2 ⟨?_, fun _ _ => by rw [h4]; exact h5⟩
        have := h5 s h4
        rwa [e] at this
    · have := hf l c s (by omega) h2 h3 h4
      have n1 : ∀ q, (tagCells (maximumCell (level - 1)) calls t).Keep l q ↔ t.Keep l q := by
        intro q
        refine (m1 l q).trans ⟨?_, Or.inl⟩
        rintro (h | ⟨h, _⟩ | ⟨h, _⟩)
        · exact h
        · omega
        · omega
      have n2 : ∀ q, (tagCells (maximumCell (level - 1)) calls t).Coarsen l q ↔ t.Coarsen l q := by
        intro q
        refine (m2 l q).trans ⟨And.left, fun h => ⟨h, fun h' => absurd (h'.trans e) hl⟩⟩
      rw [n1, n1, n2, n2]
      exact this

/-! ### coarsening graduation -/

/-- For the leaves of level above `k` and `minL`: the cells of the reference mesh at the ends of the stencils from the parent are kept. -/
def Balanced (n gw : Nat) (cells all : CA) (minL k : Nat) (t : TagField) : Prop :=
  ∀ l c s, k < l → minL < l → cells.Mem n l c → s ∈ gradStencils n gw → all.Mem n (l - 1) (subPoint s n (parentOf c)) →
    t.Keep (l - 1) (subPoint s n (parentOf c))

theorem TagReady.more {t t' : TagField} (h : TagReady n cells minL t) (hm : MoreKeep t t') : TagReady n cells minL t' :=
  fun l p hp => (h l p hp).imp (hm.1 l p) (And.imp (hm.2.1 l p).2 id)

theorem ParentsKept.mono {k : Nat} {t t' : TagField} (h : ParentsKept n cells minL k t) (hm : ∀ l q, t.Keep l q → t'.Keep l q) :
    ParentsKept n cells minL k t' := fun l c h1 h2 h3 => hm _ _ (h l c h1 h2 h3)

theorem Balanced.mono {k : Nat} {t t' : TagField} (h : Balanced n gw cells all minL k t) (hm : ∀ l q, t.Keep l q → t'.Keep l q) :
    Balanced n gw cells all minL k t' := fun l c s h1 h2 h3 h4 h5 => hm _ _ (h l c s h1 h2 h3 h4 h5)

theorem balance_steps (S : AdaptSets n gw cells ghosts all dom maxL) {level : Nat} (h1 : 1 ≤ level) (h2 : level ≤ maxL) :
    ∀ (L : List (Nat → Int)), (∀ s ∈ L, s ∈ gradStencils n gw) → ∀ t, ParentsKept n cells minL (level - 1) t →
      ∃ t', L.foldlM (balanceStep n level cells all) t = some t' ∧ MoreKeep t t' ∧
        ∀ c s, s ∈ L → minL < level → cells.Mem n level c → all.Mem n (level - 1) (subPoint s n (parentOf c)) →
          t'.Keep (level - 1) (subPoint s n (parentOf c)) := by
  intro L
  induction L with
  | nil => exact fun _ t _ => ⟨t, rfl, MoreKeep.rfl' t, fun c s h => absurd h (by simp)⟩
  | cons s L ih =>
    intro hL t hp
    obtain ⟨calls, c1, c2⟩ := S.balance level s h1 h2 (hL s List.mem_cons_self)
    obtain ⟨b1, b2⟩ := tagBalance (n := n) (level := level - 1) (s := s) (calls := calls) (t := t)
    obtain ⟨t', r1, r2, r3⟩ := ih (fun s' h => hL s' (List.mem_cons_of_mem _ h)) _ (hp.mono b1.1)
    refine ⟨t', ?_, b1.trans r2, fun c s' h3 h4 h5 h6 => ?_⟩
    · rw [List.foldlM_cons]
      unfold balanceStep
      rw [c1]
      exact r1
    · rcases List.mem_cons.1 h3 with rfl | h3
      · exact r2.1 _ _ (b2 _ ((c2 _).2 ⟨⟨c, h5, rfl⟩, h6⟩) (hp level c (by omega) h4 h5))
      · exact r3 c s' h3 h4 h5 h6

theorem coarsen_pass (S : AdaptSets n gw cells ghosts all dom maxL) (F : Families n cells all minL maxL) {t : TagField}
    (hr : TagReady n cells minL t) (href : ∀ l p, cells.Mem n l p → t.Refine l p → t.Keep l p) :
    ∃ t', (downFrom maxL 1).foldlM (coarsenLevel n gw cells all) t = some t' ∧ TagReady n cells minL t' ∧
      (∀ l p, cells.Mem n l p → t'.Refine l p → t'.Keep l p) ∧ ParentsKept n cells minL 0 t' ∧ Balanced n gw cells all minL 0 t' := by
  have hf := foldDown (coarsenLevel n gw cells all)
    (fun k t => TagReady n cells minL t ∧ (∀ l p, cells.Mem n l p → t.Refine l p → t.Keep l p) ∧ ParentsKept n cells minL k t ∧
      Balanced n gw cells all minL k t) 1 maxL le_rfl (by
      rintro k s h1 h2 ⟨i1, i2, i3, i4⟩
      obtain ⟨calls, c1, c2⟩ := S.parents k h1 h2
      obtain ⟨m1, m2, m3, m4, _⟩ := maximum_step F h1 c2 i1 i3
      obtain ⟨t', r1, r2, r3⟩ := balance_steps (minL := minL) S h1 h2 (gradStencils n gw) (fun _ h => h) _ m2
      refine ⟨t', ?_, m1.more r2, fun l p h h' => r2.1 _ _ (m3 _ _ (i2 l p h ((m4 l p).1 ((r2.2.2 l p).1 h')))), m2.mono r2.1, ?_⟩
      · unfold coarsenLevel
        rw [c1]
        exact r1
      · intro l c st h3 h4 h5 h6 h7
        by_cases hl : l = k
        · subst hl
          exact r3 c st h6 h4 h5 h7
        · exact r2.1 _ _ (m3 _ _ (i4 l c st (by omega) h4 h5 h6 h7))) maxL t le_rfl
      ⟨hr, href, fun l c h1 _ h3 => by have := (F.between l c h3).2; omega, fun l c s h1 _ h3 => by have := (F.between l c h3).2; omega⟩
  rwa [show min maxL (1 - 1) = 0 by omega] at hf

/-! ### refinement graduation -/

/-- For the leaves to refine of level above `k` and `minL`: the parents of the cells at the ends of the stencils (kept, in the domain and
with a parent in the reference mesh) are to be refined. -/
def Graduated (n gw : Nat) (cells all : CA) (dom : LCA) (minL k : Nat) (t : TagField) : Prop :=
  ∀ l c s, k < l → minL < l → cells.Mem n l c → t.Refine l c → s ∈ gradStencils n gw → Near 1 (shiftPoint s n c) c →
    all.Mem n (l - 1) (parentOf (shiftPoint s n c)) → AtLevel dom.level l (dom.Mem n) (shiftPoint s n c) →
    t.Refine (l - 1) (parentOf (shiftPoint s n c))

theorem graduate_steps (S : AdaptSets n gw cells ghosts all dom maxL) {level : Nat} (h1 : 1 ≤ level) (h2 : level ≤ maxL) :
    ∀ (L : List (Nat → Int)), (∀ s ∈ L, s ∈ gradStencils n gw) → ∀ t,
      ∃ t', L.foldlM (graduateStep n level cells all dom) t = some t' ∧ (∀ l q, t'.Keep l q ↔ t.Keep l q) ∧
        (∀ l q, t'.Coarsen l q ↔ t.Coarsen l q) ∧ (∀ l q, t.Refine l q → t'.Refine l q) ∧
        (∀ l q, l ≠ level - 1 → (t'.Refine l q ↔ t.Refine l q)) ∧
        ∀ c s, s ∈ L → cells.Mem n level c → t.Keep level (shiftPoint s n c) →
          all.Mem n (level - 1) (parentOf (shiftPoint s n c)) → AtLevel dom.level level (dom.Mem n) (shiftPoint s n c) →
          t'.Refine (level - 1) (parentOf (shiftPoint s n c)) := by
  intro L
  induction L with
  | nil => exact fun _ t => ⟨t, rfl, fun _ _ => Iff.rfl, fun _ _ => Iff.rfl, fun _ _ h => h, fun _ _ _ => Iff.rfl, fun c s h => absurd h (by simp)⟩
  | cons s L ih =>
    intro hL t
    obtain ⟨calls, c1, c2⟩ := S.graduate level s h1 h2 (hL s List.mem_cons_self)
    obtain ⟨b1, b2, b3⟩ := tagGraduate (level := level) (calls := calls) (t := t)
    obtain ⟨t', r1, r2, r3, r4, r5, r6⟩ := ih (fun s' h => hL s' (List.mem_cons_of_mem _ h)) (tagCells (graduateCell level) calls t)
    refine ⟨t', ?_, fun l q => (r2 l q).trans (b1 l q), fun l q => (r3 l q).trans (b2 l q), fun l q h => r4 l q ((b3 l q).2 (Or.inl h)),
      fun l q h => (r5 l q h).trans ((b3 l q).trans ⟨fun h' => h'.elim id fun h'' => absurd h''.1 h, Or.inl⟩), fun c s' h3 h5 h6 h7 h8 => ?_⟩
    · rw [List.foldlM_cons]
      unfold graduateStep
      rw [c1]
      exact r1
    · rcases List.mem_cons.1 h3 with rfl | h3
      · exact r4 _ _ ((b3 _ _).2 (Or.inr ⟨rfl, _, (c2 _).2 ⟨by rw [shift_sub]; exact h5, h7, h8⟩, h6, rfl⟩))
      · exact r6 c s' h3 h5 ((b1 _ _).2 h6) h7 h8

theorem refine_pass (S : AdaptSets n gw cells ghosts all dom maxL) (F : Families n cells all minL maxL) {t : TagField}
    (hr : TagReady n cells minL t) (hp : ParentsKept n cells minL 0 t) (hb : Balanced n gw cells all minL 0 t) :
    ∃ t', (downFrom maxL (minL + 1)).foldlM (refineLevel n gw cells all dom) t = some t' ∧ TagReady n cells minL t' ∧
      RefKept n cells (minL + 1) (maxL + 1) t' ∧ ParentsKept n cells minL 0 t' ∧ Balanced n gw cells all minL 0 t' ∧
      Graduated n gw cells all dom minL minL t' := by
  have hf := foldDown (refineLevel n gw cells all dom)
    (fun k t => TagReady n cells minL t ∧ RefKept n cells (max k minL + 1) (maxL + 1) t ∧ ParentsKept n cells minL 0 t ∧ Balanced n gw cells all minL 0 t ∧
      Graduated n gw cells all dom minL k t) (minL + 1) maxL (by omega) (by
      rintro k s h1 h2 ⟨i1, i2, i3, i4, i5⟩
      obtain ⟨calls, c1, c2⟩ := S.leaves k h2
      have hk := moreKeep_around (level := k) (calls := calls) s
      obtain ⟨t', r1, r2, r3, r4, r5, r6⟩ := graduate_steps S (level := k) (by omega) h2 (gradStencils n gw) (fun _ h => h)
        (tagCells (keepAroundCell k) calls s)
      have hkeep : ∀ l q, s.Keep l q → t'.Keep l q := fun l q h => (r2 l q).2 (hk.1 l q h)
      have href : ∀ l q, l ≠ k - 1 → (t'.Refine l q ↔ s.Refine l q) := fun l q h => (r5 l q h).trans (hk.2.2 l q)
      refine ⟨t', ?_, ?_, ?_, i3.mono hkeep, i4.mono hkeep, ?_⟩
      · unfold refineLevel
        rw [c1]
        exact r1
      · intro l p h
        rcases i1 l p h with h3 | ⟨h3, h4⟩
        · exact Or.inl (hkeep l p h3)
        · exact Or.inr ⟨(r3 l p).2 ((hk.2.1 l p).2 h3), h4⟩
      · intro l p h3 h4 h5 h6 q h7
        have h8 := (href l p (by omega)).1 h6
        by_cases hl : l = k
        · subst hl
          exact (r2 l q).2 ((tagKeepAround.1 l q).2 (Or.inr ⟨rfl, p, (c2 p).2 h5, h8, h7⟩))
        · exact hkeep l q (i2 l p (by omega) h4 h5 h8 q h7)
      · intro l c st h3 h4 h5 h6 h7 h8 h9 h10
        have h11 := (href l c (by omega)).1 h6
        by_cases hl : l = k
        · subst hl
          exact r6 c st h7 h5 ((tagKeepAround.1 l _).2 (Or.inr ⟨rfl, c, (c2 c).2 h5, h11, h8⟩)) h9 h10
        · exact r4 _ _ ((hk.2.2 _ _).2 (i5 l c st (by omega) h4 h5 h11 h7 h8 h9 h10))) maxL t le_rfl
      ⟨hr, fun l p h1 h2 => by omega, hp, hb, fun l c s h1 _ h3 => by have := (F.between l c h3).2; omega⟩
  obtain ⟨t', g1, g2, g3, g4, g5, g6⟩ := hf
  refine ⟨t', g1, g2, ?_, g4, g5, ?_⟩
  · rwa [show max (min maxL (minL + 1 - 1)) minL + 1 = minL + 1 by omega] at g3
  · intro l c s h1 h2 h3
    exact g6 l c s (by omega) h2 h3

/-! ### last pass -/

theorem maximum_pass (S : AdaptSets n gw cells ghosts all dom maxL) (F : Families n cells all minL maxL) {t : TagField}
    (hr : TagReady n cells minL t) (hp : ParentsKept n cells minL 0 t) :
    ∃ t', (downFrom maxL 1).foldlM (maximumLevel n cells all) t = some t' ∧ TagReady n cells minL t' ∧
      (∀ l q, t.Keep l q → t'.Keep l q) ∧ (∀ l q, t'.Refine l q ↔ t.Refine l q) ∧ FamilyTags n cells minL 0 t' := by
  have hf := foldDown (maximumLevel n cells all)
    (fun k s => TagReady n cells minL s ∧ ParentsKept n cells minL 0 s ∧ (∀ l q, t.Keep l q → s.Keep l q) ∧
      (∀ l q, s.Refine l q ↔ t.Refine l q) ∧ FamilyTags n cells minL k s) 1 maxL le_rfl (by
      rintro k s h1 h2 ⟨i1, i2, i3, i4, i5⟩
      obtain ⟨calls, c1, c2⟩ := S.parents k h1 h2
      obtain ⟨m1, m2, m3, m4, m5⟩ := maximum_step F h1 c2 i1 (fun l c h3 h4 h5 => i2 l c (by omega) h4 h5)
      refine ⟨tagCells (maximumCell (k - 1)) calls s, ?_, m1, i2.mono m3, fun l q h => m3 l q (i3 l q h), fun l q => (m4 l q).trans (i4 l q), m5 i5⟩
      unfold maximumLevel
      rw [c1]) maxL t le_rfl
      ⟨hr, hp, fun _ _ h => h, fun _ _ => Iff.rfl, fun l c s h1 _ h3 => by have := (F.between l c h3).2; omega⟩
  obtain ⟨t', g1, g2, g3, g4, g5, g6⟩ := hf
  rw [show min maxL (1 - 1) = 0 by omega] at g6
  exact ⟨t', g1, g2, g4, g5, g6⟩

/-- What is known on the tags computed by `harten`. -/
structure HartenTags (n gw : Nat) (cells all : CA) (dom : LCA) (minL maxL : Nat) (t : TagField) : Prop where
  ready : TagReady n cells minL t
  refKept : RefKept n cells (minL + 1) (maxL + 1) t
  parents : ParentsKept n cells minL 0 t
  balanced : Balanced n gw cells all minL 0 t
  graduated : Graduated n gw cells all dom minL minL t
  family : FamilyTags n cells minL 0 t

theorem hartenTags_spec {m : SubMeshes} (S : AdaptSets n gw m.cells m.ghosts m.all dom maxL) (hw : m.cells.WF n)
    (F : Families n m.cells m.all minL maxL) (hmin : 1 ≤ minL) {ite : Nat} (hite : minL ≤ maxL - ite + 1) (enlarge : Bool) (D : DetailMasks) :
    ∃ t, hartenTags n gw minL maxL ite enlarge D m dom = some t ∧ HartenTags n gw m.cells m.all dom minL maxL t := by
  obtain ⟨t1, a1, a2⟩ := criteria_W S hmin (D := D) hite (tagLeaves_W hw minL (maxL - ite))
  obtain ⟨t2, b1, b2, b3⟩ := keep_pass S (enlarge := enlarge) hite a2
  obtain ⟨b4, b5⟩ := ready_of b2 b3
  obtain ⟨t3, c1, c2, c3, c4, c5⟩ := coarsen_pass S F b4 b5
  obtain ⟨t4, d1, d2, d3, d4, d5, d6⟩ := refine_pass S F c2 c4 c5
  obtain ⟨t5, e1, e2, e3, e4, e5⟩ := maximum_pass S F d2 d4
  refine ⟨t5, ?_, e2, fun l p h1 h2 h3 h4 q h5 => e3 _ _ (d3 l p h1 h2 h3 ((e4 _ _).1 h4) q h5), d4.mono e3, d5.mono e3, ?_, e5⟩
  · unfold hartenTags
    rw [a1]
    simp only []
    rw [b1]
    simp only []
    rw [c1]
    simp only []
    rw [d1]
    exact e1
  · intro l c s h1 h2 h3 h4 h5 h6 h7 h8
    exact (e4 _ _).2 (d6 l c s h1 h2 h3 ((e4 _ _).1 h4) h5 h6 h7 h8)

end

end Samurai

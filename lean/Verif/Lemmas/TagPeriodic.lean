import Verif.Model.TagPeriodic
import Verif.Lemmas.Periodic

namespace Samurai

section
variable {n : Nat} {ref : CA} {l gw : Nat} {b : Box} {P : Nat → Bool}

theorem tagPut_apply (t : TagField) (l : Nat) (p : List Int) (x : BitVec 32) (l' : Nat) (q : List Int) : t.put l p x l' q = if l' = l ∧ q = p then x else t l' q := by
  unfold CellField.put
  rfl

/-- The cells of a list and their translates exchange their flags. -/
theorem tagPeriodic_fold (v : Nat → Int) (L : List (List Int)) (t : TagField) :
    let t' := L.foldl (tagPeriodicCell n l v) t
    (∀ l' x i, (t l' x).getLsbD i = true → (t' l' x).getLsbD i = true) ∧
    (∀ p ∈ L, ∀ i, ((t l p).getLsbD i = true → (t' l (shiftPoint v n p)).getLsbD i = true) ∧ ((t l (shiftPoint v n p)).getLsbD i = true → (t' l p).getLsbD i = true)) ∧
    ∀ (Q : List Int → List Int → Prop), (∀ p ∈ L, Q p (shiftPoint v n p) ∧ Q (shiftPoint v n p) p) → (∀ x y z, Q x y → Q y z → Q x z) →
      ∀ l' x i, (t' l' x).getLsbD i = true → (t l' x).getLsbD i = true ∨ (l' = l ∧ ∃ q, Q x q ∧ (t l q).getLsbD i = true) := by
  induction L generalizing t with
  | nil => exact ⟨fun _ _ _ h => h, fun p hp => by simp at hp, fun _ _ _ _ _ _ h => Or.inl h⟩
  | cons p L ih =>
    obtain ⟨i1, i2, i3⟩ := ih (tagPeriodicCell n l v t p)
    have hval : ∀ l' x, tagPeriodicCell n l v t p l' x = if l' = l ∧ (x = p ∨ x = shiftPoint v n p) then t l p ||| t l (shiftPoint v n p) else t l' x := by
      intro l' x
      unfold tagPeriodicCell
      simp only [tagPut_apply]
      by_cases hl : l' = l
      · subst hl
        by_cases h1 : x = shiftPoint v n p
        · subst h1
          by_cases h2 : shiftPoint v n p = p
          · simp [h2]
          · simp only [h2, and_false, if_false, and_self, or_true, if_true]
            rw [BitVec.or_comm, BitVec.or_assoc, BitVec.or_self]
        · by_cases h2 : x = p
          · subst h2; simp [h1]
          · simp [h1, h2]
      · simp [hl]
    have up : ∀ l' x i, (t l' x).getLsbD i = true → (tagPeriodicCell n l v t p l' x).getLsbD i = true := by
      intro l' x i h
      rw [hval]
      split
      · rename_i hx
        obtain ⟨rfl, rfl | rfl⟩ := hx <;> simp [h]
      · exact h
    refine ⟨fun l' x i h => i1 _ _ _ (up _ _ _ h), ?_, ?_⟩
    · intro q hq i
      rcases List.mem_cons.1 hq with rfl | hq
      · exact ⟨fun h => i1 _ _ _ (by rw [hval]; simp [h]), fun h => i1 _ _ _ (by rw [hval]; simp [h])⟩
      · exact ⟨fun h => (i2 q hq i).1 (up _ _ _ h), fun h => (i2 q hq i).2 (up _ _ _ h)⟩
    · intro Q hQ htr l' x i h
      have hp := hQ p (by simp)
      have low : ∀ y, (tagPeriodicCell n l v t p l y).getLsbD i = true → (t l y).getLsbD i = true ∨ ∃ q, Q y q ∧ (t l q).getLsbD i = true := by
        intro y hy
        rw [hval] at hy
        split at hy
        · rename_i hx
          rw [BitVec.getLsbD_or, Bool.or_eq_true] at hy
          rcases hx.2 with rfl | rfl
          · rcases hy with hy | hy
            · exact Or.inl hy
            · exact Or.inr ⟨_, hp.1, hy⟩
          · rcases hy with hy | hy
            · exact Or.inr ⟨_, hp.2, hy⟩
            · exact Or.inl hy
        · exact Or.inl hy
      rcases i3 Q (fun q hq => hQ q (by simp [hq])) htr l' x i h with h | ⟨rfl, q, hq, h⟩
      · by_cases hl : l' = l
        · subst hl
          exact (low x h).imp id fun h => ⟨rfl, h⟩
        · rw [hval, if_neg (fun h => hl h.1)] at h
          exact Or.inl h
      · rcases low q h with h | ⟨q', hq', h⟩
        · exact Or.inr ⟨rfl, q, hq, h⟩
        · exact Or.inr ⟨rfl, q', htr _ _ _ hq hq', h⟩

/-- What a part of the update does to the flags: none is lost, and new ones come from cells related by `Q`. -/
structure TagExchanges (l : Nat) (Q : List Int → List Int → Prop) (t t' : TagField) : Prop where
  up : ∀ l' x i, (t l' x).getLsbD i = true → (t' l' x).getLsbD i = true
  from' : ∀ l' x i, (t' l' x).getLsbD i = true → (t l' x).getLsbD i = true ∨ (l' = l ∧ ∃ q, Q x q ∧ (t l q).getLsbD i = true)

theorem TagExchanges.trans {Q : List Int → List Int → Prop} (htr : ∀ x y z, Q x y → Q y z → Q x z) {t t' t'' : TagField} (h : TagExchanges l Q t t') (h' : TagExchanges l Q t' t'') :
    TagExchanges l Q t t'' := by
  refine ⟨fun l' x i hx => h'.up _ _ _ (h.up _ _ _ hx), fun l' x i hx => ?_⟩
  rcases h'.from' l' x i hx with hx | ⟨rfl, q, hq, hx⟩
  · exact h.from' _ _ _ hx
  · rcases h.from' _ _ _ hx with hx | ⟨-, q', hq', hx⟩
    · exact Or.inr ⟨rfl, q, hq, hx⟩
    · exact Or.inr ⟨rfl, q', htr _ _ _ hq hq', hx⟩

theorem tagPeriodicSet_ok (hw : ref.WF n) (hl : ref.Leveled) (hlm : l ≤ ref.maxSize) {B : Int} (hB : B + 2 < INT_MAX)
    (hs : (ref.lca l).Small n B) {c : Box} (hc : ∀ d ≤ n, c.lo d < c.hi d ∧ c.hi d ≤ B) {v : Nat → Int} {Q : List Int → List Int → Prop} (htr : ∀ x y z, Q x y → Q y z → Q x z)
    (hQ : ∀ p, ref.Mem n l p → InBox c n p → Q p (shiftPoint v n p) ∧ Q (shiftPoint v n p) p) (t : TagField) :
    ∃ t', tagPeriodicSet n ref l c v t = some t' ∧ TagExchanges l Q t t' ∧
      ∀ p, ref.Mem n l p → InBox c n p → ∀ i, ((t l p).getLsbD i = true → (t' l (shiftPoint v n p)).getLsbD i = true) ∧ ((t l (shiftPoint v n p)).getLsbD i = true → (t' l p).getLsbD i = true) := by
  obtain ⟨calls, c1, c2, c3⟩ := runDefault_two (n := n) (o := .inter) (A := ref.lca l) (B := LCA.ofBox n l c) (l := l) (hw l hlm)
    (ofBox_wf l fun d hd => (hc d hd).1) (hl l hlm) (ofBox_spec c n l).2.2 hs (K := B) (by
      intro p hp x hx
      have hp := inBox_iff.1 ((ofBox_mem l p).1 hp)
      obtain ⟨k, hk⟩ := List.mem_iff_getElem?.1 (List.mem_reverse.2 hx)
      have hkl := (List.getElem?_eq_some_iff.1 hk).1
      rw [List.length_reverse, hp.1] at hkl
      have h1 := hp.2 k (by omega)
      have h2 := (hc k (by omega)).2
      have : toPt p k = x := by unfold toPt; rw [List.getD_eq_getElem?_getD, hk]; rfl
      omega) hB
  have c3' : ∀ p, p ∈ callCells calls ↔ ref.Mem n l p ∧ InBox c n p := by
    intro p
    rw [mem_callCells, c3 p]
    show (ref.lca l).Mem n p ∧ (LCA.ofBox n l c).Mem n p ↔ _
    rw [ofBox_mem, mem_lca hlm]
  obtain ⟨e1, e2, e3⟩ := tagPeriodic_fold (n := n) (l := l) v (callCells calls) t
  refine ⟨_, by unfold tagPeriodicSet; rw [c1]; rfl, ⟨e1, e3 Q (fun p hp => ?_) htr⟩, fun p h1 h2 => e2 p ((c3' p).2 ⟨h1, h2⟩)⟩
  obtain ⟨h1, h2⟩ := (c3' p).1 hp
  exact hQ p h1 h2

/-- Two cells of the mesh around the domain that periodicity identifies. -/
def TagClass (n : Nat) (ref : CA) (l gw : Nat) (b : Box) (P : Nat → Bool) (x y : List Int) : Prop :=
  (ref.Mem n l x ∧ AroundBox n gw b x) ∧ (ref.Mem n l y ∧ AroundBox n gw b y) ∧ SameClass n P b x y

theorem TagClass.symm {x y : List Int} (h : TagClass n ref l gw b P x y) : TagClass n ref l gw b P y x := by
  obtain ⟨h1, h2, h3, h4, h5⟩ := h
  refine ⟨h2, h1, h4, h3, fun d hd => ?_⟩
  have := h5 d hd
  split
  · rename_i hP
    rw [if_pos hP] at this
    rw [show toPt y d - toPt x d = -(toPt x d - toPt y d) by ring]
    exact (Int.dvd_neg).2 this
  · rename_i hP
    rw [if_neg hP] at this
    exact this.symm

theorem TagClass.trans {x y z : List Int} (h : TagClass n ref l gw b P x y) (h' : TagClass n ref l gw b P y z) : TagClass n ref l gw b P x z := by
  obtain ⟨h1, h2, h3, h4, h5⟩ := h
  obtain ⟨k1, k2, k3, k4, k5⟩ := h'
  refine ⟨h1, k2, h3, k4, fun d hd => ?_⟩
  have a := h5 d hd
  have b := k5 d hd
  split
  · rename_i hP
    rw [if_pos hP] at a b
    have := dvd_add a b
    rwa [sub_add_sub_cancel] at this
  · rename_i hP
    rw [if_neg hP] at a b
    exact a.trans b

theorem tagClass_shift {d : Nat} (hP : P d = true) {p : List Int} (hp : ref.Mem n l p) (ha : AroundBox n gw b p) {s : Int}
    (hs : (b.hi d - b.lo d) ∣ s) (hq : ref.Mem n l (shiftPoint (alongDir d s) n p)) (hqa : AroundBox n gw b (shiftPoint (alongDir d s) n p)) :
    TagClass n ref l gw b P p (shiftPoint (alongDir d s) n p) := by
  refine ⟨⟨hp, ha⟩, ⟨hq, hqa⟩, ha.1, hqa.1, fun k hk => ?_⟩
  rw [toPt_along ha.1 hk]
  by_cases hkd : k = d
  · subst hkd
    rw [if_pos hP, if_pos rfl, show toPt p k - (toPt p k + s) = - s by ring]
    exact (Int.dvd_neg).2 hs
  · rw [if_neg hkd]
    split
    · simp
    · rfl

theorem tagPeriodicDir_ok (g : PeriodicReady n ref l gw b P) {d : Nat} (hd : d ≤ n) (hP : P d = true) (t : TagField) :
    ∃ t', tagPeriodicDir n gw ref l b.lo b.hi (fun k => b.hi k - b.lo k) t d = some t' ∧ TagExchanges l (TagClass n ref l gw b P) t t' ∧
      ∀ p, ref.Mem n l p → AroundBox n gw b p → ∀ i, ((t l p).getLsbD i = true → (t' l (wrapDir n b d p)).getLsbD i = true) ∧ ((t l (wrapDir n b d p)).getLsbD i = true → (t' l p).getLsbD i = true) := by
  obtain ⟨B, hB1, hB2, hB3⟩ := g.range
  have hwd := g.width.2 d hd hP
  have hgw := g.width.1
  have hpos := g.pos d hd
  have hbox : ∀ after, ∀ k ≤ n, (periodicBox gw b.lo b.hi d after).lo k < (periodicBox gw b.lo b.hi d after).hi k ∧
      (periodicBox gw b.lo b.hi d after).hi k ≤ B := by
    intro after k hk
    have h1 := g.pos k hk
    have h2 := hB3 k hk
    unfold periodicBox
    by_cases hkd : k = d
    · subst hkd
      cases after <;> simp <;> omega
    · simp [hkd]; omega
  have haround : ∀ after p, InBox (periodicBox gw b.lo b.hi d after) n p → AroundBox n gw b p := by
    intro after p h
    obtain ⟨h1, h2, h3⟩ := (inBox_periodic hd).1 h
    refine ⟨h1, fun k hk => ?_⟩
    by_cases hkd : k = d
    · subst hkd
      have := h3 hk
      cases after <;> simp at this <;> omega
    · exact h2 k hk hkd
  have hbefore : ∀ p, InBox (periodicBox gw b.lo b.hi d false) n p ↔ AroundBox n gw b p ∧ toPt p d < b.lo d := by
    intro p
    constructor
    · intro h
      have := ((inBox_periodic hd).1 h).2.2 hd
      simp at this
      exact ⟨haround _ p h, this.2⟩
    · rintro ⟨h1, h2⟩
      refine (inBox_periodic hd).2 ⟨h1.1, fun k hk _ => h1.2 k hk, fun _ => ?_⟩
      have := h1.2 d hd
      simp; omega
  have hafter : ∀ p, InBox (periodicBox gw b.lo b.hi d true) n p ↔ AroundBox n gw b p ∧ b.hi d ≤ toPt p d := by
    intro p
    constructor
    · intro h
      have := ((inBox_periodic hd).1 h).2.2 hd
      simp at this
      exact ⟨haround _ p h, this.1⟩
    · rintro ⟨h1, h2⟩
      refine (inBox_periodic hd).2 ⟨h1.1, fun k hk _ => h1.2 k hk, fun _ => ?_⟩
      have := h1.2 d hd
      simp; omega
  obtain ⟨t1, a1, a2, a3⟩ := tagPeriodicSet_ok g.wf g.leveled g.size hB1 hB2 (hbox false) (v := alongDir d (b.hi d - b.lo d)) (Q := TagClass n ref l gw b P) (fun _ _ _ => TagClass.trans) (by
    intro p hp hb
    obtain ⟨h1, h2⟩ := (hbefore p).1 hb
    have had := h1.2 d hd
    have hc := tagClass_shift hP hp h1 (dvd_refl _) ((g.images p hp h1 d hd hP).1 h2) (aroundBox_shift h1 hd ⟨by omega, by omega⟩)
    exact ⟨hc, hc.symm⟩) t
  obtain ⟨t2, b1, b2, b3⟩ := tagPeriodicSet_ok g.wf g.leveled g.size hB1 hB2 (hbox true) (v := alongDir d (b.lo d - b.hi d)) (Q := TagClass n ref l gw b P) (fun _ _ _ => TagClass.trans) (by
    intro p hp hb
    obtain ⟨h1, h2⟩ := (hafter p).1 hb
    have had := h1.2 d hd
    have hc := tagClass_shift hP hp h1 (s := b.lo d - b.hi d) ⟨-1, by ring⟩ ((g.images p hp h1 d hd hP).2 h2) (aroundBox_shift h1 hd ⟨by omega, by omega⟩)
    exact ⟨hc, hc.symm⟩) t1
  refine ⟨t2, ?_, TagExchanges.trans (Q := TagClass n ref l gw b P) (fun _ _ _ h h' => TagClass.trans h h') a2 b2, ?_⟩
  · have e1 : (fun k => if k = d then b.hi d - b.lo d else 0) = alongDir d (b.hi d - b.lo d) := rfl
    have e2 : (fun k => if k = d then -(b.hi d - b.lo d) else 0) = alongDir d (b.lo d - b.hi d) := by
      rw [neg_sub]; rfl
    unfold tagPeriodicDir
    rw [e1, a1]
    simp only []
    rw [e2]
    exact b1
  · intro p hp ha i
    unfold wrapDir
    split
    · rename_i h
      have := a3 p hp ((hbefore p).2 ⟨ha, h⟩) i
      exact ⟨fun k => b2.up _ _ _ (this.1 k), fun k => b2.up _ _ _ (this.2 k)⟩
    split
    · rename_i h
      have := b3 p hp ((hafter p).2 ⟨ha, h⟩) i
      exact ⟨fun k => this.1 (a2.up _ _ _ k), fun k => this.2 (a2.up _ _ _ k)⟩
    · exact ⟨fun k => b2.up _ _ _ (a2.up _ _ _ k), fun k => b2.up _ _ _ (a2.up _ _ _ k)⟩

theorem wrap_image (g : PeriodicReady n ref l gw b P) {d : Nat} (hd : d ≤ n) (hP : P d = true) {ds : List Nat} {p q : List Int} (hq : ref.Mem n l q) (ha : AroundBox n gw b q)
    (h : PeriodicImage n (fun k => decide (k ∈ ds)) b p q) : PeriodicImage n (fun k => decide (k ∈ d :: ds)) b p (wrapDir n b d q) := by
  obtain ⟨w1, w2, w3, w4, w5⟩ := g.wrap hd hP hq ha
  refine ⟨w2.1, fun k hk => ?_⟩
  have hk4 := h.2 k hk
  by_cases hkd : k = d
  · subst hkd
    rw [if_pos (by simp)]
    refine ⟨w3, ?_⟩
    have hdv : (b.hi k - b.lo k) ∣ (toPt p k - toPt q k) := by
      by_cases hm : k ∈ ds
      · rw [if_pos (by simpa using hm)] at hk4
        exact hk4.2
      · rw [if_neg (by simpa using hm)] at hk4
        rw [hk4]; simp
    have := dvd_add hdv w4
    rwa [sub_add_sub_cancel] at this
  · rw [w5 k hk hkd]
    by_cases hm : k ∈ ds
    · rw [if_pos (by simpa using hm)] at hk4
      rw [if_pos (by simp [hm])]
      exact hk4
    · rw [if_neg (by simpa using hm)] at hk4
      rw [if_neg (by simp [hm, hkd])]
      exact hk4

theorem image_wrap (g : PeriodicReady n ref l gw b P) {d : Nat} (hd : d ≤ n) (hP : P d = true) {ds : List Nat} {p q : List Int} (hp : ref.Mem n l p) (ha : AroundBox n gw b p)
    (h : PeriodicImage n (fun k => decide (k ∈ ds)) b (wrapDir n b d p) q) : PeriodicImage n (fun k => decide (k ∈ d :: ds)) b p q := by
  obtain ⟨w1, w2, w3, w4, w5⟩ := g.wrap hd hP hp ha
  refine ⟨h.1, fun k hk => ?_⟩
  have hk4 := h.2 k hk
  by_cases hkd : k = d
  · subst hkd
    rw [if_pos (by simp)]
    by_cases hm : k ∈ ds
    · rw [if_pos (by simpa using hm)] at hk4
      have := dvd_add w4 hk4.2
      rw [sub_add_sub_cancel] at this
      exact ⟨hk4.1, this⟩
    · rw [if_neg (by simpa using hm)] at hk4
      rw [hk4]
      exact ⟨w3, w4⟩
  · rw [w5 k hk hkd] at hk4
    by_cases hm : k ∈ ds
    · rw [if_pos (by simpa using hm)] at hk4
      rw [if_pos (by simp [hm])]
      exact hk4
    · rw [if_neg (by simpa using hm)] at hk4
      rw [if_neg (by simp [hm, hkd])]
      exact hk4

theorem tagPeriodicDirs_ok (g : PeriodicReady n ref l gw b P) (ds : List Nat) (hds : ∀ d ∈ ds, d ≤ n ∧ P d = true) (t : TagField) :
    ∃ t', ds.foldlM (tagPeriodicDir n gw ref l b.lo b.hi fun k => b.hi k - b.lo k) t = some t' ∧ TagExchanges l (TagClass n ref l gw b P) t t' ∧
      ∀ p, ref.Mem n l p → AroundBox n gw b p → ∃ q, ref.Mem n l q ∧ AroundBox n gw b q ∧ PeriodicImage n (fun k => decide (k ∈ ds)) b p q ∧
        ∀ i, ((t l p).getLsbD i = true → (t' l q).getLsbD i = true) ∧ ((t l q).getLsbD i = true → (t' l p).getLsbD i = true) := by
  induction ds generalizing t with
  | nil =>
    refine ⟨t, rfl, ⟨fun _ _ _ h => h, fun _ _ _ h => Or.inl h⟩, fun p hp ha => ⟨p, hp, ha, ⟨ha.1, fun k hk => by simp⟩, fun i => ⟨id, id⟩⟩⟩
  | cons d ds ih =>
    obtain ⟨hd, hP⟩ := hds d (by simp)
    obtain ⟨t1, a1, a2, a3⟩ := tagPeriodicDir_ok g hd hP t
    obtain ⟨t2, b1, b2, b3⟩ := ih (fun k hk => hds k (by simp [hk])) t1
    refine ⟨t2, by rw [List.foldlM_cons, a1]; exact b1, TagExchanges.trans (Q := TagClass n ref l gw b P) (fun _ _ _ h h' => TagClass.trans h h') a2 b2, fun p hp ha => ?_⟩
    obtain ⟨w1, w2, -⟩ := g.wrap hd hP hp ha
    obtain ⟨q, q1, q2, q3, q4⟩ := b3 _ w1 w2
    obtain ⟨x, x1, x2, x3, x4⟩ := b3 p hp ha
    obtain ⟨y1, y2, -⟩ := g.wrap hd hP x1 x2
    have e : wrapDir n b d x = q := periodicImage_unique (wrap_image g hd hP x1 x2 x3) (image_wrap g hd hP hp ha q3)
    refine ⟨q, q1, q2, image_wrap g hd hP hp ha q3, fun i => ⟨fun h => (q4 i).1 ((a3 p hp ha i).1 h), fun h => ?_⟩⟩
    rw [← e] at h
    exact (x4 i).2 ((a3 x x1 x2 i).2 h)

/-- `update_tag_periodic` on a mesh that has the images of its periodic ghosts. -/
theorem updateTagPeriodic_spec {dom : LCA} (hdom : BoxDomain n dom l b) (g : PeriodicReady n ref l gw b P) (t : TagField) :
    ∃ t', updateTagPeriodic n gw ref dom P l t = some t' ∧ TagExchanges l (TagClass n ref l gw b P) t t' ∧
      ∀ p, ref.Mem n l p → AroundBox n gw b p → ∃ q, PeriodicImage n P b p q ∧ ref.Mem n l q ∧
        ∀ i, ((t l p).getLsbD i = true → (t' l q).getLsbD i = true) ∧ ((t l q).getLsbD i = true → (t' l p).getLsbD i = true) := by
  have hI := domainIndices_box hdom.wf (b := b.refined (dom.level - l)) (fun d hd => by
    have := hdom.pos d hd
    have h2 := pow_two_pos (dom.level - l)
    exact Int.mul_lt_mul_of_pos_right this h2) hdom.mem
  let I := (List.range (n + 1)).map fun d => ((b.refined (dom.level - l)).lo d, (b.refined (dom.level - l)).hi d)
  let c : Box := ⟨fun d => shr (I.getD d (0, 0)).1 (dom.level - l), fun d => shr (I.getD d (0, 0)).2 (dom.level - l)⟩
  have hget : ∀ d ≤ n, I.getD d (0, 0) = (b.lo d * 2 ^ (dom.level - l), b.hi d * 2 ^ (dom.level - l)) := by
    intro d hd
    show (List.map _ _).getD d (0, 0) = _
    rw [List.getD_eq_getElem?_getD, List.getElem?_map, List.getElem?_range (by omega)]
    rfl
  have hlo : ∀ d ≤ n, c.lo d = b.lo d := fun d hd => by
    show shr (I.getD d (0, 0)).1 _ = _
    rw [hget d hd, shr_mul_pow]
  have hhi : ∀ d ≤ n, c.hi d = b.hi d := fun d hd => by
    show shr (I.getD d (0, 0)).2 _ = _
    rw [hget d hd, shr_mul_pow]
  have hper : (fun d => shr ((I.getD d (0, 0)).2 - (I.getD d (0, 0)).1) (dom.level - l)) = fun d => c.hi d - c.lo d := by
    funext d
    by_cases hd : d ≤ n
    · rw [hlo d hd, hhi d hd, hget d hd, ← sub_mul, shr_mul_pow]
    · have h0 : I.getD d (0, 0) = (0, 0) := by
        rw [List.getD_eq_getElem?_getD, List.getElem?_eq_none (by simp [I]; omega)]
        rfl
      show _ = shr (I.getD d (0, 0)).2 _ - shr (I.getD d (0, 0)).1 _
      rw [h0]
      simp [shr]
  have har : ∀ p, AroundBox n gw c p ↔ AroundBox n gw b p := fun p =>
    and_congr_right fun _ => forall₂_congr fun d hd => by rw [hlo d hd, hhi d hd]
  have g' : PeriodicReady n ref l gw c P := by
    obtain ⟨B, B1, B2, B3⟩ := g.range
    refine ⟨g.wf, g.leveled, g.size, g.numbers, ⟨B, B1, B2, fun d hd => by rw [hhi d hd]; exact B3 d hd⟩,
      fun d hd => by rw [hlo d hd, hhi d hd]; exact g.pos d hd, ⟨g.width.1, fun d hd hP => by rw [hlo d hd, hhi d hd]; exact g.width.2 d hd hP⟩, ?_⟩
    intro p hp ha d hd hP
    rw [hlo d hd, hhi d hd]
    exact g.images p hp ((har p).1 ha) d hd hP
  obtain ⟨t', e1, e2, e3⟩ := tagPeriodicDirs_ok g' ((List.range (n + 1)).filter P) (fun d hd => by
    rw [List.mem_filter, List.mem_range] at hd
    exact ⟨by omega, hd.2⟩) t
  refine ⟨t', ?_, ⟨e2.up, fun l' x i hx => ?_⟩, ?_⟩
  · unfold updateTagPeriodic
    rw [hI]
    simp only []
    rw [if_neg (by have := hdom.le; rintro ⟨_, h⟩; omega), ← e1]
    exact congrArg (fun f => List.foldlM (tagPeriodicDir n gw ref l c.lo c.hi f) t (List.filter P (List.range (n + 1)))) hper
  · refine (e2.from' l' x i hx).imp id fun ⟨h1, q, ⟨k1, k2, k3, k4, k5⟩, h3⟩ => ⟨h1, q, ⟨⟨k1.1, (har _).1 k1.2⟩, ⟨k2.1, (har _).1 k2.2⟩, k3, k4, fun d hd => ?_⟩, h3⟩
    have := k5 d hd
    rwa [hlo d hd, hhi d hd] at this
  · intro p hp ha
    obtain ⟨q, q1, q2, q3, q4⟩ := e3 p hp ((har p).2 ha)
    refine ⟨q, ⟨q2.1, fun d hd => ?_⟩, q1, q4⟩
    have q5 := q3.2 d hd
    rw [hlo d hd, hhi d hd] at q5
    by_cases hP : P d = true
    · rw [if_pos hP]
      rw [if_pos (by simp [hP]; omega)] at q5
      exact q5
    · rw [if_neg hP]
      rw [if_neg (by simp [hP])] at q5
      exact q5

/-- With one periodic direction, in which the domain has twice as many cells as there are ghosts on a side, the class of a ghost has two cells around the domain. -/
theorem class_two {d : Nat} (hd : d ≤ n) (hw : 2 * (gw : Int) ≤ b.hi d - b.lo d) {p q x : List Int} (ha : AroundBox n gw b p) (q1 : PeriodicImage n (fun k => decide (k = d)) b p q) (hqp : q ≠ p)
    (hx : AroundBox n gw b x) (hs : SameClass n (fun k => decide (k = d)) b p x) : x = p ∨ x = q := by
  have hpd := ha.2 d hd
  have hqd := q1.2 d hd
  rw [if_pos (by simp)] at hqd
  obtain ⟨hqd, a, ha1⟩ := hqd
  have hxd := hx.2 d hd
  have hsd := hs.2.2 d hd
  rw [if_pos (by simp)] at hsd
  obtain ⟨c, hc⟩ := hsd
  have hne : toPt q d ≠ toPt p d := by
    intro e
    refine hqp (toPt_ext q1.1 ha.1 fun k hk => ?_)
    by_cases hkd : k = d
    · rw [hkd]; exact e
    · have := q1.2 k (by omega)
      rwa [if_neg (by simpa using hkd)] at this
  have hxe : toPt x d = toPt p d ∨ toPt x d = toPt q d := by
    clear hs q1 hx ha
    generalize b.hi d = H at *
    generalize b.lo d = L at *
    generalize toPt p d = P at *
    generalize toPt q d = Q at *
    generalize toPt x d = X at *
    have hW : 0 < H - L := by omega
    have b1 : a < 2 := by by_contra hcon; nlinarith
    have b2 : -2 < a := by by_contra hcon; nlinarith
    have c1 : c < 2 := by by_contra hcon; nlinarith
    have c2 : -2 < c := by by_contra hcon; nlinarith
    have a0 : a ≠ 0 := by rintro rfl; apply hne; linarith
    have ea : a = 1 ∨ a = -1 := by omega
    have ec : c = 1 ∨ c = 0 ∨ c = -1 := by omega
    rcases ea with ea | ea <;> rcases ec with ec | ec | ec <;> subst ea <;> subst ec <;> omega
  rcases hxe with e | e
  · refine Or.inl (toPt_ext hx.1 ha.1 fun k hk => ?_)
    by_cases hkd : k = d
    · rw [hkd]; exact e
    · have := hs.2.2 k (by omega)
      rw [if_neg (by simpa using hkd)] at this
      exact this.symm
  · refine Or.inr (toPt_ext hx.1 q1.1 fun k hk => ?_)
    by_cases hkd : k = d
    · rw [hkd]; exact e
    · have h3 := hs.2.2 k (by omega)
      have h4 := q1.2 k (by omega)
      rw [if_neg (by simpa using hkd)] at h3 h4
      rw [h4, h3]

end

end Samurai

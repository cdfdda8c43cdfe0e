import Verif.Lemmas.PeriodicMeshFull

namespace Samurai

section
variable {n : Nat} {P : Nat → Bool} {b : Box}

/-! ### periodic copies -/

theorem class_desc {p q a : List Int} {k : Nat} (h : SameClass n P b p q) (ha : Anc k p a) : ∃ a', Anc k q a' ∧ SameClass n P (b.refined k) a a' := by
  obtain ⟨hp, hq, hc⟩ := h
  obtain ⟨hal, had⟩ := (anc_iff_toPt hp).1 ha
  refine ⟨ofPt (n + 1) fun d => toPt a d + (toPt q d - toPt p d) * 2 ^ k, (anc_iff_toPt hq).2 ⟨ofPt_length _ _, fun d hd => ?_⟩,
    hal, ofPt_length _ _, fun d hd => ?_⟩
  · rw [toPt_ofPt _ hd]
    have := had d hd
    unfold IsAncestor at this ⊢
    rw [sub_mul]
    rw [add_mul] at this ⊢
    omega
  · rw [toPt_ofPt _ (by omega)]
    have := hc d hd
    by_cases hP : P d = true
    · rw [if_pos hP] at this ⊢
      obtain ⟨t, ht⟩ := this
      refine ⟨t, ?_⟩
      show _ = (b.hi d * 2 ^ k - b.lo d * 2 ^ k) * t
      rw [← sub_mul, mul_right_comm, ← ht]
      ring
    · rw [if_neg hP] at this ⊢
      rw [this]; ring

theorem class_up {p a a' : List Int} {k : Nat} (ha : Anc k p a) (h : SameClass n P (b.refined k) a a') : SameClass n P b p (a'.map fun y => shr y k) := by
  obtain ⟨hal, hal', hc⟩ := h
  have hpl : p.length = n + 1 := (List.Forall₂.length_eq ha).trans hal
  have had := ((anc_iff_toPt hpl).1 ha).2
  have ha' : Anc k (a'.map fun y => shr y k) a' := anc_iff.2 rfl
  have had' := ((anc_iff_toPt (n := n + 1) (by simpa using hal')).1 ha').2
  have hk := pow_two_pos k
  refine ⟨hpl, by simpa using hal', fun d hd => ?_⟩
  have h1 := hc d hd
  have h2 := had d (by omega)
  have h3 := had' d (by omega)
  unfold IsAncestor at h2 h3
  have key : ∀ t : Int, toPt a d - toPt a' d = t * 2 ^ k → toPt p d - toPt (a'.map fun y => shr y k) d = t := by
    intro t ht
    set x := toPt p d
    set y := toPt (a'.map fun y => shr y k) d
    have e1 : (x - y - t) * 2 ^ k < 1 * 2 ^ k := by
      rw [add_mul] at h2 h3
      rw [sub_mul, sub_mul]
      omega
    have e2 : (-1) * 2 ^ k < (x - y - t) * 2 ^ k := by
      rw [add_mul] at h2 h3
      rw [sub_mul, sub_mul]
      omega
    have e3 := lt_of_mul_lt_mul_right e1 (le_of_lt hk)
    have e4 := lt_of_mul_lt_mul_right e2 (le_of_lt hk)
    omega
  by_cases hP : P d = true
  · rw [if_pos hP] at h1 ⊢
    obtain ⟨t, ht⟩ := h1
    refine ⟨t, key _ ?_⟩
    rw [ht]
    show (b.hi d * 2 ^ k - b.lo d * 2 ^ k) * t = _
    ring
  · rw [if_neg hP] at h1 ⊢
    have := key 0 (by omega)
    omega

theorem class_near {w : Nat} {a c c' : List Int} (hn : Near w a c) (h : SameClass n P b c c') : ∃ a', Near w a' c' ∧ SameClass n P b a a' := by
  obtain ⟨hc, hc', hd⟩ := h
  have hal : a.length = n + 1 := hn.length_eq.trans hc
  have hnd := (near_iff_toPt hal hc).1 hn
  refine ⟨ofPt (n + 1) fun d => toPt a d + (toPt c' d - toPt c d), (near_iff_toPt (ofPt_length _ _) hc').2 fun d hd' => ?_, hal, ofPt_length _ _,
    fun d hd' => ?_⟩
  · rw [toPt_ofPt _ (by omega)]
    have := hnd d hd'
    omega
  · rw [toPt_ofPt _ (by omega)]
    have := hd d hd'
    rw [show toPt a d - (toPt a d + (toPt c' d - toPt c d)) = toPt c d - toPt c' d by ring]
    by_cases hP : P d = true
    · rwa [if_pos hP] at this ⊢
    · rw [if_neg hP] at this ⊢
      omega

theorem class_unique {p q : List Int} (h : SameClass n P b p q) (hp : InBox b n p) (hq : InBox b n q) : p = q := by
  refine toPt_ext h.1 h.2.1 fun d hd => ?_
  have h1 := (inBox_iff.1 hp).2 d (by omega)
  have h2 := (inBox_iff.1 hq).2 d (by omega)
  have h3 := h.2.2 d (by omega)
  by_cases hP : P d = true
  · rw [if_pos hP] at h3
    have := Int.eq_zero_of_abs_lt_dvd h3 (by rw [abs_lt]; omega)
    omega
  · rwa [if_neg hP] at h3

theorem class_wrap (hP : ∀ d ≤ n, P d = true) (hpos : ∀ d ≤ n, b.lo d < b.hi d) {p : List Int} (hp : p.length = n + 1) :
    ∃ q, InBox b n q ∧ SameClass n P b p q := by
  refine ⟨ofPt (n + 1) fun d => b.lo d + (toPt p d - b.lo d) % (b.hi d - b.lo d), inBox_iff.2 ⟨ofPt_length _ _, fun d hd => ?_⟩, hp, ofPt_length _ _,
    fun d hd => ?_⟩
  · rw [toPt_ofPt _ (by omega)]
    have := hpos d hd
    have h1 := Int.emod_nonneg (toPt p d - b.lo d) (show b.hi d - b.lo d ≠ 0 by omega)
    have h2 := Int.emod_lt_of_pos (toPt p d - b.lo d) (show 0 < b.hi d - b.lo d by omega)
    omega
  · rw [if_pos (hP d hd), toPt_ofPt _ (by omega)]
    have := Int.mul_ediv_add_emod (toPt p d - b.lo d) (b.hi d - b.lo d)
    exact ⟨(toPt p d - b.lo d) / (b.hi d - b.lo d), by linarith⟩

end

/-! ### the leaves and their periodic copies -/

/-- `p` is a periodic copy of a leaf. -/
def PLeaf (n : Nat) (P : Nat → Bool) (base : Nat) (b : Box) (cells : CA) (l : Nat) (p : List Int) : Prop :=
  ∃ q, cells.Mem n l q ∧ SameClass n P (b.refined (l - base)) p q

section
variable {n : Nat} {P : Nat → Bool} {b : Box} {cells : CA} {dom : LCA} {minL maxL base : Nat}

/-- The leaves of a mesh on a box that is periodic in all the directions. -/
structure PerLeaves (n : Nat) (P : Nat → Bool) (base : Nat) (b : Box) (cells : CA) (dom : LCA) (minL maxL : Nat) : Prop where
  good : GoodLeaves n cells dom minL maxL
  box : BoxDomain n dom base b
  level : dom.level = maxL
  coarse : base ≤ minL - 3
  per : ∀ d ≤ n, P d = true
  graded : cells.GradedPeriodic n P base b

theorem PerLeaves.dom' (g : PerLeaves n P base b cells dom minL maxL) {l : Nat} (h1 : base ≤ l) (h2 : l ≤ maxL) : BoxDomain n dom l (b.refined (l - base)) :=
  g.box.finer h1 (by have := g.level; omega)

theorem PerLeaves.leafIn (g : PerLeaves n P base b cells dom minL maxL) {l : Nat} {p : List Int} (hp : cells.Mem n l p) :
    InBox (b.refined (l - base)) n p := by
  have := g.good.between l p hp
  have := g.coarse
  exact leaf_inBox g.good (g.dom' (by omega) (by omega)) (le_of_eq g.level) hp le_rfl (by rw [Nat.sub_self]; exact anc_zero.2 rfl)

theorem refined_at {k l : Nat} (h : base ≤ l) (h' : l ≤ k) : (b.refined (l - base)).refined (k - l) = b.refined (k - base) := by
  rw [Box.refined_refined, show l - base + (k - l) = k - base by omega]

theorem PLeaf.levels (g : PerLeaves n P base b cells dom minL maxL) {l : Nat} {p : List Int} (h : PLeaf n P base b cells l p) : base ≤ l ∧ minL ≤ l ∧ l ≤ maxL := by
  obtain ⟨q, h, _⟩ := h
  have := g.good.between l q h
  have := g.coarse
  omega

theorem PLeaf.real (g : PerLeaves n P base b cells dom minL maxL) {l : Nat} {p : List Int} (h : PLeaf n P base b cells l p)
    (hp : InBox (b.refined (l - base)) n p) : cells.Mem n l p := by
  obtain ⟨q, h1, h2⟩ := h
  rw [class_unique h2 hp (g.leafIn h1)]
  exact h1

theorem PLeaf.of {l : Nat} {p : List Int} (h : cells.Mem n l p) : PLeaf n P base b cells l p := ⟨p, h, SameClass.rfl' (mem_length h.2)⟩

theorem PLeaf.copy {l : Nat} {p q : List Int} (h : PLeaf n P base b cells l p) (hq : SameClass n P (b.refined (l - base)) q p) : PLeaf n P base b cells l q := by
  obtain ⟨r, h1, h2⟩ := h
  exact ⟨r, h1, hq.trans h2⟩

/-- The copies of the leaves cover every cell. -/
theorem PerLeaves.tiled (g : PerLeaves n P base b cells dom minL maxL) {m : List Int} (hm : m.length = n + 1) :
    ∃ l q, PLeaf n P base b cells l q ∧ Anc (maxL - l) q m := by
  have hbm : base ≤ maxL := by have := g.box.le; have := g.level; omega
  have hd := g.dom' hbm le_rfl
  obtain ⟨m', h1, h2⟩ := class_wrap g.per hd.pos hm
  obtain ⟨l, q, h3, h4, h5⟩ := box_tiled g.good hd (le_of_eq g.level) h1 (m := m') (by rw [Nat.sub_self]; exact anc_zero.2 rfl)
  have hl := g.good.between l q h4
  have hco := g.coarse
  refine ⟨l, m.map fun y => shr y (maxL - l), ⟨q, h4, ?_⟩, anc_iff.2 rfl⟩
  rw [← refined_at (l := l) (by omega) h3] at h2
  exact (class_up h5 h2.symm).symm

/-- The copies of the leaves do not overlap. -/
theorem PerLeaves.noOverlap (g : PerLeaves n P base b cells dom minL maxL) {l l' : Nat} {p p' : List Int} (h : PLeaf n P base b cells l p)
    (h' : PLeaf n P base b cells l' p') (hl : l ≤ l') (ha : Anc (l' - l) p p') : l = l' := by
  obtain ⟨q, h1, h2⟩ := id h
  obtain ⟨q', h3, h4⟩ := h'
  have hb := h.levels g
  rw [← refined_at (l := l) (by omega) hl] at h4
  have h5 := class_up ha h4
  have h6 : Anc (l' - l) (q'.map fun y => shr y (l' - l)) q' := anc_iff.2 rfl
  have h7 : InBox (b.refined (l - base)) n (q'.map fun y => shr y (l' - l)) := by
    refine box_of_desc h6 ?_
    rw [refined_at (by omega) hl]
    exact g.leafIn h3
  have h8 := class_unique (h2.symm.trans h5) (g.leafIn h1) h7
  rw [← h8] at h6
  exact (g.good.noOverlap l q l' q' h1 h3 hl h6).1

/-- The copies of the leaves are graded. -/
theorem PerLeaves.gradedFine (g : PerLeaves n P base b cells dom minL maxL) {l l' : Nat} {p p' a c : List Int} (h : PLeaf n P base b cells l p)
    (h' : PLeaf n P base b cells l' p') (ha : Anc (maxL - l) p a) (hc : Anc (maxL - l') p' c) (hn : Near 1 a c) : l' ≤ l + 1 := by
  by_cases hle : l ≤ l'
  · have hb := h.levels g
    have hb' := h'.levels g
    obtain ⟨q, h1, h2⟩ := h
    obtain ⟨q', h3, h4⟩ := h'
    have n1 := near_up' hn (anc_iff.2 rfl : Anc (maxL - l') (a.map fun x => shr x (maxL - l')) a) hc
    have n2 := anc_of_anc (by omega) ha (anc_iff.2 rfl : Anc (maxL - l') (a.map fun x => shr x (maxL - l')) a)
    rw [show maxL - l - (maxL - l') = l' - l by omega] at n2
    obtain ⟨x, x1, x2⟩ := class_desc h2 n2
    rw [refined_at (by omega) hle] at x2
    obtain ⟨y, y1, y2⟩ := class_near (near_symm n1) x2
    exact g.graded l q l' q' y x h1 h3 hle (y2.symm.trans h4) (near_symm y1) x1
  · omega

/-- A cell is a copy of a leaf, or contains finer ones, or lies in a coarser one. -/
theorem PerLeaves.cases (g : PerLeaves n P base b cells dom minL maxL) {level : Nat} (hlev : level ≤ maxL) {p : List Int} (hp : p.length = n + 1) :
    PLeaf n P base b cells level p ∨ (∃ l c, level < l ∧ PLeaf n P base b cells l c ∧ Anc (l - level) p c) ∨
      ∃ l c, l < level ∧ PLeaf n P base b cells l c ∧ Anc (level - l) c p := by
  obtain ⟨m, hm⟩ := anc_exists (maxL - level) p
  obtain ⟨l1, c, h2, h3⟩ := g.tiled ((List.Forall₂.length_eq hm).symm.trans hp)
  have := h2.levels g
  rcases Nat.lt_trichotomy l1 level with h | h | h
  · refine .inr (.inr ⟨l1, c, h, h2, ?_⟩)
    have := anc_of_anc (by omega) h3 hm
    rwa [show maxL - l1 - (maxL - level) = level - l1 by omega] at this
  · subst h
    rw [anc_iff] at h3 hm
    rw [h3.trans hm.symm] at h2
    exact .inl h2
  · refine .inr (.inl ⟨l1, c, h, h2, ?_⟩)
    have := anc_of_anc (by omega) hm h3
    rwa [show maxL - level - (maxL - l1) = l1 - level by omega] at this

/-- A cell that lies in a copy of a coarser leaf does not touch a cell that contains copies of finer leaves. -/
theorem PerLeaves.noTouch (g : PerLeaves n P base b cells dom minL maxL) {level l0 l' : Nat} {q z c0 x : List Int} (hl0 : l0 < level)
    (hc0 : PLeaf n P base b cells l0 c0) (hq : Anc (level - l0) c0 q) (hl' : level < l') (hx : PLeaf n P base b cells l' x) (hz : Anc (l' - level) z x)
    (hn : Near 1 q z) : False := by
  have hlx := hx.levels g
  have hxl : x.length = n + 1 := by obtain ⟨_, _, h⟩ := hx; exact h.1
  have hzl : z.length = n + 1 := (List.Forall₂.length_eq hz).trans hxl
  obtain ⟨a, b', h1, h2, h3⟩ := touch_down (maxL - level) hn
  obtain ⟨l1, q1, e2, e3⟩ := g.tiled ((List.Forall₂.length_eq h2).symm.trans hzl)
  have e1 := e2.levels g
  have e4 : level < l1 := by
    by_contra hlt
    have e5 := anc_of_anc (by omega) e3 h2
    rw [show maxL - l1 - (maxL - level) = level - l1 by omega] at e5
    have e6 := anc_trans e5 hz
    rw [show level - l1 + (l' - level) = l' - l1 by omega] at e6
    have := g.noOverlap e2 hx (by omega) e6
    omega
  have e5 := anc_trans hq h1
  rw [show level - l0 + (maxL - level) = maxL - l0 by omega] at e5
  have := g.gradedFine hc0 e2 e5 e3 h3
  omega

/-- A cell of the mesh that lies in a copy of a coarser leaf lies in one of the level below. -/
theorem PerLeaves.parent (g : PerLeaves n P base b cells dom minL maxL) {cfg : MeshConfig} (hs : cfg.predictionOrder = 1) (hw : cfg.maxStencilWidth = 1)
    {l l0 : Nat} {p c0 : List Int} (hp : PerBase n cfg cells base b P l p) (hl0 : l0 < l) (hc0 : PLeaf n P base b cells l0 c0)
    (ha : Anc (l - l0) c0 p) : l = l0 + 1 := by
  obtain ⟨q, q1, q2⟩ := perDirs_class (fun d hd => (mem_perDirs.1 hd).2) (fun p hp => mrBase_length g.good.wf hp) hp
  have hbl := hc0.levels g
  have lev := mrBase_level g.good.between q1
  have near_leaf : ∀ r, PLeaf n P base b cells l r → Near 1 p r → l = l0 + 1 := by
    intro r hr hn
    obtain ⟨x, y, h1, h2, h3⟩ := touch_down (maxL - l) hn
    have e := anc_trans ha h1
    rw [show l - l0 + (maxL - l) = maxL - l0 by omega] at e
    have := g.gradedFine hc0 hr e h2 h3
    omega
  have copyDown : ∀ {k : Nat} {z z' c : List Int}, SameClass n P (b.refined (l - base)) z z' → Anc k z' c → ∃ c', Anc k z c' ∧
      SameClass n P (b.refined (l + k - base)) c' c := by
    intro k z z' c h1 h2
    obtain ⟨c', h3, h4⟩ := class_desc h1.symm h2
    rw [Box.refined_refined, show l - base + k = l + k - base by omega] at h4
    exact ⟨c', h3, h4.symm⟩
  rcases q1 with ⟨c, hc, hn⟩ | ⟨r, ⟨c, hc, hrc⟩, _, hn⟩ | ⟨c, hc, hn⟩
  · rw [hw] at hn
    obtain ⟨c', h1, h2⟩ := class_near (near_symm hn) q2.symm
    exact near_leaf c' ((PLeaf.of hc).copy h2.symm) (near_symm h1)
  · rw [hw] at hrc
    rw [hs] at hn
    obtain ⟨z, z1, z2⟩ := class_near (near_symm hn) q2.symm
    obtain ⟨r', r1, r2⟩ := copyDown z2.symm (anc_iff.2 rfl : Anc 1 _ r)
    obtain ⟨c', c1, c2⟩ := class_near (near_symm hrc) r2.symm
    have hc' : PLeaf n P base b cells (l + 1) c' := (PLeaf.of hc).copy c2.symm
    have hpar : Anc 1 (c'.map fun y => shr y 1) c' := anc_iff.2 rfl
    have hze : Near 1 z (c'.map fun y => shr y 1) := near_up' (near_symm c1) r1 hpar
    have hlz := z2.2.1
    rcases g.cases (level := l) (by omega) hlz with h | ⟨l1, c1, h1, h2, h3⟩ | ⟨l1, c1, h1, h2, h3⟩
    · exact near_leaf z h (near_symm z1)
    · exact (g.noTouch hl0 hc0 ha h1 h2 h3 (near_symm z1)).elim
    · exact (g.noTouch h1 h2 h3 (l' := l + 1) (by omega) hc' (by rw [show l + 1 - l = 1 by omega]; exact hpar) hze).elim
  · rw [hs] at hn
    obtain ⟨z, z1, z2⟩ := class_near (near_symm hn) q2.symm
    obtain ⟨c', r1, r2⟩ := copyDown z2.symm (anc_iff.2 rfl : Anc 2 _ c)
    exact (g.noTouch hl0 hc0 ha (l' := l + 2) (by omega) ((PLeaf.of hc).copy r2) (by rw [show l + 2 - l = 2 by omega]; exact r1) (near_symm z1)).elim

end

end Samurai

import Verif.Lemmas.Periodic
import Verif.Lemmas.MRMesh
import Verif.Lemmas.InterfaceSets
import Verif.Model.PeriodicMesh
import Verif.Lemmas.MeshFull
import Verif.Lemmas.GhostAdapted

namespace Samurai

section
variable {n : Nat} {gw : Nat} {b : Box}

theorem shiftCalls_adds {level : Nat} {v : Nat → Int} {calls : List Call} (h : OkCalls n calls) {l : Nat} {p : List Int} :
    (∃ c, (l, c) ∈ shiftCalls n level v calls ∧ c.Adds p) ↔ l = level ∧ ∃ q, Covers calls q ∧ p = shiftPoint v n q := by
  unfold shiftCalls
  constructor
  · rintro ⟨c, hc, ha⟩
    obtain ⟨c', hc', he⟩ := List.mem_map.1 hc
    simp only [Prod.mk.injEq] at he
    obtain ⟨rfl, rfl⟩ := he
    obtain ⟨x, x1, x2, rfl⟩ := ha
    obtain ⟨o1, _, o3, _⟩ := h c' hc'
    simp only [Interval.addRight, Interval.addAssign] at x1 x2
    refine ⟨rfl, c'.1 ++ [x - v 0], ⟨c', hc', x - v 0, Interval.mem_def.2 ⟨by omega, by omega⟩, rfl⟩, ?_⟩
    rw [shift_snoc' o1]
    simp
  · rintro ⟨rfl, q, ⟨c', hc', x, hx, rfl⟩, rfl⟩
    obtain ⟨o1, _, o3, _⟩ := h c' hc'
    have hx := Interval.mem_def.1 hx
    refine ⟨_, List.mem_map.2 ⟨c', hc', rfl⟩, x + v 0, ?_, ?_, shift_snoc' o1⟩
    · simp only [Interval.addRight, Interval.addAssign]; omega
    · simp only [Interval.addRight, Interval.addAssign]; omega

theorem shiftCalls_ok {level m : Nat} (hm : level ≤ m) {v : Nat → Int} {calls : List Call} (h : OkCalls n calls) :
    ∀ e ∈ shiftCalls n level v calls, e.1 ≤ m ∧ e.2.idx.length = n ∧ e.2.Valid := by
  intro e he
  obtain ⟨c, hc, rfl⟩ := List.mem_map.1 he
  obtain ⟨o1, o2, _⟩ := h c hc
  refine ⟨hm, ?_, ?_⟩
  · simp only [CellCall.idx]; rw [shift_length, o1]
  · show (c.2.addRight (v 0)).start < (c.2.addRight (v 0)).stop
    simp only [Interval.addRight, Interval.addAssign]; omega

/-- One direction of the addition of the periodic ghosts. -/
def PerStep (n gw : Nat) (b : Box) (d : Nat) (S : List Int → Prop) (p : List Int) : Prop :=
  S p ∨ (∃ q, (S q ∧ InBox (periodicBand gw b.lo b.hi d false) n q) ∧ p = shiftPoint (alongDir d (b.hi d - b.lo d)) n q) ∨
    ∃ q, (S q ∧ InBox (periodicBand gw b.lo b.hi d true) n q) ∧ p = shiftPoint (alongDir d (b.lo d - b.hi d)) n q

/-- The state of the construction: `cell_list` and `all_cells` hold the cells `S`. -/
structure PerState (n m : Nat) (S : Nat → List Int → Prop) (s : CL n × CA) : Prop where
  hist : Hist n m s.1 S
  size : s.2.maxSize = m
  wf : s.2.WF n
  leveled : s.2.Leveled
  mem : ∀ l p, (s.2.lca l).Mem n p ↔ S l p

theorem inBand {p : List Int} {d : Nat} (_ : d ≤ n) {after : Bool} :
    InBox (periodicBand gw b.lo b.hi d after) n p ↔ p.length = n + 1 ∧
      (∀ k ≤ n, k ≠ d → b.lo k - gw ≤ toPt p k ∧ toPt p k < b.hi k + gw) ∧
      (d ≤ n → if after then b.hi d - gw ≤ toPt p d ∧ toPt p d < b.hi d + gw else b.lo d - gw ≤ toPt p d ∧ toPt p d < b.lo d + gw) := by
  rw [inBox_iff]
  unfold periodicBand
  constructor
  · rintro ⟨h1, h2⟩
    refine ⟨h1, fun k hk hkd => ?_, fun hd => ?_⟩
    · have := h2 k hk
      simpa [hkd] using this
    · have := h2 d hd
      cases after <;> simpa using this
  · rintro ⟨h1, h2, h3⟩
    refine ⟨h1, fun k hk => ?_⟩
    by_cases hkd : k = d
    · subst hkd
      have := h3 hk
      cases after <;> simpa using this
    · have := h2 k hk hkd
      simpa [hkd] using this

theorem mem_iff_toPt {p : List Int} (hp : p.length = n + 1) {x : Int} : x ∈ p ↔ ∃ d ≤ n, toPt p d = x := by
  constructor
  · intro hx
    obtain ⟨k, hk⟩ := List.mem_iff_getElem?.1 (List.mem_reverse.2 hx)
    have hkl := (List.getElem?_eq_some_iff.1 hk).1
    rw [List.length_reverse, hp] at hkl
    exact ⟨k, by omega, by unfold toPt; rw [List.getD_eq_getElem?_getD, hk]; rfl⟩
  · rintro ⟨d, hd, rfl⟩
    unfold toPt
    rw [List.getD_eq_getElem?_getD, List.getElem?_eq_getElem (by simp [hp]; omega)]
    exact List.mem_reverse.1 (List.getElem_mem _)

theorem mrPeriodicDir_spec {m level : Nat} (hm : level ≤ m) {S : Nat → List Int → Prop} {s : CL n × CA} (h : PerState n m S s) {B : Int}
    (hB : B + 2 < INT_MAX) (hs : ∀ p, S level p → ∀ x ∈ p, x < B) (hgw : 1 ≤ gw) (hb : ∀ d ≤ n, b.lo d < b.hi d ∧ b.hi d + gw ≤ B) {d : Nat}
    (hd : d ≤ n) :
    ∃ s', mrPeriodicDir n gw level b.lo b.hi (fun k => b.hi k - b.lo k) s d = some s' ∧
      PerState n m (fun l => if l = level then PerStep n gw b d (S level) else S l) s' := by
  have hrun : ∀ after, ∃ calls, runDefault n (.op .inter (.leaf (.mesh (s.2.lca level)))
      (.leaf (.mesh (LCA.ofBox n level (periodicBand gw b.lo b.hi d after))))) = some calls ∧ OkCalls n calls ∧
      ∀ p, Covers calls p ↔ S level p ∧ InBox (periodicBand gw b.lo b.hi d after) n p := by
    intro after
    obtain ⟨calls, c1, c2, c3⟩ := runDefault_two (n := n) (o := .inter) (A := s.2.lca level)
      (B := LCA.ofBox n level (periodicBand gw b.lo b.hi d after)) (l := level) (h.wf level (by rw [h.size]; exact hm))
      (ofBox_wf level (by
        intro k hk
        have := (hb k hk).1
        unfold periodicBand
        by_cases hkd : k = d
        · subst hkd
          cases after <;> simp <;> omega
        · simp [hkd]; omega))
      (h.leveled level (by rw [h.size]; exact hm)) (ofBox_spec _ n level).2.2 (K := B)
      (fun p hp => hs p ((h.mem level p).1 hp)) (by
        intro p hp x hx
        rw [ofBox_mem, inBand hd] at hp
        obtain ⟨k, hk, rfl⟩ := (mem_iff_toPt hp.1).1 hx
        have h1 := hb k hk
        by_cases hkd : k = d
        · subst hkd
          have h2 := hp.2.2 hk
          cases after <;> simp at h2 <;> omega
        · have h2 := hp.2.1 k hk hkd
          omega) hB
    refine ⟨calls, c1, c2, fun p => (c3 p).trans ?_⟩
    show (s.2.lca level).Mem n p ∧ (LCA.ofBox n level _).Mem n p ↔ _
    rw [ofBox_mem, h.mem]
  obtain ⟨k1, a1, a2, a3⟩ := hrun false
  obtain ⟨k2, b1, b2, b3⟩ := hrun true
  obtain ⟨cl1, d1, d2⟩ := h.hist.calls (k := shiftCalls n level (alongDir d (b.hi d - b.lo d)) k1) (shiftCalls_ok hm a2)
  obtain ⟨cl2, e1, e2⟩ := d2.calls (k := shiftCalls n level (alongDir d (b.lo d - b.hi d)) k2) (shiftCalls_ok hm b2)
  have e3 := e2.congr (T := fun l => if l = level then PerStep n gw b d (S level) else S l) (by
    intro l p
    rw [shiftCalls_adds a2, shiftCalls_adds b2]
    by_cases hl : l = level
    · subst hl
      simp only [if_pos, true_and]
      unfold PerStep
      simp only [a3, b3, or_assoc]
    · simp [hl])
  obtain ⟨f1, f2, f3, f4, f5⟩ := e3.array
  refine ⟨(cl2, s.2.set level (LCA.ofList (cl2.lcl level))), ?_, e3, h.size, CA.set_wf h.wf (f2 level (by rw [f1]; exact hm)),
    CA.set_leveled h.leveled (f3 level (by rw [f1]; exact hm)), fun l p => ?_⟩
  · have g1 : (fun k => if k = d then b.hi d - b.lo d else 0) = alongDir d (b.hi d - b.lo d) := rfl
    have g2 : (fun k => if k = d then -(b.hi d - b.lo d) else 0) = alongDir d (b.lo d - b.hi d) := by
      rw [neg_sub]; rfl
    unfold mrPeriodicDir
    rw [a1]
    simp only []
    rw [g1, d1]
    simp only []
    rw [b1]
    simp only []
    rw [g2, e1]
  · by_cases hl : l = level
    · subst hl
      rw [CA.set_same]
      exact f4 l p
    · rw [CA.set_ne _ hl, h.mem, if_neg hl]

theorem perStep_small {S : List Int → Prop} {B : Int} (hlen : ∀ p, S p → p.length = n + 1) (hs : ∀ p, S p → ∀ x ∈ p, x < B)
    (hb : ∀ d ≤ n, b.lo d < b.hi d ∧ b.hi d + gw ≤ B) {d : Nat} (hd : d ≤ n) :
    (∀ p, PerStep n gw b d S p → p.length = n + 1) ∧ ∀ p, PerStep n gw b d S p → ∀ x ∈ p, x < B := by
  have hl : ∀ p, PerStep n gw b d S p → p.length = n + 1 := by
    rintro p (h | ⟨q, ⟨h, _⟩, rfl⟩ | ⟨q, ⟨h, _⟩, rfl⟩)
    · exact hlen p h
    · rw [shift_length]; exact hlen q h
    · rw [shift_length]; exact hlen q h
  refine ⟨hl, ?_⟩
  rintro p (h | ⟨q, ⟨h, hq⟩, rfl⟩ | ⟨q, ⟨h, hq⟩, rfl⟩) x hx
  · exact hs p h x hx
  all_goals
    have hql := hlen q h
    obtain ⟨k, hk, rfl⟩ := (mem_iff_toPt (n := n) (by rw [shift_length]; exact hql)).1 hx
    rw [toPt_along hql hk]
    have h1 := hs q h (toPt q k) ((mem_iff_toPt hql).2 ⟨k, hk, rfl⟩)
    have h2 := hb k hk
    have h3 := ((inBand hd).1 hq).2.2 hd
    split
    · subst k
      simp at h3
      omega
    · exact h1

/-- All the periodic directions. -/
def PerDirs (n gw : Nat) (b : Box) (ds : List Nat) (S : List Int → Prop) : List Int → Prop := ds.foldl (fun S d => PerStep n gw b d S) S

theorem perDirs_sub {ds : List Nat} {S : List Int → Prop} {p : List Int} (h : S p) : PerDirs n gw b ds S p := by
  unfold PerDirs
  induction ds generalizing S with
  | nil => exact h
  | cons d ds ih => exact ih (Or.inl h)

theorem perState_congr {m : Nat} {S T : Nat → List Int → Prop} {s : CL n × CA} (h : PerState n m S s) (hST : ∀ l p, T l p ↔ S l p) : PerState n m T s :=
  ⟨h.hist.congr hST, h.size, h.wf, h.leveled, fun l p => (h.mem l p).trans (hST l p).symm⟩

theorem mrPeriodicDirs_spec {m level : Nat} (hm : level ≤ m) {B : Int} (hB : B + 2 < INT_MAX) (hgw : 1 ≤ gw)
    (hb : ∀ d ≤ n, b.lo d < b.hi d ∧ b.hi d + gw ≤ B) (ds : List Nat) (hds : ∀ d ∈ ds, d ≤ n) :
    ∀ {S : Nat → List Int → Prop} {s : CL n × CA}, PerState n m S s → (∀ p, S level p → p.length = n + 1) → (∀ p, S level p → ∀ x ∈ p, x < B) →
    ∃ s', ds.foldlM (mrPeriodicDir n gw level b.lo b.hi fun k => b.hi k - b.lo k) s = some s' ∧
      PerState n m (fun l => if l = level then PerDirs n gw b ds (S level) else S l) s' ∧
      (∀ p, PerDirs n gw b ds (S level) p → p.length = n + 1) ∧ ∀ p, PerDirs n gw b ds (S level) p → ∀ x ∈ p, x < B := by
  induction ds with
  | nil =>
    intro S s h hlen hs
    refine ⟨s, rfl, perState_congr h fun l p => ?_, hlen, hs⟩
    by_cases hl : l = level
    · subst hl; rw [if_pos rfl]; exact Iff.rfl
    · rw [if_neg hl]
  | cons d ds ih =>
    intro S s h hlen hs
    obtain ⟨s1, a1, a2⟩ := mrPeriodicDir_spec hm h hB hs hgw hb (hds d (by simp))
    obtain ⟨p1, p2⟩ := perStep_small hlen hs hb (hds d (by simp))
    obtain ⟨s2, b1, b2, b3, b4⟩ := ih (fun k hk => hds k (by simp [hk])) a2 (by simpa using p1) (by simpa using p2)
    simp only [if_true] at b2 b3 b4
    refine ⟨s2, ?_, perState_congr b2 fun l p => ?_, b3, b4⟩
    · rw [List.foldlM_cons, a1]; exact b1
    · by_cases hl : l = level
      · subst hl
        rw [if_pos rfl, if_pos rfl]
        exact Iff.rfl
      · rw [if_neg hl, if_neg hl, if_neg hl]

/-! ### what the added cells are -/

theorem SameClass.rfl' {P : Nat → Bool} {p : List Int} (h : p.length = n + 1) : SameClass n P b p p := by
  refine ⟨h, h, fun d _ => ?_⟩
  split
  · simp
  · rfl

theorem SameClass.symm {P : Nat → Bool} {p q : List Int} (h : SameClass n P b p q) : SameClass n P b q p := by
  refine ⟨h.2.1, h.1, fun d hd => ?_⟩
  have := h.2.2 d hd
  by_cases hP : P d = true
  · rw [if_pos hP] at this ⊢
    exact (dvd_sub_comm).1 this
  · rw [if_neg hP] at this ⊢
    exact this.symm

theorem SameClass.trans {P : Nat → Bool} {p q r : List Int} (h : SameClass n P b p q) (h' : SameClass n P b q r) : SameClass n P b p r := by
  refine ⟨h.1, h'.2.1, fun d hd => ?_⟩
  have h1 := h.2.2 d hd
  have h2 := h'.2.2 d hd
  by_cases hP : P d = true
  · rw [if_pos hP] at h1 h2 ⊢
    have := dvd_add h1 h2
    rwa [sub_add_sub_cancel] at this
  · rw [if_neg hP] at h1 h2 ⊢
    exact h1.trans h2

theorem sameClass_shift {P : Nat → Bool} {p : List Int} (h : p.length = n + 1) {d : Nat} (hP : P d = true) {t : Int}
    (ht : (b.hi d - b.lo d) ∣ t) : SameClass n P b (shiftPoint (alongDir d t) n p) p := by
  refine ⟨by rw [shift_length]; exact h, h, fun k hk => ?_⟩
  rw [toPt_along h hk]
  by_cases hkd : k = d
  · subst hkd
    rw [if_pos hP, if_pos rfl]
    simpa using ht
  · rw [if_neg hkd]
    split
    · simp
    · rfl

theorem perDirs_class {P : Nat → Bool} {ds : List Nat} (hds : ∀ d ∈ ds, P d = true) :
    ∀ {S : List Int → Prop}, (∀ p, S p → p.length = n + 1) → ∀ {p : List Int}, PerDirs n gw b ds S p → ∃ q, S q ∧ SameClass n P b p q := by
  induction ds with
  | nil => intro S hlen p h; exact ⟨p, h, SameClass.rfl' (hlen p h)⟩
  | cons d ds ih =>
    intro S hlen p h
    have hP := hds d (by simp)
    have key : ∀ p, PerStep n gw b d S p → ∃ q, S q ∧ SameClass n P b p q := by
      rintro p (h | ⟨q, ⟨h, _⟩, rfl⟩ | ⟨q, ⟨h, _⟩, rfl⟩)
      · exact ⟨p, h, SameClass.rfl' (hlen p h)⟩
      · exact ⟨q, h, sameClass_shift (hlen q h) hP dvd_rfl⟩
      · exact ⟨q, h, sameClass_shift (hlen q h) hP ⟨-1, by ring⟩⟩
    obtain ⟨q, q1, q2⟩ := ih (fun k hk => hds k (by simp [hk])) (S := PerStep n gw b d S) (fun p hp => by
      obtain ⟨q, _, h2⟩ := key p hp
      exact h2.1) h
    obtain ⟨r, r1, r2⟩ := key q q1
    exact ⟨r, r1, q2.trans r2⟩

theorem along_comm (d k : Nat) (s t : Int) (p : List Int) :
    shiftPoint (alongDir d s) n (shiftPoint (alongDir k t) n p) = shiftPoint (alongDir k t) n (shiftPoint (alongDir d s) n p) := by
  rw [shift_shift, shift_shift]
  congr 1
  funext j
  ring

theorem along_back (d : Nat) (s : Int) (p : List Int) : shiftPoint (alongDir d (-s)) n (shiftPoint (alongDir d s) n p) = p := by
  have : alongDir d (-s) = fun k => - alongDir d s k := by
    funext k; unfold alongDir; split <;> simp
  have e : (fun k => alongDir d s k + -alongDir d s k) = fun _ => (0 : Int) := by funext k; ring
  rw [this, shift_shift, e]
  clear this e
  induction p generalizing n with
  | nil => rfl
  | cons c p ih => simp only [shiftPoint, add_zero]; rw [ih]

theorem band_around (hpos : ∀ d ≤ n, b.lo d < b.hi d) {d : Nat} (hd : d ≤ n) (hw : (gw : Int) ≤ b.hi d - b.lo d) {after : Bool} {q : List Int}
    (h : InBox (periodicBand gw b.lo b.hi d after) n q) : AroundBox n gw b q := by
  obtain ⟨h1, h2, h3⟩ := (inBand hd).1 h
  refine ⟨h1, fun k hk => ?_⟩
  by_cases hkd : k = d
  · subst hkd
    have := h3 hk
    have := hpos k hk
    cases after <;> simp at * <;> omega
  · exact h2 k hk hkd

theorem band_move {d : Nat} (hd : d ≤ n) {k : Nat} (hkd : k ≠ d) {after : Bool} {q : List Int}
    (h : InBox (periodicBand gw b.lo b.hi d after) n q) {t : Int} (ht : b.lo k - gw ≤ toPt q k + t ∧ toPt q k + t < b.hi k + gw) :
    InBox (periodicBand gw b.lo b.hi d after) n (shiftPoint (alongDir k t) n q) := by
  obtain ⟨b1, b2, b3⟩ := (inBand hd).1 h
  refine (inBand hd).2 ⟨by rw [shift_length]; exact b1, fun j hj hjd => ?_, fun hd' => ?_⟩
  · rw [toPt_along b1 hj]
    split
    · subst j; exact ht
    · exact b2 j hj hjd
  · have := b3 hd'
    rw [toPt_along b1 hd, if_neg (Ne.symm hkd)]
    exact this

/-- One more direction has images. -/
theorem perStep_images {P : Nat → Bool} {S : List Int → Prop} (hpos : ∀ d ≤ n, b.lo d < b.hi d) {d : Nat} (hd : d ≤ n)
    (hw : ∀ k ≤ n, P k = true ∨ k = d → (gw : Int) ≤ b.hi k - b.lo k) (h : HasImages n P gw b S) :
    HasImages n (fun k => P k || k == d) gw b (PerStep n gw b d S) := by
  have hwd := hw d hd (Or.inr rfl)
  have hpd := hpos d hd
  intro p hp ha k hk hPk
  by_cases hkd : k = d
  · subst hkd
    have hak := ha.2 k hk
    rcases hp with hp | ⟨q, ⟨hq, hb⟩, rfl⟩ | ⟨q, ⟨hq, hb⟩, rfl⟩
    · refine ⟨fun hlt => Or.inr (Or.inl ⟨p, ⟨hp, (inBand hk).2 ⟨ha.1, fun j hj _ => ha.2 j hj, fun _ => ?_⟩⟩, rfl⟩),
        fun hge => Or.inr (Or.inr ⟨p, ⟨hp, (inBand hk).2 ⟨ha.1, fun j hj _ => ha.2 j hj, fun _ => ?_⟩⟩, rfl⟩)⟩
      · simp; omega
      · simp; omega
    · have hql := (band_around hpos hk hwd hb).1
      have hb' := ((inBand hk).1 hb).2.2 hk
      simp at hb'
      rw [toPt_along hql hk, if_pos rfl]
      refine ⟨fun h => by omega, fun _ => Or.inl ?_⟩
      rw [show b.lo k - b.hi k = -(b.hi k - b.lo k) by ring, along_back]
      exact hq
    · have hql := (band_around hpos hk hwd hb).1
      have hb' := ((inBand hk).1 hb).2.2 hk
      simp at hb'
      rw [toPt_along hql hk, if_pos rfl]
      refine ⟨fun _ => Or.inl ?_, fun h => by omega⟩
      rw [show b.hi k - b.lo k = -(b.lo k - b.hi k) by ring, along_back]
      exact hq
  · have hP : P k = true := by simpa [hkd] using hPk
    have hwk := hw k hk (Or.inl hP)
    have hpk := hpos k hk
    rcases hp with hp | ⟨q, ⟨hq, hb⟩, rfl⟩ | ⟨q, ⟨hq, hb⟩, rfl⟩
    · obtain ⟨h1, h2⟩ := h p hp ha k hk hP
      exact ⟨fun hlt => Or.inl (h1 hlt), fun hge => Or.inl (h2 hge)⟩
    · have hqa := band_around hpos hd hwd hb
      have hqk := hqa.2 k hk
      obtain ⟨h1, h2⟩ := h q hq hqa k hk hP
      rw [toPt_along hqa.1 hk, if_neg hkd]
      exact ⟨fun hlt => Or.inr (Or.inl ⟨_, ⟨h1 hlt, band_move hd hkd hb ⟨by omega, by omega⟩⟩, along_comm _ _ _ _ _⟩),
        fun hge => Or.inr (Or.inl ⟨_, ⟨h2 hge, band_move hd hkd hb ⟨by omega, by omega⟩⟩, along_comm _ _ _ _ _⟩)⟩
    · have hqa := band_around hpos hd hwd hb
      have hqk := hqa.2 k hk
      obtain ⟨h1, h2⟩ := h q hq hqa k hk hP
      rw [toPt_along hqa.1 hk, if_neg hkd]
      exact ⟨fun hlt => Or.inr (Or.inr ⟨_, ⟨h1 hlt, band_move hd hkd hb ⟨by omega, by omega⟩⟩, along_comm _ _ _ _ _⟩),
        fun hge => Or.inr (Or.inr ⟨_, ⟨h2 hge, band_move hd hkd hb ⟨by omega, by omega⟩⟩, along_comm _ _ _ _ _⟩)⟩

theorem perDirs_images {S : List Int → Prop} (hpos : ∀ d ≤ n, b.lo d < b.hi d) (ds : List Nat) (hds : ∀ d ∈ ds, d ≤ n) {P : Nat → Bool}
    (hw : ∀ k ≤ n, P k = true ∨ k ∈ ds → (gw : Int) ≤ b.hi k - b.lo k) (h : HasImages n P gw b S) :
    HasImages n (fun k => P k || decide (k ∈ ds)) gw b (PerDirs n gw b ds S) := by
  induction ds generalizing S P with
  | nil => simpa [PerDirs] using h
  | cons d ds ih =>
    have h1 := perStep_images hpos (hds d (by simp)) (fun k hk hkd => hw k hk (hkd.imp id fun h => by simp [h])) h
    have h2 := ih (fun k hk => hds k (by simp [hk])) (fun k hk hkd => hw k hk (by
      rcases hkd with hkd | hkd
      · rcases Bool.or_eq_true_iff.1 hkd with h | h
        · exact Or.inl h
        · exact Or.inr (by rw [beq_iff_eq] at h; simp [h])
      · exact Or.inr (by simp [hkd]))) h1
    intro p hp ha k hk hPk
    refine h2 p hp ha k hk ?_
    simp only [List.mem_cons, Bool.or_eq_true, decide_eq_true_eq, beq_iff_eq] at hPk ⊢
    tauto

theorem perStep_congr {c : Box} (h : ∀ d ≤ n, c.lo d = b.lo d ∧ c.hi d = b.hi d) {d : Nat} (hd : d ≤ n) (S : List Int → Prop) :
    PerStep n gw c d S = PerStep n gw b d S := by
  have hband : ∀ after q, InBox (periodicBand gw c.lo c.hi d after) n q ↔ InBox (periodicBand gw b.lo b.hi d after) n q := by
    intro after q
    rw [inBand hd, inBand hd, (h d hd).1, (h d hd).2]
    refine and_congr_right fun _ => and_congr_left fun _ => forall₃_congr fun k hk _ => ?_
    rw [(h k hk).1, (h k hk).2]
  funext p
  unfold PerStep
  simp only [hband, (h d hd).1, (h d hd).2]

theorem perDirs_congr {c : Box} (h : ∀ d ≤ n, c.lo d = b.lo d ∧ c.hi d = b.hi d) (ds : List Nat) (hds : ∀ d ∈ ds, d ≤ n) (S : List Int → Prop) :
    PerDirs n gw c ds S = PerDirs n gw b ds S := by
  unfold PerDirs
  induction ds generalizing S with
  | nil => rfl
  | cons d ds ih =>
    simp only [List.foldl_cons]
    rw [perStep_congr h (hds d (by simp)), ih fun k hk => hds k (by simp [hk])]

/-- The box of a level computed from the indices of the domain. -/
theorem level_box {dom : LCA} {l : Nat} (hdom : BoxDomain n dom l b) : ∃ I, domainIndices n dom = some I ∧ ∃ c : Box,
    (fun d => shr (I.getD d (0, 0)).1 (dom.level - l)) = c.lo ∧ (fun d => shr (I.getD d (0, 0)).2 (dom.level - l)) = c.hi ∧
    (fun d => shr ((I.getD d (0, 0)).2 - (I.getD d (0, 0)).1) (dom.level - l)) = (fun d => c.hi d - c.lo d) ∧
    ∀ d ≤ n, c.lo d = b.lo d ∧ c.hi d = b.hi d := by
  have hI := domainIndices_box hdom.wf (b := b.refined (dom.level - l)) (fun d hd => by
    have := hdom.pos d hd
    have h2 := pow_two_pos (dom.level - l)
    exact Int.mul_lt_mul_of_pos_right this h2) hdom.mem
  let I := (List.range (n + 1)).map fun d => ((b.refined (dom.level - l)).lo d, (b.refined (dom.level - l)).hi d)
  have hget : ∀ d ≤ n, I.getD d (0, 0) = (b.lo d * 2 ^ (dom.level - l), b.hi d * 2 ^ (dom.level - l)) := by
    intro d hd
    show (List.map _ _).getD d (0, 0) = _
    rw [List.getD_eq_getElem?_getD, List.getElem?_map, List.getElem?_range (by omega)]
    rfl
  have hlo : ∀ d ≤ n, shr (I.getD d (0, 0)).1 (dom.level - l) = b.lo d := fun d hd => by rw [hget d hd, shr_mul_pow]
  have hhi : ∀ d ≤ n, shr (I.getD d (0, 0)).2 (dom.level - l) = b.hi d := fun d hd => by rw [hget d hd, shr_mul_pow]
  refine ⟨I, hI, ⟨fun d => shr (I.getD d (0, 0)).1 (dom.level - l), fun d => shr (I.getD d (0, 0)).2 (dom.level - l)⟩, rfl, rfl, ?_,
    fun d hd => ⟨hlo d hd, hhi d hd⟩⟩
  funext d
  by_cases hd : d ≤ n
  · show _ = shr (I.getD d (0, 0)).2 _ - shr (I.getD d (0, 0)).1 _
    rw [hlo d hd, hhi d hd, hget d hd, ← sub_mul, shr_mul_pow]
  · have h0 : I.getD d (0, 0) = (0, 0) := by
      rw [List.getD_eq_getElem?_getD, List.getElem?_eq_none (by simp [I]; omega)]
      rfl
    show _ = shr (I.getD d (0, 0)).2 _ - shr (I.getD d (0, 0)).1 _
    rw [h0]
    simp [shr]

/-- The periodic directions. -/
def perDirs (n : Nat) (P : Nat → Bool) : List Nat := (List.range (n + 1)).filter P

theorem mem_perDirs {P : Nat → Bool} {d : Nat} : d ∈ perDirs n P ↔ d ≤ n ∧ P d = true := by
  unfold perDirs
  rw [List.mem_filter, List.mem_range]
  constructor
  · rintro ⟨h1, h2⟩; exact ⟨by omega, h2⟩
  · rintro ⟨h1, h2⟩; exact ⟨by omega, h2⟩

theorem mrPeriodicLevel_spec {cfg : MeshConfig} {P : Nat → Bool} {m level : Nat} (hm : level ≤ m) {dom : LCA} (hdom : BoxDomain n dom level b)
    {I : List (Int × Int)} (hI : domainIndices n dom = some I) {B : Int} (hB : B + 2 < INT_MAX) (hgw : 1 ≤ cfg.ghostWidth)
    (hb : ∀ d ≤ n, b.hi d + cfg.ghostWidth ≤ B)
    {S : Nat → List Int → Prop} {s : CL n × CA} (h : PerState n m S s) (hlen : ∀ p, S level p → p.length = n + 1)
    (hs : ∀ p, S level p → ∀ x ∈ p, x < B) :
    ∃ s', mrPeriodicLevel n cfg dom.level I P s level = some s' ∧
      PerState n m (fun l => if l = level then PerDirs n cfg.ghostWidth b (perDirs n P) (S level) else S l) s' := by
  obtain ⟨I', hI', c, c1, c2, c3, c4⟩ := level_box hdom
  rw [hI] at hI'
  obtain rfl := Option.some.inj hI'
  have hds : ∀ d ∈ perDirs n P, d ≤ n := fun d hd => (mem_perDirs.1 hd).1
  obtain ⟨s', e1, e2, _⟩ := mrPeriodicDirs_spec (b := c) hm hB hgw (fun d hd => by
    rw [(c4 d hd).1, (c4 d hd).2]
    exact ⟨hdom.pos d hd, hb d hd⟩) (perDirs n P) hds h hlen hs
  rw [perDirs_congr c4 _ hds] at e2
  refine ⟨s', ?_, e2⟩
  unfold mrPeriodicLevel
  simp only []
  rw [if_neg (by have := hdom.le; rintro ⟨_, h⟩; omega), c1, c2, c3]
  exact e1

/-- The periodic ghosts of all the levels. -/
theorem mrPeriodicLevels_spec {cfg : MeshConfig} {P : Nat → Bool} {m : Nat} {dom : LCA} {bx : Nat → Box} {I : List (Int × Int)}
    (hI : domainIndices n dom = some I) {B : Int} (hB : B + 2 < INT_MAX) (hgw : 1 ≤ cfg.ghostWidth) (ls : List Nat) (hnd : ls.Nodup) :
    ∀ {S : Nat → List Int → Prop} {s : CL n × CA}, PerState n m S s → (∀ l ∈ ls, l ≤ m ∧ BoxDomain n dom l (bx l) ∧
      (∀ d ≤ n, (bx l).hi d + cfg.ghostWidth ≤ B) ∧ (∀ p, S l p → p.length = n + 1) ∧ ∀ p, S l p → ∀ x ∈ p, x < B) →
    ∃ s', ls.foldlM (mrPeriodicLevel n cfg dom.level I P) s = some s' ∧
      PerState n m (fun l => if l ∈ ls then PerDirs n cfg.ghostWidth (bx l) (perDirs n P) (S l) else S l) s' := by
  induction ls with
  | nil => intro S s h _; exact ⟨s, rfl, by simpa using h⟩
  | cons l ls ih =>
    intro S s h hl
    obtain ⟨h1, h2, h3, h4, h5⟩ := hl l (by simp)
    have hnot : l ∉ ls := (List.nodup_cons.1 hnd).1
    obtain ⟨s1, a1, a2⟩ := mrPeriodicLevel_spec (P := P) h1 h2 hI hB hgw h3 h h4 h5
    obtain ⟨s2, b1, b2⟩ := ih (List.nodup_cons.1 hnd).2 a2 (by
      intro k hk
      have hkl : k ≠ l := fun e => hnot (e ▸ hk)
      simp only [if_neg hkl]
      exact hl k (by simp [hk]))
    refine ⟨s2, ?_, perState_congr b2 fun k p => ?_⟩
    · rw [List.foldlM_cons, a1]; exact b1
    · by_cases hkl : k = l
      · subst hkl
        simp [hnot]
      · simp [hkl]

theorem perDirs_empty {ds : List Nat} {S : List Int → Prop} (h : ∀ p, ¬ S p) (p : List Int) : ¬ PerDirs n gw b ds S p := by
  unfold PerDirs
  induction ds generalizing S with
  | nil => exact h p
  | cons d ds ih =>
    refine ih fun p => ?_
    rintro (h1 | ⟨q, ⟨h1, _⟩, _⟩ | ⟨q, ⟨h1, _⟩, _⟩) <;> exact h _ h1

theorem perDirs_bound {Q : Int → Prop} (hQ : ∀ x y, x ≤ y → Q y → Q x) {S : List Int → Prop} (hlen : ∀ p, S p → p.length = n + 1)
    (hs : ∀ p, S p → ∀ x ∈ p, Q x) (ds : List Nat) (hds : ∀ d ∈ ds, d ≤ n) (hb : ∀ d ≤ n, b.lo d < b.hi d ∧ Q (b.hi d + gw)) :
    (∀ p, PerDirs n gw b ds S p → p.length = n + 1) ∧ ∀ p, PerDirs n gw b ds S p → ∀ x ∈ p, Q x := by
  induction ds generalizing S with
  | nil => exact ⟨hlen, hs⟩
  | cons d ds ih =>
    have hd := hds d (by simp)
    have hl : ∀ p, PerStep n gw b d S p → p.length = n + 1 := by
      rintro p (h | ⟨q, ⟨h, _⟩, rfl⟩ | ⟨q, ⟨h, _⟩, rfl⟩)
      · exact hlen p h
      · rw [shift_length]; exact hlen q h
      · rw [shift_length]; exact hlen q h
    refine ih (S := PerStep n gw b d S) hl ?_ fun k hk => hds k (by simp [hk])
    rintro p (h | ⟨q, ⟨h, hq⟩, rfl⟩ | ⟨q, ⟨h, hq⟩, rfl⟩) x hx
    · exact hs p h x hx
    all_goals
      have hql := hlen q h
      obtain ⟨k, hk, rfl⟩ := (mem_iff_toPt (n := n) (by rw [shift_length]; exact hql)).1 hx
      rw [toPt_along hql hk]
      have h1 := hs q h (toPt q k) ((mem_iff_toPt hql).2 ⟨k, hk, rfl⟩)
      have h2 := hb k hk
      have h3 := ((inBand hd).1 hq).2.2 hd
      split
      · subst k
        simp at h3
        exact hQ _ _ (by omega) h2.2
      · exact h1

theorem hasImages_none (S : List Int → Prop) : HasImages n (fun _ => false) gw b S := fun _ _ _ _ _ h => by simp at h

theorem perDirs_hasImages {P : Nat → Bool} {S : List Int → Prop} (hpos : ∀ d ≤ n, b.lo d < b.hi d)
    (hw : ∀ k ≤ n, P k = true → (gw : Int) ≤ b.hi k - b.lo k) : HasImages n P gw b (PerDirs n gw b (perDirs n P) S) := by
  have := perDirs_images (gw := gw) hpos (perDirs n P) (fun d hd => (mem_perDirs.1 hd).1) (P := fun _ => false) (fun k hk h => by
    rcases h with h | h
    · simp at h
    · exact hw k hk (mem_perDirs.1 h).2) (hasImages_none S)
  intro p hp ha d hd hP
  exact this p hp ha d hd (by simp [mem_perDirs.2 ⟨hd, hP⟩])

end

end Samurai

import Verif.Lemmas.DomainIndices
import Verif.Spec.Periodic
import Verif.Lemmas.Mesh

namespace Samurai

section
variable {n : Nat} {ref : CA} {l gw : Nat} {b : Box} {K : Type} [Field K]

theorem aroundBox_shift {p : List Int} (hp : AroundBox n gw b p) {d : Nat} (_ : d ≤ n) {t : Int}
    (ht : b.lo d - gw ≤ toPt p d + t ∧ toPt p d + t < b.hi d + gw) : AroundBox n gw b (shiftPoint (alongDir d t) n p) := by
  refine ⟨by rw [shift_length]; exact hp.1, fun k hk => ?_⟩
  rw [toPt_shift hp.1 hk]
  unfold alongDir
  split
  · subst k; exact ht
  · have := hp.2 k hk; simpa using this

theorem toPt_along {p : List Int} (hp : p.length = n + 1) {d k : Nat} (hk : k ≤ n) (t : Int) :
    toPt (shiftPoint (alongDir d t) n p) k = if k = d then toPt p k + t else toPt p k := by
  rw [toPt_shift hp hk]
  unfold alongDir
  split <;> simp

/-- The cell read for `p` in the direction `d`. -/
def wrapDir (n : Nat) (b : Box) (d : Nat) (p : List Int) : List Int :=
  if toPt p d < b.lo d then shiftPoint (alongDir d (b.hi d - b.lo d)) n p
  else if b.hi d ≤ toPt p d then shiftPoint (alongDir d (b.lo d - b.hi d)) n p
  else p

theorem periodicCopy_ok (hw : ref.WF n) (hl : ref.Leveled) (hlm : l ≤ ref.maxSize) (hd : ref.NumbersDiffer n) {B : Int} (hB : B + 2 < INT_MAX)
    (hs : (ref.lca l).Small n B) {c : Box} (hc : ∀ d ≤ n, c.lo d < c.hi d ∧ c.hi d ≤ B) {v : Nat → Int}
    (hv : ∀ p, ref.Mem n l p → InBox c n p → ref.Mem n l (shiftPoint v n p) ∧ ¬ InBox c n (shiftPoint v n p)) (u : Int → K) :
    ∃ u', periodicCopy n ref l c v u = some u' ∧ Keeps n ref l (fun p => InBox c n p) u u' ∧
      ∀ p, ref.Mem n l p → InBox c n p → u' (numOf n ref l p) = u (numOf n ref l (shiftPoint v n p)) := by
  obtain ⟨calls, c1, c2, c3⟩ := runDefault_two (n := n) (o := .inter) (A := ref.lca l) (B := LCA.ofBox n l c) (l := l) (hw l hlm)
    (ofBox_wf l fun d hd => (hc d hd).1) (hl l hlm) (ofBox_spec c n l).2.2 hs (K := B) (by
      intro p hp x hx
      have hp := inBox_iff.1 ((ofBox_mem l p).1 hp)
      obtain ⟨k, hk⟩ := List.mem_iff_getElem?.1 (List.mem_reverse.2 hx)
      have hkl := (List.getElem?_eq_some_iff.1 hk).1
      rw [List.length_reverse, hp.1] at hkl
      have h1 := hp.2 k (by omega)
      have h2 := (hc k (by omega)).2
      have : toPt p k = x := by unfold toPt; rw [List.getD_eq_getElem?_getD, hk]; rfl
      omega) hB
  have c3' : ∀ p, Covers calls p ↔ ref.Mem n l p ∧ InBox c n p := by
    intro p
    rw [c3 p]
    show (ref.lca l).Mem n p ∧ (LCA.ofBox n l c).Mem n p ↔ _
    rw [ofBox_mem, mem_lca hlm]
  obtain ⟨u', e1, e2, e3⟩ := shiftRows_ok hw hd (l := l) (v := v) c2 (fun p hp => ((c3' p).1 hp).1) (fun p hp => by
    obtain ⟨h1, h2⟩ := (c3' p).1 hp
    obtain ⟨h3, h4⟩ := hv p h1 h2
    exact ⟨h3, fun h => h4 ((c3' _).1 h).2⟩) u
  refine ⟨u', ?_, fun idx hi => e2 idx fun p hp hcov => hi p hp ((c3' p).1 hcov).2, fun p h1 h2 => e3 p ((c3' p).2 ⟨h1, h2⟩)⟩
  unfold periodicCopy
  rw [c1]
  exact e1

/-- What the update of the periodic ghosts of a level needs. -/
structure PeriodicReady (n : Nat) (ref : CA) (l gw : Nat) (b : Box) (P : Nat → Bool) : Prop where
  wf : ref.WF n
  leveled : ref.Leveled
  size : l ≤ ref.maxSize
  numbers : ref.NumbersDiffer n
  range : ∃ B, B + 2 < INT_MAX ∧ (ref.lca l).Small n B ∧ ∀ d ≤ n, b.hi d + gw ≤ B
  pos : ∀ d ≤ n, b.lo d < b.hi d
  width : 1 ≤ gw ∧ ∀ d ≤ n, P d = true → (gw : Int) ≤ b.hi d - b.lo d
  images : HasImages n P gw b (ref.Mem n l)

variable {P : Nat → Bool}

theorem inBox_periodic {p : List Int} {d : Nat} (_ : d ≤ n) {after : Bool} :
    InBox (periodicBox gw b.lo b.hi d after) n p ↔ p.length = n + 1 ∧
      (∀ k ≤ n, k ≠ d → b.lo k - gw ≤ toPt p k ∧ toPt p k < b.hi k + gw) ∧
      (d ≤ n → if after then b.hi d ≤ toPt p d ∧ toPt p d < b.hi d + gw else b.lo d - gw ≤ toPt p d ∧ toPt p d < b.lo d) := by
  rw [inBox_iff]
  unfold periodicBox
  constructor
  · rintro ⟨h1, h2⟩
    refine ⟨h1, fun k hk hkd => ?_, fun hd => ?_⟩
    · have := h2 k hk
      simpa [hkd] using this
    · have := h2 d hd
      cases after <;> simpa using this
  · rintro ⟨h1, h2, h3⟩
    refine ⟨h1, fun k hk => ?_⟩
    by_cases hkd : k = d
    · subst hkd
      have := h3 hk
      cases after <;> simpa using this
    · have := h2 k hk hkd
      simpa [hkd] using this

theorem PeriodicReady.wrap (g : PeriodicReady n ref l gw b P) {d : Nat} (hd : d ≤ n) (hP : P d = true) {p : List Int}
    (hp : ref.Mem n l p) (ha : AroundBox n gw b p) :
    ref.Mem n l (wrapDir n b d p) ∧ AroundBox n gw b (wrapDir n b d p) ∧
      (b.lo d ≤ toPt (wrapDir n b d p) d ∧ toPt (wrapDir n b d p) d < b.hi d) ∧
      (b.hi d - b.lo d) ∣ (toPt p d - toPt (wrapDir n b d p) d) ∧ ∀ k ≤ n, k ≠ d → toPt (wrapDir n b d p) k = toPt p k := by
  have hw := g.width.2 d hd hP
  have hp' := g.pos d hd
  have had := ha.2 d hd
  obtain ⟨i1, i2⟩ := g.images p hp ha d hd hP
  unfold wrapDir
  split
  · rename_i h
    refine ⟨i1 h, aroundBox_shift ha hd ⟨by omega, by omega⟩, ?_, ?_, fun k hk hkd => ?_⟩
    · rw [toPt_along ha.1 hd, if_pos rfl]; omega
    · rw [toPt_along ha.1 hd, if_pos rfl]; exact ⟨-1, by ring⟩
    · rw [toPt_along ha.1 hk, if_neg hkd]
  split
  · rename_i h
    refine ⟨i2 h, aroundBox_shift ha hd ⟨by omega, by omega⟩, ?_, ?_, fun k hk hkd => ?_⟩
    · rw [toPt_along ha.1 hd, if_pos rfl]; omega
    · rw [toPt_along ha.1 hd, if_pos rfl]; exact ⟨1, by ring⟩
    · rw [toPt_along ha.1 hk, if_neg hkd]
  · exact ⟨hp, ha, by omega, by simp, fun _ _ _ => rfl⟩

theorem periodicDir_ok (g : PeriodicReady n ref l gw b P) {d : Nat} (hd : d ≤ n) (hP : P d = true) (u : Int → K) :
    ∃ u', periodicDir n gw ref l b.lo b.hi (fun k => b.hi k - b.lo k) u d = some u' ∧
      Keeps n ref l (fun p => AroundBox n gw b p ∧ ¬ (b.lo d ≤ toPt p d ∧ toPt p d < b.hi d)) u u' ∧
      ∀ p, ref.Mem n l p → AroundBox n gw b p → u' (numOf n ref l p) = u (numOf n ref l (wrapDir n b d p)) := by
  obtain ⟨B, hB1, hB2, hB3⟩ := g.range
  have hwd := g.width.2 d hd hP
  have hgw := g.width.1
  have hpos := g.pos d hd
  have hbox : ∀ after, ∀ k ≤ n, (periodicBox gw b.lo b.hi d after).lo k < (periodicBox gw b.lo b.hi d after).hi k ∧
      (periodicBox gw b.lo b.hi d after).hi k ≤ B := by
    intro after k hk
    have h1 := g.pos k hk
    have h2 := hB3 k hk
    unfold periodicBox
    by_cases hkd : k = d
    · subst hkd
      cases after <;> simp <;> omega
    · simp [hkd]; omega
  have haround : ∀ after p, InBox (periodicBox gw b.lo b.hi d after) n p → AroundBox n gw b p := by
    intro after p h
    obtain ⟨h1, h2, h3⟩ := (inBox_periodic hd).1 h
    refine ⟨h1, fun k hk => ?_⟩
    by_cases hkd : k = d
    · subst hkd
      have := h3 hk
      cases after <;> simp at this <;> omega
    · exact h2 k hk hkd
  have hbefore : ∀ p, InBox (periodicBox gw b.lo b.hi d false) n p ↔ AroundBox n gw b p ∧ toPt p d < b.lo d := by
    intro p
    constructor
    · intro h
      have := ((inBox_periodic hd).1 h).2.2 hd
      simp at this
      exact ⟨haround _ p h, this.2⟩
    · rintro ⟨h1, h2⟩
      refine (inBox_periodic hd).2 ⟨h1.1, fun k hk _ => h1.2 k hk, fun _ => ?_⟩
      have := h1.2 d hd
      simp; omega
  have hafter : ∀ p, InBox (periodicBox gw b.lo b.hi d true) n p ↔ AroundBox n gw b p ∧ b.hi d ≤ toPt p d := by
    intro p
    constructor
    · intro h
      have := ((inBox_periodic hd).1 h).2.2 hd
      simp at this
      exact ⟨haround _ p h, this.1⟩
    · rintro ⟨h1, h2⟩
      refine (inBox_periodic hd).2 ⟨h1.1, fun k hk _ => h1.2 k hk, fun _ => ?_⟩
      have := h1.2 d hd
      simp; omega
  have hmem : ∀ p, ref.Mem n l p → AroundBox n gw b p → toPt p d < b.lo d ∨ b.hi d ≤ toPt p d ∨ wrapDir n b d p = p := by
    intro p _ _
    unfold wrapDir
    by_cases h1 : toPt p d < b.lo d
    · exact Or.inl h1
    · by_cases h2 : b.hi d ≤ toPt p d
      · exact Or.inr (Or.inl h2)
      · rw [if_neg h1, if_neg h2]; exact Or.inr (Or.inr rfl)
  obtain ⟨u1, a1, a2, a3⟩ := periodicCopy_ok g.wf g.leveled g.size g.numbers hB1 hB2 (hbox false) (v := alongDir d (b.hi d - b.lo d)) (by
    intro p hp hb
    obtain ⟨h1, h2⟩ := (hbefore p).1 hb
    refine ⟨(g.images p hp h1 d hd hP).1 h2, fun h => ?_⟩
    have h3 := ((hbefore _).1 h).2
    rw [toPt_along h1.1 hd, if_pos rfl] at h3
    have := h1.2 d hd
    omega) u
  obtain ⟨u2, b1, b2, b3⟩ := periodicCopy_ok g.wf g.leveled g.size g.numbers hB1 hB2 (hbox true) (v := alongDir d (b.lo d - b.hi d)) (by
    intro p hp hb
    obtain ⟨h1, h2⟩ := (hafter p).1 hb
    refine ⟨(g.images p hp h1 d hd hP).2 h2, fun h => ?_⟩
    have h3 := ((hafter _).1 h).2
    rw [toPt_along h1.1 hd, if_pos rfl] at h3
    have := h1.2 d hd
    omega) u1
  have inj : ∀ {p q}, ref.Mem n l p → ref.Mem n l q → numOf n ref l p = numOf n ref l q → p = q :=
    fun hp hq h => (numOf_level g.wf g.numbers hp hq h).2
  have keep1 : ∀ p, ref.Mem n l p → ¬ toPt p d < b.lo d → u1 (numOf n ref l p) = u (numOf n ref l p) := by
    intro p hp hn
    refine a2 _ fun q hq hb he => hn ?_
    rw [inj hp hq he]
    exact ((hbefore q).1 hb).2
  have keep2 : ∀ p, ref.Mem n l p → ¬ b.hi d ≤ toPt p d → u2 (numOf n ref l p) = u1 (numOf n ref l p) := by
    intro p hp hn
    refine b2 _ fun q hq hb he => hn ?_
    rw [inj hp hq he]
    exact ((hafter q).1 hb).2
  refine ⟨u2, ?_, ?_, ?_⟩
  · have e1 : (fun k => if k = d then b.hi d - b.lo d else 0) = alongDir d (b.hi d - b.lo d) := rfl
    have e2 : (fun k => if k = d then -(b.hi d - b.lo d) else 0) = alongDir d (b.lo d - b.hi d) := by
      rw [neg_sub]; rfl
    unfold periodicDir
    rw [e1, a1]
    simp only []
    rw [e2]
    exact b1
  · intro idx hi
    rw [b2 idx fun p hp hb => hi p hp ⟨((hafter p).1 hb).1, by have := ((hafter p).1 hb).2; omega⟩,
      a2 idx fun p hp hb => hi p hp ⟨((hbefore p).1 hb).1, by have := ((hbefore p).1 hb).2; omega⟩]
  · intro p hp ha
    obtain ⟨w1, w2, w3, _⟩ := g.wrap hd hP hp ha
    rcases hmem p hp ha with h | h | h
    · rw [keep2 p hp (by omega), a3 p hp ((hbefore p).2 ⟨ha, h⟩)]
      unfold wrapDir
      rw [if_pos h]
    · have e : wrapDir n b d p = shiftPoint (alongDir d (b.lo d - b.hi d)) n p := by
        unfold wrapDir
        rw [if_neg (by omega), if_pos h]
      rw [b3 p hp ((hafter p).2 ⟨ha, h⟩), ← e, keep1 _ w1 (by omega)]
    · rw [h] at w3
      rw [h, keep2 p hp (by omega), keep1 p hp (by omega)]

/-- Several directions. -/
theorem periodicDirs_ok (g : PeriodicReady n ref l gw b P) (ds : List Nat) (hds : ∀ d ∈ ds, d ≤ n ∧ P d = true) (u : Int → K) :
    ∃ u', ds.foldlM (periodicDir n gw ref l b.lo b.hi fun k => b.hi k - b.lo k) u = some u' ∧
      Keeps n ref l (fun p => AroundBox n gw b p ∧ ∃ d ∈ ds, ¬ (b.lo d ≤ toPt p d ∧ toPt p d < b.hi d)) u u' ∧
      ∀ p, ref.Mem n l p → AroundBox n gw b p → ∃ q, ref.Mem n l q ∧ AroundBox n gw b q ∧ u' (numOf n ref l p) = u (numOf n ref l q) ∧
        ∀ k ≤ n, (k ∈ ds → (b.lo k ≤ toPt q k ∧ toPt q k < b.hi k) ∧ (b.hi k - b.lo k) ∣ (toPt p k - toPt q k)) ∧ (k ∉ ds → toPt q k = toPt p k) := by
  induction ds generalizing u with
  | nil =>
    refine ⟨u, rfl, fun _ _ => rfl, fun p hp ha => ⟨p, hp, ha, rfl, fun k hk => ⟨fun h => by simp at h, fun _ => rfl⟩⟩⟩
  | cons d ds ih =>
    obtain ⟨hd, hP⟩ := hds d (by simp)
    obtain ⟨u1, a1, a2, a3⟩ := periodicDir_ok g hd hP u
    obtain ⟨u2, b1, b2, b3⟩ := ih (fun k hk => hds k (by simp [hk])) u1
    refine ⟨u2, ?_, ?_, ?_⟩
    · rw [List.foldlM_cons, a1]; exact b1
    · intro idx hi
      rw [b2 idx fun p hp ⟨h1, k, hk, h2⟩ => hi p hp ⟨h1, k, by simp [hk], h2⟩, a2 idx fun p hp ⟨h1, h2⟩ => hi p hp ⟨h1, d, by simp, h2⟩]
    · intro p hp ha
      obtain ⟨q, q1, q2, q3, q4⟩ := b3 p hp ha
      obtain ⟨w1, w2, w3, w4, w5⟩ := g.wrap hd hP q1 q2
      refine ⟨wrapDir n b d q, w1, w2, by rw [q3, a3 q q1 q2], fun k hk => ⟨fun hkd => ?_, fun hkd => ?_⟩⟩
      · by_cases hk' : k = d
        · subst hk'
          refine ⟨w3, ?_⟩
          have hq : (b.hi k - b.lo k) ∣ (toPt p k - toPt q k) := by
            by_cases hm : k ∈ ds
            · exact ((q4 k hk).1 hm).2
            · rw [(q4 k hk).2 hm]; simp
          have := dvd_add hq w4
          rwa [show toPt p k - toPt q k + (toPt q k - toPt (wrapDir n b k q) k) = toPt p k - toPt (wrapDir n b k q) k by ring] at this
        · rw [w5 k hk hk']
          exact (q4 k hk).1 ((List.mem_cons.1 hkd).resolve_left hk')
      · rw [List.mem_cons, not_or] at hkd
        rw [w5 k hk hkd.1]
        exact (q4 k hk).2 hkd.2

theorem periodicImage_unique {p q q' : List Int} (h : PeriodicImage n P b p q) (h' : PeriodicImage n P b p q') : q = q' := by
  refine toPt_ext (n := n + 1) h.1 h'.1 fun d hd => ?_
  have h1 := h.2 d (by omega)
  have h2 := h'.2 d (by omega)
  by_cases hP : P d = true
  · rw [if_pos hP] at h1 h2
    have h3 := dvd_sub h1.2 h2.2
    rw [show toPt p d - toPt q d - (toPt p d - toPt q' d) = toPt q' d - toPt q d by ring] at h3
    have := Int.eq_zero_of_abs_lt_dvd h3 (by rw [abs_lt]; omega)
    omega
  · rw [if_neg hP] at h1 h2
    omega

/-- `update_ghost_periodic(level, field)` on a mesh that has the images of its periodic ghosts. -/
theorem updateGhostPeriodic_spec {M : BcMesh K} (hdom : BoxDomain n M.dom l b) (g : PeriodicReady n M.ref l M.cfg.ghostWidth b M.periodic) (u : Int → K) :
    ∃ u', updateGhostPeriodic n M l u = some u' ∧
      Keeps n M.ref l (fun p => AroundBox n M.cfg.ghostWidth b p ∧ OutsideAlong n M.periodic b p) u u' ∧
      ∀ p, M.ref.Mem n l p → AroundBox n M.cfg.ghostWidth b p → ∃ q, PeriodicImage n M.periodic b p q ∧ M.ref.Mem n l q ∧
        u' (numOf n M.ref l p) = u (numOf n M.ref l q) := by
  have hI := domainIndices_box hdom.wf (b := b.refined (M.dom.level - l)) (fun d hd => by
    have := hdom.pos d hd
    have h2 := pow_two_pos (M.dom.level - l)
    exact Int.mul_lt_mul_of_pos_right this h2) hdom.mem
  let I := (List.range (n + 1)).map fun d => ((b.refined (M.dom.level - l)).lo d, (b.refined (M.dom.level - l)).hi d)
  let c : Box := ⟨fun d => shr (I.getD d (0, 0)).1 (M.dom.level - l), fun d => shr (I.getD d (0, 0)).2 (M.dom.level - l)⟩
  have hget : ∀ d ≤ n, I.getD d (0, 0) = (b.lo d * 2 ^ (M.dom.level - l), b.hi d * 2 ^ (M.dom.level - l)) := by
    intro d hd
    show (List.map _ _).getD d (0, 0) = _
    rw [List.getD_eq_getElem?_getD, List.getElem?_map, List.getElem?_range (by omega)]
    rfl
  have hlo : ∀ d ≤ n, c.lo d = b.lo d := fun d hd => by
    show shr (I.getD d (0, 0)).1 _ = _
    rw [hget d hd, shr_mul_pow]
  have hhi : ∀ d ≤ n, c.hi d = b.hi d := fun d hd => by
    show shr (I.getD d (0, 0)).2 _ = _
    rw [hget d hd, shr_mul_pow]
  have hper : (fun d => shr ((I.getD d (0, 0)).2 - (I.getD d (0, 0)).1) (M.dom.level - l)) = fun d => c.hi d - c.lo d := by
    funext d
    by_cases hd : d ≤ n
    · rw [hlo d hd, hhi d hd, hget d hd, ← sub_mul, shr_mul_pow]
    · have h0 : I.getD d (0, 0) = (0, 0) := by
        rw [List.getD_eq_getElem?_getD, List.getElem?_eq_none (by simp [I]; omega)]
        rfl
      show _ = shr (I.getD d (0, 0)).2 _ - shr (I.getD d (0, 0)).1 _
      rw [h0]
      simp [shr]
  have har : ∀ p, AroundBox n M.cfg.ghostWidth c p ↔ AroundBox n M.cfg.ghostWidth b p := fun p =>
    and_congr_right fun _ => forall₂_congr fun d hd => by rw [hlo d hd, hhi d hd]
  have g' : PeriodicReady n M.ref l M.cfg.ghostWidth c M.periodic := by
    obtain ⟨B, B1, B2, B3⟩ := g.range
    refine ⟨g.wf, g.leveled, g.size, g.numbers, ⟨B, B1, B2, fun d hd => by rw [hhi d hd]; exact B3 d hd⟩,
      fun d hd => by rw [hlo d hd, hhi d hd]; exact g.pos d hd, ⟨g.width.1, fun d hd hP => by rw [hlo d hd, hhi d hd]; exact g.width.2 d hd hP⟩, ?_⟩
    intro p hp ha d hd hP
    rw [hlo d hd, hhi d hd]
    exact g.images p hp ((har p).1 ha) d hd hP
  obtain ⟨u', e1, e2, e3⟩ := periodicDirs_ok (K := K) g' ((List.range (n + 1)).filter M.periodic) (fun d hd => by
    rw [List.mem_filter, List.mem_range] at hd
    exact ⟨by omega, hd.2⟩) u
  refine ⟨u', ?_, ?_, ?_⟩
  · unfold updateGhostPeriodic
    rw [hI]
    simp only []
    rw [if_neg (by have := hdom.le; rintro ⟨_, h⟩; omega), ← e1]
    exact congrArg (fun f => List.foldlM (periodicDir n M.cfg.ghostWidth M.ref l c.lo c.hi f) u (List.filter M.periodic (List.range (n + 1)))) hper
  · intro idx hi
    refine e2 idx fun p hp ⟨h1, d, h2, h3⟩ => ?_
    rw [List.mem_filter, List.mem_range] at h2
    rw [hlo d (by omega), hhi d (by omega)] at h3
    exact hi p hp ⟨(har p).1 h1, d, by omega, h2.2, h3⟩
  · intro p hp ha
    obtain ⟨q, q1, q2, q3, q4⟩ := e3 p hp ((har p).2 ha)
    refine ⟨q, ⟨q2.1, fun d hd => ?_⟩, q1, q3⟩
    have q5 := q4 d hd
    rw [hlo d hd, hhi d hd] at q5
    by_cases hP : M.periodic d = true
    · rw [if_pos hP]
      exact q5.1 (by rw [List.mem_filter, List.mem_range]; exact ⟨by omega, hP⟩)
    · rw [if_neg hP]
      exact q5.2 (by rw [List.mem_filter]; exact fun h => hP h.2)

end

end Samurai

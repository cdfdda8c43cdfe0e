import Verif.Props.Bc
import Verif.Lemmas.AdaptGeo

namespace Samurai

/-! ### points by coordinates -/

theorem toPt_map (f : Int → Int) : ∀ {p : List Int} {d : Nat}, d < p.length → toPt (p.map f) d = f (toPt p d) := by
  intro p d h
  unfold toPt
  rw [← List.map_reverse, List.getD_eq_getElem?_getD, List.getD_eq_getElem?_getD, List.getElem?_map,
    List.getElem?_eq_getElem (by simpa using h)]
  rfl

/-- The point of the given coordinates. -/
def ptOf (n : Nat) (f : Nat → Int) : List Int := shiftPoint f n (List.replicate (n + 1) 0)

theorem ptOf_length (n : Nat) (f : Nat → Int) : (ptOf n f).length = n + 1 := by
  unfold ptOf
  rw [shift_length, List.length_replicate]

theorem toPt_ptOf {n : Nat} (f : Nat → Int) {d : Nat} (hd : d ≤ n) : toPt (ptOf n f) d = f d := by
  unfold ptOf
  rw [toPt_shift (by simp) hd]
  have : toPt (List.replicate (n + 1) 0) d = 0 := by
    unfold toPt
    rw [List.reverse_replicate, List.getD_eq_getElem?_getD, List.getElem?_eq_getElem (by simp; omega)]
    simp
  rw [this]; omega

theorem shr_one_eq (x : Int) : shr x 1 = x / 2 := by simp [shr]

theorem shr_two_eq (x : Int) : shr x 2 = x / 4 := by norm_num [shr]

theorem toPt_half {p : List Int} {n d : Nat} (hp : p.length = n + 1) (hd : d ≤ n) : toPt (p.map fun y => shr y 1) d = toPt p d / 2 := by
  rw [toPt_map _ (by omega), shr_one_eq]

theorem toPt_quarter {p : List Int} {n d : Nat} (hp : p.length = n + 1) (hd : d ≤ n) : toPt (p.map fun y => shr y 2) d = toPt p d / 4 := by
  rw [toPt_map _ (by omega), shr_two_eq]

/-! ### leaves of a box -/

section
variable {n : Nat} {cells : CA} {dom : LCA} {minL maxL level : Nat} {b : Box}

/-- The leaves of finer levels are in the box. -/
theorem leaf_inBox (g : GoodLeaves n cells dom minL maxL) (hd : BoxDomain n dom level b) (hdl : dom.level ≤ maxL) {l : Nat} {q p : List Int}
    (hq : cells.Mem n l q) (hl : level ≤ l) (hp : Anc (l - level) p q) : InBox b n p := by
  have hlM := (g.between l q hq).2
  have hle := hd.le
  obtain ⟨m, hm⟩ := anc_exists (maxL - l) q
  obtain ⟨d, d1, d2⟩ := (g.tiles m).1 ⟨l, q, hlM, hq, hm⟩
  have h1 := anc_trans hp hm
  rw [show l - level + (maxL - l) = maxL - level by omega] at h1
  have h2 := anc_of_anc (by omega) h1 d2
  rw [show maxL - level - (maxL - dom.level) = dom.level - level by omega] at h2
  exact box_of_desc h2 ((hd.mem d).1 d1)

/-- Every part of a cell of the box is in a leaf. -/
theorem box_tiled (g : GoodLeaves n cells dom minL maxL) (hd : BoxDomain n dom level b) (hdl : dom.level ≤ maxL) {p m : List Int}
    (hp : InBox b n p) (hm : Anc (maxL - level) p m) : ∃ l q, l ≤ maxL ∧ cells.Mem n l q ∧ Anc (maxL - l) q m := by
  have hle := hd.le
  refine (g.tiles m).2 ⟨m.map fun x => shr x (maxL - dom.level), (hd.mem _).2 (desc_in_box ?_ hp), anc_iff.2 rfl⟩
  have := anc_of_anc (j := maxL - level) (k := maxL - dom.level) (by omega) hm (anc_iff.2 rfl)
  rwa [show maxL - level - (maxL - dom.level) = dom.level - level by omega] at this

/-! ### the lines to the boundary -/

theorem Outward.cases {p : List Int} {v v' : Nat → Int} (ho : Outward n b p v) (hv' : ∀ d ≤ n, v' d = v d ∨ v' d = 0) (k j : Int) {d : Nat} (hd : d ≤ n) :
    (v d = 0 ∧ toPt (walk n p k v) d = toPt p d ∧ toPt (walk n p j v') d = toPt p d) ∨
    (v d = 1 ∧ toPt p d = b.hi d - 1 ∧ toPt (walk n p k v) d = toPt p d + k ∧ (toPt (walk n p j v') d = toPt p d + j ∨ toPt (walk n p j v') d = toPt p d)) ∨
    (v d = -1 ∧ toPt p d = b.lo d ∧ toPt (walk n p k v) d = toPt p d - k ∧ (toPt (walk n p j v') d = toPt p d - j ∨ toPt (walk n p j v') d = toPt p d)) := by
  rw [toPt_walk ho.length k v hd, toPt_walk ho.length j v' hd]
  rcases ho.edge hd with h | ⟨h, h2⟩ | ⟨h, h2⟩
  · left
    have : v' d = 0 := by rcases hv' d hd with h' | h' <;> omega
    rw [h, this]; omega
  · right; left
    rcases hv' d hd with h' | h'
    · rw [h', h]; omega
    · rw [h', h]; omega
  · right; right
    rcases hv' d hd with h' | h'
    · rw [h', h]; omega
    · rw [h', h]; omega

/-- If the end of the line is near a cell of the box, so is the line. -/
theorem line_near {p z : List Int} {v v' : Nat → Int} (ho : Outward n b p v) (hv' : ∀ d ≤ n, v' d = v d ∨ v' d = 0) {w k : Nat} (k1 : 1 ≤ k) {j : Int}
    (j1 : - (k : Int) < j) (j2 : j ≤ k) (hz : InBox b n z) (h : Near w (walk n p k v) z) : Near w (walk n p j v') z := by
  have hzl := (inBox_iff.1 hz).1
  have hpl := ho.length
  rw [near_iff_toPt (by rw [walk_length, hpl]) hzl] at h ⊢
  intro d hd
  have h1 := h d hd
  have h2 := (inBox_iff.1 hz).2 d hd
  rcases ho.cases hv' k j hd with ⟨_, a2, a3⟩ | ⟨_, a1, a2, a3⟩ | ⟨_, a1, a2, a3⟩ <;> omega

/-- A coordinate of a cell between the ghost and the leaf, close to the line. -/
def lineCoord (lo hi vd td R : Int) : Int :=
  if vd = 0 then R
  else if vd = -1 then (if lo ≤ R / 2 then R else if lo ≤ td then 2 * lo - 1 else if R / 2 ≤ td then 2 * td + 1 else R)
  else if R / 2 < hi then R else if td < hi then 2 * hi else if td ≤ R / 2 then 2 * td else R

theorem mrAll_cases {cfg : MeshConfig} {q : List Int} (h : MRAll n cfg cells minL level q) : MRBase n cfg cells level q ∨
    ∃ L, level = L + 1 ∧ MRAll n cfg cells minL L (q.map fun y => shr y 1) ∧ minL ≤ L + 1 ∧ CoveredBy n cells L (q.map fun y => shr y 1) := by
  match level, h with
  | 0, h => exact .inl h
  | L + 1, .inl h => exact .inl h
  | L + 1, .inr h => exact .inr ⟨L, rfl, h⟩

/-- The reference mesh of an adapted mesh holds, with a ghost, the line from the ghost to the boundary and as many cells inside. -/
theorem lines_adapted {cfg : MeshConfig} (hs : cfg.predictionOrder = 1) (hw : cfg.maxStencilWidth ≤ 2) (g : GoodLeaves n cells dom minL maxL)
    (hd : BoxDomain n dom level b) (hdl : dom.level ≤ maxL) {p : List Int} {v : Nat → Int} {k : Nat} (ho : Outward n b p v) (k1 : 1 ≤ k)
    (hcond : k = 1 ∨ 1 ≤ level ∧ minL ≤ level ∧ ∀ d ≤ n, b.lo d + 2 ≤ b.hi d)
    (hq : MRAll n cfg cells minL level (walk n p k v)) {v' : Nat → Int} (hv' : ∀ d ≤ n, v' d = v d ∨ v' d = 0) {j : Int} (j1 : - (k : Int) < j)
    (j2 : j ≤ k) : MRAll n cfg cells minL level (walk n p j v') := by
  have hle := hd.le
  have hpl := ho.length
  have hql : (walk n p k v).length = n + 1 := by rw [walk_length, hpl]
  have htl : (walk n p j v').length = n + 1 := by rw [walk_length, hpl]
  have hcase : ∀ d ≤ n, _ := fun d hd => ho.cases hv' k j hd
  have hpb := (inBox_iff.1 ho.1).2
  rcases mrAll_cases hq with (⟨c, hc, hn⟩ | ⟨r, ⟨c, hc, hrc⟩, hun, hn⟩ | ⟨c, hc, hn⟩) | ⟨L, rfl, ha, hb, l', x, hl', hx, hax⟩
  · refine MRBase.all (.inl ⟨c, hc, line_near ho hv' k1 j1 j2 ?_ hn⟩)
    exact leaf_inBox g hd hdl hc le_rfl (by rw [Nat.sub_self]; exact anc_zero.2 rfl)
  · have hcb : InBox b n (c.map fun y => shr y 1) := leaf_inBox g hd hdl hc (by omega) (by rw [show level + 1 - level = 1 by omega]; exact anc_iff.2 rfl)
    have hcl : c.length = n + 1 := by simpa using (inBox_iff.1 hcb).1
    have hrl : r.length = n + 1 := by rw [List.Forall₂.length_eq hrc, hcl]
    rw [hs] at hn
    by_cases hz : InBox b n (r.map fun y => shr y 1)
    · refine MRBase.all (.inr (.inl ⟨r, ⟨c, hc, hrc⟩, hun, ?_⟩))
      rw [hs]
      exact line_near ho hv' k1 j1 j2 hz hn
    · have hcd : ∀ d ≤ n, b.lo d ≤ toPt c d / 2 ∧ toPt c d / 2 < b.hi d := fun d hd => by
        have := (inBox_iff.1 hcb).2 d hd
        rwa [toPt_half hcl hd] at this
      have hrd : ∀ d ≤ n, toPt r d ≤ toPt c d + 2 ∧ toPt c d ≤ toPt r d + 2 := fun d hd => by
        have := (near_iff_toPt hrl hcl).1 hrc d hd
        omega
      have hrw := (near_iff_toPt hrl hcl).1 hrc
      have hqd : ∀ d ≤ n, toPt (walk n p k v) d ≤ toPt r d / 2 + 1 ∧ toPt r d / 2 ≤ toPt (walk n p k v) d + 1 := fun d hd => by
        have := (near_iff_toPt hql (by simpa using hrl)).1 hn d hd
        rw [toPt_half hrl hd] at this
        exact_mod_cast this
      by_cases htr : k = 2 ∧ j = -1
      · obtain ⟨h1, hmin, wide⟩ := hcond.resolve_left (by omega)
        obtain ⟨L, rfl⟩ : ∃ L, level = L + 1 := ⟨level - 1, by omega⟩
        obtain ⟨rfl, rfl⟩ := htr
        have htd : ∀ d ≤ n, b.lo d ≤ toPt (walk n p (-1) v') d ∧ toPt (walk n p (-1) v') d < b.hi d := by
          intro d hd'
          have := wide d hd'
          have := hpb d hd'
          rcases hcase d hd' with ⟨_, a2, a3⟩ | ⟨_, a1, a2, a3⟩ | ⟨_, a1, a2, a3⟩ <;> omega
        have htb : InBox b n (walk n p (-1) v') := inBox_iff.2 ⟨htl, htd⟩
        set a := ptOf n (fun d => if v d = 0 then max (b.lo d) (min (b.hi d - 1) (toPt r d / 2)) else toPt c d / 2) with hadef
        have hal : a.length = n + 1 := ptOf_length _ _
        have had : ∀ d ≤ n, toPt a d = if v d = 0 then max (b.lo d) (min (b.hi d - 1) (toPt r d / 2)) else toPt c d / 2 := fun d hd => toPt_ptOf _ hd
        have hab : InBox b n a := inBox_iff.2 ⟨hal, fun d hd' => by
          rw [had d hd']
          have := hcd d hd'
          have := wide d hd'
          split <;> omega⟩
        have hat : Near 1 a (walk n p (-1) v') := (near_iff_toPt hal htl).2 fun d hd' => by
          rw [had d hd']
          have := hcd d hd'
          have := hrd d hd'
          have := hqd d hd'
          have := wide d hd'
          have := hpb d hd'
          rcases hcase d hd' with ⟨a1, a2, a3⟩ | ⟨a0, a1, a2, a3⟩ | ⟨a0, a1, a2, a3⟩
          · rw [if_pos a1]; omega
          · rw [if_neg (by omega)]; omega
          · rw [if_neg (by omega)]; omega
        obtain ⟨m, m', m1, m2, m3⟩ := touch_down (maxL - (L + 1)) hat
        obtain ⟨l0, q0, b1, b2, b3⟩ := box_tiled g hd hdl htb m2
        by_cases hl0 : L + 1 ≤ l0
        · refine .inr ⟨MRBase.all (.inr (.inr ⟨c, hc, ?_⟩)), hmin, l0, q0, by omega, b2, ?_⟩
          · rw [hs]
            refine (near_iff_toPt (n := n) (by simpa using htl) (by simpa using hcl)).2 fun d hd' => ?_
            rw [toPt_half htl hd', toPt_quarter hcl hd']
            have := hcd d hd'
            have := hrd d hd'
            have := hqd d hd'
            have := hpb d hd'
            rcases hcase d hd' with ⟨a1, a2, a3⟩ | ⟨a0, a1, a2, a3⟩ | ⟨a0, a1, a2, a3⟩ <;> omega
          · have e1 := anc_of_anc (by omega) m2 b3
            have e2 : Anc 1 ((walk n p (-1) v').map fun y => shr y 1) (walk n p (-1) v') := anc_iff.2 rfl
            have := anc_trans e2 e1
            rwa [show 1 + (maxL - (L + 1) - (maxL - l0)) = l0 - L by omega] at this
        · obtain ⟨l1, q1, c1, c2, c3⟩ := box_tiled g hd hdl hab m1
          have hl1 := graded_fine g.graded b2 c2 b1 c1 b3 c3 (near_symm m3)
          set r' := ptOf n (fun d => if v d = 0 then (if toPt r d / 2 < b.lo d then 2 * b.lo d else if b.hi d ≤ toPt r d / 2 then 2 * b.hi d - 1 else toPt r d) else toPt c d) with hr'
          have hr'l : r'.length = n + 1 := ptOf_length _ _
          have hr'd : ∀ d ≤ n, toPt r' d = if v d = 0 then (if toPt r d / 2 < b.lo d then 2 * b.lo d else if b.hi d ≤ toPt r d / 2 then 2 * b.hi d - 1 else toPt r d) else toPt c d := fun d hd => toPt_ptOf _ hd
          have hr'a : (r'.map fun y => shr y 1) = a := toPt_ext (n := n + 1) (by simpa using hr'l) hal fun d hd' => by
            rw [toPt_half hr'l (by omega), hr'd d (by omega), had d (by omega)]
            have := wide d (by omega)
            by_cases hv : v d = 0
            · rw [if_pos hv, if_pos hv]
              split
              · omega
              · split <;> omega
            · rw [if_neg hv, if_neg hv]
          refine .inl (.inr (.inl ⟨r', ⟨c, hc, (near_iff_toPt hr'l hcl).2 fun d hd' => ?_⟩, ?_, ?_⟩))
          · rw [hr'd d hd']
            have := hcd d hd'
            have := hrw d hd'
            by_cases hv : v d = 0
            · rw [if_pos hv]
              split
              · omega
              · split <;> omega
            · rw [if_neg hv]; omega
          · rintro ⟨l2, q2, d1, d2, d3⟩
            have e1 := anc_of_anc (by omega) c3 m1
            have e2 : Anc 1 a r' := anc_iff.2 hr'a.symm
            have e3 := anc_trans (anc_trans e1 e2) d3
            have := (g.noOverlap l1 q1 l2 q2 c2 d2 (by omega) (by rw [← show maxL - l1 - (maxL - (L + 1)) + 1 + (l2 - (L + 1 + 1)) = l2 - l1 by omega]; exact e3)).1
            omega
          · rw [hs, hr'a]
            exact near_symm hat
      · obtain ⟨e, he, hout⟩ : ∃ e ≤ n, ¬ (b.lo e ≤ toPt r e / 2 ∧ toPt r e / 2 < b.hi e) := by
          by_contra hc'
          push Not at hc'
          exact hz (inBox_iff.2 ⟨by simpa using hrl, fun d hd' => by rw [toPt_half hrl hd']; exact ⟨(hc' d hd').1, (hc' d hd').2⟩⟩)
        set r' := ptOf n (fun d => lineCoord (b.lo d) (b.hi d) (v d) (toPt (walk n p j v') d) (toPt r d)) with hr'
        have hr'l : r'.length = n + 1 := ptOf_length _ _
        have hr'd : ∀ d ≤ n, toPt r' d = lineCoord (b.lo d) (b.hi d) (v d) (toPt (walk n p j v') d) (toPt r d) := fun d hd => toPt_ptOf _ hd
        refine MRBase.all (.inr (.inl ⟨r', ⟨c, hc, (near_iff_toPt hr'l hcl).2 fun d hd' => ?_⟩, ?_, ?_⟩))
        · rw [hr'd d hd']
          have := hcd d hd'
          have := hrw d hd'
          have := hrd d hd'
          have := hqd d hd'
          unfold lineCoord
          rcases hcase d hd' with ⟨a1, a2, a3⟩ | ⟨a0, a1, a2, a3⟩ | ⟨a0, a1, a2, a3⟩
          · rw [if_pos a1]; omega
          · rw [if_neg (by omega), if_neg (by omega)]
            split
            · omega
            · split
              · omega
              · split <;> omega
          · rw [if_neg (by omega), if_pos a0]
            split
            · omega
            · split
              · omega
              · split <;> omega
        · rintro ⟨l2, q2, d1, d2, d3⟩
          have e2 : Anc 1 (r'.map fun y => shr y 1) r' := anc_iff.2 rfl
          have e3 := anc_trans e2 d3
          rw [show 1 + (l2 - (level + 1)) = l2 - level by omega] at e3
          have e4 := (inBox_iff.1 (leaf_inBox g hd hdl d2 (by omega) e3)).2 e he
          rw [toPt_half hr'l he, hr'd e he] at e4
          have := hqd e he
          have := hpb e he
          unfold lineCoord at e4
          rcases hcase e he with ⟨a1, a2, a3⟩ | ⟨a0, a1, a2, a3⟩ | ⟨a0, a1, a2, a3⟩
          · rw [if_pos a1] at e4; exact hout e4
          · rw [if_neg (by omega), if_neg (by omega)] at e4
            split at e4
            · exact hout e4
            · split at e4
              · omega
              · split at e4 <;> omega
          · rw [if_neg (by omega), if_pos a0] at e4
            split at e4
            · exact hout e4
            · split at e4
              · omega
              · split at e4 <;> omega
        · rw [hs]
          refine (near_iff_toPt (n := n) htl (by simpa using hr'l)).2 fun d hd' => ?_
          rw [toPt_half hr'l hd', hr'd d hd']
          have := hcd d hd'
          have := hrd d hd'
          have := hqd d hd'
          have := hpb d hd'
          unfold lineCoord
          rcases hcase d hd' with ⟨a1, a2, a3⟩ | ⟨a0, a1, a2, a3⟩ | ⟨a0, a1, a2, a3⟩
          · rw [if_pos a1]; omega
          · rw [if_neg (by omega), if_neg (by omega)]
            split
            · omega
            · split
              · omega
              · split <;> omega
          · rw [if_neg (by omega), if_pos a0]
            split
            · omega
            · split
              · omega
              · split <;> omega
  · refine MRBase.all (.inr (.inr ⟨c, hc, line_near ho hv' k1 j1 j2 ?_ hn⟩))
    exact leaf_inBox g hd hdl hc (by omega) (by rw [show level + 2 - level = 2 by omega]; exact anc_iff.2 rfl)
  · set y := x.map fun c => shr c (l' - (L + 1)) with hy
    have hyb : InBox b n y := leaf_inBox g hd hdl hx (by omega) (anc_iff.2 rfl)
    have hyl := (inBox_iff.1 hyb).1
    have hyq : (y.map fun c => shr c 1) = (walk n p k v).map fun c => shr c 1 := by
      rw [hy, map_shr_add, show l' - (L + 1) + 1 = l' - L by omega]
      exact (anc_iff.1 hax).symm
    have hsame : ((walk n p j v').map fun c => shr c 1) = (walk n p k v).map fun c => shr c 1 := by
      have hyd : ∀ d ≤ n, toPt y d / 2 = toPt (walk n p k v) d / 2 := fun d hd' => by
        rw [← toPt_half hyl hd', hyq, toPt_half hql hd']
      obtain ⟨e, he, hne⟩ := ho.2.1.2
      have hk : k = 1 := by
        have h2 := (inBox_iff.1 hyb).2 e he
        have h3 := hyd e he
        rcases hcase e he with ⟨a1, a2, a3⟩ | ⟨a0, a1, a2, a3⟩ | ⟨a0, a1, a2, a3⟩ <;> omega
      refine toPt_ext (n := n + 1) (by simpa using htl) (by simpa using hql) fun d hd' => ?_
      rw [toPt_half htl (by omega), toPt_half hql (by omega)]
      have h2 := (inBox_iff.1 hyb).2 d (by omega)
      have h3 := hyd d (by omega)
      rcases hcase d (by omega) with ⟨a1, a2, a3⟩ | ⟨a0, a1, a2, a3⟩ | ⟨a0, a1, a2, a3⟩ <;> omega
    refine .inr ?_
    rw [hsame]
    exact ⟨ha, hb, l', x, hl', hx, hax⟩

/-- The cells of the reference mesh are close to the box. -/
theorem ref_below {cfg : MeshConfig} (hs : cfg.predictionOrder = 1) (hw : cfg.maxStencilWidth ≤ 2) (g : GoodLeaves n cells dom minL maxL)
    (hd : BoxDomain n dom level b) (hdl : dom.level ≤ maxL) {q : List Int} (hq : MRAll n cfg cells minL level q) :
    q.length = n + 1 ∧ ∀ d ≤ n, toPt q d ≤ b.hi d + 1 := by
  have base : MRBase n cfg cells level q → q.length = n + 1 ∧ ∀ d ≤ n, toPt q d ≤ b.hi d + 1 := by
    rintro (⟨c, hc, hn⟩ | ⟨r, ⟨c, hc, hrc⟩, _, hn⟩ | ⟨c, hc, hn⟩)
    · have hcb := leaf_inBox g hd hdl hc le_rfl (by rw [Nat.sub_self]; exact anc_zero.2 rfl)
      have hcl := (inBox_iff.1 hcb).1
      have hql : q.length = n + 1 := by rw [List.Forall₂.length_eq hn, hcl]
      refine ⟨hql, fun d hd' => ?_⟩
      have h1 := (near_iff_toPt hql hcl).1 hn d hd'
      have h2 := (inBox_iff.1 hcb).2 d hd'
      omega
    · have hcb : InBox b n (c.map fun y => shr y 1) := leaf_inBox g hd hdl hc (by omega) (by rw [show level + 1 - level = 1 by omega]; exact anc_iff.2 rfl)
      have hcl : c.length = n + 1 := by simpa using (inBox_iff.1 hcb).1
      have hrl : r.length = n + 1 := by rw [List.Forall₂.length_eq hrc, hcl]
      have hql : q.length = n + 1 := by rw [List.Forall₂.length_eq hn]; simpa using hrl
      refine ⟨hql, fun d hd' => ?_⟩
      have h1 := (near_iff_toPt hql (by simpa using hrl)).1 hn d hd'
      have h2 := (inBox_iff.1 hcb).2 d hd'
      have h3 := (near_iff_toPt hrl hcl).1 hrc d hd'
      rw [toPt_half hcl hd'] at h2
      rw [toPt_half hrl hd'] at h1
      omega
    · have hcb : InBox b n (c.map fun y => shr y 2) := leaf_inBox g hd hdl hc (by omega) (by rw [show level + 2 - level = 2 by omega]; exact anc_iff.2 rfl)
      have hcl : c.length = n + 1 := by simpa using (inBox_iff.1 hcb).1
      have hql : q.length = n + 1 := by rw [List.Forall₂.length_eq hn]; simpa using hcl
      refine ⟨hql, fun d hd' => ?_⟩
      have h1 := (near_iff_toPt hql (by simpa using hcl)).1 hn d hd'
      have h2 := (inBox_iff.1 hcb).2 d hd'
      omega
  match level, hq with
  | 0, hq => exact base hq
  | L + 1, hq =>
    rcases hq with hq | ⟨_, _, l', x, hl', hx, hax⟩
    · exact base hq
    · set y := x.map fun c => shr c (l' - (L + 1)) with hy
      have hyb : InBox b n y := leaf_inBox g hd hdl hx (by omega) (anc_iff.2 rfl)
      have hyl := (inBox_iff.1 hyb).1
      have hyq : (y.map fun c => shr c 1) = q.map fun c => shr c 1 := by
        rw [hy, map_shr_add, show l' - (L + 1) + 1 = l' - L by omega]
        exact (anc_iff.1 hax).symm
      have hql : q.length = n + 1 := by
        have := congrArg List.length hyq
        simp only [List.length_map] at this
        omega
      refine ⟨hql, fun d hd' => ?_⟩
      have h2 := (inBox_iff.1 hyb).2 d hd'
      have h3 : toPt y d / 2 = toPt q d / 2 := by rw [← toPt_half hyl hd', hyq, toPt_half hql hd']
      omega

theorem mem_toPt {p : List Int} (hp : p.length = n + 1) {x : Int} (hx : x ∈ p) : ∃ d ≤ n, x = toPt p d := by
  obtain ⟨i, hi, rfl⟩ := List.getElem_of_mem hx
  refine ⟨n - i, by omega, ?_⟩
  unfold toPt
  rw [List.getD_eq_getElem?_getD, List.getElem?_eq_getElem (by simp; omega), List.getElem_reverse]
  simp only [Option.getD_some]
  congr 1
  omega

/-- Every adapted multiresolution mesh with the default prediction order and at most two ghosts meets `BcReady`: with one ghost at every level,
with two ghosts at the levels from `min_level` when the domain is a box of at least two cells of this level in each direction. -/
theorem bcReady_ok {K : Type} {cfg : MeshConfig} (hs : cfg.predictionOrder = 1) (hw : cfg.maxStencilWidth ≤ 2) (g : GoodLeaves n cells dom minL maxL)
    (hgd : GoodDomain n dom minL maxL (cfg.maxStencilWidth + cfg.predictionOrder + 1)) (hne : minL ≠ maxL) (hd : BoxDomain n dom level b)
    (hmax : level ≤ maxL) (hcond : cfg.maxStencilWidth ≤ 1 ∨ 1 ≤ level ∧ minL ≤ level ∧ ∀ d ≤ n, b.lo d + 2 ≤ b.hi d) {B : Int} (hB0 : 0 ≤ B)
    (hB : B + 11 * 2 ^ dom.level + 2 < INT_MAX) (hhi : ∀ d ≤ n, b.hi d * 2 ^ (dom.level - level) ≤ B) (periodic : Nat → Bool) (h0 : K)
    {m : SubMeshes} {u : CA} (r2 : MRMeshOK n cfg cells minL maxL m u) :
    BcReady n (⟨m.cells, m.all, dom, minL, maxL, periodic, h0, cfg⟩ : BcMesh K) level b cfg.maxStencilWidth := by
  have hdl := hgd.level
  obtain ⟨m0, c1, c2, c3, c4, c5⟩ := r2.content
  have hall : ∀ p, m.all.Mem n level p ↔ MRAll n cfg cells minL level p := fun p => by rw [c5, c1.all hne]
  have hls : level ≤ cells.maxSize := hmax.trans g.size
  have l1 : level ≤ m.cells.maxSize := by rw [r2.cellsLevels.1]; exact hls
  have l2 : level ≤ m.all.maxSize := by rw [r2.size]; exact hls
  have hpw := pow_two_pos dom.level
  have hpw' : (2 : Int) ^ (dom.level - level) ≤ 2 ^ dom.level := pow_le_pow_right₀ (by norm_num) (by omega)
  have hpw'' := pow_two_pos (dom.level - level)
  have hleaf : ∀ p, m.cells.Mem n level p → InBox b n p := fun p hp =>
    leaf_inBox g hd hdl ((c2 _ _).1 hp) le_rfl (by rw [Nat.sub_self]; exact anc_zero.2 rfl)
  have hbelow : ∀ (x : Int) d, d ≤ n → x ≤ b.hi d + 1 → x * 2 ^ (dom.level - level) < B + 2 * 2 ^ dom.level := by
    intro x d hd' hx
    have := hhi d hd'
    have h2 : x * 2 ^ (dom.level - level) ≤ (b.hi d + 1) * 2 ^ (dom.level - level) := Int.mul_le_mul_of_nonneg_right hx (le_of_lt hpw'')
    rw [add_mul] at h2
    omega
  refine ⟨r2.wf.1, r2.wf.2.2.2, ⟨l1, r2.cellsLevels.2 level l1⟩, ⟨l2, r2.allLevels level l2⟩, ?_, hd, hleaf,
    fun p q hq hn => (hall p).2 (MRBase.all (.inl ⟨q, (c2 _ _).1 hq, hn⟩)), ?_, B + 2 * 2 ^ dom.level, by omega, ?_, ?_, ?_, ?_⟩
  · unfold CA.NumbersDiffer
    show ((m.all.numbered n).map _).Nodup
    rw [r2.numbers]
    exact List.nodup_range.map fun a b h => by exact_mod_cast h
  · intro p v k ho k1 hkw hmem v' hv' j j1 j2
    refine (hall _).2 (lines_adapted hs hw g hd hdl ho k1 (hcond.imp (fun h => ?_) id) ((hall _).1 hmem) hv' j1 j2)
    have : Nat.max cfg.maxStencilWidth cfg.ghostWidth ≤ 1 := by
      unfold MeshConfig.ghostWidth
      rw [hs]
      exact Nat.max_le.2 ⟨h, Nat.max_le.2 ⟨h, le_rfl⟩⟩
    have : k ≤ 1 := hkw.trans this
    omega
  · show B + 2 * 2 ^ dom.level + 8 * 2 ^ dom.level + 2 < INT_MAX
    omega
  · show dom.BelowAt n dom.level _
    intro p hp x hx
    rw [hd.mem] at hp
    obtain ⟨d, hd', _, h⟩ := inBox_coord hp x hx
    have := hhi d hd'
    simp only [Box.refined] at h
    rw [Nat.sub_self, pow_zero]; omega
  · show (m.cells.lca level).BelowAt n dom.level _
    intro p hp x hx
    obtain ⟨d, hd', _, h⟩ := inBox_coord (hleaf p ⟨l1, hp⟩) x hx
    rw [r2.cellsLevels.2 level l1]
    exact hbelow x d hd' (by omega)
  · show (m.all.lca level).BelowAt n dom.level _
    intro p hp x hx
    obtain ⟨e1, e2⟩ := ref_below hs hw g hd hdl ((hall p).1 ⟨l2, hp⟩)
    obtain ⟨d, hd', rfl⟩ := mem_toPt e1 hx
    rw [r2.allLevels level l2]
    exact hbelow _ d hd' (e2 d hd')

/-- A constructed mesh is what `mrMesh_spec` says. -/
theorem mrMesh_ok {cfg : MeshConfig} (g : GoodLeaves n cells dom minL maxL)
    (hgd : GoodDomain n dom minL maxL (cfg.maxStencilWidth + cfg.predictionOrder + 1)) {m : SubMeshes} {u : CA}
    (hm : mrMesh n cfg cells minL maxL = some (m, u)) : MRMeshOK n cfg cells minL maxL m u := by
  obtain ⟨D0, D1, D2, D3⟩ := hgd.range
  obtain ⟨m', u', r1, r2⟩ := mrMesh_spec (cells := cells) (cfg := cfg) (n := n) (minL := minL) (maxL := maxL)
    ⟨g.wf, g.leveled, g.between, g.size, D0, D1, D2, g.below D3⟩
  rw [hm] at r1
  obtain ⟨rfl, rfl⟩ : m = m' ∧ u = u' := by simpa using r1
  exact r2

theorem bcReady_adapted {K : Type} {cfg : MeshConfig} (hs : cfg.predictionOrder = 1) (hw : cfg.maxStencilWidth ≤ 2) (g : GoodLeaves n cells dom minL maxL)
    (hgd : GoodDomain n dom minL maxL (cfg.maxStencilWidth + cfg.predictionOrder + 1)) (hne : minL ≠ maxL) (hd : BoxDomain n dom level b)
    (hmax : level ≤ maxL) (hcond : cfg.maxStencilWidth ≤ 1 ∨ 1 ≤ level ∧ minL ≤ level ∧ ∀ d ≤ n, b.lo d + 2 ≤ b.hi d) {B : Int} (hB0 : 0 ≤ B)
    (hB : B + 11 * 2 ^ dom.level + 2 < INT_MAX) (hhi : ∀ d ≤ n, b.hi d * 2 ^ (dom.level - level) ≤ B) (periodic : Nat → Bool) (h0 : K)
    {m : SubMeshes} {u : CA} (hm : mrMesh n cfg cells minL maxL = some (m, u)) :
    BcReady n (⟨m.cells, m.all, dom, minL, maxL, periodic, h0, cfg⟩ : BcMesh K) level b cfg.maxStencilWidth := by
  exact bcReady_ok hs hw g hgd hne hd hmax hcond hB0 hB hhi periodic h0 (mrMesh_ok g hgd hm)

end

end Samurai

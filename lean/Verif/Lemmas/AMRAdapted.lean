import Verif.Spec.AMRGhost
import Verif.Lemmas.AMRGhost

namespace Samurai

theorem GoodLeaves.tiling {n : Nat} {cells : CA} {dom : LCA} {minL maxL : Nat} (g : GoodLeaves n cells dom minL maxL) : TilingLeaves n cells dom minL maxL :=
  ⟨g.wf, g.leveled, g.size, g.between, g.noOverlap, g.tiles⟩

section
variable {n : Nat} {cells : CA} {dom : LCA} {minL maxL level : Nat} {b : Box}

namespace TilingLeaves

/-- The leaves of finer levels are in the box. -/
theorem inBox (g : TilingLeaves n cells dom minL maxL) (hd : BoxDomain n dom level b) (hdl : dom.level ≤ maxL) {l : Nat} {q p : List Int}
    (hq : cells.Mem n l q) (hl : level ≤ l) (hp : Anc (l - level) p q) : InBox b n p := by
  have hlM := (g.between l q hq).2
  have hle := hd.le
  obtain ⟨m, hm⟩ := anc_exists (maxL - l) q
  obtain ⟨d, d1, d2⟩ := (g.tiles m).1 ⟨l, q, hlM, hq, hm⟩
  have h1 := anc_trans hp hm
  rw [show l - level + (maxL - l) = maxL - level by omega] at h1
  have h2 := anc_of_anc (by omega) h1 d2
  rw [show maxL - level - (maxL - dom.level) = dom.level - level by omega] at h2
  exact box_of_desc h2 ((hd.mem d).1 d1)

/-- Every part of a cell of the box is in a leaf. -/
theorem tiled (g : TilingLeaves n cells dom minL maxL) (hd : BoxDomain n dom level b) (hdl : dom.level ≤ maxL) {p m : List Int}
    (hp : InBox b n p) (hm : Anc (maxL - level) p m) : ∃ l q, l ≤ maxL ∧ cells.Mem n l q ∧ Anc (maxL - l) q m := by
  have hle := hd.le
  refine (g.tiles m).2 ⟨m.map fun x => shr x (maxL - dom.level), (hd.mem _).2 (desc_in_box ?_ hp), anc_iff.2 rfl⟩
  have := anc_of_anc (j := maxL - level) (k := maxL - dom.level) (by omega) hm (anc_iff.2 rfl)
  rwa [show maxL - level - (maxL - dom.level) = dom.level - level by omega] at this

/-- A cell of the box is a leaf, or contains finer leaves, or lies in a coarser leaf. -/
theorem cases (g : TilingLeaves n cells dom minL maxL) (hd : BoxDomain n dom level b) (hdl : dom.level ≤ maxL) {p : List Int} (hp : InBox b n p) :
    cells.Mem n level p ∨ CoveredBy n cells level p ∨ ∃ l0 c, l0 < level ∧ cells.Mem n l0 c ∧ Anc (level - l0) c p := by
  have hle := hd.le
  obtain ⟨m, hm⟩ := anc_exists (maxL - level) p
  obtain ⟨l1, c, h1, h2, h3⟩ := g.tiled hd hdl hp hm
  rcases Nat.lt_trichotomy l1 level with h | h | h
  · refine .inr (.inr ⟨l1, c, h, h2, ?_⟩)
    have := anc_of_anc (by omega) h3 hm
    rwa [show maxL - l1 - (maxL - level) = level - l1 by omega] at this
  · subst h
    rw [anc_iff] at h3 hm
    rw [h3.trans hm.symm] at h2
    exact .inl h2
  · refine .inr (.inl ⟨l1, c, h, h2, ?_⟩)
    have := anc_of_anc (by omega) hm h3
    rwa [show maxL - level - (maxL - l1) = l1 - level by omega] at this

theorem below (g : TilingLeaves n cells dom minL maxL) {D : Int}
    (h : ∀ m, InDomain n dom maxL m → ∀ x ∈ m, x < D) : cells.Below n maxL D := by
  intro l p hp x hx
  refine h (p.map fun x => shl x (maxL - l)) ((g.tiles _).1 ⟨l, p, (g.between l p hp).2, hp, anc_iff.2 ?_⟩) _ (List.mem_map.2 ⟨x, hx, rfl⟩)
  rw [List.map_map]
  conv_lhs => rw [← List.map_id p]
  apply List.map_congr_left
  intro x _
  simp [shr_shl]

end TilingLeaves

/-- A cell inside a coarser leaf contains no leaf. -/
theorem coarser_not_covered (g : TilingLeaves n cells dom minL maxL) {l0 l : Nat} {c p : List Int} (h1 : l0 < l) (h2 : cells.Mem n l0 c)
    (h3 : Anc (l - l0) c p) : ¬ CoveredBy n cells l p ∧ ¬ cells.Mem n l p := by
  constructor
  · rintro ⟨l', x, h4, h5, h6⟩
    have h7 := anc_trans h3 h6
    rw [show l - l0 + (l' - l) = l' - l0 by omega] at h7
    have := (g.noOverlap l0 c l' x h2 h5 (by omega) h7).1
    omega
  · intro h
    have := (g.noOverlap l0 c l p h2 h (by omega) h3).1
    omega

theorem leaf_not_covered (g : TilingLeaves n cells dom minL maxL) {l : Nat} {p : List Int} (h : cells.Mem n l p) : ¬ CoveredBy n cells l p := by
  rintro ⟨l', x, h4, h5, h6⟩
  have := (g.noOverlap l p l' x h h5 (by omega) h6).1
  omega

/-- A cell whose parent contains finer leaves is a leaf or contains finer leaves. -/
theorem child_cases (g : TilingLeaves n cells dom minL maxL) (hd : BoxDomain n dom level b) (hdl : dom.level ≤ maxL) {p : List Int} (hl : 1 ≤ level)
    (hp : InBox b n p) (hc : CoveredBy n cells (level - 1) (p.map fun y => shr y 1)) : cells.Mem n level p ∨ CoveredBy n cells level p := by
  rcases g.cases hd hdl hp with h | h | ⟨l0, c, e1, e2, e3⟩
  · exact .inl h
  · exact .inr h
  · exfalso
    have haq : Anc 1 (p.map fun y => shr y 1) p := anc_iff.2 rfl
    have e4 := anc_of_anc (by omega) e3 haq
    obtain ⟨l', x, h2, h3, h4⟩ := hc
    have e5 := anc_trans e4 h4
    rw [show level - l0 - 1 + (l' - (level - 1)) = l' - l0 by omega] at e5
    have := (g.noOverlap l0 c l' x e2 h3 (by omega) e5).1
    omega

/-- The parent of a cell of `pred_cells` is close to a leaf of its level. -/
theorem pred_parent_near (g : GoodLeaves n cells dom minL maxL) {L : Nat} (hd : BoxDomain n dom (L + 1) b) (hdl : dom.level ≤ maxL) {gw : Nat}
    {p q c0 : List Int} {l0 : Nat} (hpb : InBox b n p) (hq : cells.Mem n (L + 1) q) (hn : Near gw p q) (hl0 : l0 ≤ L) (hc0 : cells.Mem n l0 c0)
    (ha : Anc (L + 1 - l0) c0 p) : ∃ c, cells.Mem n L c ∧ Near (gw / 2) (p.map fun y => shr y 1) c := by
  have hqb : InBox b n q := leaf_inBox g hd hdl hq le_rfl (by rw [Nat.sub_self]; exact anc_zero.2 rfl)
  obtain ⟨hpl, hpd⟩ := inBox_iff.1 hpb
  obtain ⟨hql, hqd⟩ := inBox_iff.1 hqb
  have hnd := (near_iff_toPt hpl hql).1 hn
  let z : Nat → List Int := fun i => ptOf n fun d => toPt q d + max (-(i : Int)) (min i (toPt p d - toPt q d))
  have hzl : ∀ i, (z i).length = n + 1 := fun i => ptOf_length _ _
  have hzd : ∀ i, ∀ d ≤ n, toPt (z i) d = toPt q d + max (-(i : Int)) (min i (toPt p d - toPt q d)) := fun i d hd => toPt_ptOf _ hd
  have hzb : ∀ i, InBox b n (z i) := fun i => inBox_iff.2 ⟨hzl i, fun d hd' => by
    rw [hzd i d hd']
    have := hpd d hd'
    have := hqd d hd'
    omega⟩
  have hz0 : z 0 = q := toPt_ext (n := n + 1) (hzl 0) hql fun d hd' => by
    rw [hzd 0 d (by omega)]; push_cast; omega
  have hzw : z gw = p := toPt_ext (n := n + 1) (hzl gw) hpl fun d hd' => by
    rw [hzd gw d (by omega)]
    have := hnd d (by omega)
    omega
  have hstep : ∀ i, Near 1 (z (i + 1)) (z i) := fun i => (near_iff_toPt (hzl _) (hzl _)).2 fun d hd' => by
    rw [hzd _ d hd', hzd _ d hd']
    push_cast
    omega
  have key : ∀ i, (cells.Mem n (L + 1) (z i) ∨ CoveredBy n cells (L + 1) (z i)) ∨ ∃ j, 1 ≤ j ∧ cells.Mem n L ((z j).map fun y => shr y 1) := by
    intro i
    induction i with
    | zero => rw [hz0]; exact .inl (.inl hq)
    | succ i ih =>
      rcases ih with ih | ih
      · rcases box_cases g hd hdl (hzb (i + 1)) with h | h | ⟨l1, c, e1, e2, e3⟩
        · exact .inl (.inl h)
        · exact .inl (.inr h)
        · rcases ih with ih | ih
          · have h5 := g.graded l1 c (L + 1) (z i) (z (i + 1)) e2 ih (by omega) (hstep i) e3
            obtain rfl : l1 = L := by omega
            rw [show l1 + 1 - l1 = 1 by omega, anc_iff] at e3
            rw [e3] at e2
            exact .inr ⟨i + 1, by omega, e2⟩
          · exact (no_touch g hd hdl e1 e2 e3 ih (hstep i)).elim
      · exact .inr ih
  rcases key gw with h | ⟨j, j1, hj⟩
  · rw [hzw] at h
    have := coarser_not_covered g.tiling (by omega) hc0 ha
    rcases h with h | h
    · exact absurd h this.2
    · exact absurd h this.1
  · refine ⟨_, hj, (near_iff_toPt (n := n) (by simpa using hpl) (by simpa using hzl j)).2 fun d hd' => ?_⟩
    rw [toPt_half hpl hd', toPt_half (hzl j) hd', hzd j d hd']
    have := hnd d hd'
    push_cast
    omega

theorem near_trans {w w' : Nat} {p q r : List Int} (h1 : Near w p q) (h2 : Near w' q r) : Near (w + w') p r := by
  induction h1 generalizing r with
  | nil => cases h2; exact List.Forall₂.nil
  | cons h _ ih =>
    cases h2 with
    | cons h' h2 =>
      refine List.Forall₂.cons ?_ (ih h2)
      push_cast
      omega

theorem near_wider {w w' : Nat} (hw : w ≤ w') {p q : List Int} (h : Near w p q) : Near w' p q := by
  induction h with
  | nil => exact List.Forall₂.nil
  | cons h _ ih => exact List.Forall₂.cons (by omega) ih

/-- The facts on the cells of an AMR mesh on which the update of the ghosts rests. -/
structure AmrGeo (n : Nat) (cfg : MeshConfig) (cells : CA) (dom : LCA) (b : Box) : Prop where
  projIn : ∀ l p, AMRProj n cfg cells (l + 1) p → CoveredBy n cells l (p.map fun y => shr y 1) ∧ InBox (b.refined (l + 1)) n p
  projd : ∀ l p q, NearLeaf n cfg.ghostWidth cells l p ∨ AMRProj n cfg cells l p → CoveredBy n cells l p → (q.map fun y => shr y 1) = p →
    AMRProj n cfg cells (l + 1) q
  projRef : ∀ l p, AMRProj n cfg cells (l + 1) p → NearLeaf n cfg.ghostWidth cells l (p.map fun y => shr y 1) ∨
    AMRProj n cfg cells l (p.map fun y => shr y 1)
  pred : ∀ l p, AMRPred n cfg cells dom l p ↔ (NearLeaf n cfg.ghostWidth cells l p ∨ AMRProj n cfg cells l p) ∧
    ∃ l0 c, l0 < l ∧ cells.Mem n l0 c ∧ Anc (l - l0) c p
  predIn : ∀ l p, AMRPred n cfg cells dom l p → InBox (b.refined l) n p

theorem amrGeo_ok {cfg : MeshConfig} (g : TilingLeaves n cells dom minL maxL) (hd : BoxDomain n dom 0 b) (hdl : dom.level = maxL) :
    AmrGeo n cfg cells dom b := by
  have hdom : ∀ l, l ≤ maxL → BoxDomain n dom l (b.refined l) := fun l h2 => by
    have := hd.finer (Nat.zero_le l) (by omega)
    rwa [Nat.sub_zero] at this
  have hlev : ∀ l p, cells.Mem n l p → cells.minLevel ≤ l ∧ l ≤ cells.maxLevel := fun l p hp => CA.mem_levels g.wf hp
  have hdl' : dom.level ≤ maxL := by omega
  have hcovBox : ∀ l p, CoveredBy n cells l p → InBox (b.refined l) n p := by
    rintro l p ⟨l', x, h1, h2, h3⟩
    have := g.between l' x h2
    exact g.inBox (hdom l (by omega)) hdl' h2 (by omega) h3
  have hprojIn : ∀ l p, AMRProj n cfg cells (l + 1) p → CoveredBy n cells l (p.map fun y => shr y 1) := by
    intro l
    induction l with
    | zero =>
      rintro p ⟨_, (⟨_, h⟩ | h), _⟩
      · exact h
      · exact h.elim
    | succ l ih =>
      rintro p ⟨_, (⟨_, h⟩ | h), hnl, _⟩
      · exact h
      · have h1 := ih _ h
        obtain ⟨l', x, h2, h3, h4⟩ := id h1
        have hb := (g.between l' x h3).2
        have hin : InBox (b.refined (l + 1)) n (p.map fun y => shr y 1) := by
          have := desc_in_box (anc_iff.2 rfl) (hcovBox l _ h1)
          rwa [Box.refined_refined] at this
        exact (child_cases g (hdom (l + 1) (by omega)) hdl' (by omega) hin h1).resolve_left hnl
  have hpredCoarse : ∀ l p, AMRPred n cfg cells dom l p → InBox (b.refined l) n p ∧ ∃ l0 c, l0 < l ∧ cells.Mem n l0 c ∧ Anc (l - l0) c p := by
    rintro l p ⟨h1, ⟨q, h2, h2'⟩, h3, h4, h5⟩
    have hl := (g.between l q h2).2
    have hin : InBox (b.refined l) n p := by
      have : ∃ q, dom.Mem n q ∧ Anc (maxL - l) p q := by
        rw [hdl] at h5
        unfold AtLevel at h5
        split at h5
        · obtain ⟨q, h6, h7⟩ := h5
          obtain rfl : l = maxL := by omega
          rw [Nat.sub_self] at h7 ⊢
          have h7 : Anc 0 q p := h7
          obtain rfl := anc_zero.1 h7
          exact ⟨q, h6, anc_zero.2 rfl⟩
        · exact h5
      obtain ⟨q, h6, h7⟩ := this
      have h8 := ((hdom l hl).mem _).1 h6
      rw [hdl] at h8
      exact box_of_desc h7 h8
    refine ⟨hin, ?_⟩
    rcases g.cases (hdom l hl) hdl' hin with h | h | h
    · exact absurd h h4
    · exact absurd h h3
    · exact h
  refine ⟨fun l p h => ⟨hprojIn l p h, ?_⟩, ?_, ?_, fun l p => ⟨fun h => ⟨.inl h.2.1, (hpredCoarse l p h).2⟩, ?_⟩, fun l p h => (hpredCoarse l p h).1⟩
  · have := desc_in_box (anc_iff.2 rfl) (hcovBox l _ (hprojIn l p h))
    rwa [Box.refined_refined] at this
  · rintro l p q hp hc rfl
    have hmax : l < cells.maxLevel := by
      obtain ⟨l', x, h1, h2, _⟩ := hc
      have := hlev l' x h2
      omega
    have hnl : ¬ cells.Mem n l (q.map fun y => shr y 1) := fun h => leaf_not_covered g h hc
    rcases hp with hp | hp
    · obtain ⟨q', h1, h2⟩ := hp
      exact ⟨(hlev _ _ h1).1, .inl ⟨⟨q', h1, h2⟩, hc⟩, hnl, hmax⟩
    · have := amrProj_level hp
      exact ⟨by omega, .inr hp, hnl, hmax⟩
  · rintro l p ⟨_, (⟨h, _⟩ | h), _⟩
    · exact .inl h
    · exact .inr h
  · rintro ⟨hp, l0, c, e1, e2, e3⟩
    obtain ⟨h1, h2⟩ := coarser_not_covered g e1 e2 e3
    have hl0 := hlev l0 c e2
    have hnr : ∃ q, cells.Mem n l q ∧ Near cfg.ghostWidth p q := by
      rcases hp with hp | hp
      · exact hp
      · exfalso
        obtain ⟨k, rfl⟩ : ∃ k, l = k + 1 := ⟨l - 1, by omega⟩
        obtain ⟨l', x, h4, h5, h6⟩ := hprojIn k p hp
        have e4 := anc_of_anc (by omega) e3 (anc_iff.2 rfl : Anc 1 (p.map fun y => shr y 1) p)
        have e5 := anc_trans e4 h6
        rw [show k + 1 - l0 - 1 + (l' - k) = l' - l0 by omega] at e5
        have := (g.noOverlap l0 c l' x e2 h5 (by omega) e5).1
        omega
    refine ⟨by omega, hnr, h1, h2, ?_⟩
    obtain ⟨q, hq1, hq2⟩ := hnr
    have hl := (g.between l q hq1).2
    have hin : InBox (b.refined l) n p := by
      have hc := g.inBox (hdom l0 (by omega)) hdl' e2 le_rfl (by rw [Nat.sub_self]; exact anc_zero.2 rfl)
      have := desc_in_box e3 hc
      rwa [Box.refined_refined, show l0 + (l - l0) = l by omega] at this
    obtain ⟨z, hz⟩ := anc_exists (maxL - l) p
    have hdz : dom.Mem n z := ((hdom l hl).mem z).2 (desc_in_box (by rw [hdl]; exact hz) hin)
    rw [hdl]
    unfold AtLevel
    split
    · obtain rfl : l = maxL := by omega
      rw [Nat.sub_self] at hz ⊢
      exact ⟨z, hdz, by rw [← anc_zero.1 hz]; exact anc_zero.2 rfl⟩
    · exact ⟨z, hdz, hz⟩

/-- On graded leaves the ghosts are near the leaves. -/
theorem ghost_near {cfg : MeshConfig} (g : GoodLeaves n cells dom minL maxL) (hd : BoxDomain n dom 0 b) (hdl : dom.level = maxL)
    (horder : 2 * cfg.predictionOrder ≤ cfg.ghostWidth + 1) (l : Nat) (p : List Int) (h : AMRGhost n cfg cells dom l p) :
    NearLeaf n cfg.ghostWidth cells l p := by
  have geo := amrGeo_ok (cfg := cfg) g.tiling hd hdl
  rcases h with h | ⟨r, hr, hn⟩
  · exact h
  · obtain ⟨-, l0, c, e1, e2, e3⟩ := (geo.pred _ _).1 hr
    have hin := geo.predIn _ _ hr
    obtain ⟨q, h2, h2'⟩ := hr.2.1
    have hdom : BoxDomain n dom (l + 1) (b.refined (l + 1)) := by
      have := hd.finer (Nat.zero_le (l + 1)) (by have := (g.between _ q h2).2; omega)
      rwa [Nat.sub_zero] at this
    obtain ⟨c', f1, f2⟩ := pred_parent_near g hdom (by omega) hin h2 h2' (by omega) e2 e3
    exact ⟨c', f1, near_wider (by omega) (near_trans hn f2)⟩

end

section
variable {K : Type} [Field K] {n : Nat} {cells : CA} {dom : LCA} {minL maxL : Nat} {b : Box}

/-- What `update_ghost` reads from an AMR mesh without periodic direction. -/
def amrGhostMesh (m : AMRMeshes) (dom : LCA) (minL maxL : Nat) (h0 : K) (cfg : MeshConfig) : AMRGhostMesh K :=
  ⟨⟨m.cells, m.all, dom, minL, maxL, fun _ => false, h0, cfg⟩, m.proj, m.pred⟩

/-- Every AMR mesh with leaves of level at least 1 that tile a box meets `AmrReady`. -/
theorem amrReady_ok {cfg : MeshConfig} (g : TilingLeaves n cells dom minL maxL) (hmin : 1 ≤ minL) (hd : BoxDomain n dom 0 b) (hdl : dom.level = maxL)
    {B : Int} (hB0 : 0 ≤ B) (hB : B + (2 * cfg.ghostWidth + 9) * 2 ^ maxL + 2 < INT_MAX)
    (hhi : ∀ d ≤ n, b.hi d * 2 ^ maxL ≤ B) (h0 : K) {m : AMRMeshes} {u : CA} (r2 : AMRMeshOK n cfg cells dom minL m u) :
    AmrReady n (amrGhostMesh m dom minL maxL h0 cfg) (fun l => b.refined l) cfg.ghostWidth := by
  have geo := amrGeo_ok (cfg := cfg) g hd hdl
  obtain ⟨m0, c1, c2, c3, c4, c5, c6⟩ := r2.content
  have hall : ∀ l p, m.all.Mem n l p ↔ AMRGhost n cfg cells dom l p ∨ AMRProj n cfg cells l p := fun l p => by rw [c6, c1.all]
  have hproj : ∀ l p, m.proj.Mem n l p ↔ AMRProj n cfg cells l p := fun l p => by rw [c4, c1.proj]
  have hpred : ∀ l p, m.pred.Mem n l p ↔ AMRPred n cfg cells dom l p := fun l p => by rw [c5, c1.pred]
  have hdom : ∀ l, l ≤ maxL → BoxDomain n dom l (b.refined l) := fun l h2 => by
    have := hd.finer (Nat.zero_le l) (by omega)
    rwa [Nat.sub_zero] at this
  have hdl' : dom.level ≤ maxL := by omega
  have hleaf : ∀ l p, cells.Mem n l p → InBox (b.refined l) n p := fun l p hp =>
    g.inBox (hdom l (g.between l p hp).2) hdl' hp le_rfl (by rw [Nat.sub_self]; exact anc_zero.2 rfl)
  have hcells_all : ∀ l p, cells.Mem n l p → m.all.Mem n l p := fun l p hp => (hall l p).2 (.inl (.inl ⟨p, hp, near_refl _ _⟩))
  -- near a leaf, or in the box, or near a cell of the box which is the parent of a predicted one
  have hminL : ∀ l p, cells.Mem n l p → minL ≤ cells.minLevel := by
    intro l p hp
    have h4 := CA.mem_levels g.wf hp
    rcases cells.level_cases with ⟨_, h5, h6⟩ | ⟨_, h5, h6, h7, _⟩
    · have := hp.1
      omega
    · obtain ⟨y, hy⟩ := CA.some_mem g.wf (l := cells.minLevel) (by omega) h6
      exact (g.between _ y hy).1
  have hcase : ∀ l p, m.all.Mem n l p → NearLeaf n cfg.ghostWidth cells l p ∨ (AMRProj n cfg cells l p ∧ InBox (b.refined l) n p) ∨
      ∃ r, AMRPred n cfg cells dom (l + 1) r ∧ InBox (b.refined l) n (r.map fun y => shr y 1) ∧ Near cfg.predictionOrder p (r.map fun y => shr y 1) := by
    intro l p hp
    rcases (hall l p).1 hp with (h | ⟨r, h1, h2⟩) | h
    · exact .inl h
    · refine .inr (.inr ⟨r, h1, ?_, h2⟩)
      refine box_of_desc (k := 1) (anc_iff.2 rfl) ?_
      rw [Box.refined_refined]
      exact geo.predIn _ r h1
    · refine .inr (.inl ⟨h, ?_⟩)
      cases l with
      | zero => exact h.elim
      | succ l => exact (geo.projIn l p h).2
  have hlev : ∀ l p, m.all.Mem n l p → minL ≤ l ∧ l ≤ maxL := by
    intro l p hp
    rcases hcase l p hp with ⟨q, h1, _⟩ | ⟨h, _⟩ | ⟨r, h, _⟩
    · exact g.between l q h1
    · cases l with
      | zero => exact h.elim
      | succ l =>
        obtain ⟨l', x, h1, h2, _⟩ := (geo.projIn l p h).1
        have := g.between l' x h2
        have h3 := (amrProj_level h).1
        have := hminL _ _ h2
        omega
    · obtain ⟨h1, ⟨q, h2, _⟩, _⟩ := h
      have := hminL _ _ h2
      have := g.between _ q h2
      omega
  obtain ⟨l1, q1, hq1⟩ : ∃ l q, cells.Mem n l q := by
    have : InBox b n (ptOf n b.lo) := inBox_iff.2 ⟨ptOf_length _ _, fun d hd' => by
      rw [toPt_ptOf _ hd']
      exact ⟨le_rfl, hd.pos d hd'⟩⟩
    obtain ⟨x, hx⟩ := anc_exists (maxL - 0) (ptOf n b.lo)
    obtain ⟨l, q, _, h, _⟩ := g.tiled hd hdl' this hx
    exact ⟨l, q, h⟩
  have hlv := CA.mem_levels r2.wf (hcells_all _ _ hq1)
  have hlow : minL ≤ m.all.minLevel := by
    rcases m.all.level_cases with ⟨_, h5, h6⟩ | ⟨_, h5, h6, h7, _⟩
    · have := (hcells_all _ _ hq1).1
      omega
    · obtain ⟨y, hy⟩ := CA.some_mem r2.wf (l := m.all.minLevel) (by omega) h6
      exact (hlev _ y hy).1
  have hq1b := g.between l1 q1 hq1
  have projd_iff : ∀ l p, AmrProjd n (amrGhostMesh m dom minL maxL h0 cfg) l p ↔
      (NearLeaf n cfg.ghostWidth cells l p ∨ AMRProj n cfg cells l p) ∧ CoveredBy n cells l p := by
    intro l p
    constructor
    · rintro ⟨q, rfl, hq⟩
      have hq := (hproj _ _).1 hq
      exact ⟨geo.projRef l q hq, (geo.projIn l q hq).1⟩
    · rintro ⟨h1, h2⟩
      exact ⟨_, double_half p, (hproj _ _).2 (geo.projd l p _ h1 h2 (double_half p))⟩
  have hin_all : ∀ l p, NearLeaf n cfg.ghostWidth cells l p ∨ AMRProj n cfg cells l p → m.all.Mem n l p := fun l p h =>
    (hall l p).2 (h.imp .inl id)
  have hpo : cfg.predictionOrder ≤ cfg.ghostWidth := Nat.le_max_right _ _
  have hsize := g.size
  obtain ⟨sa, sb⟩ := r2.allLevels
  obtain ⟨sc, sd⟩ := r2.projLevels
  obtain ⟨se, sf⟩ := r2.predLevels
  obtain ⟨sg, sh⟩ := r2.cellsLevels
  have hgw : (0 : Int) ≤ cfg.ghostWidth := by omega
  have hpow := pow_two_pos maxL
  have hmul : (0 : Int) ≤ cfg.ghostWidth * 2 ^ maxL := Int.mul_nonneg hgw (le_of_lt hpow)
  have hB' : B + (cfg.ghostWidth + 1) * 2 ^ maxL + 8 * 2 ^ maxL + 2 < INT_MAX := by
    have : B + (2 * cfg.ghostWidth + 9) * 2 ^ maxL + 2 = B + (cfg.ghostWidth + 1) * 2 ^ maxL + 8 * 2 ^ maxL + 2 + cfg.ghostWidth * 2 ^ maxL := by ring
    omega
  have hD0 : 0 ≤ B + ((cfg.ghostWidth : Int) + 1) * 2 ^ maxL := by
    have : (0 : Int) ≤ ((cfg.ghostWidth : Int) + 1) * 2 ^ maxL := Int.mul_nonneg (by omega) (le_of_lt hpow)
    omega
  -- the range
  have hbelow : ∀ l p, m.all.Mem n l p → ∀ x ∈ p, x * 2 ^ (maxL - l) < B + (cfg.ghostWidth + 1) * 2 ^ maxL := by
    intro l p hp x hx
    have hl := hlev l p hp
    have hx' : ∃ d ≤ n, x ≤ (b.refined l).hi d - 1 + cfg.ghostWidth := by
      rcases hcase l p hp with ⟨q, h1, h2⟩ | ⟨_, h⟩ | ⟨r, _, h1, h2⟩
      · obtain ⟨e1, e2⟩ := inBox_iff.1 (hleaf l q h1)
        have hpl : p.length = n + 1 := mem_length hp.2
        obtain ⟨d, hd', rfl⟩ := mem_toPt hpl hx
        have := (near_iff_toPt hpl e1).1 h2 d hd'
        have := e2 d hd'
        exact ⟨d, hd', by omega⟩
      · obtain ⟨d, hd', _, h⟩ := inBox_coord h x hx
        exact ⟨d, hd', by omega⟩
      · obtain ⟨e1, e2⟩ := inBox_iff.1 h1
        have hpl : p.length = n + 1 := mem_length hp.2
        obtain ⟨d, hd', rfl⟩ := mem_toPt hpl hx
        have := (near_iff_toPt hpl e1).1 h2 d hd'
        have := e2 d hd'
        exact ⟨d, hd', by omega⟩
    obtain ⟨d, hd', hx'⟩ := hx'
    have h3 := pow_two_pos (maxL - l)
    have h4 : (2 : Int) ^ (maxL - l) ≤ 2 ^ maxL := pow_le_pow_right₀ (by norm_num) (by omega)
    have h5 : x * 2 ^ (maxL - l) ≤ ((b.refined l).hi d + cfg.ghostWidth) * 2 ^ (maxL - l) := Int.mul_le_mul_of_nonneg_right (by omega) (le_of_lt h3)
    have h6 : (b.refined l).hi d * 2 ^ (maxL - l) = b.hi d * 2 ^ maxL := by
      show b.hi d * 2 ^ l * 2 ^ (maxL - l) = _
      rw [mul_assoc, ← pow_add, show l + (maxL - l) = maxL by omega]
    have h7 : (cfg.ghostWidth : Int) * 2 ^ (maxL - l) ≤ cfg.ghostWidth * 2 ^ maxL := Int.mul_le_mul_of_nonneg_left h4 hgw
    have h8 := hhi d hd'
    rw [add_mul, h6] at h5
    have h9 : ((cfg.ghostWidth : Int) + 1) * 2 ^ maxL = cfg.ghostWidth * 2 ^ maxL + 2 ^ maxL := by ring
    omega
  have hnum : m.all.NumbersDiffer n := by
    unfold CA.NumbersDiffer
    rw [r2.numbers]
    exact List.nodup_range.map fun a b h => by exact_mod_cast h
  refine
    { refWF := r2.wf
      projWF := r2.projWF
      predWF := r2.predWF
      refLeveled := sb
      projLeveled := sd
      predLeveled := sf
      sizes := ⟨sc.trans sa.symm, se.trans sa.symm⟩
      numbers := hnum
      low := ⟨hmin.trans hlow, hlv.1.trans hq1b.2, by show maxL ≤ m.all.maxSize; omega⟩
      high := fun l p hp => (hlev l p hp).2
      range := ⟨B + (cfg.ghostWidth + 1) * 2 ^ maxL, hD0, by show _ + 2 * 2 ^ maxL + 2 < _; omega, fun l hl => ?_⟩
      cellsRef := fun l p hp => hcells_all l p ((c2 l p).1 hp)
      projRef := fun l p hp => hin_all l p ((projd_iff l p).1 hp).1
      projChild := ?_
      projIn := ?_
      predRef := fun l p hp => hin_all l p (((geo.pred l p).1 ((hpred l p).1 hp)).1)
      predIn := ?_
      predNear := ?_
      predOut := ?_
      bc := ?_ }
  · have hl : l ≤ maxL := hl
    have hls : l ≤ m.all.maxSize := by omega
    refine ⟨fun p hp x hx => ?_, fun p hp x hx => ?_, fun p hp x hx => ?_⟩
    · show x * 2 ^ (maxL - (m.all.lca l).level) < _
      rw [sb l hls]
      exact hbelow l p ⟨hls, hp⟩ x hx
    · show x * 2 ^ (maxL - (m.proj.lca l).level) < _
      have hls' : l ≤ m.proj.maxSize := by omega
      rw [sd l hls']
      exact hbelow l p ((hall l p).2 (.inr ((hproj l p).1 ⟨hls', hp⟩))) x hx
    · show x * 2 ^ (maxL - (m.pred.lca l).level) < _
      have hls' : l ≤ m.pred.maxSize := by omega
      rw [sf l hls']
      exact hbelow l p (hin_all l p ((geo.pred l p).1 ((hpred l p).1 ⟨hls', hp⟩)).1) x hx
  · rintro l p q hp rfl
    obtain ⟨h1, h2⟩ := (projd_iff l _).1 hp
    have hq := geo.projd l _ q h1 h2 rfl
    have hqa : m.all.Mem n (l + 1) q := (hall _ _).2 (.inr hq)
    refine ⟨hqa, ?_⟩
    rcases child_cases g (hdom (l + 1) (hlev _ _ hqa).2) hdl' (by omega) (geo.projIn l q hq).2 h2 with h | h
    · exact .inl ((c2 _ _).2 h)
    · exact .inr ((projd_iff _ _).2 ⟨.inr hq, h⟩)
  · intro l p hp
    obtain ⟨h1, l', x, h2, h3, h4⟩ := (projd_iff l p).1 hp
    exact g.inBox (hdom l (hlev l p (hin_all l p h1)).2) hdl' h3 (by omega) h4
  · intro l p hp
    obtain ⟨h1, l0, c, e1, e2, e3⟩ := (geo.pred l p).1 ((hpred l p).1 hp)
    have := desc_in_box e3 (hleaf l0 c e2)
    rwa [Box.refined_refined, show l0 + (l - l0) = l by omega] at this
  · intro l p q hp hq
    have hp := (hpred l p).1 hp
    obtain ⟨L, rfl⟩ : ∃ L, l = L + 1 := ⟨l - 1, by have := hp.1; omega⟩
    exact (hall _ _).2 (.inl (.inr ⟨p, hp, hq⟩))
  · intro l p hp
    have hp := (hpred l p).1 hp
    exact ⟨fun h => hp.2.2.2.1 ((c2 _ _).1 h), fun h => hp.2.2.1 ((projd_iff l p).1 h).2⟩
  · intro level _ h2
    have h2 : level ≤ maxL := h2
    have ls1 : level ≤ m.cells.maxSize := by omega
    have ls2 : level ≤ m.all.maxSize := by omega
    refine ⟨r2.cellsWF, r2.wf, ⟨ls1, sh level ls1⟩, ⟨ls2, sb level ls2⟩, hnum, hdom level h2, fun p hp => hleaf level p ((c2 _ _).1 hp),
      fun p q hq hn => (hall _ _).2 (.inl (.inl ⟨q, (c2 _ _).1 hq, hn⟩)), ?_, B + (cfg.ghostWidth + 1) * 2 ^ maxL, hD0, ?_, ?_, ?_, ?_⟩
    · intro p v k ho k1 _ hmem v' hv' j j1 j2
      rcases hcase level _ hmem with ⟨q, h3, h4⟩ | ⟨_, h⟩ | ⟨r, h3, h4, h5⟩
      · exact (hall _ _).2 (.inl (.inl ⟨q, h3, line_near ho hv' k1 j1 j2 (hleaf _ q h3) h4⟩))
      · exfalso
        obtain ⟨e, he, hne⟩ := ho.2.1.2
        have h3 := (inBox_iff.1 h).2 e he
        rcases ho.cases (fun d _ => .inl rfl) k k he with ⟨a1, _⟩ | ⟨_, a1, a2, _⟩ | ⟨_, a1, a2, _⟩ <;> omega
      · exact (hall _ _).2 (.inl (.inr ⟨r, h3, line_near ho hv' k1 j1 j2 h4 h5⟩))
    · show _ + 8 * 2 ^ dom.level + 2 < _
      rw [hdl]; exact hB'
    · show dom.BelowAt n dom.level _
      intro p hp x hx
      rw [hd.mem] at hp
      obtain ⟨d, hd', _, h⟩ := inBox_coord hp x hx
      have h8 := hhi d hd'
      simp only [Box.refined, Nat.sub_zero] at h
      rw [hdl] at h
      rw [Nat.sub_self, pow_zero]
      have h9 : ((cfg.ghostWidth : Int) + 1) * 2 ^ maxL = cfg.ghostWidth * 2 ^ maxL + 2 ^ maxL := by ring
      omega
    · show (m.cells.lca level).BelowAt n dom.level _
      intro p hp x hx
      rw [sh level ls1, hdl]
      exact hbelow level p (hcells_all _ _ ((c2 _ _).1 ⟨ls1, hp⟩)) x hx
    · show (m.all.lca level).BelowAt n dom.level _
      intro p hp x hx
      rw [sb level ls2, hdl]
      exact hbelow level p ⟨ls2, hp⟩ x hx

end

end Samurai

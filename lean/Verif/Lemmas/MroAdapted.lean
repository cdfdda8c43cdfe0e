import Verif.Lemmas.MroGhost
import Verif.Lemmas.AMRAdapted
import Verif.Lemmas.MroMesh

namespace Samurai

section
variable {n : Nat} {cells : CA} {dom : LCA} {minL maxL : Nat} {b : Box}

/-- The parent of a cell inside a coarser leaf, near a cell which is a leaf or is refined, is close to a leaf of its level. -/
theorem coarse_parent_near (g : GoodLeaves n cells dom minL maxL) {L : Nat} (hd : BoxDomain n dom (L + 1) b) (hdl : dom.level ≤ maxL) {gw : Nat}
    {p q c0 : List Int} {l0 : Nat} (hpb : InBox b n p) (hqb : InBox b n q) (hq : cells.Mem n (L + 1) q ∨ CoveredBy n cells (L + 1) q)
    (hn : Near gw p q) (hl0 : l0 ≤ L) (hc0 : cells.Mem n l0 c0)
    (ha : Anc (L + 1 - l0) c0 p) : ∃ c, cells.Mem n L c ∧ Near (gw / 2) (p.map fun y => shr y 1) c := by
  obtain ⟨hpl, hpd⟩ := inBox_iff.1 hpb
  obtain ⟨hql, hqd⟩ := inBox_iff.1 hqb
  have hnd := (near_iff_toPt hpl hql).1 hn
  let z : Nat → List Int := fun i => ptOf n fun d => toPt q d + max (-(i : Int)) (min i (toPt p d - toPt q d))
  have hzl : ∀ i, (z i).length = n + 1 := fun i => ptOf_length _ _
  have hzd : ∀ i, ∀ d ≤ n, toPt (z i) d = toPt q d + max (-(i : Int)) (min i (toPt p d - toPt q d)) := fun i d hd => toPt_ptOf _ hd
  have hzb : ∀ i, InBox b n (z i) := fun i => inBox_iff.2 ⟨hzl i, fun d hd' => by
    rw [hzd i d hd']
    have := hpd d hd'
    have := hqd d hd'
    omega⟩
  have hz0 : z 0 = q := toPt_ext (n := n + 1) (hzl 0) hql fun d hd' => by
    rw [hzd 0 d (by omega)]; push_cast; omega
  have hzw : z gw = p := toPt_ext (n := n + 1) (hzl gw) hpl fun d hd' => by
    rw [hzd gw d (by omega)]
    have := hnd d (by omega)
    omega
  have hstep : ∀ i, Near 1 (z (i + 1)) (z i) := fun i => (near_iff_toPt (hzl _) (hzl _)).2 fun d hd' => by
    rw [hzd _ d hd', hzd _ d hd']
    push_cast
    omega
  have key : ∀ i, (cells.Mem n (L + 1) (z i) ∨ CoveredBy n cells (L + 1) (z i)) ∨ ∃ j, 1 ≤ j ∧ cells.Mem n L ((z j).map fun y => shr y 1) := by
    intro i
    induction i with
    | zero => rw [hz0]; exact .inl hq
    | succ i ih =>
      rcases ih with ih | ih
      · rcases box_cases g hd hdl (hzb (i + 1)) with h | h | ⟨l1, c, e1, e2, e3⟩
        · exact .inl (.inl h)
        · exact .inl (.inr h)
        · rcases ih with ih | ih
          · have h5 := g.graded l1 c (L + 1) (z i) (z (i + 1)) e2 ih (by omega) (hstep i) e3
            obtain rfl : l1 = L := by omega
            rw [show l1 + 1 - l1 = 1 by omega, anc_iff] at e3
            rw [e3] at e2
            exact .inr ⟨i + 1, by omega, e2⟩
          · exact (no_touch g hd hdl e1 e2 e3 ih (hstep i)).elim
      · exact .inr ih
  rcases key gw with h | ⟨j, j1, hj⟩
  · rw [hzw] at h
    have := coarser_not_covered g.tiling (by omega) hc0 ha
    rcases h with h | h
    · exact absurd h this.2
    · exact absurd h this.1
  · refine ⟨_, hj, (near_iff_toPt (n := n) (by simpa using hpl) (by simpa using hzl j)).2 fun d hd' => ?_⟩
    rw [toPt_half hpl hd', toPt_half (hzl j) hd', hzd j d hd']
    have := hnd d hd'
    push_cast
    omega

/-- A cell inside a coarser leaf has a parent that is not refined. -/
theorem coarser_parent (g : TilingLeaves n cells dom minL maxL) {l0 L : Nat} {c p : List Int} (h1 : l0 ≤ L) (h2 : cells.Mem n l0 c)
    (h3 : Anc (L + 1 - l0) c p) : ¬ CoveredBy n cells L (p.map fun y => shr y 1) := by
  have e4 := anc_of_anc (by omega) h3 (anc_iff.2 rfl : Anc 1 (p.map fun y => shr y 1) p)
  rw [show L + 1 - l0 - 1 = L - l0 by omega] at e4
  rcases Nat.lt_or_ge l0 L with h | h
  · exact (coarser_not_covered g h h2 e4).1
  · obtain rfl : l0 = L := by omega
    rw [Nat.sub_self] at e4
    rw [← anc_zero.1 e4]
    exact leaf_not_covered g h2

/-- A refined cell that touches a leaf of its level has a child which is a leaf. -/
theorem touch_leaf (g : GoodLeaves n cells dom minL maxL) (hd : BoxDomain n dom 0 b) (hdl : dom.level = maxL) {L : Nat} {P q : List Int}
    (hc : CoveredBy n cells L P) (hq : cells.Mem n L q) (h : Near 1 P q) : ∃ a, cells.Mem n (L + 1) a ∧ Anc 1 P a := by
  obtain ⟨l', x, h1, h2, h3⟩ := id hc
  have hl := g.between l' x h2
  have hdom : ∀ l, l ≤ maxL → BoxDomain n dom l (b.refined l) := fun l h2 => by
    have := hd.finer (Nat.zero_le l) (by omega)
    rwa [Nat.sub_zero] at this
  have hin : InBox (b.refined L) n P := leaf_inBox g (hdom L (by omega)) (by omega) h2 (by omega) h3
  obtain ⟨a, b', t1, t2, t3⟩ := touch_down 1 h
  have ha : InBox (b.refined (L + 1)) n a := by
    have := desc_in_box t1 hin
    rwa [Box.refined_refined] at this
  have hac : CoveredBy n cells (L + 1 - 1) (a.map fun y => shr y 1) := by
    rw [← anc_iff.1 t1]; exact hc
  rcases child_cases g.tiling (hdom (L + 1) (by omega)) (by omega) (by omega) ha hac with h | h
  · exact ⟨a, h, t1⟩
  · refine (no_touch g (hdom (L + 1) (by omega)) (by omega) (l0 := L) (by omega) hq (by rw [show L + 1 - L = 1 by omega]; exact t2) h ?_).elim
    exact List.Forall₂.flip (List.Forall₂.imp (fun _ _ h => h.symm) t3)

theorem near_half {p q : List Int} (h : Near 1 p q) : Near 1 (p.map fun y => shr y 1) (q.map fun y => shr y 1) := by
  induction h with
  | nil => exact .nil
  | cons h _ ih =>
    refine .cons ?_ ih
    simp only [shr_one_eq]
    omega

theorem near_some {p q : List Int} (h : p.length = q.length) : ∃ N, Near N p q := by
  induction p generalizing q with
  | nil =>
    cases q with
    | nil => exact ⟨0, .nil⟩
    | cons b q => simp at h
  | cons a p ih =>
    cases q with
    | nil => simp at h
    | cons b q =>
      obtain ⟨N, hN⟩ := ih (q := q) (by simpa using h)
      exact ⟨N + (a - b).natAbs, .cons (by omega) (near_wider (by omega) hN)⟩

/-- If a level has a leaf and a refined cell, the next level has a leaf. -/
theorem leaf_next (g : GoodLeaves n cells dom minL maxL) (hd : BoxDomain n dom 0 b) (hdl : dom.level = maxL) {l : Nat} {p q : List Int}
    (hc : CoveredBy n cells l p) (hq : cells.Mem n l q) : ∃ x, cells.Mem n (l + 1) x := by
  have hlm := (g.between l q hq).2
  have hd' : BoxDomain n dom l (b.refined l) := by
    have := hd.finer (Nat.zero_le l) (by omega)
    rwa [Nat.sub_zero] at this
  have hqb : InBox (b.refined l) n q := leaf_inBox g hd' (by omega) hq le_rfl (by rw [Nat.sub_self]; exact anc_zero.2 rfl)
  have hpb : InBox (b.refined l) n p := by
    obtain ⟨l', x, h1, h2, h3⟩ := hc
    exact leaf_inBox g hd' (by omega) h2 (by omega) h3
  obtain ⟨hpl, hpd⟩ := inBox_iff.1 hpb
  obtain ⟨hql, hqd⟩ := inBox_iff.1 hqb
  obtain ⟨N, hN⟩ := near_some (hpl.trans hql.symm)
  have hnd := (near_iff_toPt hpl hql).1 hN
  let z : Nat → List Int := fun i => ptOf n fun d => toPt q d + max (-(i : Int)) (min i (toPt p d - toPt q d))
  have hzl : ∀ i, (z i).length = n + 1 := fun i => ptOf_length _ _
  have hzd : ∀ i, ∀ d ≤ n, toPt (z i) d = toPt q d + max (-(i : Int)) (min i (toPt p d - toPt q d)) := fun i d hd => toPt_ptOf _ hd
  have hzb : ∀ i, InBox (b.refined l) n (z i) := fun i => inBox_iff.2 ⟨hzl i, fun d hd' => by
    rw [hzd i d hd']
    have := hpd d hd'
    have := hqd d hd'
    omega⟩
  have hz0 : z 0 = q := toPt_ext (n := n + 1) (hzl 0) hql fun d hd' => by
    rw [hzd 0 d (by omega)]; push_cast; omega
  have hzw : z N = p := toPt_ext (n := n + 1) (hzl N) hpl fun d hd' => by
    rw [hzd N d (by omega)]
    have := hnd d (by omega)
    omega
  have hstep : ∀ i, Near 1 (z (i + 1)) (z i) := fun i => (near_iff_toPt (hzl _) (hzl _)).2 fun d hd' => by
    rw [hzd _ d hd', hzd _ d hd']
    push_cast
    omega
  have hsym : ∀ i, Near 1 (z i) (z (i + 1)) := fun i => List.Forall₂.flip (List.Forall₂.imp (fun _ _ h => h.symm) (hstep i))
  by_contra hno
  have key : ∀ i, ¬ CoveredBy n cells l (z i) := by
    intro i
    induction i with
    | zero => rw [hz0]; exact leaf_not_covered g.tiling hq
    | succ i ih =>
      intro hcov
      rcases box_cases g hd' (by omega) (hzb i) with h | h | ⟨l1, c, e1, e2, e3⟩
      · obtain ⟨a, h1, _⟩ := touch_leaf g hd hdl hcov h (hstep i)
        exact hno ⟨a, h1⟩
      · exact ih h
      · exact no_touch g hd' (by omega) e1 e2 e3 hcov (hsym i)
  exact key N (by rw [hzw]; exact hc)

/-- The cells of the reference mesh of a mesh with overleaves. -/
def MroAll (n w : Nat) (cells : CA) (maxL l : Nat) (p : List Int) : Prop := (MroBase n w cells l p ∨ MroSib n w cells l p) ∨ MroOver n cells maxL l p

/-- The facts on the cells of a mesh with overleaves on which the update of the ghosts rests. -/
structure MroGeo (n w : Nat) (cells : CA) (maxL : Nat) (b : Box) : Prop where
  levels : ∀ l p, MroAll n w cells maxL l p → l ≤ maxL ∧ cells.minLevel ≤ l + 1
  covered : ∀ l p, MroAll n w cells maxL l p → CoveredBy n cells l p → MroBase n w cells l p ∨ MroSib n w cells l p
  coveredIn : ∀ l p, CoveredBy n cells l p → l ≤ maxL ∧ InBox (b.refined l) n p
  children : ∀ l p q q', CoveredBy n cells l p → MroBase n w cells l p ∨ MroSib n w cells l p → (q.map fun y => shr y 1) = p →
    (q'.map fun y => shr y 1) = p → MroAll n w cells maxL (l + 1) q → MroAll n w cells maxL (l + 1) q'
  near : ∀ l l0 p c r, MroAll n w cells maxL l p → l0 < l → cells.Mem n l0 c → Anc (l - l0) c p → Near 1 r (p.map fun y => shr y 1) →
    MroAll n w cells maxL (l - 1) r
  lines : ∀ l p v (k : Nat), Outward n (b.refined l) p v → 1 ≤ k → MroAll n w cells maxL l (walk n p k v) → ∀ v', (∀ d ≤ n, v' d = v d ∨ v' d = 0) →
    ∀ j : Int, - (k : Int) < j → j ≤ k → MroAll n w cells maxL l (walk n p j v')
  close : ∀ l p, MroAll n w cells maxL l p → p.length = n + 1 ∧ ∃ z, InBox (b.refined l) n z ∧ Near (w + 3) p z

theorem short_parity {p : List Int} (hn : n ≤ 1) (h : p.length = n + 1) : SameParity p.dropLast := by
  have : p.dropLast.length ≤ 1 := by rw [List.length_dropLast]; omega
  match p.dropLast, this with
  | [], _ => exact ⟨0, by simp⟩
  | [a], _ => exact ⟨a % 2, by simp⟩

theorem mroGeo_ok (hn : n ≤ 1) {w : Nat} (hw : 1 ≤ w) (g : GoodLeaves n cells dom minL maxL) (hd : BoxDomain n dom 0 b) (hdl : dom.level = maxL) :
    MroGeo n w cells maxL b := by
  have hdom : ∀ l, l ≤ maxL → BoxDomain n dom l (b.refined l) := fun l h2 => by
    have := hd.finer (Nat.zero_le l) (by omega)
    rwa [Nat.sub_zero] at this
  have hdl' : dom.level ≤ maxL := by omega
  have hminl : ∀ l p, cells.Mem n l p → cells.minLevel ≤ l := fun l p hp => (CA.mem_levels g.wf hp).1
  have hleaf : ∀ l p, cells.Mem n l p → InBox (b.refined l) n p := fun l p hp =>
    leaf_inBox g (hdom l (g.between l p hp).2) hdl' hp le_rfl (by rw [Nat.sub_self]; exact anc_zero.2 rfl)
  have hcovIn : ∀ l p, CoveredBy n cells l p → l ≤ maxL ∧ InBox (b.refined l) n p := by
    rintro l p ⟨l', x, h1, h2, h3⟩
    have := g.between l' x h2
    exact ⟨by omega, leaf_inBox g (hdom l (by omega)) hdl' h2 (by omega) h3⟩
  have hchild : ∀ l p, InBox (b.refined l) n (p.map fun y => shr y 1) → InBox (b.refined (l + 1)) n p := by
    intro l p h
    have := desc_in_box (anc_iff.2 rfl : Anc 1 (p.map fun y => shr y 1) p) h
    rwa [Box.refined_refined] at this
  have hpar : ∀ l p, InBox (b.refined (l + 1)) n p → InBox (b.refined l) n (p.map fun y => shr y 1) := by
    intro l p h
    refine box_of_desc (k := 1) (anc_iff.2 rfl) ?_
    rw [Box.refined_refined]
    exact h
  have hparLeaf : ∀ l q, cells.Mem n (l + 1) q → CoveredBy n cells l (q.map fun y => shr y 1) := fun l q hq =>
    ⟨l + 1, q, by omega, hq, by rw [show l + 1 - l = 1 by omega]; exact anc_iff.2 rfl⟩
  have hsibCov : ∀ L p, MroSib n w cells (L + 1) p → CoveredBy n cells L (p.map fun y => shr y 1) := by
    rintro L p ⟨_, _, ⟨q, ⟨l', x, h1, h2, h3⟩, h4⟩, _⟩
    refine ⟨l', x, by omega, h2, ?_⟩
    have := anc_trans h4 h3
    rwa [show 1 + (l' - (L + 1)) = l' - L by omega] at this
  have hlevels : ∀ l p, MroAll n w cells maxL l p → l ≤ maxL ∧ cells.minLevel ≤ l + 1 := by
    rintro l p (((⟨q, h, _⟩ | ⟨q, h, _⟩) | ⟨_, ⟨q, h⟩, _⟩) | ⟨l0, q, rfl, h1, h, _⟩)
    · have := g.between _ _ h; have := hminl _ _ h; omega
    · have := g.between _ _ h; have := hminl _ _ h; omega
    · have := g.between _ _ h; have := hminl _ _ h; omega
    · have := hminl _ _ h; omega
  have hcovered : ∀ l p, MroAll n w cells maxL l p → CoveredBy n cells l p → MroBase n w cells l p ∨ MroSib n w cells l p := by
    rintro l p hm hc
    have hl := (hlevels l p hm).1
    rcases hm with h | ⟨L, q, rfl, h1, h2, h3, _⟩
    · exact h
    · have hpc : CoveredBy n cells L (p.map fun y => shr y 1) := by
        obtain ⟨l', x, e1, e2, e3⟩ := hc
        refine ⟨l', x, by omega, e2, ?_⟩
        have := anc_trans (anc_iff.2 rfl : Anc 1 (p.map fun y => shr y 1) p) e3
        rwa [show 1 + (l' - (L + 1)) = l' - L by omega] at this
      obtain ⟨a, h, t1⟩ := touch_leaf g hd hdl hpc h2 h3
      exact .inl (.inl ⟨a, h, near_wider hw (anc_one_near t1)⟩)
  have hallLen : ∀ l p, MroAll n w cells maxL l p → p.length = n + 1 := by
    rintro l p (((⟨q, h, h'⟩ | ⟨q, h, h'⟩) | ⟨_, _, ⟨q, h, h'⟩, _⟩) | ⟨l0, q, _, _, h, h', _⟩)
    · rw [h'.length_eq, mem_length h.2]
    · rw [h'.length_eq, List.length_map, mem_length h.2]
    · have h1 := (inBox_iff.1 (hcovIn l q h).2).1
      have h2 := anc_length h'
      rw [List.length_map] at h2
      omega
    · have := h'.length_eq
      rw [List.length_map, mem_length h.2] at this
      exact this
  refine ⟨hlevels, hcovered, hcovIn, ?_, ?_, ?_, ?_⟩
  · rintro l p c c' hcov hp hpar hpar' hm
    have hq : ∃ x, cells.Mem n (l + 1) x := by
      rcases hp with (⟨q, h, _⟩ | ⟨q, h, _⟩) | ⟨_, ⟨q, h⟩, _⟩
      · exact leaf_next g hd hdl hcov h
      · exact ⟨q, h⟩
      · exact leaf_next g hd hdl hcov h
    have hc : Anc 1 p c := anc_iff.2 hpar.symm
    have hc' : Anc 1 p c' := anc_iff.2 hpar'.symm
    by_cases hleaf' : ∃ q, cells.Mem n (l + 1) q ∧ Anc 1 p q
    · obtain ⟨q, q1, q2⟩ := hleaf'
      exact .inl (.inl (.inl ⟨q, q1, near_wider hw (anc_one_near (by rw [hpar']; exact q2))⟩))
    · rcases hm with (hm | hm) | hm
      · refine .inl (.inr ⟨by omega, hq, ?_, ⟨c, hm, by rw [hpar']; exact hc⟩, by rw [hpar']; exact hleaf'⟩)
        obtain ⟨q, q1, q2⟩ := (coveredBy_pred (l := l + 1) (by omega)).1 hcov
        rcases q1 with q1 | q1
        · exact absurd ⟨q, q1, q2⟩ hleaf'
        · exact ⟨q, q1, by rw [hpar']; exact q2⟩
      · refine .inl (.inr ?_)
        unfold MroSib at hm ⊢
        rwa [hpar', ← hpar]
      · have hlen := hallLen _ _ (.inr hm)
        obtain ⟨l0, q, e1, e2, e3, e4, _⟩ := hm
        refine .inr ⟨l0, q, e1, e2, e3, by rw [hpar', ← hpar]; exact e4, short_parity hn ?_⟩
        have h5 := anc_length hc
        have h6 := anc_length hc'
        omega
  · intro l l0 p c r hm hl0 hc ha hr
    obtain ⟨L, rfl⟩ : ∃ L, l = L + 1 := ⟨l - 1, by omega⟩
    rw [Nat.add_sub_cancel]
    have hl := (hlevels _ _ hm).1
    have hpb : InBox (b.refined (L + 1)) n p := by
      have := desc_in_box ha (hleaf l0 c hc)
      rwa [Box.refined_refined, show l0 + (L + 1 - l0) = L + 1 by omega] at this
    have hnc := coarser_parent g.tiling (by omega) hc ha
    have fin : ∀ q, InBox (b.refined (L + 1)) n q → cells.Mem n (L + 1) q ∨ CoveredBy n cells (L + 1) q → Near w p q →
        MroAll n w cells maxL L r := by
      intro q hqb hq hnq
      obtain ⟨x, f1, f2⟩ := coarse_parent_near g (hdom (L + 1) hl) hdl' hpb hqb hq hnq (by omega) hc ha
      exact .inl (.inl (.inl ⟨x, f1, near_wider (by omega) (near_trans hr f2)⟩))
    rcases hm with ((⟨q, h, h'⟩ | ⟨q, h, h'⟩) | h) | ⟨L', q, e1, e2, e3, e4, _⟩
    · exact fin q (hleaf _ q h) (.inl h) h'
    · exact fin _ (hcovIn _ _ (hparLeaf _ _ h)).2 (.inr (hparLeaf _ _ h)) h'
    · exact absurd (hsibCov L p h) hnc
    · obtain rfl : L' = L := by omega
      have hPb := hpar _ _ hpb
      rcases box_cases g (hdom L' (by omega)) hdl' hPb with h | h | ⟨l1, c1, h1, h2, h3⟩
      · exact .inl (.inl (.inl ⟨_, h, near_wider hw hr⟩))
      · exact absurd h hnc
      · have h5 := g.graded l1 c1 L' q _ h2 e3 (by omega) e4 h3
        obtain rfl : L' = l1 + 1 := by omega
        rw [show l1 + 1 - l1 = 1 by omega] at h3
        refine .inr ⟨l1, c1, rfl, by omega, h2, ?_, short_parity hn ?_⟩
        · rw [anc_iff.1 h3]
          exact near_half hr
        · rw [hr.length_eq]
          exact (inBox_iff.1 hPb).1
  · intro l p v k ho k1 hm v' hv' j j1 j2
    rcases hm with ((⟨q, h, h'⟩ | ⟨q, h, h'⟩) | h) | ⟨L, q, rfl, e2, e3, e4, _⟩
    · exact .inl (.inl (.inl ⟨q, h, line_near ho hv' k1 j1 j2 (hleaf _ q h) h'⟩))
    · exact .inl (.inl (.inr ⟨q, h, line_near ho hv' k1 j1 j2 (hcovIn _ _ (hparLeaf _ _ h)).2 h'⟩))
    · exfalso
      obtain ⟨L, rfl⟩ : ∃ L, l = L + 1 := ⟨l - 1, by have := h.1; omega⟩
      have hin := hchild L _ (hcovIn _ _ (hsibCov L _ h)).2
      obtain ⟨e, he, hne⟩ := ho.2.1.2
      have h3 := (inBox_iff.1 hin).2 e he
      rcases ho.cases (fun d _ => .inl rfl) k k he with ⟨a1, _⟩ | ⟨_, a1, a2, _⟩ | ⟨_, a1, a2, _⟩ <;> omega
    · have hpl := ho.length
      have hwl : ∀ (k : Int) v, (walk n p k v).length = n + 1 := fun k v => by rw [walk_length, hpl]
      have hqb := hleaf L q e3
      obtain ⟨hql, hqd⟩ := inBox_iff.1 hqb
      refine .inr ⟨L, q, rfl, e2, e3, (near_iff_toPt (by rw [List.length_map, hwl]) hql).2 fun d hd' => ?_, short_parity hn (hwl j v')⟩
      have h4 := (near_iff_toPt (by rw [List.length_map, hwl]) hql).1 e4 d hd'
      rw [toPt_half (hwl _ _) hd'] at h4 ⊢
      have h5 := hqd d hd'
      have hhi : (b.refined (L + 1)).hi d = 2 * (b.refined L).hi d := by
        show b.hi d * 2 ^ (L + 1) = 2 * (b.hi d * 2 ^ L); ring
      have hlo : (b.refined (L + 1)).lo d = 2 * (b.refined L).lo d := by
        show b.lo d * 2 ^ (L + 1) = 2 * (b.lo d * 2 ^ L); ring
      rcases ho.cases hv' k j hd' with ⟨_, a2, a3⟩ | ⟨_, a1, a2, a3⟩ | ⟨_, a1, a2, a3⟩ <;> omega
  · intro l p hm
    have hlen := hallLen l p hm
    refine ⟨hlen, ?_⟩
    rcases hm with ((⟨q, h, h'⟩ | ⟨q, h, h'⟩) | h) | ⟨L, q, rfl, e2, e3, e4, _⟩
    · exact ⟨q, hleaf _ q h, near_wider (by omega) h'⟩
    · exact ⟨_, (hcovIn _ _ (hparLeaf _ _ h)).2, near_wider (by omega) h'⟩
    · obtain ⟨L, rfl⟩ : ∃ L, l = L + 1 := ⟨l - 1, by have := h.1; omega⟩
      exact ⟨p, hchild L _ (hcovIn _ _ (hsibCov L _ h)).2, near_refl _ _⟩
    · obtain ⟨hql, hqd⟩ := inBox_iff.1 (hleaf L q e3)
      have hz : InBox (b.refined (L + 1)) n (q.map fun x => 2 * x) := hchild L _ (by rw [double_half]; exact hleaf L q e3)
      refine ⟨_, hz, (near_iff_toPt hlen (inBox_iff.1 hz).1).2 fun d hd' => ?_⟩
      have h4 := (near_iff_toPt (by rw [List.length_map, hlen]) hql).1 e4 d hd'
      have h5 : toPt ((q.map fun x => 2 * x).map fun y => shr y 1) d = toPt q d := by rw [double_half]
      rw [toPt_half (inBox_iff.1 hz).1 hd'] at h5
      rw [toPt_half hlen hd'] at h4
      push_cast
      omega

end

section
variable {K : Type} [Field K] {n : Nat} {cells : CA} {dom : LCA} {minL maxL : Nat} {b : Box}

/-- The sub-meshes read by `update_ghost_mro`, numbered or not: the leaves, the reference mesh, the projection cells. -/
structure MroNumbered (n w : Nat) (cells : CA) (maxL : Nat) (c all proj : CA) : Prop where
  leaves : c.WF n ∧ c.Leveled ∧ c.maxSize = cells.maxSize ∧ ∀ l p, c.Mem n l p ↔ cells.Mem n l p
  reference : all.WF n ∧ all.Leveled ∧ all.maxSize = cells.maxSize ∧ ∀ l p, all.Mem n l p ↔ MroAll n w cells maxL l p
  projection : proj.WF n ∧ proj.Leveled ∧ proj.maxSize = cells.maxSize ∧
    ∀ l p, proj.Mem n l p ↔ (MroBase n w cells l p ∨ MroSib n w cells l p) ∧ cells.minLevel ≤ l + 1 ∧ CoveredBy n cells l p
  numbers : all.NumbersDiffer n

/-- What `update_ghost_mro` reads from a mesh with overleaves without periodic direction. -/
def mroGhostMesh (c all proj : CA) (dom : LCA) (minL maxL : Nat) (h0 : K) (cfg : MeshConfig) : MroGhostMesh K :=
  ⟨⟨c, all, dom, minL, maxL, fun _ => false, h0, cfg⟩, proj⟩

/-- A cell of level at most the one of the domain is over a part of the domain when it is in the box. -/
theorem atLevel_box (hd : BoxDomain n dom 0 b) (hdl : dom.level = maxL) {l : Nat} (hl : l ≤ maxL) {p : List Int} :
    AtLevel dom.level l (fun q => dom.Mem n q) p ↔ InBox (b.refined l) n p := by
  have hdom : BoxDomain n dom l (b.refined l) := by
    have := hd.finer (Nat.zero_le l) (by omega)
    rwa [Nat.sub_zero] at this
  have h0 : AtLevel dom.level l (fun q => dom.Mem n q) p ↔ ∃ q, dom.Mem n q ∧ Anc (maxL - l) p q := by
    rw [hdl]
    unfold AtLevel
    split
    · obtain rfl : l = maxL := by omega
      rw [Nat.sub_self]
      constructor
      · rintro ⟨q, h1, h2⟩
        exact ⟨q, h1, by rw [anc_zero.1 h2]; exact anc_zero.2 rfl⟩
      · rintro ⟨q, h1, h2⟩
        exact ⟨q, h1, by rw [← anc_zero.1 h2]; exact anc_zero.2 rfl⟩
    · exact Iff.rfl
  rw [h0]
  constructor
  · rintro ⟨q, h1, h2⟩
    have h3 := (hdom.mem _).1 h1
    rw [hdl] at h3
    exact box_of_desc h2 h3
  · intro h
    obtain ⟨z, hz⟩ := anc_exists (maxL - l) p
    exact ⟨z, (hdom.mem z).2 (desc_in_box (by rw [hdl]; exact hz) h), hz⟩

theorem mroPredd_iff {cfg : MeshConfig} {w : Nat} (g : GoodLeaves n cells dom minL maxL) (geo : MroGeo n w cells maxL b) (hd : BoxDomain n dom 0 b)
    (hdl : dom.level = maxL) (h0 : K) {c all proj : CA} (r : MroNumbered n w cells maxL c all proj) (l : Nat) (p : List Int) :
    MroPredd n (mroGhostMesh c all proj dom minL maxL h0 cfg) l p ↔
      MroAll n w cells maxL l p ∧ ∃ l0 c, l0 < l ∧ cells.Mem n l0 c ∧ Anc (l - l0) c p := by
  have hdom : ∀ l, l ≤ maxL → BoxDomain n dom l (b.refined l) := fun l h2 => by
    have := hd.finer (Nat.zero_le l) (by omega)
    rwa [Nat.sub_zero] at this
  constructor
  · rintro ⟨⟨h1, h2⟩, h3⟩
    have h1 := (r.reference.2.2.2 l p).1 h1
    have hl := geo.levels l p h1
    have h3 := (atLevel_box hd hdl hl.1).1 h3
    refine ⟨h1, ?_⟩
    rcases box_cases g (hdom l hl.1) (by omega) h3 with h | h | h
    · exact absurd (.inl ((r.leaves.2.2.2 l p).2 h)) h2
    · exact absurd (.inr ((r.projection.2.2.2 l p).2 ⟨geo.covered l p h1 h, hl.2, h⟩)) h2
    · exact h
  · rintro ⟨h1, l0, x, e1, e2, e3⟩
    have hl := geo.levels l p h1
    obtain ⟨h2, h3⟩ := coarser_not_covered g.tiling e1 e2 e3
    refine ⟨⟨(r.reference.2.2.2 l p).2 h1, ?_⟩, (atLevel_box hd hdl hl.1).2 ?_⟩
    · rintro (h | h)
      · exact h3 ((r.leaves.2.2.2 l p).1 h)
      · exact h2 ((r.projection.2.2.2 l p).1 h).2.2
    · have hx := leaf_inBox g (hdom l0 (by omega)) (by omega) e2 le_rfl (by rw [Nat.sub_self]; exact anc_zero.2 rfl)
      have := desc_in_box e3 hx
      rwa [Box.refined_refined, show l0 + (l - l0) = l by omega] at this

/-- Every mesh with overleaves whose leaves are graded and tile a box meets `MroReady`. -/
theorem mroReady_ok {cfg : MeshConfig} (hs : cfg.predictionOrder = 1) (g : GoodLeaves n cells dom minL maxL)
    (geo : MroGeo n cfg.ghostWidth cells maxL b) (hd : BoxDomain n dom 0 b) (hdl : dom.level = maxL)
    {B : Int} (hB0 : 0 ≤ B) (hB : B + (cfg.ghostWidth + 12) * 2 ^ maxL + 2 < INT_MAX)
    (hhi : ∀ d ≤ n, b.hi d * 2 ^ maxL ≤ B) (h0 : K) {c all proj : CA} (r : MroNumbered n cfg.ghostWidth cells maxL c all proj) :
    MroReady n (mroGhostMesh c all proj dom minL maxL h0 cfg) (fun l => b.refined l) cfg.ghostWidth := by
  obtain ⟨ca, cb, cc, cd⟩ := r.leaves
  obtain ⟨aa, ab, ac, ad⟩ := r.reference
  obtain ⟨pa, pb, pc, pd⟩ := r.projection
  have hdom : ∀ l, l ≤ maxL → BoxDomain n dom l (b.refined l) := fun l h2 => by
    have := hd.finer (Nat.zero_le l) (by omega)
    rwa [Nat.sub_zero] at this
  have hdl' : dom.level ≤ maxL := by omega
  have hleaf : ∀ l p, cells.Mem n l p → InBox (b.refined l) n p := fun l p hp =>
    leaf_inBox g (hdom l (g.between l p hp).2) hdl' hp le_rfl (by rw [Nat.sub_self]; exact anc_zero.2 rfl)
  have hnear : ∀ l p q, cells.Mem n l q → Near cfg.ghostWidth p q → all.Mem n l p := fun l p q hq hn =>
    (ad l p).2 (.inl (.inl (.inl ⟨q, hq, hn⟩)))
  have hcells_all : ∀ l p, cells.Mem n l p → all.Mem n l p := fun l p hp => hnear l p p hp (near_refl _ _)
  have hproj_all : ∀ l p, proj.Mem n l p → all.Mem n l p := fun l p hp => (ad l p).2 (.inl ((pd l p).1 hp).1)
  obtain ⟨l1, q1, hq1⟩ : ∃ l q, cells.Mem n l q := by
    have : InBox b n (ptOf n b.lo) := inBox_iff.2 ⟨ptOf_length _ _, fun d hd' => by
      rw [toPt_ptOf _ hd']
      exact ⟨le_rfl, hd.pos d hd'⟩⟩
    obtain ⟨x, hx⟩ := anc_exists (maxL - 0) (ptOf n b.lo)
    obtain ⟨l, q, _, h, _⟩ := g.tiling.tiled hd hdl' this hx
    exact ⟨l, q, h⟩
  have hlv := CA.mem_levels aa (hcells_all _ _ hq1)
  have hq1b := g.between l1 q1 hq1
  have hsize := g.size
  have hgw : (0 : Int) ≤ cfg.ghostWidth := by omega
  have hpow := pow_two_pos maxL
  have hD0 : 0 ≤ B + ((cfg.ghostWidth : Int) + 4) * 2 ^ maxL := by
    have : (0 : Int) ≤ ((cfg.ghostWidth : Int) + 4) * 2 ^ maxL := Int.mul_nonneg (by omega) (le_of_lt hpow)
    omega
  have hB' : B + ((cfg.ghostWidth : Int) + 4) * 2 ^ maxL + 8 * 2 ^ maxL + 2 < INT_MAX := by
    have : B + ((cfg.ghostWidth : Int) + 12) * 2 ^ maxL + 2 = B + (cfg.ghostWidth + 4) * 2 ^ maxL + 8 * 2 ^ maxL + 2 := by ring
    omega
  have hbelow : ∀ l p, all.Mem n l p → ∀ x ∈ p, x * 2 ^ (maxL - l) < B + (cfg.ghostWidth + 4) * 2 ^ maxL := by
    intro l p hp x hx
    have hp := (ad l p).1 hp
    have hl := (geo.levels l p hp).1
    obtain ⟨hpl, z, h1, h2⟩ := geo.close l p hp
    have hx' : ∃ d ≤ n, x ≤ (b.refined l).hi d + cfg.ghostWidth + 2 := by
      obtain ⟨e1, e2⟩ := inBox_iff.1 h1
      obtain ⟨d, hd', rfl⟩ := mem_toPt hpl hx
      have h3 := (near_iff_toPt hpl e1).1 h2 d hd'
      have := e2 d hd'
      push_cast at h3
      exact ⟨d, hd', by omega⟩
    obtain ⟨d, hd', hx'⟩ := hx'
    have h3 := pow_two_pos (maxL - l)
    have h4 : (2 : Int) ^ (maxL - l) ≤ 2 ^ maxL := pow_le_pow_right₀ (by norm_num) (by omega)
    have h5 : x * 2 ^ (maxL - l) ≤ ((b.refined l).hi d + (cfg.ghostWidth + 2)) * 2 ^ (maxL - l) :=
      Int.mul_le_mul_of_nonneg_right (by omega) (le_of_lt h3)
    have h6 : (b.refined l).hi d * 2 ^ (maxL - l) = b.hi d * 2 ^ maxL := by
      show b.hi d * 2 ^ l * 2 ^ (maxL - l) = _
      rw [mul_assoc, ← pow_add, show l + (maxL - l) = maxL by omega]
    have h7 : ((cfg.ghostWidth : Int) + 2) * 2 ^ (maxL - l) ≤ (cfg.ghostWidth + 2) * 2 ^ maxL := Int.mul_le_mul_of_nonneg_left h4 (by omega)
    have h8 := hhi d hd'
    rw [add_mul, h6] at h5
    have h9 : ((cfg.ghostWidth : Int) + 4) * 2 ^ maxL = (cfg.ghostWidth + 2) * 2 ^ maxL + 2 * 2 ^ maxL := by ring
    omega
  have hdomBelow : dom.BelowAt n maxL (B + (cfg.ghostWidth + 4) * 2 ^ maxL) := by
    intro p hp x hx
    rw [hd.mem] at hp
    obtain ⟨d, hd', _, h⟩ := inBox_coord hp x hx
    have h8 := hhi d hd'
    simp only [Box.refined, Nat.sub_zero] at h
    rw [hdl] at h
    rw [hdl, Nat.sub_self, pow_zero]
    have h9 : (0 : Int) ≤ ((cfg.ghostWidth : Int) + 4) * 2 ^ maxL := Int.mul_nonneg (by omega) (le_of_lt hpow)
    omega
  have hpred := mroPredd_iff (K := K) (cfg := cfg) g geo hd hdl h0 r
  refine
    { refWF := aa
      projWF := pa
      cellsWF := ca
      domWF := hd.wf
      refLeveled := ab
      projLeveled := pb
      cellsLeveled := cb
      sizes := ⟨pc.trans ac.symm, cc.trans ac.symm, hdl'⟩
      numbers := r.numbers
      low := ⟨hlv.1.trans hq1b.2, by show maxL ≤ all.maxSize; omega⟩
      high := fun l p hp => (geo.levels l p ((ad l p).1 hp)).1
      range := ⟨B + (cfg.ghostWidth + 4) * 2 ^ maxL, hD0, by show _ + 2 * 2 ^ maxL + 2 < _; omega, hdomBelow, fun l hl => ?_⟩
      cellsRef := fun l p hp => hcells_all l p ((cd l p).1 hp)
      projRef := hproj_all
      projChild := ?_
      projIn := fun l p hp => (geo.coveredIn l p ((pd l p).1 hp).2.2).2
      predIn := fun l p hp => ?_
      predNear := fun l p q hp hq => ?_
      bc := fun level h2 => ?_ }
  · have hl : l ≤ maxL := hl
    have hls : l ≤ all.maxSize := by omega
    refine ⟨fun p hp x hx => ?_, fun p hp x hx => ?_, fun p hp x hx => ?_⟩
    · show x * 2 ^ (maxL - (all.lca l).level) < _
      rw [ab l hls]
      exact hbelow l p ⟨hls, hp⟩ x hx
    · show x * 2 ^ (maxL - (proj.lca l).level) < _
      have hls' : l ≤ proj.maxSize := by omega
      rw [pb l hls']
      exact hbelow l p (hproj_all l p ⟨hls', hp⟩) x hx
    · show x * 2 ^ (maxL - (c.lca l).level) < _
      have hls' : l ≤ c.maxSize := by omega
      rw [cb l hls']
      exact hbelow l p (hcells_all l p ((cd l p).1 ⟨hls', hp⟩)) x hx
  · rintro l p q ⟨hp, q', h1, h2⟩ hq
    obtain ⟨p1, p2, p3⟩ := (pd l p).1 hp
    have hqa := geo.children l p q' q p3 p1 h1 hq ((ad _ _).1 h2)
    refine ⟨(ad _ _).2 hqa, ?_⟩
    have hl := (geo.levels _ _ hqa).1
    have hin : InBox (b.refined (l + 1)) n q := by
      have := desc_in_box (anc_iff.2 hq.symm : Anc 1 p q) (geo.coveredIn l p p3).2
      rwa [Box.refined_refined] at this
    rcases child_cases g.tiling (hdom (l + 1) hl) hdl' (by omega) hin (by rw [hq]; exact p3) with h | h
    · exact .inl ((cd _ _).2 h)
    · exact .inr ((pd _ _).2 ⟨geo.covered _ _ hqa h, by omega, h⟩)
  · obtain ⟨h1, l0, x, e1, e2, e3⟩ := (hpred l p).1 hp
    refine ⟨by omega, ?_⟩
    have := desc_in_box e3 (hleaf l0 x e2)
    rwa [Box.refined_refined, show l0 + (l - l0) = l by omega] at this
  · obtain ⟨h1, l0, x, e1, e2, e3⟩ := (hpred l p).1 hp
    have hq : Near cfg.predictionOrder q (p.map fun y => shr y 1) := hq
    rw [hs] at hq
    exact (ad _ _).2 (geo.near l l0 p x q h1 e1 e2 e3 hq)
  · have h2 : level ≤ maxL := h2
    have ls1 : level ≤ c.maxSize := by omega
    have ls2 : level ≤ all.maxSize := by omega
    refine ⟨ca, aa, ⟨ls1, cb level ls1⟩, ⟨ls2, ab level ls2⟩, r.numbers, hdom level h2, fun p hp => hleaf level p ((cd _ _).1 hp),
      fun p q hq hn => hnear _ p q ((cd _ _).1 hq) hn, ?_, B + (cfg.ghostWidth + 4) * 2 ^ maxL, hD0, ?_, ?_, ?_, ?_⟩
    · intro p v k ho k1 _ hmem v' hv' j j1 j2
      exact (ad _ _).2 (geo.lines level p v k ho k1 ((ad _ _).1 hmem) v' hv' j j1 j2)
    · show _ + 8 * 2 ^ dom.level + 2 < _
      rw [hdl]; exact hB'
    · show dom.BelowAt n dom.level _
      rw [hdl]; exact hdomBelow
    · show (c.lca level).BelowAt n dom.level _
      intro p hp x hx
      rw [cb level ls1, hdl]
      exact hbelow level p (hcells_all _ _ ((cd _ _).1 ⟨ls1, hp⟩)) x hx
    · show (all.lca level).BelowAt n dom.level _
      intro p hp x hx
      rw [ab level ls2, hdl]
      exact hbelow level p ⟨ls2, hp⟩ x hx

end

end Samurai

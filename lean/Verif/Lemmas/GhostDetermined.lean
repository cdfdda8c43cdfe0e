import Verif.Spec.GhostUpdate
import Verif.Lemmas.GhostAdapted
import Verif.Lemmas.BcFinal
import Mathlib.Algebra.Polynomial.Degree.Lemmas
import Mathlib.Tactic.Ring

namespace Samurai

theorem last_split {α : Type} {P : α → Prop} : ∀ {L : List α}, (∃ x ∈ L, P x) → ∃ l1 x l2, L = l1 ++ x :: l2 ∧ P x ∧ ∀ y ∈ l2, ¬ P y := by
  intro L
  induction L with
  | nil => rintro ⟨x, h, _⟩; exact absurd h (by simp)
  | cons a L ih =>
    intro h
    by_cases hL : ∃ x ∈ L, P x
    · obtain ⟨l1, x, l2, rfl, h1, h2⟩ := ih hL
      exact ⟨a :: l1, x, l2, rfl, h1, h2⟩
    · obtain ⟨x, hx, hp⟩ := h
      rcases List.mem_cons.1 hx with rfl | hx
      · exact ⟨[], x, L, rfl, hp, fun y hy hy' => hL ⟨y, hy, hy'⟩⟩
      · exact absurd ⟨x, hx, hp⟩ hL

/-- A cell of a boundary has a descendant on this boundary. -/
theorem Outward.fine {n : Nat} {b : Box} {p : List Int} {v : Nat → Int} (h : Outward n b p v) (k : Nat) :
    ∃ q, Anc k p q ∧ Outward n (b.refined k) q v := by
  obtain ⟨hl, hb⟩ := inBox_iff.1 h.1
  have hk := pow_two_pos k
  let f : Nat → Int := fun d => if v d = 1 then toPt p d * 2 ^ k + (2 ^ k - 1) else toPt p d * 2 ^ k
  have hf : ∀ d ≤ n, toPt (ptOf n f) d = f d := fun d hd => toPt_ptOf f hd
  have hbd : ∀ d ≤ n, toPt p d * 2 ^ k ≤ f d ∧ f d < toPt p d * 2 ^ k + 2 ^ k := by
    intro d _
    simp only [f]
    split <;> omega
  have ha : Anc k p (ptOf n f) := by
    refine (anc_iff_toPt hl).2 ⟨ptOf_length n f, fun d hd => ?_⟩
    rw [hf d (by omega)]
    have := hbd d (by omega)
    unfold IsAncestor
    rw [add_mul, one_mul]
    exact this
  refine ⟨ptOf n f, ha, desc_in_box ha h.1, h.2.1, fun d hd hne => ?_⟩
  rw [hf d hd]
  have h1 := hb d hd
  have h2 := h.2.2 d hd hne
  have h3 : b.lo d * 2 ^ k ≤ toPt p d * 2 ^ k := Int.mul_le_mul_of_nonneg_right h1.1 (le_of_lt hk)
  have h4 : (toPt p d + 1) * 2 ^ k ≤ b.hi d * 2 ^ k := Int.mul_le_mul_of_nonneg_right (by omega) (le_of_lt hk)
  have h5 := hbd d hd
  rw [add_mul, one_mul] at h4
  simp only [Box.refined]
  rcases h.2.1.1 d hd with hv | hv | hv
  · have : toPt p d = b.lo d := by omega
    have e : f d = toPt p d * 2 ^ k := by simp [f, hv]
    rw [e, this, hv]; omega
  · exact absurd hv hne
  · have : toPt p d + 1 = b.hi d := by omega
    have e : f d = toPt p d * 2 ^ k + (2 ^ k - 1) := by simp [f, hv]
    have e2 : b.hi d * 2 ^ k = toPt p d * 2 ^ k + 2 ^ k := by rw [← this]; ring
    rw [e, e2, hv]; omega

/-- A cell next to the box is one step from a cell of the box. -/
theorem layer_outward {n : Nat} {b : Box} {p q : List Int} (hp : InBox b n p) (hn : Near 1 q p) (hq : ¬ InBox b n q) :
    ∃ p' v, Outward n b p' v ∧ q = walk n p' 1 v := by
  obtain ⟨hl, hb⟩ := inBox_iff.1 hp
  have hql : q.length = n + 1 := by rw [List.Forall₂.length_eq hn, hl]
  have hnn := (near_iff_toPt hql hl).1 hn
  let f : Nat → Int := fun d => if toPt q d < b.lo d then b.lo d else if b.hi d ≤ toPt q d then b.hi d - 1 else toPt q d
  have hf : ∀ d ≤ n, toPt (ptOf n f) d = f d := fun d hd => toPt_ptOf f hd
  let v : Nat → Int := fun d => toPt q d - f d
  have hv : ∀ d ≤ n, b.lo d ≤ f d ∧ f d < b.hi d ∧ (v d = -1 ∧ f d = b.lo d ∨ v d = 0 ∧ toPt q d = f d ∨ v d = 1 ∧ f d = b.hi d - 1) := by
    intro d hd
    have h1 := hb d hd
    have h2 := hnn d (by omega)
    simp only [v, f]
    push_cast at h2
    split
    · omega
    · split <;> omega
  have hin : InBox b n (ptOf n f) := inBox_iff.2 ⟨ptOf_length n f, fun d hd => by rw [hf d hd]; have := hv d hd; omega⟩
  have hqw : q = walk n (ptOf n f) 1 v := by
    refine toPt_ext hql (by rw [walk_length, ptOf_length]) fun d hd => ?_
    rw [toPt_walk (ptOf_length n f) 1 v (by omega), hf d (by omega)]
    simp only [v]; omega
  refine ⟨ptOf n f, v, ⟨hin, ⟨fun d hd => ?_, ?_⟩, fun d hd hne => ?_⟩, hqw⟩
  · have := hv d hd; omega
  · by_contra hc
    push Not at hc
    apply hq
    refine inBox_iff.2 ⟨hql, fun d hd => ?_⟩
    have h1 := hc d hd
    have h2 := hv d hd
    omega
  · rw [hf d hd]
    have := hv d hd
    omega

section
variable {K : Type} [Field K] [CharZero K] {n : Nat} {M : GhostMesh K} {b : Nat → Box} {w : Nat}

/-- The value of a ghost one step along an axis is determined by the cells inside. -/
theorem axis_determined_ready {l : Nat} {B : Box} (hr : BcReady n M.toBcMesh l B w) (hne : M.minL ≠ M.maxL) {bcs : List (BcCond K)}
    (hbc : ∀ c ∈ bcs, GoodBc n M.dom w c) (hk1 : ∀ c ∈ bcs, c.kind.ghosts = 1)
    (hper : ∀ d, M.periodic d = false) (hcov : CoversBoundary n M.dom bcs)
    {val val' : Nat → List Int → K} (h : BoundaryHolds n M.toBcMesh bcs l B val) (h' : BoundaryHolds n M.toBcMesh bcs l B val')
    (heq : ∀ p, InBox B n p → M.ref.Mem n l p → val l p = val' l p) {p : List Int} {v : Nat → Int} (ho : Outward n B p v) (hax : OneAxis n v)
    (hm : M.ref.Mem n l (walk n p 1 v)) : val l (walk n p 1 v) = val' l (walk n p 1 v) := by
  have hex : ∃ x ∈ bcEntries bcs, ImposesGhost n M.toBcMesh l x (walk n p 1 v) := by
    obtain ⟨q, q1, q2⟩ := ho.fine (M.dom.level - l)
    have hq : M.dom.Mem n q := (hr.dom.mem q).2 q2.1
    have hq' : ¬ M.dom.Mem n (shiftPoint v n q) := fun h => outward_shift q2 ((hr.dom.mem _).1 h)
    obtain ⟨c, hc, d, hd, e1, e2⟩ := hcov q v hq ho.2.1 hax hq'
    refine ⟨(c, d), mem_bcEntries.2 ⟨hc, hd⟩, p, 1, ⟨?_, ?_, fun _ _ _ => hper _, ⟨q, e2, ?_⟩, .inr ⟨hne, ?_⟩, le_rfl, by rw [hk1 c hc]⟩, ?_⟩
    · obtain ⟨a1, k, a2, a3⟩ := ho.2.1
      exact ⟨fun j hj => by rw [e1 j hj]; exact a1 j hj, k, a2, by rw [e1 k a2]; exact a3⟩
    · obtain ⟨k, a1, a2, a3⟩ := hax
      exact ⟨k, a1, by rw [e1 k a1]; exact a2, fun j hj hjk => by rw [e1 j hj]; exact a3 j hj hjk⟩
    · have hu : UnitVector n d.1 := by
        obtain ⟨a1, k, a2, a3⟩ := ho.2.1
        exact ⟨fun j hj => by rw [e1 j hj]; exact a1 j hj, k, a2, by rw [e1 k a2]; exact a3⟩
      have ha : OneAxis n d.1 := by
        obtain ⟨k, a1, a2, a3⟩ := hax
        exact ⟨k, a1, by rw [e1 k a1]; exact a2, fun j hj hjk => by rw [e1 j hj]; exact a3 j hj hjk⟩
      rw [((hbc c hc).region d hd hu ha).level]
      exact q1
    · rw [hk1 c hc]
      show M.ref.Mem n l (walk n p 1 d.1)
      rw [walk_congr e1]
      exact hm
    · show walk n p 1 v = walk n p 1 d.1
      rw [walk_congr e1]
  obtain ⟨l1, ⟨c, d⟩, l2, e1, ⟨p', i, e2, e3⟩, e4⟩ := last_split hex
  have hx := mem_bcEntries.1 (show (c, d) ∈ bcEntries bcs by rw [e1]; simp)
  have hgood := hbc c hx.1
  obtain ⟨ho', hline⟩ := imposes_line hr hgood hx.2 e2
  have hk := hk1 c hx.1
  rw [hk] at hline
  have hp' : M.ref.Mem n l p' := by
    have := hline 0 (by omega) (by omega)
    rwa [walk_zero] at this
  have hi : i = 1 := by
    have a := e2.2.2.2.2.2
    rw [show (c, d).1.kind.ghosts = 1 from hk] at a
    omega
  subst hi
  have e3 : walk n p 1 v = walk n p' 1 d.1 := e3
  have hwide : WideFor n B c.kind.ghosts d.1 := fun j hj _ => by
    rw [hk]
    have := hr.dom.pos j hj
    push_cast; omega
  have hcell := mcell_is hr.refWF hp'
  have s := h.imposed l1 c d l2 e1 p' 1 _ e2 hcell hwide fun y hy hy' => e4 y hy (by rw [e3]; exact hy')
  have s' := h'.imposed l1 c d l2 e1 p' 1 _ e2 hcell hwide fun y hy hy' => e4 y hy (by rw [e3]; exact hy')
  rw [e3]
  have h0 := heq p' ho'.1 hp'
  have hkd := hgood.known
  obtain ⟨kd, cv, cr⟩ := c
  match kd with
  | .dirichlet order =>
    have ho1 : order = 1 := by simpa [BcKind.ghosts, BcKind.stencilSize] using hk
    subst ho1
    have line : ∀ (f : Int → K) (x : K), (BcKind.dirichlet 1).Satisfied M.h0 l f 1 x → f 1 = 2 * x - f 0 := by
      rintro f x ⟨P, a1, a2, a3, a4⟩
      obtain ⟨s, t, rfl⟩ := Polynomial.exists_eq_X_add_C_of_natDegree_le_one a1
      have a0 := a2 0 (by omega)
      simp only [Nat.cast_zero, Nat.cast_one, neg_zero, Polynomial.eval_add, Polynomial.eval_mul, Polynomial.eval_C, Polynomial.eval_X, mul_zero, zero_add, mul_one] at a0 a3 a4
      rw [a4, a0, ← a3]
      ring
    have a := line _ _ s
    have a' := line _ _ s'
    simp only [walk_zero] at a a'
    rw [a, a', h0]
  | .neumann =>
    obtain ⟨_, a⟩ := s
    obtain ⟨_, a'⟩ := s'
    simp only [walk_zero] at a a'
    rw [h0] at a
    exact sub_left_inj.1 (a.trans a'.symm)

theorem axis_determined (g : GhostReady n M b 1) (hne : M.minL ≠ M.maxL) {bcs : List (BcCond K)} (hbc : ∀ c ∈ bcs, GoodBc n M.dom 1 c)
    (hper : ∀ d, M.periodic d = false) (hcov : CoversBoundary n M.dom bcs) {l : Nat} (h1 : M.ref.minLevel - 1 ≤ l) (h2 : l ≤ M.ref.maxLevel)
    {val val' : Nat → List Int → K} (h : BoundaryHolds n M.toBcMesh bcs l (b l) val) (h' : BoundaryHolds n M.toBcMesh bcs l (b l) val')
    (heq : ∀ p, InBox (b l) n p → M.ref.Mem n l p → val l p = val' l p) {p : List Int} {v : Nat → Int} (ho : Outward n (b l) p v) (hax : OneAxis n v)
    (hm : M.ref.Mem n l (walk n p 1 v)) : val l (walk n p 1 v) = val' l (walk n p 1 v) :=
  axis_determined_ready (g.bc l h1 h2) hne hbc (fun c hc => by
    have a := (hbc c hc).width
    have := (hbc c hc).known.ghosts_pos
    omega) hper hcov h h' heq ho hax hm

end

end Samurai

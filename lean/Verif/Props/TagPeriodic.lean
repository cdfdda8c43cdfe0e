/-
C123: the tags of a periodic mesh.
-/
import Verif.Lemmas.TagPeriodic
import Verif.Props.Periodic

namespace Samurai

section
variable {n : Nat} {cfg : MeshConfig} {cells : CA} {dom : LCA} {minL maxL base : Nat} {b : Box} {P : Nat → Bool}

/-- C123. On every multiresolution mesh with the periodic directions `P` built on a box, whatever the leaves in the box, on every level where the domain has at least `ghost_width` cells in the periodic directions,
`update_tag_periodic` succeeds on every field of tags:
- no flag of any cell is lost;
- each cell of the mesh around the domain and the cell inside that periodicity identifies with it have afterwards the flags that the other one had before;
- a flag that a cell gains was before the flag of a cell of the mesh around the domain that periodicity identifies with it. -/
theorem C123_flags (h : LeavesInBox n cells minL maxL base b (cfg.maxStencilWidth + cfg.predictionOrder + 1))
    (hdom : BoxDomain n dom base b) (hdl : maxL ≤ dom.level) (hgw : 1 ≤ cfg.ghostWidth)
    (hflat : minL = maxL → ∀ p, InBox (b.refined (minL - base)) n p → cells.Mem n minL p) :
    ∃ m u, mrMeshPeriodic n cfg dom P cells minL maxL = some (m, u) ∧ ∀ l, base ≤ l → l ≤ maxL →
      (∀ d ≤ n, P d = true → (cfg.ghostWidth : Int) ≤ (b.refined (l - base)).hi d - (b.refined (l - base)).lo d) → ∀ t : TagField,
      ∃ t', updateTagPeriodic n cfg.ghostWidth m.all dom P l t = some t' ∧
        (∀ l' p i, (t l' p).getLsbD i = true → (t' l' p).getLsbD i = true) ∧
        (∀ p, m.all.Mem n l p → AroundBox n cfg.ghostWidth (b.refined (l - base)) p → ∃ q, PeriodicImage n P (b.refined (l - base)) p q ∧ m.all.Mem n l q ∧
          ∀ i, ((t l p).getLsbD i = true → (t' l q).getLsbD i = true) ∧ ((t l q).getLsbD i = true → (t' l p).getLsbD i = true)) ∧
        ∀ l' p i, (t' l' p).getLsbD i = true → (t l' p).getLsbD i = false → l' = l ∧ m.all.Mem n l p ∧ AroundBox n cfg.ghostWidth (b.refined (l - base)) p ∧
          ∃ q, m.all.Mem n l q ∧ AroundBox n cfg.ghostWidth (b.refined (l - base)) q ∧ SameClass n P (b.refined (l - base)) p q ∧ (t l q).getLsbD i = true := by
  obtain ⟨m, u, h1, h2⟩ := mrMeshPeriodic_spec (P := P) h hdom hdl hgw
  refine ⟨m, u, h1, fun l hl1 hl2 hw t => ?_⟩
  obtain ⟨t', f1, f2, f3⟩ := updateTagPeriodic_spec (hdom.finer hl1 (by omega)) (h2.ready h hdom.pos hgw hflat hl1 hl2 hw) t
  refine ⟨t', f1, f2.up, f3, fun l' p i hp hn => ?_⟩
  rcases f2.from' l' p i hp with h | ⟨rfl, q, ⟨q1, q2, q3⟩, q4⟩
  · rw [hn] at h; exact absurd h (by decide)
  · exact ⟨rfl, q1.1, q1.2, q, q2.1, q2.2, q3, q4⟩

/-- With one periodic direction `d`, on every level where the domain has at least twice `ghost_width` cells in this direction, a cell of the mesh around the domain and the cell inside that periodicity identifies with it
have afterwards the same tag, the flags of both; the tag of a cell that periodicity identifies with no other cell of the mesh around the domain does not change. -/
theorem C123_equal {d : Nat} (hd : d ≤ n) (h : LeavesInBox n cells minL maxL base b (cfg.maxStencilWidth + cfg.predictionOrder + 1))
    (hdom : BoxDomain n dom base b) (hdl : maxL ≤ dom.level) (hgw : 1 ≤ cfg.ghostWidth)
    (hflat : minL = maxL → ∀ p, InBox (b.refined (minL - base)) n p → cells.Mem n minL p) :
    ∃ m u, mrMeshPeriodic n cfg dom (fun k => decide (k = d)) cells minL maxL = some (m, u) ∧ ∀ l, base ≤ l → l ≤ maxL →
      2 * (cfg.ghostWidth : Int) ≤ (b.refined (l - base)).hi d - (b.refined (l - base)).lo d → ∀ t : TagField,
      ∃ t', updateTagPeriodic n cfg.ghostWidth m.all dom (fun k => decide (k = d)) l t = some t' ∧
        (∀ p, m.all.Mem n l p → AroundBox n cfg.ghostWidth (b.refined (l - base)) p → ∃ q, PeriodicImage n (fun k => decide (k = d)) (b.refined (l - base)) p q ∧ m.all.Mem n l q ∧
          t' l q = t' l p ∧ (q ≠ p → t' l p = t l p ||| t l q)) ∧
        ∀ l' p, (l' = l → ∀ q, m.all.Mem n l q → AroundBox n cfg.ghostWidth (b.refined (l - base)) q → SameClass n (fun k => decide (k = d)) (b.refined (l - base)) p q → q = p) →
          t' l' p = t l' p := by
  obtain ⟨m, u, h1, h2⟩ := C123_flags (P := fun k => decide (k = d)) h hdom hdl hgw hflat
  refine ⟨m, u, h1, fun l hl1 hl2 hw t => ?_⟩
  obtain ⟨t', f1, f2, f3, f4⟩ := h2 l hl1 hl2 (fun k _ hk => by
    have : k = d := by simpa using hk
    subst this; omega) t
  refine ⟨t', f1, fun p hp ha => ?_, fun l' p hq => ?_⟩
  · obtain ⟨q, q1, q2, q3⟩ := f3 p hp ha
    refine ⟨q, q1, q2, ?_⟩
    by_cases hqp : q = p
    · exact ⟨by rw [hqp], fun h => absurd hqp h⟩
    have hcl := fun x hx hs => class_two hd hw ha q1 hqp (x := x) hx hs
    have hpq : SameClass n (fun k => decide (k = d)) (b.refined (l - base)) p q := ⟨ha.1, q1.1, fun k hk => by
      have := q1.2 k hk
      split
      · rename_i e; rw [if_pos e] at this; exact this.2
      · rename_i e; rw [if_neg e] at this; exact this.symm⟩
    have hqp' : ∀ x, SameClass n (fun k => decide (k = d)) (b.refined (l - base)) q x → SameClass n (fun k => decide (k = d)) (b.refined (l - base)) p x := by
      rintro x ⟨_, e2, e3⟩
      refine ⟨ha.1, e2, fun k hk => ?_⟩
      have e4 := e3 k hk
      have e5 := hpq.2.2 k hk
      split
      · rename_i e; rw [if_pos e] at e4 e5
        have := dvd_add e5 e4
        rwa [sub_add_sub_cancel] at this
      · rename_i e; rw [if_neg e] at e4 e5
        exact e5.trans e4
    have vp : t' l p = t l p ||| t l q := by
      refine BitVec.eq_of_getLsbD_eq fun i _ => ?_
      rw [BitVec.getLsbD_or, Bool.eq_iff_iff, Bool.or_eq_true]
      constructor
      · intro hb
        by_contra hcon
        rw [not_or, Bool.not_eq_true, Bool.not_eq_true] at hcon
        obtain ⟨-, -, -, x, -, x2, x3, x4⟩ := f4 l p i hb hcon.1
        rcases hcl x x2 x3 with rfl | rfl
        · rw [hcon.1] at x4; exact absurd x4 (by decide)
        · rw [hcon.2] at x4; exact absurd x4 (by decide)
      · rintro (hb | hb)
        · exact f2 _ _ _ hb
        · exact (q3 i).2 hb
    have vq : t' l q = t l p ||| t l q := by
      refine BitVec.eq_of_getLsbD_eq fun i _ => ?_
      rw [BitVec.getLsbD_or, Bool.eq_iff_iff, Bool.or_eq_true]
      constructor
      · intro hb
        by_contra hcon
        rw [not_or, Bool.not_eq_true, Bool.not_eq_true] at hcon
        obtain ⟨-, -, -, x, -, x2, x3, x4⟩ := f4 l q i hb hcon.2
        rcases hcl x x2 (hqp' x x3) with rfl | rfl
        · rw [hcon.1] at x4; exact absurd x4 (by decide)
        · rw [hcon.2] at x4; exact absurd x4 (by decide)
      · rintro (hb | hb)
        · exact (q3 i).1 hb
        · exact f2 _ _ _ hb
    exact ⟨by rw [vp, vq], fun _ => vp⟩
  · refine BitVec.eq_of_getLsbD_eq fun i _ => ?_
    rw [Bool.eq_iff_iff]
    refine ⟨fun hb => ?_, f2 _ _ _⟩
    by_contra hcon
    rw [Bool.not_eq_true] at hcon
    obtain ⟨e, -, -, x, x1, x2, x3, x4⟩ := f4 l' p i hb hcon
    subst e
    rw [hq rfl x x1 x2 x3, hcon] at x4
    exact absurd x4 (by decide)

/-- Without periodic direction the tags do not change. -/
theorem C123_none (hdom : BoxDomain n dom base b) (gw : Nat) (ref : CA) (l : Nat) (t : TagField) : updateTagPeriodic n gw ref dom (fun _ => false) l t = some t := by
  obtain ⟨I, hI, _⟩ := level_box hdom
  have hdirs : (List.range (n + 1)).filter (fun _ => false) = [] := by simp
  unfold updateTagPeriodic
  rw [hI]
  simp only [hdirs]
  rw [if_neg (by simp)]
  rfl

end

/-- The hypotheses are met by the adapted square of C51, periodic in both directions; the corner ghost and the cell of the opposite corner exchange their flags. -/
example : ∃ m u, mrMeshPeriodic 1 ⟨1, 1⟩ squareDomain (fun _ => true) cornerMesh 1 2 = some (m, u) ∧ ∀ t : TagField, ∃ t', updateTagPeriodic 1 1 m.all squareDomain (fun _ => true) 1 t = some t' ∧
    ∀ i, ((t 1 [-1, -1]).getLsbD i = true → (t' 1 [1, 1]).getLsbD i = true) ∧ ((t 1 [1, 1]).getLsbD i = true → (t' 1 [-1, -1]).getLsbD i = true) := by
  obtain ⟨m, u, h1, h2⟩ := C123_flags (cfg := ⟨1, 1⟩) (P := fun _ => true) cornerMesh_inBox cornerDomain_box (by decide) (by decide)
    (fun h => absurd h (by decide))
  obtain ⟨m', u', g1, -, g2, -⟩ := C51_mesh (cfg := ⟨1, 1⟩) (P := fun _ => true) cornerMesh_inBox cornerDomain_box (by decide) (by decide)
    (fun h => absurd h (by decide))
  rw [h1] at g1
  obtain ⟨rfl, rfl⟩ : m = m' ∧ u = u' := by simpa using g1
  refine ⟨m, u, h1, fun t => ?_⟩
  obtain ⟨t', f1, -, f2, -⟩ := h2 1 (by omega) (by omega) (fun d _ _ => by simp [Box.refined]; decide) t
  refine ⟨t', f1, ?_⟩
  have hmem : m.all.Mem 1 1 [-1, -1] := g2 1 _ [0, 0] ((cornerMesh_mem 1 _).2 (.inl ⟨rfl, 0, 0, by simp⟩)) (by simp [Near])
  obtain ⟨q, q1, -, q3⟩ := f2 _ hmem ⟨rfl, fun d hd => by
    interval_cases d <;> simp [toPt, Box.refined] <;> decide⟩
  suffices q = [1, 1] by rw [this] at q3; exact q3
  obtain ⟨e1, e2⟩ := q1
  match q, e1 with
  | [y, x], _ =>
    have a0 := e2 0 (by omega)
    have a1 := e2 1 (by omega)
    simp [toPt, Box.refined] at a0 a1
    have : x = 1 := by omega
    have : y = 1 := by omega
    simp [*]

/-- The hypotheses of C123_equal are met by the same mesh, periodic in the first direction: the square has 2 cells of level 1 in this direction, and one ghost on each side. -/
example : ∃ m u, mrMeshPeriodic 1 ⟨1, 1⟩ squareDomain (fun k => decide (k = 0)) cornerMesh 1 2 = some (m, u) ∧ ∀ t : TagField,
    ∃ t', updateTagPeriodic 1 1 m.all squareDomain (fun k => decide (k = 0)) 1 t = some t' ∧ t' 1 [0, -1] = t 1 [0, -1] ||| t 1 [0, 1] := by
  obtain ⟨m, u, h1, h2⟩ := C123_equal (d := 0) (cfg := ⟨1, 1⟩) (by omega) cornerMesh_inBox cornerDomain_box (by decide) (by decide)
    (fun h => absurd h (by decide))
  obtain ⟨m', u', g1, -, g2, -⟩ := C51_mesh (cfg := ⟨1, 1⟩) (P := fun k => decide (k = 0)) cornerMesh_inBox cornerDomain_box (by decide) (by decide)
    (fun h => absurd h (by decide))
  rw [h1] at g1
  obtain ⟨rfl, rfl⟩ : m = m' ∧ u = u' := by simpa using g1
  refine ⟨m, u, h1, fun t => ?_⟩
  obtain ⟨t', f1, f2, -⟩ := h2 1 (by omega) (by omega) (by simp [Box.refined]; decide) t
  refine ⟨t', f1, ?_⟩
  have hmem : m.all.Mem 1 1 [0, -1] := g2 1 _ [0, 0] ((cornerMesh_mem 1 _).2 (.inl ⟨rfl, 0, 0, by simp⟩)) (by simp [Near])
  obtain ⟨q, q1, -, -, q3⟩ := f2 _ hmem ⟨rfl, fun d hd => by
    interval_cases d <;> simp [toPt, Box.refined] <;> decide⟩
  suffices q = [0, 1] by rw [this] at q3; exact q3 (by decide)
  obtain ⟨e1, e2⟩ := q1
  match q, e1 with
  | [y, x], _ =>
    have a0 := e2 0 (by omega)
    have a1 := e2 1 (by omega)
    simp [toPt, Box.refined] at a0 a1
    have : x = 1 := by omega
    have : y = 0 := by omega
    simp [*]

/-- The tags of the cells `-1`, `1`, `3` of level 1 after `update_tag_periodic`, two ghosts, on the mesh of `C51_narrow_refuted`, when the ghost `3` alone has the flag `refine`. -/
def narrowTags : Option (BitVec 32 × BitVec 32 × BitVec 32) :=
  match mrMeshPeriodic 0 ⟨2, 2⟩ narrowDomain (fun _ => true) narrowMesh 2 3 with
  | none => none
  | some (m, _) =>
    match updateTagPeriodic 0 2 m.all narrowDomain (fun _ => true) 1 (fun l p => if l = 1 ∧ p = [3] then 4#32 else 0#32) with
    | none => none
    | some t => some (t 1 [-1], t 1 [1], t 1 [3])

/-- All the copies of a cell do not always have the same tag afterwards: on a level where the domain has 2 cells and the mesh two layers of ghosts on each side, the cell 1 has the copies -1 and 3; it gets the flag of 3, but -1,
which is treated first, does not. -/
theorem C123_copies_refuted : narrowTags = some (0#32, 4#32, 4#32) := by decide +kernel

end Samurai

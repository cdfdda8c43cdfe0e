import Verif.Model.MroGhost
import Verif.Lemmas.AMRGhost

namespace Samurai

section
variable {K : Type} [Field K] {n : Nat}

/-- The cells projected: the projection cells with a child in the reference mesh. -/
def MroProjd (n : Nat) (M : MroGhostMesh K) (l : Nat) (p : List Int) : Prop :=
  M.proj.Mem n l p ∧ ∃ q, (q.map fun y => shr y 1) = p ∧ M.ref.Mem n (l + 1) q

/-- The cells predicted. -/
def MroPredd (n : Nat) (M : MroGhostMesh K) (l : Nat) (p : List Int) : Prop :=
  (M.ref.Mem n l p ∧ ¬ (M.cells.Mem n l p ∨ M.proj.Mem n l p)) ∧ AtLevel M.dom.level l (fun q => M.dom.Mem n q) p

/-- A mesh on which `update_ghost_mro` can work; the domain at level `l` is the box `b l`. -/
structure MroReady (n : Nat) (M : MroGhostMesh K) (b : Nat → Box) (w : Nat) : Prop where
  refWF : M.ref.WF n
  projWF : M.proj.WF n
  cellsWF : M.cells.WF n
  domWF : M.dom.WF n
  refLeveled : M.ref.Leveled
  projLeveled : M.proj.Leveled
  cellsLeveled : M.cells.Leveled
  sizes : M.proj.maxSize = M.ref.maxSize ∧ M.cells.maxSize = M.ref.maxSize ∧ M.dom.level ≤ M.maxL
  numbers : M.ref.NumbersDiffer n
  low : M.ref.minLevel ≤ M.maxL ∧ M.maxL ≤ M.ref.maxSize
  high : ∀ l p, M.ref.Mem n l p → l ≤ M.maxL
  range : ∃ D : Int, 0 ≤ D ∧ D + 2 * 2 ^ M.maxL + 2 < INT_MAX ∧ M.dom.BelowAt n M.maxL D ∧
    ∀ l ≤ M.maxL, (M.ref.lca l).BelowAt n M.maxL D ∧ (M.proj.lca l).BelowAt n M.maxL D ∧ (M.cells.lca l).BelowAt n M.maxL D
  cellsRef : ∀ l p, M.cells.Mem n l p → M.ref.Mem n l p
  projRef : ∀ l p, M.proj.Mem n l p → M.ref.Mem n l p
  projChild : ∀ l p q, MroProjd n M l p → (q.map fun y => shr y 1) = p → M.ref.Mem n (l + 1) q ∧ (M.cells.Mem n (l + 1) q ∨ M.proj.Mem n (l + 1) q)
  projIn : ∀ l p, M.proj.Mem n l p → InBox (b l) n p
  predIn : ∀ l p, MroPredd n M l p → 1 ≤ l ∧ InBox (b l) n p
  predNear : ∀ l p q, MroPredd n M l p → Near M.cfg.predictionOrder q (p.map fun y => shr y 1) → M.ref.Mem n (l - 1) q
  bc : ∀ level, level ≤ M.maxL → BcReady n M.toBcMesh level (b level) w

variable {M : MroGhostMesh K} {b : Nat → Box} {w : Nat}

theorem MroReady.levels (g : MroReady n M b w) {l : Nat} {p : List Int} (hp : M.ref.Mem n l p) : M.ref.minLevel ≤ l ∧ l ≤ M.maxL :=
  ⟨(CA.mem_levels g.refWF hp).1, g.high l p hp⟩

theorem MroReady.predLevel (g : MroReady n M b w) {l : Nat} {p : List Int} (hp : MroPredd n M l p) : M.ref.minLevel < l ∧ l ≤ M.maxL := by
  have h1 := g.levels hp.1.1
  have h2 := g.levels (g.predNear l p _ hp (near_refl _ _))
  have := (g.predIn l p hp).1
  omega

theorem MroReady.projLevel (g : MroReady n M b w) {l : Nat} {p : List Int} (hp : MroProjd n M l p) : M.ref.minLevel ≤ l ∧ l < M.maxL := by
  have h1 := g.levels (g.projRef l p hp.1)
  have h2 := g.levels (g.projChild l p _ hp (double_half p)).1
  omega

/-- The cells projected at a level. -/
theorem mroProjected_holds (g : MroReady n M b w) {k : Nat} (h2 : k + 1 ≤ M.maxL) :
    ∃ calls, runSet n (.op .inter (opnd (M.ref.lca (k + 1))) (opnd (M.proj.lca k))) k = some calls ∧ OkCalls n calls ∧
      ∀ p, Covers calls p ↔ MroProjd n M k p := by
  obtain ⟨s2, s3⟩ := g.low
  obtain ⟨z1, z2, z3⟩ := g.sizes
  obtain ⟨D, d0, d1, -, d3⟩ := g.range
  have e1 : (M.ref.lca (k + 1)).level = k + 1 := g.refLeveled _ (by omega)
  have e2 : (M.proj.lca k).level = k := g.projLeveled _ (by omega)
  let e : Expr Node := .op .inter (opnd (M.ref.lca (k + 1))) (opnd (M.proj.lca k))
  have hfin : e.finest = k + 1 := by
    show Nat.max (M.ref.lca (k + 1)).level (M.proj.lca k).level = k + 1
    rw [e1, e2]; exact Nat.max_eq_left (by omega)
  have hadm : e.Admissible n := by
    refine usable_admissible (M := M.maxL) d0 d1 ⟨⟨_, rfl, g.refWF _ (by omega), by rw [e1]; omega, (d3 (k + 1) h2).1⟩,
      ⟨_, rfl, g.projWF _ (by omega), by rw [e2]; omega, (d3 k (by omega)).2.1⟩⟩
  obtain ⟨calls, r1, r2, r3⟩ := runSet_ok hadm (ref := k) (by omega)
  refine ⟨calls, r1, r2, fun p => ?_⟩
  rw [r3]
  show AtLevel (M.ref.lca (k + 1)).level k (fun q => (M.ref.lca (k + 1)).Mem n q) p ∧ AtLevel (M.proj.lca k).level k (fun q => (M.proj.lca k).Mem n q) p ↔ _
  rw [e1, e2, atLevel_self]
  have := atLevel_up (l := k + 1) (by omega) (S := fun q => (M.ref.lca (k + 1)).Mem n q) (p := p)
  rw [show k + 1 - 1 = k by omega] at this
  rw [this]
  constructor
  · rintro ⟨⟨q, h3, h4⟩, h5⟩
    exact ⟨⟨by omega, h5⟩, q, (anc_iff.1 h4).symm, by omega, h3⟩
  · rintro ⟨h5, q, h3, h4⟩
    exact ⟨⟨q, h4.2, anc_iff.2 h3.symm⟩, h5.2⟩

/-- One turn of the projection loop. -/
theorem mroDown_spec (g : MroReady n M b w) {level : Nat} (h1 : 1 ≤ level) (h2 : level ≤ M.maxL) (u : Int → K) :
    ∃ u', mroDown n M u level = some u' ∧ Alters n M.ref (fun l p => l = level - 1 ∧ MroProjd n M l p) u u' ∧
      ∀ p, MroProjd n M (level - 1) p → u' (numOf n M.ref (level - 1) p) =
        project (n + 1) (fun q => u (numOf n M.ref level (ofPt (n + 1) q))) (toPt p) := by
  obtain ⟨k, rfl⟩ : ∃ k, level = k + 1 := ⟨level - 1, by omega⟩
  obtain ⟨calls, r1, r2, hcov⟩ := mroProjected_holds g h2
  obtain ⟨u', a1, a2, a3⟩ := projectRows_ok (l := k) g.refWF g.numbers r2 (fun p hp => g.projRef _ _ ((hcov p).1 hp).1)
    (fun p hp q hq => (g.projChild _ _ _ ((hcov p).1 hp) hq).1) u
  refine ⟨u', ?_, ?_, fun p hp => a3 p ((hcov p).2 hp)⟩
  · unfold mroDown
    simp only [Nat.add_sub_cancel]
    rw [r1]
    exact a1
  · refine a2.alters.mono ?_
    rintro l p _ ⟨rfl, h⟩
    exact ⟨rfl, (hcov p).1 h⟩

/-- The projection loop. -/
theorem mroDown_loop (g : MroReady n M b w) (u : Int → K) :
    ∃ u', (downFrom M.maxL 1).foldlM (mroDown n M) u = some u' ∧ Alters n M.ref (fun l p => MroProjd n M l p) u u' ∧
      ∀ l p, MroProjd n M l p → u' (numOf n M.ref l p) = project (n + 1) (fun q => u' (numOf n M.ref (l + 1) (ofPt (n + 1) q))) (toPt p) := by
  obtain ⟨u', h1, h2, h3⟩ := foldDown (mroDown n M) (fun k u' => Alters n M.ref (fun l p => MroProjd n M l p) u u' ∧
      ∀ l p, k ≤ l → MroProjd n M l p → u' (numOf n M.ref l p) = project (n + 1) (fun q => u' (numOf n M.ref (l + 1) (ofPt (n + 1) q))) (toPt p))
    1 M.maxL (by omega) (by
      rintro k u1 k1 k2 ⟨i1, i2⟩
      obtain ⟨u2, a1, a2, a3⟩ := mroDown_spec g (level := k) (by omega) k2 u1
      refine ⟨u2, a1, i1.trans (a2.mono fun l p _ h => h.2), fun l p hl hp => ?_⟩
      have hlen : p.length = n + 1 := mem_length (g.projRef l p hp.1).2
      have same : ∀ q, (q.map fun y => shr y 1) = p → u2 (numOf n M.ref (l + 1) q) = u1 (numOf n M.ref (l + 1) q) := fun q hq =>
        a2.at g.refWF g.numbers (g.projChild l p q hp hq).1 fun h => by omega
      rw [project_vals hlen same]
      by_cases hk : l = k - 1
      · subst hk
        rw [a3 p hp, show k - 1 + 1 = k by omega]
      · rw [a2.at g.refWF g.numbers (g.projRef l p hp.1) fun h => hk h.1]
        exact i2 l p (by omega) hp) M.maxL u le_rfl
    ⟨Alters.refl _ _, fun l p hl hp => by have := g.projLevel hp; omega⟩
  refine ⟨u', h1, h2, fun l p hp => h3 l p ?_ hp⟩
  omega

/-- The cells predicted at a level. -/
theorem mroPredicted_holds (g : MroReady n M b w) {level : Nat} (h2 : level ≤ M.maxL) :
    ∃ calls, runSet n (.op .inter (.op .diff (opnd (M.ref.lca level)) (.op .union (opnd (M.cells.lca level)) (opnd (M.proj.lca level)))) (opnd M.dom))
        level = some calls ∧ OkCalls n calls ∧ ∀ p, Covers calls p ↔ MroPredd n M level p := by
  obtain ⟨s2, s3⟩ := g.low
  obtain ⟨z1, z2, z3⟩ := g.sizes
  obtain ⟨D, d0, d1, d2, d3⟩ := g.range
  have e1 : (M.ref.lca level).level = level := g.refLeveled _ (by omega)
  have e2 : (M.cells.lca level).level = level := g.cellsLeveled _ (by omega)
  have e3 : (M.proj.lca level).level = level := g.projLeveled _ (by omega)
  let e : Expr Node := .op .inter (.op .diff (opnd (M.ref.lca level)) (.op .union (opnd (M.cells.lca level)) (opnd (M.proj.lca level)))) (opnd M.dom)
  have hfin : level ≤ e.finest := by
    show level ≤ Nat.max (Nat.max (M.ref.lca level).level (Nat.max (M.cells.lca level).level (M.proj.lca level).level)) M.dom.level
    rw [e1]
    exact (Nat.le_max_left _ _).trans (Nat.le_max_left _ _)
  obtain ⟨d4, d5, d6⟩ := d3 level h2
  have hadm : e.Admissible n := by
    refine usable_admissible (M := M.maxL) d0 d1 ⟨⟨⟨_, rfl, g.refWF _ (by omega), by rw [e1]; omega, d4⟩,
      ⟨_, rfl, g.cellsWF _ (by omega), by rw [e2]; omega, d6⟩, ⟨_, rfl, g.projWF _ (by omega), by rw [e3]; omega, d5⟩⟩,
      ⟨_, rfl, g.domWF, z3, d2⟩⟩
  obtain ⟨calls, r1, r2, r3⟩ := runSet_ok hadm hfin
  refine ⟨calls, r1, r2, fun p => ?_⟩
  rw [r3]
  show (AtLevel (M.ref.lca level).level level (fun q => (M.ref.lca level).Mem n q) p ∧
    ¬ (AtLevel (M.cells.lca level).level level (fun q => (M.cells.lca level).Mem n q) p ∨
      AtLevel (M.proj.lca level).level level (fun q => (M.proj.lca level).Mem n q) p)) ∧
    AtLevel M.dom.level level (fun q => M.dom.Mem n q) p ↔ _
  rw [e1, e2, e3, atLevel_self, atLevel_self, atLevel_self]
  have c1 : (M.ref.lca level).Mem n p ↔ M.ref.Mem n level p := ⟨fun h => ⟨by omega, h⟩, fun h => h.2⟩
  have c2 : (M.cells.lca level).Mem n p ↔ M.cells.Mem n level p := ⟨fun h => ⟨by omega, h⟩, fun h => h.2⟩
  have c3 : (M.proj.lca level).Mem n p ↔ M.proj.Mem n level p := ⟨fun h => ⟨by omega, h⟩, fun h => h.2⟩
  rw [c1, c2, c3]
  exact Iff.rfl

/-- `update_bc` at one level. -/
theorem mroBc_spec (g : MroReady n M b w) {bcs : List (BcCond K)} (hbc : ∀ c ∈ bcs, GoodBc n M.dom w c) {level : Nat}
    (h2 : level ≤ M.maxL) (u : Int → K) :
    ∃ u', updateBc n M.toBcMesh bcs level u = some u' ∧ Alters n M.ref (fun l p => l = level ∧ BcFills n (b l) bcs p) u u' := by
  obtain ⟨u', a1, a2, _⟩ := updateBc_spec (g.bc level h2) hbc u
  refine ⟨u', a1, a2.alters.mono ?_⟩
  rintro l p _ ⟨rfl, h⟩
  exact ⟨rfl, h⟩

/-- The part of the mesh the boundary conditions read. -/
def MroGhostMesh.toGhost (M : MroGhostMesh K) : GhostMesh K := ⟨M.toBcMesh, M.proj, M.dom⟩

theorem calls_none {calls : List Call} (h1 : OkCalls n calls) (h2 : ∀ p, ¬ Covers calls p) : calls = [] := by
  cases calls with
  | nil => rfl
  | cons c cs =>
    have := (h1 c (by simp)).2.1
    exact absurd ⟨c, by simp, c.2.start, Interval.mem_def.2 ⟨le_rfl, this⟩, rfl⟩ (h2 (c.1 ++ [c.2.start]))

/-- `update_ghost_mro`. -/
theorem updateGhostMro_spec (g : MroReady n M b w) {bcs : List (BcCond K)} (hbc : ∀ c ∈ bcs, GoodBc n M.dom w c) (u : Int → K) :
    ∃ u', updateGhostMro n M bcs u = some u' ∧
      Alters n M.ref (fun l p => MroProjd n M l p ∨ MroPredd n M l p ∨ BcFills n (b l) bcs p) u u' ∧
      (∀ l p, MroProjd n M l p → u' (numOf n M.ref l p) = project (n + 1) (fun q => u' (numOf n M.ref (l + 1) (ofPt (n + 1) q))) (toPt p)) ∧
      (∀ l p, MroPredd n M l p → u' (numOf n M.ref l p) =
        predictFine (n + 1) M.cfg.predictionOrder (fun q => u' (numOf n M.ref (l - 1) (ofPt (n + 1) q))) (toPt p)) ∧
      ∀ l, M.ref.minLevel ≤ l → l ≤ M.maxL → AfterBc n M.toGhost bcs l u' := by
  obtain ⟨s2, s3⟩ := g.low
  obtain ⟨u1, a1, a2, a3⟩ := mroDown_loop g u
  obtain ⟨u3, e1, e2⟩ := mroBc_spec g hbc (level := 0) (by omega) u1
  -- the levels from the coarsest
  obtain ⟨u4, f1, f2, f3, f4⟩ := foldRange (mroUp n M bcs)
    (fun k u' => Alters n M.ref (fun l p => l < k ∧ (MroPredd n M l p ∨ BcFills n (b l) bcs p)) u3 u' ∧
      (∀ l p, l < k → MroPredd n M l p → u' (numOf n M.ref l p) =
        predictFine (n + 1) M.cfg.predictionOrder (fun q => u' (numOf n M.ref (l - 1) (ofPt (n + 1) q))) (toPt p)) ∧
      ∀ l, M.ref.minLevel ≤ l → l < k → AfterBc n M.toGhost bcs l u')
    M.ref.minLevel (M.maxL + 1 - M.ref.minLevel) (by
      rintro k v k1 k2 ⟨i1, i2, i3⟩
      obtain ⟨calls, r1, r2, r3⟩ := mroPredicted_holds g (level := k) (by omega)
      obtain ⟨v1, p0, p1, p2, p3⟩ : ∃ v1, ¬ (k = 0 ∧ calls ≠ []) ∧ calls.foldlM (predictRow n M.cfg.predictionOrder M.ref k) v = some v1 ∧
          Keeps n M.ref k (Covers calls) v v1 ∧ ∀ p, Covers calls p → v1 (numOf n M.ref k p) =
            predictFine (n + 1) M.cfg.predictionOrder (fun q => v (numOf n M.ref (k - 1) (ofPt (n + 1) q))) (toPt p) := by
        by_cases hk0 : k = 0
        · have hno : ∀ p, ¬ Covers calls p := fun p hp => by
            have := (g.predIn k p ((r3 p).1 hp)).1
            omega
          obtain rfl := calls_none r2 hno
          exact ⟨v, by simp, rfl, fun _ _ => rfl, fun p hp => absurd hp (hno p)⟩
        · obtain ⟨v1, h⟩ := predictRows_ok (l := k) (order := M.cfg.predictionOrder) g.refWF g.numbers r2 (by omega) (fun p hp => ((r3 p).1 hp).1.1)
            (fun p hp q hq => g.predNear k p q ((r3 p).1 hp) hq) v
          exact ⟨v1, fun h => hk0 h.1, h⟩
      obtain ⟨v2, q1, q2⟩ := mroBc_spec g hbc (level := k) (by omega) v1
      have hv : Alters n M.ref (fun l p => l = k ∧ (MroPredd n M l p ∨ BcFills n (b l) bcs p)) v v2 := by
        refine Alters.trans (p2.alters.mono ?_) (q2.mono fun l p _ h => ⟨h.1, .inr h.2⟩)
        rintro l p _ ⟨rfl, h⟩
        exact ⟨rfl, .inl ((r3 p).1 h)⟩
      have hat : ∀ l p, M.ref.Mem n l p → l ≠ k → v2 (numOf n M.ref l p) = v (numOf n M.ref l p) := fun l p hp hl =>
        hv.at g.refWF g.numbers hp fun h => hl h.1
      refine ⟨v2, ?_, ?_, ?_, ?_⟩
      · unfold mroUp
        rw [r1]
        simp only []
        rw [if_neg p0, p1]
        exact q1
      · refine (i1.mono ?_).trans (hv.mono ?_)
        · rintro l p _ ⟨h2, h3⟩; exact ⟨by omega, h3⟩
        · rintro l p _ ⟨rfl, h3⟩; exact ⟨by omega, h3⟩
      · intro l p hlk hp
        have hl := g.predLevel hp
        rw [predict_vals (mem_length hp.1.1.2) fun q hq => hat (l - 1) q (g.predNear l p q hp hq) (by omega)]
        by_cases hk : l = k
        · subst hk
          rw [q2.at g.refWF g.numbers hp.1.1 fun h => h.2.out (g.predIn l p hp).2]
          exact p3 p ((r3 p).2 hp)
        · rw [hat l p hp.1.1 hk]
          exact i2 l p (by omega) hp
      · intro l hl hlk
        by_cases hk : l = k
        · subst hk
          exact ⟨v1, v2, q1, fun _ _ => rfl⟩
        · obtain ⟨ua, ub, h1, h2⟩ := i3 l hl (by omega)
          exact ⟨ua, ub, h1, fun p hp => (hat l p hp hk).trans (h2 p hp)⟩)
    u3 ⟨Alters.refl _ _, fun l p h2 hp => by have := g.predLevel hp; omega, fun l h1 h2 => by omega⟩
  rw [show M.ref.minLevel + (M.maxL + 1 - M.ref.minLevel) = M.maxL + 1 by omega] at f2 f3 f4
  have h14 : Alters n M.ref (fun l p => MroPredd n M l p ∨ BcFills n (b l) bcs p) u1 u4 :=
    (e2.mono fun l p _ h => .inr h.2).trans (f2.mono fun l p _ h => h.2)
  have keepC : ∀ l p, M.cells.Mem n l p → u4 (numOf n M.ref l p) = u1 (numOf n M.ref l p) := by
    intro l p hp
    have hl := g.levels (g.cellsRef l p hp)
    refine h14.at g.refWF g.numbers (g.cellsRef l p hp) ?_
    rintro (h | h)
    · exact h.1.2 (.inl hp)
    · exact h.out ((g.bc l hl.2).leaves p hp)
  have keepP : ∀ l p, M.proj.Mem n l p → u4 (numOf n M.ref l p) = u1 (numOf n M.ref l p) := by
    intro l p hp
    refine h14.at g.refWF g.numbers (g.projRef l p hp) ?_
    rintro (h | h)
    · exact h.1.2 (.inr hp)
    · exact h.out (g.projIn l p hp)
  refine ⟨u4, ?_, ?_, ?_, fun l p hp => ?_, fun l h1 h2 => f4 l h1 (by omega)⟩
  · unfold updateGhostMro
    rw [a1]
    simp only []
    rw [e1]
    exact f1
  · exact (a2.mono fun l p _ h => .inl h).trans (h14.mono fun l p _ h => .inr h)
  · intro l p hp
    rw [keepP l p hp.1, a3 l p hp]
    refine project_vals (mem_length (g.projRef l p hp.1).2) fun q hq => ?_
    rcases (g.projChild l p q hp hq).2 with h | h
    · exact (keepC _ q h).symm
    · exact (keepP _ q h).symm
  · have := g.predLevel hp
    exact f3 l p (by omega) hp

end

end Samurai

import Verif.Model.AMRGhost
import Verif.Lemmas.GhostAdapted

namespace Samurai

section
variable {K : Type} [Field K] {n : Nat}

/-- The cells projected at a level: the parents of the cells of `proj_cells`. -/
def AmrProjd (n : Nat) (M : AMRGhostMesh K) (l : Nat) (p : List Int) : Prop := ∃ q, (q.map fun y => shr y 1) = p ∧ M.proj.Mem n (l + 1) q

/-- A mesh on which `update_ghost` can work; the domain at level `l` is the box `b l`. -/
structure AmrReady (n : Nat) (M : AMRGhostMesh K) (b : Nat → Box) (w : Nat) : Prop where
  refWF : M.ref.WF n
  projWF : M.proj.WF n
  predWF : M.pred.WF n
  refLeveled : M.ref.Leveled
  projLeveled : M.proj.Leveled
  predLeveled : M.pred.Leveled
  sizes : M.proj.maxSize = M.ref.maxSize ∧ M.pred.maxSize = M.ref.maxSize
  numbers : M.ref.NumbersDiffer n
  low : 1 ≤ M.ref.minLevel ∧ M.ref.minLevel ≤ M.maxL ∧ M.maxL ≤ M.ref.maxSize
  high : ∀ l p, M.ref.Mem n l p → l ≤ M.maxL
  range : ∃ D : Int, 0 ≤ D ∧ D + 2 * 2 ^ M.maxL + 2 < INT_MAX ∧
    ∀ l ≤ M.maxL, (M.ref.lca l).BelowAt n M.maxL D ∧ (M.proj.lca l).BelowAt n M.maxL D ∧ (M.pred.lca l).BelowAt n M.maxL D
  cellsRef : ∀ l p, M.cells.Mem n l p → M.ref.Mem n l p
  projRef : ∀ l p, AmrProjd n M l p → M.ref.Mem n l p
  projChild : ∀ l p q, AmrProjd n M l p → (q.map fun y => shr y 1) = p → M.ref.Mem n (l + 1) q ∧ (M.cells.Mem n (l + 1) q ∨ AmrProjd n M (l + 1) q)
  projIn : ∀ l p, AmrProjd n M l p → InBox (b l) n p
  predRef : ∀ l p, M.pred.Mem n l p → M.ref.Mem n l p
  predIn : ∀ l p, M.pred.Mem n l p → InBox (b l) n p
  predNear : ∀ l p q, M.pred.Mem n l p → Near M.cfg.predictionOrder q (p.map fun y => shr y 1) → M.ref.Mem n (l - 1) q
  predOut : ∀ l p, M.pred.Mem n l p → ¬ M.cells.Mem n l p ∧ ¬ AmrProjd n M l p
  bc : ∀ level, level = 0 ∨ M.ref.minLevel ≤ level → level ≤ M.maxL → BcReady n M.toBcMesh level (b level) w

variable {M : AMRGhostMesh K} {b : Nat → Box} {w : Nat}

theorem AmrReady.levels (g : AmrReady n M b w) {l : Nat} {p : List Int} (hp : M.ref.Mem n l p) : M.ref.minLevel ≤ l ∧ l ≤ M.maxL :=
  ⟨(CA.mem_levels g.refWF hp).1, g.high l p hp⟩

theorem AmrReady.predLevel (g : AmrReady n M b w) {l : Nat} {p : List Int} (hp : M.pred.Mem n l p) : M.ref.minLevel < l ∧ l ≤ M.maxL := by
  have h1 := g.levels (g.predRef l p hp)
  have h2 := g.levels (g.predNear l p _ hp (near_refl _ _))
  have := g.low
  omega

theorem double_half (p : List Int) : ((p.map fun x => 2 * x).map fun y => shr y 1) = p := by
  rw [List.map_map]
  conv_rhs => rw [← List.map_id p]
  refine List.map_congr_left fun x _ => ?_
  simp [shr_one_eq]

theorem AmrReady.projLevel (g : AmrReady n M b w) {l : Nat} {p : List Int} (hp : AmrProjd n M l p) : M.ref.minLevel ≤ l ∧ l < M.maxL := by
  have h1 := g.levels (g.projRef l p hp)
  have h2 := g.levels (g.projChild l p _ hp (double_half p)).1
  omega

/-- The cells projected at a level. -/
theorem amrProjected_holds (g : AmrReady n M b w) {k : Nat} (h2 : k + 1 ≤ M.maxL) :
    ∃ calls, runSet n (.op .inter (opnd (M.proj.lca (k + 1))) (opnd (M.ref.lca k))) k = some calls ∧ OkCalls n calls ∧
      ∀ p, Covers calls p ↔ AmrProjd n M k p := by
  obtain ⟨s1, s2, s3⟩ := g.low
  obtain ⟨z1, z2⟩ := g.sizes
  obtain ⟨D, d0, d1, d3⟩ := g.range
  have e1 : (M.proj.lca (k + 1)).level = k + 1 := g.projLeveled _ (by omega)
  have e2 : (M.ref.lca k).level = k := g.refLeveled _ (by omega)
  let e : Expr Node := .op .inter (opnd (M.proj.lca (k + 1))) (opnd (M.ref.lca k))
  have hfin : e.finest = k + 1 := by
    show Nat.max (M.proj.lca (k + 1)).level (M.ref.lca k).level = k + 1
    rw [e1, e2]; exact Nat.max_eq_left (by omega)
  have hadm : e.Admissible n := by
    refine usable_admissible (M := M.maxL) d0 d1 ⟨⟨_, rfl, g.projWF _ (by omega), by rw [e1]; omega, (d3 (k + 1) h2).2.1⟩,
      ⟨_, rfl, g.refWF _ (by omega), by rw [e2]; omega, (d3 k (by omega)).1⟩⟩
  obtain ⟨calls, r1, r2, r3⟩ := runSet_ok hadm (ref := k) (by omega)
  refine ⟨calls, r1, r2, fun p => ?_⟩
  rw [r3]
  show AtLevel (M.proj.lca (k + 1)).level k (fun q => (M.proj.lca (k + 1)).Mem n q) p ∧ AtLevel (M.ref.lca k).level k (fun q => (M.ref.lca k).Mem n q) p ↔ _
  rw [e1, e2, atLevel_self]
  have := atLevel_up (l := k + 1) (by omega) (S := fun q => (M.proj.lca (k + 1)).Mem n q) (p := p)
  rw [show k + 1 - 1 = k by omega] at this
  rw [this]
  constructor
  · rintro ⟨⟨q, h3, h4⟩, _⟩
    exact ⟨q, (anc_iff.1 h4).symm, by omega, h3⟩
  · intro h
    have hr := g.projRef k p h
    obtain ⟨q, h3, h4⟩ := h
    exact ⟨⟨q, h4.2, anc_iff.2 h3.symm⟩, hr.2⟩

/-- One turn of the projection loop. -/
theorem amrDown_spec (g : AmrReady n M b w) {level : Nat} (h1 : 1 ≤ level) (h2 : level ≤ M.maxL) (u : Int → K) :
    ∃ u', amrDown n M u level = some u' ∧ Alters n M.ref (fun l p => l = level - 1 ∧ AmrProjd n M l p) u u' ∧
      ∀ p, AmrProjd n M (level - 1) p → u' (numOf n M.ref (level - 1) p) =
        project (n + 1) (fun q => u (numOf n M.ref level (ofPt (n + 1) q))) (toPt p) := by
  obtain ⟨k, rfl⟩ : ∃ k, level = k + 1 := ⟨level - 1, by omega⟩
  obtain ⟨calls, r1, r2, hcov⟩ := amrProjected_holds g h2
  obtain ⟨u', a1, a2, a3⟩ := projectRows_ok (l := k) g.refWF g.numbers r2 (fun p hp => g.projRef _ _ ((hcov p).1 hp))
    (fun p hp q hq => (g.projChild _ _ _ ((hcov p).1 hp) hq).1) u
  refine ⟨u', ?_, ?_, fun p hp => a3 p ((hcov p).2 hp)⟩
  · unfold amrDown
    simp only [Nat.add_sub_cancel]
    rw [r1]
    exact a1
  · refine a2.alters.mono ?_
    rintro l p _ ⟨rfl, h⟩
    exact ⟨rfl, (hcov p).1 h⟩

/-- The projection loop. -/
theorem amrDown_loop (g : AmrReady n M b w) (u : Int → K) :
    ∃ u', (downFrom M.maxL 1).foldlM (amrDown n M) u = some u' ∧ Alters n M.ref (fun l p => AmrProjd n M l p) u u' ∧
      ∀ l p, AmrProjd n M l p → u' (numOf n M.ref l p) = project (n + 1) (fun q => u' (numOf n M.ref (l + 1) (ofPt (n + 1) q))) (toPt p) := by
  obtain ⟨u', h1, h2, h3⟩ := foldDown (amrDown n M) (fun k u' => Alters n M.ref (fun l p => AmrProjd n M l p) u u' ∧
      ∀ l p, k ≤ l → AmrProjd n M l p → u' (numOf n M.ref l p) = project (n + 1) (fun q => u' (numOf n M.ref (l + 1) (ofPt (n + 1) q))) (toPt p))
    1 M.maxL (by omega) (by
      rintro k u1 k1 k2 ⟨i1, i2⟩
      obtain ⟨u2, a1, a2, a3⟩ := amrDown_spec g (level := k) (by omega) k2 u1
      refine ⟨u2, a1, i1.trans (a2.mono fun l p _ h => h.2), fun l p hl hp => ?_⟩
      have hlen : p.length = n + 1 := mem_length (g.projRef l p hp).2
      have same : ∀ q, (q.map fun y => shr y 1) = p → u2 (numOf n M.ref (l + 1) q) = u1 (numOf n M.ref (l + 1) q) := fun q hq =>
        a2.at g.refWF g.numbers (g.projChild l p q hp hq).1 fun h => by omega
      rw [project_vals hlen same]
      by_cases hk : l = k - 1
      · subst hk
        rw [a3 p hp, show k - 1 + 1 = k by omega]
      · rw [a2.at g.refWF g.numbers (g.projRef l p hp) fun h => hk h.1]
        exact i2 l p (by omega) hp) M.maxL u le_rfl
    ⟨Alters.refl _ _, fun l p hl hp => by have := g.projLevel hp; omega⟩
  refine ⟨u', h1, h2, fun l p hp => h3 l p ?_ hp⟩
  omega

/-- The cells predicted at a level. -/
theorem amrPredicted_holds (g : AmrReady n M b w) {level : Nat} (h1 : 1 ≤ level) (h2 : level ≤ M.maxL) :
    ∃ calls, runSet n (.op .inter (opnd (M.pred.lca level)) (opnd (M.ref.lca (level - 1)))) level = some calls ∧ OkCalls n calls ∧
      ∀ p, Covers calls p ↔ M.pred.Mem n level p := by
  obtain ⟨s1, s2, s3⟩ := g.low
  obtain ⟨z1, z2⟩ := g.sizes
  obtain ⟨D, d0, d1, d3⟩ := g.range
  have e1 : (M.pred.lca level).level = level := g.predLeveled _ (by omega)
  have e2 : (M.ref.lca (level - 1)).level = level - 1 := g.refLeveled _ (by omega)
  let e : Expr Node := .op .inter (opnd (M.pred.lca level)) (opnd (M.ref.lca (level - 1)))
  have hfin : level ≤ e.finest := by
    show level ≤ Nat.max (M.pred.lca level).level (M.ref.lca (level - 1)).level
    rw [e1]; exact Nat.le_max_left _ _
  have hadm : e.Admissible n := by
    refine usable_admissible (M := M.maxL) d0 d1 ⟨⟨_, rfl, g.predWF _ (by omega), by rw [e1]; omega, (d3 level h2).2.2⟩,
      ⟨_, rfl, g.refWF _ (by omega), by rw [e2]; omega, (d3 (level - 1) (by omega)).1⟩⟩
  obtain ⟨calls, r1, r2, r3⟩ := runSet_ok hadm hfin
  refine ⟨calls, r1, r2, fun p => ?_⟩
  rw [r3]
  show AtLevel (M.pred.lca level).level level (fun q => (M.pred.lca level).Mem n q) p ∧
    AtLevel (M.ref.lca (level - 1)).level level (fun q => (M.ref.lca (level - 1)).Mem n q) p ↔ _
  rw [e1, e2, atLevel_self]
  constructor
  · rintro ⟨h, _⟩
    exact ⟨by omega, h⟩
  · intro h
    refine ⟨h.2, ?_⟩
    unfold AtLevel
    rw [if_pos (by omega), show level - (level - 1) = 1 by omega]
    exact ⟨_, (g.predNear _ _ _ h (near_refl _ _)).2, anc_iff.2 rfl⟩

/-- `update_bc` at one level. -/
theorem amrBc_spec (g : AmrReady n M b w) {bcs : List (BcCond K)} (hbc : ∀ c ∈ bcs, GoodBc n M.dom w c) {level : Nat}
    (h1 : level = 0 ∨ M.ref.minLevel ≤ level) (h2 : level ≤ M.maxL) (u : Int → K) :
    ∃ u', updateBc n M.toBcMesh bcs level u = some u' ∧ Alters n M.ref (fun l p => l = level ∧ BcFills n (b l) bcs p) u u' := by
  obtain ⟨u', a1, a2, _⟩ := updateBc_spec (g.bc level h1 h2) hbc u
  refine ⟨u', a1, a2.alters.mono ?_⟩
  rintro l p _ ⟨rfl, h⟩
  exact ⟨rfl, h⟩

/-- The part of the mesh the boundary conditions read. -/
def AMRGhostMesh.toGhost (M : AMRGhostMesh K) : GhostMesh K := ⟨M.toBcMesh, M.proj, M.dom⟩

/-- `update_ghost`. -/
theorem updateGhostAmr_spec (g : AmrReady n M b w) {bcs : List (BcCond K)} (hbc : ∀ c ∈ bcs, GoodBc n M.dom w c) (u : Int → K) :
    ∃ u', updateGhostAmr n M bcs u = some u' ∧
      Alters n M.ref (fun l p => AmrProjd n M l p ∨ M.pred.Mem n l p ∨ BcFills n (b l) bcs p) u u' ∧
      (∀ l p, AmrProjd n M l p → u' (numOf n M.ref l p) = project (n + 1) (fun q => u' (numOf n M.ref (l + 1) (ofPt (n + 1) q))) (toPt p)) ∧
      (∀ l p, M.pred.Mem n l p → u' (numOf n M.ref l p) =
        predictFine (n + 1) M.cfg.predictionOrder (fun q => u' (numOf n M.ref (l - 1) (ofPt (n + 1) q))) (toPt p)) ∧
      ∀ l, M.ref.minLevel ≤ l → l ≤ M.maxL → AfterBc n M.toGhost bcs l u' := by
  obtain ⟨s1, s2, s3⟩ := g.low
  obtain ⟨u1, a1, a2, a3⟩ := amrDown_loop g u
  obtain ⟨u3, e1, e2⟩ := amrBc_spec g hbc (level := 0) (.inl rfl) (by omega) u1
  -- the levels from the coarsest
  obtain ⟨u4, f1, f2, f3, f4⟩ := foldRange (amrUp n M bcs)
    (fun k u' => Alters n M.ref (fun l p => l < k ∧ (M.pred.Mem n l p ∨ BcFills n (b l) bcs p)) u3 u' ∧
      (∀ l p, l < k → M.pred.Mem n l p → u' (numOf n M.ref l p) =
        predictFine (n + 1) M.cfg.predictionOrder (fun q => u' (numOf n M.ref (l - 1) (ofPt (n + 1) q))) (toPt p)) ∧
      ∀ l, M.ref.minLevel ≤ l → l < k → AfterBc n M.toGhost bcs l u')
    M.ref.minLevel (M.maxL + 1 - M.ref.minLevel) (by
      rintro k v k1 k2 ⟨i1, i2, i3⟩
      obtain ⟨calls, r1, r2, r3⟩ := amrPredicted_holds g (level := k) (by omega) (by omega)
      obtain ⟨v1, p1, p2, p3⟩ := predictRows_ok (l := k) (order := M.cfg.predictionOrder) g.refWF g.numbers r2 (by omega) (fun p hp => g.predRef _ _ ((r3 p).1 hp))
        (fun p hp q hq => g.predNear k p q ((r3 p).1 hp) hq) v
      obtain ⟨v2, q1, q2⟩ := amrBc_spec g hbc (level := k) (.inr k1) (by omega) v1
      have hv : Alters n M.ref (fun l p => l = k ∧ (M.pred.Mem n l p ∨ BcFills n (b l) bcs p)) v v2 := by
        refine Alters.trans (p2.alters.mono ?_) (q2.mono fun l p _ h => ⟨h.1, .inr h.2⟩)
        rintro l p _ ⟨rfl, h⟩
        exact ⟨rfl, .inl ((r3 p).1 h)⟩
      have hat : ∀ l p, M.ref.Mem n l p → l ≠ k → v2 (numOf n M.ref l p) = v (numOf n M.ref l p) := fun l p hp hl =>
        hv.at g.refWF g.numbers hp fun h => hl h.1
      refine ⟨v2, ?_, ?_, ?_, ?_⟩
      · unfold amrUp
        rw [if_neg (by omega), r1]
        simp only []
        rw [p1]
        exact q1
      · refine (i1.mono ?_).trans (hv.mono ?_)
        · rintro l p _ ⟨h2, h3⟩; exact ⟨by omega, h3⟩
        · rintro l p _ ⟨rfl, h3⟩; exact ⟨by omega, h3⟩
      · intro l p hlk hp
        have hl := g.predLevel hp
        rw [predict_vals (mem_length hp.2) fun q hq => hat (l - 1) q (g.predNear l p q hp hq) (by omega)]
        by_cases hk : l = k
        · subst hk
          rw [q2.at g.refWF g.numbers (g.predRef _ _ hp) fun h => h.2.out (g.predIn l p hp)]
          exact p3 p ((r3 p).2 hp)
        · rw [hat l p (g.predRef _ _ hp) hk]
          exact i2 l p (by omega) hp
      · intro l hl hlk
        by_cases hk : l = k
        · subst hk
          exact ⟨v1, v2, q1, fun _ _ => rfl⟩
        · obtain ⟨ua, ub, h1, h2⟩ := i3 l hl (by omega)
          exact ⟨ua, ub, h1, fun p hp => (hat l p hp hk).trans (h2 p hp)⟩)
    u3 ⟨Alters.refl _ _, fun l p h2 hp => by have := g.predLevel hp; omega, fun l h1 h2 => by omega⟩
  rw [show M.ref.minLevel + (M.maxL + 1 - M.ref.minLevel) = M.maxL + 1 by omega] at f2 f3 f4
  have h14 : Alters n M.ref (fun l p => M.pred.Mem n l p ∨ BcFills n (b l) bcs p) u1 u4 :=
    (e2.mono fun l p _ h => .inr h.2).trans (f2.mono fun l p _ h => h.2)
  have keepC : ∀ l p, M.cells.Mem n l p → u4 (numOf n M.ref l p) = u1 (numOf n M.ref l p) := by
    intro l p hp
    have hl := g.levels (g.cellsRef l p hp)
    refine h14.at g.refWF g.numbers (g.cellsRef l p hp) ?_
    rintro (h | h)
    · exact (g.predOut l p h).1 hp
    · exact h.out ((g.bc l (.inr hl.1) hl.2).leaves p hp)
  have keepP : ∀ l p, AmrProjd n M l p → u4 (numOf n M.ref l p) = u1 (numOf n M.ref l p) := by
    intro l p hp
    refine h14.at g.refWF g.numbers (g.projRef l p hp) ?_
    rintro (h | h)
    · exact (g.predOut l p h).2 hp
    · exact h.out (g.projIn l p hp)
  refine ⟨u4, ?_, ?_, ?_, fun l p hp => ?_, fun l h1 h2 => f4 l h1 (by omega)⟩
  · unfold updateGhostAmr
    rw [a1]
    simp only []
    rw [e1]
    exact f1
  · exact (a2.mono fun l p _ h => .inl h).trans (h14.mono fun l p _ h => .inr h)
  · intro l p hp
    rw [keepP l p hp, a3 l p hp]
    refine project_vals (mem_length (g.projRef l p hp).2) fun q hq => ?_
    rcases (g.projChild l p q hp hq).2 with h | h
    · exact (keepC _ q h).symm
    · exact (keepP _ q h).symm
  · have := g.predLevel hp
    exact f3 l p (by omega) hp

end

end Samurai

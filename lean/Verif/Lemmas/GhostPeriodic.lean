import Verif.Lemmas.GhostLoop
import Verif.Lemmas.Periodic

namespace Samurai

section
variable {K : Type} [Field K] {n : Nat} {M : GhostMesh K} {b : Nat → Box} {w : Nat} {bcs : List (BcCond K)}

/-- The ghosts that `update_ghost_periodic` fills. -/
def PerGhost (n w : Nat) (P : Nat → Bool) (b : Box) (p : List Int) : Prop := AroundBox n w b p ∧ OutsideAlong n P b p

theorem PerGhost.out {P : Nat → Bool} {c : Box} {p : List Int} (h : PerGhost n w P c p) : ¬ InBox c n p := by
  obtain ⟨_, d, hd, _, hn⟩ := h
  exact fun hb => hn ((inBox_iff.1 hb).2 d hd)

theorem PeriodicImage.not_ghost {P : Nat → Bool} {c : Box} {p q : List Int} (h : PeriodicImage n P c p q) : ¬ PerGhost n w P c q := by
  rintro ⟨_, d, hd, hP, hn⟩
  have := h.2 d hd
  rw [if_pos hP] at this
  exact hn this.1

/-- A mesh with periodic directions, on which `update_bc` does nothing, on which `update_ghost_mr` can work. -/
structure GhostPer (n : Nat) (M : GhostMesh K) (b : Nat → Box) (w : Nat) (bcs : List (BcCond K)) : Prop extends GhostCore n M b where
  noBc : ∀ level ≤ M.ref.maxLevel, ∀ u, updateBc n M.toBcMesh bcs level u = Option.some u
  cellsIn : ∀ l p, M.cells.Mem n l p → InBox (b l) n p
  around : ∀ level, M.ref.minLevel - 1 ≤ level → level ≤ M.ref.maxLevel → ∀ u, ∃ u', updateGhostPeriodic n M.toBcMesh level u = Option.some u' ∧
    Keeps n M.ref level (PerGhost n w M.periodic (b level)) u u' ∧
    ∀ p, M.ref.Mem n level p → AroundBox n w (b level) p → ∃ q, PeriodicImage n M.periodic (b level) p q ∧ M.ref.Mem n level q ∧
      u' (numOf n M.ref level p) = u (numOf n M.ref level q)

/-- One turn of the projection loop. -/
theorem ghostDown_periodic (g : GhostPer n M b w bcs) {level : Nat} (h1 : M.ref.minLevel < level) (h2 : level ≤ M.ref.maxLevel) (u : Int → K) :
    ∃ u', ghostDown n M u level = some u' ∧
      Alters n M.ref (fun l p => (l = level - 1 ∧ M.proj.Mem n l p) ∨ (l = level ∧ PerGhost n w M.periodic (b l) p)) u u' ∧
      ∀ p, M.proj.Mem n (level - 1) p → u' (numOf n M.ref (level - 1) p) =
        project (n + 1) (fun q => u (numOf n M.ref level (ofPt (n + 1) q))) (toPt p) := by
  obtain ⟨k, rfl⟩ : ∃ k, level = k + 1 := ⟨level - 1, by omega⟩
  obtain ⟨calls, r1, r2, hcov⟩ := ghostProjected_holds g.toGhostCore h1 h2
  obtain ⟨v, v1, v2, _⟩ := g.around (k + 1) (by omega) h2 u
  obtain ⟨u', a1, a2, a3⟩ := projectRows_ok (l := k) g.refWF g.numbers r2 (fun p hp => g.projRef _ _ ((hcov p).1 hp))
    (fun p hp q hq => g.child ((hcov p).1 hp) hq) v
  refine ⟨u', ?_, ?_, fun p hp => ?_⟩
  · unfold ghostDown
    rw [v1]
    show (match runSet n (.op .inter (.leaf (.mesh (M.ref.lca (k + 1)))) (.leaf (.mesh (M.proj.lca k)))) k with
      | none => none | some calls => calls.foldlM (projectRow n M.ref k) v) = _
    rw [r1]
    exact a1
  · refine (v2.alters.mono ?_).trans (a2.alters.mono ?_)
    · rintro l p _ ⟨rfl, h⟩
      exact .inr ⟨rfl, h⟩
    · rintro l p _ ⟨rfl, h⟩
      exact .inl ⟨rfl, (hcov p).1 h⟩
  · rw [show k + 1 - 1 = k from rfl] at hp ⊢
    rw [a3 p ((hcov p).2 hp)]
    refine project_vals (mem_length hp.2) fun q hq => v2.alters.at g.refWF g.numbers (g.child hp hq) fun h => h.2.out ?_
    rcases g.projChild k p q hp hq with h | h
    · exact g.cellsIn _ _ h
    · exact g.projIn _ _ h

/-- The projection loop. -/
theorem ghostDown_loop_periodic (g : GhostPer n M b w bcs) (u : Int → K) :
    ∃ u', (downFrom M.ref.maxLevel (M.ref.minLevel + 1)).foldlM (ghostDown n M) u = some u' ∧
      Alters n M.ref (fun l p => M.proj.Mem n l p ∨ PerGhost n w M.periodic (b l) p) u u' ∧
      ∀ l p, M.proj.Mem n l p → u' (numOf n M.ref l p) = project (n + 1) (fun q => u' (numOf n M.ref (l + 1) (ofPt (n + 1) q))) (toPt p) := by
  obtain ⟨u', h1, h2, h3⟩ := foldDown (ghostDown n M) (fun k u' => Alters n M.ref (fun l p => M.proj.Mem n l p ∨ PerGhost n w M.periodic (b l) p) u u' ∧
      ∀ l p, k ≤ l → M.proj.Mem n l p → u' (numOf n M.ref l p) = project (n + 1) (fun q => u' (numOf n M.ref (l + 1) (ofPt (n + 1) q))) (toPt p))
    (M.ref.minLevel + 1) M.ref.maxLevel (by omega) (by
      rintro k u1 k1 k2 ⟨i1, i2⟩
      obtain ⟨u2, a1, a2, a3⟩ := ghostDown_periodic g (level := k) (by omega) k2 u1
      refine ⟨u2, a1, i1.trans (a2.mono fun l p _ h => h.imp (fun h => h.2) fun h => h.2), fun l p hl hp => ?_⟩
      have hlen : p.length = n + 1 := mem_length hp.2
      have same : ∀ q, (q.map fun y => shr y 1) = p → u2 (numOf n M.ref (l + 1) q) = u1 (numOf n M.ref (l + 1) q) := fun q hq =>
        a2.at g.refWF g.numbers (g.child hp hq) fun h => by
          rcases h with h | h
          · omega
          · refine h.2.out ?_
            rcases g.projChild l p q hp hq with h | h
            · exact g.cellsIn _ _ h
            · exact g.projIn _ _ h
      rw [project_vals hlen same]
      by_cases hk : l = k - 1
      · subst hk
        rw [a3 p hp, show k - 1 + 1 = k by omega]
      · rw [a2.at g.refWF g.numbers (g.projRef l p hp) fun h => h.elim (fun h => hk h.1) fun h => h.2.out (g.projIn l p hp)]
        exact i2 l p (by omega) hp) M.ref.maxLevel u le_rfl
    ⟨Alters.refl _ _, fun l p hl hp => by have := g.projLevel hp; omega⟩
  refine ⟨u', h1, h2, fun l p hp => h3 l p ?_ hp⟩
  have := g.projLevel hp
  omega

/-- The values of the ghosts around the domain are those of their images. -/
def Wrapped (n : Nat) (M : GhostMesh K) (w : Nat) (b : Nat → Box) (l : Nat) (u : Int → K) : Prop :=
  ∀ p, M.ref.Mem n l p → AroundBox n w (b l) p → ∃ q, PeriodicImage n M.periodic (b l) p q ∧ M.ref.Mem n l q ∧
    u (numOf n M.ref l p) = u (numOf n M.ref l q)

theorem wrapped_of {l : Nat} {u u' : Int → K} (g : GhostPer n M b w bcs) (hk : Keeps n M.ref l (PerGhost n w M.periodic (b l)) u u')
    (h : ∀ p, M.ref.Mem n l p → AroundBox n w (b l) p → ∃ q, PeriodicImage n M.periodic (b l) p q ∧ M.ref.Mem n l q ∧
      u' (numOf n M.ref l p) = u (numOf n M.ref l q)) : Wrapped n M w b l u' := by
  intro p hp ha
  obtain ⟨q, q1, q2, q3⟩ := h p hp ha
  exact ⟨q, q1, q2, q3.trans (hk.alters.at g.refWF g.numbers q2 fun h => q1.not_ghost h.2).symm⟩

/-- `update_ghost_mr`. -/
theorem updateGhostMr_periodic (g : GhostPer n M b w bcs) (u : Int → K) :
    ∃ u', updateGhostMr n M bcs u = some u' ∧
      Alters n M.ref (fun l p => M.proj.Mem n l p ∨ (M.ref.minLevel < l ∧ Pred n M l p) ∨ PerGhost n w M.periodic (b l) p) u u' ∧
      (∀ l p, M.proj.Mem n l p → u' (numOf n M.ref l p) = project (n + 1) (fun q => u' (numOf n M.ref (l + 1) (ofPt (n + 1) q))) (toPt p)) ∧
      (∀ l p, M.ref.minLevel < l → Pred n M l p → u' (numOf n M.ref l p) =
        predictFine (n + 1) M.cfg.predictionOrder (fun q => u' (numOf n M.ref (l - 1) (ofPt (n + 1) q))) (toPt p)) ∧
      ∀ l, M.ref.minLevel ≤ l → l ≤ M.ref.maxLevel → Wrapped n M w b l u' := by
  obtain ⟨s1, s2⟩ := g.some
  obtain ⟨u1, a1, a2, a3⟩ := ghostDown_loop_periodic g u
  have baseStep : ∀ level, M.ref.minLevel - 1 ≤ level → level ≤ M.ref.maxLevel → ∀ u, ∃ u', ghostBase n M bcs level u = some u' ∧
      Keeps n M.ref level (PerGhost n w M.periodic (b level)) u u' ∧ Wrapped n M w b level u' := by
    intro level h1 h2 u
    obtain ⟨u', c1, c2, c3⟩ := g.around level h1 h2 u
    refine ⟨u', ?_, c2, wrapped_of g c2 c3⟩
    unfold ghostBase
    rw [g.noBc level h2]
    exact c1
  -- the coarsest level
  have base : ∃ u2, (if M.ref.minLevel > 0 ∧ M.ref.minLevel ≠ M.ref.maxLevel then ghostBase n M bcs (M.ref.minLevel - 1) u1 else some u1) = some u2 ∧
      Alters n M.ref (fun l p => PerGhost n w M.periodic (b l) p) u1 u2 := by
    split
    · obtain ⟨u2, c1, c2, _⟩ := baseStep (M.ref.minLevel - 1) le_rfl (by omega) u1
      refine ⟨u2, c1, c2.alters.mono ?_⟩
      rintro l p _ ⟨rfl, h⟩
      exact h
    · exact ⟨u1, rfl, Alters.refl _ _⟩
  obtain ⟨u2, c1, c2⟩ := base
  obtain ⟨u3, e1, e2, e3⟩ := baseStep M.ref.minLevel (by omega) s1 u2
  -- the finer levels
  obtain ⟨u4, f1, f2, f3, f4⟩ := foldRange (ghostUp n M bcs)
    (fun k u' => Alters n M.ref (fun l p => M.ref.minLevel < l ∧ l < k ∧ (Pred n M l p ∨ PerGhost n w M.periodic (b l) p)) u3 u' ∧
      (∀ l p, M.ref.minLevel < l → l < k → Pred n M l p → u' (numOf n M.ref l p) =
        predictFine (n + 1) M.cfg.predictionOrder (fun q => u' (numOf n M.ref (l - 1) (ofPt (n + 1) q))) (toPt p)) ∧
      ∀ l, M.ref.minLevel ≤ l → l < k → Wrapped n M w b l u')
    (M.ref.minLevel + 1) (M.ref.maxLevel - M.ref.minLevel) (by
      rintro k v k1 k2 ⟨i1, i2, i3⟩
      obtain ⟨calls, r1, r2, r3⟩ := ghostPredicted_holds g.toGhostCore (level := k) (by omega) (by omega)
      obtain ⟨v1, p1, p2, p3⟩ := predictRows_ok (l := k) (order := M.cfg.predictionOrder) g.refWF g.numbers r2 (by omega) (fun p hp => ((r3 p).1 hp).1)
        (fun p hp q hq => g.predNear k p q (by omega) ((r3 p).1 hp) hq) v
      obtain ⟨v2, q1, q2, q3⟩ := g.around k (by omega) (by omega) v1
      have q2' : Alters n M.ref (fun l p => l = k ∧ PerGhost n w M.periodic (b l) p) v1 v2 := by
        refine q2.alters.mono ?_
        rintro l p _ ⟨rfl, h⟩
        exact ⟨rfl, h⟩
      have hv : Alters n M.ref (fun l p => l = k ∧ (Pred n M l p ∨ PerGhost n w M.periodic (b l) p)) v v2 := by
        refine Alters.trans (p2.alters.mono ?_) (q2'.mono fun l p _ h => ⟨h.1, .inr h.2⟩)
        rintro l p _ ⟨rfl, h⟩
        exact ⟨rfl, .inl ((r3 p).1 h)⟩
      have hat : ∀ l p, M.ref.Mem n l p → l ≠ k → v2 (numOf n M.ref l p) = v (numOf n M.ref l p) := fun l p hp hl =>
        hv.at g.refWF g.numbers hp fun h => hl h.1
      refine ⟨v2, ?_, ?_, ?_, ?_⟩
      · unfold ghostUp
        rw [r1]
        simp only []
        rw [p1]
        simp only []
        rw [q1]
        exact g.noBc k (by omega) v2
      · refine (i1.mono ?_).trans (hv.mono ?_)
        · rintro l p _ ⟨h1, h2, h3⟩; exact ⟨h1, by omega, h3⟩
        · rintro l p _ ⟨rfl, h3⟩; exact ⟨by omega, by omega, h3⟩
      · intro l p hl hlk hp
        rw [predict_vals (mem_length hp.1.2) fun q hq => hat (l - 1) q (g.predNear l p q hl hp hq) (by omega)]
        by_cases hk : l = k
        · subst hk
          rw [q2'.at g.refWF g.numbers hp.1 fun h => h.2.out (g.predIn l p hl hp)]
          exact p3 p ((r3 p).2 hp)
        · rw [hat l p hp.1 hk]
          exact i2 l p hl (by omega) hp
      · intro l hl hlk
        by_cases hk : l = k
        · subst hk
          exact wrapped_of g q2 q3
        · intro p hp ha
          obtain ⟨q, h1, h2, h3⟩ := i3 l hl (by omega) p hp ha
          exact ⟨q, h1, h2, by rw [hat l p hp hk, hat l q h2 hk]; exact h3⟩)
    u3 ⟨Alters.refl _ _, fun l p h1 h2 => by omega, fun l h1 h2 => by
      obtain rfl : l = M.ref.minLevel := by omega
      exact e3⟩
  rw [show M.ref.minLevel + 1 + (M.ref.maxLevel - M.ref.minLevel) = M.ref.maxLevel + 1 by omega] at f2 f3 f4
  have e2' : Alters n M.ref (fun l p => PerGhost n w M.periodic (b l) p) u2 u3 := by
    refine e2.alters.mono ?_
    rintro l p _ ⟨rfl, h⟩
    exact h
  have h14 : Alters n M.ref (fun l p => (M.ref.minLevel < l ∧ Pred n M l p) ∨ PerGhost n w M.periodic (b l) p) u1 u4 := by
    refine (c2.mono fun l p _ h => .inr h).trans ((e2'.mono fun l p _ h => .inr h).trans (f2.mono ?_))
    rintro l p _ ⟨h1, _, h | h⟩
    · exact .inl ⟨h1, h⟩
    · exact .inr h
  have keepC : ∀ l p, M.cells.Mem n l p → u4 (numOf n M.ref l p) = u1 (numOf n M.ref l p) := by
    intro l p hp
    refine h14.at g.refWF g.numbers (g.cellsRef l p hp) ?_
    rintro (⟨_, h⟩ | h)
    · exact h.2.1 hp
    · exact h.out (g.cellsIn l p hp)
  have keepP : ∀ l p, M.proj.Mem n l p → u4 (numOf n M.ref l p) = u1 (numOf n M.ref l p) := by
    intro l p hp
    refine h14.at g.refWF g.numbers (g.projRef l p hp) ?_
    rintro (⟨_, h⟩ | h)
    · exact h.2.2.1 hp
    · exact h.out (g.projIn l p hp)
  refine ⟨u4, ?_, ?_, ?_, fun l p hl hp => ?_, fun l h1 h2 => f4 l h1 (by omega)⟩
  · unfold updateGhostMr
    simp only []
    rw [a1]
    simp only []
    rw [c1]
    simp only []
    rw [e1]
    exact f1
  · refine (a2.mono fun l p _ h => ?_).trans (h14.mono fun l p _ h => .inr h)
    exact h.imp id .inr
  · intro l p hp
    rw [keepP l p hp, a3 l p hp]
    refine project_vals (mem_length hp.2) fun q hq => ?_
    rcases g.projChild l p q hp hq with h | h
    · exact (keepC _ q h).symm
    · exact (keepP _ q h).symm
  · have := g.levels hp.1
    exact f3 l p hl (by omega) hp

end

end Samurai

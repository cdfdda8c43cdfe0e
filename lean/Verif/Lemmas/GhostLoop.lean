import Verif.Lemmas.GhostOps
import Verif.Lemmas.BcFinal
import Verif.Lemmas.AMRMesh

namespace Samurai

section
variable {K : Type} {n : Nat} {ref : CA}

/-- Only the values of the cells `S` can differ. -/
def Alters (n : Nat) (ref : CA) (S : Nat → List Int → Prop) (u u' : Int → K) : Prop :=
  ∀ idx, (∀ l p, ref.Mem n l p → S l p → idx ≠ numOf n ref l p) → u' idx = u idx

theorem Alters.refl (S : Nat → List Int → Prop) (u : Int → K) : Alters n ref S u u := fun _ _ => rfl

theorem Alters.trans {S : Nat → List Int → Prop} {u u' u'' : Int → K} (h : Alters n ref S u u') (h' : Alters n ref S u' u'') : Alters n ref S u u'' :=
  fun idx hi => (h' idx hi).trans (h idx hi)

theorem Alters.mono {S T : Nat → List Int → Prop} {u u' : Int → K} (h : Alters n ref S u u') (hs : ∀ l p, ref.Mem n l p → S l p → T l p) : Alters n ref T u u' :=
  fun idx hi => h idx fun l p hp hS => hi l p hp (hs l p hp hS)

theorem Keeps.alters {l : Nat} {T : List Int → Prop} {u u' : Int → K} (h : Keeps n ref l T u u') : Alters n ref (fun l' p => l' = l ∧ T p) u u' :=
  fun idx hi => h idx fun p hp hT => hi l p hp ⟨rfl, hT⟩

theorem Alters.at {S : Nat → List Int → Prop} {u u' : Int → K} (h : Alters n ref S u u') (hw : ref.WF n) (hd : ref.NumbersDiffer n) {l : Nat} {p : List Int}
    (hp : ref.Mem n l p) (hS : ¬ S l p) : u' (numOf n ref l p) = u (numOf n ref l p) := by
  refine h _ fun l' p' hp' hs he => hS ?_
  obtain ⟨rfl, rfl⟩ := numOf_level hw hd hp hp' he
  exact hs

end

section
variable {K : Type} [Field K] {n : Nat} {ref : CA}

theorem project_vals {l : Nat} {p : List Int} (hp : p.length = n + 1) {u u' : Int → K}
    (h : ∀ q, (q.map fun y => shr y 1) = p → u (numOf n ref (l + 1) q) = u' (numOf n ref (l + 1) q)) :
    project (n + 1) (fun q => u (numOf n ref (l + 1) (ofPt (n + 1) q))) (toPt p) =
      project (n + 1) (fun q => u' (numOf n ref (l + 1) (ofPt (n + 1) q))) (toPt p) := by
  refine project_congr (fun d hd => toPt_zero hp hd) fun s hs => h _ ?_
  refine toPt_ext (n := n + 1) (by simp [ofPt_length]) hp fun d hd => ?_
  have := (mem_offsetsFrom.1 hs).1 d (by omega)
  rw [toPt_half (ofPt_length _ _) (by omega), toPt_ofPt _ hd]
  omega

theorem predict_vals {l order : Nat} {p : List Int} (hp : p.length = n + 1) {u u' : Int → K}
    (h : ∀ q, Near order q (p.map fun y => shr y 1) → u (numOf n ref l q) = u' (numOf n ref l q)) :
    predictFine (n + 1) order (fun q => u (numOf n ref l (ofPt (n + 1) q))) (toPt p) =
      predictFine (n + 1) order (fun q => u' (numOf n ref l (ofPt (n + 1) q))) (toPt p) := by
  refine predictFine_congr fun s hs => h _ ?_
  refine (near_iff_toPt (ofPt_length _ _) (by simpa using hp)).2 fun d hd => ?_
  have := (mem_offsetsFrom.1 hs).1 d hd
  rw [toPt_half hp (by omega), toPt_ofPt _ (by omega), show parentPt (toPt p) d = toPt p d / 2 from shr_one_eq _]
  push_cast at this
  omega

/-- The cells predicted at a level. -/
def Pred (n : Nat) (M : GhostMesh K) (l : Nat) (p : List Int) : Prop :=
  M.ref.Mem n l p ∧ ¬ M.cells.Mem n l p ∧ ¬ M.proj.Mem n l p ∧ AtLevel M.subdomain.level l (M.subdomain.Mem n) p ∧
    M.ref.Mem n (l - 1) (p.map fun y => shr y 1)

/-- A mesh on which the projection and the prediction of `update_ghost_mr` can work; the domain at level `l` is the box `b l`. -/
structure GhostCore (n : Nat) (M : GhostMesh K) (b : Nat → Box) : Prop where
  refWF : M.ref.WF n
  projWF : M.proj.WF n
  cellsWF : M.cells.WF n
  refLeveled : M.ref.Leveled
  projLeveled : M.proj.Leveled
  cellsLeveled : M.cells.Leveled
  sizes : M.proj.maxSize = M.ref.maxSize ∧ M.cells.maxSize = M.ref.maxSize
  numbers : M.ref.NumbersDiffer n
  some : M.ref.minLevel ≤ M.ref.maxLevel ∧ M.ref.maxLevel ≤ M.ref.maxSize
  subWF : M.subdomain.WF n
  subLevel : M.ref.maxLevel ≤ M.subdomain.level
  range : ∃ D : Int, 0 ≤ D ∧ D + 2 * 2 ^ M.subdomain.level + 2 < INT_MAX ∧ M.subdomain.BelowAt n M.subdomain.level D ∧
    ∀ l ≤ M.ref.maxLevel, (M.ref.lca l).BelowAt n M.subdomain.level D ∧ (M.proj.lca l).BelowAt n M.subdomain.level D ∧
      (M.cells.lca l).BelowAt n M.subdomain.level D
  cellsRef : ∀ l p, M.cells.Mem n l p → M.ref.Mem n l p
  projRef : ∀ l p, M.proj.Mem n l p → M.ref.Mem n l p
  projIn : ∀ l p, M.proj.Mem n l p → InBox (b l) n p
  projChild : ∀ l p q, M.proj.Mem n l p → (q.map fun y => shr y 1) = p → M.cells.Mem n (l + 1) q ∨ M.proj.Mem n (l + 1) q
  predIn : ∀ l p, M.ref.minLevel < l → Pred n M l p → InBox (b l) n p
  predNear : ∀ l p q, M.ref.minLevel < l → Pred n M l p → Near M.cfg.predictionOrder q (p.map fun y => shr y 1) → M.ref.Mem n (l - 1) q

/-- A mesh without periodic direction on which `update_ghost_mr` can work. -/
structure GhostReady (n : Nat) (M : GhostMesh K) (b : Nat → Box) (w : Nat) : Prop extends GhostCore n M b where
  periodic : ∀ level (u : Int → K), updateGhostPeriodic n M.toBcMesh level u = Option.some u
  bc : ∀ level, M.ref.minLevel - 1 ≤ level → level ≤ M.ref.maxLevel → BcReady n M.toBcMesh level (b level) w

variable {M : GhostMesh K} {b : Nat → Box} {w : Nat}

theorem GhostCore.child (g : GhostCore n M b) {l : Nat} {p q : List Int} (hp : M.proj.Mem n l p) (hq : (q.map fun y => shr y 1) = p) :
    M.ref.Mem n (l + 1) q := (g.projChild l p q hp hq).elim (g.cellsRef _ _) (g.projRef _ _)

theorem GhostCore.levels (g : GhostCore n M b) {l : Nat} {p : List Int} (hp : M.ref.Mem n l p) : M.ref.minLevel ≤ l ∧ l ≤ M.ref.maxLevel :=
  CA.mem_levels g.refWF hp

theorem GhostCore.projLevel (g : GhostCore n M b) {l : Nat} {p : List Int} (hp : M.proj.Mem n l p) : M.ref.minLevel ≤ l ∧ l < M.ref.maxLevel := by
  have h1 := g.levels (g.projRef l p hp)
  have h2 := g.levels (g.child hp (q := p.map fun x => 2 * x) (by
    rw [List.map_map]
    conv_rhs => rw [← List.map_id p]
    refine List.map_congr_left fun x _ => ?_
    simp [shr_one_eq]))
  omega

/-- The cells projected at a level. -/
theorem ghostProjected_holds (g : GhostCore n M b) {k : Nat} (h1 : M.ref.minLevel < k + 1) (h2 : k + 1 ≤ M.ref.maxLevel) :
    ∃ calls, runSet n (.op .inter (.leaf (.mesh (M.ref.lca (k + 1)))) (.leaf (.mesh (M.proj.lca k)))) k = some calls ∧ OkCalls n calls ∧
      ∀ p, Covers calls p ↔ M.proj.Mem n k p := by
  obtain ⟨s1, s2⟩ := g.some
  obtain ⟨z1, z2⟩ := g.sizes
  obtain ⟨D, d0, d1, d2, d3⟩ := g.range
  have e1 : (M.ref.lca (k + 1)).level = k + 1 := g.refLeveled _ (by omega)
  have e2 : (M.proj.lca k).level = k := g.projLeveled _ (by omega)
  have hsl := g.subLevel
  let e : Expr Node := .op .inter (.leaf (.mesh (M.ref.lca (k + 1)))) (.leaf (.mesh (M.proj.lca k)))
  have hfin : e.finest = k + 1 := by
    show Nat.max (M.ref.lca (k + 1)).level (M.proj.lca k).level = k + 1
    rw [e1, e2]; exact Nat.max_eq_left (by omega)
  have hadm : e.Admissible n := by
    refine usable_admissible (M := M.subdomain.level) d0 d1 ⟨⟨_, rfl, g.refWF _ (by omega), by rw [e1]; omega, (d3 (k + 1) h2).1⟩,
      ⟨_, rfl, g.projWF _ (by omega), by rw [e2]; omega, (d3 k (by omega)).2.1⟩⟩
  obtain ⟨calls, r1, r2, r3⟩ := runSet_ok hadm (ref := k) (by omega)
  have hcov : ∀ p, Covers calls p ↔ M.proj.Mem n k p := by
    intro p
    rw [r3]
    show AtLevel (M.ref.lca (k + 1)).level k (fun q => (M.ref.lca (k + 1)).Mem n q) p ∧
        AtLevel (M.proj.lca k).level k (fun q => (M.proj.lca k).Mem n q) p ↔ _
    rw [e1, e2, atLevel_self]
    have := atLevel_up (l := k + 1) (by omega) (S := fun q => (M.ref.lca (k + 1)).Mem n q) (p := p)
    rw [show k + 1 - 1 = k by omega] at this
    rw [this]
    constructor
    · rintro ⟨_, h⟩; exact ⟨by omega, h⟩
    · intro h
      refine ⟨⟨p.map fun x => 2 * x, ?_, ?_⟩, h.2⟩
      · refine (g.child h ?_).2
        rw [List.map_map]
        conv_rhs => rw [← List.map_id p]
        refine List.map_congr_left fun x _ => ?_
        simp [shr_one_eq]
      · refine anc_iff.2 (Eq.symm ?_)
        rw [List.map_map]
        conv_rhs => rw [← List.map_id p]
        refine List.map_congr_left fun x _ => ?_
        simp [shr_one_eq]
  exact ⟨calls, r1, r2, hcov⟩

/-- One turn of the projection loop. -/
theorem ghostDown_spec (g : GhostReady n M b w) {level : Nat} (h1 : M.ref.minLevel < level) (h2 : level ≤ M.ref.maxLevel) (u : Int → K) :
    ∃ u', ghostDown n M u level = some u' ∧ Alters n M.ref (fun l p => l = level - 1 ∧ M.proj.Mem n l p) u u' ∧
      ∀ p, M.proj.Mem n (level - 1) p → u' (numOf n M.ref (level - 1) p) =
        project (n + 1) (fun q => u (numOf n M.ref level (ofPt (n + 1) q))) (toPt p) := by
  obtain ⟨k, rfl⟩ : ∃ k, level = k + 1 := ⟨level - 1, by omega⟩
  obtain ⟨calls, r1, r2, hcov⟩ := ghostProjected_holds g.toGhostCore h1 h2
  obtain ⟨u', a1, a2, a3⟩ := projectRows_ok (l := k) g.refWF g.numbers r2 (fun p hp => g.projRef _ _ ((hcov p).1 hp))
    (fun p hp q hq => g.child ((hcov p).1 hp) hq) u
  refine ⟨u', ?_, ?_, fun p hp => a3 p ((hcov p).2 hp)⟩
  · unfold ghostDown
    rw [g.periodic]
    show (match runSet n (.op .inter (.leaf (.mesh (M.ref.lca (k + 1)))) (.leaf (.mesh (M.proj.lca k)))) k with | none => none | some calls => calls.foldlM (projectRow n M.ref k) u) = _
    rw [r1]
    exact a1
  · refine a2.alters.mono ?_
    rintro l p _ ⟨rfl, h⟩
    exact ⟨rfl, (hcov p).1 h⟩

/-- The projection loop. -/
theorem ghostDown_loop (g : GhostReady n M b w) (u : Int → K) :
    ∃ u', (downFrom M.ref.maxLevel (M.ref.minLevel + 1)).foldlM (ghostDown n M) u = some u' ∧ Alters n M.ref (fun l p => M.proj.Mem n l p) u u' ∧
      ∀ l p, M.proj.Mem n l p → u' (numOf n M.ref l p) = project (n + 1) (fun q => u' (numOf n M.ref (l + 1) (ofPt (n + 1) q))) (toPt p) := by
  obtain ⟨u', h1, h2, h3⟩ := foldDown (ghostDown n M) (fun k u' => Alters n M.ref (fun l p => M.proj.Mem n l p) u u' ∧
      ∀ l p, k ≤ l → M.proj.Mem n l p → u' (numOf n M.ref l p) = project (n + 1) (fun q => u' (numOf n M.ref (l + 1) (ofPt (n + 1) q))) (toPt p))
    (M.ref.minLevel + 1) M.ref.maxLevel (by omega) (by
      rintro k u1 k1 k2 ⟨i1, i2⟩
      obtain ⟨u2, a1, a2, a3⟩ := ghostDown_spec g (level := k) (by omega) k2 u1
      refine ⟨u2, a1, i1.trans (a2.mono fun l p _ h => h.2), fun l p hl hp => ?_⟩
      have hlen : p.length = n + 1 := mem_length hp.2
      have same : ∀ q, (q.map fun y => shr y 1) = p → u2 (numOf n M.ref (l + 1) q) = u1 (numOf n M.ref (l + 1) q) := fun q hq =>
        a2.at g.refWF g.numbers (g.child hp hq) fun h => by omega
      rw [project_vals hlen same]
      by_cases hk : l = k - 1
      · subst hk
        rw [a3 p hp, show k - 1 + 1 = k by omega]
      · rw [a2.at g.refWF g.numbers (g.projRef l p hp) fun h => hk h.1]
        exact i2 l p (by omega) hp) M.ref.maxLevel u le_rfl
    ⟨Alters.refl _ _, fun l p hl hp => by have := g.projLevel hp; omega⟩
  refine ⟨u', h1, h2, fun l p hp => h3 l p ?_ hp⟩
  have := g.projLevel hp
  omega

theorem ghostPredicted_holds (g : GhostCore n M b) {level : Nat} (h1 : M.ref.minLevel < level) (h2 : level ≤ M.ref.maxLevel) :
    ∃ calls, runSet n (ghostPredicted M level) level = some calls ∧ OkCalls n calls ∧ ∀ p, Covers calls p ↔ Pred n M level p := by
  obtain ⟨s1, s2⟩ := g.some
  obtain ⟨z1, z2⟩ := g.sizes
  obtain ⟨D, d0, d1, d2, d3⟩ := g.range
  have hsl := g.subLevel
  have e1 : (M.ref.lca level).level = level := g.refLeveled _ (by omega)
  have e2 : (M.proj.lca level).level = level := g.projLeveled _ (by omega)
  have e3 : (M.cells.lca level).level = level := g.cellsLeveled _ (by omega)
  have e4 : (M.ref.lca (level - 1)).level = level - 1 := g.refLeveled _ (by omega)
  have hfin : level ≤ (ghostPredicted M level).finest := by
    show level ≤ Nat.max (Nat.max (Nat.max _ _) M.subdomain.level) _
    exact hsl.trans' h2 |>.trans ((Nat.le_max_right _ _).trans (Nat.le_max_left _ _))
  have hadm : (ghostPredicted M level).Admissible n :=
    usable_admissible (M := M.subdomain.level) d0 d1 ⟨⟨⟨⟨_, rfl, g.refWF _ (by omega), by rw [e1]; omega, (d3 level h2).1⟩,
      ⟨⟨_, rfl, g.cellsWF _ (by omega), by rw [e3]; omega, (d3 level h2).2.2⟩, ⟨_, rfl, g.projWF _ (by omega), by rw [e2]; omega, (d3 level h2).2.1⟩⟩⟩,
      ⟨_, rfl, g.subWF, le_rfl, d2⟩⟩, ⟨_, rfl, g.refWF _ (by omega), by rw [e4]; omega, (d3 (level - 1) (by omega)).1⟩⟩
  obtain ⟨calls, r1, r2, r3⟩ := runSet_ok hadm hfin
  refine ⟨calls, r1, r2, fun p => ?_⟩
  rw [r3]
  show ((AtLevel (M.ref.lca level).level level (fun q => (M.ref.lca level).Mem n q) p ∧
    ¬ (AtLevel (M.cells.lca level).level level (fun q => (M.cells.lca level).Mem n q) p ∨ AtLevel (M.proj.lca level).level level (fun q => (M.proj.lca level).Mem n q) p)) ∧
    AtLevel M.subdomain.level level (fun q => M.subdomain.Mem n q) p) ∧ AtLevel (M.ref.lca (level - 1)).level level (fun q => (M.ref.lca (level - 1)).Mem n q) p ↔ _
  rw [e1, e2, e3, e4, atLevel_self, atLevel_self, atLevel_self]
  have hpar : AtLevel (level - 1) level (fun q => (M.ref.lca (level - 1)).Mem n q) p ↔ (M.ref.lca (level - 1)).Mem n (p.map fun y => shr y 1) := by
    unfold AtLevel
    rw [if_pos (by omega), show level - (level - 1) = 1 by omega]
    constructor
    · rintro ⟨q, h, ha⟩
      have : q = p.map fun y => shr y 1 := anc_iff.1 ha
      rw [← this]; exact h
    · intro h
      exact ⟨_, h, anc_iff.2 rfl⟩
  rw [hpar]
  unfold Pred CA.Mem
  constructor
  · rintro ⟨⟨⟨a, b⟩, c⟩, d⟩
    exact ⟨⟨by omega, a⟩, fun h => b (.inl h.2), fun h => b (.inr h.2), c, by omega, d⟩
  · rintro ⟨⟨_, a⟩, b, b', c, _, d⟩
    exact ⟨⟨⟨a, fun h => h.elim (fun h => b ⟨by omega, h⟩) fun h => b' ⟨by omega, h⟩⟩, c⟩, d⟩

/-- The ghosts `update_bc` can give a value: those on a line along an axis or a diagonal of the first two coordinates, within three cells of the
boundary or among the ghosts of the conditions. -/
def BcFills (n : Nat) (b : Box) (bcs : List (BcCond K)) (q : List Int) : Prop :=
  ∃ p v k, Outward n b p v ∧ BcLine n v ∧ 1 ≤ k ∧ (k ≤ 3 ∨ ∃ c ∈ bcs, k ≤ c.kind.ghosts) ∧ q = walk n p (k : Nat) v

theorem BcFills.out {b : Box} {bcs : List (BcCond K)} {q : List Int} (h : BcFills n b bcs q) : ¬ InBox b n q := by
  obtain ⟨p, v, k, ho, _, hk, _, rfl⟩ := h
  exact ho.out (by omega)

/-- `update_bc` at one level. -/
theorem bcLevel_spec (g : GhostReady n M b w) {bcs : List (BcCond K)} (hbc : ∀ c ∈ bcs, GoodBc n M.dom w c) {level : Nat}
    (h1 : M.ref.minLevel - 1 ≤ level) (h2 : level ≤ M.ref.maxLevel) (u : Int → K) :
    ∃ u', updateBc n M.toBcMesh bcs level u = some u' ∧ Alters n M.ref (fun l p => l = level ∧ BcFills n (b l) bcs p) u u' := by
  obtain ⟨u', a1, a2, _⟩ := updateBc_spec (g.bc level h1 h2) hbc u
  refine ⟨u', a1, a2.alters.mono ?_⟩
  rintro l p _ ⟨rfl, h⟩
  exact ⟨rfl, h⟩

/-- The values of the cells of level `level` are those that `update_bc(level, field)` has left. -/
def AfterBc (n : Nat) (M : GhostMesh K) (bcs : List (BcCond K)) (level : Nat) (u : Int → K) : Prop :=
  ∃ ua ub, updateBc n M.toBcMesh bcs level ua = some ub ∧ ∀ p, M.ref.Mem n level p → u (numOf n M.ref level p) = ub (numOf n M.ref level p)

/-- `update_ghost_mr`. -/
theorem updateGhostMr_spec (g : GhostReady n M b w) {bcs : List (BcCond K)} (hbc : ∀ c ∈ bcs, GoodBc n M.dom w c) (u : Int → K) :
    ∃ u', updateGhostMr n M bcs u = some u' ∧
      Alters n M.ref (fun l p => M.proj.Mem n l p ∨ (M.ref.minLevel < l ∧ Pred n M l p) ∨ BcFills n (b l) bcs p) u u' ∧
      (∀ l p, M.proj.Mem n l p → u' (numOf n M.ref l p) = project (n + 1) (fun q => u' (numOf n M.ref (l + 1) (ofPt (n + 1) q))) (toPt p)) ∧
      (∀ l p, M.ref.minLevel < l → Pred n M l p → u' (numOf n M.ref l p) =
        predictFine (n + 1) M.cfg.predictionOrder (fun q => u' (numOf n M.ref (l - 1) (ofPt (n + 1) q))) (toPt p)) ∧
      ∀ l, M.ref.minLevel ≤ l → l ≤ M.ref.maxLevel → AfterBc n M bcs l u' := by
  obtain ⟨s1, s2⟩ := g.some
  obtain ⟨u1, a1, a2, a3⟩ := ghostDown_loop g u
  -- the coarsest level
  have base : ∃ u2, (if M.ref.minLevel > 0 ∧ M.ref.minLevel ≠ M.ref.maxLevel then ghostBase n M bcs (M.ref.minLevel - 1) u1 else some u1) = some u2 ∧
      Alters n M.ref (fun l p => BcFills n (b l) bcs p) u1 u2 := by
    split
    · obtain ⟨u2, c1, c2⟩ := bcLevel_spec g hbc (level := M.ref.minLevel - 1) le_rfl (by omega) u1
      refine ⟨u2, ?_, c2.mono fun l p _ h => h.2⟩
      unfold ghostBase
      rw [c1]
      exact g.periodic _ _
    · exact ⟨u1, rfl, Alters.refl _ _⟩
  obtain ⟨u2, c1, c2⟩ := base
  obtain ⟨u3, e1, e2⟩ := bcLevel_spec g hbc (level := M.ref.minLevel) (by omega) s1 u2
  have e3 : ghostBase n M bcs M.ref.minLevel u2 = some u3 := by
    unfold ghostBase
    rw [e1]
    exact g.periodic _ _
  -- the finer levels
  obtain ⟨u4, f1, f2, f3, f4⟩ := foldRange (ghostUp n M bcs)
    (fun k u' => Alters n M.ref (fun l p => M.ref.minLevel < l ∧ l < k ∧ (Pred n M l p ∨ BcFills n (b l) bcs p)) u3 u' ∧
      (∀ l p, M.ref.minLevel < l → l < k → Pred n M l p → u' (numOf n M.ref l p) =
        predictFine (n + 1) M.cfg.predictionOrder (fun q => u' (numOf n M.ref (l - 1) (ofPt (n + 1) q))) (toPt p)) ∧
      ∀ l, M.ref.minLevel ≤ l → l < k → AfterBc n M bcs l u')
    (M.ref.minLevel + 1) (M.ref.maxLevel - M.ref.minLevel) (by
      rintro k v k1 k2 ⟨i1, i2, i3⟩
      obtain ⟨calls, r1, r2, r3⟩ := ghostPredicted_holds g.toGhostCore (level := k) (by omega) (by omega)
      obtain ⟨v1, p1, p2, p3⟩ := predictRows_ok (l := k) (order := M.cfg.predictionOrder) g.refWF g.numbers r2 (by omega) (fun p hp => ((r3 p).1 hp).1)
        (fun p hp q hq => g.predNear k p q (by omega) ((r3 p).1 hp) hq) v
      obtain ⟨v2, q1, q2⟩ := bcLevel_spec g hbc (level := k) (by omega) (by omega) v1
      have hv : Alters n M.ref (fun l p => l = k ∧ (Pred n M l p ∨ BcFills n (b l) bcs p)) v v2 := by
        refine Alters.trans (p2.alters.mono ?_) (q2.mono fun l p _ h => ⟨h.1, .inr h.2⟩)
        rintro l p _ ⟨rfl, h⟩
        exact ⟨rfl, .inl ((r3 p).1 h)⟩
      have hat : ∀ l p, M.ref.Mem n l p → l ≠ k → v2 (numOf n M.ref l p) = v (numOf n M.ref l p) := fun l p hp hl =>
        hv.at g.refWF g.numbers hp fun h => hl h.1
      refine ⟨v2, ?_, ?_, ?_, ?_⟩
      · unfold ghostUp
        rw [r1]
        simp only []
        rw [p1]
        simp only []
        rw [g.periodic]
        exact q1
      · refine (i1.mono ?_).trans (hv.mono ?_)
        · rintro l p _ ⟨h1, h2, h3⟩; exact ⟨h1, by omega, h3⟩
        · rintro l p _ ⟨rfl, h3⟩; exact ⟨by omega, by omega, h3⟩
      · intro l p hl hlk hp
        rw [predict_vals (mem_length hp.1.2) fun q hq => hat (l - 1) q (g.predNear l p q hl hp hq) (by omega)]
        by_cases hk : l = k
        · subst hk
          rw [q2.at g.refWF g.numbers hp.1 fun h => h.2.out (g.predIn l p hl hp)]
          exact p3 p ((r3 p).2 hp)
        · rw [hat l p hp.1 hk]
          exact i2 l p hl (by omega) hp
      · intro l hl hlk
        by_cases hk : l = k
        · subst hk
          exact ⟨v1, v2, q1, fun _ _ => rfl⟩
        · obtain ⟨ua, ub, h1, h2⟩ := i3 l hl (by omega)
          exact ⟨ua, ub, h1, fun p hp => (hat l p hp hk).trans (h2 p hp)⟩)
    u3 ⟨Alters.refl _ _, fun l p h1 h2 => by omega, fun l h1 h2 => by
      obtain rfl : l = M.ref.minLevel := by omega
      exact ⟨u2, u3, e1, fun _ _ => rfl⟩⟩
  rw [show M.ref.minLevel + 1 + (M.ref.maxLevel - M.ref.minLevel) = M.ref.maxLevel + 1 by omega] at f2 f3 f4
  have h14 : Alters n M.ref (fun l p => (M.ref.minLevel < l ∧ Pred n M l p) ∨ BcFills n (b l) bcs p) u1 u4 := by
    refine (c2.mono fun l p _ h => .inr h).trans ((e2.mono fun l p _ h => .inr h.2).trans (f2.mono ?_))
    rintro l p _ ⟨h1, _, h | h⟩
    · exact .inl ⟨h1, h⟩
    · exact .inr h
  have keepC : ∀ l p, M.cells.Mem n l p → u4 (numOf n M.ref l p) = u1 (numOf n M.ref l p) := by
    intro l p hp
    have hl := g.levels (g.cellsRef l p hp)
    refine h14.at g.refWF g.numbers (g.cellsRef l p hp) ?_
    rintro (⟨_, h⟩ | h)
    · exact h.2.1 hp
    · exact h.out ((g.bc l (by omega) hl.2).leaves p hp)
  have keepP : ∀ l p, M.proj.Mem n l p → u4 (numOf n M.ref l p) = u1 (numOf n M.ref l p) := by
    intro l p hp
    refine h14.at g.refWF g.numbers (g.projRef l p hp) ?_
    rintro (⟨_, h⟩ | h)
    · exact h.2.2.1 hp
    · exact h.out (g.projIn l p hp)
  refine ⟨u4, ?_, ?_, ?_, fun l p hl hp => ?_, fun l h1 h2 => f4 l h1 (by omega)⟩
  · unfold updateGhostMr
    simp only []
    rw [a1]
    simp only []
    rw [c1]
    simp only []
    rw [e3]
    exact f1
  · exact (a2.mono fun l p _ h => .inl h).trans (h14.mono fun l p _ h => .inr h)
  · intro l p hp
    rw [keepP l p hp, a3 l p hp]
    refine project_vals (mem_length hp.2) fun q hq => ?_
    rcases g.projChild l p q hp hq with h | h
    · exact (keepC _ q h).symm
    · exact (keepP _ q h).symm
  · have := g.levels hp.1
    exact f3 l p hl (by omega) hp

end

end Samurai

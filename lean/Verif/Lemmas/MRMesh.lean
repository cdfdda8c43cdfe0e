import Verif.Lemmas.Mesh

namespace Samurai

/-- The cell list `cl` holds exactly the cells `S`. -/
def Hist (n m : Nat) (cl : CL n) (S : Nat → List Int → Prop) : Prop :=
  ∃ h : List (Nat × CellCall), runLevelCalls n m h = some cl ∧
    (∀ e ∈ h, e.1 ≤ m ∧ e.2.idx.length = n ∧ e.2.Valid) ∧ ∀ l p, S l p ↔ ∃ c, (l, c) ∈ h ∧ c.Adds p

theorem hist_new (n m : Nat) : Hist n m (CL.new n m) fun _ _ => False :=
  ⟨[], rfl, by simp, by simp⟩

theorem Hist.congr {n m : Nat} {cl : CL n} {S T : Nat → List Int → Prop} (h : Hist n m cl S) (hST : ∀ l p, T l p ↔ S l p) :
    Hist n m cl T := by
  obtain ⟨c, h1, h2, h3⟩ := h
  exact ⟨c, h1, h2, fun l p => (hST l p).trans (h3 l p)⟩

theorem Hist.le {n m : Nat} {cl : CL n} {S : Nat → List Int → Prop} (h : Hist n m cl S) {l : Nat} {p : List Int} (hp : S l p) :
    l ≤ m := by
  obtain ⟨c, _, h2, h3⟩ := h
  obtain ⟨e, he, _⟩ := (h3 l p).1 hp
  exact (h2 _ he).1

theorem Hist.calls {n m : Nat} {cl : CL n} {S : Nat → List Int → Prop} (h : Hist n m cl S) {k : List (Nat × CellCall)}
    (hk : ∀ e ∈ k, e.1 ≤ m ∧ e.2.idx.length = n ∧ e.2.Valid) :
    ∃ cl', cl.calls k = some cl' ∧ Hist n m cl' fun l p => S l p ∨ ∃ c, (l, c) ∈ k ∧ c.Adds p := by
  obtain ⟨hh, h1, h2, h3⟩ := h
  have hall : ∀ e ∈ hh ++ k, e.1 ≤ m ∧ e.2.idx.length = n ∧ e.2.Valid := by
    intro e he
    rcases List.mem_append.1 he with he | he
    · exact h2 e he
    · exact hk e he
  obtain ⟨cl', g1, _, _⟩ := runLevelCalls_spec (n := n) (maxSize := m) (h := hh ++ k) fun e he => (hall e he).1
  have g2 : cl.calls k = some cl' := by
    unfold runLevelCalls at g1 h1
    rw [CL.calls_append, h1] at g1
    exact g1
  refine ⟨cl', g2, hh ++ k, g1, hall, fun l p => ?_⟩
  simp only [h3, List.mem_append, or_and_right, exists_or]

theorem Hist.array {n m : Nat} {cl : CL n} {S : Nat → List Int → Prop} (h : Hist n m cl S) :
    (CA.ofCL cl).maxSize = m ∧ (CA.ofCL cl).WF n ∧ (CA.ofCL cl).Leveled ∧
      (∀ l p, ((CA.ofCL cl).lca l).Mem n p ↔ S l p) ∧ ∀ l p, (CA.ofCL cl).Mem n l p ↔ S l p := by
  have hh := h
  obtain ⟨k, h1, h2, h3⟩ := h
  obtain ⟨g1, g2, g3, g4⟩ := ofCL_spec h1 (fun e he => (h2 e he).1) (fun e he => (h2 e he).2.1) fun e he => (h2 e he).2.2
  refine ⟨g1, g2, g3, fun l p => (g4 l p).trans (h3 l p).symm, fun l p => ?_⟩
  unfold CA.Mem
  rw [g1, g4, ← h3]
  exact ⟨fun h => h.2, fun h => ⟨hh.le h, h⟩⟩

/-! ### ghosts of a level -/

theorem grow_rows {n : Nat} {c : CA} (h : c.WF n) {w l : Nat} {p : List Int} :
    (∃ e, (l, e) ∈ ((c.rows n).flatMap fun e => (grow w e.2.1 e.2.2).map fun k => (e.1, k)) ∧ e.Adds p) ↔
      ∃ q, c.Mem n l q ∧ Near w p q := by
  constructor
  · rintro ⟨e, he, ha⟩
    obtain ⟨⟨l', yz, i⟩, hr, he⟩ := List.mem_flatMap.1 he
    obtain ⟨k, hk, heq⟩ := List.mem_map.1 he
    simp only [Prod.mk.injEq] at heq
    obtain ⟨rfl, rfl⟩ := heq
    obtain ⟨r1, r2⟩ := CA.mem_rows.1 hr
    obtain ⟨x, hx, hn⟩ := (grow_adds (rows_valid (h _ r1) r2).2).1 ⟨k, hk, ha⟩
    exact ⟨yz ++ [x], (CA.mem_iff_rows h).2 ⟨yz, i, x, hr, hx, rfl⟩, hn⟩
  · rintro ⟨q, hq, hn⟩
    obtain ⟨yz, i, x, hr, hx, rfl⟩ := (CA.mem_iff_rows h).1 hq
    obtain ⟨r1, r2⟩ := CA.mem_rows.1 hr
    obtain ⟨k, hk, ha⟩ := (grow_adds (rows_valid (h _ r1) r2).2).2 ⟨x, hx, hn⟩
    exact ⟨k, List.mem_flatMap.2 ⟨_, hr, List.mem_map.2 ⟨k, hk, rfl⟩⟩, ha⟩

theorem mrGhostList_spec {n : Nat} {cfg : MeshConfig} {cells : CA} (h : cells.WF n) :
    ∃ cl, mrGhostList n cfg cells = some cl ∧
      Hist n cells.maxSize cl fun l p => ∃ q, cells.Mem n l q ∧ Near cfg.maxStencilWidth p q := by
  unfold mrGhostList
  rw [collectCalls_spec h]
  obtain ⟨cl, h1, h2⟩ := (hist_new n cells.maxSize).calls (k := (cells.rows n).flatMap fun e =>
      (grow cfg.maxStencilWidth e.2.1 e.2.2).map fun k => (e.1, k)) (by
    intro e he
    obtain ⟨⟨l', yz, i⟩, hr, he⟩ := List.mem_flatMap.1 he
    obtain ⟨k, hk, rfl⟩ := List.mem_map.1 he
    obtain ⟨r1, r2⟩ := CA.mem_rows.1 hr
    obtain ⟨v1, v2⟩ := rows_valid (h _ r1) r2
    exact ⟨r1, (grow_idx hk).trans v1, grow_valid v2 hk⟩)
  refine ⟨cl, h1, h2.congr fun l p => ?_⟩
  rw [grow_rows h]
  simp

/-! ### growing around the ancestors of the cells of a set -/

theorem shiftRight_valid {i : Interval} (k : Nat) (h : i.start < i.stop) : (i.shiftRight k).start < (i.shiftRight k).stop := by
  have : shr i.start k ≤ shr (i.stop - 1) k := shr_le_shr k (by omega)
  simp only [Interval.shiftRight]
  omega

/-- `interval >> k` grown by `w` in the rows `(index >> k) + stencil`. -/
theorem grow_up {n w k : Nat} {calls : List Call} (h : OkCalls n calls) {p : List Int} :
    (∃ e ∈ (calls.flatMap fun c => grow w (c.1.map fun y => shr y k) (c.2.shiftRight k)), e.Adds p) ↔
      ∃ q, Covers calls q ∧ Near w p (q.map fun y => shr y k) := by
  constructor
  · rintro ⟨e, he, ha⟩
    obtain ⟨c, hc, he⟩ := List.mem_flatMap.1 he
    have hv := (h c hc).2.1
    obtain ⟨x, hx, hn⟩ := (grow_adds (shiftRight_valid k hv)).1 ⟨e, he, ha⟩
    obtain ⟨y, hy, rfl⟩ := (mem_shiftRight hv).1 hx
    exact ⟨c.1 ++ [y], ⟨c, hc, y, hy, rfl⟩, by simpa using hn⟩
  · rintro ⟨q, ⟨c, hc, x, hx, rfl⟩, hn⟩
    have hv := (h c hc).2.1
    obtain ⟨e, he, ha⟩ := (grow_adds (w := w) (yz := c.1.map fun y => shr y k) (shiftRight_valid k hv)).2
      ⟨shr x k, (mem_shiftRight hv).2 ⟨x, hx, rfl⟩, by simpa using hn⟩
    exact ⟨e, List.mem_flatMap.2 ⟨c, hc, he⟩, ha⟩

theorem grow_up_ok {n w k : Nat} {calls : List Call} (h : OkCalls n calls) :
    ∀ e ∈ (calls.flatMap fun c => grow w (c.1.map fun y => shr y k) (c.2.shiftRight k)), e.idx.length = n ∧ e.Valid := by
  intro e he
  obtain ⟨c, hc, he⟩ := List.mem_flatMap.1 he
  refine ⟨?_, grow_valid (shiftRight_valid k (h c hc).2.1) he⟩
  rw [grow_idx he, List.length_map, (h c hc).1]

theorem map_level {l l' : Nat} {h : List CellCall} {p : List Int} :
    (∃ c, (l, c) ∈ (h.map fun e => (l', e)) ∧ c.Adds p) ↔ l = l' ∧ ∃ e ∈ h, e.Adds p := by
  constructor
  · rintro ⟨c, hc, ha⟩
    obtain ⟨e, he, heq⟩ := List.mem_map.1 hc
    simp only [Prod.mk.injEq] at heq
    obtain ⟨rfl, rfl⟩ := heq
    exact ⟨rfl, e, he, ha⟩
  · rintro ⟨rfl, e, he, ha⟩
    exact ⟨e, List.mem_map.2 ⟨e, he, rfl⟩, ha⟩

/-! ### the loop on the parents -/

/-- The cells near the parent of a ghost that no leaf refines, and near the grandparent of a leaf. -/
def MRStep (n : Nat) (cfg : MeshConfig) (cells u cg : CA) (level l : Nat) (p : List Int) : Prop :=
  (l + 1 = level ∧ ∃ q, cg.Mem n level q ∧ ¬ u.Mem n level q ∧ Near cfg.predictionOrder p (q.map fun y => shr y 1)) ∨
  (l + 2 = level ∧ ∃ q, cells.Mem n level q ∧ Near cfg.predictionOrder p (q.map fun y => shr y 2))

theorem flatMap_map_level {l' : Nat} (calls : List Call) (g : Call → List CellCall) :
    (calls.flatMap fun c => (g c).map fun e => (l', e)) = (calls.flatMap g).map fun e => (l', e) := by
  rw [List.map_flatMap]

theorem mrParentStep_spec {n : Nat} {cfg : MeshConfig} {cells u cg : CA} {cl : CL n} {S : Nat → List Int → Prop}
    {level : Nat} (hlev : 1 ≤ level) (hmax : level ≤ cells.maxSize) (hw : cells.WF n) (hl : cells.Leveled)
    (uw : u.WF n) (ul : u.Leveled) (us : u.maxSize = cells.maxSize)
    (gw : cg.WF n) (gl : cg.Leveled) (gs : cg.maxSize = cells.maxSize) {K : Int} (hK : K + 2 < INT_MAX)
    (sc : (cells.lca level).Small n K) (su : (u.lca level).Small n K) (sg : (cg.lca level).Small n K)
    (h : Hist n cells.maxSize cl S) :
    ∃ cl', mrParentStep n cfg cells u cg cl level = some cl' ∧
      Hist n cells.maxSize cl' fun l p => S l p ∨ MRStep n cfg cells u cg level l p := by
  obtain ⟨c1, a1, a2, a3⟩ := runSet_two (o := .diff) (gw level (by omega)) (uw level (by omega)) (gl level (by omega))
    (ul level (by omega)) sg su hK (ref := level) le_rfl
  obtain ⟨c2, b1, b2, b3⟩ := runDefault_two (o := .inter) (hw level hmax) (hw level hmax) (hl level hmax)
    (hl level hmax) sc sc hK
  have a3' : ∀ p, Covers c1 p ↔ (cg.Mem n level p ∧ ¬ u.Mem n level p) := by
    intro p
    rw [a3]
    show (AtLevel (cg.lca level).level level ((cg.lca level).Mem n) p ∧
      ¬ AtLevel (u.lca level).level level ((u.lca level).Mem n) p) ↔ _
    rw [gl level (by omega), ul level (by omega), atLevel_self, atLevel_self]
    unfold CA.Mem
    rw [gs, us]
    simp only [hmax, true_and]
  have b3' : ∀ p, Covers c2 p ↔ cells.Mem n level p := by
    intro p
    rw [b3]
    show ((cells.lca level).Mem n p ∧ (cells.lca level).Mem n p) ↔ _
    unfold CA.Mem
    simp only [hmax, true_and, and_self]
  obtain ⟨cl1, d1, d2⟩ := h.calls (k := (c1.flatMap fun c =>
      grow cfg.predictionOrder (c.1.map fun y => shr y 1) (c.2.shiftRight 1)).map fun e => (level - 1, e)) (by
    intro e he
    obtain ⟨e', he', rfl⟩ := List.mem_map.1 he
    obtain ⟨o1, o2⟩ := grow_up_ok a2 e' he'
    exact ⟨by simp only; omega, o1, o2⟩)
  have hif : (c2.flatMap fun c => if level - 1 > 0 then
        (grow cfg.predictionOrder (c.1.map fun y => shr y 2) (c.2.shiftRight 2)).map fun e => (level - 2, e) else []) =
      if level - 1 > 0 then (c2.flatMap fun c =>
        grow cfg.predictionOrder (c.1.map fun y => shr y 2) (c.2.shiftRight 2)).map fun e => (level - 2, e) else [] := by
    split
    · rw [flatMap_map_level]
    · simp
  obtain ⟨cl2, f1, f2⟩ := d2.calls (k := if level - 1 > 0 then (c2.flatMap fun c =>
      grow cfg.predictionOrder (c.1.map fun y => shr y 2) (c.2.shiftRight 2)).map fun e => (level - 2, e) else []) (by
    intro e he
    split at he
    · obtain ⟨e', he', rfl⟩ := List.mem_map.1 he
      obtain ⟨o1, o2⟩ := grow_up_ok b2 e' he'
      exact ⟨by simp only; omega, o1, o2⟩
    · simp at he)
  refine ⟨cl2, ?_, f2.congr fun l p => ?_⟩
  · unfold mrParentStep
    rw [a1]
    simp only []
    rw [flatMap_map_level, d1]
    simp only []
    rw [b1]
    simp only []
    rw [hif, f1]
  · rw [map_level, grow_up a2]
    unfold MRStep
    simp only [a3', and_assoc, or_assoc]
    refine or_congr_right (or_congr ?_ ?_)
    · exact and_congr_left fun _ => by omega
    · split
      · rw [map_level, grow_up b2]
        simp only [b3']
        exact and_congr_left fun _ => by omega
      · simp only [List.not_mem_nil, false_and, exists_false, iff_false, not_and]
        intro h0
        omega

end Samurai

namespace Samurai

/-! ### the children of the projection cells -/

theorem childRows_adds {n : Nat} {calls : List Call} (h : OkCalls n calls) {p : List Int} :
    (∃ e ∈ (calls.flatMap fun c => childRows c.1 c.2), e.Adds p) ↔ Covers calls (p.map fun y => shr y 1) := by
  constructor
  · rintro ⟨e, he, ha⟩
    obtain ⟨c, hc, he⟩ := List.mem_flatMap.1 he
    obtain ⟨st, hst, rfl⟩ := List.mem_map.1 he
    obtain ⟨x, h1, h2, rfl⟩ := ha
    have hx : x ∈ c.2.shiftLeft 1 := ⟨h1, h2⟩
    rw [mem_shiftLeft] at hx
    have hz := forall₂_ancestor.1 (zipWith_ancestor (k := 1).1 ⟨st, hst, rfl⟩)
    refine ⟨c, hc, _, hx, ?_⟩
    rw [List.map_append, ← hz]
    rfl
  · rintro ⟨c, hc, x, hx, heq⟩
    have hl : p.length = c.1.length + 1 := by
      have := congrArg List.length heq
      simpa using this
    obtain ⟨r, y, rfl⟩ : ∃ r y, p = r ++ [y] := by
      rcases List.eq_nil_or_concat p with rfl | ⟨r, y, rfl⟩
      · simp at hl
      · exact ⟨r, y, by simp⟩
    rw [List.map_append, List.map_singleton] at heq
    obtain ⟨h1, h2⟩ := snoc_inj heq
    subst h2
    obtain ⟨st, hst, hr⟩ := zipWith_ancestor.2 (forall₂_ancestor.2 h1.symm)
    have hx' := mem_shiftLeft.2 hx
    refine ⟨_, List.mem_flatMap.2 ⟨c, hc, List.mem_map.2 ⟨st, hst, rfl⟩⟩, y, hx'.1, hx'.2, ?_⟩
    rw [hr]

theorem childRows_ok {n : Nat} {calls : List Call} (h : OkCalls n calls) :
    ∀ e ∈ (calls.flatMap fun c => childRows c.1 c.2), e.idx.length = n ∧ e.Valid := by
  intro e he
  obtain ⟨c, hc, he⟩ := List.mem_flatMap.1 he
  obtain ⟨st, hst, rfl⟩ := List.mem_map.1 he
  have hs := (mem_nestedIndices.1 hst).1
  refine ⟨by simp [CellCall.idx, hs, (h c hc).1], ?_⟩
  show (c.2.shiftLeft 1).start < (c.2.shiftLeft 1).stop
  simp only [Interval.shiftLeft]
  exact (shl_lt_shl 1).2 (h c hc).2.1

theorem mrProjStep_spec {n m : Nat} {u : CA} {cl : CL n} {all proj : CA} {S : Nat → List Int → Prop} {level : Nat}
    (hlev : level + 1 ≤ m) (uw : u.WF n) (ul : u.Leveled) (us : u.maxSize = m)
    (aw : all.WF n) (al : all.Leveled) (as : all.maxSize = m) {K : Int} (hK : K + 2 < INT_MAX)
    (sa : (all.lca level).Small n K) (su : (u.lca level).Small n K)
    (h : Hist n m cl S) (pw : proj.WF n) (pl : proj.Leveled) :
    ∃ cl' L P, mrProjStep n u (cl, all, proj) level = some (cl', all.set (level + 1) L, proj.set level P) ∧
      (Hist n m cl' fun l p => S l p ∨ (l = level + 1 ∧ (all.lca level).Mem n (p.map fun y => shr y 1) ∧
        (u.lca level).Mem n (p.map fun y => shr y 1))) ∧
      (L.WF n ∧ L.level = level + 1 ∧ ∀ p, L.Mem n p ↔ S (level + 1) p ∨
        ((all.lca level).Mem n (p.map fun y => shr y 1) ∧ (u.lca level).Mem n (p.map fun y => shr y 1))) ∧
      (P.WF n ∧ P.level = level ∧ ∀ p, P.Mem n p ↔ (all.lca level).Mem n p ∧ (u.lca level).Mem n p) := by
  obtain ⟨calls, a1, a2, a3⟩ := runDefault_two (o := .inter) (aw level (by omega)) (uw level (by omega))
    (al level (by omega)) (ul level (by omega)) sa su hK
  have a3' : ∀ p, Covers calls p ↔ ((all.lca level).Mem n p ∧ (u.lca level).Mem n p) := a3
  obtain ⟨cl', d1, d2⟩ := h.calls (k := (calls.flatMap fun c => childRows c.1 c.2).map fun e => (level + 1, e)) (by
    intro e he
    obtain ⟨e', he', rfl⟩ := List.mem_map.1 he
    obtain ⟨o1, o2⟩ := childRows_ok a2 e' he'
    exact ⟨hlev, o1, o2⟩)
  have d2' := d2.congr (T := fun l p => S l p ∨ (l = level + 1 ∧ (all.lca level).Mem n (p.map fun y => shr y 1) ∧
        (u.lca level).Mem n (p.map fun y => shr y 1))) (by
    intro l p
    rw [map_level, childRows_adds a2, a3'])
  obtain ⟨b1, b2, b3, b4, b5⟩ := d2'.array
  obtain ⟨w1, w2, w3⟩ := lcaOfCalls_spec (level := level) a2
  refine ⟨cl', LCA.ofList (cl'.lcl (level + 1)), lcaOfCalls n level calls, ?_, d2',
    ⟨b2 (level + 1) (by omega), b3 (level + 1) (by omega), fun p => ?_⟩, w1, w2, fun p => (w3 p).trans (a3' p)⟩
  · unfold mrProjStep
    simp only []
    rw [a1]
    simp only []
    rw [flatMap_map_level, d1]
  · have := b4 (level + 1) p
    simp only [true_and] at this
    exact this

/-! ### the reference mesh -/

/-- The cells of the reference mesh before the children of the projection cells are added. -/
def MRBase (n : Nat) (cfg : MeshConfig) (cells : CA) (l : Nat) (p : List Int) : Prop :=
  (∃ q, cells.Mem n l q ∧ Near cfg.maxStencilWidth p q) ∨
  (∃ q, (∃ r, cells.Mem n (l + 1) r ∧ Near cfg.maxStencilWidth q r) ∧ ¬ CoveredBy n cells (l + 1) q ∧
    Near cfg.predictionOrder p (q.map fun y => shr y 1)) ∨
  (∃ q, cells.Mem n (l + 2) q ∧ Near cfg.predictionOrder p (q.map fun y => shr y 2))

/-- The cells `X` and the children of the cells covered by finer leaves, from the coarsest level on. -/
def MRGrow (n : Nat) (cells : CA) (minL : Nat) (X : Nat → List Int → Prop) : Nat → List Int → Prop
  | 0, p => X 0 p
  | l + 1, p => X (l + 1) p ∨
      (MRGrow n cells minL X l (p.map fun y => shr y 1) ∧ minL ≤ l + 1 ∧ CoveredBy n cells l (p.map fun y => shr y 1))

/-- The cells of the reference mesh `all_cells`. -/
def MRAll (n : Nat) (cfg : MeshConfig) (cells : CA) (minL : Nat) : Nat → List Int → Prop
  | 0, p => MRBase n cfg cells 0 p
  | l + 1, p => MRBase n cfg cells (l + 1) p ∨
      (MRAll n cfg cells minL l (p.map fun y => shr y 1) ∧ minL ≤ l + 1 ∧ CoveredBy n cells l (p.map fun y => shr y 1))

theorem near_below {w m : Nat} {p q : List Int} {D : Int} (h : Near w p q) (hq : ∀ x ∈ q, x * 2 ^ m < D) :
    ∀ x ∈ p, x * 2 ^ m < D + w * 2 ^ m := by
  induction h with
  | nil => simp
  | @cons a b p q hab _ ih =>
    intro x hx
    rcases List.mem_cons.1 hx with rfl | hx
    · have h1 := hq b List.mem_cons_self
      have h3 := pow_two_pos m
      have h4 : x * 2 ^ m ≤ (b + w) * 2 ^ m := Int.mul_le_mul_of_nonneg_right hab.1 (le_of_lt h3)
      rw [add_mul] at h4
      omega
    · exact ih (fun y hy => hq y (List.mem_cons_of_mem _ hy)) x hx

theorem pow_mono_two {a b : Nat} (h : a ≤ b) : (2 : Int) ^ a ≤ 2 ^ b := pow_le_pow_right₀ (by norm_num) h

theorem up_below {k m : Nat} {q : List Int} {D : Int} (hq : ∀ x ∈ q, x * 2 ^ m < D) :
    ∀ x ∈ q.map (fun y => shr y k), x * 2 ^ (m + k) < D := anc_below (anc_iff.2 rfl) hq

theorem mrBase_below {n : Nat} {cfg : MeshConfig} {cells : CA} {M : Nat} {D : Int} (hb : cells.Below n M D)
    (hM : ∀ l p, cells.Mem n l p → l ≤ M) {l : Nat} {p : List Int} (h : MRBase n cfg cells l p) :
    l ≤ M ∧ ∀ x ∈ p, x * 2 ^ (M - l) < D + ((cfg.maxStencilWidth : Int) + cfg.predictionOrder) * 2 ^ M := by
  have hp : ∀ k, (2 : Int) ^ (M - k) ≤ 2 ^ M := fun k => pow_mono_two (by omega)
  have hpos := pow_two_pos M
  have hmul : ∀ (w : Nat) k, (w : Int) * 2 ^ (M - k) ≤ w * 2 ^ M := fun w k =>
    Int.mul_le_mul_of_nonneg_left (hp k) (by omega)
  have hw0 : ∀ w : Nat, (0 : Int) ≤ w * 2 ^ M := fun w => Int.mul_nonneg (by omega) (le_of_lt hpos)
  rw [add_mul]
  rcases h with ⟨q, h1, h2⟩ | ⟨q, ⟨r, h1, h2⟩, _, h3⟩ | ⟨q, h1, h2⟩
  · refine ⟨hM l q h1, fun x hx => ?_⟩
    have := near_below h2 (hb l q h1) x hx
    have := hmul cfg.maxStencilWidth l
    have := hw0 cfg.predictionOrder
    omega
  · have hl := hM _ r h1
    refine ⟨by omega, fun x hx => ?_⟩
    have e1 := up_below (k := 1) (near_below h2 (hb _ r h1))
    rw [show M - (l + 1) + 1 = M - l by omega] at e1
    have := near_below h3 e1 x hx
    have := hmul cfg.maxStencilWidth (l + 1)
    have := hmul cfg.predictionOrder l
    omega
  · have hl := hM _ q h1
    refine ⟨by omega, fun x hx => ?_⟩
    have e1 := up_below (k := 2) (hb _ q h1)
    rw [show M - (l + 2) + 2 = M - l by omega] at e1
    have := near_below h2 e1 x hx
    have := hmul cfg.predictionOrder l
    have := hw0 cfg.maxStencilWidth
    omega

theorem mrAll_below {n : Nat} {cfg : MeshConfig} {cells : CA} {M minL : Nat} {D : Int} (hb : cells.Below n M D)
    (hM : ∀ l p, cells.Mem n l p → l ≤ M) {l : Nat} {p : List Int} (h : MRAll n cfg cells minL l p) :
    l ≤ M ∧ ∀ x ∈ p, x * 2 ^ (M - l) < D + ((cfg.maxStencilWidth : Int) + cfg.predictionOrder + 1) * 2 ^ M := by
  have hpos := pow_two_pos M
  rw [add_mul _ 1]
  have key : ∀ {l : Nat} {p : List Int}, MRBase n cfg cells l p → l ≤ M ∧ ∀ x ∈ p, x * 2 ^ (M - l) <
      D + (((cfg.maxStencilWidth : Int) + cfg.predictionOrder) * 2 ^ M + 1 * 2 ^ M) := by
    intro l p h
    obtain ⟨h1, h2⟩ := mrBase_below hb hM h
    exact ⟨h1, fun x hx => by have := h2 x hx; omega⟩
  cases l with
  | zero => exact key h
  | succ l =>
    rcases h with h | ⟨_, _, hc⟩
    · exact key h
    · have hl : l + 1 ≤ M := by
        obtain ⟨l', q, h1, h2, _⟩ := hc
        have := hM l' q h2
        omega
      refine ⟨hl, fun x hx => ?_⟩
      have h1 := coveredBy_below hb hM hc (shr x 1) (List.mem_map.2 ⟨x, hx, rfl⟩)
      have h2 : x < shl (shr x 1 + 1) 1 := lt_shl_shr_succ x 1
      unfold shl at h2
      have h3 := pow_two_pos (M - (l + 1))
      have h4 : x * 2 ^ (M - (l + 1)) ≤ ((shr x 1 + 1) * 2 ^ 1) * 2 ^ (M - (l + 1)) :=
        Int.mul_le_mul_of_nonneg_right (by omega) (le_of_lt h3)
      rw [show ((shr x 1 + 1) * 2 ^ 1) * 2 ^ (M - (l + 1)) = shr x 1 * 2 ^ (M - (l + 1) + 1) + 2 ^ (M - (l + 1) + 1) by
        rw [pow_succ]; ring, show M - (l + 1) + 1 = M - l by omega] at h4
      have h5 : (2 : Int) ^ (M - l) ≤ 2 ^ M := pow_mono_two (by omega)
      have h6 : (0 : Int) ≤ ((cfg.maxStencilWidth : Int) + cfg.predictionOrder) * 2 ^ M :=
        Int.mul_nonneg (by omega) (le_of_lt hpos)
      omega

theorem small_of_below {m : Nat} {p : List Int} {D : Int} (hD : 0 ≤ D) (h : ∀ x ∈ p, x * 2 ^ m < D) : ∀ x ∈ p, x < D := by
  intro x hx
  have h1 := h x hx
  have h2 := pow_two_pos m
  by_contra hlt
  have : x * 1 ≤ x * 2 ^ m := Int.mul_le_mul_of_nonneg_left (by omega) (by omega)
  omega

/-- What is known of the sub-meshes of a multiresolution mesh. -/
structure MROK (n : Nat) (cfg : MeshConfig) (cells : CA) (minL maxL : Nat) (m : SubMeshes) : Prop where
  cells_eq : m.cells = cells
  size : m.ghosts.maxSize = cells.maxSize ∧ m.proj.maxSize = cells.maxSize ∧ m.all.maxSize = cells.maxSize
  wf : m.ghosts.WF n ∧ m.proj.WF n ∧ m.all.WF n
  leveled : m.ghosts.Leveled ∧ m.proj.Leveled ∧ m.all.Leveled
  ghosts : ∀ l p, m.ghosts.Mem n l p ↔ ∃ q, cells.Mem n l q ∧ Near cfg.maxStencilWidth p q
  proj : minL ≠ maxL → ∀ l p, m.proj.Mem n l p ↔ MRAll n cfg cells minL l p ∧ minL ≤ l + 1 ∧ CoveredBy n cells l p
  all : minL ≠ maxL → ∀ l p, m.all.Mem n l p ↔ MRAll n cfg cells minL l p
  flat : minL = maxL → (∀ l p, m.all.Mem n l p ↔ m.ghosts.Mem n l p) ∧ ∀ l p, ¬ m.proj.Mem n l p

theorem CA.mem_levels {n : Nat} {c : CA} (h : c.WF n) {l : Nat} {p : List Int} (hp : c.Mem n l p) :
    c.minLevel ≤ l ∧ l ≤ c.maxLevel := by
  have hne : (c.lca l).isEmpty = false := by
    obtain ⟨e, he, _⟩ := (Samurai.mem_iff_rows (h l hp.1) p).1 hp.2
    by_contra hc
    rw [Bool.not_eq_false] at hc
    rw [(rows_eq_nil_iff (h l hp.1)).2 hc] at he
    simp at he
  rcases c.level_cases with ⟨h1, _, _⟩ | ⟨_, _, _, _, h3, h4⟩
  · rw [h1 l hp.1] at hne; simp at hne
  · constructor
    · by_contra hlt
      rw [h3 l (by omega)] at hne; simp at hne
    · by_contra hlt
      rw [h4 l (by omega) hp.1] at hne; simp at hne

end Samurai

namespace Samurai

theorem mem_lca {n : Nat} {c : CA} {l : Nat} (hl : l ≤ c.maxSize) {p : List Int} : (c.lca l).Mem n p ↔ c.Mem n l p := by
  unfold CA.Mem
  simp [hl]

theorem mrParents_spec {n : Nat} {cfg : MeshConfig} {cells u : CA} {minL maxL : Nat} (hw : cells.WF n)
    (hl : cells.Leveled) (hb : cells.Between n minL maxL) (hmax : maxL ≤ cells.maxSize) {D : Int} (hD0 : 0 ≤ D)
    (hD : D + ((cfg.maxStencilWidth : Int) + cfg.predictionOrder + 1) * 2 ^ maxL + 2 < INT_MAX)
    (hbl : cells.Below n maxL D) (hu : UnionOK n cells u minL) :
    ∃ cl0 cl1, mrGhostList n cfg cells = some cl0 ∧
      (Hist n cells.maxSize cl0 fun l p => ∃ q, cells.Mem n l q ∧ Near cfg.maxStencilWidth p q) ∧
      (downFrom cells.maxLevel (if cells.minLevel = 0 then 1 else cells.minLevel)).foldlM (mrParentStep n cfg cells u (CA.ofCL cl0)) cl0 = some cl1 ∧
      Hist n cells.maxSize cl1 (MRBase n cfg cells) := by
  have hM : ∀ l p, cells.Mem n l p → l ≤ maxL := fun l p h => (hb l p h).2
  obtain ⟨cl0, c1, c2⟩ := mrGhostList_spec (cfg := cfg) hw
  obtain ⟨g1, g2, g3, g4, g5⟩ := c2.array
  -- bounds
  let K : Int := D + ((cfg.maxStencilWidth : Int) + cfg.predictionOrder + 1) * 2 ^ maxL
  have hpos := pow_two_pos maxL
  have hmul0 : (0 : Int) ≤ ((cfg.maxStencilWidth : Int) + cfg.predictionOrder + 1) * 2 ^ maxL :=
    Int.mul_nonneg (by omega) (le_of_lt hpos)
  have hK : K + 2 < INT_MAX := hD
  have hK0 : 0 ≤ K := Int.add_nonneg hD0 hmul0
  have small_all : ∀ l p, MRAll n cfg cells minL l p → ∀ x ∈ p, x < K := fun l p h =>
    small_of_below hK0 (mrAll_below hbl hM h).2
  have small_base : ∀ l p, MRBase n cfg cells l p → ∀ x ∈ p, x < K := fun l p h => by
    refine small_all l p ?_
    cases l with
    | zero => exact h
    | succ l => exact Or.inl h
  have small_u : ∀ l, l ≤ cells.maxSize → (u.lca l).Small n K := by
    intro l hlm p hp x hx
    have h1 := (hu.mem l p).1 ⟨by rw [hu.size]; exact hlm, hp⟩
    have := small_of_below hD0 (coveredBy_below hbl hM h1.2) x hx
    show x < D + _
    omega
  have small_c : ∀ l, l ≤ cells.maxSize → (cells.lca l).Small n K := by
    intro l hlm p hp x hx
    have := small_of_below hD0 (hbl l p ⟨hlm, hp⟩) x hx
    show x < D + _
    omega
  have small_g : ∀ l, l ≤ cells.maxSize → ((CA.ofCL cl0).lca l).Small n K := fun l _ p hp =>
    small_base l p (Or.inl ((g4 l p).1 hp))
  -- the loop on the parents
  let lo := if cells.minLevel = 0 then 1 else cells.minLevel
  have hlo : 1 ≤ lo := by
    show 1 ≤ (if cells.minLevel = 0 then 1 else cells.minLevel)
    split <;> omega
  have hmaxL : cells.maxLevel ≤ cells.maxSize := by
    rcases cells.level_cases with ⟨_, h, _⟩ | ⟨_, h, _⟩ <;> omega
  have gm : ∀ l p, (CA.ofCL cl0).Mem n l p → cells.minLevel ≤ l ∧ l ≤ cells.maxLevel := by
    intro l p h
    obtain ⟨q, hq, _⟩ := (g5 l p).1 h
    exact CA.mem_levels hw hq
  let S : Nat → Nat → List Int → Prop := fun k l p =>
    (∃ q, cells.Mem n l q ∧ Near cfg.maxStencilWidth p q) ∨
      ∃ level, k < level ∧ 1 ≤ level ∧ MRStep n cfg cells u (CA.ofCL cl0) level l p
  obtain ⟨cl1, p1, p2⟩ := foldDown (mrParentStep n cfg cells u (CA.ofCL cl0)) (fun k cl => Hist n cells.maxSize cl (S k)) lo
    cells.maxLevel hlo (by
      intro k cl hk1 hk2 hI
      have hk3 : k ≤ cells.maxSize := by omega
      obtain ⟨cl', h1, h2⟩ := mrParentStep_spec (cfg := cfg) (by omega) hk3 hw hl hu.wf hu.leveled hu.size g2 g3 g1 hK
        (small_c k hk3) (small_u k hk3) (small_g k hk3) hI
      refine ⟨cl', h1, h2.congr fun l p => ?_⟩
      constructor
      · rintro (h | ⟨lv, h3, h4, h5⟩)
        · exact Or.inl (Or.inl h)
        · by_cases hlv : lv = k
          · subst hlv; exact Or.inr h5
          · exact Or.inl (Or.inr ⟨lv, by omega, h4, h5⟩)
      · rintro ((h | ⟨lv, h3, h4, h5⟩) | h)
        · exact Or.inl h
        · exact Or.inr ⟨lv, by omega, h4, h5⟩
        · exact Or.inr ⟨k, by omega, by omega, h⟩) cells.maxLevel cl0 le_rfl (by
      refine c2.congr fun l p => ⟨?_, Or.inl⟩
      rintro (h | ⟨lv, h3, h4, h5⟩)
      · exact h
      · exfalso
        rcases h5 with ⟨_, q, h6, _⟩ | ⟨_, q, h6, _⟩
        · have := gm lv q h6; omega
        · have := CA.mem_levels hw h6; omega)
  have p3 : Hist n cells.maxSize cl1 (MRBase n cfg cells) := by
    refine p2.congr fun l p => ?_
    constructor
    · rintro (h | ⟨q, h1, h2, h3⟩ | ⟨q, h1, h2⟩)
      · exact Or.inl h
      · have hg := (g5 (l + 1) q).2 h1
        have := gm _ q hg
        refine Or.inr ⟨l + 1, ?_, by omega, Or.inl ⟨rfl, q, hg, fun h => h2 ((hu.mem _ _).1 h).2, h3⟩⟩
        show min cells.maxLevel ((if cells.minLevel = 0 then 1 else cells.minLevel) - 1) < l + 1
        split <;> omega
      · have := CA.mem_levels hw h1
        refine Or.inr ⟨l + 2, ?_, by omega, Or.inr ⟨rfl, q, h1, h2⟩⟩
        show min cells.maxLevel ((if cells.minLevel = 0 then 1 else cells.minLevel) - 1) < l + 2
        split <;> omega
    · rintro (h | ⟨lv, _, _, ⟨rfl, q, h1, h2, h3⟩ | ⟨rfl, q, h1, h2⟩⟩)
      · exact Or.inl h
      · obtain ⟨r, hr, hn⟩ := (g5 _ q).1 h1
        have := (hb _ r hr).1
        exact Or.inr (Or.inl ⟨q, ⟨r, hr, hn⟩, fun h => h2 ((hu.mem _ _).2 ⟨by omega, h⟩), h3⟩)
      · exact Or.inr (Or.inr ⟨q, h1, h2⟩)
  exact ⟨cl0, cl1, c1, c2, p1, p3⟩

theorem mrProj_spec {n : Nat} {cells u : CA} {minL : Nat} (hw : cells.WF n) (hu : UnionOK n cells u minL) {X : Nat → List Int → Prop} {K : Int}
    (hK : K + 2 < INT_MAX) (small_all : ∀ l p, MRGrow n cells minL X l p → ∀ x ∈ p, x < K)
    (small_u : ∀ l, l ≤ cells.maxSize → (u.lca l).Small n K) {cl1 : CL n} {all1 : CA} (p3 : Hist n cells.maxSize cl1 X)
    (a1 : all1.maxSize = cells.maxSize) (a2 : all1.WF n) (a3 : all1.Leveled) (a4 : ∀ l p, (all1.lca l).Mem n p ↔ X l p) :
    ∃ cl2 all proj, (List.range cells.maxLevel).foldlM (mrProjStep n u) (cl1, all1, CA.empty n cells.maxSize) = some (cl2, all, proj) ∧
      (all.maxSize = cells.maxSize ∧ all.WF n ∧ all.Leveled ∧ ∀ l p, all.Mem n l p ↔ MRGrow n cells minL X l p) ∧
      (proj.maxSize = cells.maxSize ∧ proj.WF n ∧ proj.Leveled ∧
        ∀ l p, proj.Mem n l p ↔ MRGrow n cells minL X l p ∧ minL ≤ l + 1 ∧ CoveredBy n cells l p) := by
  obtain ⟨e1, e2, e3, e4⟩ := empty_spec n cells.maxSize
  have hmaxL : cells.maxLevel ≤ cells.maxSize := by
    rcases cells.level_cases with ⟨_, h, _⟩ | ⟨_, h, _⟩ <;> omega
  let T : Nat → Nat → List Int → Prop := fun k l p => if l ≤ k then MRGrow n cells minL X l p else X l p
  have hT0 : ∀ l p, T 0 l p ↔ X l p := by
    intro l p
    show (if l ≤ 0 then MRGrow n cells minL X l p else X l p) ↔ _
    split
    · rename_i h
      obtain rfl : l = 0 := by omega
      exact Iff.rfl
    · exact Iff.rfl
  obtain ⟨⟨cl2, all, proj⟩, q1, q2, q3, q4, q5, q6, q7, q8, q9, q10⟩ := foldUp (mrProjStep n u)
    (fun k (s : CL n × CA × CA) => Hist n cells.maxSize s.1 (T k) ∧ s.2.1.maxSize = cells.maxSize ∧ s.2.1.WF n ∧
      s.2.1.Leveled ∧ (∀ l p, (s.2.1.lca l).Mem n p ↔ T k l p) ∧ s.2.2.maxSize = cells.maxSize ∧ s.2.2.WF n ∧
      s.2.2.Leveled ∧ ∀ l p, (s.2.2.lca l).Mem n p ↔
        l < k ∧ MRGrow n cells minL X l p ∧ minL ≤ l + 1 ∧ CoveredBy n cells l p) cells.maxLevel (by
      rintro k ⟨cl, all, proj⟩ hk ⟨h1, h2, h3, h4, h5, h6, h7, h8, h9⟩
      simp only [] at h1 h2 h3 h4 h5 h6 h7 h8 h9
      have hk3 : k + 1 ≤ cells.maxSize := by omega
      have hk' : ∀ p, (all.lca k).Mem n p ↔ MRGrow n cells minL X k p := by
        intro p
        rw [h5 k p]
        show (if k ≤ k then _ else _) ↔ _
        rw [if_pos le_rfl]
      have hu' : ∀ p, (u.lca k).Mem n p ↔ minL ≤ k + 1 ∧ CoveredBy n cells k p := by
        intro p
        rw [mem_lca (by rw [hu.size]; omega), hu.mem]
      obtain ⟨cl', L, P, s1, s2, ⟨s3, s4, s5⟩, s6, s7, s8⟩ := mrProjStep_spec hk3 hu.wf hu.leveled hu.size h3 h4 h2 hK
        (fun p hp => small_all k p ((hk' p).1 hp)) (small_u k (by omega)) h1 h7 h8
      have key : ∀ p, T (k + 1) (k + 1) p ↔ (T k (k + 1) p ∨ ((all.lca k).Mem n (p.map fun y => shr y 1) ∧
          (u.lca k).Mem n (p.map fun y => shr y 1))) := by
        intro p
        show (if k + 1 ≤ k + 1 then _ else _) ↔ ((if k + 1 ≤ k then _ else _) ∨ _)
        rw [if_pos le_rfl, if_neg (by omega), hk', hu']
        exact Iff.rfl
      have key2 : ∀ l p, l ≠ k + 1 → (T (k + 1) l p ↔ T k l p) := by
        intro l p hlk
        show (if l ≤ k + 1 then _ else _) ↔ (if l ≤ k then _ else _)
        by_cases h : l ≤ k
        · rw [if_pos h, if_pos (by omega)]
        · rw [if_neg h, if_neg (by omega)]
      refine ⟨_, s1, s2.congr fun l p => ?_, h2, CA.set_wf h3 s3, CA.set_leveled h4 s4, fun l p => ?_, h6,
        CA.set_wf h7 s6, CA.set_leveled h8 s7, fun l p => ?_⟩
      · by_cases hlk : l = k + 1
        · subst hlk
          rw [key]
          simp only [true_and]
        · rw [key2 l p hlk]
          simp only [hlk, false_and, or_false]
      · by_cases hlk : l = k + 1
        · subst hlk
          rw [CA.set_same, s5, key]
        · rw [CA.set_ne _ hlk, h5, key2 l p hlk]
      · by_cases hlk : l = k
        · subst hlk
          rw [CA.set_same, s8, hk', hu']
          simp only [Nat.lt_succ_self, true_and]
        · rw [CA.set_ne _ hlk, h9]
          have : l < k + 1 ↔ l < k := by omega
          rw [this]) (cl1, all1, CA.empty n cells.maxSize)
      ⟨p3.congr hT0, a1, a2, a3, fun l p => (a4 l p).trans (hT0 l p).symm, e1, e2, e3, fun l p =>
        ⟨fun h => absurd h (e4 l p), fun h => absurd h.1 (by omega)⟩⟩
  simp only [] at q2 q3 q4 q5 q6 q7 q8 q9 q10
  have hc : ∀ l p, CoveredBy n cells l p → l < cells.maxLevel := by
    rintro l p ⟨l', q, h1, h2, _⟩
    have := CA.mem_levels hw h2
    omega
  have hT : ∀ l p, T cells.maxLevel l p ↔ MRGrow n cells minL X l p := by
    intro l p
    show (if l ≤ cells.maxLevel then _ else _) ↔ _
    split
    · exact Iff.rfl
    · rename_i hgt
      cases l with
      | zero => omega
      | succ l =>
        refine ⟨Or.inl, ?_⟩
        rintro (h | ⟨_, _, h⟩)
        · exact h
        · have := hc _ _ h; omega
  refine ⟨cl2, all, proj, q1, ⟨q3, q4, q5, fun l p => ?_⟩, q7, q8, q9, fun l p => ?_⟩
  · unfold CA.Mem
    rw [q6, hT, q3]
    refine ⟨fun h => h.2, fun h => ⟨?_, h⟩⟩
    cases l with
    | zero => omega
    | succ l =>
      rcases h with h | ⟨_, _, h⟩
      · exact p3.le h
      · have := hc _ _ h; omega
  · unfold CA.Mem
    rw [q10, q7]
    constructor
    · rintro ⟨_, _, h⟩; exact h
    · intro h
      have := hc _ _ h.2.2
      exact ⟨by omega, this, h⟩

theorem mrGrow_base {n : Nat} {cfg : MeshConfig} {cells : CA} {minL l : Nat} {p : List Int} :
    MRGrow n cells minL (MRBase n cfg cells) l p ↔ MRAll n cfg cells minL l p := by
  induction l generalizing p with
  | zero => exact Iff.rfl
  | succ l ih => exact or_congr_right (and_congr_left fun _ => ih)

theorem mrUpdateSubMesh_spec {n : Nat} {cfg : MeshConfig} {cells u : CA} {minL maxL : Nat} (hw : cells.WF n)
    (hl : cells.Leveled) (hb : cells.Between n minL maxL) (hmax : maxL ≤ cells.maxSize) {D : Int} (hD0 : 0 ≤ D)
    (hD : D + ((cfg.maxStencilWidth : Int) + cfg.predictionOrder + 1) * 2 ^ maxL + 2 < INT_MAX)
    (hbl : cells.Below n maxL D) (hu : UnionOK n cells u minL) :
    ∃ m, mrUpdateSubMesh n cfg cells u minL maxL = some m ∧ MROK n cfg cells minL maxL m := by
  have hM : ∀ l p, cells.Mem n l p → l ≤ maxL := fun l p h => (hb l p h).2
  obtain ⟨cl0, cl1, c1, c2, p1, p3⟩ := mrParents_spec (cfg := cfg) hw hl hb hmax hD0 hD hbl hu
  obtain ⟨g1, g2, g3, g4, g5⟩ := c2.array
  obtain ⟨e1, e2, e3, e4⟩ := empty_spec n cells.maxSize
  have e5 : ∀ l p, ¬ (CA.empty n cells.maxSize).Mem n l p := fun l p h => e4 l p h.2
  unfold mrUpdateSubMesh
  rw [c1]
  simp only []
  by_cases hne : maxL = minL
  · rw [if_neg (by simpa using hne)]
    refine ⟨_, rfl, rfl, ⟨g1, e1, g1⟩, ⟨g2, e2, g2⟩, ⟨g3, e3, g3⟩, g5, fun h => absurd hne.symm h, fun h => absurd hne.symm h,
      fun _ => ⟨fun _ _ => Iff.rfl, e5⟩⟩
  rw [if_pos hne, p1]
  simp only []
  let K : Int := D + ((cfg.maxStencilWidth : Int) + cfg.predictionOrder + 1) * 2 ^ maxL
  have hpos := pow_two_pos maxL
  have hmul0 : (0 : Int) ≤ ((cfg.maxStencilWidth : Int) + cfg.predictionOrder + 1) * 2 ^ maxL :=
    Int.mul_nonneg (by omega) (le_of_lt hpos)
  have hK0 : 0 ≤ K := Int.add_nonneg hD0 hmul0
  obtain ⟨a1, a2, a3, a4, a5⟩ := p3.array
  obtain ⟨cl2, all, proj, q1, ⟨q2, q3, q4, q5⟩, q6, q7, q8, q9⟩ := mrProj_spec hw hu (K := K) hD
    (fun l p h => small_of_below hK0 (mrAll_below hbl hM (mrGrow_base.1 h)).2) (by
      intro l hlm p hp x hx
      have h1 := (hu.mem l p).1 ⟨by rw [hu.size]; exact hlm, hp⟩
      have := small_of_below hD0 (coveredBy_below hbl hM h1.2) x hx
      show x < D + _
      omega) p3 a1 a2 a3 a4
  rw [q1]
  exact ⟨_, rfl, rfl, ⟨g1, q6, q2⟩, ⟨g2, q7, q3⟩, ⟨g3, q8, q4⟩, g5, fun _ l p => by rw [q9, mrGrow_base],
    fun _ l p => by rw [q5, mrGrow_base], fun h => absurd h.symm hne⟩

end Samurai

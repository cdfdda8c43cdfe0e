import Verif.Model.AMRMesh
import Verif.Lemmas.MeshFull

namespace Samurai

/-! ### running any expression of meshes -/

theorem runSet_any {n : Nat} {e : Expr Node} (h : e.Admissible n) (ref : Nat) :
    ∃ calls, runSet n e ref = some calls ∧ OkCalls n calls ∧ ∀ p, Covers calls p ↔ SetHolds n e ref p := by
  rcases Nat.lt_or_ge e.finest ref with hr | hr
  · obtain ⟨calls, h1, h2⟩ := C15_on n e h ref
    obtain ⟨calls0, g1, g2, g3, _⟩ := run_spec h ref
    rw [g1] at h1
    cases h1
    refine ⟨_, g1, fun c hc => ?_, h2⟩
    rw [List.mem_flatMap] at hc
    obtain ⟨c0, hc0, hc⟩ := hc
    have hv := (g2.2 c0 hc0).1
    unfold emit at hc
    rw [if_neg (by omega), List.mem_map] at hc
    obtain ⟨st, hst, rfl⟩ := hc
    have hs := (mem_nestedIndices.1 hst).1
    have hl := g3 c0 hc0
    refine ⟨?_, ?_, rfl, (g2.2 c0 hc0).2.2⟩
    · simp only [List.length_zipWith]
      omega
    · exact (shl_lt_shl _).2 hv
  · obtain ⟨calls, h1, h2, h3⟩ := runSet_ok h hr
    refine ⟨calls, h1, h2, fun p => (h3 p).trans ?_⟩
    unfold SetHolds
    rw [if_pos hr]

theorem inRange_below {n m M : Nat} {L : LCA} (h : L.WF n) (hm : m ≤ M) (hl : L.level ≤ M) {D : Int} (hD0 : 0 ≤ D)
    (hb : L.BelowAt n M D) (hD : D + 2 * 2 ^ M + 2 < INT_MAX) : (Node.mesh L).InRange n m := by
  have hk := pow_two_pos (M - L.level)
  have hkM : (2 : Int) ^ (M - L.level) ≤ 2 ^ M := pow_mono_two (by omega)
  have hB : ∀ p, L.Mem n p → ∀ c ∈ p, c < D / 2 ^ (M - L.level) + 1 := by
    intro p hp c hc
    have h1 := hb p hp c hc
    have h2 : c ≤ D / 2 ^ (M - L.level) := (Int.le_ediv_iff_mul_le hk).2 (by omega)
    omega
  refine inRange_mesh h hB ?_
  have h3 : D / 2 ^ (M - L.level) * 2 ^ (M - L.level) ≤ D := Int.ediv_mul_le D (by omega)
  have h4 : (0 : Int) ≤ D / 2 ^ (M - L.level) := Int.ediv_nonneg hD0 (by omega)
  have h5 : (2 : Int) ^ (m - L.level) ≤ 2 ^ (M - L.level) := pow_mono_two (by omega)
  have h6 : (D / 2 ^ (M - L.level) + 1 + 1) * 2 ^ (m - L.level) ≤ (D / 2 ^ (M - L.level) + 1 + 1) * 2 ^ (M - L.level) :=
    Int.mul_le_mul_of_nonneg_left h5 (by omega)
  have h7 : (D / 2 ^ (M - L.level) + 1 + 1) * 2 ^ (M - L.level) =
      D / 2 ^ (M - L.level) * 2 ^ (M - L.level) + 2 * 2 ^ (M - L.level) := by ring
  omega

/-- A mesh that can be used in an expression. -/
def Usable (n M : Nat) (D : Int) (N : Node) : Prop :=
  ∃ L, N = Node.mesh L ∧ L.WF n ∧ L.level ≤ M ∧ L.BelowAt n M D

theorem usable_finest {n M : Nat} {D : Int} {e : Expr Node} (h : e.All (Usable n M D)) : e.finest ≤ M := by
  induction e with
  | leaf N =>
    obtain ⟨L, rfl, _, hl, _⟩ := h
    exact hl
  | op o a b iha ihb => exact Nat.max_le.2 ⟨iha h.1, ihb h.2⟩

theorem usable_admissible {n M : Nat} {D : Int} (hD0 : 0 ≤ D) (hD : D + 2 * 2 ^ M + 2 < INT_MAX) {e : Expr Node}
    (h : e.All (Usable n M D)) : e.Admissible n := by
  have hf := usable_finest h
  unfold Expr.Admissible
  generalize e.finest = m at hf
  induction e with
  | leaf N =>
    obtain ⟨L, rfl, hw, hl, hb⟩ := h
    exact ⟨hw, inRange_below hw hf hl hD0 hb hD⟩
  | op o a b iha ihb => exact ⟨iha h.1, ihb h.2⟩

/-! ### the sub-meshes -/

theorem amrGhostList_spec {n : Nat} {cfg : MeshConfig} {cells : CA} (h : cells.WF n) :
    ∃ cl, amrGhostList n cfg cells = some cl ∧
      Hist n cells.maxSize cl fun l p => ∃ q, cells.Mem n l q ∧ Near cfg.ghostWidth p q :=
  mrGhostList_spec (cfg := ⟨cfg.ghostWidth, cfg.predictionOrder⟩) h

theorem foldRange {σ : Type} (f : σ → Nat → Option σ) (I : Nat → σ → Prop) (lo cnt : Nat)
    (step : ∀ k s, lo ≤ k → k < lo + cnt → I k s → ∃ s', f s k = some s' ∧ I (k + 1) s') :
    ∀ s, I lo s → ∃ s', (List.range' lo cnt).foldlM f s = some s' ∧ I (lo + cnt) s' := by
  induction cnt with
  | zero => intro s h; exact ⟨s, rfl, h⟩
  | succ m ih =>
    intro s h
    obtain ⟨s', h1, h2⟩ := ih (fun k s hk hk2 => step k s hk (by omega)) s h
    obtain ⟨s'', h3, h4⟩ := step (lo + m) s' (by omega) (by omega) h2
    refine ⟨s'', ?_, h4⟩
    rw [List.range'_concat, List.foldlM_append, h1]
    simp [h3]

/-- The cells of `proj_cells`. -/
def AMRProj (n : Nat) (cfg : MeshConfig) (cells : CA) : Nat → List Int → Prop
  | 0, _ => False
  | l + 1, p => cells.minLevel ≤ l ∧
      (((∃ q, cells.Mem n l q ∧ Near cfg.ghostWidth (p.map fun y => shr y 1) q) ∧ CoveredBy n cells l (p.map fun y => shr y 1)) ∨
        AMRProj n cfg cells l (p.map fun y => shr y 1)) ∧ ¬ cells.Mem n l (p.map fun y => shr y 1) ∧ l < cells.maxLevel

/-- The cells of `pred_cells`. -/
def AMRPred (n : Nat) (cfg : MeshConfig) (cells : CA) (dom : LCA) (l : Nat) (p : List Int) : Prop :=
  cells.minLevel < l ∧ (∃ q, cells.Mem n l q ∧ Near cfg.ghostWidth p q) ∧ ¬ CoveredBy n cells l p ∧ ¬ cells.Mem n l p ∧
    AtLevel dom.level l (dom.Mem n) p

/-- The cells of `cells_and_ghosts`. -/
def AMRGhost (n : Nat) (cfg : MeshConfig) (cells : CA) (dom : LCA) (l : Nat) (p : List Int) : Prop :=
  (∃ q, cells.Mem n l q ∧ Near cfg.ghostWidth p q) ∨
  ∃ q, AMRPred n cfg cells dom (l + 1) q ∧ Near cfg.predictionOrder p (q.map fun y => shr y 1)

structure AMROK (n : Nat) (cfg : MeshConfig) (cells : CA) (dom : LCA) (m : AMRMeshes) : Prop where
  cells_eq : m.cells = cells
  size : m.all.maxSize = cells.maxSize
  leveled : m.all.Leveled
  subLevels : (m.proj.maxSize = cells.maxSize ∧ m.proj.Leveled) ∧ m.pred.maxSize = cells.maxSize ∧ m.pred.Leveled
  wf : m.ghosts.WF n ∧ m.proj.WF n ∧ m.pred.WF n ∧ m.all.WF n
  ghosts : ∀ l p, m.ghosts.Mem n l p ↔ AMRGhost n cfg cells dom l p
  proj : ∀ l p, m.proj.Mem n l p ↔ AMRProj n cfg cells l p
  pred : ∀ l p, m.pred.Mem n l p ↔ AMRPred n cfg cells dom l p
  all : ∀ l p, m.all.Mem n l p ↔ AMRGhost n cfg cells dom l p ∨ AMRProj n cfg cells l p

theorem child_below {m : Nat} {p : List Int} {D : Int} (h : ∀ x ∈ p.map (fun y => shr y 1), x * 2 ^ (m + 1) < D) :
    ∀ x ∈ p, x * 2 ^ m < D + 2 ^ (m + 1) := by
  intro x hx
  have h1 := h (shr x 1) (List.mem_map.2 ⟨x, hx, rfl⟩)
  have h2 : x < shl (shr x 1 + 1) 1 := lt_shl_shr_succ x 1
  unfold shl at h2
  have h3 := pow_two_pos m
  have h4 : x * 2 ^ m ≤ ((shr x 1 + 1) * 2 ^ 1) * 2 ^ m := Int.mul_le_mul_of_nonneg_right (by omega) (le_of_lt h3)
  rw [show ((shr x 1 + 1) * 2 ^ 1) * 2 ^ m = shr x 1 * 2 ^ (m + 1) + 2 ^ (m + 1) by rw [pow_succ]; ring] at h4
  omega


theorem amrProj_level {n : Nat} {cfg : MeshConfig} {cells : CA} {l : Nat} {p : List Int} (h : AMRProj n cfg cells l p) :
    cells.minLevel < l ∧ l ≤ cells.maxLevel := by
  cases l with
  | zero => exact h.elim
  | succ l =>
    have h1 := h.1
    have h2 := h.2.2.2
    omega

theorem amrProj_below {n : Nat} {cfg : MeshConfig} {cells : CA} {M : Nat} {D : Int} (hb : cells.Below n M D)
    (hM : ∀ l p, cells.Mem n l p → l ≤ M) (hML : cells.maxLevel ≤ M) : ∀ {l : Nat} {p : List Int}, AMRProj n cfg cells l p →
    ∀ x ∈ p, (x + 1) * 2 ^ (M - l) ≤ D + 2 ^ M := by
  intro l
  induction l with
  | zero => intro p h; exact h.elim
  | succ l ih =>
    intro p h x hx
    have hlt := h.2.2.2
    have h1 : (shr x 1 + 1) * 2 ^ (M - l) ≤ D + 2 ^ M := by
      rcases h.2.1 with ⟨_, hc⟩ | hp
      · have := coveredBy_below hb hM hc (shr x 1) (List.mem_map.2 ⟨x, hx, rfl⟩)
        have h5 : (2 : Int) ^ (M - l) ≤ 2 ^ M := pow_mono_two (by omega)
        rw [add_mul, one_mul]
        omega
      · exact ih hp _ (List.mem_map.2 ⟨x, hx, rfl⟩)
    have h2 : x < shl (shr x 1 + 1) 1 := lt_shl_shr_succ x 1
    unfold shl at h2
    have h3 := pow_two_pos (M - (l + 1))
    have h4 : (x + 1) * 2 ^ (M - (l + 1)) ≤ ((shr x 1 + 1) * 2 ^ 1) * 2 ^ (M - (l + 1)) :=
      Int.mul_le_mul_of_nonneg_right (by omega) (le_of_lt h3)
    rw [show ((shr x 1 + 1) * 2 ^ 1) * 2 ^ (M - (l + 1)) = (shr x 1 + 1) * 2 ^ (M - (l + 1) + 1) by
      rw [pow_succ]; ring, show M - (l + 1) + 1 = M - l by omega] at h4
    omega

theorem amrUpdateSubMesh_spec {n : Nat} {cfg : MeshConfig} {cells u : CA} {dom : LCA} {minL maxL : Nat} (hw : cells.WF n)
    (hl : cells.Leveled) (hb : cells.Between n minL maxL) (hmax : maxL ≤ cells.maxSize) {D : Int} (hD0 : 0 ≤ D)
    (hD : D + ((cfg.ghostWidth : Int) + cfg.predictionOrder + 3) * 2 ^ maxL + 2 < INT_MAX)
    (hbl : cells.Below n maxL D) (hu : UnionOK n cells u minL) (hdw : dom.WF n) (hdl : dom.level ≤ maxL)
    (hdb : dom.BelowAt n maxL D) (hne : ∃ l p, cells.Mem n l p) (h0 : 0 < cells.minLevel) :
    ∃ m, amrUpdateSubMesh n cfg cells u dom = some m ∧ AMROK n cfg cells dom m := by
  have hM : ∀ l p, cells.Mem n l p → l ≤ maxL := fun l p h => (hb l p h).2
  -- levels
  obtain ⟨g1, g2, hmm, hmin⟩ : cells.minLevel ≤ cells.maxLevel ∧ cells.maxLevel ≤ cells.maxSize ∧ cells.maxLevel ≤ maxL ∧
      minL ≤ cells.minLevel := by
    obtain ⟨l, p, hp⟩ := hne
    rcases cells.level_cases with ⟨g1, _⟩ | ⟨g1, g2, g3, g4, _⟩
    · have := (rows_eq_nil_iff (hw l hp.1)).2 (g1 l hp.1)
      obtain ⟨e, he, _⟩ := (mem_iff_rows (hw l hp.1) p).1 hp.2
      rw [this] at he
      simp at he
    · have wit : ∀ k ≤ cells.maxSize, (cells.lca k).isEmpty = false → ∃ p, cells.Mem n k p := by
        intro k hk he
        have hr : (cells.lca k).rows n ≠ [] := fun h => by
          rw [(rows_eq_nil_iff (hw k hk)).1 h] at he; simp at he
        obtain ⟨e, he⟩ := List.exists_mem_of_ne_nil _ hr
        have hv := (rows_valid (hw k hk) he).2
        exact ⟨_, hk, (mem_iff_rows (hw k hk) _).2 ⟨e, he, e.2.start, Interval.mem_def.2 ⟨le_rfl, hv⟩, rfl⟩⟩
      obtain ⟨p1, hp1⟩ := wit _ (by omega) g3
      obtain ⟨p2, hp2⟩ := wit _ g2 g4
      exact ⟨g1, g2, (hb _ _ hp2).2, (hb _ _ hp1).1⟩
  -- bounds
  have hpos := pow_two_pos maxL
  let K : Int := D + ((cfg.ghostWidth : Int) + cfg.predictionOrder + 1) * 2 ^ maxL
  have hgp : (0 : Int) ≤ ((cfg.ghostWidth : Int) + cfg.predictionOrder) * 2 ^ maxL :=
    Int.mul_nonneg (by omega) (le_of_lt hpos)
  have hKe : K = D + ((cfg.ghostWidth : Int) + cfg.predictionOrder) * 2 ^ maxL + 2 ^ maxL := by
    show D + _ = _
    ring
  have hK0 : 0 ≤ K := by omega
  have hDK : D ≤ K := by omega
  have hK : K + 2 * 2 ^ maxL + 2 < INT_MAX := by
    have : K + 2 * 2 ^ maxL = D + ((cfg.ghostWidth : Int) + cfg.predictionOrder + 3) * 2 ^ maxL := by
      show D + _ + _ = _
      ring
    omega
  have base_b : ∀ {l : Nat} {p : List Int}, (∃ q, cells.Mem n l q ∧ Near cfg.ghostWidth p q) →
      ∀ x ∈ p, x * 2 ^ (maxL - l) < D + cfg.ghostWidth * 2 ^ (maxL - l) := by
    rintro l p ⟨q, h1, h2⟩
    exact near_below h2 (hbl l q h1)
  have hmulle : ∀ (w k : Nat), (w : Int) * 2 ^ (maxL - k) ≤ w * 2 ^ maxL := fun w k =>
    Int.mul_le_mul_of_nonneg_left (pow_mono_two (by omega)) (by omega)
  have hmul0 : ∀ w : Nat, (0 : Int) ≤ w * 2 ^ maxL := fun w => Int.mul_nonneg (by omega) (le_of_lt hpos)
  have hsplit : ((cfg.ghostWidth : Int) + cfg.predictionOrder) * 2 ^ maxL =
    cfg.ghostWidth * 2 ^ maxL + cfg.predictionOrder * 2 ^ maxL := by ring
  have base_K : ∀ {l : Nat} {p : List Int}, (∃ q, cells.Mem n l q ∧ Near cfg.ghostWidth p q) →
      ∀ x ∈ p, x * 2 ^ (maxL - l) < K := by
    intro l p h x hx
    have := base_b h x hx
    have := hmulle cfg.ghostWidth l
    have := hmul0 cfg.predictionOrder
    omega
  have ghost_K : ∀ {l : Nat} {p : List Int}, AMRGhost n cfg cells dom l p → ∀ x ∈ p, x * 2 ^ (maxL - l) < K := by
    rintro l p (h | ⟨q, ⟨_, hq, _⟩, hn⟩)
    · exact base_K h
    · intro x hx
      have hlm : l + 1 ≤ maxL := by
        obtain ⟨r, hr, _⟩ := hq
        exact hM _ r hr
      have e1 := up_below (k := 1) (base_b hq)
      rw [show maxL - (l + 1) + 1 = maxL - l by omega] at e1
      have := near_below hn e1 x hx
      have := hmulle cfg.ghostWidth (l + 1)
      have := hmulle cfg.predictionOrder l
      omega
  have proj_K : ∀ {l : Nat} {p : List Int}, AMRProj n cfg cells l p → ∀ x ∈ p, x * 2 ^ (maxL - l) < K := by
    intro l p h x hx
    have := amrProj_below hbl hM hmm h x hx
    have := pow_two_pos (maxL - l)
    rw [add_mul, one_mul] at *
    omega
  have use_c : ∀ l ≤ maxL, Usable n maxL K (.mesh (cells.lca l)) := fun l hlm =>
    ⟨_, rfl, hw l (by omega), by rw [hl l (by omega)]; exact hlm, fun p hp x hx => by
      rw [hl l (by omega)]
      have := hbl l p ⟨by omega, hp⟩ x hx
      omega⟩
  have use_u : ∀ l ≤ maxL, Usable n maxL K (.mesh (u.lca l)) := fun l hlm =>
    ⟨_, rfl, hu.wf l (by rw [hu.size]; omega), by rw [hu.leveled l (by rw [hu.size]; omega)]; exact hlm, fun p hp x hx => by
      rw [hu.leveled l (by rw [hu.size]; omega)]
      have := coveredBy_below hbl hM ((hu.mem l p).1 ⟨by rw [hu.size]; omega, hp⟩).2 x hx
      omega⟩
  have use_d : Usable n maxL K (.mesh dom) := ⟨dom, rfl, hdw, hdl, fun p hp x hx => by
    have := hdb p hp x hx; omega⟩
  have use : ∀ (A : CA) (S : Nat → List Int → Prop), A.WF n → A.Leveled → A.maxSize = cells.maxSize →
      (∀ l p, (A.lca l).Mem n p → S l p) → (∀ l p, S l p → ∀ x ∈ p, x * 2 ^ (maxL - l) < K) → ∀ l ≤ maxL, Usable n maxL K (.mesh (A.lca l)) := by
    intro A S a1 a2 a3 a4 a5 l hlm
    refine ⟨_, rfl, a1 l (by omega), by rw [a2 l (by omega)]; exact hlm, fun p hp x hx => ?_⟩
    rw [a2 l (by omega)]
    exact a5 l p (a4 l p hp) x hx
  have lv_u : ∀ l ≤ maxL, (u.lca l).level = l := fun l h => hu.leveled l (by rw [hu.size]; omega)
  have lv_c : ∀ l ≤ maxL, (cells.lca l).level = l := fun l h => hl l (by omega)
  have mem_u : ∀ l p, cells.minLevel ≤ l → l ≤ maxL → ((u.lca l).Mem n p ↔ CoveredBy n cells l p) := by
    intro l p h1 h2
    rw [mem_lca (by rw [hu.size]; omega), hu.mem]
    exact ⟨fun h => h.2, fun h => ⟨by omega, h⟩⟩
  obtain ⟨e1, e2, e3, e4⟩ := empty_spec n cells.maxSize
  obtain ⟨cl0, c1, c2⟩ := amrGhostList_spec (cfg := cfg) hw
  obtain ⟨b1, b2, b3, b4, b5⟩ := c2.array
  have use_g := use (CA.ofCL cl0) _ b2 b3 b1 (fun l p h => (b4 l p).1 h) (fun l p h => base_K h)
  have hnew : (LCA.ofList (LCL.new n cells.minLevel)).WF n ∧ (LCA.ofList (LCL.new n cells.minLevel)).level = cells.minLevel ∧
      ∀ p, ¬ (LCA.ofList (LCL.new n cells.minLevel)).Mem n p := by
    have h1 := C06_content n cells.minLevel [] (by simp)
    have h2 := C06_wellformed n cells.minLevel [] (by simp) (by simp)
    exact ⟨h2, ofList_level _, fun p hp => by have := (h1 p).1 hp; simp at this⟩
  unfold amrUpdateSubMesh
  rw [if_neg (by omega)]
  simp only []
  rw [c1]
  simp only []
  -- projection cells
  obtain ⟨proj, p1, p2, p3, p4, p5⟩ := foldRange (amrProjStep n cells u (CA.ofCL cl0))
    (fun k (P : CA) => P.maxSize = cells.maxSize ∧ P.WF n ∧ P.Leveled ∧ ∀ l p, (P.lca l).Mem n p ↔ l < k ∧ AMRProj n cfg cells l p)
    (cells.minLevel + 1) (cells.maxLevel - cells.minLevel) (by
      rintro k P hk1 hk2 ⟨i1, i2, i3, i4⟩
      obtain ⟨k, rfl⟩ : ∃ j, k = j + 1 := ⟨k - 1, by omega⟩
      have hkM : k ≤ maxL := by omega
      have use_p := use P _ i2 i3 i1 (fun l p h => ((i4 l p).1 h).2) (fun l p h => proj_K h) k hkM
      have hadm : (Expr.op .diff (.op .union (.op .inter (opnd ((CA.ofCL cl0).lca k)) (opnd (u.lca k)))
          (opnd (P.lca k))) (opnd (cells.lca k))).Admissible n :=
        usable_admissible hK0 hK ⟨⟨⟨use_g k hkM, use_u k hkM⟩, use_p⟩, use_c k hkM⟩
      obtain ⟨calls, r1, r2, r3⟩ := runSet_any hadm (k + 1)
      have hfin : (Expr.op .diff (.op .union (.op .inter (opnd ((CA.ofCL cl0).lca k)) (opnd (u.lca k)))
          (opnd (P.lca k))) (opnd (cells.lca k))).finest = k := by
        simp only [opnd, Expr.finest, Node.level, b3 k (by omega), lv_u k hkM, i3 k (by omega), lv_c k hkM]
        show max (max (max k k) k) k = k
        omega
      have hcov : ∀ p, Covers calls p ↔ AMRProj n cfg cells (k + 1) p := by
        intro p
        rw [r3]
        unfold SetHolds
        rw [hfin, if_neg (by omega), show k + 1 - k = 1 by omega]
        have key : ∀ q, (Expr.op .diff (.op .union (.op .inter (opnd ((CA.ofCL cl0).lca k)) (opnd (u.lca k)))
            (opnd (P.lca k))) (opnd (cells.lca k))).HoldsAt n k q ↔
            ((((∃ r, cells.Mem n k r ∧ Near cfg.ghostWidth q r) ∧ CoveredBy n cells k q) ∨ AMRProj n cfg cells k q) ∧
              ¬ cells.Mem n k q) := by
          intro q
          show (((AtLevel ((CA.ofCL cl0).lca k).level k (((CA.ofCL cl0).lca k).Mem n) q ∧
            AtLevel (u.lca k).level k ((u.lca k).Mem n) q) ∨ AtLevel (P.lca k).level k ((P.lca k).Mem n) q) ∧
            ¬ AtLevel (cells.lca k).level k ((cells.lca k).Mem n) q) ↔ _
          rw [b3 k (by omega), lv_u k hkM, i3 k (by omega), lv_c k hkM, atLevel_self, atLevel_self, atLevel_self, atLevel_self,
            b4, mem_u k q (by omega) hkM, i4, mem_lca (by omega)]
          simp only [Nat.lt_succ_self, true_and]
        constructor
        · rintro ⟨q, hq, ha⟩
          obtain rfl := forall₂_ancestor.1 ha
          have := (key _).1 hq
          exact ⟨by omega, this.1, this.2, by omega⟩
        · rintro ⟨_, h2, h3, _⟩
          exact ⟨_, (key _).2 ⟨h2, h3⟩, forall₂_ancestor.2 rfl⟩
      obtain ⟨w1, w2, w3⟩ := lcaOfCalls_spec (level := k + 1) r2
      refine ⟨P.set (k + 1) (lcaOfCalls n (k + 1) calls), ?_, i1, CA.set_wf i2 w1, CA.set_leveled i3 w2, fun l p => ?_⟩
      · unfold amrProjStep
        rw [Nat.add_sub_cancel, r1]
      · by_cases hlk : l = k + 1
        · subst hlk
          rw [CA.set_same, w3, hcov]
          simp
        · rw [CA.set_ne _ hlk, i4]
          have : l < k + 1 + 1 ↔ l < k + 1 := by omega
          rw [this])
    ((CA.empty n cells.maxSize).set cells.minLevel (LCA.ofList (LCL.new n cells.minLevel)))
    ⟨e1, CA.set_wf e2 hnew.1, CA.set_leveled e3 hnew.2.1, fun l p => by
      constructor
      · intro h
        exfalso
        by_cases hlk : l = cells.minLevel
        · subst hlk
          rw [CA.set_same] at h
          exact hnew.2.2 p h
        · rw [CA.set_ne _ hlk] at h
          exact e4 l p h
      · rintro ⟨h1, h2⟩
        have := (amrProj_level h2).1
        omega⟩
  have p6 : ∀ l p, (proj.lca l).Mem n p ↔ AMRProj n cfg cells l p := by
    intro l p
    rw [p5]
    refine ⟨fun h => h.2, fun h => ⟨?_, h⟩⟩
    have := amrProj_level h
    omega
  rw [p1]
  simp only []
  -- prediction cells
  obtain ⟨pred, q1, q2, q3, q4, q5⟩ := foldRange (amrPredStep n cells u (CA.ofCL cl0) dom)
    (fun k (P : CA) => P.maxSize = cells.maxSize ∧ P.WF n ∧ P.Leveled ∧
      ∀ l p, (P.lca l).Mem n p ↔ l < k ∧ AMRPred n cfg cells dom l p)
    (cells.minLevel + 1) (cells.maxLevel - cells.minLevel) (by
      rintro k P hk1 hk2 ⟨i1, i2, i3, i4⟩
      have hkM : k ≤ maxL := by omega
      have hadm : (Expr.op .inter (.op .diff (opnd ((CA.ofCL cl0).lca k)) (.op .union (opnd (u.lca k)) (opnd (cells.lca k))))
          (opnd dom)).Admissible n :=
        usable_admissible hK0 hK ⟨⟨use_g k hkM, use_u k hkM, use_c k hkM⟩, use_d⟩
      have hfin : k ≤ (Expr.op .inter (.op .diff (opnd ((CA.ofCL cl0).lca k)) (.op .union (opnd (u.lca k)) (opnd (cells.lca k))))
          (opnd dom)).finest := by
        simp only [opnd, Expr.finest, Node.level, b3 k (by omega), lv_u k hkM, lv_c k hkM]
        show k ≤ max (max k (max k k)) dom.level
        omega
      obtain ⟨calls, r1, r2, r3⟩ := runSet_ok hadm hfin
      have hcov : ∀ p, Covers calls p ↔ AMRPred n cfg cells dom k p := by
        intro p
        rw [r3]
        show ((AtLevel ((CA.ofCL cl0).lca k).level k (((CA.ofCL cl0).lca k).Mem n) p ∧
          ¬ (AtLevel (u.lca k).level k ((u.lca k).Mem n) p ∨ AtLevel (cells.lca k).level k ((cells.lca k).Mem n) p)) ∧
          AtLevel dom.level k (dom.Mem n) p) ↔ _
        rw [b3 k (by omega), lv_u k hkM, lv_c k hkM, atLevel_self, atLevel_self, atLevel_self,
          b4, mem_u k p (by omega) hkM, mem_lca (by omega), not_or]
        unfold AMRPred
        constructor
        · rintro ⟨⟨x1, x2, x3⟩, x4⟩; exact ⟨by omega, x1, x2, x3, x4⟩
        · rintro ⟨_, x1, x2, x3, x4⟩; exact ⟨⟨x1, x2, x3⟩, x4⟩
      obtain ⟨w1, w2, w3⟩ := lcaOfCalls_spec (level := k) r2
      refine ⟨P.set k (lcaOfCalls n k calls), ?_, i1, CA.set_wf i2 w1, CA.set_leveled i3 w2, fun l p => ?_⟩
      · unfold amrPredStep
        rw [r1]
      · by_cases hlk : l = k
        · subst hlk
          rw [CA.set_same, w3, hcov]
          simp
        · rw [CA.set_ne _ hlk, i4]
          have : l < k + 1 ↔ l < k := by omega
          rw [this])
    (CA.empty n cells.maxSize) ⟨e1, e2, e3, fun l p => by
      constructor
      · intro h; exact absurd h (e4 l p)
      · rintro ⟨h1, h2⟩
        have := h2.1
        omega⟩
  have pred_level : ∀ l p, AMRPred n cfg cells dom l p → cells.minLevel < l ∧ l ≤ cells.maxLevel := by
    rintro l p ⟨h1, ⟨q, hq, _⟩, _⟩
    exact ⟨h1, (CA.mem_levels hw hq).2⟩
  have q6 : ∀ l p, (pred.lca l).Mem n p ↔ AMRPred n cfg cells dom l p := by
    intro l p
    rw [q5]
    refine ⟨fun h => h.2, fun h => ⟨?_, h⟩⟩
    have := pred_level l p h
    omega
  rw [q1]
  simp only []
  have use_q := use pred _ q3 q4 q2 (fun l p h => (q6 l p).1 h) (fun l p h => base_K h.2.1)
  -- the ghosts of the prediction
  obtain ⟨cl1, r1, r2⟩ := foldRange (amrGrowStep n cfg pred)
    (fun k cl => Hist n cells.maxSize cl fun l p => (∃ q, cells.Mem n l q ∧ Near cfg.ghostWidth p q) ∨
      (l + 1 < k ∧ ∃ q, AMRPred n cfg cells dom (l + 1) q ∧ Near cfg.predictionOrder p (q.map fun y => shr y 1)))
    cells.minLevel (cells.maxLevel + 1 - cells.minLevel) (by
      intro k cl hk1 hk2 hI
      obtain ⟨k, rfl⟩ : ∃ j, k = j + 1 := ⟨k - 1, by omega⟩
      have hkM : k + 1 ≤ maxL := by omega
      have hadm : (Expr.op .inter (opnd (pred.lca (k + 1))) (opnd (pred.lca (k + 1)))).Admissible n :=
        usable_admissible hK0 hK ⟨use_q _ hkM, use_q _ hkM⟩
      have hfin : (Expr.op .inter (opnd (pred.lca (k + 1))) (opnd (pred.lca (k + 1)))).finest = k + 1 := by
        simp only [opnd, Expr.finest, Node.level, q4 (k + 1) (by omega)]
        exact Nat.max_self _
      obtain ⟨calls, s1, s2, s3⟩ := runSet_ok hadm (ref := k) (by rw [hfin]; omega)
      have hcov : ∀ p, Covers calls p ↔ ∃ q, AMRPred n cfg cells dom (k + 1) q ∧ p = q.map fun y => shr y 1 := by
        intro p
        rw [s3]
        show (AtLevel (pred.lca (k + 1)).level k ((pred.lca (k + 1)).Mem n) p ∧
          AtLevel (pred.lca (k + 1)).level k ((pred.lca (k + 1)).Mem n) p) ↔ _
        rw [q4 (k + 1) (by omega), and_self]
        have := atLevel_up (l := k + 1) (by omega) (S := (pred.lca (k + 1)).Mem n) (p := p)
        rw [Nat.add_sub_cancel] at this
        rw [this]
        constructor
        · rintro ⟨q, hq, ha⟩; exact ⟨q, (q6 _ _).1 hq, anc_iff.1 ha⟩
        · rintro ⟨q, hq, ha⟩; exact ⟨q, (q6 _ _).2 hq, anc_iff.2 ha⟩
      have hok : ∀ e ∈ (calls.flatMap fun c => grow cfg.predictionOrder c.1 c.2), e.idx.length = n ∧ e.Valid := by
        intro e he
        obtain ⟨c, hc, he⟩ := List.mem_flatMap.1 he
        exact ⟨by rw [grow_idx he, (s2 c hc).1], grow_valid (s2 c hc).2.1 he⟩
      have hadds : ∀ p, (∃ e ∈ (calls.flatMap fun c => grow cfg.predictionOrder c.1 c.2), e.Adds p) ↔
          ∃ q, Covers calls q ∧ Near cfg.predictionOrder p q := by
        intro p
        constructor
        · rintro ⟨e, he, ha⟩
          obtain ⟨c, hc, he⟩ := List.mem_flatMap.1 he
          obtain ⟨x, hx, hn⟩ := (grow_adds (s2 c hc).2.1).1 ⟨e, he, ha⟩
          exact ⟨_, ⟨c, hc, x, hx, rfl⟩, hn⟩
        · rintro ⟨q, ⟨c, hc, x, hx, rfl⟩, hn⟩
          obtain ⟨e, he, ha⟩ := (grow_adds (s2 c hc).2.1).2 ⟨x, hx, hn⟩
          exact ⟨e, List.mem_flatMap.2 ⟨c, hc, he⟩, ha⟩
      obtain ⟨cl', d1, d2⟩ := hI.calls (k := (calls.flatMap fun c => grow cfg.predictionOrder c.1 c.2).map fun e => (k, e)) (by
        intro e he
        obtain ⟨e', he', rfl⟩ := List.mem_map.1 he
        obtain ⟨o1, o2⟩ := hok e' he'
        exact ⟨by show k ≤ _; omega, o1, o2⟩)
      refine ⟨cl', ?_, d2.congr fun l p => ?_⟩
      · unfold amrGrowStep
        rw [if_neg (by omega), Nat.add_sub_cancel, s1]
        simp only []
        rw [flatMap_map_level, d1]
      · rw [map_level, hadds]
        constructor
        · rintro (h | ⟨h1, q, h2, h3⟩)
          · exact Or.inl (Or.inl h)
          · by_cases hlk : l = k
            · subst hlk
              exact Or.inr ⟨rfl, _, (hcov _).2 ⟨q, h2, rfl⟩, h3⟩
            · exact Or.inl (Or.inr ⟨by omega, q, h2, h3⟩)
        · rintro ((h | ⟨h1, h⟩) | ⟨rfl, q, h2, h3⟩)
          · exact Or.inl h
          · exact Or.inr ⟨by omega, h⟩
          · obtain ⟨r, hr, rfl⟩ := (hcov q).1 h2
            exact Or.inr ⟨by omega, r, hr, h3⟩) cl0 (by
      refine c2.congr fun l p => ⟨?_, Or.inl⟩
      rintro (h | ⟨h1, q, h2, _⟩)
      · exact h
      · have := (pred_level _ _ h2).1
        omega)
  have r3 : Hist n cells.maxSize cl1 (AMRGhost n cfg cells dom) := by
    refine r2.congr fun l p => ?_
    constructor
    · rintro (h | ⟨q, h2, h3⟩)
      · exact Or.inl h
      · have := (pred_level _ _ h2).2
        exact Or.inr ⟨by omega, q, h2, h3⟩
    · rintro (h | ⟨_, h⟩)
      · exact Or.inl h
      · exact Or.inr h
  rw [r1]
  simp only []
  obtain ⟨t1, t2, t3, t4, t5⟩ := r3.array
  have use_t := use (CA.ofCL cl1) _ t2 t3 t1 (fun l p h => (t4 l p).1 h) (fun l p h => ghost_K h)
  have use_p := use proj _ p3 p4 p2 (fun l p h => (p6 l p).1 h) (fun l p h => proj_K h)
  have ghost_level : ∀ l p, AMRGhost n cfg cells dom l p → cells.minLevel ≤ l ∧ l ≤ cells.maxLevel := by
    rintro l p (⟨q, hq, _⟩ | ⟨q, hq, _⟩)
    · exact CA.mem_levels hw hq
    · have := pred_level _ _ hq
      omega
  -- all the cells
  obtain ⟨all, v1, v2, v3, v4, v5⟩ := foldRange (amrAllStep n (CA.ofCL cl1) proj)
    (fun k (P : CA) => P.maxSize = cells.maxSize ∧ P.WF n ∧ P.Leveled ∧
      ∀ l p, (P.lca l).Mem n p ↔ l < k ∧ (AMRGhost n cfg cells dom l p ∨ AMRProj n cfg cells l p))
    cells.minLevel (cells.maxLevel + 1 - cells.minLevel) (by
      rintro k P hk1 hk2 ⟨i1, i2, i3, i4⟩
      have hkM : k ≤ maxL := by omega
      have hadm : (Expr.op .union (opnd ((CA.ofCL cl1).lca k)) (opnd (proj.lca k))).Admissible n :=
        usable_admissible hK0 hK ⟨use_t k hkM, use_p k hkM⟩
      have hfin : (Expr.op .union (opnd ((CA.ofCL cl1).lca k)) (opnd (proj.lca k))).finest = k := by
        simp only [opnd, Expr.finest, Node.level, t3 k (by omega), p4 k (by omega)]
        exact Nat.max_self _
      obtain ⟨calls, s1, s2, s3⟩ := runDefault_ok hadm
      have hcov : ∀ p, Covers calls p ↔ AMRGhost n cfg cells dom k p ∨ AMRProj n cfg cells k p := by
        intro p
        rw [s3, hfin]
        show (AtLevel ((CA.ofCL cl1).lca k).level k (((CA.ofCL cl1).lca k).Mem n) p ∨
          AtLevel (proj.lca k).level k ((proj.lca k).Mem n) p) ↔ _
        rw [t3 k (by omega), p4 k (by omega), atLevel_self, atLevel_self, t4, p6]
      obtain ⟨w1, w2, w3⟩ := lcaOfCalls_spec (level := k) s2
      refine ⟨P.set k (lcaOfCalls n k calls), ?_, i1, CA.set_wf i2 w1, CA.set_leveled i3 w2, fun l p => ?_⟩
      · unfold amrAllStep
        rw [s1]
      · by_cases hlk : l = k
        · subst hlk
          rw [CA.set_same, w3, hcov]
          simp
        · rw [CA.set_ne _ hlk, i4]
          have : l < k + 1 ↔ l < k := by omega
          rw [this])
    (CA.empty n cells.maxSize) ⟨e1, e2, e3, fun l p => by
      constructor
      · intro h; exact absurd h (e4 l p)
      · rintro ⟨h1, h2 | h2⟩
        · have := ghost_level _ _ h2; omega
        · have := amrProj_level h2; omega⟩
  rw [v1]
  refine ⟨_, rfl, rfl, v2, v4, ⟨⟨p2, p4⟩, q2, q4⟩, ⟨t2, p3, q3, v3⟩, t5, fun l p => ?_, fun l p => ?_, fun l p => ?_⟩
  · show proj.Mem n l p ↔ _
    unfold CA.Mem
    rw [p6, p2]
    refine ⟨fun h => h.2, fun h => ⟨?_, h⟩⟩
    have := amrProj_level h
    omega
  · show pred.Mem n l p ↔ _
    unfold CA.Mem
    rw [q6, q2]
    refine ⟨fun h => h.2, fun h => ⟨?_, h⟩⟩
    have := pred_level _ _ h
    omega
  · show all.Mem n l p ↔ _
    unfold CA.Mem
    rw [v5, v2]
    refine ⟨fun h => h.2.2, fun h => ?_⟩
    have : l ≤ cells.maxLevel := by
      rcases h with h | h
      · exact (ghost_level _ _ h).2
      · exact (amrProj_level h).2
    exact ⟨by omega, by omega, h⟩


theorem AMROK.ghosts_all {n : Nat} {cfg : MeshConfig} {cells : CA} {dom : LCA} {m : AMRMeshes} (h : AMROK n cfg cells dom m)
    {l : Nat} {p : List Int} (hp : m.ghosts.Mem n l p) : m.all.Mem n l p :=
  (h.all l p).2 (Or.inl ((h.ghosts l p).1 hp))

theorem AMROK.cells_all {n : Nat} {cfg : MeshConfig} {cells : CA} {dom : LCA} {m : AMRMeshes} (h : AMROK n cfg cells dom m)
    {l : Nat} {p : List Int} (hp : cells.Mem n l p) : m.all.Mem n l p :=
  (h.all l p).2 (Or.inl (Or.inl ⟨p, hp, near_refl _ _⟩))

theorem AMROK.proj_all {n : Nat} {cfg : MeshConfig} {cells : CA} {dom : LCA} {m : AMRMeshes} (h : AMROK n cfg cells dom m)
    {l : Nat} {p : List Int} (hp : m.proj.Mem n l p) : m.all.Mem n l p :=
  (h.all l p).2 (Or.inr ((h.proj l p).1 hp))

theorem AMROK.pred_all {n : Nat} {cfg : MeshConfig} {cells : CA} {dom : LCA} {m : AMRMeshes} (h : AMROK n cfg cells dom m)
    {l : Nat} {p : List Int} (hp : m.pred.Mem n l p) : m.all.Mem n l p :=
  (h.all l p).2 (Or.inl (Or.inl ((h.pred l p).1 hp).2.1))

/-- The contents of the meshes of an AMR mesh and their numbering. -/
structure AMRMeshOK (n : Nat) (cfg : MeshConfig) (cells : CA) (dom : LCA) (minL : Nat) (m : AMRMeshes) (u : CA) : Prop where
  union : UnionOK n cells u minL
  content : ∃ m0, AMROK n cfg cells dom m0 ∧
    (∀ l p, m.cells.Mem n l p ↔ cells.Mem n l p) ∧ (∀ l p, m.ghosts.Mem n l p ↔ m0.ghosts.Mem n l p) ∧
    (∀ l p, m.proj.Mem n l p ↔ m0.proj.Mem n l p) ∧ (∀ l p, m.pred.Mem n l p ↔ m0.pred.Mem n l p) ∧
    (∀ l p, m.all.Mem n l p ↔ m0.all.Mem n l p)
  wf : m.all.WF n
  allLevels : m.all.maxSize = cells.maxSize ∧ m.all.Leveled
  cellsWF : m.cells.WF n
  cellsLevels : m.cells.maxSize = cells.maxSize ∧ m.cells.Leveled
  projWF : m.proj.WF n
  projLevels : m.proj.maxSize = cells.maxSize ∧ m.proj.Leveled
  predWF : m.pred.WF n
  predLevels : m.pred.maxSize = cells.maxSize ∧ m.pred.Leveled
  numbers : ((m.all.numbered n).map fun e => e.2.2) = (List.range m.all.nbCells).map (fun (k : Nat) => (k : Int))
  index : ∀ sub ∈ [m.cells, m.ghosts, m.proj, m.pred], ∀ l yz x, sub.Mem n l (yz ++ [x]) →
    getIndex (sub.lca l) n yz x = getIndex (m.all.lca l) n yz x

theorem amrMesh_spec {n : Nat} {cfg : MeshConfig} {cells : CA} {dom : LCA} {minL maxL : Nat} (hw : cells.WF n)
    (hl : cells.Leveled) (hb : cells.Between n minL maxL) (hmax : maxL ≤ cells.maxSize) {D : Int} (hD0 : 0 ≤ D)
    (hD : D + ((cfg.ghostWidth : Int) + cfg.predictionOrder + 3) * 2 ^ maxL + 2 < INT_MAX)
    (hbl : cells.Below n maxL D) (hdw : dom.WF n) (hdl : dom.level ≤ maxL)
    (hdb : dom.BelowAt n maxL D) (hne : ∃ l p, cells.Mem n l p) (h0 : ∀ l p, cells.Mem n l p → 0 < l) :
    ∃ m u, amrMesh n cfg cells dom minL maxL = some (m, u) ∧ AMRMeshOK n cfg cells dom minL m u := by
  have hp := pow_two_pos maxL
  have hg : (0 : Int) ≤ ((cfg.ghostWidth : Int) + cfg.predictionOrder + 3) * 2 ^ maxL := Int.mul_nonneg (by omega) (le_of_lt hp)
  obtain ⟨u, u1, u2⟩ := constructUnion_spec hw hl hb hmax hD0 (by omega) hbl
  have h0' : 0 < cells.minLevel := by
    obtain ⟨l, p, hq⟩ := hne
    rcases cells.level_cases with ⟨g1, _⟩ | ⟨g1, g2, g3, g4, _⟩
    · have := (rows_eq_nil_iff (hw l hq.1)).2 (g1 l hq.1)
      obtain ⟨e, he, _⟩ := (mem_iff_rows (hw l hq.1) p).1 hq.2
      rw [this] at he
      simp at he
    · have hr : (cells.lca cells.minLevel).rows n ≠ [] := fun h => by
        rw [(rows_eq_nil_iff (hw _ (by omega))).1 h] at g3; simp at g3
      obtain ⟨e, he⟩ := List.exists_mem_of_ne_nil _ hr
      have hv := (rows_valid (hw _ (by omega)) he).2
      exact h0 _ _ ⟨by omega, (mem_iff_rows (hw _ (by omega)) _).2 ⟨e, he, e.2.start, Interval.mem_def.2 ⟨le_rfl, hv⟩, rfl⟩⟩
  obtain ⟨m0, m1, m2⟩ := amrUpdateSubMesh_spec hw hl hb hmax hD0 hD hbl u2 hdw hdl hdb hne h0'
  obtain ⟨w1, w2, w3, w4⟩ := m2.wf
  obtain ⟨all, a1, a2, a3, a4, a5, a6⟩ := C08_levels n m0.all w4
  have hc : m0.cells = cells := m2.cells_eq
  obtain ⟨c, c1, c2, c3, c6, c4, c5⟩ := renumberSub_spec (n := n) (ref := all) (c := m0.cells) a3 (by rw [hc]; exact hw)
    (fun l p hp => (a4 l p).2 (m2.cells_all (by rw [hc] at hp; exact hp)))
  obtain ⟨g, g1, g2, g3, -, g4, g5⟩ := renumberSub_spec a3 w1 (fun l p hp => (a4 l p).2 (m2.ghosts_all hp))
  obtain ⟨q, q1, q2, q3, q6, q4, q5⟩ := renumberSub_spec a3 w2 (fun l p hp => (a4 l p).2 (m2.proj_all hp))
  obtain ⟨r, r1, r2, r3, r6, r4, r5⟩ := renumberSub_spec a3 w3 (fun l p hp => (a4 l p).2 (m2.pred_all hp))
  refine ⟨⟨c, g, q, r, all⟩, u, ?_, u2, ⟨m0, m2, fun l p => ?_, g4, q4, r4, a4⟩, a3,
    ⟨by rw [← m2.size]; exact a2, updateIndexCA_leveled w4 m2.leveled a1⟩, c3, ⟨by rw [← hc]; exact c2, fun l h => ?_⟩,
    q3, ⟨q2.trans m2.subLevels.1.1, fun l h => by rw [q6 l (by rw [← q2]; exact h)]; exact m2.subLevels.1.2 l (by rw [← q2]; exact h)⟩,
    r3, ⟨r2.trans m2.subLevels.2.1, fun l h => by rw [r6 l (by rw [← r2]; exact h)]; exact m2.subLevels.2.2 l (by rw [← r2]; exact h)⟩, ?_, ?_⟩
  · unfold amrMesh
    rw [u1]
    simp only []
    rw [m1]
    simp only []
    unfold amrRenumbering
    rw [a1]
    simp only []
    rw [c1, g1, q1, r1]
  · rw [← hc]; exact c4 l p
  · have h' : l ≤ m0.cells.maxSize := by rw [← c2]; exact h
    rw [c6 l h', hc]
    exact hl l (by rw [← hc]; exact h')
  · show ((all.numbered n).map fun e => e.2.2) = _
    rw [a6, a5]
  · intro sub hs l yz x hx
    simp only [List.mem_cons, List.not_mem_nil, or_false] at hs
    rcases hs with rfl | rfl | rfl | rfl
    · exact c5 l yz x ((c4 l _).1 hx)
    · exact g5 l yz x ((g4 l _).1 hx)
    · exact q5 l yz x ((q4 l _).1 hx)
    · exact r5 l yz x ((r4 l _).1 hx)

end Samurai

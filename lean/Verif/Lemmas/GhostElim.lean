import Verif.Lemmas.GhostRel
import Verif.Lemmas.AdaptGeo
import Verif.Lemmas.AMRGeo
import Verif.Lemmas.Operators
import Mathlib.Algebra.BigOperators.Fin

/-! The elimination of the ghosts on a mesh of graded leaves. -/

namespace Samurai

section
variable {n order : Nat} {cells cag ref : CA} {dom : LCA} {minL maxL w : Nat}

/-! ### geometry -/

theorem ElimMesh.cag_ref (g : ElimMesh n order cells cag ref dom minL maxL w) {l : Nat} {p : List Int} (h : cag.Mem n l p) : ref.Mem n l p := by
  obtain ⟨q, h1, h2⟩ := (g.cag_iff l p).1 h
  exact g.fv.ghosts l p q h1 h2

theorem ElimMesh.near_cag (g : ElimMesh n order cells cag ref dom minL maxL w) {l : Nat} {p q : List Int} (h : cells.Mem n l q) (hn : Near 1 p q) : cag.Mem n l p :=
  (g.cag_iff l p).2 ⟨q, h, near_mono g.wide hn⟩

theorem ElimMesh.proj_levels (g : ElimMesh n order cells cag ref dom minL maxL w) {l : Nat} {p : List Int} (h : ProjGhost n cells cag l p) :
    minL ≤ l ∧ l < maxL ∧ cells.minLevel ≤ l ∧ l < cells.maxLevel := by
  obtain ⟨h1, c, h2, -⟩ := h
  obtain ⟨q, h3, -⟩ := (g.cag_iff l p).1 h1
  have a := CA.mem_levels g.fv.leaves.wf h3
  have b := CA.mem_levels g.fv.leaves.wf h2
  have a' := g.fv.leaves.between _ _ h3
  have b' := g.fv.leaves.between _ _ h2
  omega

theorem ElimMesh.pred_levels (g : ElimMesh n order cells cag ref dom minL maxL w) {l : Nat} {p : List Int} (h : PredGhost n cells cag l p) :
    minL < l ∧ l ≤ maxL ∧ cells.minLevel < l ∧ l ≤ cells.maxLevel := by
  obtain ⟨h0, h1, c, h2, -⟩ := h
  obtain ⟨q, h3, -⟩ := (g.cag_iff l p).1 h1
  have a := CA.mem_levels g.fv.leaves.wf h3
  have b := CA.mem_levels g.fv.leaves.wf h2
  have a' := g.fv.leaves.between _ _ h3
  have b' := g.fv.leaves.between _ _ h2
  omega

theorem ElimMesh.leaf_proj (g : ElimMesh n order cells cag ref dom minL maxL w) {l : Nat} {p : List Int} (h : cells.Mem n l p) : ¬ ProjGhost n cells cag l p := by
  rintro ⟨-, c, h2, h3⟩
  have := (g.fv.leaves.noOverlap l p (l + 1) c h h2 (by omega) (by rwa [show l + 1 - l = 1 by omega])).1
  omega

theorem ElimMesh.leaf_pred (g : ElimMesh n order cells cag ref dom minL maxL w) {l : Nat} {p : List Int} (h : cells.Mem n l p) : ¬ PredGhost n cells cag l p := by
  rintro ⟨h0, -, q, h2, h3⟩
  have := (g.fv.leaves.noOverlap (l - 1) q l p h2 h (by omega) (by rwa [show l - (l - 1) = 1 by omega])).1
  omega

theorem ElimMesh.proj_pred (g : ElimMesh n order cells cag ref dom minL maxL w) {l : Nat} {p : List Int} (h : ProjGhost n cells cag l p) :
    ¬ PredGhost n cells cag l p := by
  rintro ⟨h0, -, q, h2, h3⟩
  obtain ⟨-, c, h4, h5⟩ := h
  have := (g.fv.leaves.noOverlap (l - 1) q (l + 1) c h2 h4 (by omega) (by rw [show l + 1 - (l - 1) = 1 + 1 by omega]; exact anc_trans h3 h5)).1
  omega

/-- A child of a projection ghost is a leaf or a projection ghost. -/
theorem ElimMesh.child_proj (g : ElimMesh n order cells cag ref dom minL maxL w) {l : Nat} {p c : List Int} (h : ProjGhost n cells cag l p) (hc : Anc 1 p c) :
    cag.Mem n (l + 1) c ∧ (cells.Mem n (l + 1) c ∨ ProjGhost n cells cag (l + 1) c) := by
  have hl := g.proj_levels h
  obtain ⟨-, d, h2, h3⟩ := h
  have hs : parentOf c = parentOf d := (anc_one.1 hc).trans (anc_one.1 h3).symm
  have hcag := g.near_cag h2 (near_siblings hs)
  refine ⟨hcag, ?_⟩
  rcases g.fv.leaves.siblings g.fv.domain.whole (by omega) h2 hs with h | ⟨e, h4, h5⟩
  · exact .inl h
  · exact .inr ⟨hcag, e, h4, anc_one.2 h5⟩

/-! ### the sets -/

theorem ElimMesh.usable (g : ElimMesh n order cells cag ref dom minL maxL w) : ∃ D : Int, 0 ≤ D ∧ D + (((0 : Nat) : Int) + 2) * 2 ^ maxL + 2 < INT_MAX ∧
    ∀ l, l ≤ maxL → UsableT n maxL 0 D (.mesh (cells.lca l)) ∧ UsableT n maxL 0 D (.mesh (cag.lca l)) := by
  obtain ⟨D, d1, d2, d3⟩ := g.fv.domain.range
  have hb := g.fv.leaves.below d3
  have hp := pow_two_pos maxL
  have hs := g.fv.leaves.size
  have hw0 : (0 : Int) ≤ (w : Int) * 2 ^ maxL := Int.mul_nonneg (by omega) (le_of_lt hp)
  refine ⟨D + (w : Int) * 2 ^ maxL, by omega, ?_, fun l hl => ⟨⟨_, fun _ => 0, Or.inl rfl, g.fv.leaves.wf l (by omega), ?_, ?_⟩,
    ⟨_, fun _ => 0, Or.inl rfl, g.cagWF l (by have := g.cagSize; omega), ?_, ?_⟩⟩⟩
  · push_cast at d2 ⊢
    rw [add_mul] at d2
    omega
  · rw [g.fv.leaves.leveled l (by omega)]; exact hl
  · intro p hp x hx
    rw [g.fv.leaves.leveled l (by omega)]
    have := hb l p ⟨by omega, hp⟩ x hx
    omega
  · have := g.cagSize
    rw [g.cagLeveled l (by omega)]; exact hl
  · intro p hp x hx
    have hsz := g.cagSize
    rw [g.cagLeveled l (by omega)]
    obtain ⟨q, h1, h2⟩ := (g.cag_iff l p).1 ⟨by omega, hp⟩
    have := near_below h2 (hb l q h1) x hx
    have h3 : (w : Int) * 2 ^ (maxL - l) ≤ w * 2 ^ maxL := Int.mul_le_mul_of_nonneg_left (pow_mono_two (by omega)) (by omega)
    omega

theorem ElimMesh.projSet (g : ElimMesh n order cells cag ref dom minL maxL w) {level : Nat} (hl : level < maxL) :
    ∃ calls, runSet n (.op .inter (.leaf (.mesh (cag.lca level))) (.leaf (.mesh (cells.lca (level + 1))))) level = some calls ∧
      CanonicalCalls calls ∧ (∀ c ∈ calls, c.1.length = n) ∧ ∀ p, Covers calls p ↔ ProjGhost n cells cag level p := by
  obtain ⟨D, d1, d2, use⟩ := g.usable
  have hs := g.fv.leaves.size
  have hs' := g.cagSize
  have ha : (Expr.op .inter (.leaf (.mesh (cag.lca level))) (.leaf (.mesh (cells.lca (level + 1))))).Admissible n :=
    usableT_admissible d1 d2 ⟨(use level (by omega)).2, (use (level + 1) hl).1⟩
  have hf : (Expr.op .inter (.leaf (.mesh (cag.lca level))) (.leaf (.mesh (cells.lca (level + 1))))).finest = level + 1 := by
    show Nat.max (cag.lca level).level (cells.lca (level + 1)).level = level + 1
    rw [g.cagLeveled level (by omega), g.fv.leaves.leveled (level + 1) (by omega)]
    exact Nat.max_eq_right (by omega)
  obtain ⟨calls, g1, g2, g3, g4⟩ := runSet_canon ha (ref := level) (by omega)
  refine ⟨calls, g1, g2, g3, fun p => (g4 p).trans ?_⟩
  show AtLevel (cag.lca level).level level ((cag.lca level).Mem n) p ∧ AtLevel (cells.lca (level + 1)).level level ((cells.lca (level + 1)).Mem n) p ↔ _
  rw [g.cagLeveled level (by omega), g.fv.leaves.leveled (level + 1) (by omega), atLevel_same]
  have := atLevel_up (l := level + 1) (by omega) (S := (cells.lca (level + 1)).Mem n) (p := p)
  rw [show level + 1 - 1 = level by omega] at this
  rw [this]
  unfold ProjGhost CA.Mem
  constructor
  · rintro ⟨h1, c, h2, h3⟩; exact ⟨⟨by omega, h1⟩, c, ⟨by omega, h2⟩, h3⟩
  · rintro ⟨h1, c, h2, h3⟩; exact ⟨h1.2, c, h2.2, h3⟩

theorem ElimMesh.predSet (g : ElimMesh n order cells cag ref dom minL maxL w) {level : Nat} (h0 : 1 ≤ level) (hl : level ≤ maxL) :
    ∃ calls, runSet n (.op .inter (.leaf (.mesh (cag.lca level))) (.leaf (.mesh (cells.lca (level - 1))))) level = some calls ∧
      CanonicalCalls calls ∧ (∀ c ∈ calls, c.1.length = n) ∧ ∀ p, Covers calls p ↔ PredGhost n cells cag level p := by
  obtain ⟨D, d1, d2, use⟩ := g.usable
  have hs := g.fv.leaves.size
  have hs' := g.cagSize
  have ha : (Expr.op .inter (.leaf (.mesh (cag.lca level))) (.leaf (.mesh (cells.lca (level - 1))))).Admissible n :=
    usableT_admissible d1 d2 ⟨(use level (by omega)).2, (use (level - 1) (by omega)).1⟩
  have hf : (Expr.op .inter (.leaf (.mesh (cag.lca level))) (.leaf (.mesh (cells.lca (level - 1))))).finest = level := by
    show Nat.max (cag.lca level).level (cells.lca (level - 1)).level = level
    rw [g.cagLeveled level (by omega), g.fv.leaves.leveled (level - 1) (by omega)]
    exact Nat.max_eq_left (by omega)
  obtain ⟨calls, g1, g2, g3, g4⟩ := runSet_canon ha (ref := level) (by omega)
  refine ⟨calls, g1, g2, g3, fun p => (g4 p).trans ?_⟩
  show AtLevel (cag.lca level).level level ((cag.lca level).Mem n) p ∧ AtLevel (cells.lca (level - 1)).level level ((cells.lca (level - 1)).Mem n) p ↔ _
  rw [g.cagLeveled level (by omega), g.fv.leaves.leveled (level - 1) (by omega), atLevel_same, atLevel_parent (by omega)]
  unfold PredGhost CA.Mem
  constructor
  · rintro ⟨h1, h2⟩; exact ⟨h0, ⟨by omega, h1⟩, _, ⟨by omega, h2⟩, anc_one.2 rfl⟩
  · rintro ⟨-, h1, c, h2, h3⟩
    rw [anc_one] at h3
    exact ⟨h1.2, h3 ▸ h2.2⟩

section
variable {K : Type} [Field K]

/-- The entry `e` is the relation of the cell `x`, with the combination `C`. -/
def RelOf (n : Nat) (ref : CA) (C : Nat → List Int → List ((Nat × List Int) × K)) (x : Nat × List Int) (e : Int × LinComb K) : Prop :=
  e.1 = numOf n ref x.1 x.2 ∧ CellComb n ref e.2 (C x.1 x.2)

theorem forall₂_mapLeft {α β γ : Type} {R : α → β → Prop} {f : γ → α} {l : List γ} {l' : List β} (h : List.Forall₂ (fun a b => R (f a) b) l l') :
    List.Forall₂ R (l.map f) l' := by
  rwa [List.forall₂_map_left_iff]

theorem ElimMesh.projectionLevel (g : ElimMesh n order cells cag ref dom minL maxL w) {level : Nat} (hl : level < maxL) :
    ∃ (es : List (Int × LinComb K)) (xs : List (Nat × List Int)), Samurai.projectionLevel n ref cag cells level = some es ∧ xs.Nodup ∧
      (∀ x, x ∈ xs ↔ x.1 = level ∧ ProjGhost n cells cag x.1 x.2) ∧ List.Forall₂ (RelOf n ref (projCells K n)) xs es := by
  obtain ⟨calls, h1, h2, h3, h4⟩ := g.projSet hl
  have hcov : ∀ c ∈ calls, ∀ x ∈ c.2, ProjGhost n cells cag level (c.1 ++ [x]) := fun c hc x hx => (h4 _).1 ⟨c, hc, x, hx, rfl⟩
  obtain ⟨es, e1, e2⟩ := facesOf_spec (row := projectionRow (K := K) n ref level)
    (R := fun p e => e.1 = numOf n ref level p ∧ CellComb n ref e.2 (projCells K n level p)) (calls := calls) (fun c hc =>
    projectionRow_spec g.fv.refWF (h2.2 c hc).1 (fun x hx => g.cag_ref (hcov c hc x hx).1)
      (fun x hx d hd => g.cag_ref (g.child_proj (hcov c hc x hx) (anc_one.2 hd)).1))
  refine ⟨es, (callCells calls).map fun p => (level, p), by unfold Samurai.projectionLevel; rw [h1]; exact e1,
    (callCells_nodup h2).map fun a b h => (Prod.mk.inj h).2, fun x => ?_, forall₂_mapLeft e2⟩
  rw [List.mem_map]
  constructor
  · rintro ⟨p, hp, rfl⟩
    exact ⟨rfl, (h4 p).1 (mem_callCells.1 hp)⟩
  · obtain ⟨l, p⟩ := x
    rintro ⟨rfl, hp⟩
    exact ⟨p, mem_callCells.2 ((h4 p).2 hp), rfl⟩

theorem ElimMesh.predictionLevel (g : ElimMesh n order cells cag ref dom minL maxL w) (ho : order ≤ 5) {level : Nat} (h0 : 1 ≤ level) (hl : level ≤ maxL) :
    ∃ (es : List (Int × LinComb K)) (xs : List (Nat × List Int)), Samurai.predictionLevel n order ref cag cells level = some es ∧ xs.Nodup ∧
      (∀ x, x ∈ xs ↔ x.1 = level ∧ PredGhost n cells cag x.1 x.2) ∧ List.Forall₂ (RelOf n ref (predCells K n order)) xs es := by
  obtain ⟨calls, h1, h2, h3, h4⟩ := g.predSet h0 hl
  have hcov : ∀ c ∈ calls, ∀ x ∈ c.2, PredGhost n cells cag level (c.1 ++ [x]) := fun c hc x hx => (h4 _).1 ⟨c, hc, x, hx, rfl⟩
  obtain ⟨es, e1, e2⟩ := facesOf_spec (row := predictionRow (K := K) n order ref level)
    (R := fun p e => e.1 = numOf n ref level p ∧ CellComb n ref e.2 (predCells K n order level p)) (calls := calls) (fun c hc =>
    predictionRow_spec ho g.fv.refWF (h2.2 c hc).1 (h3 c hc) (fun x hx => g.cag_ref (hcov c hc x hx).2.1)
      (fun x hx q hq => g.below level _ q (hcov c hc x hx) hq))
  refine ⟨es, (callCells calls).map fun p => (level, p), by unfold Samurai.predictionLevel; rw [h1]; exact e1,
    (callCells_nodup h2).map fun a b h => (Prod.mk.inj h).2, fun x => ?_, forall₂_mapLeft e2⟩
  rw [List.mem_map]
  constructor
  · rintro ⟨p, hp, rfl⟩
    exact ⟨rfl, (h4 p).1 (mem_callCells.1 hp)⟩
  · obtain ⟨l, p⟩ := x
    rintro ⟨rfl, hp⟩
    exact ⟨p, mem_callCells.2 ((h4 p).2 hp), rfl⟩

omit [Field K] in
theorem overLevels_rels {R : Nat × List Int → Int × LinComb K → Prop} {P : Nat → List Int → Prop} {f : Nat → Option (List (Int × LinComb K))} :
    ∀ ls : List Nat, ls.Nodup → (∀ l ∈ ls, ∃ es xs, f l = some es ∧ xs.Nodup ∧ (∀ x : Nat × List Int, x ∈ xs ↔ x.1 = l ∧ P x.1 x.2) ∧ List.Forall₂ R xs es) →
      ∃ es xs, overLevels f ls = some es ∧ xs.Nodup ∧ (∀ x : Nat × List Int, x ∈ xs ↔ x.1 ∈ ls ∧ P x.1 x.2) ∧ List.Forall₂ R xs es := by
  intro ls
  induction ls with
  | nil => intro _ _; exact ⟨[], [], rfl, List.nodup_nil, by simp, List.Forall₂.nil⟩
  | cons l ls ih =>
    intro hn h
    rw [List.nodup_cons] at hn
    obtain ⟨a, xa, a1, a2, a3, a4⟩ := h l List.mem_cons_self
    obtain ⟨b, xb, b1, b2, b3, b4⟩ := ih hn.2 fun l' hl' => h l' (List.mem_cons_of_mem _ hl')
    refine ⟨a ++ b, xa ++ xb, by unfold overLevels; rw [a1, b1], ?_, fun x => ?_, List.rel_append a4 b4⟩
    · rw [List.nodup_append]
      refine ⟨a2, b2, fun x hx y hy hxy => ?_⟩
      subst hxy
      have h1 := ((a3 x).1 hx).1
      have h2 := ((b3 x).1 hy).1
      rw [h1] at h2
      exact hn.1 h2
    · rw [List.mem_append, a3, b3, List.mem_cons]
      tauto

theorem maxLevel_le (g : GoodLeaves n cells dom minL maxL) (h : cells.minLevel < cells.maxLevel) : cells.maxLevel ≤ maxL := by
  rcases cells.level_cases with ⟨_, h1, h2⟩ | ⟨g1, g2, g3, g4, _⟩
  · omega
  · have hr : (cells.lca cells.maxLevel).rows n ≠ [] := fun h => by
      rw [(rows_eq_nil_iff (g.wf _ (by omega))).1 h] at g4; simp at g4
    obtain ⟨e, he⟩ := List.exists_mem_of_ne_nil _ hr
    have hv := (rows_valid (g.wf _ (by omega)) he).2
    exact (g.between _ _ ⟨by omega, (mem_iff_rows (g.wf _ (by omega)) _).2 ⟨e, he, e.2.start, Interval.mem_def.2 ⟨le_rfl, hv⟩, rfl⟩⟩).2

/-- The relations before the substitutions. -/
theorem ElimMesh.ghostRelations (g : ElimMesh n order cells cag ref dom minL maxL w) (ho : order ≤ 5) :
    ∃ m : GhostMap K, Samurai.ghostRelations n order ref cag cells = some m ∧ m.keys.Nodup ∧
      (∀ l p, ProjGhost n cells cag l p → ∃ e ∈ m, RelOf n ref (projCells K n) (l, p) e) ∧
      (∀ l p, PredGhost n cells cag l p → ∃ e ∈ m, RelOf n ref (predCells K n order) (l, p) e) ∧
      ∀ e ∈ m, (∃ l p, ProjGhost n cells cag l p ∧ RelOf n ref (projCells K n) (l, p) e) ∨
        ∃ l p, PredGhost n cells cag l p ∧ RelOf n ref (predCells K n order) (l, p) e := by
  obtain ⟨a, xa, a1, a2, a3, a4⟩ := overLevels_rels (K := K) (R := RelOf n ref (projCells K n)) (P := ProjGhost n cells cag) (f := Samurai.projectionLevel n ref cag cells)
    (List.range' cells.minLevel (cells.maxLevel - cells.minLevel)) (List.nodup_range') (fun l hl => by
      rw [List.mem_range'_1] at hl
      have := maxLevel_le g.fv.leaves (by omega)
      exact g.projectionLevel (by omega))
  obtain ⟨b, xb, b1, b2, b3, b4⟩ := overLevels_rels (K := K) (R := RelOf n ref (predCells K n order)) (P := PredGhost n cells cag)
    (f := Samurai.predictionLevel n order ref cag cells)
    (List.range' (cells.minLevel + 1) (cells.maxLevel - cells.minLevel)) (List.nodup_range') (fun l hl => by
      rw [List.mem_range'_1] at hl
      have := maxLevel_le g.fv.leaves (by omega)
      exact g.predictionLevel ho (by omega) (by omega))
  have a3' : ∀ x, x ∈ xa ↔ ProjGhost n cells cag x.1 x.2 := fun x => (a3 x).trans ⟨fun h => h.2, fun h => ⟨by
    have := g.proj_levels h
    rw [List.mem_range'_1]; omega, h⟩⟩
  have b3' : ∀ x, x ∈ xb ↔ PredGhost n cells cag x.1 x.2 := fun x => (b3 x).trans ⟨fun h => h.2, fun h => ⟨by
    have := g.pred_levels h
    rw [List.mem_range'_1]; omega, h⟩⟩
  have keysOf : ∀ {C : Nat → List Int → List ((Nat × List Int) × K)} {xs : List (Nat × List Int)} {es : List (Int × LinComb K)}, List.Forall₂ (RelOf n ref C) xs es →
      es.map Prod.fst = xs.map fun x => numOf n ref x.1 x.2 := by
    intro C xs es h
    induction h with
    | nil => rfl
    | cons h _ ih => rw [List.map_cons, List.map_cons, ih, h.1]
  have inj : ∀ x ∈ xa ++ xb, ∀ y ∈ xa ++ xb, numOf n ref x.1 x.2 = numOf n ref y.1 y.2 → x = y := by
    have inRef : ∀ x ∈ xa ++ xb, ref.Mem n x.1 x.2 := by
      intro x hx
      rcases List.mem_append.1 hx with h | h
      · exact g.cag_ref ((a3' x).1 h).1
      · exact g.cag_ref ((b3' x).1 h).2.1
    intro x hx y hy h
    have h1 := numOf_numbered g.fv.refWF (inRef x hx)
    have h2 := numOf_numbered g.fv.refWF (inRef y hy)
    rw [h] at h1
    obtain ⟨h3, h4⟩ := number_inj g.distinct h1 h2
    exact Prod.ext h3 h4
  have hnd : ((a ++ b).map Prod.fst).Nodup := by
    rw [List.map_append, keysOf a4, keysOf b4, ← List.map_append]
    refine List.Nodup.map_on inj ?_
    rw [List.nodup_append]
    refine ⟨a2, b2, fun x hx y hy hxy => ?_⟩
    subst hxy
    exact g.proj_pred ((a3' x).1 hx) ((b3' x).1 hy)
  obtain ⟨i1, -, -, i4⟩ := inserts_spec (a ++ b) ([] : GhostMap K) (by simp [GhostMap.keys])
  have i4 := i4 (by simpa [GhostMap.keys] using hnd)
  refine ⟨_, by unfold Samurai.ghostRelations; rw [a1, b1], i1.imp (fun h => ne_of_lt h), fun l p h => ?_, fun l p h => ?_, fun e he => ?_⟩
  · obtain ⟨e, he, h'⟩ := forall₂_mem a4.flip ((a3' (l, p)).2 h)
    exact ⟨e, (i4 e).2 (.inr (List.mem_append_left _ he)), h'⟩
  · obtain ⟨e, he, h'⟩ := forall₂_mem b4.flip ((b3' (l, p)).2 h)
    exact ⟨e, (i4 e).2 (.inr (List.mem_append_right _ he)), h'⟩
  · rcases (i4 e).1 he with h | h
    · simp at h
    · rcases List.mem_append.1 h with h | h
      · obtain ⟨x, hx, h'⟩ := forall₂_mem a4 h
        exact .inl ⟨x.1, x.2, (a3' x).1 hx, h'⟩
      · obtain ⟨x, hx, h'⟩ := forall₂_mem b4 h
        exact .inr ⟨x.1, x.2, (b3' x).1 hx, h'⟩

/-! ### values -/

section
variable {U : Type} [AddCommGroup U] [Module K U]

theorem CellComb.value {e : LinComb K} {cc : List ((Nat × List Int) × K)} (hw : ref.WF n) (h : CellComb n ref e cc) {u : Int → U} {val : Nat → List Int → U}
    (hu : FieldIs n ref u val) : combVal e u = (cc.map fun x => x.2 • val x.1.1 x.1.2).sum := by
  unfold combVal
  rw [(h.2.map fun t : Int × K => t.2 • u t.1).sum_eq, List.map_map]
  congr 1
  apply List.map_congr_left
  intro x hx
  show x.2 • u (numOf n ref x.1.1 x.1.2) = _
  rw [hu _ _ _ (numOf_numbered hw (h.1 x hx))]

theorem projCells_value (val : Nat → List Int → U) (l : Nat) (p : List Int) :
    ((projCells K n l p).map fun x => x.2 • val x.1.1 x.1.2).sum = (1 / 2 ^ (n + 1) : K) • ((childrenOf p).map fun c => val (l + 1) c).sum := by
  unfold projCells
  rw [List.map_map, List.smul_sum, List.map_map]
  rfl

theorem predCells_value (val : Nat → List Int → U) (l : Nat) (p : List Int) :
    ((predCells K n order l p).map fun x => x.2 • val x.1.1 x.1.2).sum = ∑ s ∈ Fintype.piFinset fun _ : Fin (n + 1) => Finset.Icc (-(order : Int)) order,
    (∏ d : Fin (n + 1), (interpCoeffs order (if toPt p d % 2 = 1 then (-1 : K) else 1)).getD (s d + order).toNat 0) •
      val (l - 1) (ofPt (n + 1) fun d => toPt p d / 2 + if h : d < n + 1 then s ⟨d, h⟩ else 0) := by
  classical
  unfold predCells
  rw [List.map_map, ← List.sum_toFinset _ (offsetsFrom_nodup _ _ _)]
  refine Finset.sum_bij' (fun s _ => fun d : Fin (n + 1) => s d) (fun s _ => fun d => if h : d < n + 1 then s ⟨d, h⟩ else 0) ?_ ?_ ?_ ?_ ?_
  · intro s hs
    rw [List.mem_toFinset, mem_offsetsFrom] at hs
    rw [Fintype.mem_piFinset]
    intro d
    rw [Finset.mem_Icc]
    have := hs.1 d (by omega)
    push_cast at this
    constructor <;> omega
  · intro s hs
    rw [Fintype.mem_piFinset] at hs
    rw [List.mem_toFinset, mem_offsetsFrom]
    refine ⟨fun d hd => ?_, fun d hd => dif_neg (by omega)⟩
    rw [dif_pos (show d < n + 1 by omega)]
    have := hs ⟨d, by omega⟩
    rw [Finset.mem_Icc] at this
    push_cast
    constructor <;> omega
  · intro s hs
    rw [List.mem_toFinset, mem_offsetsFrom] at hs
    funext d
    by_cases hd : d < n + 1
    · simp only [dif_pos hd]
    · simp only [dif_neg hd]
      exact (hs.2 d (by omega)).symm
  · intro s hs
    funext d
    simp only [dif_pos d.2]
  · intro s hs
    show interpProduct n order (toPt p) s • val (l - 1) (ofPt (n + 1) fun d => parentPt (toPt p) d + s d) = _
    congr 1
    · unfold interpProduct
      have h : ∀ F : Nat → K, ((List.range (n + 1)).map F).prod = ∏ d : Fin (n + 1), F d := fun F => by
        rw [← Finset.prod_range]; rfl
      rw [h]
      refine Finset.prod_congr rfl fun d _ => ?_
      unfold isOdd
      simp only [decide_eq_true_eq]
    · congr 1
      refine ofPt_congr fun d hd => ?_
      simp only [dif_pos hd]
      unfold parentPt
      rw [shr_one_eq]

end

/-- The elimination of the ghosts. -/
theorem ElimMesh.elimination (g : ElimMesh n order cells cag ref dom minL maxL w) (ho : order ≤ 5) :
    ∃ rec : GhostMap K, (∀ fuel, 2 * maxL < fuel → ghostRecursion n order ref cag cells fuel = some rec) ∧
      (∀ k, (∃ l, rec.find k = some l) ↔ ∃ l p, (l, p, k) ∈ ref.numbered n ∧ (ProjGhost n cells cag l p ∨ PredGhost n cells cag l p)) ∧
      (∀ e ∈ rec, ∀ t ∈ e.2, ∃ l p, (l, p, t.1) ∈ ref.numbered n ∧ ¬ ProjGhost n cells cag l p ∧ ¬ PredGhost n cells cag l p) ∧
      (∀ e ∈ rec, rec.find e.1 = some e.2) ∧
      ∀ (U : Type) [AddCommGroup U] [Module K U] (u : Int → U) (val : Nat → List Int → U), FieldIs n ref u val →
        (GhostsHold rec u ↔ (∀ l p, ProjGhost n cells cag l p → MeanBelow (K := K) n val l p) ∧
          ∀ l p, PredGhost n cells cag l p → TensorPredicted (K := K) n order val l p) := by
  classical
  have hw := g.fv.refWF
  obtain ⟨m, m1, m2, m3, m4, m5⟩ := g.ghostRelations (K := K) ho
  have hkey : ∀ l p k, (l, p, k) ∈ ref.numbered n → (k ∈ m.keys ↔ ProjGhost n cells cag l p ∨ PredGhost n cells cag l p) := by
    intro l p k hk
    constructor
    · intro h
      obtain ⟨e, he, rfl⟩ := List.mem_map.1 h
      rcases m5 e he with ⟨l', p', h1, h2⟩ | ⟨l', p', h1, h2⟩
      · have h3 := numOf_numbered hw (g.cag_ref h1.1)
        rw [show numOf n ref l' p' = e.1 from h2.1.symm] at h3
        obtain ⟨rfl, rfl⟩ := number_inj g.distinct hk h3
        exact .inl h1
      · have h3 := numOf_numbered hw (g.cag_ref h1.2.1)
        rw [show numOf n ref l' p' = e.1 from h2.1.symm] at h3
        obtain ⟨rfl, rfl⟩ := number_inj g.distinct hk h3
        exact .inr h1
    · have key : ∀ {C : Nat → List Int → List ((Nat × List Int) × K)} {e : Int × LinComb K}, cag.Mem n l p → e ∈ m → RelOf n ref C (l, p) e → k ∈ m.keys := by
        intro C e hm he hr
        have h3 := numOf_numbered hw (g.cag_ref hm)
        rw [CA.number_unique hw hk h3, show numOf n ref l p = e.1 from hr.1.symm]
        exact List.mem_map.2 ⟨e, he, rfl⟩
      rintro (h | h)
      · obtain ⟨e, he, h2⟩ := m3 l p h
        exact key h.1 he h2
      · obtain ⟨e, he, h2⟩ := m4 l p h
        exact key h.2.1 he h2
  have inRef : ∀ {l : Nat} {p : List Int}, ProjGhost n cells cag l p ∨ PredGhost n cells cag l p → ref.Mem n l p := by
    rintro l p (h | h)
    · exact g.cag_ref h.1
    · exact g.cag_ref h.2.1
  have hkey' : ∀ k, k ∈ m.keys ↔ ∃ l p, (l, p, k) ∈ ref.numbered n ∧ (ProjGhost n cells cag l p ∨ PredGhost n cells cag l p) := by
    intro k
    constructor
    · intro h
      obtain ⟨e, he, rfl⟩ := List.mem_map.1 h
      rcases m5 e he with ⟨l', p', h1, h2⟩ | ⟨l', p', h1, h2⟩
      · refine ⟨l', p', ?_, .inl h1⟩
        rw [h2.1]
        exact numOf_numbered hw (g.cag_ref h1.1)
      · refine ⟨l', p', ?_, .inr h1⟩
        rw [h2.1]
        exact numOf_numbered hw (g.cag_ref h1.2.1)
    · rintro ⟨l, p, h1, h2⟩
      exact (hkey l p k h1).2 h2
  obtain ⟨r, hr⟩ := field_exists g.distinct fun l p => if PredGhost n cells cag l p then (maxL + l : Int) else (maxL - l : Int)
  have rank : ∀ {l : Nat} {p : List Int} {k : Int}, (l, p, k) ∈ ref.numbered n →
      (ProjGhost n cells cag l p → (r k).toNat = maxL - l) ∧ (PredGhost n cells cag l p → (r k).toNat = maxL + l) := by
    intro l p k hk
    rw [hr l p k hk]
    simp only []
    constructor
    · intro h
      rw [if_neg (g.proj_pred h)]
      have := g.proj_levels h
      omega
    · intro h
      rw [if_pos h]
      omega
  obtain ⟨rec, s1, s2, s3, s4⟩ := substLoop_spec (ρ := fun k => (r k).toNat) (Q := fun k => ∃ l p, (l, p, k) ∈ ref.numbered n) (R := 2 * maxL) (2 * maxL) 0 m
    (by omega) m2 (fun k hk => by
      obtain ⟨l, p, h1, h2 | h2⟩ := (hkey' k).1 hk
      · rw [(rank h1).1 h2]; omega
      · rw [(rank h1).2 h2]
        have := g.pred_levels h2
        omega) (fun k e hf t ht htk => by
      rcases m5 _ (find_mem hf) with ⟨l, p, h1, h2, h3, h4⟩ | ⟨l, p, h1, h2, h3, h4⟩
      · obtain ⟨x, hx, rfl⟩ := List.mem_map.1 (h4.subset ht)
        have hx1 := numOf_numbered hw (h3 x hx)
        have hk1 := numOf_numbered hw (g.cag_ref h1.1)
        simp only at h2
        subst h2
        obtain ⟨c, hc, rfl⟩ := List.mem_map.1 hx
        have hpc : Anc 1 p c := anc_one.2 (mem_children.1 hc)
        rcases (g.child_proj h1 hpc).2 with h | h
        · rcases (hkey _ _ _ hx1).1 htk with h' | h'
          · exact absurd h' (g.leaf_proj h)
          · exact absurd h' (g.leaf_pred h)
        · rw [(rank hx1).1 h, (rank hk1).1 h1]
          have := g.proj_levels h
          simp only at this ⊢
          omega
      · obtain ⟨x, hx, rfl⟩ := List.mem_map.1 (h4.subset ht)
        have hx1 := numOf_numbered hw (h3 x hx)
        have hk1 := numOf_numbered hw (g.cag_ref h1.2.1)
        simp only at h2
        subst h2
        obtain ⟨c, hc, rfl⟩ := List.mem_map.1 hx
        have := g.pred_levels h1
        rw [(rank hk1).2 h1]
        rcases (hkey _ _ _ hx1).1 htk with h' | h'
        · rw [(rank hx1).1 h']
          simp only
          omega
        · rw [(rank hx1).2 h']
          simp only
          omega)
    (fun k e hf t ht => by
      rcases m5 _ (find_mem hf) with ⟨l, p, h1, h2, h3, h4⟩ | ⟨l, p, h1, h2, h3, h4⟩
      · obtain ⟨x, hx, rfl⟩ := List.mem_map.1 (h4.subset ht)
        exact ⟨_, _, numOf_numbered hw (h3 x hx)⟩
      · obtain ⟨x, hx, rfl⟩ := List.mem_map.1 (h4.subset ht)
        exact ⟨_, _, numOf_numbered hw (h3 x hx)⟩)
  refine ⟨rec, fun fuel hf => ?_, fun k => ?_, fun e he t ht => ?_, fun e he => mem_find (by rw [s2]; exact m2) he, fun U _ _ u val hu => ?_⟩
  · unfold ghostRecursion
    rw [m1]
    exact s1 fuel hf
  · rw [← find_key, s2, hkey']
  · obtain ⟨h1, l, p, h2⟩ := s4 e he t ht
    rw [hkey l p _ h2] at h1
    exact ⟨l, p, h2, fun h => h1 (.inl h), fun h => h1 (.inr h)⟩
  · rw [s3]
    have val1 : ∀ {l p} {e : Int × LinComb K}, ProjGhost n cells cag l p → RelOf n ref (projCells K n) (l, p) e →
        (u e.1 = (e.2.map fun t => t.2 • u t.1).sum ↔ MeanBelow (K := K) n val l p) := by
      intro l p e h1 h2
      have h3 := h2.2.value hw hu
      unfold combVal at h3
      rw [h3, projCells_value, h2.1, hu _ _ _ (numOf_numbered hw (g.cag_ref h1.1))]
      rfl
    have val2 : ∀ {l p} {e : Int × LinComb K}, PredGhost n cells cag l p → RelOf n ref (predCells K n order) (l, p) e →
        (u e.1 = (e.2.map fun t => t.2 • u t.1).sum ↔ TensorPredicted (K := K) n order val l p) := by
      intro l p e h1 h2
      have h3 := h2.2.value hw hu
      unfold combVal at h3
      rw [h3, predCells_value, h2.1, hu _ _ _ (numOf_numbered hw (g.cag_ref h1.2.1))]
      rfl
    constructor
    · intro h
      refine ⟨fun l p hp => ?_, fun l p hp => ?_⟩
      · obtain ⟨e, he, h2⟩ := m3 l p hp
        exact (val1 hp h2).1 (h e he)
      · obtain ⟨e, he, h2⟩ := m4 l p hp
        exact (val2 hp h2).1 (h e he)
    · rintro ⟨h1, h2⟩ e he
      rcases m5 e he with ⟨l, p, h3, h4⟩ | ⟨l, p, h3, h4⟩
      · exact (val1 h3 h4).2 (h1 l p h3)
      · exact (val2 h3 h4).2 (h2 l p h3)

end

end

end Samurai

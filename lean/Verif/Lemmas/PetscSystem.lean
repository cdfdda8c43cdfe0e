import Verif.Spec.PetscSystem
import Verif.Lemmas.PetscRows
import Verif.Lemmas.PetscBc
import Verif.Lemmas.GhostAdapted
import Mathlib.Algebra.Polynomial.Degree.SmallDegree

/-! The linear system of an implicit scheme on an adapted mesh. -/

namespace Samurai

/-! ### the ghosts that are eliminated -/

section
variable {n order : Nat} {cells cag ref : CA} {dom : LCA} {minL maxL w : Nat}

theorem setNumbers_spec (hw : ref.WF n) {e : Expr Node} {level : Nat} {calls : List Call} (h1 : runSet n e level = some calls) (h2 : CanonicalCalls calls)
    (h3 : ∀ p, Covers calls p → ref.Mem n level p) : ∃ ks, setNumbers n ref e level = some ks ∧ ∀ k, k ∈ ks ↔ ∃ p, Covers calls p ∧ k = numOf n ref level p := by
  have hcov : ∀ c ∈ calls, ∀ x ∈ c.2, ref.Mem n level (c.1 ++ [x]) := fun c hc x hx => h3 _ ⟨c, hc, x, hx, rfl⟩
  obtain ⟨ks, e1, e2⟩ := facesOf_spec (row := fun c => (getIndex (ref.lca level) n c.1 c.2.start).map fun a => (List.range c.2.size).map fun (ii : Nat) => a + (ii : Int))
    (R := fun p (k : Int) => k = numOf n ref level p) (calls := calls) (fun c hc => by
      have hlt := (h2.2 c hc).1
      have hs : c.2.start ∈ c.2 := Interval.mem_def.2 ⟨le_rfl, hlt⟩
      refine ⟨_, by rw [index_numOf hw (hcov c hc _ hs)]; rfl, ?_⟩
      rw [rowCells_eq]
      apply forall₂_range
      intro i hi
      unfold Interval.size at hi
      rw [numOf_shift hw (a := c.2.start) (b := c.2.start + (i : Int)) (by omega) (fun x k1 k2 => hcov c hc x (Interval.mem_def.2 ⟨k1, by omega⟩))]
      omega)
  refine ⟨ks, by unfold setNumbers; rw [h1]; exact e1, fun k => ⟨fun hk => ?_, ?_⟩⟩
  · obtain ⟨p, hp, hR⟩ := forall₂_mem e2 hk
    exact ⟨p, mem_callCells.1 hp, hR⟩
  · rintro ⟨p, hp, rfl⟩
    obtain ⟨k, hk, hR⟩ := forall₂_mem e2.flip (mem_callCells.2 hp)
    rw [← hR]
    exact hk

theorem ElimMesh.eliminatedGhosts (g : ElimMesh n order cells cag ref dom minL maxL w) :
    ∃ G, Samurai.eliminatedGhosts n ref cag cells = some G ∧ ∀ k, k ∈ G ↔ ∃ l p, (l, p, k) ∈ ref.numbered n ∧ (ProjGhost n cells cag l p ∨ PredGhost n cells cag l p) := by
  obtain ⟨a, a1, a2⟩ := overLevels_mem (f := fun l => setNumbers n ref (.op .inter (.leaf (.mesh (cag.lca l))) (.leaf (.mesh (cells.lca (l + 1))))) l)
    (P := fun l k => ∃ p, ProjGhost n cells cag l p ∧ k = numOf n ref l p) (List.range' cells.minLevel (cells.maxLevel - cells.minLevel)) (fun l hl => by
      rw [List.mem_range'_1] at hl
      have := maxLevel_le g.fv.leaves (by omega)
      obtain ⟨calls, h1, h2, -, h4⟩ := g.projSet (level := l) (by omega)
      obtain ⟨ks, k1, k2⟩ := setNumbers_spec g.fv.refWF h1 h2 (fun p hp => g.cag_ref ((h4 p).1 hp).1)
      exact ⟨ks, k1, fun k => (k2 k).trans (exists_congr fun p => and_congr_left fun _ => h4 p)⟩)
  obtain ⟨b, b1, b2⟩ := overLevels_mem (f := fun l => setNumbers n ref (.op .inter (.leaf (.mesh (cag.lca l))) (.leaf (.mesh (cells.lca (l - 1))))) l)
    (P := fun l k => ∃ p, PredGhost n cells cag l p ∧ k = numOf n ref l p) (List.range' (cells.minLevel + 1) (cells.maxLevel - cells.minLevel)) (fun l hl => by
      rw [List.mem_range'_1] at hl
      have := maxLevel_le g.fv.leaves (by omega)
      obtain ⟨calls, h1, h2, -, h4⟩ := g.predSet (level := l) (by omega) (by omega)
      obtain ⟨ks, k1, k2⟩ := setNumbers_spec g.fv.refWF h1 h2 (fun p hp => g.cag_ref ((h4 p).1 hp).2.1)
      exact ⟨ks, k1, fun k => (k2 k).trans (exists_congr fun p => and_congr_left fun _ => h4 p)⟩)
  refine ⟨a ++ b, by unfold Samurai.eliminatedGhosts; rw [a1, b1], fun k => ?_⟩
  rw [List.mem_append, a2, b2]
  constructor
  · rintro (⟨l, -, p, h1, rfl⟩ | ⟨l, -, p, h1, rfl⟩)
    · exact ⟨l, p, numOf_numbered g.fv.refWF (g.cag_ref h1.1), Or.inl h1⟩
    · exact ⟨l, p, numOf_numbered g.fv.refWF (g.cag_ref h1.2.1), Or.inr h1⟩
  · rintro ⟨l, p, hk, h1 | h1⟩
    · have := g.proj_levels h1
      exact Or.inl ⟨l, by rw [List.mem_range'_1]; omega, p, h1, CA.number_unique g.fv.refWF hk (numOf_numbered g.fv.refWF (g.cag_ref h1.1))⟩
    · have := g.pred_levels h1
      exact Or.inr ⟨l, by rw [List.mem_range'_1]; omega, p, h1, CA.number_unique g.fv.refWF hk (numOf_numbered g.fv.refWF (g.cag_ref h1.2.1))⟩

/-! ### the cells outside the domain -/

/-- No part of the cell is in the domain. -/
def OutDomain (n : Nat) (dom : LCA) (maxL l : Nat) (q : List Int) : Prop := ∀ m, Anc (maxL - l) q m → ¬ InDomain n dom maxL m

theorem ElimMesh.outside (g : ElimMesh n order cells cag ref dom minL maxL w) {l : Nat} {q : List Int} (hl : l ≤ maxL) (h : OutDomain n dom maxL l q) :
    ¬ cells.Mem n l q ∧ ¬ ProjGhost n cells cag l q ∧ ¬ PredGhost n cells cag l q := by
  have ht := g.fv.leaves.tiles
  refine ⟨fun hq => ?_, ?_, ?_⟩
  · obtain ⟨m, hm⟩ := anc_exists (maxL - l) q
    exact h m hm ((ht m).1 ⟨l, q, hl, hq, hm⟩)
  · intro hp
    have := g.proj_levels hp
    obtain ⟨-, c, h2, h3⟩ := hp
    obtain ⟨m, hm⟩ := anc_exists (maxL - (l + 1)) c
    refine h m ?_ ((ht m).1 ⟨l + 1, c, by omega, h2, hm⟩)
    rw [show maxL - l = 1 + (maxL - (l + 1)) by omega]
    exact anc_trans h3 hm
  · rintro ⟨h0, -, c, h2, h3⟩
    obtain ⟨m, hm⟩ := anc_exists (maxL - l) q
    refine h m hm ((ht m).1 ⟨l - 1, c, by omega, h2, ?_⟩)
    rw [show maxL - (l - 1) = 1 + (maxL - l) by omega]
    exact anc_trans h3 hm

theorem outside_box {base : Nat} {b : Box} (hd : BoxDomain n dom base b) (hdl : dom.level = maxL) {l : Nat} (h1 : base ≤ l) (h2 : l ≤ maxL) {q : List Int}
    (hq : ¬ InBox (b.refined (l - base)) n q) : OutDomain n dom maxL l q := by
  rintro m hm ⟨d, d1, d2⟩
  rw [hdl, Nat.sub_self] at d2
  obtain rfl := anc_zero.1 d2
  rw [(hd.finer h1 (by omega)).mem, hdl] at d1
  exact hq (box_of_desc hm d1)

/-! ### the calls of the boundary conditions -/

variable {K : Type} [Field K] {m : Nat}

theorem implicit_iff {h0 : K} {level : Nat} {kind : BcKind} : (bcEquation h0 level kind).isSome ↔ kind.Implicit := by
  unfold bcEquation BcKind.Implicit
  split
  · simp
  · simp
  · rename_i h1 h2
    cases kind with
    | dirichlet order => simp only [Option.isSome_none, Bool.false_eq_true, false_iff]; rintro rfl; exact h1 rfl
    | neumann => exact absurd rfl h2

theorem overList_ok {α β : Type} {f : α → Option (List β)} {ev : α → List β} : ∀ l : List α, (∀ a ∈ l, f a = some (ev a)) → overList f l = some (l.flatMap ev) := by
  intro l
  induction l with
  | nil => intro _; rfl
  | cons a l ih =>
    intro h
    rw [overList, h a List.mem_cons_self, ih fun b hb => h b (List.mem_cons_of_mem _ hb)]
    rfl

/-- The call of a condition on a leaf. -/
def bcCallOf (n : Nat) (ref : CA) (x : FieldBc K n m × ((Nat → Int) × LCA)) (level : Nat) (p : List Int) : BcCall K n m :=
  ⟨x.1, x.2.1, level, bcCells n ref level x.2.1 p⟩

theorem FVMesh.bcCallsDir (g : FVMesh n cells ref dom minL maxL w) (hn : n ≤ 2) (hw1 : 1 ≤ w) (hdl : dom.level = maxL) (h0 : K) (x : FieldBc K n m × ((Nat → Int) × LCA))
    (hreg : UnitVector n x.2.1 → OneAxis n x.2.1 → BdryRegion n dom x.2.1 x.2.2) :
    ∃ cs, Samurai.bcCallsDir n h0 ref cells x.1 x.2 = some cs ∧ ∀ c, c ∈ cs ↔ ∃ level p q, Constrains n cells level x p q ∧ c = bcCallOf n ref x level p := by
  by_cases hx : numberOfOne n x.2.1 = 1 ∧ (bcEquation h0 0 x.1.kind).isSome
  · obtain ⟨hu, h1⟩ := numberOfOne_iff.1 hx.1
    have hi := implicit_iff.1 hx.2
    obtain ⟨s0, s1, s2, hS, hs⟩ := bdryStencil_spec hn hu h1
    obtain ⟨cs, c1, c2⟩ := overLevels_mem (f := fun level =>
        (stencilsOf n ref [s0, s1, s2] (.op .inter (.leaf (.mesh (cells.lca level))) (.leaf (.mesh x.2.2))) level).map fun l => l.map fun cs => (⟨x.1, x.2.1, level, cs⟩ : BcCall K n m))
      (P := fun level c => ∃ p, cells.Mem n level p ∧ RegionAt n x.2.2 level p ∧ c = bcCallOf n ref x level p) cells.usedLevels (fun level hl => by
        obtain ⟨p0, hp0⟩ := (mem_usedLevels g.leaves.wf).1 hl
        obtain ⟨ls, l1, l2⟩ := g.bcStencils hw1 hdl hu (hreg hu h1) hs (g.leaves.between _ _ hp0).2
        refine ⟨_, by rw [l1]; rfl, fun c => ?_⟩
        rw [List.mem_map]
        constructor
        · rintro ⟨cs, hcs, rfl⟩
          obtain ⟨p, k1, k2, rfl⟩ := (l2 cs).1 hcs
          exact ⟨p, k1, k2, rfl⟩
        · rintro ⟨p, k1, k2, rfl⟩
          exact ⟨_, (l2 _).2 ⟨p, k1, k2, rfl⟩, rfl⟩)
    refine ⟨cs, by unfold Samurai.bcCallsDir; rw [if_pos hx, hS]; exact c1, fun c => ?_⟩
    rw [c2]
    constructor
    · rintro ⟨level, -, p, k1, k2, rfl⟩
      exact ⟨level, p, _, ⟨hu, h1, hi, k1, k2, rfl⟩, rfl⟩
    · rintro ⟨level, p, q, ⟨-, -, -, k1, k2, -⟩, rfl⟩
      exact ⟨level, (mem_usedLevels g.leaves.wf).2 ⟨p, k1⟩, p, k1, k2, rfl⟩
  · refine ⟨[], by unfold Samurai.bcCallsDir; rw [if_neg hx], fun c => ?_⟩
    constructor
    · intro h; simp at h
    · rintro ⟨level, p, q, ⟨k1, k2, k3, -⟩, -⟩
      exact absurd ⟨numberOfOne_iff.2 ⟨k1, k2⟩, implicit_iff.2 k3⟩ hx

theorem FVMesh.bcCalls (g : FVMesh n cells ref dom minL maxL w) (hn : n ≤ 2) (hw1 : 1 ≤ w) (hdl : dom.level = maxL) (h0 : K) (bcs : List (FieldBc K n m))
    (hreg : ∀ x ∈ fieldEntries bcs, UnitVector n x.2.1 → OneAxis n x.2.1 → BdryRegion n dom x.2.1 x.2.2) :
    ∃ ev : FieldBc K n m × ((Nat → Int) × LCA) → List (BcCall K n m), Samurai.bcCalls n h0 ref cells bcs = some ((fieldEntries bcs).flatMap ev) ∧
      ∀ x ∈ fieldEntries bcs, ∀ c, c ∈ ev x ↔ ∃ level p q, Constrains n cells level x p q ∧ c = bcCallOf n ref x level p := by
  have h : ∀ x ∈ fieldEntries bcs, Samurai.bcCallsDir n h0 ref cells x.1 x.2 = some ((Samurai.bcCallsDir n h0 ref cells x.1 x.2).getD []) := by
    intro x hx
    obtain ⟨cs, h1, -⟩ := g.bcCallsDir hn hw1 hdl h0 x (hreg x hx)
    rw [h1]
    rfl
  refine ⟨fun x => (Samurai.bcCallsDir n h0 ref cells x.1 x.2).getD [], ?_, fun x hx c => ?_⟩
  · unfold Samurai.bcCalls
    rw [overList_ok (ev := fun b => b.region.flatMap fun d => (Samurai.bcCallsDir n h0 ref cells b d).getD []) bcs]
    · unfold fieldEntries
      rw [List.flatMap_assoc]
      simp only [List.flatMap_map]
    · intro b hb
      exact overList_ok _ fun d hd => h (b, d) (List.mem_flatMap.2 ⟨b, hb, List.mem_map.2 ⟨d, hd, rfl⟩⟩)
  · obtain ⟨cs, h1, h2⟩ := g.bcCallsDir hn hw1 hdl h0 x (hreg x hx)
    simp only []
    rw [h1]
    exact h2 c

/-! ### the equation of a condition -/

theorem satisfied_implicit (h2 : (2 : K) ≠ 0) {h0 : K} {level : Nat} {kind : BcKind} {eq : (Nat → K) × K} (h : bcEquation h0 level kind = some eq) (f : Int → K) (x : K) :
    kind.Satisfied h0 level f 1 x ↔ eq.1 0 * f 0 + eq.1 2 * f 1 = eq.2 * x := by
  unfold bcEquation at h
  split at h
  · cases h
    show (∃ P : Polynomial K, P.natDegree ≤ 1 ∧ (∀ j : Nat, j < 1 → f (- (j : Int)) = P.eval (- (j : K))) ∧ P.eval (1 / 2) = x ∧ f ((1 : Nat) : Int) = P.eval ((1 : Nat) : K)) ↔
      (1 / 2 : K) * f 0 + 1 / 2 * f 1 = 1 * x
    constructor
    · rintro ⟨P, hd, h0', h1, h3⟩
      obtain ⟨a, c, rfl⟩ := Polynomial.exists_eq_X_add_C_of_natDegree_le_one hd
      have := h0' 0 (by omega)
      simp at this h1 h3
      rw [this, h3, ← h1]
      field_simp
      ring
    · intro hx
      refine ⟨Polynomial.C (f 1 - f 0) * Polynomial.X + Polynomial.C (f 0), Polynomial.natDegree_linear_le, fun j hj => ?_, ?_, ?_⟩
      · obtain rfl : j = 0 := by omega
        simp
      · rw [one_mul] at hx
        rw [← hx]
        simp only [Polynomial.eval_add, Polynomial.eval_mul, Polynomial.eval_C, Polynomial.eval_X]
        field_simp
        ring
      · simp
  · cases h
    show (1 = 1 ∧ f 1 - f 0 = cellLength h0 level * x) ↔ (-1 : K) * f 0 + 1 * f 1 = cellLength h0 level * x
    constructor
    · rintro ⟨-, h⟩
      rw [← h]; ring
    · intro h
      exact ⟨rfl, by rw [← h]; ring⟩
  · cases h

/-! ### the columns of the scheme -/

variable {L : MatLayout} {rec : GhostMap K} {p' : Nat} {sub : LCA}

theorem bdryEntries_free {A : List ((Fin m → K) →ₗ[K] (Fin p' → K))} {f : BdryCall}
    (h : ∀ c ∈ f.comput, (0 ≤ c.index ∧ c.index < L.nCells) ∧ rec.find c.index = none) : FreeCols L rec m (bdryEntries L A f) := by
  intro e he
  unfold bdryEntries at he
  obtain ⟨i, -, he⟩ := List.mem_flatMap.1 he
  obtain ⟨j, -, he⟩ := List.mem_flatMap.1 he
  obtain ⟨a, b, c, hc, he⟩ := stencilLoop_mem he
  rw [List.mem_singleton] at he
  subst he
  exact ⟨c.index, j, rfl, h c hc⟩

theorem ElimMesh.assembleScheme_free (g : ElimMesh n order cells cag ref dom minL maxL w) (hr : ∀ e ∈ rec, ∀ t ∈ e.2, (0 ≤ t.1 ∧ t.1 < L.nCells) ∧ rec.find t.1 = none)
    (hN : ∀ l q k, (l, q, k) ∈ ref.numbered n → 0 ≤ k ∧ k < L.nCells)
    (hkey : ∀ l q k, (l, q, k) ∈ ref.numbered n → ¬ ProjGhost n cells cag l q → ¬ PredGhost n cells cag l q → rec.find k = none)
    (hsub : constructSubdomain n cells maxL = some sub) {h0 : K} {S : Nat → List (Nat → Int)}
    (hS : ∀ d ≤ n, StencilOK n w (unitDir d) (S d)) (h2 : ∀ d ≤ n, TwoPoint n (unitDir d) (S d))
    {C : Nat → Nat → List MCell → List ((Fin m → K) →ₗ[K] (Fin p' → K))} {E : List (MatEntry K)}
    (h : assembleScheme n h0 L rec ref sub cells maxL true S C = some E) : FreeCols L rec m E := by
  unfold assembleScheme at h
  rw [if_pos rfl] at h
  cases h1 : overLevels (fun d => asmInterior n h0 L rec ref cells maxL (cartesianDir d) (S d) (C d)) (List.range (n + 1)) with
  | none => rw [h1] at h; simp at h
  | some a =>
    cases hb : overLevels (fun d => overLevels (asmBdry n h0 L ref sub cells (cartesianDir d) (S d) (C d)) cells.usedLevels) (List.range (n + 1)) with
    | none => rw [h1, hb] at h; simp at h
    | some b =>
      rw [h1, hb] at h
      cases h
      refine (overLevels_free _ _ (fun d hd E hE => ?_) h1).append (overLevels_free _ _ (fun d hd E hE => ?_) hb)
      · have hd' : d ≤ n := by have := List.mem_range.1 hd; omega
        exact asmInterior_free hr hN g.fv hd' (hS d hd') hE
      · have hd' : d ≤ n := by have := List.mem_range.1 hd; omega
        refine overLevels_free _ _ (fun l hl E hE => ?_) hE
        obtain ⟨p0, hp0⟩ := (mem_usedLevels g.fv.leaves.wf).1 hl
        have hlm := (g.fv.leaves.between _ _ hp0).2
        obtain ⟨⟨fs, a1, -, a3, a4⟩, fs', b1, -, b3, b4⟩ := C41_boundary_calls n cells ref dom sub minL maxL w d l (S d) g.fv hd' (hS d hd') hlm hsub
        have hcell : ∀ {q : List Int} {c : MCell}, CellIs n ref l q c → cells.Mem n l q ∨ OutDomain n dom maxL l q →
            (0 ≤ c.index ∧ c.index < L.nCells) ∧ rec.find c.index = none := by
          intro q c hc h
          refine ⟨hN _ _ _ hc.2.2, ?_⟩
          rcases h with h | h
          · exact hkey _ _ _ hc.2.2 (g.leaf_proj h) (g.leaf_pred h)
          · exact hkey _ _ _ hc.2.2 (g.outside hlm h).2.1 (g.outside hlm h).2.2
        have hE' : asmBdry n h0 L ref sub cells (unitDir d) (S d) (C d) l = some E := hE
        unfold asmBdry at hE'
        rw [a1, b1] at hE'
        cases hE'
        refine (FreeCols.flatMap fun f hf => bdryEntries_free fun c hc => ?_).append (FreeCols.flatMap fun f hf => bdryEntries_free fun c hc => ?_)
        · obtain ⟨s, hs, hcs⟩ := forall₂_mem (a4 f hf).2 hc
          obtain ⟨k1, k2⟩ := (a3 _).1 (List.mem_map.2 ⟨f, hf, rfl⟩)
          rcases h2 d hd' s hs with h | h
          · rw [shift_congr (s := s) (t := fun _ => 0) _ _ h, shift_zero] at hcs
            exact hcell hcs (Or.inl k1)
          · rw [shift_congr (s := s) (t := unitDir d) _ _ h] at hcs
            exact hcell hcs (Or.inr k2)
        · obtain ⟨-, q, rfl, k3⟩ := b4 f hf
          obtain ⟨s, hs, hcs⟩ := forall₂_mem k3 hc
          obtain ⟨k1, k2⟩ := (b3 _).1 (List.mem_map.2 ⟨f, hf, rfl⟩)
          rcases h2 d hd' s hs with h | h
          · rw [shift_congr (s := s) (t := fun _ => 0) _ _ h, shift_zero] at hcs
            exact hcell hcs (Or.inr k2)
          · rw [shift_congr (s := s) (t := unitDir d) _ _ h, shift_shift] at hcs
            have : (fun k => - unitDir d k + unitDir d k) = fun _ : Nat => (0 : Int) := by funext k; ring
            rw [this, shift_zero] at hcs
            exact hcell hcs (Or.inl k1)

end

end Samurai

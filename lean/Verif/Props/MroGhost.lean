/-
Property C118: the update of the ghosts of a field on a mesh with overleaves.
-/
import Verif.Spec.GhostUpdate
import Verif.Lemmas.MroAdapted
import Verif.Props.MroMesh
import Verif.Props.AMRGhost

namespace Samurai

section
variable {K : Type} [Field K] [CharZero K] {n : Nat}

/-- `update_ghost_mro` on numbered sub-meshes. -/
theorem mro_ghosts (hn : n ≤ 1) (cfg : MeshConfig) (hs : cfg.predictionOrder = 1) {cells : CA} {dom : LCA}
    {minL maxL : Nat} {b : Box} (g : GoodLeaves n cells dom minL maxL) (hd : BoxDomain n dom 0 b) (hdl : dom.level = maxL)
    {B : Int} (hB0 : 0 ≤ B) (hB : B + (cfg.ghostWidth + 12) * 2 ^ maxL + 2 < INT_MAX) (hhi : ∀ d ≤ n, b.hi d * 2 ^ maxL ≤ B)
    (h0 : K) {c all proj : CA} (r : MroNumbered n cfg.ghostWidth cells maxL c all proj) (bcs : List (BcCond K))
    (hbc : ∀ c ∈ bcs, GoodBc n dom cfg.ghostWidth c) (u : Int → K) :
    ∃ u', updateGhostMro n ⟨⟨c, all, dom, minL, maxL, fun _ => false, h0, cfg⟩, proj⟩ bcs u = some u' ∧
      FieldIs n all u' (fun l p => u' (numOf n all l p)) ∧
      (∀ l p i, cells.Mem n l p → (l, p, i) ∈ all.numbered n → u' i = u i) ∧
      (∀ l p, all.Mem n l p → CoveredBy n cells l p →
        (MeanOfChildren n (fun l p => u' (numOf n all l p)) l p ∧ ∀ q ∈ childrenOf p, all.Mem n (l + 1) q) ∨
        ((∀ i, (l, p, i) ∈ all.numbered n → u' i = u i) ∧ ∀ q ∈ childrenOf p, ¬ all.Mem n (l + 1) q)) ∧
      (∀ l p, all.Mem n l p → (∃ l0 c, l0 < l ∧ cells.Mem n l0 c ∧ Anc (l - l0) c p) →
        PredictedFromBelow n 1 (fun l p => u' (numOf n all l p)) l p ∧ ∀ q, Near 1 q (p.map fun y => shr y 1) → all.Mem n (l - 1) q) ∧
      (∀ l p, all.Mem n l p → InBox (b.refined l) n p →
        cells.Mem n l p ∨ CoveredBy n cells l p ∨ ∃ l0 c, l0 < l ∧ cells.Mem n l0 c ∧ Anc (l - l0) c p) ∧
      (∀ l p, all.Mem n l p → BoundaryHolds n ⟨c, all, dom, minL, maxL, fun _ => false, h0, cfg⟩ bcs l (b.refined l)
        (fun l p => u' (numOf n all l p))) := by
  have hw : 1 ≤ cfg.ghostWidth := by rw [← hs]; exact Nat.le_max_right _ _
  have geo := mroGeo_ok hn hw g hd hdl
  have gr := mroReady_ok (K := K) hs g geo hd hdl hB0 hB hhi h0 r
  have hpred := mroPredd_iff (K := K) (cfg := cfg) g geo hd hdl h0 r
  obtain ⟨u', e1, e2, e3, e4, e5⟩ := updateGhostMro_spec gr (bcs := bcs) hbc u
  obtain ⟨-, -, -, cd⟩ := r.leaves
  obtain ⟨-, -, -, ad⟩ := r.reference
  obtain ⟨-, -, -, pd⟩ := r.projection
  have hdom : ∀ l, l ≤ maxL → BoxDomain n dom l (b.refined l) := fun l h2 => by
    have := hd.finer (Nat.zero_le l) (by omega)
    rwa [Nat.sub_zero] at this
  refine ⟨u', e1, fieldIs_numOf gr.refWF u', fun l p i hc hi => ?_, fun l p hp hc => ?_, fun l p hp hc => ?_, fun l p hp hin => ?_,
    fun l p hp => ?_⟩
  · obtain ⟨h1, rfl⟩ := numbered_numOf gr.refWF hi
    refine e2.at gr.refWF gr.numbers h1 ?_
    rintro (h | h | h)
    · exact leaf_not_covered g.tiling hc ((pd _ _).1 h.1).2.2
    · exact h.1.2 (.inl ((cd _ _).2 hc))
    · exact h.out (leaf_inBox g (hdom l (g.between l p hc).2) (by omega) hc le_rfl (by rw [Nat.sub_self]; exact anc_zero.2 rfl))
  · have hpl := mem_length hp.2
    have hpa := (ad l p).1 hp
    have hproj : proj.Mem n l p := (pd l p).2 ⟨geo.covered l p hpa hc, (geo.levels l p hpa).2, hc⟩
    by_cases hch : ∃ q, (q.map fun y => shr y 1) = p ∧ all.Mem n (l + 1) q
    · left
      have hpj : MroProjd n (mroGhostMesh c all proj dom minL maxL h0 cfg) l p := ⟨hproj, hch⟩
      refine ⟨?_, fun q hq => (gr.projChild l p q hpj (mem_childrenOf.1 hq).symm).1⟩
      have h1 := e3 l p hpj
      have hp' := project_mean n (by omega) (fun l q => u' (numOf n all l q)) l hpl
      have := h1.trans hp'
      unfold MeanOfChildren
      show 2 ^ (n + 1) * u' (numOf n all l p) = _
      rw [show u' (numOf n all l p) = _ from this, ← mul_assoc, ← mul_pow]
      norm_num
    · right
      refine ⟨fun i hi => ?_, fun q hq h => hch ⟨q, (mem_childrenOf.1 hq).symm, h⟩⟩
      obtain ⟨h1, rfl⟩ := numbered_numOf gr.refWF hi
      refine e2.at gr.refWF gr.numbers h1 ?_
      rintro (h | h | h)
      · exact hch h.2
      · exact h.1.2 (.inr hproj)
      · exact h.out (geo.coveredIn l p hc).2
  · have hpr := (hpred l p).2 ⟨(ad l p).1 hp, hc⟩
    refine ⟨?_, fun q hq => gr.predNear l p q hpr (by rw [show (mroGhostMesh c all proj dom minL maxL h0 cfg).cfg.predictionOrder = 1 from hs]; exact hq)⟩
    have := e4 l p hpr
    rwa [show (mroGhostMesh c all proj dom minL maxL h0 cfg).cfg.predictionOrder = 1 from hs] at this
  · exact box_cases g (hdom l (gr.high l p hp)) (by omega) hin
  · have hl := gr.levels hp
    exact afterBc_ready (gr.bc l hl.2) hbc (e5 l hl.1 hl.2)

omit [CharZero K] [Field K] in
/-- The sub-meshes, with the reference mesh numbered. -/
theorem mro_numbered {w : Nat} {cells : CA} {minL maxL : Nat} (h : cells.Proper n minL maxL (w + 3)) {m : MroMeshes} (r : MroOK n w cells maxL m) :
    ∃ all, updateIndexCA n m.all = some all ∧ (∀ l p, all.Mem n l p ↔ m.all.Mem n l p) ∧ MroNumbered n w cells maxL m.cells all m.proj := by
  obtain ⟨all, a1, a2, a3, a4, a5, a6⟩ := C08_levels n m.all r.all.1
  have hc := r.cells_eq
  obtain ⟨⟨b1, b2⟩, b3, b4⟩ := r.levels
  refine ⟨all, a1, a4, ⟨?_, ?_, ⟨r.proj.1, b4, b3, r.proj.2⟩, ?_⟩⟩
  · rw [hc]
    exact ⟨h.wf, h.leveled, rfl, fun _ _ => Iff.rfl⟩
  · exact ⟨a3, updateIndexCA_leveled r.all.1 b2 a1, a2.trans b1, fun l p => (a4 l p).trans (r.all.2 l p)⟩
  · unfold CA.NumbersDiffer
    rw [a6]
    exact List.nodup_range.map fun a b h => by exact_mod_cast h

omit [CharZero K] [Field K] in
/-- The leaves stay in the range of `int`. -/
theorem mro_proper {w : Nat} {cells : CA} {dom : LCA} {minL maxL : Nat} {b : Box} (g : GoodLeaves n cells dom minL maxL) (hd : BoxDomain n dom 0 b)
    (hdl : dom.level = maxL) {B : Int} (hB0 : 0 ≤ B) (hB : B + (w + 12) * 2 ^ maxL + 2 < INT_MAX) (hhi : ∀ d ≤ n, b.hi d * 2 ^ maxL ≤ B) :
    cells.Proper n minL maxL (w + 3) := by
  have hpow := pow_two_pos maxL
  have hmul : ((w + 3 : Nat) : Int) * 2 ^ maxL ≤ (w + 12) * 2 ^ maxL := Int.mul_le_mul_of_nonneg_right (by push_cast; omega) (le_of_lt hpow)
  refine ⟨g.wf, g.leveled, g.between, g.size, B, hB0, by omega, g.tiling.below ?_⟩
  rintro m ⟨q, hq, ha⟩ x hx
  rw [hdl, Nat.sub_self] at ha
  obtain rfl := anc_zero.1 ha
  rw [hd.mem] at hq
  obtain ⟨d, hd', _, h⟩ := inBox_coord hq x hx
  have := hhi d hd'
  simp only [Box.refined, Nat.sub_zero] at h
  rw [hdl] at h
  omega

omit [CharZero K] [Field K] in
theorem mroGhostWidth_eq {cfg : MeshConfig} {gradW : Nat} (h : 2 * gradW ≤ cfg.ghostWidth + 1) : mroGhostWidth cfg gradW = cfg.ghostWidth := by
  show max (max (2 * gradW - 1) cfg.maxStencilWidth) cfg.predictionOrder = max cfg.maxStencilWidth cfg.predictionOrder
  have h' : 2 * gradW ≤ max cfg.maxStencilWidth cfg.predictionOrder + 1 := h
  omega

/-- C118. `update_ghost_mro` on every mesh with overleaves of dimension 1 or 2, prediction order 1, whose leaves are graded and tile a box of cells of
level 0, without periodic direction, for any number of ghosts (at least `2 * graduation_width - 1`), any field and any list of boundary
conditions: it succeeds (every cell it reads is in the mesh), and after it
* the leaves have the values they had;
* each cell of the mesh that is covered by finer leaves has the mean of the values of its children, all in the mesh; or none of its children is in the
  mesh, and its value is not changed;
* each cell of the mesh inside a coarser leaf, in particular each overleaf there, has the value predicted from the level below, from cells of the mesh;
* there is no other cell inside the domain;
* on every level of the mesh the ghosts outside the domain satisfy the boundary conditions with the final values of the cells inside.
The values in these relations are all final ones. The function reads only the numbers of the reference mesh: the numbers of the other
sub-meshes (C116) play no part. What is missing: dimension 3, and the second case of the covered cells (see `C118_stale_refuted`). -/
theorem C118_update_ghost_mro_partial (hn : n ≤ 1) (cfg : MeshConfig) (hs : cfg.predictionOrder = 1) (gradW : Nat) (hgw : 2 * gradW ≤ cfg.ghostWidth + 1)
    (cells : CA) (dom : LCA) (minL maxL : Nat) (b : Box) (g : GoodLeaves n cells dom minL maxL) (hd : BoxDomain n dom 0 b) (hdl : dom.level = maxL)
    (hB : ∃ B : Int, 0 ≤ B ∧ B + (cfg.ghostWidth + 12) * 2 ^ maxL + 2 < INT_MAX ∧ ∀ d ≤ n, b.hi d * 2 ^ maxL ≤ B)
    (h0 : K) (bcs : List (BcCond K)) (hbc : ∀ c ∈ bcs, GoodBc n dom cfg.ghostWidth c) (u : Int → K) :
    ∃ m all u' val, mroUpdateSubMesh n (mroGhostWidth cfg gradW) cells maxL = some m ∧ updateIndexCA n m.all = some all ∧
      updateGhostMro n ⟨⟨m.cells, all, dom, minL, maxL, fun _ => false, h0, cfg⟩, m.proj⟩ bcs u = some u' ∧ FieldIs n all u' val ∧
      (∀ l p i, cells.Mem n l p → (l, p, i) ∈ all.numbered n → u' i = u i) ∧
      (∀ l p, all.Mem n l p → CoveredBy n cells l p →
        (MeanOfChildren n val l p ∧ ∀ q ∈ childrenOf p, all.Mem n (l + 1) q) ∨
        ((∀ i, (l, p, i) ∈ all.numbered n → u' i = u i) ∧ ∀ q ∈ childrenOf p, ¬ all.Mem n (l + 1) q)) ∧
      (∀ l p, all.Mem n l p → (∃ l0 c, l0 < l ∧ cells.Mem n l0 c ∧ Anc (l - l0) c p) →
        PredictedFromBelow n 1 val l p ∧ ∀ q, Near 1 q (p.map fun y => shr y 1) → all.Mem n (l - 1) q) ∧
      (∀ l p, all.Mem n l p → InBox (b.refined l) n p →
        cells.Mem n l p ∨ CoveredBy n cells l p ∨ ∃ l0 c, l0 < l ∧ cells.Mem n l0 c ∧ Anc (l - l0) c p) ∧
      (∀ l p, all.Mem n l p → BoundaryHolds n ⟨m.cells, all, dom, minL, maxL, fun _ => false, h0, cfg⟩ bcs l (b.refined l) val) := by
  obtain ⟨B, hB0, hB1, hB2⟩ := hB
  rw [mroGhostWidth_eq hgw]
  have hpr := mro_proper (w := cfg.ghostWidth) g hd hdl hB0 hB1 hB2
  obtain ⟨m, h1, h2⟩ := mroUpdateSubMesh_spec hpr
  obtain ⟨all, a1, -, a3⟩ := mro_numbered hpr h2
  obtain ⟨u', h⟩ := mro_ghosts hn cfg hs g hd hdl hB0 hB1 hB2 h0 a3 bcs hbc u
  exact ⟨m, all, u', _, h1, a1, h⟩

/-- The layer of ghosts around the domain is a function of the cells inside. -/
theorem mro_layer_unique (hn : n ≤ 1) {M : GhostMesh K} {l w : Nat} {B : Box} (hw : 1 ≤ w) (hr : BcReady n M.toBcMesh l B w) (hne : M.minL ≠ M.maxL)
    (hgw : 1 ≤ M.cfg.ghostWidth) (hper : ∀ d, M.periodic d = false) {bcs : List (BcCond K)} (hbc : ∀ c ∈ bcs, GoodBc n M.dom 1 c) (hcov : CoversBoundary n M.dom bcs)
    {v1 v2 : Nat → List Int → K} (a9 : BoundaryHolds n M.toBcMesh bcs l B v1) (b9 : BoundaryHolds n M.toBcMesh bcs l B v2)
    (inside : ∀ p, M.ref.Mem n l p → InBox B n p → v1 l p = v2 l p) :
    ∀ p, M.ref.Mem n l p → (∃ q, InBox B n q ∧ Near 1 p q) → v1 l p = v2 l p := by
  have hbc' : ∀ c ∈ bcs, GoodBc n M.dom w c := fun c hc => ⟨(hbc c hc).known, (hbc c hc).width.trans hw, (hbc c hc).region⟩
  have hk1 : ∀ c ∈ bcs, c.kind.ghosts = 1 := fun c hc => by
    have a := (hbc c hc).width
    have := (hbc c hc).known.ghosts_pos
    omega
  rintro p hp ⟨q, hq, hnear⟩
  by_cases hin : InBox B n p
  · exact inside p hp hin
  · obtain ⟨p', v, ho, rfl⟩ := layer_outward hq hnear hin
    by_cases hax : OneAxis n v
    · exact axis_determined_ready (M := M) hr hne hbc' hk1 hper hcov a9 b9 (fun p' h1 h2 => inside p' h2 h1) ho hax hp
    · have hv : n = 1 ∧ v 0 ≠ 0 ∧ v 1 ≠ 0 := by
        obtain ⟨-, k, k1, k2⟩ := ho.2.1
        rcases (by omega : n = 0 ∨ n = 1) with rfl | rfl
        · exact absurd ⟨k, k1, k2, fun j hj hjk => by omega⟩ hax
        · refine ⟨rfl, fun h => hax ⟨1, le_rfl, fun h1 => ?_, fun j hj hj1 => ?_⟩, fun h => hax ⟨0, by omega, fun h1 => ?_, fun j hj hj1 => ?_⟩⟩
          · rcases (by omega : k = 0 ∨ k = 1) with rfl | rfl <;> exact k2 (by assumption)
          · obtain rfl : j = 0 := by omega
            exact h
          · rcases (by omega : k = 0 ∨ k = 1) with rfl | rfl <;> exact k2 (by assumption)
          · obtain rfl : j = 1 := by omega
            exact h
      have hp' : M.ref.Mem n l p' := by
        have := hr.lines p' v 1 ho le_rfl (by exact hw.trans (Nat.le_max_left _ _)) hp v (fun _ _ => .inl rfl) 0 (by omega) (by omega)
        rwa [walk_zero] at this
      have const : ∀ f : Int → K, Extrapolated f 1 → f 1 = f 0 := by
        rintro f ⟨P, d1, d2⟩
        obtain ⟨c, rfl⟩ := Polynomial.natDegree_eq_zero.1 (Nat.le_zero.1 d1)
        rw [d2 1 (by simp) (by simp), d2 0 (by simp) (by simp), Polynomial.eval_C, Polynomial.eval_C]
      have t1 := const _ (a9.extrapolated p' v 1 ho (fun _ _ _ => hper _) hp le_rfl (by omega) hgw (.inr hv))
      have t2 := const _ (b9.extrapolated p' v 1 ho (fun _ _ _ => hper _) hp le_rfl (by omega) hgw (.inr hv))
      simp only [walk_zero] at t1 t2
      rw [t1, t2]
      exact inside p' hp' ho.1

/-- C118. Under the conditions of `C118_update_ghost_mro_partial`, if moreover each cell of the mesh that is covered by finer leaves has a child in the mesh, all the cells
covered by finer leaves have the mean of their children; and with conditions of one ghost on the whole boundary, two fields with the same values on the
leaves get the same value on each cell of the mesh inside the domain or next to it, whatever values the other cells had before. The condition on the
children is a condition on the mesh: `C118_stale_refuted` shows that the grading of the leaves does not ensure it. -/
theorem C118_leaves_determine_partial (hn : n ≤ 1) (cfg : MeshConfig) (hs : cfg.predictionOrder = 1) (gradW : Nat) (hgw : 2 * gradW ≤ cfg.ghostWidth + 1)
    (cells : CA) (dom : LCA) (minL maxL : Nat) (hne : minL ≠ maxL) (b : Box) (g : GoodLeaves n cells dom minL maxL) (hd : BoxDomain n dom 0 b) (hdl : dom.level = maxL)
    (hB : ∃ B : Int, 0 ≤ B ∧ B + (cfg.ghostWidth + 12) * 2 ^ maxL + 2 < INT_MAX ∧ ∀ d ≤ n, b.hi d * 2 ^ maxL ≤ B)
    (h0 : K) (bcs : List (BcCond K)) (hbc : ∀ c ∈ bcs, GoodBc n dom 1 c) (hcov : CoversBoundary n dom bcs)
    (m : MroMeshes) (hm : mroUpdateSubMesh n (mroGhostWidth cfg gradW) cells maxL = some m) (all : CA) (hall : updateIndexCA n m.all = some all)
    (hchild : ∀ l p, all.Mem n l p → CoveredBy n cells l p → ∃ q ∈ childrenOf p, all.Mem n (l + 1) q)
    (u1 u2 : Int → K) (hu : ∀ l p i, cells.Mem n l p → (l, p, i) ∈ all.numbered n → u1 i = u2 i) :
    ∃ u1' u2' val, updateGhostMro n ⟨⟨m.cells, all, dom, minL, maxL, fun _ => false, h0, cfg⟩, m.proj⟩ bcs u1 = some u1' ∧
      updateGhostMro n ⟨⟨m.cells, all, dom, minL, maxL, fun _ => false, h0, cfg⟩, m.proj⟩ bcs u2 = some u2' ∧ FieldIs n all u1' val ∧
      (∀ l p, all.Mem n l p → CoveredBy n cells l p → MeanOfChildren n val l p ∧ ∀ q ∈ childrenOf p, all.Mem n (l + 1) q) ∧
      ∀ l p i, (l, p, i) ∈ all.numbered n → (∃ q, InBox (b.refined l) n q ∧ Near 1 p q) → u1' i = u2' i := by
  obtain ⟨B, hB0, hB1, hB2⟩ := hB
  rw [mroGhostWidth_eq hgw] at hm
  have hw1 : 1 ≤ cfg.ghostWidth := by rw [← hs]; exact Nat.le_max_right _ _
  have hpr := mro_proper (w := cfg.ghostWidth) g hd hdl hB0 hB1 hB2
  obtain ⟨m', h1, h2⟩ := mroUpdateSubMesh_spec hpr
  obtain rfl : m' = m := Option.some.inj (h1.symm.trans hm)
  obtain ⟨all', a1, -, r⟩ := mro_numbered hpr h2
  obtain rfl : all' = all := Option.some.inj (a1.symm.trans hall)
  have hbc' : ∀ c ∈ bcs, GoodBc n dom cfg.ghostWidth c := fun c hc => ⟨(hbc c hc).known, (hbc c hc).width.trans hw1, (hbc c hc).region⟩
  obtain ⟨u1', a3, a4, a5, a6, a7, a8, a9⟩ := mro_ghosts hn cfg hs g hd hdl hB0 hB1 hB2 h0 r bcs hbc' u1
  obtain ⟨u2', b3, b4, b5, b6, b7, -, b9⟩ := mro_ghosts hn cfg hs g hd hdl hB0 hB1 hB2 h0 r bcs hbc' u2
  have geo := mroGeo_ok hn hw1 g hd hdl
  have gr := mroReady_ok (K := K) hs g geo hd hdl hB0 hB1 hB2 h0 r
  obtain ⟨v1, hv1⟩ : ∃ v : Nat → List Int → K, v = fun l p => u1' (numOf n all' l p) := ⟨_, rfl⟩
  obtain ⟨v2, hv2⟩ : ∃ v : Nat → List Int → K, v = fun l p => u2' (numOf n all' l p) := ⟨_, rfl⟩
  rw [← hv1] at a4 a6 a7 a9
  rw [← hv2] at b4 b6 b7 b9
  have hdom : ∀ l, l ≤ maxL → BoxDomain n dom l (b.refined l) := fun l h2 => by
    have := hd.finer (Nat.zero_le l) (by omega)
    rwa [Nat.sub_zero] at this
  have hlev : ∀ l p, all'.Mem n l p → l ≤ maxL := fun l p hp => (gr.levels hp).2
  have a6' : ∀ l p, all'.Mem n l p → CoveredBy n cells l p → MeanOfChildren n v1 l p ∧ ∀ q ∈ childrenOf p, all'.Mem n (l + 1) q := fun l p hp hc => by
    rcases a6 l p hp hc with h | ⟨_, h⟩
    · exact h
    · obtain ⟨q, q1, q2⟩ := hchild l p hp hc
      exact absurd q2 (h q q1)
  have b6' : ∀ l p, all'.Mem n l p → CoveredBy n cells l p → MeanOfChildren n v2 l p := fun l p hp hc => by
    rcases b6 l p hp hc with h | ⟨_, h⟩
    · exact h.1
    · obtain ⟨q, q1, q2⟩ := hchild l p hp hc
      exact absurd q2 (h q q1)
  have hleaf : ∀ l p, all'.Mem n l p → cells.Mem n l p → v1 l p = v2 l p := fun l p hp hc => by
    have hi := numOf_numbered gr.refWF hp
    rw [hv1, hv2]
    exact (a5 l p _ hc hi).trans ((hu l p _ hc hi).trans (b5 l p _ hc hi).symm)
  have inner := inner_determined (n := n) (cells := cells) (minL := 0) (maxL := maxL) (m := ⟨cells, cells, cells, all'⟩) (val := v1) (val' := v2)
    (fun l p h => (g.between l p h).2) (fun l p q hp _ hc hq => by
      have hl := hlev _ _ ((a6' l p hp hc).2 q hq)
      have e : p = q.map fun y => shr y 1 := mem_childrenOf.1 hq
      have hqb : InBox (b.refined (l + 1)) n q := by
        have := desc_in_box (anc_iff.2 e : Anc 1 p q) (geo.coveredIn l p hc).2
        rwa [Box.refined_refined] at this
      exact child_cases g.tiling (hdom (l + 1) hl) (by omega) (by omega) hqb (by rw [← e]; exact hc))
    hleaf (fun l p hp _ hc => a6' l p hp hc) (fun l p hp _ hc => b6' l p hp hc)
  have up : ∀ l p, all'.Mem n l p → (∃ q, InBox (b.refined l) n q ∧ Near 1 p q) → v1 l p = v2 l p := by
    intro l
    induction l using Nat.strong_induction_on with
    | _ l ih =>
      have inside : ∀ p, all'.Mem n l p → InBox (b.refined l) n p → v1 l p = v2 l p := by
        intro p hp hin
        rcases a8 l p hp hin with h | h | ⟨l0, c, e1, e2, e3⟩
        · exact inner _ l p le_rfl hp (by omega) (.inl h)
        · exact inner _ l p le_rfl hp (by omega) (.inr h)
        · obtain ⟨f1, f2⟩ := a7 l p hp ⟨l0, c, e1, e2, e3⟩
          have f3 := (b7 l p hp ⟨l0, c, e1, e2, e3⟩).1
          refine predicted_congr (mem_length hp.2) (fun q hq => ih (l - 1) (by omega) q (f2 q hq) ⟨_, ?_, hq⟩) f1 f3
          refine box_of_desc (k := 1) (anc_iff.2 rfl) ?_
          rw [Box.refined_refined, show l - 1 + 1 = l by omega]
          exact hin
      intro p hp hq
      exact mro_layer_unique hn (M := (mroGhostMesh m'.cells all' m'.proj dom minL maxL h0 cfg).toGhost) hw1 (gr.bc l (hlev l p hp)) hne hw1 (fun _ => rfl) hbc hcov
        (a9 l p hp) (b9 l p hp) inside p hp hq
  refine ⟨u1', u2', v1, a3, b3, a4, a6', fun l p i hi hnear => ?_⟩
  rw [a4 l p i hi, b4 l p i hi]
  exact up l p (numbered_numOf gr.refWF hi).1 hnear

end

/-! ### a refined cell whose children are not in the mesh -/

/-- One leaf of each level 1, 2, 3, 4, then level 5. -/
def staleLeaves : CA := leavesOnLine 5 [(1, 0, 1), (2, 2, 3), (3, 6, 7), (4, 14, 15), (5, 30, 64)]

theorem staleLeaves_mem (l : Nat) (p : List Int) : staleLeaves.Mem 0 l p ↔ ∃ x, p = [x] ∧
    ((l = 1 ∧ x = 0) ∨ (l = 2 ∧ x = 2) ∨ (l = 3 ∧ x = 6) ∨ (l = 4 ∧ x = 14) ∨ (l = 5 ∧ 30 ≤ x ∧ x < 64)) := by
  unfold staleLeaves
  rw [(leavesOnLine_spec (by simp)).2.2.2]
  simp only [List.mem_cons, Prod.mk.injEq, List.not_mem_nil, or_false]
  constructor
  · rintro ⟨a, b, x, h, h1, h2, rfl⟩
    exact ⟨x, rfl, by omega⟩
  · rintro ⟨x, rfl, h | h | h | h | h⟩
    · exact ⟨0, 1, x, by omega, by omega, by omega, rfl⟩
    · exact ⟨2, 3, x, by omega, by omega, by omega, rfl⟩
    · exact ⟨6, 7, x, by omega, by omega, by omega, rfl⟩
    · exact ⟨14, 15, x, by omega, by omega, by omega, rfl⟩
    · exact ⟨30, 64, x, by omega, by omega, by omega, rfl⟩

/-- The domain: two cells of level 0. -/
def staleDomain : LCA := LCA.ofBox 0 5 ⟨fun _ => 0, fun _ => 64⟩

theorem staleDomain_box : BoxDomain 0 staleDomain 0 ⟨fun _ => 0, fun _ => 2⟩ := by
  refine ⟨ofBox_wf 5 fun _ _ => by simp, by omega, fun _ _ => by simp, fun p => ?_⟩
  rw [show (⟨fun _ => 0, fun _ => 2⟩ : Box).refined (staleDomain.level - 0) = ⟨fun _ => 0, fun _ => 64⟩ by
    show (⟨fun _ => 0, fun _ => 2⟩ : Box).refined 5 = _
    simp [Box.refined]]
  exact ofBox_mem 5 p

theorem staleInDomain (m : List Int) : InDomain 0 staleDomain 5 m ↔ ∃ x, m = [x] ∧ 0 ≤ x ∧ x < 64 := by
  have hm : ∀ p, staleDomain.Mem 0 p ↔ ∃ x, p = [x] ∧ 0 ≤ x ∧ x < 64 := fun p => by
    unfold staleDomain
    rw [ofBox_mem]
    match p with
    | [] => simp [InBox]
    | [x] => simp [InBox]
    | x :: y :: p => simp [InBox]
  rw [← hm]
  constructor
  · rintro ⟨d, h1, h2⟩
    rw [show 5 - staleDomain.level = 0 from rfl, anc_zero] at h2
    exact h2 ▸ h1
  · exact fun h => ⟨m, h, anc_zero.2 rfl⟩

theorem staleLeaves_good : GoodLeaves 0 staleLeaves staleDomain 1 5 := by
  obtain ⟨h1, h2, h3, _⟩ := leavesOnLine_spec (m := 5) (h := [(1, 0, 1), (2, 2, 3), (3, 6, 7), (4, 14, 15), (5, 30, 64)]) (by simp)
  refine ⟨h2, h3, by unfold staleLeaves; rw [h1], fun l p h => ?_, fun l p l' p' h h' hl ha => ?_, fun l p l' p' q h h' hl hn ha => ?_, fun m => ?_⟩
  · obtain ⟨x, _, h⟩ := (staleLeaves_mem l p).1 h
    omega
  · obtain ⟨x, rfl, hx⟩ := (staleLeaves_mem l p).1 h
    obtain ⟨y, rfl, hy⟩ := (staleLeaves_mem l' p').1 h'
    clear h h'
    rw [anc_single] at ha
    have hll : l = l' := by
      rcases hx with ⟨rfl, hx⟩ | ⟨rfl, hx⟩ | ⟨rfl, hx⟩ | ⟨rfl, hx⟩ | ⟨rfl, hx⟩ <;> rcases hy with ⟨rfl, hy⟩ | ⟨rfl, hy⟩ | ⟨rfl, hy⟩ | ⟨rfl, hy⟩ | ⟨rfl, hy⟩ <;>
        first | rfl | omega | (exfalso; norm_num at ha; omega)
    subst hll
    rw [Nat.sub_self] at ha
    norm_num at ha
    exact ⟨rfl, by rw [ha]⟩
  · obtain ⟨x, rfl, hx⟩ := (staleLeaves_mem l p).1 h
    obtain ⟨y, rfl, hy⟩ := (staleLeaves_mem l' p').1 h'
    clear h h'
    obtain ⟨z, rfl, z1, z2⟩ := near_single hn
    rw [anc_single] at ha
    rcases hx with ⟨rfl, hx⟩ | ⟨rfl, hx⟩ | ⟨rfl, hx⟩ | ⟨rfl, hx⟩ | ⟨rfl, hx⟩ <;> rcases hy with ⟨rfl, hy⟩ | ⟨rfl, hy⟩ | ⟨rfl, hy⟩ | ⟨rfl, hy⟩ | ⟨rfl, hy⟩ <;>
      first | omega | (exfalso; norm_num at ha; omega)
  · rw [staleInDomain]
    unfold CA.Tiles
    constructor
    · rintro ⟨l, p, -, h1, h2⟩
      obtain ⟨x, rfl, h⟩ := (staleLeaves_mem l p).1 h1
      obtain ⟨y, rfl, hy⟩ := anc_of_single h2
      refine ⟨y, rfl, ?_⟩
      rcases h with ⟨rfl, h⟩ | ⟨rfl, h⟩ | ⟨rfl, h⟩ | ⟨rfl, h⟩ | ⟨rfl, h⟩ <;> norm_num at hy <;> omega
    · rintro ⟨x, rfl, h1, h2⟩
      rcases (by omega : x < 16 ∨ (16 ≤ x ∧ x < 24) ∨ (24 ≤ x ∧ x < 28) ∨ (28 ≤ x ∧ x < 30) ∨ 30 ≤ x) with h | h | h | h | h
      · exact ⟨1, [0], by omega, (staleLeaves_mem _ _).2 ⟨0, rfl, by omega⟩, anc_single.2 (by norm_num; omega)⟩
      · exact ⟨2, [2], by omega, (staleLeaves_mem _ _).2 ⟨2, rfl, by omega⟩, anc_single.2 (by norm_num; omega)⟩
      · exact ⟨3, [6], by omega, (staleLeaves_mem _ _).2 ⟨6, rfl, by omega⟩, anc_single.2 (by norm_num; omega)⟩
      · exact ⟨4, [14], by omega, (staleLeaves_mem _ _).2 ⟨14, rfl, by omega⟩, anc_single.2 (by norm_num; omega)⟩
      · exact ⟨5, [x], by omega, (staleLeaves_mem _ _).2 ⟨x, rfl, by omega⟩, anc_single.2 (by norm_num)⟩

/-- C118, refuted. A graded mesh with two layers of ghosts, and two fields with the same values on the leaves that have different values after `update_ghost_mro` on
a cell of the mesh inside the domain, within the two ghosts of a leaf: the values of the ghosts are not a function of the values of the leaves. The
leaves are one cell of each level 1, 2, 3, 4, then level 5. The cell 5 of level 2 is a projection cell and its children are not in the mesh: it keeps the
value it had before the update, and the cell 2 of level 1 gets the mean of the cells 4 and 5 of level 2. -/
theorem C118_stale_refuted : ∃ m all, GoodLeaves 0 staleLeaves staleDomain 1 5 ∧ BoxDomain 0 staleDomain 0 ⟨fun _ => 0, fun _ => 2⟩ ∧
    mroUpdateSubMesh 0 (mroGhostWidth ⟨2, 1⟩ 1) staleLeaves 5 = some m ∧ updateIndexCA 0 m.all = some all ∧
    ∀ bcs : List (BcCond Rat), (∀ c ∈ bcs, GoodBc 0 staleDomain 2 c) → ∃ u1 u2 u1' u2' : Int → Rat,
      (∀ l p i, staleLeaves.Mem 0 l p → (l, p, i) ∈ all.numbered 0 → u1 i = u2 i) ∧
      updateGhostMro 0 ⟨⟨m.cells, all, staleDomain, 1, 5, fun _ => false, 1, ⟨2, 1⟩⟩, m.proj⟩ bcs u1 = some u1' ∧
      updateGhostMro 0 ⟨⟨m.cells, all, staleDomain, 1, 5, fun _ => false, 1, ⟨2, 1⟩⟩, m.proj⟩ bcs u2 = some u2' ∧
      ∃ i, staleLeaves.Mem 0 1 [0] ∧ Near 2 [2] [0] ∧ (1, [2], i) ∈ all.numbered 0 ∧ u1' i ≠ u2' i := by
  have g := staleLeaves_good
  have hhi : ∀ d ≤ 0, (⟨fun _ => 0, fun _ => 2⟩ : Box).hi d * 2 ^ 5 ≤ 64 := fun _ _ => by show (2 : Int) * 2 ^ 5 ≤ 64; decide
  have hB : (64 : Int) + ((⟨2, 1⟩ : MeshConfig).ghostWidth + 12) * 2 ^ 5 + 2 < INT_MAX := by decide
  have hpr := mro_proper (w := (⟨2, 1⟩ : MeshConfig).ghostWidth) g staleDomain_box rfl (B := 64) (by omega) hB hhi
  obtain ⟨m, h1, h2⟩ := mroUpdateSubMesh_spec hpr
  obtain ⟨all, a1, -, r⟩ := mro_numbered hpr h2
  refine ⟨m, all, g, staleDomain_box, h1, a1, fun bcs hbc => ?_⟩
  have had := r.reference.2.2.2
  have hwf := r.reference.1
  -- the cells of the mesh
  have leaf : ∀ l x, staleLeaves.Mem 0 l [x] → all.Mem 0 l [x] := fun l x h => (had _ _).2 (.inl (.inl (.inl ⟨_, h, near_refl _ _⟩)))
  have lm : ∀ l x, ((l = 1 ∧ x = 0) ∨ (l = 2 ∧ x = 2) ∨ (l = 3 ∧ x = 6) ∨ (l = 4 ∧ x = 14) ∨ (l = 5 ∧ 30 ≤ x ∧ x < 64)) → staleLeaves.Mem 0 l [x] :=
    fun l x h => (staleLeaves_mem _ _).2 ⟨x, rfl, h⟩
  have near2 : ∀ x y : Int, x ≤ y + 2 → y ≤ x + 2 → Near 2 [x] [y] := fun x y h1 h2 => .cons ⟨by push_cast; omega, by push_cast; omega⟩ .nil
  have m4 : ∀ x : Int, 13 ≤ x → x < 34 → all.Mem 0 4 [x] := fun x x1 x2 => by
    rcases (by omega : x < 30 ∨ 30 ≤ x) with h | h
    · exact (had _ _).2 (.inl (.inl (.inr ⟨[2 * x + 4], lm 5 _ (by omega), by
        simp only [List.map_cons, List.map_nil, shr]
        exact near2 _ _ (by omega) (by omega)⟩)))
    · exact (had _ _).2 (.inl (.inl (.inr ⟨[63], lm 5 _ (by omega), by
        simp only [List.map_cons, List.map_nil, shr]
        exact near2 _ _ (by omega) (by omega)⟩)))
  have m3 : ∀ x : Int, 5 ≤ x → x < 10 → all.Mem 0 3 [x] := fun x x1 x2 => (had _ _).2 (.inl (.inl (.inr ⟨[14], lm 4 _ (by omega), by
    simp only [List.map_cons, List.map_nil, shr]
    exact near2 _ _ (by omega) (by omega)⟩)))
  have m2 : ∀ x : Int, 1 ≤ x → x < 6 → all.Mem 0 2 [x] := fun x x1 x2 => (had _ _).2 (.inl (.inl (.inr ⟨[6], lm 3 _ (by omega), by
    simp only [List.map_cons, List.map_nil, shr]
    exact near2 _ _ (by omega) (by omega)⟩)))
  have m1 : all.Mem 0 1 [2] := (had _ _).2 (.inl (.inl (.inl ⟨[0], lm 1 _ (by omega), near2 _ _ (by omega) (by omega)⟩)))
  have cov : ∀ (l : Nat) (x y : Int), l < 5 → 30 ≤ y → y < 64 → x = y / 2 ^ (5 - l) → CoveredBy 0 staleLeaves l [x] := fun l x y h1 h2 h3 h4 =>
    ⟨5, [y], h1, lm 5 y (by omega), anc_single.2 h4⟩
  have out : ∀ x : Int, 10 ≤ x → x < 12 → ¬ all.Mem 0 3 [x] := by
    intro x x1 x2 h
    have near_le : ∀ {k : Nat} {a b : Int}, Near k [a] [b] → a ≤ b + k ∧ b ≤ a + k := fun h => by
      rw [Near, List.forall₂_cons] at h
      have := h.1
      omega
    have hbase : ∀ z : Int, MroBase 0 2 staleLeaves 3 [z] → z < 10 := by
      rintro z (⟨q, h1, h2⟩ | ⟨q, h1, h2⟩)
      · obtain ⟨y, rfl, h⟩ := (staleLeaves_mem _ _).1 h1
        have := near_le h2
        push_cast at this
        omega
      · obtain ⟨y, rfl, h⟩ := (staleLeaves_mem _ _).1 h1
        simp only [List.map_cons, List.map_nil, shr] at h2
        have := near_le h2
        push_cast at this
        omega
    rcases (had _ _).1 h with (h | ⟨-, -, -, ⟨q, h1, h2⟩, -⟩) | ⟨l0, q, e1, -, h1, h2, -⟩
    · have := hbase x h
      omega
    · simp only [List.map_cons, List.map_nil, shr] at h2
      obtain ⟨y, rfl, h⟩ := anc_of_single h2
      have := hbase y h1
      norm_num at h
      omega
    · obtain ⟨y, rfl, h⟩ := (staleLeaves_mem _ _).1 h1
      simp only [List.map_cons, List.map_nil, shr] at h2
      have := near_le h2
      push_cast at this
      omega
  have m25 := m2 5 (by omega) (by omega)
  have hnum := numOf_numbered hwf m25
  -- the values after the update
  have key : ∀ u : Int → Rat, (∀ l p i, staleLeaves.Mem 0 l p → (l, p, i) ∈ all.numbered 0 → u i = 0) →
      ∃ u', updateGhostMro 0 ⟨⟨m.cells, all, staleDomain, 1, 5, fun _ => false, 1, ⟨2, 1⟩⟩, m.proj⟩ bcs u = some u' ∧
        2 * u' (numOf 0 all 1 [2]) = u (numOf 0 all 2 [5]) := by
    intro u hu
    obtain ⟨u', e1, e2, e3, e4, -⟩ := mro_ghosts (n := 0) (by omega) ⟨2, 1⟩ rfl g staleDomain_box rfl (by omega) hB hhi (1 : Rat) r bcs hbc u
    refine ⟨u', e1, ?_⟩
    have mean : ∀ (l : Nat) (x : Int), all.Mem 0 l [x] → all.Mem 0 (l + 1) [2 * x] → CoveredBy 0 staleLeaves l [x] →
        2 * u' (numOf 0 all l [x]) = u' (numOf 0 all (l + 1) [2 * x]) + u' (numOf 0 all (l + 1) [2 * x + 1]) := by
      intro l x h1 h2 h3
      rcases e4 l [x] h1 h3 with ⟨h, -⟩ | ⟨-, h⟩
      · simp only [MeanOfChildren, childrenOf] at h
        norm_num at h
        exact h
      · exact absurd h2 (h [2 * x] (by simp [childrenOf]))
    have z5 : ∀ x : Int, 30 ≤ x → x < 64 → u' (numOf 0 all 5 [x]) = 0 := fun x x1 x2 => by
      have hl := lm 5 x (by omega)
      have hi := numOf_numbered hwf (leaf 5 x hl)
      rw [e3 5 _ _ hl hi]
      exact hu 5 _ _ hl hi
    have z4 : ∀ x : Int, 15 ≤ x → x < 32 → u' (numOf 0 all 4 [x]) = 0 := fun x x1 x2 => by
      have := mean 4 x (m4 x (by omega) (by omega)) (leaf 5 _ (lm 5 _ (by omega))) (cov 4 x (2 * x) (by omega) (by omega) (by omega) (by norm_num))
      rw [z5 _ (by omega) (by omega), z5 _ (by omega) (by omega)] at this
      linarith
    have z3 : ∀ x : Int, 8 ≤ x → x < 10 → u' (numOf 0 all 3 [x]) = 0 := fun x x1 x2 => by
      have := mean 3 x (m3 x (by omega) (by omega)) (m4 _ (by omega) (by omega)) (cov 3 x (4 * x) (by omega) (by omega) (by omega) (by norm_num))
      rw [z4 _ (by omega) (by omega), z4 _ (by omega) (by omega)] at this
      linarith
    have z2 : u' (numOf 0 all 2 [4]) = 0 := by
      have := mean 2 4 (m2 4 (by omega) (by omega)) (m3 _ (by omega) (by omega)) (cov 2 4 32 (by omega) (by omega) (by omega) (by norm_num))
      rw [z3 _ (by omega) (by omega), z3 _ (by omega) (by omega)] at this
      linarith
    have w2 : u' (numOf 0 all 2 [5]) = u (numOf 0 all 2 [5]) := by
      rcases e4 2 [5] m25 (cov 2 5 40 (by omega) (by omega) (by omega) (by norm_num)) with ⟨-, h⟩ | ⟨h, -⟩
      · exact absurd (h [10] (by simp [childrenOf])) (out 10 (by omega) (by omega))
      · exact h _ hnum
    have := mean 1 2 m1 (m2 _ (by omega) (by omega)) (cov 1 2 32 (by omega) (by omega) (by omega) (by norm_num))
    norm_num at this
    rw [z2, w2, zero_add] at this
    exact this
  have hleafne : ∀ l p i, staleLeaves.Mem 0 l p → (l, p, i) ∈ all.numbered 0 → i ≠ numOf 0 all 2 [5] := by
    rintro l p i h h' rfl
    obtain ⟨hp, e⟩ := numbered_numOf hwf h'
    obtain ⟨rfl, rfl⟩ := numOf_level hwf r.numbers hp m25 e.symm
    obtain ⟨y, e, h⟩ := (staleLeaves_mem _ _).1 h
    simp only [List.cons.injEq, and_true] at e
    omega
  obtain ⟨u1', p1, p2⟩ := key (fun _ => 0) (fun _ _ _ _ _ => rfl)
  obtain ⟨u2', q1, q2⟩ := key (fun i => if i = numOf 0 all 2 [5] then 1 else 0) (fun l p i h h' => if_neg (hleafne l p i h h'))
  refine ⟨_, _, u1', u2', fun l p i h h' => (if_neg (hleafne l p i h h')).symm, p1, q1, _, lm 1 0 (by omega), near2 _ _ (by omega) (by omega), numOf_numbered hwf m1, ?_⟩
  intro h
  rw [h, q2, if_pos rfl] at p2
  norm_num at p2

/-- C118 on the square with four leaves of level 2 in a corner and three leaves of level 1, `Dirichlet<1>` on the whole boundary. The cell (1, 1) of
level 1 has the mean of the four leaves; the overleaf (0, 0) of level 2 is in the mesh and two fields that agree on the leaves agree there after the update. -/
example (u1 u2 : Int → Rat) : ∃ m all R, mroUpdateSubMesh 1 (mroGhostWidth ⟨1, 1⟩ 1) cornerMesh 2 = some m ∧ updateIndexCA 1 m.all = some all ∧
    everywhereRegion 1 squareDomain = some R ∧ ∀ value : (Nat → Int) → MCell → Rat,
      (∃ u' val, updateGhostMro 1 ⟨⟨m.cells, all, squareDomain, 1, 2, fun _ => false, 1, ⟨1, 1⟩⟩, m.proj⟩ [⟨.dirichlet 1, value, R⟩] u1 = some u' ∧
        FieldIs 1 all u' val ∧ 4 * val 1 [1, 1] = val 2 [2, 2] + val 2 [2, 3] + val 2 [3, 2] + val 2 [3, 3]) ∧
      ((∀ l p i, cornerMesh.Mem 1 l p → (l, p, i) ∈ all.numbered 1 → u1 i = u2 i) → ∃ u1' u2',
        updateGhostMro 1 ⟨⟨m.cells, all, squareDomain, 1, 2, fun _ => false, 1, ⟨1, 1⟩⟩, m.proj⟩ [⟨.dirichlet 1, value, R⟩] u1 = some u1' ∧
        updateGhostMro 1 ⟨⟨m.cells, all, squareDomain, 1, 2, fun _ => false, 1, ⟨1, 1⟩⟩, m.proj⟩ [⟨.dirichlet 1, value, R⟩] u2 = some u2' ∧
        ∃ i, (2, [0, 0], i) ∈ all.numbered 1 ∧ u1' i = u2' i) := by
  obtain ⟨R, r1, r2⟩ := everywhere_covers (n := 1) (by omega) squareDomain_box.wf squareRange
  have g := cornerLeaves_good
  have hhi : ∀ d ≤ 1, (⟨fun _ => 0, fun _ => 1⟩ : Box).hi d * 2 ^ 2 ≤ 4 := fun _ _ => by show (1 : Int) * 2 ^ 2 ≤ 4; decide
  have hB : (4 : Int) + ((⟨1, 1⟩ : MeshConfig).ghostWidth + 12) * 2 ^ 2 + 2 < INT_MAX := by decide
  have hpr := mro_proper (w := (⟨1, 1⟩ : MeshConfig).ghostWidth) g cornerDomain_box rfl (B := 4) (by omega) hB hhi
  obtain ⟨m, h1, h2⟩ := mroUpdateSubMesh_spec hpr
  obtain ⟨all, a1, -, r⟩ := mro_numbered hpr h2
  have had := r.reference.2.2.2
  have hfine : ∀ y x : Int, 2 ≤ y → y < 4 → 2 ≤ x → x < 4 → cornerMesh.Mem 1 2 [y, x] := fun y x y1 y2 x1 x2 =>
    (cornerMesh_mem _ _).2 (.inr ⟨rfl, y, x, y1, y2, x1, x2, rfl⟩)
  have hcoarse : ∀ y x : Int, 0 ≤ y → y < 2 → 0 ≤ x → x < 2 → (y = 0 ∨ x = 0) → cornerMesh.Mem 1 1 [y, x] := fun y x y1 y2 x1 x2 h =>
    (cornerMesh_mem _ _).2 (.inl ⟨rfl, y, x, y1, y2, x1, x2, h, rfl⟩)
  have hleaf : ∀ l p, cornerMesh.Mem 1 l p → all.Mem 1 l p := fun l p h => (had _ _).2 (.inl (.inl (.inl ⟨_, h, near_refl _ _⟩)))
  have hc11 : CoveredBy 1 cornerMesh 1 [1, 1] :=
    ⟨2, [2, 2], by omega, hfine 2 2 (by omega) (by omega) (by omega) (by omega), anc_pair.2 ⟨2, 2, rfl, by norm_num, by norm_num⟩⟩
  have hm11 : all.Mem 1 1 [1, 1] := (had _ _).2 (.inl (.inl (.inl ⟨[1, 0], hcoarse 1 0 (by omega) (by omega) (by omega) (by omega) (by omega),
    (show Near 1 [1, 1] [1, 0] from .cons (by norm_num) (.cons (by norm_num) .nil))⟩)))
  have hover : all.Mem 1 2 [0, 0] := (had _ _).2 (.inr ⟨1, [0, 0], rfl, by omega, hcoarse 0 0 (by omega) (by omega) (by omega) (by omega) (by omega),
    near_refl _ _, by simp [SameParity]⟩)
  have hchild : ∀ l p, all.Mem 1 l p → CoveredBy 1 cornerMesh l p → ∃ q ∈ childrenOf p, all.Mem 1 (l + 1) q := by
    rintro l p - ⟨l', q, e1, e2, e3⟩
    rcases (cornerMesh_mem _ _).1 e2 with ⟨rfl, y, x, y1, y2, x1, x2, ho, rfl⟩ | ⟨rfl, y, x, y1, y2, x1, x2, rfl⟩
    · obtain rfl : l = 0 := by omega
      exact ⟨[y, x], mem_childrenOf.2 (anc_iff.1 e3), hleaf _ _ e2⟩
    · rcases (by omega : l = 0 ∨ l = 1) with rfl | rfl
      · refine ⟨[1, 1], mem_childrenOf.2 ?_, hm11⟩
        rw [anc_iff] at e3
        rw [e3]
        simp only [List.map_cons, List.map_nil, shr]
        norm_num
        omega
      · exact ⟨[y, x], mem_childrenOf.2 (anc_iff.1 e3), hleaf _ _ e2⟩
  refine ⟨m, all, R, h1, a1, r1, fun value => ?_⟩
  have hbc : ∀ c ∈ [(⟨.dirichlet 1, value, R⟩ : BcCond Rat)], GoodBc 1 squareDomain 1 c := fun c hc => by
    rw [List.mem_singleton] at hc
    subst hc
    exact (r2 (.dirichlet 1) value 1 ⟨by omega, by omega⟩ (by simp [BcKind.ghosts, BcKind.stencilSize])).1
  have hcov := (r2 (.dirichlet 1) value 1 ⟨by omega, by omega⟩ (by simp [BcKind.ghosts, BcKind.stencilSize])).2
  constructor
  · obtain ⟨m', all', u', val, b1, b2, b3, b4, b5, b6, -⟩ := C118_update_ghost_mro_partial (n := 1) (by omega) ⟨1, 1⟩ rfl 1 (by decide) cornerMesh squareDomain 1 2 _ g
      cornerDomain_box rfl ⟨4, by omega, hB, hhi⟩ (1 : Rat) [⟨.dirichlet 1, value, R⟩] hbc u1
    obtain rfl : m = m' := Option.some.inj (h1.symm.trans b1)
    obtain rfl : all = all' := Option.some.inj (a1.symm.trans b2)
    refine ⟨u', val, b3, b4, ?_⟩
    rcases b6 1 [1, 1] hm11 hc11 with ⟨this, -⟩ | ⟨-, h⟩
    · simp only [MeanOfChildren, childrenOf] at this
      norm_num at this
      rw [this]
      ring
    · exact absurd (hleaf _ _ (hfine 2 2 (by omega) (by omega) (by omega) (by omega))) (h [2, 2] (by simp [childrenOf]))
  · intro hu
    obtain ⟨u1', u2', val, t1, t2, -, -, t3⟩ := C118_leaves_determine_partial (n := 1) (by omega) ⟨1, 1⟩ rfl 1 (by decide) cornerMesh squareDomain 1 2 (by omega) _ g
      cornerDomain_box rfl ⟨4, by omega, hB, hhi⟩ (1 : Rat) [⟨.dirichlet 1, value, R⟩] hbc hcov m h1 all a1 hchild u1 u2 hu
    exact ⟨u1', u2', t1, t2, _, numOf_numbered r.reference.1 hover, t3 2 [0, 0] _ (numOf_numbered r.reference.1 hover) ⟨[0, 0], by
      simp [InBox, Box.refined], near_refl _ _⟩⟩

end Samurai

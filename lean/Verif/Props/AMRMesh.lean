/-
Properties C24, C25, C55 for AMR meshes.
-/
import Verif.Lemmas.AMRMesh
import Verif.Props.Mesh

namespace Samurai

/-- The result of the construction of an AMR mesh. -/
theorem amr_ok {n : Nat} {cfg : MeshConfig} {cells : CA} {dom : LCA} {minL maxL : Nat}
    (h : ProperWithDomain n cells dom minL maxL (cfg.ghostWidth + cfg.predictionOrder + 3))
    (hne : ∃ l p, cells.Mem n l p) (h0 : ∀ p, ¬ cells.Mem n 0 p) :
    ∃ m u, amrMesh n cfg cells dom minL maxL = some (m, u) ∧ AMRMeshOK n cfg cells dom minL m u := by
  obtain ⟨D, d1, d2, d3, d4⟩ := h.range
  exact amrMesh_spec h.wf h.leveled h.between h.size d1 (by push_cast at d2; exact d2) d3 h.domWF h.domLevel d4 hne
    (fun l p hp => by
      rcases Nat.eq_zero_or_pos l with rfl | hl
      · exact absurd hp (h0 p)
      · exact hl)

/-- C24, AMR mesh without leaf of level 0. The construction succeeds; `cells` are the leaves; `cells_and_ghosts` holds exactly
the cells within `ghost_width` of a leaf of the same level and the prediction stencils of the cells of `pred_cells`; all of
them are in the reference mesh. -/
theorem C24_amr_ghosts (n : Nat) (cfg : MeshConfig) (cells : CA) (dom : LCA) (minL maxL : Nat)
    (h : ProperWithDomain n cells dom minL maxL (cfg.ghostWidth + cfg.predictionOrder + 3))
    (hne : ∃ l p, cells.Mem n l p) (h0 : ∀ p, ¬ cells.Mem n 0 p) :
    ∃ m u, amrMesh n cfg cells dom minL maxL = some (m, u) ∧
      (∀ l p, m.cells.Mem n l p ↔ cells.Mem n l p) ∧
      (∀ l p, m.ghosts.Mem n l p ↔ (∃ q, cells.Mem n l q ∧ Near cfg.ghostWidth p q) ∨
        ∃ q r, m.pred.Mem n (l + 1) r ∧ Anc 1 q r ∧ Near cfg.predictionOrder p q) ∧
      ∀ l p, m.ghosts.Mem n l p → m.all.Mem n l p := by
  obtain ⟨m, u, h1, h2⟩ := amr_ok h hne h0
  obtain ⟨m0, c1, c2, c3, c4, c5, c6⟩ := h2.content
  refine ⟨m, u, h1, c2, fun l p => ?_, fun l p hp => (c6 l p).2 (c1.ghosts_all ((c3 l p).1 hp))⟩
  rw [c3, c1.ghosts]
  unfold AMRGhost
  refine or_congr_right ⟨?_, ?_⟩
  · rintro ⟨q, hq, hn⟩
    exact ⟨_, q, (c5 _ _).2 ((c1.pred _ _).2 hq), anc_iff.2 rfl, hn⟩
  · rintro ⟨q, r, hr, ha, hn⟩
    rw [anc_iff.1 ha] at hn
    exact ⟨r, (c1.pred _ _).1 ((c5 _ _).1 hr), hn⟩

/-- C25, AMR mesh without leaf of level 0. The cells of the reference mesh are numbered `0 .. nb_cells - 1`, each once; the
number of a cell obtained through `cells`, `cells_and_ghosts`, `proj_cells` or `pred_cells` is its number in the reference
mesh. -/
theorem C25_amr_numbering (n : Nat) (cfg : MeshConfig) (cells : CA) (dom : LCA) (minL maxL : Nat)
    (h : ProperWithDomain n cells dom minL maxL (cfg.ghostWidth + cfg.predictionOrder + 3))
    (hne : ∃ l p, cells.Mem n l p) (h0 : ∀ p, ¬ cells.Mem n 0 p) :
    ∃ m u, amrMesh n cfg cells dom minL maxL = some (m, u) ∧
      ((m.all.numbered n).map fun e => e.2.2) = (List.range m.all.nbCells).map (fun (k : Nat) => (k : Int)) ∧
      ∀ sub ∈ [m.cells, m.ghosts, m.proj, m.pred], ∀ l yz x, sub.Mem n l (yz ++ [x]) →
        ∃ v, getIndex (sub.lca l) n yz x = some v ∧ getIndex (m.all.lca l) n yz x = some v ∧
          (l, yz ++ [x], v) ∈ m.all.numbered n := by
  obtain ⟨m, u, h1, h2⟩ := amr_ok h hne h0
  obtain ⟨m0, c1, c2, c3, c4, c5, c6⟩ := h2.content
  refine ⟨m, u, h1, h2.numbers, fun sub hs l yz x hx => ?_⟩
  have hall : m.all.Mem n l (yz ++ [x]) := by
    simp only [List.mem_cons, List.not_mem_nil, or_false] at hs
    rcases hs with rfl | rfl | rfl | rfl
    · exact (c6 _ _).2 (c1.cells_all ((c2 _ _).1 hx))
    · exact (c6 _ _).2 (c1.ghosts_all ((c3 _ _).1 hx))
    · exact (c6 _ _).2 (c1.proj_all ((c4 _ _).1 hx))
    · exact (c6 _ _).2 (c1.pred_all ((c5 _ _).1 hx))
  obtain ⟨v, v1, v2⟩ := C09_get_index n (m.all.lca l) (h2.wf l hall.1) yz x hall.2
  refine ⟨v, by rw [h2.index sub hs l yz x hx, v1], v1, ?_⟩
  unfold CA.numbered
  rw [List.mem_flatMap]
  exact ⟨l, List.mem_range.2 (by have := hall.1; omega), List.mem_map.2 ⟨_, v2, rfl⟩⟩

/-- C55, AMR mesh. What the update of the ghost cells reads is in the reference mesh: a cell within `ghost_width` of a leaf
that is refined by leaves (it is not a leaf) has its children in `proj_cells`, and so, as long as leaves are finer, have the
cells of `proj_cells` that are not leaves; a cell within `ghost_width` of a leaf, above the coarsest level, that is in the
domain and is neither a leaf nor refined by leaves, is in `pred_cells` and the stencil of its prediction is in the reference
mesh. -/
theorem C55_amr_reference (n : Nat) (cfg : MeshConfig) (cells : CA) (dom : LCA) (minL maxL : Nat)
    (h : ProperWithDomain n cells dom minL maxL (cfg.ghostWidth + cfg.predictionOrder + 3))
    (hne : ∃ l p, cells.Mem n l p) (h0 : ∀ p, ¬ cells.Mem n 0 p) :
    ∃ m u, amrMesh n cfg cells dom minL maxL = some (m, u) ∧
      (∀ l p q, (∃ r, cells.Mem n l r ∧ Near cfg.ghostWidth p r) → CoveredBy n cells l p → ¬ cells.Mem n l p → Anc 1 p q →
        m.proj.Mem n (l + 1) q) ∧
      (∀ l p q, m.proj.Mem n l p → ¬ cells.Mem n l p → (∃ l' r, l < l' ∧ cells.Mem n l' r) → Anc 1 p q →
        m.proj.Mem n (l + 1) q) ∧
      (∀ l p, m.proj.Mem n l p → m.all.Mem n l p) ∧
      (∀ l p, (∃ r, cells.Mem n l r ∧ Near cfg.ghostWidth p r) → (∃ l' r, l' < l ∧ cells.Mem n l' r) →
        AtLevel dom.level l (dom.Mem n) p → ¬ CoveredBy n cells l p → ¬ cells.Mem n l p → m.pred.Mem n l p) ∧
      ∀ l p q r, m.pred.Mem n (l + 1) q → Anc 1 p q → Near cfg.predictionOrder r p → m.all.Mem n l r := by
  obtain ⟨m, u, h1, h2⟩ := amr_ok h hne h0
  obtain ⟨m0, c1, c2, c3, c4, c5, c6⟩ := h2.content
  refine ⟨m, u, h1, fun l p q hn hc hp ha => ?_, fun l p q hpr hp hf ha => ?_, fun l p hp => ?_, fun l p hn hf hd hc hp => ?_,
    fun l p q r hq ha hn => ?_⟩
  · rw [c4, c1.proj]
    have := anc_iff.1 ha
    subst this
    obtain ⟨r, hr, hnr⟩ := hn
    obtain ⟨l', r', g1, g2, g3⟩ := hc
    refine ⟨(CA.mem_levels h.wf hr).1, Or.inl ⟨⟨r, hr, hnr⟩, l', r', g1, g2, g3⟩, hp, ?_⟩
    have := (CA.mem_levels h.wf g2).2
    omega
  · rw [c4, c1.proj] at *
    have := anc_iff.1 ha
    subst this
    obtain ⟨l', r', g1, g2⟩ := hf
    refine ⟨?_, Or.inr hpr, hp, ?_⟩
    · have := amrProj_level hpr; omega
    · have := (CA.mem_levels h.wf g2).2
      omega
  · exact (c6 _ _).2 (c1.proj_all ((c4 _ _).1 hp))
  · rw [c5, c1.pred]
    obtain ⟨l', r', g1, g2⟩ := hf
    have := (CA.mem_levels h.wf g2).1
    exact ⟨by omega, hn, hc, hp, hd⟩
  · rw [c6, c1.all]
    rw [anc_iff.1 ha] at hn
    exact Or.inl (Or.inr ⟨q, (c1.pred _ _).1 ((c5 _ _).1 hq), hn⟩)

/-- The domain of the example mesh. -/
def exampleDomain : LCA := match constructSubdomain 1 exampleMesh 2 with
  | some S => S
  | none => exampleArray

theorem exampleDomain_spec : exampleDomain.WF 1 ∧ exampleDomain.level = 2 ∧
    ∀ p, exampleDomain.Mem 1 p ↔ ∃ l q, exampleMesh.Mem 1 l q ∧ Anc (2 - l) q p := by
  obtain ⟨S, h1, h2, h3, h4⟩ := C56_subdomain 1 exampleMesh 1 2 exampleMesh_proper.wf exampleMesh_proper.between
  have : exampleDomain = S := by unfold exampleDomain; rw [h1]
  rw [this]
  exact ⟨h2, h3, h4⟩

/-- The example mesh and its domain meet the hypotheses of the three theorems. -/
example : ProperWithDomain 1 exampleMesh exampleDomain 1 2 (1 + 1 + 3) ∧ (∃ l p, exampleMesh.Mem 1 l p) ∧
    ∀ p, ¬ exampleMesh.Mem 1 0 p := by
  obtain ⟨d1, d2, d3⟩ := exampleDomain_spec
  refine ⟨⟨exampleMesh_proper.wf, exampleMesh_proper.leveled, exampleMesh_proper.between, exampleMesh_proper.size, d1,
    by omega, 100, by decide, by decide, ?_, ?_⟩, ⟨2, [2, 5], ?_⟩, fun p hp => ?_⟩
  · intro l p hp x hx
    obtain ⟨c, hc, ha⟩ := (exampleMesh_mem l p).1 hp
    simp only [exampleMeshCalls, List.mem_cons, Prod.mk.injEq, List.not_mem_nil, or_false] at hc
    rcases hc with ⟨rfl, rfl⟩ | ⟨rfl, rfl⟩ | ⟨rfl, rfl⟩ | ⟨rfl, rfl⟩ <;>
      · obtain ⟨y, y1, y2, rfl⟩ := ha
        simp only [Interval.mk'] at y1 y2
        simp only [List.cons_append, List.nil_append, List.mem_cons, List.not_mem_nil, or_false] at hx
        rcases hx with rfl | rfl <;> norm_num <;> omega
  · intro p hp x hx
    obtain ⟨l, q, hq, ha⟩ := (d3 p).1 hp
    have ha := anc_iff.1 ha
    have hxq : shr x (2 - l) ∈ q := by rw [ha]; exact List.mem_map.2 ⟨x, hx, rfl⟩
    rw [d2]
    have hlt : x < shl (shr x (2 - l) + 1) (2 - l) := lt_shl_shr_succ x (2 - l)
    obtain ⟨c, hc, hb⟩ := (exampleMesh_mem l q).1 hq
    simp only [exampleMeshCalls, List.mem_cons, Prod.mk.injEq, List.not_mem_nil, or_false] at hc
    rcases hc with ⟨rfl, rfl⟩ | ⟨rfl, rfl⟩ | ⟨rfl, rfl⟩ | ⟨rfl, rfl⟩ <;>
      · obtain ⟨y, y1, y2, rfl⟩ := hb
        simp only [Interval.mk'] at y1 y2
        simp only [List.cons_append, List.nil_append, List.mem_cons, List.not_mem_nil, or_false] at hxq
        unfold shl at hlt
        rcases hxq with e | e <;> rw [e] at hlt <;> norm_num at hlt ⊢ <;> omega
  · exact (exampleMesh_mem _ _).2 ⟨.interval [2] (.mk' 2 6), by simp [exampleMeshCalls], 5, by decide, by decide, rfl⟩
  · have := (exampleMesh_proper.between 0 p hp).1
    omega

/-- C24 is false for an AMR mesh with a leaf of level 0: the construction takes a reference to `cl[level - 1]` with
`level = 0`, out of the bounds of the array (nothing is written through it: `pred_cells[min_level]` is empty). Here the mesh is
one leaf of level 0 in 1D. -/
theorem C24_amr_level0_refuted : ∃ (cells : CA) (dom : LCA), ProperWithDomain 0 cells dom 0 1 (1 + 1 + 3) ∧
    cells.Mem 0 0 [0] ∧ amrMesh 0 ⟨1, 1⟩ cells dom 0 1 = none := by
  obtain ⟨cl, h1, h2⟩ := (hist_new 0 3).calls (k := [(0, .interval [] (.mk' 0 1))]) (by
    simp [CellCall.idx, CellCall.Valid, Interval.mk'])
  obtain ⟨a1, a2, a3, -, a5⟩ := h2.array
  have hm : ∀ l p, (CA.ofCL cl).Mem 0 l p ↔ l = 0 ∧ ∃ x : Int, 0 ≤ x ∧ x < 1 ∧ p = [x] := by
    intro l p
    rw [a5]
    simp [CellCall.Adds, Interval.mk']
  have hb : (CA.ofCL cl).Between 0 0 1 := fun l p hp => by have := ((hm l p).1 hp).1; omega
  obtain ⟨S, s1, s2, s3, s4⟩ := C56_subdomain 0 (CA.ofCL cl) 0 1 a2 hb
  refine ⟨CA.ofCL cl, S, ⟨a2, a3, hb, by rw [a1]; omega, s2, by omega, 4, by omega, by decide, ?_, ?_⟩,
    (hm _ _).2 ⟨rfl, 0, by omega, by omega, rfl⟩, ?_⟩
  · intro l p hp x hx
    obtain ⟨rfl, y, y1, y2, rfl⟩ := (hm l p).1 hp
    simp only [List.mem_singleton] at hx
    subst hx
    norm_num; omega
  · intro p hp x hx
    obtain ⟨l, q, hq, ha⟩ := (s4 p).1 hp
    have ha := anc_iff.1 ha
    have hxq : shr x (1 - l) ∈ q := by rw [ha]; exact List.mem_map.2 ⟨x, hx, rfl⟩
    have hlt : x < shl (shr x (1 - l) + 1) (1 - l) := lt_shl_shr_succ x (1 - l)
    obtain ⟨rfl, y, y1, y2, rfl⟩ := (hm l q).1 hq
    simp only [List.mem_singleton] at hxq
    rw [hxq] at hlt
    rw [s3]
    unfold shl at hlt
    norm_num at hlt ⊢; omega
  · have hcl : CA.ofCL cl = (match runLevelCalls 0 3 [(0, .interval [] (.mk' 0 1))] with
      | some cl => CA.ofCL cl
      | none => CA.empty 0 3) := by unfold runLevelCalls; rw [h1]
    have hlo : (CA.ofCL cl).minLevel = 0 ∧ (CA.ofCL cl).maxLevel = 0 := by
      rw [hcl]; decide +kernel
    unfold amrMesh
    rcases hU : constructUnion 0 (CA.ofCL cl) 0 1 with _ | u
    · rfl
    · simp only []
      have : amrUpdateSubMesh 0 ⟨1, 1⟩ (CA.ofCL cl) u S = none := by
        unfold amrUpdateSubMesh
        rw [hlo.1, hlo.2]
        simp only [Nat.sub_self, List.range'_zero, List.foldlM_nil]
        rw [if_neg (by omega)]
        rcases amrGhostList 0 ⟨1, 1⟩ (CA.ofCL cl) with _ | cl0
        · rfl
        · simp [amrGrowStep, pure]
      rw [this]

end Samurai

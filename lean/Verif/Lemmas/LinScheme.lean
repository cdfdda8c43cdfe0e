import Verif.Lemmas.LinFlux

namespace Samurai

section
variable {K U V : Type} [Field K] [AddCommGroup U] [Module K U] [AddCommGroup V] [Module K V]

/-! ### regions -/

/-- The region `r'` has the tasks of `r`, up to the order of the updates of a task; with several threads, the same protection. -/
structure RegionSim (par : Bool) (r r' : Region V) : Prop where
  tasks : List.Forall₂ TaskSim r.tasks r'.tasks
  atomic : par = true → r'.atomic = r.atomic

theorem rowsOf_sim {α : Type} {row : Call → Option (List α)} {row' : Call → Option (List (Upd V))} {g : List α → List (Upd V)} {calls : List Call}
    (h : ∀ c ∈ calls, ∀ fs, row c = some fs → ∃ t, row' c = some t ∧ TaskSim (g fs) t) :
    ∀ {ts}, rowsOf row calls = some ts → ∃ ts', rowsOf row' calls = some ts' ∧ List.Forall₂ TaskSim (ts.map g) ts' := by
  induction calls with
  | nil => intro ts hts; cases hts; exact ⟨[], rfl, List.Forall₂.nil⟩
  | cons c cs ih =>
    intro ts hts
    unfold rowsOf at hts
    cases h1 : row c with
    | none => rw [h1] at hts; cases hts
    | some a =>
      cases h2 : rowsOf row cs with
      | none => rw [h1, h2] at hts; cases hts
      | some b =>
        rw [h1, h2] at hts
        cases hts
        obtain ⟨t, t1, t2⟩ := h c List.mem_cons_self a h1
        obtain ⟨ts', t3, t4⟩ := ih (fun c' hc' => h c' (List.mem_cons_of_mem _ hc')) h2
        exact ⟨t :: ts', by unfold rowsOf; rw [t1, t3], List.Forall₂.cons t2 t4⟩

theorem overLevels_sim {par : Bool} {f f' : Nat → Option (List (Region V))} : ∀ (ls : List Nat) (rs : List (Region V)),
    (∀ l ∈ ls, ∀ rs, f l = some rs → ∃ rs', f' l = some rs' ∧ List.Forall₂ (RegionSim par) rs rs') →
    overLevels f ls = some rs → ∃ rs', overLevels f' ls = some rs' ∧ List.Forall₂ (RegionSim par) rs rs' := by
  intro ls
  induction ls with
  | nil => intro rs _ h; cases h; exact ⟨[], rfl, List.Forall₂.nil⟩
  | cons l ls ih =>
    intro rs h hrs
    unfold overLevels at hrs
    cases h1 : f l with
    | none => rw [h1] at hrs; cases hrs
    | some a =>
      cases h2 : overLevels f ls with
      | none => rw [h1, h2] at hrs; cases hrs
      | some b =>
        rw [h1, h2] at hrs
        cases hrs
        obtain ⟨a', a1, a2⟩ := h l List.mem_cons_self a h1
        obtain ⟨b', b1, b2⟩ := ih b (fun l' hl' => h l' (List.mem_cons_of_mem _ hl')) h2
        exact ⟨a' ++ b', by unfold overLevels; rw [a1, b1], List.rel_append a2 b2⟩

theorem contributionL_length (n : Nat) (A : List (U →ₗ[K] V)) (a b : K) : (contributionL n A a b).length = A.length := by
  unfold contributionL; rw [List.length_map]

theorem negL_length (A : List (U →ₗ[K] V)) : (negL A).length = A.length := by unfold negL; rw [List.length_map]

theorem levelOf_at {l : List MCell} {level : Nat} (h : ∀ m ∈ l, m.level = level) (i : Nat) (A : K → List (U →ₗ[K] V)) (u : Int → U) (h0 : K) :
    linValue u (A (cellLength h0 (levelOf (l.map fun m => m.at i)))) (l.map fun m => m.at i) = localSum u false (A (cellLength h0 level)) l i := by
  cases l with
  | nil => cases A (cellLength h0 level) <;> (simp only [List.map_nil]; cases A (cellLength h0 (levelOf [])) <;> rfl)
  | cons m l =>
    have : levelOf ((m :: l).map fun m => m.at i) = level := h m List.mem_cons_self
    rw [this, linValue_at]

/-- The updates of a row of faces. -/
theorem faces_upds (n : Nat) (h0 : K) (u : Int → U) (A : K → List (U →ₗ[K] V)) (hf hl hr : Nat) (k : Nat) (L R : Nat → MCell) (C : List MCell)
    (hC : ∀ m ∈ C, m.level = hf) (B D : List (U →ₗ[K] V))
    (hB : ∀ i, localSum u false B C i = contribution n (localSum u false (A (cellLength h0 hf)) C i) (cellLength h0 hf) (cellLength h0 hl))
    (hD : ∀ i, localSum u false D C i = contribution n (- localSum u false (A (cellLength h0 hf)) C i) (cellLength h0 hf) (cellLength h0 hr)) :
    ((List.range k).map fun i => (⟨L i, R i, C.map fun m => m.at i⟩ : FaceCall)).flatMap
      (faceUpdates n h0 (asConservative fun c => linValue u (A (cellLength h0 (levelOf c))) c) hf hl hr) =
      rowUpds k (fun i => (L i).index) (fun i => (R i).index) (localSum u false B C) (localSum u false D C) := by
  unfold rowUpds
  rw [List.flatMap_map]
  refine flatMap_congr_mem fun i _ => ?_
  unfold faceUpdates asConservative
  simp only []
  rw [levelOf_at hC, hB, hD]

theorem localSum_contributionL (n : Nat) (u : Int → U) (A : List (U →ₗ[K] V)) (C : List MCell) (a b : K) (i : Nat) :
    localSum u false (contributionL n A a b) C i = contribution n (localSum u false A C i) a b := localSum_smul ..

theorem contribution_neg (n : Nat) (v : V) (a b : K) : contribution n (- v) a b = - contribution n v a b := by
  unfold contribution; rw [smul_neg]

variable {n : Nat} {cells ref : CA} {dom sub : LCA} {minL maxL w : Nat}

theorem linSameRegion_sim (par : Bool) (u : Int → U) (h0 : K) {dir : Nat → Int} {S : List (Nat → Int)} (A : K → List (U →ₗ[K] V)) {level : Nat} {rs : List (Region V)}
    (h : sameRegion n h0 ref cells dir S (asConservative fun c => linValue u (A (cellLength h0 (levelOf c))) c) level = some rs) :
    ∃ rs', linSameRegion n h0 par u ref cells dir S A level = some rs' ∧ List.Forall₂ (RegionSim par) rs rs' := by
  unfold sameRegion sameLevelTasks at h
  unfold linSameRegion
  simp only []
  cases hc : runDefault n (.op .inter (.leaf (.mesh (cells.lca level))) (.leaf (.translate (.mesh (cells.lca level)) fun d => - dir d))) with
  | none => rw [hc] at h; cases h
  | some calls =>
    rw [hc] at h
    simp only [] at h ⊢
    cases ht : rowsOf (sameLevelRow n ref level dir S) calls with
    | none => rw [ht] at h; cases h
    | some ts =>
      rw [ht] at h
      cases h
      obtain ⟨ts', t1, t2⟩ := rowsOf_sim (row' := fun c => linTask par u (contributionL n (A (cellLength h0 level)) (cellLength h0 level) (cellLength h0 level))
          (negL (contributionL n (A (cellLength h0 level)) (cellLength h0 level) (cellLength h0 level))) (sameLevelRowCall n ref level dir S c))
        (g := fun t => t.flatMap (faceUpdates n h0 (asConservative fun c => linValue u (A (cellLength h0 (levelOf c))) c) level level level)) (by
        intro c _ fs hfs
        obtain ⟨r, r1, rfl⟩ := sameLevelRow_eq hfs
        obtain ⟨l1, l2, l3⟩ := sameLevelRowCall_level r1
        rw [r1]
        unfold RowCall.faces
        rw [faces_upds n h0 u A level level level r.size _ _ _ l3 (contributionL n (A (cellLength h0 level)) (cellLength h0 level) (cellLength h0 level))
          (negL (contributionL n (A (cellLength h0 level)) (cellLength h0 level) (cellLength h0 level)))
          (fun i => localSum_contributionL ..) (fun i => by rw [localSum_neg, localSum_contributionL, contribution_neg])]
        exact linTask_sim par u _ _ (negL_length _).symm r _ _ (Or.inl ⟨by rw [l1, l2], fun _ => rfl, fun _ => rfl⟩)) ht
      refine ⟨[⟨par, ts'⟩], by rw [t1]; rfl, List.Forall₂.cons ⟨t2, fun hp => hp⟩ List.Forall₂.nil⟩

theorem FVMesh.size_even (g : FVMesh n cells ref dom minL maxL w) {v : Nat → Int} (hv : AxisDir n v) (hv1 : ∀ d, - v d ≤ 1) {level : Nat} (hl : level < maxL) :
    ∃ calls, runSet n (.op .inter (.leaf (.mesh (cells.lca level)))
        (.leaf (.translate (.mesh (cells.lca (level + 1))) fun d => - v d))) (level + 1) = some calls ∧
      ∀ c ∈ calls, c.2.size = 1 ∨ c.2.size % 2 = 0 := by
  obtain ⟨calls, h1, h2, h3, h4⟩ := g.jumpSet hv1 hl
  refine ⟨calls, h1, fun c hc => ?_⟩
  have := g.evenRow hv h2 h3 h4 c hc
  unfold EvenRow at this
  unfold Interval.size
  omega

theorem FVMesh.linJumpRegions_sim (g : FVMesh n cells ref dom minL maxL w) (par : Bool) (u : Int → U) (h0 : K) {dir : Nat → Int} {S : List (Nat → Int)}
    (A : K → List (U →ₗ[K] V)) (hdir : ∀ d, dir d ≤ 1 ∧ - dir d ≤ 1) (hax : AxisDir n dir) (hax' : AxisDir n fun d => - dir d) {level : Nat} {rs : List (Region V)}
    (h : Samurai.jumpRegions n h0 ref cells maxL dir S (asConservative fun c => linValue u (A (cellLength h0 (levelOf c))) c) level = some rs) :
    ∃ rs', linJumpRegions n h0 par u ref cells maxL dir S A level = some rs' ∧ List.Forall₂ (RegionSim par) rs rs' := by
  unfold Samurai.jumpRegions at h
  unfold linJumpRegions
  simp only []
  by_cases hl : level ≥ maxL
  · unfold jumpTasks jumpTasksOpp at h
    rw [if_pos hl] at h ⊢
    rw [if_pos hl] at h
    cases h
    exact ⟨_, rfl, List.Forall₂.cons ⟨List.Forall₂.nil, fun hp => hp⟩ (List.Forall₂.cons ⟨List.Forall₂.nil, fun hp => hp⟩ List.Forall₂.nil)⟩
  · obtain ⟨calls, c1, c2⟩ := g.size_even hax (fun d => (hdir d).2) (level := level) (by omega)
    obtain ⟨calls', d1, d2⟩ := g.size_even hax' (fun d => by have := (hdir d).1; omega) (level := level) (by omega)
    simp only [neg_neg] at d1
    unfold jumpTasks jumpTasksOpp at h
    rw [if_neg hl] at h ⊢
    rw [if_neg hl, c1, d1] at h
    rw [c1, d1]
    simp only [] at h ⊢
    cases ht : rowsOf (jumpRow n ref level dir S) calls with
    | none => rw [ht] at h; cases h
    | some ts =>
    cases ht' : rowsOf (jumpRowOpp n ref level dir S) calls' with
    | none => rw [ht, ht'] at h; cases h
    | some us =>
    rw [ht, ht'] at h
    cases h
    obtain ⟨ts', t1, t2⟩ := rowsOf_sim (row' := fun c => linTask par u (contributionL n (A (cellLength h0 (level + 1))) (cellLength h0 (level + 1)) (cellLength h0 level))
        (contributionL n (negL (A (cellLength h0 (level + 1)))) (cellLength h0 (level + 1)) (cellLength h0 (level + 1))) (jumpRowCall n ref level dir S c))
      (g := fun t => t.flatMap (faceUpdates n h0 (asConservative fun c => linValue u (A (cellLength h0 (levelOf c))) c) (level + 1) level (level + 1))) (by
      intro c hc fs hfs
      obtain ⟨r, r1, rfl⟩ := jumpRow_eq hfs
      obtain ⟨l1, l2, l3, l4⟩ := jumpRowCall_level r1
      rw [r1]
      unfold RowCall.jumpFaces
      rw [faces_upds n h0 u A (level + 1) level (level + 1) r.size _ _ _ l3
        (contributionL n (A (cellLength h0 (level + 1))) (cellLength h0 (level + 1)) (cellLength h0 level))
        (contributionL n (negL (A (cellLength h0 (level + 1)))) (cellLength h0 (level + 1)) (cellLength h0 (level + 1)))
        (fun i => localSum_contributionL ..) (fun i => by rw [localSum_contributionL, localSum_neg])]
      exact linTask_sim par u _ _ (by rw [contributionL_length, contributionL_length, negL_length]) r _ _
        (Or.inr (Or.inl ⟨by omega, by rw [l4]; exact c2 c hc, fun _ => rfl, fun _ => rfl⟩))) ht
    obtain ⟨us', u1, u2⟩ := rowsOf_sim (row' := fun c => linTask par u (contributionL n (A (cellLength h0 (level + 1))) (cellLength h0 (level + 1)) (cellLength h0 (level + 1)))
        (contributionL n (negL (A (cellLength h0 (level + 1)))) (cellLength h0 (level + 1)) (cellLength h0 level)) (jumpRowCallOpp n ref level dir S c))
      (g := fun t => t.flatMap (faceUpdates n h0 (asConservative fun c => linValue u (A (cellLength h0 (levelOf c))) c) (level + 1) (level + 1) level)) (by
      intro c hc fs hfs
      obtain ⟨r, r1, rfl⟩ := jumpRowOpp_eq hfs
      obtain ⟨l1, l2, l3, l4⟩ := jumpRowCallOpp_level r1
      rw [r1]
      unfold RowCall.oppFaces
      rw [faces_upds n h0 u A (level + 1) (level + 1) level r.size _ _ _ l3
        (contributionL n (A (cellLength h0 (level + 1))) (cellLength h0 (level + 1)) (cellLength h0 (level + 1)))
        (contributionL n (negL (A (cellLength h0 (level + 1)))) (cellLength h0 (level + 1)) (cellLength h0 level))
        (fun i => localSum_contributionL ..) (fun i => by rw [localSum_contributionL, localSum_neg])]
      exact linTask_sim par u _ _ (by rw [contributionL_length, contributionL_length, negL_length]) r _ _
        (Or.inr (Or.inr ⟨by omega, by rw [l4]; exact d2 c hc, fun _ => rfl, fun _ => rfl⟩))) ht'
    refine ⟨[⟨par, ts'⟩, ⟨par, us'⟩], by rw [t1, u1], List.Forall₂.cons ⟨t2, fun hp => hp⟩ (List.Forall₂.cons ⟨u2, fun hp => hp⟩ List.Forall₂.nil)⟩

theorem FVMesh.linInteriorRegions_sim (g : FVMesh n cells ref dom minL maxL w) (par : Bool) (u : Int → U) (h0 : K) {d : Nat} {S : List (Nat → Int)}
    (A : K → List (U →ₗ[K] V)) {rs : List (Region V)}
    (h : Samurai.interiorRegions n h0 ref cells maxL (unitDir d) S (asConservative fun c => linValue u (A (cellLength h0 (levelOf c))) c) = some rs) :
    ∃ rs', linInteriorRegions n h0 par u ref cells maxL (unitDir d) S A = some rs' ∧ List.Forall₂ (RegionSim par) rs rs' := by
  unfold Samurai.interiorRegions at h
  split at h
  · rename_i a b h1 h2
    cases h
    obtain ⟨a', a1, a2⟩ := overLevels_sim (par := par) _ _ (fun l _ rs hrs => linSameRegion_sim par u h0 A hrs) h1
    obtain ⟨b', b1, b2⟩ := overLevels_sim (par := par) _ _
      (fun l _ rs hrs => g.linJumpRegions_sim par u h0 A (unitDir_le d) (unitDir_axis n d) (unitDir_axis_neg n d) hrs) h2
    exact ⟨a' ++ b', by unfold linInteriorRegions; rw [a1, b1], List.rel_append a2 b2⟩
  · cases h

/-! ### boundary -/

theorem linBdryTask_sim (u : Int → U) (h0 : K) {dir : Nat → Int} {S : List (Nat → Int)} {level : Nat} (F : List MCell → V) (B : List (U →ₗ[K] V))
    {c : Call} {bs : List BdryCall} (hb : bdryRow n ref level dir S c = some bs)
    (hF : ∀ (C : List MCell) (i : Nat), (∀ m ∈ C, m.level = level) →
      contribution n (F (C.map fun m => m.at i)) (cellLength h0 level) (cellLength h0 level) = localSum u false B C i) :
    ∃ t, linBdryTask n u B ref level dir S c = some t ∧
      TaskSim (bs.map fun f => (f.cell.index, contribution n (F f.comput) (cellLength h0 level) (cellLength h0 level))) t := by
  obtain ⟨a, b, l, h1, h2, rfl⟩ := bdryRow_eq hb
  refine ⟨_, by unfold linBdryTask; rw [h1, h2], fun j => ?_, fun x hx => ?_⟩
  · rw [stencilLoop_sum' (fun x _ m => fineLoop_sum ..) B B l rfl, List.map_map, ← lineSum_line]
    congr 1
    refine List.map_congr_left fun i _ => ?_
    show (a.index + (i : Int), _) = (a.index + (i : Int), _)
    rw [hF l i (stencilInit_level h2)]
  · obtain ⟨_, _, m, hx⟩ := mem_stencilLoop hx
    obtain ⟨ii, hii, rfl⟩ := List.mem_map.1 hx
    exact ⟨_, List.mem_map.2 ⟨_, List.mem_map.2 ⟨ii, hii, rfl⟩, rfl⟩, rfl⟩

theorem linBdryRegions_sim (par : Bool) (u : Int → U) (h0 : K) {dir : Nat → Int} {S : List (Nat → Int)} (A : K → List (U →ₗ[K] V)) {level : Nat} {rs : List (Region V)}
    (h : bdryRegions n h0 ref sub cells dir S (asConservative fun c => linValue u (A (cellLength h0 (levelOf c))) c) level = some rs) :
    ∃ rs', linBdryRegions n h0 u ref sub cells dir S A level = some rs' ∧ List.Forall₂ (RegionSim par) rs rs' := by
  unfold bdryRegions bdryTasksOpp bdryTasks at h
  unfold linBdryRegions
  simp only []
  cases hc : boundarySet n sub cells level dir with
  | none => rw [hc] at h; cases h
  | some calls =>
  cases hc' : boundarySet n sub cells level (fun d => - dir d) with
  | none =>
    rw [hc, hc'] at h
    simp only [] at h
    cases hr : rowsOf (bdryRow n ref level dir S) calls with
    | none => rw [hr] at h; cases h
    | some a => rw [hr] at h; cases h
  | some calls' =>
  rw [hc, hc'] at h
  simp only [] at h ⊢
  cases ht : rowsOf (bdryRow n ref level dir S) calls with
  | none => rw [ht] at h; cases h
  | some ts =>
  cases ht' : rowsOf (bdryRow n ref level (fun d => - dir d) (minusStencil dir S)) calls' with
  | none => rw [ht, ht'] at h; cases h
  | some us =>
  rw [ht, ht'] at h
  cases h
  obtain ⟨ts', t1, t2⟩ := rowsOf_sim (row' := linBdryTask n u (contributionL n (A (cellLength h0 level)) (cellLength h0 level) (cellLength h0 level)) ref level dir S)
    (fun c _ bs hbs => linBdryTask_sim u h0 (fun c => linValue u (A (cellLength h0 (levelOf c))) c) _ hbs (fun C i hC => by
      rw [levelOf_at hC, localSum_contributionL])) ht
  obtain ⟨us', u1, u2⟩ := rowsOf_sim (row' := linBdryTask n u (contributionL n (negL (A (cellLength h0 level))) (cellLength h0 level) (cellLength h0 level)) ref level
      (fun d => - dir d) (minusStencil dir S))
    (fun c _ bs hbs => linBdryTask_sim u h0 (fun c => - linValue u (A (cellLength h0 (levelOf c))) c) _ hbs (fun C i hC => by
      rw [levelOf_at hC, localSum_contributionL, localSum_neg])) ht'
  exact ⟨[⟨false, ts'⟩, ⟨false, us'⟩], by rw [t1, u1], List.Forall₂.cons ⟨t2, fun _ => rfl⟩ (List.Forall₂.cons ⟨u2, fun _ => rfl⟩ List.Forall₂.nil)⟩

/-! ### the scheme -/

theorem FVMesh.linScheme_sim (g : FVMesh n cells ref dom minL maxL w) (par : Bool) (u : Int → U) (h0 : K) (ld : LinDef K U V) (bdry : Bool) {rs : List (Region V)}
    (h : Samurai.schemeRegions n h0 ref sub cells maxL bdry (linFlux h0 u ld) = some rs) :
    ∃ rs', linSchemeRegions n h0 par u ref sub cells maxL bdry ld = some rs' ∧ List.Forall₂ (RegionSim par) rs rs' := by
  refine overLevels_sim (par := par) _ _ (fun d _ rs hrs => ?_) h
  unfold Samurai.directionRegions at hrs
  unfold linDirectionRegions
  split at hrs
  · rename_i a b h1 h2
    cases hrs
    obtain ⟨a', a1, a2⟩ := g.linInteriorRegions_sim par u h0 (d := d) (S := ld.stencil d) (ld.coeffs d) h1
    have hcd : cartesianDir d = unitDir d := rfl
    rw [hcd, a1]
    cases bdry with
    | false =>
      rw [if_neg (by simp)] at h2 ⊢
      cases h2
      exact ⟨_, rfl, List.rel_append a2 List.Forall₂.nil⟩
    | true =>
      rw [if_pos rfl] at h2 ⊢
      obtain ⟨b', b1, b2⟩ := overLevels_sim (par := par) _ _ (fun l _ rs hrs => linBdryRegions_sim par u h0 (S := ld.stencil d) (ld.coeffs d) hrs) h2
      rw [hcd] at b1
      rw [b1]
      exact ⟨_, rfl, List.rel_append a2 b2⟩
  · cases hrs

theorem taskSim_flatten {ts ts' : List (List (Upd V))} (h : List.Forall₂ TaskSim ts ts') (j : Int) : updSum ts'.flatten j = updSum ts.flatten j := by
  induction h with
  | nil => rfl
  | cons h _ ih => rw [List.flatten_cons, List.flatten_cons, updSum_append, updSum_append, h.sum, ih]

theorem regionSim_run {par : Bool} {rs rs' : List (Region V)} (h : List.Forall₂ (RegionSim par) rs rs') : ∀ m : Int → V,
    rs'.foldl Region.run m = rs.foldl Region.run m := by
  induction h with
  | nil => intro m; rfl
  | cons h _ ih =>
    intro m
    rw [List.foldl_cons, List.foldl_cons, ih]
    congr 1
    funext j
    unfold Region.run
    rw [foldl_addTo, foldl_addTo, taskSim_flatten h.tasks]

theorem taskSim_apart {ts ts' : List (List (Upd V))} (h : List.Forall₂ TaskSim ts ts') (hp : ts.Pairwise Apart) : ts'.Pairwise Apart := by
  induction h with
  | nil => exact List.Pairwise.nil
  | @cons t t' ts ts' h hs ih =>
    rw [List.pairwise_cons] at hp ⊢
    refine ⟨fun s' hs' x hx y hy => ?_, ih hp.2⟩
    have : ∃ s ∈ ts, TaskSim s s' := by
      clear ih hp
      induction hs with
      | nil => cases hs'
      | @cons a b as bs h1 _ ih =>
        rcases List.mem_cons.1 hs' with rfl | hs'
        · exact ⟨a, List.mem_cons_self, h1⟩
        · obtain ⟨s, s1, s2⟩ := ih hs'
          exact ⟨s, List.mem_cons_of_mem _ s1, s2⟩
    obtain ⟨s, s1, s2⟩ := this
    obtain ⟨x', x1, x2⟩ := h.addr x hx
    obtain ⟨y', y1, y2⟩ := s2.addr y hy
    rw [← x2, ← y2]
    exact hp.1 s s1 x' x1 y' y1

theorem regionSim_apart {rs rs' : List (Region V)} (h : List.Forall₂ (RegionSim true) rs rs') (hp : ∀ r ∈ rs, r.atomic = false → r.tasks.Pairwise Apart) :
    ∀ r ∈ rs', r.atomic = false → r.tasks.Pairwise Apart := by
  induction h with
  | nil => intro r hr; cases hr
  | @cons a b as bs h _ ih =>
    intro r hr ha
    rcases List.mem_cons.1 hr with rfl | hr
    · refine taskSim_apart h.tasks (hp a List.mem_cons_self ?_)
      rw [← h.atomic rfl, ha]
    · exact ih (fun r hr => hp r (List.mem_cons_of_mem _ hr)) r hr ha

end

end Samurai

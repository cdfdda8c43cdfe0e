import Verif.Spec.CellScheme
import Verif.Lemmas.PetscScheme
import Verif.Lemmas.BcPass

namespace Samurai

/-! ### the loops -/

theorem visit_collect : ∀ (l : List Call) (s : List Call), (visit (fun (s : List Call) yz i => (s ++ [(yz, i)], i)) l s).2 = s ++ l := by
  intro l
  induction l with
  | nil => intro s; simp [visit]
  | cons e l ih =>
    intro s
    show (visit _ l (s ++ [(e.1, e.2)])).2 = _
    rw [ih]
    simp

theorem meshIntervals_spec {n : Nat} {L : LCA} (h : L.WF n) (hne : L.cells n ≠ []) : meshIntervals n L = some (L.rows n) := by
  unfold meshIntervals
  obtain ⟨it, hb, hit⟩ := iterBegin_spec h hne
  rw [hb]
  obtain ⟨L'', q, -⟩ := forEachLoop_spec h hne (fun (s : List Call) yz i => (s ++ [(yz, i)], i)) (L.cells 0).length 0 it [] [] L
    (by omega) (fun _ => hit) hit.1 rfl rfl rfl (fun _ => rfl) (by simp)
  simp only [q, Option.map_some, List.drop_zero]
  rw [visit_collect]
  simp

theorem rows_callCells (n : Nat) (L : LCA) : callCells (L.rows n) = (L.numbered n).map Prod.fst := by
  unfold callCells LCA.numbered
  rw [List.map_flatMap]
  congr 1
  funext e
  rw [List.map_map]
  rfl

section
variable {n : Nat} {cells ref : CA} {dom : LCA} {minL maxL w : Nat}

theorem FVMesh.levelStencils (g : FVMesh n cells ref dom minL maxL w) {S : List (Nat → Int)} (h0 : ∃ s ∈ S, ∀ k ≤ n, s k = 0)
    (hS : ∀ s ∈ S, ∀ k ≤ n, - (w : Int) ≤ s k ∧ s k ≤ w) {level : Nat} (hl : level ∈ cells.usedLevels) :
    ∃ l, levelStencils n ref cells S level = some l ∧ List.Forall₂ (CellsOf n ref level S) (((cells.lca level).numbered n).map Prod.fst) l := by
  obtain ⟨p, hp⟩ := (mem_usedLevels g.leaves.wf).1 hl
  have hle : level ≤ cells.maxSize := hp.1
  have hwf := g.leaves.wf level hle
  have hne : (cells.lca level).cells n ≠ [] := fun h => by
    obtain ⟨e, he, -⟩ := (Samurai.mem_iff_rows hwf p).1 hp.2
    rw [rows_empty h] at he
    cases he
  unfold Samurai.levelStencils
  rw [meshIntervals_spec hwf hne]
  simp only []
  rw [← rows_callCells]
  refine facesOf_spec fun c hc => ?_
  have hmem : ∀ x ∈ c.2, cells.Mem n level (c.1 ++ [x]) := fun x hx => ⟨hle, (Samurai.mem_iff_rows hwf _).2 ⟨c, hc, x, hx, rfl⟩⟩
  obtain ⟨hlen, hlt⟩ := rows_valid hwf hc
  obtain ⟨l, l1, l2⟩ := stencilInit_spec (c := c) (S := S) (g.ref_level hp).2 hlen hlt
    (g.avail hlen (b := fun _ => 0) (fun x hx => by rw [shift_zero]; exact hmem x hx) (fun k _ => by constructor <;> simp)
      (fun s hs k hk => by have := hS s hs k hk; simpa using this)) h0
  refine ⟨_, by unfold stencilRow; rw [l1]; rfl, ?_⟩
  have hs := slide_of (next := stencilNext) (fun i => l.map fun m => m.at i) (fun i => stencilNext_at l i) c.2.size
  simp only [map_at_zero] at hs
  rw [hs, rowCells_eq]
  apply forall₂_range
  intro i hi
  exact slides_cells hlen l2 hi

/-- The cells of a level with their numbers. -/
def levelNumbered (n : Nat) (c : CA) (level : Nat) : List (Nat × List Int × Int) := ((c.lca level).numbered n).map fun e => (level, e.1, e.2)

theorem mem_levelNumbered {c : CA} {level : Nat} (hl : level ≤ c.maxSize) {e : Nat × List Int × Int} :
    e ∈ levelNumbered n c level ↔ e ∈ c.numbered n ∧ e.1 = level := by
  unfold levelNumbered CA.numbered
  simp only [List.mem_map, List.mem_flatMap, List.mem_range]
  constructor
  · rintro ⟨a, ha, rfl⟩
    exact ⟨⟨level, by omega, a, ha, rfl⟩, rfl⟩
  · rintro ⟨⟨l, -, a, ha, rfl⟩, rfl⟩
    exact ⟨a, ha, rfl⟩

/-- What a loop on the stencils of the leaves does: one call per leaf. -/
theorem FVMesh.overStencils (g : FVMesh n cells ref dom minL maxL w) (hnum : FVNumbers n cells ref) {S : List (Nat → Int)} (h0 : ∃ s ∈ S, ∀ k ≤ n, s k = 0)
    (hS : ∀ s ∈ S, ∀ k ≤ n, - (w : Int) ≤ s k ∧ s k ≤ w) {β : Type} (G : Nat → List MCell → β) :
    ∃ ps l, overLevels (fun level => (Samurai.levelStencils n ref cells S level).map fun l => l.map (G level)) cells.usedLevels = some l ∧
      List.Forall₂ (fun (e : Nat × List Int × Int) x => ∃ c, CellsOf n ref e.1 S e.2.1 c ∧ x = G e.1 c) ps l ∧
      (ps.map fun e => e.2.2).Nodup ∧ ∀ e, e ∈ ps ↔ e ∈ cells.numbered n := by
  have key : ∀ ls : List Nat, (∀ l ∈ ls, l ∈ cells.usedLevels) →
      ∃ l, overLevels (fun level => (Samurai.levelStencils n ref cells S level).map fun l => l.map (G level)) ls = some l ∧
        List.Forall₂ (fun (e : Nat × List Int × Int) x => ∃ c, CellsOf n ref e.1 S e.2.1 c ∧ x = G e.1 c) (ls.flatMap (levelNumbered n cells)) l := by
    intro ls
    induction ls with
    | nil => intro _; exact ⟨[], rfl, List.Forall₂.nil⟩
    | cons level ls ih =>
      intro hls
      obtain ⟨b, b1, b2⟩ := ih fun l hl => hls l (List.mem_cons_of_mem _ hl)
      obtain ⟨a, a1, a2⟩ := g.levelStencils h0 hS (hls level List.mem_cons_self)
      refine ⟨a.map (G level) ++ b, by unfold overLevels; rw [a1, b1]; rfl, ?_⟩
      rw [List.flatMap_cons]
      refine List.rel_append ?_ b2
      unfold levelNumbered
      rw [List.forall₂_map_left_iff] at a2 ⊢
      rw [List.forall₂_map_right_iff]
      exact a2.imp fun e c hc => ⟨c, hc, rfl⟩
  obtain ⟨l, l1, l2⟩ := key cells.usedLevels fun _ h => h
  have hle : ∀ level ∈ cells.usedLevels, level ≤ cells.maxSize := fun level h => by
    obtain ⟨p, hp⟩ := (mem_usedLevels g.leaves.wf).1 h
    exact hp.1
  refine ⟨_, l, l1, l2, ?_, fun e => ?_⟩
  · refine (List.nodup_map_iff_inj_on ?_).2 ?_
    · rw [List.nodup_flatMap]
      refine ⟨fun level hl => ?_, (usedLevels_nodup cells).imp_of_mem fun {a b} ha hb hab e ha' hb' => hab ?_⟩
      · have hs := (numbered_sorted (g.leaves.wf level (hle level hl))).imp (fun {a b} h => ne_of_lt h)
        refine List.Nodup.of_map (fun e : Nat × List Int × Int => e.2.1) ?_
        unfold levelNumbered
        rw [List.map_map]
        exact hs
      · rw [← ((mem_levelNumbered (hle a ha)).1 ha').2, ← ((mem_levelNumbered (hle b hb)).1 hb').2]
    · intro a ha b hb hab
      obtain ⟨la, hla, ha⟩ := List.mem_flatMap.1 ha
      obtain ⟨lb, hlb, hb⟩ := List.mem_flatMap.1 hb
      have ha := ((mem_levelNumbered (hle la hla)).1 ha).1
      have hb := ((mem_levelNumbered (hle lb hlb)).1 hb).1
      obtain ⟨l, p, v⟩ := a
      obtain ⟨l', p', v'⟩ := b
      have hab : v = v' := hab
      subst hab
      obtain ⟨rfl, rfl⟩ := number_inj hnum.distinct (hnum.same _ _ _ ha) (hnum.same _ _ _ hb)
      rfl
  · rw [List.mem_flatMap]
    constructor
    · rintro ⟨level, hl, he⟩
      exact ((mem_levelNumbered (hle level hl)).1 he).1
    · intro he
      obtain ⟨l, p, v⟩ := e
      have hm := CA.mem_of_numbered g.leaves.wf he
      have hl := (mem_usedLevels g.leaves.wf).2 ⟨p, hm⟩
      exact ⟨l, hl, (mem_levelNumbered (hle l hl)).2 ⟨he, rfl⟩⟩

/-- The number of the centre of a stencil. -/
theorem centre_number (g : FVMesh n cells ref dom minL maxL w) (hnum : FVNumbers n cells ref) {S : List (Nat → Int)} {center : Nat}
    (hc : ∃ s, S[center]? = some s ∧ ∀ k ≤ n, s k = 0) {l : Nat} {q : List Int} {v : Int} (he : (l, q, v) ∈ cells.numbered n) {c : List MCell} (h : CellsOf n ref l S q c) :
    (cellAt c center).index = v := by
  obtain ⟨s, s1, s2⟩ := hc
  obtain ⟨hlt, s3⟩ := List.getElem?_eq_some_iff.1 s1
  have hlen := h.length_eq
  have h1 := (List.forall₂_iff_get.1 h).2 center hlt (by omega)
  rw [List.get_eq_getElem, List.get_eq_getElem, s3] at h1
  have h2 : CellIs n ref l (shiftPoint s n q) c[center] := h1.is (g.ref_level (CA.mem_of_numbered g.leaves.wf he)).1
  rw [shift_congr (t := fun _ => 0) q n s2, shift_zero] at h2
  have h3 : cellAt c center = c[center] := by unfold cellAt; rw [List.getD_eq_getElem?_getD, List.getElem?_eq_getElem (by omega)]; rfl
  rw [h3]
  exact CA.number_unique g.refWF h2.2.2 (hnum.same _ _ _ he)

end

/-! ### sums -/

theorem forall₂_sum {α β V : Type} [AddCommMonoid V] {R : α → β → Prop} {ps : List α} {l : List β} (h : List.Forall₂ R ps l) {F : β → V} {Φ : α → V}
    (hF : ∀ e ∈ ps, ∀ x, R e x → F x = Φ e) : (l.map F).sum = (ps.map Φ).sum := by
  induction h with
  | nil => rfl
  | cons h _ ih =>
    rw [List.map_cons, List.map_cons, List.sum_cons, List.sum_cons, hF _ List.mem_cons_self _ h, ih fun e he x => hF e (List.mem_cons_of_mem _ he) x]

/-- Only the cell of number `v` contributes. -/
theorem sum_leaf {V : Type} [AddCommGroup V] {ps : List (Nat × List Int × Int)} (hd : (ps.map fun e => e.2.2).Nodup) (Φ : Nat × List Int × Int → V) (v : Int) :
    (∀ e ∈ ps, e.2.2 = v → (ps.map fun e => if v = e.2.2 then Φ e else 0).sum = Φ e) ∧
    ((∀ e ∈ ps, e.2.2 ≠ v) → (ps.map fun e => if v = e.2.2 then Φ e else 0).sum = 0) := by
  constructor
  · intro e he hv
    rw [← sum_pick (V := V) (fun e : Nat × List Int × Int => e.2.2) ps hd v (List.mem_map.2 ⟨e, he, hv⟩) (Φ e)]
    refine sum_map_congr fun e' he' => ?_
    by_cases hv' : v = e'.2.2
    · rw [if_pos hv', if_pos hv', List.inj_on_of_nodup_map hd he he' (by rw [hv, hv'])]
    · rw [if_neg hv', if_neg hv']
  · intro h
    refine Eq.trans ?_ (sum_map_zero' (V := V) ps)
    exact sum_map_congr fun e he => if_neg fun (hv : v = e.2.2) => h e he hv.symm

theorem exists_forall₂ {α β : Type} {R : α → β → Prop} {l : List α} {l' : List β} (h : List.Forall₂ R l l') {a : α} (ha : a ∈ l) : ∃ b ∈ l', R a b := by
  obtain ⟨b, hb, hr⟩ := forall₂_mem h.flip ha
  exact ⟨b, hb, hr⟩

theorem cells_unique {n : Nat} {ref : CA} (hw : ref.WF n) {l : Nat} {q : List Int} {S : List (Nat → Int)} {c c' : List MCell}
    (h : List.Forall₂ (fun s c => CellIs n ref l (shiftPoint s n q) c) S c) (h' : List.Forall₂ (fun s c => CellIs n ref l (shiftPoint s n q) c) S c') : c = c' := by
  induction h generalizing c' with
  | nil => cases h'; rfl
  | cons h _ ih =>
    cases h' with
    | cons h' hs => rw [cellIs_unique hw h h', ih hs]

section
variable {K U V : Type} [Field K] [AddCommGroup U] [Module K U] [AddCommGroup V] [Module K V] {n : Nat} {cells ref : CA} {dom : LCA} {minL maxL w : Nat}

theorem linValue_pairs (u : Int → U) : ∀ (A : List (U →ₗ[K] V)) (C : List MCell), ((A.zip C).map fun e => e.1 (u e.2.index)).sum = linValue u A C := by
  intro A
  induction A with
  | nil => intro C; cases C <;> rfl
  | cons a A ih =>
    intro C
    cases C with
    | nil => rfl
    | cons c C => rw [List.zip_cons_cons, List.map_cons, List.sum_cons, ih]; rfl

theorem updSum_cell (u : Int → U) (center : Nat) (c : List MCell × List (U →ₗ[K] V)) (v : Int) :
    updSum (cellUpdates u center c) v = if v = (cellAt c.1 center).index then linValue u c.2 c.1 else 0 := by
  unfold cellUpdates
  rw [updSum_map]
  by_cases h : v = (cellAt c.1 center).index
  · simp only [if_pos h]
    exact linValue_pairs u c.2 c.1
  · simp only [if_neg h]
    exact sum_map_zero' _

theorem CellStencilOK.zero {S : List (Nat → Int)} {center : Nat} (h : CellStencilOK n w S center) : ∃ s ∈ S, ∀ k ≤ n, s k = 0 := by
  obtain ⟨s, h1, h2⟩ := h.centre
  exact ⟨s, List.mem_of_getElem? h1, h2⟩

/-- The calls of a linear scheme: one per leaf. -/
theorem FVMesh.cellCalls (g : FVMesh n cells ref dom minL maxL w) (hnum : FVNumbers n cells ref) (h0 : K) {cd : CellDef K U V}
    (hS : CellStencilOK n w cd.stencil cd.center) :
    ∃ ps l, Samurai.cellCalls n h0 ref cells cd = some l ∧
      List.Forall₂ (fun (e : Nat × List Int × Int) (x : List MCell × List (U →ₗ[K] V)) => e ∈ cells.numbered n ∧ x.2 = cd.coeffs (cellLength h0 e.1) ∧
        (cellAt x.1 cd.center).index = e.2.2 ∧ List.Forall₂ (fun s c => CellIs n ref e.1 (shiftPoint s n e.2.1) c) cd.stencil x.1) ps l ∧
      (ps.map fun e => e.2.2).Nodup ∧ ∀ e, e ∈ ps ↔ e ∈ cells.numbered n := by
  obtain ⟨ps, l, h1, h2, h3, h4⟩ := g.overStencils hnum hS.zero hS.width fun level c => (c, cd.coeffs (cellLength h0 level))
  refine ⟨ps, l, h1, ?_, h3, h4⟩
  have h2 : List.Forall₂ _ ps l := (List.forall₂_and_left _ _).2 ⟨fun e he => (h4 e).1 he, h2⟩
  refine h2.imp fun e x h => ?_
  obtain ⟨h, c, hc, rfl⟩ := h
  refine ⟨h, rfl, centre_number g hnum hS.centre h hc, ?_⟩
  exact hc.imp fun s m hm => hm.is (g.ref_level (CA.mem_of_numbered g.leaves.wf h)).1

/-- What a linear cell-based scheme adds in the cells. -/
theorem FVMesh.cellRegions (g : FVMesh n cells ref dom minL maxL w) (hnum : FVNumbers n cells ref) (h0 : K) {cd : CellDef K U V}
    (hS : CellStencilOK n w cd.stencil cd.center) {u : Int → U} {val : Nat → List Int → U} (hu : FieldIs n ref u val) :
    ∃ rs, Samurai.cellRegions n h0 u ref cells cd = some rs ∧
      (∀ l q v, (l, q, v) ∈ cells.numbered n → updSum (regionUpds rs) v = stencilSum n (val l) q (cd.coeffs (cellLength h0 l)) cd.stencil) ∧
      ∀ v, (∀ l q, (l, q, v) ∉ cells.numbered n) → updSum (regionUpds rs) v = 0 := by
  obtain ⟨ps, l, h1, h2, h3, h4⟩ := g.cellCalls hnum h0 hS
  refine ⟨_, by unfold Samurai.cellRegions; rw [h1]; rfl, ?_⟩
  have key : ∀ v, updSum (regionUpds [(⟨false, [l.flatMap (cellUpdates u cd.center)]⟩ : Region V)]) v =
      (ps.map fun e => if v = e.2.2 then stencilSum n (val e.1) e.2.1 (cd.coeffs (cellLength h0 e.1)) cd.stencil else 0).sum := by
    intro v
    have : regionUpds [(⟨false, [l.flatMap (cellUpdates u cd.center)]⟩ : Region V)] = l.flatMap (cellUpdates u cd.center) := by
      unfold regionUpds
      simp
    rw [this, updSum_flatMap]
    refine forall₂_sum h2 fun e _ x hx => ?_
    rw [updSum_cell, hx.2.2.1, hx.2.1, linValue_stencil hu _ hx.2.2.2]
  refine ⟨fun l q v hv => ?_, fun v hv => ?_⟩
  · rw [key]
    exact (sum_leaf h3 _ v).1 _ ((h4 _).2 hv) rfl
  · rw [key]
    exact (sum_leaf h3 _ v).2 fun e he h => hv e.1 e.2.1 (by rw [← h]; exact (h4 e).1 he)

omit [AddCommGroup U] in
/-- What a non-linear cell-based scheme adds in the cells. -/
theorem FVMesh.cellFunRegions (g : FVMesh n cells ref dom minL maxL w) (hnum : FVNumbers n cells ref) {cf : CellFun U V}
    (hS : CellStencilOK n w cf.stencil cf.center) (u : Int → U) :
    ∃ rs, Samurai.cellFunRegions n u ref cells cf = some rs ∧
      (∀ l q v, (l, q, v) ∈ cells.numbered n → ∃ c, List.Forall₂ (fun s c => CellIs n ref l (shiftPoint s n q) c) cf.stencil c ∧ updSum (regionUpds rs) v = cf.value c u) ∧
      ∀ v, (∀ l q, (l, q, v) ∉ cells.numbered n) → updSum (regionUpds rs) v = 0 := by
  obtain ⟨ps, l, h1, h2, h3, h4⟩ := g.overStencils hnum hS.zero hS.width fun _ c => c
  simp only [List.map_id', Option.map_id'] at h1
  refine ⟨_, by unfold Samurai.cellFunRegions allStencils; rw [h1]; rfl, ?_⟩
  have h2 : List.Forall₂ _ ps l := (List.forall₂_and_left _ _).2 ⟨fun e he => (h4 e).1 he, h2⟩
  have h2 : List.Forall₂ (fun (e : Nat × List Int × Int) x => e ∈ cells.numbered n ∧ (cellAt x cf.center).index = e.2.2 ∧
      List.Forall₂ (fun s c => CellIs n ref e.1 (shiftPoint s n e.2.1) c) cf.stencil x) ps l := by
    refine h2.imp fun e x h => ?_
    obtain ⟨h, c, hc, rfl⟩ := h
    refine ⟨h, centre_number g hnum hS.centre h hc, ?_⟩
    exact hc.imp fun s m hm => hm.is (g.ref_level (CA.mem_of_numbered g.leaves.wf h)).1
  classical
  let Φ : Nat × List Int × Int → V := fun e =>
    if h : ∃ c, List.Forall₂ (fun s c => CellIs n ref e.1 (shiftPoint s n e.2.1) c) cf.stencil c then cf.value h.choose u else 0
  have hΦ : ∀ e x, List.Forall₂ (fun s c => CellIs n ref e.1 (shiftPoint s n e.2.1) c) cf.stencil x → cf.value x u = Φ e := by
    intro e x hx
    have h : ∃ c, List.Forall₂ (fun s c => CellIs n ref e.1 (shiftPoint s n e.2.1) c) cf.stencil c := ⟨x, hx⟩
    show _ = dite _ _ _
    rw [dif_pos h, cells_unique g.refWF hx h.choose_spec]
  have key : ∀ v, updSum (regionUpds [(⟨false, [l.map fun c => ((cellAt c cf.center).index, cf.value c u)]⟩ : Region V)]) v =
      (ps.map fun e => if v = e.2.2 then Φ e else 0).sum := by
    intro v
    have : regionUpds [(⟨false, [l.map fun c => ((cellAt c cf.center).index, cf.value c u)]⟩ : Region V)] = l.map fun c => ((cellAt c cf.center).index, cf.value c u) := by
      unfold regionUpds
      simp
    rw [this, updSum_map]
    refine forall₂_sum h2 fun e _ x hx => ?_
    simp only [hx.2.1, hΦ e x hx.2.2]
  refine ⟨fun l q v hv => ?_, fun v hv => ?_⟩
  · obtain ⟨x, -, hx⟩ := exists_forall₂ h2 ((h4 _).2 hv)
    refine ⟨x, hx.2.2, ?_⟩
    rw [key, hΦ _ x hx.2.2]
    exact (sum_leaf h3 _ v).1 _ ((h4 _).2 hv) rfl
  · rw [key]
    exact (sum_leaf h3 _ v).2 fun e he h => hv e.1 e.2.1 (by rw [← h]; exact (h4 e).1 he)

end

end Samurai

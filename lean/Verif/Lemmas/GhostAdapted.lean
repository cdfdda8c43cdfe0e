import Verif.Lemmas.GhostLoop
import Verif.Lemmas.BcAdapted

namespace Samurai

theorem Box.refined_refined (b : Box) (j k : Nat) : (b.refined j).refined k = b.refined (j + k) := by
  unfold Box.refined
  congr 1 <;> funext d <;> rw [pow_add] <;> ring

theorem BoxDomain.finer {n : Nat} {dom : LCA} {base : Nat} {b : Box} (h : BoxDomain n dom base b) {level : Nat} (h1 : base ≤ level) (h2 : level ≤ dom.level) :
    BoxDomain n dom level (b.refined (level - base)) := by
  refine ⟨h.wf, h2, fun d hd => ?_, fun m => ?_⟩
  · have := h.pos d hd
    have hp := pow_two_pos (level - base)
    show b.lo d * 2 ^ (level - base) < b.hi d * 2 ^ (level - base)
    exact Int.mul_lt_mul_of_pos_right this hp
  · rw [h.mem, Box.refined_refined, show level - base + (dom.level - level) = dom.level - base by omega]

section
variable {n : Nat} {cells : CA} {dom : LCA} {minL maxL level : Nat} {b : Box}

/-- A cell of the box is a leaf, or contains finer leaves, or lies in a coarser leaf. -/
theorem box_cases (g : GoodLeaves n cells dom minL maxL) (hd : BoxDomain n dom level b) (hdl : dom.level ≤ maxL) {p : List Int} (hp : InBox b n p) :
    cells.Mem n level p ∨ CoveredBy n cells level p ∨ ∃ l0 c, l0 < level ∧ cells.Mem n l0 c ∧ Anc (level - l0) c p := by
  have hle := hd.le
  obtain ⟨m, hm⟩ := anc_exists (maxL - level) p
  obtain ⟨l1, c, h1, h2, h3⟩ := box_tiled g hd hdl hp hm
  rcases Nat.lt_trichotomy l1 level with h | h | h
  · refine .inr (.inr ⟨l1, c, h, h2, ?_⟩)
    have := anc_of_anc (by omega) h3 hm
    rwa [show maxL - l1 - (maxL - level) = level - l1 by omega] at this
  · subst h
    rw [anc_iff] at h3 hm
    rw [h3.trans hm.symm] at h2
    exact .inl h2
  · refine .inr (.inl ⟨l1, c, h, h2, ?_⟩)
    have := anc_of_anc (by omega) hm h3
    rwa [show maxL - level - (maxL - l1) = l1 - level by omega] at this

/-- A cell that lies in a coarser leaf does not touch a cell that contains finer leaves. -/
theorem no_touch (g : GoodLeaves n cells dom minL maxL) (hd : BoxDomain n dom level b) (hdl : dom.level ≤ maxL) {q z c0 : List Int} {l0 : Nat}
    (hl0 : l0 < level) (hc0 : cells.Mem n l0 c0) (hq : Anc (level - l0) c0 q) (hz : CoveredBy n cells level z) (hn : Near 1 q z) : False := by
  have hle := hd.le
  obtain ⟨l', x, hl', hx, hax⟩ := hz
  have hzb : InBox b n z := leaf_inBox g hd hdl hx (by omega) hax
  obtain ⟨a, b', h1, h2, h3⟩ := touch_down (maxL - level) hn
  obtain ⟨l1, q1, e1, e2, e3⟩ := box_tiled g hd hdl hzb h2
  have e4 : level < l1 := by
    by_contra hlt
    have e5 := anc_of_anc (by omega) e3 h2
    rw [show maxL - l1 - (maxL - level) = level - l1 by omega] at e5
    have e6 := anc_trans e5 hax
    rw [show level - l1 + (l' - level) = l' - l1 by omega] at e6
    have := (g.noOverlap l1 q1 l' x e2 hx (by omega) e6).1
    omega
  have e5 := anc_trans hq h1
  rw [show level - l0 + (maxL - level) = maxL - l0 by omega] at e5
  have := graded_fine g.graded hc0 e2 (by omega) e1 e5 e3 h3
  omega

/-- The prediction stencil of a cell of the reference mesh that lies in a coarser leaf is in the reference mesh. -/
theorem pred_stencil {cfg : MeshConfig} (hs : cfg.predictionOrder = 1) (hw : cfg.maxStencilWidth = 1) (g : GoodLeaves n cells dom minL maxL) {L : Nat}
    (hd : BoxDomain n dom (L + 1) b) (hdl : dom.level ≤ maxL) {q t c0 : List Int} {l0 : Nat} (hqb : InBox b n q) (hq : MRAll n cfg cells minL (L + 1) q)
    (hl0 : l0 ≤ L) (hc0 : cells.Mem n l0 c0) (ha : Anc (L + 1 - l0) c0 q) (ht : Near 1 t (q.map fun y => shr y 1)) : MRAll n cfg cells minL L t := by
  have hle := hd.le
  have hql := (inBox_iff.1 hqb).1
  have nocov : ∀ z, InBox b n z → CoveredBy n cells (L + 1) z → ¬ Near 1 q z := fun z _ h hn => no_touch g hd hdl (by omega) hc0 ha h hn
  have near_leaf : ∀ r, cells.Mem n (L + 1) r → Near 1 q r → MRAll n cfg cells minL L t := by
    intro r hr hn
    refine MRBase.all (.inr (.inl ⟨q, ⟨r, hr, by rw [hw]; exact hn⟩, fun h => nocov q hqb h (near_refl _ _), by rw [hs]; exact ht⟩))
  have leafBox : ∀ {l : Nat} {c p : List Int}, cells.Mem n l c → L + 1 ≤ l → Anc (l - (L + 1)) p c → InBox b n p := fun hc hl hp => leaf_inBox g hd hdl hc hl hp
  rcases mrAll_cases hq with (⟨c, hc, hn⟩ | ⟨r, ⟨c, hc, hrc⟩, hun, hn⟩ | ⟨c, hc, hn⟩) | ⟨L', hL', _, _, l', x, hl', hx, hax⟩
  · rw [hw] at hn
    exact near_leaf c hc hn
  · rw [hw] at hrc
    rw [hs] at hn
    have e0 : Anc (L + 1 + 1 - (L + 1)) (c.map fun y => shr y 1) c := by rw [show L + 1 + 1 - (L + 1) = 1 by omega]; exact anc_iff.2 rfl
    have heb := leafBox hc (by omega) e0
    have hcl : c.length = n + 1 := mem_length hc.2
    have hrl : r.length = n + 1 := by rw [List.Forall₂.length_eq hrc, hcl]
    have hrd := (near_iff_toPt hrl hcl).1 hrc
    have hqd := (near_iff_toPt hql (by simpa using hrl)).1 hn
    have hebd := (inBox_iff.1 heb).2
    have hqbd := (inBox_iff.1 hqb).2
    set z := ptOf n (fun d => max (b.lo d) (min (toPt r d / 2) (b.hi d - 1))) with hz
    have hzl : z.length = n + 1 := ptOf_length _ _
    have hzd : ∀ d ≤ n, toPt z d = max (b.lo d) (min (toPt r d / 2) (b.hi d - 1)) := fun d hd => toPt_ptOf _ hd
    have hzb : InBox b n z := inBox_iff.2 ⟨hzl, fun d hd' => by
      rw [hzd d hd']
      have := hqbd d hd'
      omega⟩
    have hze : Near 1 z (c.map fun y => shr y 1) := (near_iff_toPt hzl (by simpa using hcl)).2 fun d hd' => by
      have h1 := hebd d hd'
      have h2 := hrd d hd'
      rw [toPt_half hcl hd'] at h1 ⊢
      rw [hzd d hd']
      omega
    have hqz : Near 1 q z := (near_iff_toPt hql hzl).2 fun d hd' => by
      have h1 := hqbd d hd'
      have h2 := hqd d hd'
      rw [toPt_half hrl hd'] at h2
      rw [hzd d hd']
      omega
    rcases box_cases g hd hdl hzb with h | h | ⟨l1, c1, h1, h2, h3⟩
    · exact near_leaf z h hqz
    · exact absurd hqz (nocov z hzb h)
    · exact absurd hze fun hn => no_touch g hd hdl h1 h2 h3 ⟨L + 1 + 1, c, by omega, hc, e0⟩ hn
  · rw [hs] at hn
    have e0 : Anc (L + 1 + 2 - (L + 1)) (c.map fun y => shr y 2) c := by rw [show L + 1 + 2 - (L + 1) = 2 by omega]; exact anc_iff.2 rfl
    exact absurd hn (nocov _ (leafBox hc (by omega) e0) ⟨L + 1 + 2, c, by omega, hc, e0⟩)
  · obtain rfl : L' = L := by omega
    exfalso
    have e1 : Anc (L' - l0) c0 (q.map fun y => shr y 1) := by
      have := anc_of_anc (by omega) ha (anc_iff.2 rfl : Anc 1 _ q)
      rwa [show L' + 1 - l0 - 1 = L' - l0 by omega] at this
    have e2 := anc_trans e1 hax
    rw [show L' - l0 + (l' - L') = l' - l0 by omega] at e2
    have := (g.noOverlap l0 c0 l' x hc0 hx (by omega) e2).1
    omega

theorem mrAll_levels {cfg : MeshConfig} (hb : cells.Between n minL maxL) {l : Nat} {p : List Int} (h : MRAll n cfg cells minL l p) : minL ≤ l + 2 ∧ l ≤ maxL := by
  rcases mrAll_cases h with (⟨c, hc, _⟩ | ⟨r, ⟨c, hc, _⟩, _, _⟩ | ⟨c, hc, _⟩) | ⟨L, rfl, _, h1, l', x, h2, hx, _⟩
  · have := hb l c hc; omega
  · have := hb _ c hc; omega
  · have := hb _ c hc; omega
  · have := hb _ x hx; omega

end

theorem memRow_cells {L : LCA} : ∀ {d lo hi : Nat} {p : List Int}, MemRow L d lo hi p → ∀ k ≤ d, L.cells k ≠ [] := by
  have hs : ∀ {l : List Interval} {lo hi : Nat} {i : Interval}, i ∈ slice l lo hi → l ≠ [] := by
    rintro l lo hi i h rfl
    simp [slice] at h
  intro d
  induction d with
  | zero =>
    intro lo hi p h k hk
    obtain rfl : k = 0 := by omega
    match p, h with
    | [x], ⟨i, hi, _⟩ => exact hs hi
  | succ d ih =>
    intro lo hi p h k hk
    match p, h with
    | c :: p, ⟨i, hi, _, _, a, b', _, _, hm⟩ =>
      rcases Nat.eq_or_lt_of_le hk with rfl | hk
      · exact hs hi
      · exact ih hm k (by omega)

theorem domainIndices_some {n : Nat} {L : LCA} {p : List Int} (hp : L.Mem n p) : ∃ I, domainIndices n L = some I := by
  unfold domainIndices
  have key : ∀ l : List Nat, (∀ d ∈ l, d ≤ n) → ∃ I, l.mapM (fun d => match minIndex L d, maxIndex L d with
      | some a, some b => some (a, b)
      | _, _ => none) = some I := by
    intro l
    induction l with
    | nil => intro _; exact ⟨[], rfl⟩
    | cons d l ih =>
      intro hl
      obtain ⟨I, hI⟩ := ih fun k hk => hl k (List.mem_cons_of_mem _ hk)
      have hne := memRow_cells hp d (hl d (by simp))
      obtain ⟨a, ha⟩ : ∃ a, minIndex L d = some a := by
        unfold minIndex
        cases h : ((L.cells d).map (·.start)).min? with
        | none => rw [List.min?_eq_none_iff, List.map_eq_nil_iff] at h; exact absurd h hne
        | some a => exact ⟨a, rfl⟩
      obtain ⟨b, hb⟩ : ∃ b, maxIndex L d = some b := by
        unfold maxIndex
        cases h : ((L.cells d).map (·.stop)).max? with
        | none => rw [List.max?_eq_none_iff, List.map_eq_nil_iff] at h; exact absurd h hne
        | some a => exact ⟨a, rfl⟩
      rw [List.mapM_cons, hI, ha, hb]
      exact ⟨_, rfl⟩
  exact key _ fun d hd => by have := List.mem_range.1 hd; omega

theorem CA.some_mem {n : Nat} {c : CA} (h : c.WF n) {l : Nat} (hl : l ≤ c.maxSize) (he : (c.lca l).isEmpty = false) : ∃ p, c.Mem n l p := by
  have hne : (c.lca l).rows n ≠ [] := fun h0 => by rw [(rows_eq_nil_iff (h l hl)).1 h0] at he; simp at he
  obtain ⟨e, h1⟩ := List.exists_mem_of_ne_nil _ hne
  have h2 := rows_valid (h l hl) h1
  exact ⟨e.1 ++ [e.2.start], hl, (Samurai.mem_iff_rows (h l hl) _).2 ⟨e, h1, e.2.start, Interval.mem_def.2 ⟨by omega, by omega⟩, rfl⟩⟩

section
variable {K : Type} [Field K] {n : Nat} {cells : CA} {dom : LCA} {minL maxL base : Nat} {b : Box}

/-- What `update_ghost_mr` reads from a multiresolution mesh without periodic direction. -/
def mrGhostMesh (m : SubMeshes) (S dom : LCA) (minL maxL : Nat) (h0 : K) (cfg : MeshConfig) : GhostMesh K :=
  ⟨⟨m.cells, m.all, dom, minL, maxL, fun _ => false, h0, cfg⟩, m.proj, S⟩

/-- Every adapted multiresolution mesh with the default configuration meets `GhostReady`. -/
theorem ghostReady_ok {cfg : MeshConfig} (hs : cfg.predictionOrder = 1) (hw : cfg.maxStencilWidth = 1) (g : GoodLeaves n cells dom minL maxL)
    (hgd : GoodDomain n dom minL maxL (cfg.maxStencilWidth + cfg.predictionOrder + 1)) (hne : minL ≠ maxL) (hd : BoxDomain n dom base b)
    (hdl : dom.level = maxL) (hbase : base ≤ minL - 3) {B : Int} (hB0 : 0 ≤ B) (hB : B + 11 * 2 ^ dom.level + 2 < INT_MAX)
    (hhi : ∀ d ≤ n, b.hi d * 2 ^ (dom.level - base) ≤ B) (h0 : K) {m : SubMeshes} {u : CA} (r2 : MRMeshOK n cfg cells minL maxL m u) {S : LCA}
    (s2 : S.WF n) (s3 : S.level = maxL) (s4 : ∀ p, S.Mem n p ↔ ∃ l q, cells.Mem n l q ∧ Anc (maxL - l) q p) :
    GhostReady n (mrGhostMesh m S dom minL maxL h0 cfg) (fun l => b.refined (l - base)) cfg.maxStencilWidth := by
  obtain ⟨m0, c1, c2, c3, c4, c5⟩ := r2.content
  have hbm : base ≤ minL := by omega
  have hall : ∀ l p, m.all.Mem n l p ↔ MRAll n cfg cells minL l p := fun l p => by rw [c5, c1.all hne]
  have hproj : ∀ l p, m.proj.Mem n l p ↔ MRAll n cfg cells minL l p ∧ minL ≤ l + 1 ∧ CoveredBy n cells l p := fun l p => by rw [c4, c1.proj hne]
  have hlev : ∀ l p, MRAll n cfg cells minL l p → minL ≤ l + 2 ∧ l ≤ maxL := fun l p h => mrAll_levels g.between h
  have hdom : ∀ l, base ≤ l → l ≤ maxL → BoxDomain n dom l (b.refined (l - base)) := fun l h1 h2 => hd.finer h1 (by omega)
  have hdl' : dom.level ≤ maxL := by omega
  have hleaf : ∀ l p, cells.Mem n l p → InBox (b.refined (l - base)) n p := fun l p hp => by
    have := g.between l p hp
    exact leaf_inBox g (hdom l (by omega) this.2) hdl' hp le_rfl (by rw [Nat.sub_self]; exact anc_zero.2 rfl)
  -- a leaf
  obtain ⟨l1, q1, hq1⟩ : ∃ l q, cells.Mem n l q := by
    have : InBox b n (ptOf n b.lo) := inBox_iff.2 ⟨ptOf_length _ _, fun d hd' => by
      rw [toPt_ptOf _ hd']
      exact ⟨le_rfl, hd.pos d hd'⟩⟩
    obtain ⟨x, hx⟩ := anc_exists (maxL - base) (ptOf n b.lo)
    obtain ⟨l, q, _, h, _⟩ := box_tiled g hd hdl' this hx
    exact ⟨l, q, h⟩
  have hmm : minL ≤ maxL := by have := g.between l1 q1 hq1; omega
  have hcells_all : ∀ l p, cells.Mem n l p → MRAll n cfg cells minL l p := fun l p hp => MRBase.all (.inl ⟨p, hp, near_refl _ _⟩)
  have hlv := CA.mem_levels r2.wf.2.2.2 ((hall _ _).2 (hcells_all _ _ hq1))
  have hms : m.all.maxLevel ≤ m.all.maxSize ∧ (m.all.lca m.all.minLevel).isEmpty = false ∧ (m.all.lca m.all.maxLevel).isEmpty = false := by
    rcases m.all.level_cases with ⟨_, h1, h2⟩ | ⟨_, h1, h2, h3, _⟩
    · have := ((hall _ _).2 (hcells_all _ _ hq1)).1
      omega
    · exact ⟨h1, h2, h3⟩
  have hmin : minL ≤ m.all.minLevel + 2 := by
    obtain ⟨p, hp⟩ := CA.some_mem r2.wf.2.2.2 (l := m.all.minLevel) (by omega) hms.2.1
    exact (hlev _ _ ((hall _ _).1 hp)).1
  have hmaxl : m.all.maxLevel ≤ maxL := by
    obtain ⟨p, hp⟩ := CA.some_mem r2.wf.2.2.2 (l := m.all.maxLevel) (by omega) hms.2.2
    exact (hlev _ _ ((hall _ _).1 hp)).2
  have hsub : ∀ l p, base ≤ l → l ≤ maxL → AtLevel S.level l (S.Mem n) p → InBox (b.refined (l - base)) n p := by
    intro l p h1 h2 hp
    have : ∃ q, S.Mem n q ∧ Anc (maxL - l) p q := by
      rw [s3] at hp
      unfold AtLevel at hp
      split at hp
      · obtain ⟨q, h3, h4⟩ := hp
        obtain rfl : l = maxL := by omega
        rw [Nat.sub_self] at h4 ⊢
        have h4 : Anc 0 q p := h4
        obtain rfl := anc_zero.1 h4
        exact ⟨q, h3, anc_zero.2 rfl⟩
      · exact hp
    obtain ⟨q, h3, h4⟩ := this
    obtain ⟨l', x, h5, h6⟩ := (s4 q).1 h3
    have hl' := (g.between l' x h5).2
    obtain ⟨d, d1, d2⟩ := (g.tiles q).1 ⟨l', x, hl', h5, h6⟩
    rw [hdl, Nat.sub_self] at d2
    obtain rfl := anc_zero.1 d2
    have := ((hdom l h1 h2).mem _).1 d1
    rw [hdl] at this
    exact box_of_desc h4 this
  have hpred : ∀ l p, m.all.minLevel < l → Pred n (mrGhostMesh m S dom minL maxL h0 cfg) l p →
      MRAll n cfg cells minL l p ∧ InBox (b.refined (l - base)) n p ∧ ∃ l0 c, l0 < l ∧ cells.Mem n l0 c ∧ Anc (l - l0) c p := by
    rintro l p hl ⟨h1, h2, h3, h4, _⟩
    have h1 := (hall _ _).1 h1
    have := hlev _ _ h1
    have hin := hsub l p (by omega) (by omega) h4
    refine ⟨h1, hin, ?_⟩
    rcases box_cases g (hdom l (by omega) (by omega)) hdl' hin with h | h | h
    · exact absurd ((c2 _ _).2 h) h2
    · exact absurd ((hproj _ _).2 ⟨h1, by omega, h⟩) h3
    · exact h
  have hB2 := pow_two_pos dom.level
  have hbelow : ∀ (l : Nat) (x : Int) d, base ≤ l → l ≤ maxL → d ≤ n → x ≤ (b.refined (l - base)).hi d + 1 → x * 2 ^ (maxL - l) < B + 2 * 2 ^ maxL := by
    intro l x d h1 h2 hd' hx
    have := hhi d hd'
    have h3 := pow_two_pos (maxL - l)
    have h4 : (2 : Int) ^ (maxL - l) ≤ 2 ^ maxL := pow_le_pow_right₀ (by norm_num) (by omega)
    have h5 : x * 2 ^ (maxL - l) ≤ ((b.refined (l - base)).hi d + 1) * 2 ^ (maxL - l) := Int.mul_le_mul_of_nonneg_right hx (le_of_lt h3)
    have h6 : (b.refined (l - base)).hi d * 2 ^ (maxL - l) = b.hi d * 2 ^ (dom.level - base) := by
      show b.hi d * 2 ^ (l - base) * 2 ^ (maxL - l) = _
      rw [mul_assoc, ← pow_add, hdl, show l - base + (maxL - l) = maxL - base by omega]
    rw [add_mul, h6] at h5
    rw [hdl] at hB2
    omega
  have hlow : ∀ l, l < base → ∀ p, ¬ MRAll n cfg cells minL l p := fun l hl p h => by have := hlev _ _ h; omega
  have refBelow : ∀ l ≤ m.all.maxLevel, ∀ p, MRAll n cfg cells minL l p → ∀ x ∈ p, x * 2 ^ (maxL - l) < B + 2 * 2 ^ maxL := by
    intro l hl p hp x hx
    have := hlev _ _ hp
    obtain ⟨e1, e2⟩ := ref_below hs (by omega) g (hdom l (by omega) (by omega)) hdl' hp
    obtain ⟨d, hd', rfl⟩ := mem_toPt e1 hx
    exact hbelow l _ d (by omega) (by omega) hd' (e2 d hd')
  have sz := r2.size
  have szc := r2.cellsLevels
  have szp := r2.projLevels
  refine
    { refWF := r2.wf.2.2.2
      projWF := r2.wf.2.2.1
      cellsWF := r2.wf.1
      refLeveled := r2.allLevels
      projLeveled := szp.2
      cellsLeveled := szc.2
      sizes := ⟨szp.1.trans sz.symm, szc.1.trans sz.symm⟩
      numbers := ?_
      some := ⟨hlv.1.trans hlv.2, hms.1⟩
      subWF := s2
      subLevel := by show m.all.maxLevel ≤ S.level; rw [s3]; exact hmaxl
      range := ?_
      periodic := ?_
      bc := ?_
      cellsRef := fun l p hp => (hall _ _).2 (hcells_all _ _ ((c2 _ _).1 hp))
      projRef := fun l p hp => (hall _ _).2 ((hproj _ _).1 hp).1
      projIn := ?_
      projChild := ?_
      predIn := fun l p hl hp => (hpred l p hl hp).2.1
      predNear := ?_ }
  · unfold CA.NumbersDiffer
    show ((m.all.numbered n).map _).Nodup
    rw [r2.numbers]
    exact List.nodup_range.map fun a b h => by exact_mod_cast h
  · refine ⟨B + 2 * 2 ^ maxL, by rw [hdl] at hB2; omega, ?_, ?_, fun l hl => ⟨?_, ?_, ?_⟩⟩
    · show B + 2 * 2 ^ maxL + 2 * 2 ^ S.level + 2 < INT_MAX
      rw [s3]
      rw [hdl] at hB hB2
      omega
    · show S.BelowAt n S.level _
      intro p hp x hx
      have hin := hsub maxL p (by omega) le_rfl (by
        rw [s3]; exact atLevel_self.2 hp)
      obtain ⟨d, hd', _, h⟩ := inBox_coord hin x hx
      rw [s3]
      exact hbelow maxL x d (by omega) le_rfl hd' (by omega)
    · show (m.all.lca l).BelowAt n S.level _
      intro p hp x hx
      have hl' : l ≤ m.all.maxSize := hl.trans hms.1
      rw [r2.allLevels l hl', s3]
      exact refBelow l hl p ((hall _ _).1 ⟨hl', hp⟩) x hx
    · show (m.proj.lca l).BelowAt n S.level _
      intro p hp x hx
      have hl' : l ≤ m.proj.maxSize := by rw [szp.1, ← sz]; exact hl.trans hms.1
      rw [szp.2 l hl', s3]
      exact refBelow l hl p ((hproj _ _).1 ⟨hl', hp⟩).1 x hx
    · show (m.cells.lca l).BelowAt n S.level _
      intro p hp x hx
      have hl' : l ≤ m.cells.maxSize := by rw [szc.1, ← sz]; exact hl.trans hms.1
      rw [szc.2 l hl', s3]
      exact refBelow l hl p (hcells_all _ _ ((c2 _ _).1 ⟨hl', hp⟩)) x hx
  · intro l p hp
    obtain ⟨h1, _, l', x, h2, h3, h4⟩ := (hproj _ _).1 hp
    have := hlev _ _ h1
    exact leaf_inBox g (hdom l (by omega) (by omega)) hdl' h3 (by omega) h4
  · intro l p q hp hq
    obtain ⟨h1, h1', l', x, h2, h3, h4⟩ := (hproj _ _).1 hp
    have hx := (g.between l' x h3).2
    have hlv' := hlev _ _ h1
    have haq : Anc 1 p q := anc_iff.2 hq.symm
    have hpb := leaf_inBox g (hdom l (by omega) (by omega)) hdl' h3 (by omega) h4
    have hqb : InBox (b.refined (l + 1 - base)) n q := by
      have := desc_in_box haq hpb
      rwa [Box.refined_refined, show l - base + 1 = l + 1 - base by omega] at this
    rcases box_cases g (hdom (l + 1) (by omega) (by omega)) hdl' hqb with h | h | ⟨l0, c, e1, e2, e3⟩
    · exact .inl ((c2 _ _).2 h)
    · exact .inr ((hproj _ _).2 ⟨.inr (by rw [hq]; exact ⟨h1, h1', l', x, h2, h3, h4⟩), by omega, h⟩)
    · exfalso
      have e4 := anc_of_anc (by omega) e3 haq
      have e5 := anc_trans e4 h4
      rw [show l + 1 - l0 - 1 + (l' - l) = l' - l0 by omega] at e5
      have := (g.noOverlap l0 c l' x e2 h3 (by omega) e5).1
      omega
  · intro l p q hl hp hq
    obtain ⟨h1, h2, l0, c, h3, h4, h5⟩ := hpred l p hl hp
    have := hlev _ _ h1
    obtain ⟨L, rfl⟩ : ∃ L, l = L + 1 := ⟨l - 1, by omega⟩
    have hq : Near cfg.predictionOrder q (p.map fun y => shr y 1) := hq
    rw [hs] at hq
    exact (hall _ _).2 (pred_stencil hs hw g (hdom (L + 1) (by omega) (by omega)) hdl' h2 h1 (by omega) h4 h5 hq)
  · intro level v
    have hb' := hdom maxL (by omega) le_rfl
    have hmem : dom.Mem n (ptOf n (b.refined (maxL - base)).lo) := (hb'.mem _).2 (inBox_iff.2 ⟨ptOf_length _ _, fun d hd' => by
      rw [toPt_ptOf _ hd']
      have := hb'.pos d hd'
      simp only [Box.refined] at this ⊢
      rw [hdl, Nat.sub_self, pow_zero]
      omega⟩)
    obtain ⟨I, hI⟩ := domainIndices_some hmem
    unfold updateGhostPeriodic
    show (match domainIndices n dom with | none => none | some I => _) = _
    rw [hI]
    have hf : (List.range (n + 1)).filter (mrGhostMesh m S dom minL maxL h0 cfg).periodic = [] :=
      List.filter_eq_nil_iff.2 fun d _ => by simp [mrGhostMesh]
    simp only [hf]
    rfl
  · intro level h1 h2
    have h1 : m.all.minLevel - 1 ≤ level := h1
    have h2 : level ≤ m.all.maxLevel := h2
    refine bcReady_ok hs (by omega) g hgd hne (hdom level (by omega) (by omega)) (by omega) (.inl (by omega)) hB0 hB (fun d hd' => ?_) (fun _ => false) h0 r2
    have h6 : (b.refined (level - base)).hi d * 2 ^ (dom.level - level) = b.hi d * 2 ^ (dom.level - base) := by
      show b.hi d * 2 ^ (level - base) * 2 ^ (dom.level - level) = _
      rw [mul_assoc, ← pow_add, show level - base + (dom.level - level) = dom.level - base by omega]
    rw [h6]
    exact hhi d hd'

theorem ghostReady_adapted {cfg : MeshConfig} (hs : cfg.predictionOrder = 1) (hw : cfg.maxStencilWidth = 1) (g : GoodLeaves n cells dom minL maxL)
    (hgd : GoodDomain n dom minL maxL (cfg.maxStencilWidth + cfg.predictionOrder + 1)) (hne : minL ≠ maxL) (hd : BoxDomain n dom base b)
    (hdl : dom.level = maxL) (hbase : base ≤ minL - 3) {B : Int} (hB0 : 0 ≤ B) (hB : B + 11 * 2 ^ dom.level + 2 < INT_MAX)
    (hhi : ∀ d ≤ n, b.hi d * 2 ^ (dom.level - base) ≤ B) (h0 : K) {m : SubMeshes} {u : CA} (hm : mrMesh n cfg cells minL maxL = some (m, u)) {S : LCA}
    (hS : constructSubdomain n cells maxL = some S) :
    GhostReady n (mrGhostMesh m S dom minL maxL h0 cfg) (fun l => b.refined (l - base)) cfg.maxStencilWidth := by
  obtain ⟨S', s1, s2, s3, s4⟩ := constructSubdomain_spec g.wf g.between
  rw [hS] at s1
  obtain rfl : S = S' := by simpa using s1
  exact ghostReady_ok hs hw g hgd hne hd hdl hbase hB0 hB hhi h0 (mrMesh_ok g hgd hm) s2 s3 s4

end

end Samurai

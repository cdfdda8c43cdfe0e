import Verif.Lemmas.PeriodicMesh

namespace Samurai

/-- `renumbering` keeps the contents of the meshes and gives them the numbers of the reference mesh. -/
structure Renumbered (n : Nat) (m0 m : SubMeshes) : Prop where
  mem : (∀ l p, m.cells.Mem n l p ↔ m0.cells.Mem n l p) ∧ (∀ l p, m.ghosts.Mem n l p ↔ m0.ghosts.Mem n l p) ∧
    (∀ l p, m.proj.Mem n l p ↔ m0.proj.Mem n l p) ∧ (∀ l p, m.all.Mem n l p ↔ m0.all.Mem n l p)
  wf : m.cells.WF n ∧ m.ghosts.WF n ∧ m.proj.WF n ∧ m.all.WF n
  size : m.cells.maxSize = m0.cells.maxSize ∧ m.ghosts.maxSize = m0.ghosts.maxSize ∧ m.proj.maxSize = m0.proj.maxSize ∧
    m.all.maxSize = m0.all.maxSize
  leveled : m.cells.Leveled ∧ m.ghosts.Leveled ∧ m.proj.Leveled ∧ m.all.Leveled
  numbers : ((m.all.numbered n).map fun e => e.2.2) = (List.range m.all.nbCells).map (fun (k : Nat) => (k : Int))
  index : ∀ sub ∈ [m.cells, m.ghosts, m.proj], ∀ l yz x, sub.Mem n l (yz ++ [x]) →
    getIndex (sub.lca l) n yz x = getIndex (m.all.lca l) n yz x

theorem renumberSub_leveled {n : Nat} {c c' : CA} (hl : c.Leveled) (h2 : c'.maxSize = c.maxSize)
    (h6 : ∀ l ≤ c.maxSize, (c'.lca l).level = (c.lca l).level) : c'.Leveled := fun l h => by
  rw [h6 l (by omega)]; exact hl l (by omega)

theorem renumbering_spec {n : Nat} {m0 : SubMeshes} (hw : m0.cells.WF n ∧ m0.ghosts.WF n ∧ m0.proj.WF n ∧ m0.all.WF n)
    (hl : m0.cells.Leveled ∧ m0.ghosts.Leveled ∧ m0.proj.Leveled ∧ m0.all.Leveled)
    (hsub : (∀ l p, m0.cells.Mem n l p → m0.all.Mem n l p) ∧ (∀ l p, m0.ghosts.Mem n l p → m0.all.Mem n l p) ∧
      (∀ l p, m0.proj.Mem n l p → m0.all.Mem n l p)) : ∃ m, renumbering n m0 = some m ∧ Renumbered n m0 m := by
  obtain ⟨all, a1, a2, a3, a4, a5, a6⟩ := C08_levels n m0.all hw.2.2.2
  obtain ⟨c, c1, c2, c3, c6, c4, c5⟩ := renumberSub_spec a3 hw.1 (fun l p hp => (a4 l p).2 (hsub.1 l p hp))
  obtain ⟨g, g1, g2, g3, g6, g4, g5⟩ := renumberSub_spec a3 hw.2.1 (fun l p hp => (a4 l p).2 (hsub.2.1 l p hp))
  obtain ⟨q, q1, q2, q3, q6, q4, q5⟩ := renumberSub_spec a3 hw.2.2.1 (fun l p hp => (a4 l p).2 (hsub.2.2 l p hp))
  refine ⟨⟨c, g, q, all⟩, ?_, ⟨c4, g4, q4, a4⟩, ⟨c3, g3, q3, a3⟩, ⟨c2, g2, q2, a2⟩, ⟨renumberSub_leveled (n := n) hl.1 c2 c6,
    renumberSub_leveled (n := n) hl.2.1 g2 g6, renumberSub_leveled (n := n) hl.2.2.1 q2 q6, updateIndexCA_leveled hw.2.2.2 hl.2.2.2 a1⟩, ?_, ?_⟩
  · unfold renumbering
    rw [a1]
    simp only []
    rw [c1, g1, q1]
  · show ((all.numbered n).map fun e => e.2.2) = _
    rw [a6, a5]
  · intro sub hs l yz x hx
    simp only [List.mem_cons, List.not_mem_nil, or_false] at hs
    rcases hs with rfl | rfl | rfl
    · exact c5 l yz x ((c4 l _).1 hx)
    · exact g5 l yz x ((g4 l _).1 hx)
    · exact q5 l yz x ((q4 l _).1 hx)

/-- The base cells of a level and their periodic copies. -/
def PerBase (n : Nat) (cfg : MeshConfig) (cells : CA) (base : Nat) (b : Box) (P : Nat → Bool) (l : Nat) : List Int → Prop :=
  PerDirs n cfg.ghostWidth (b.refined (l - base)) (perDirs n P) (MRBase n cfg cells l)

/-- The sub-meshes of a mesh with periodic directions. -/
structure MROKPer (n : Nat) (cfg : MeshConfig) (cells : CA) (minL maxL base : Nat) (b : Box) (P : Nat → Bool) (m : SubMeshes) : Prop where
  cells_eq : m.cells = cells
  size : m.ghosts.maxSize = cells.maxSize ∧ m.proj.maxSize = cells.maxSize ∧ m.all.maxSize = cells.maxSize
  wf : m.ghosts.WF n ∧ m.proj.WF n ∧ m.all.WF n
  leveled : m.ghosts.Leveled ∧ m.proj.Leveled ∧ m.all.Leveled
  ghosts : ∀ l p, m.ghosts.Mem n l p ↔ ∃ q, cells.Mem n l q ∧ Near cfg.maxStencilWidth p q
  proj : minL ≠ maxL → ∀ l p, m.proj.Mem n l p ↔ MRGrow n cells minL (PerBase n cfg cells base b P) l p ∧ minL ≤ l + 1 ∧ CoveredBy n cells l p
  all : minL ≠ maxL → ∀ l p, m.all.Mem n l p ↔ MRGrow n cells minL (PerBase n cfg cells base b P) l p
  flat : minL = maxL → (∀ l p, m.all.Mem n l p ↔ m.ghosts.Mem n l p) ∧ ∀ l p, ¬ m.proj.Mem n l p

section
variable {n : Nat} {cfg : MeshConfig} {cells : CA} {minL maxL base : Nat} {b : Box} {P : Nat → Bool} {margin : Nat}

theorem ghostWidth_le (cfg : MeshConfig) : cfg.ghostWidth ≤ cfg.maxStencilWidth + cfg.predictionOrder := by
  unfold MeshConfig.ghostWidth
  exact Nat.max_le.2 ⟨by omega, by omega⟩

theorem refined_hi {l : Nat} (h1 : base ≤ l) (h2 : l ≤ maxL) (d : Nat) :
    (b.refined (l - base)).hi d * 2 ^ (maxL - l) = b.hi d * 2 ^ (maxL - base) := by
  show b.hi d * 2 ^ (l - base) * 2 ^ (maxL - l) = _
  rw [mul_assoc, ← pow_add, show l - base + (maxL - l) = maxL - base by omega]

theorem LeavesInBox.below (h : LeavesInBox n cells minL maxL base b margin) {D : Int} (hD : ∀ d ≤ n, b.hi d * 2 ^ (maxL - base) ≤ D) :
    cells.Below n maxL D := by
  intro l p hp x hx
  have hb := h.between l p hp
  have hc := h.coarse
  have hi := inBox_iff.1 (h.inside l p hp)
  obtain ⟨d, hd, rfl⟩ := (mem_iff_toPt hi.1).1 hx
  have h1 := (hi.2 d hd).2
  have h2 := Int.mul_lt_mul_of_pos_right h1 (pow_two_pos (maxL - l))
  rw [refined_hi (by omega) hb.2] at h2
  have := hD d hd
  omega

theorem LeavesInBox.proper (h : LeavesInBox n cells minL maxL base b margin) : cells.Proper n minL maxL margin := by
  obtain ⟨D, d1, d2, d3⟩ := h.range
  exact ⟨h.wf, h.leveled, h.between, h.size, D, d1, d2, h.below d3⟩

theorem mrBase_length (hw : cells.WF n) {l : Nat} {p : List Int} (h : MRBase n cfg cells l p) : p.length = n + 1 := by
  rcases h with ⟨q, h1, h2⟩ | ⟨q, ⟨r, h1, h2⟩, _, h3⟩ | ⟨q, h1, h2⟩
  · rw [h2.length_eq, mem_length h1.2]
  · rw [h3.length_eq, List.length_map, h2.length_eq, mem_length h1.2]
  · rw [h2.length_eq, List.length_map, mem_length h1.2]

theorem mrBase_level (hb : cells.Between n minL maxL) {l : Nat} {p : List Int} (h : MRBase n cfg cells l p) : minL ≤ l + 2 ∧ l ≤ maxL := by
  rcases h with ⟨q, h1, h2⟩ | ⟨q, ⟨r, h1, h2⟩, _, h3⟩ | ⟨q, h1, h2⟩ <;> have := hb _ _ h1 <;> omega

theorem covered_child_below {M : Nat} {D : Int} (hb : cells.Below n M D) (hM : ∀ l p, cells.Mem n l p → l ≤ M) {l : Nat} {p : List Int}
    (hc : CoveredBy n cells l (p.map fun y => shr y 1)) : l + 1 ≤ M ∧ ∀ x ∈ p, x * 2 ^ (M - (l + 1)) < D + 2 ^ M := by
  have hl : l + 1 ≤ M := by
    obtain ⟨l', q, h1, h2, _⟩ := hc
    have := hM l' q h2
    omega
  refine ⟨hl, fun x hx => ?_⟩
  have h1 := coveredBy_below hb hM hc (shr x 1) (List.mem_map.2 ⟨x, hx, rfl⟩)
  have h2 : x < shl (shr x 1 + 1) 1 := lt_shl_shr_succ x 1
  unfold shl at h2
  have h3 := pow_two_pos (M - (l + 1))
  have h4 : x * 2 ^ (M - (l + 1)) ≤ ((shr x 1 + 1) * 2 ^ 1) * 2 ^ (M - (l + 1)) :=
    Int.mul_le_mul_of_nonneg_right (by omega) (le_of_lt h3)
  rw [show ((shr x 1 + 1) * 2 ^ 1) * 2 ^ (M - (l + 1)) = shr x 1 * 2 ^ (M - (l + 1) + 1) + 2 ^ (M - (l + 1) + 1) by
    rw [pow_succ]; ring, show M - (l + 1) + 1 = M - l by omega] at h4
  have h5 : (2 : Int) ^ (M - l) ≤ 2 ^ M := pow_mono_two (by omega)
  omega

theorem LeavesInBox.topOf (h : LeavesInBox n cells minL maxL base b margin) {D : Int} (d3 : ∀ d ≤ n, b.hi d * 2 ^ (maxL - base) ≤ D) :
    cells.Below n maxL D ∧
    (∀ l, base ≤ l → l ≤ maxL → ∀ d ≤ n, ((b.refined (l - base)).hi d + cfg.ghostWidth) * 2 ^ (maxL - l) <
      D + ((cfg.maxStencilWidth : Int) + cfg.predictionOrder + 1) * 2 ^ maxL) ∧
    ((∀ d ≤ n, b.lo d < b.hi d) → ∀ l p, MRGrow n cells minL (PerBase n cfg cells base b P) l p → ∀ x ∈ p, x * 2 ^ (maxL - l) <
      D + ((cfg.maxStencilWidth : Int) + cfg.predictionOrder + 1) * 2 ^ maxL) := by
  have hbl := h.below d3
  have hM : ∀ l p, cells.Mem n l p → l ≤ maxL := fun l p hp => (h.between l p hp).2
  let K : Int := D + ((cfg.maxStencilWidth : Int) + cfg.predictionOrder + 1) * 2 ^ maxL
  have hpos := pow_two_pos maxL
  have hgwK : (cfg.ghostWidth : Int) * 2 ^ maxL < ((cfg.maxStencilWidth : Int) + cfg.predictionOrder + 1) * 2 ^ maxL :=
    Int.mul_lt_mul_of_pos_right (by have := ghostWidth_le cfg; omega) hpos
  have hhi : ∀ l, base ≤ l → l ≤ maxL → ∀ d ≤ n, ((b.refined (l - base)).hi d + cfg.ghostWidth) * 2 ^ (maxL - l) < K := by
    intro l h1 h2 d hd
    have k1 := refined_hi (b := b) h1 h2 d
    have k2 := d3 d hd
    have k3 : (cfg.ghostWidth : Int) * 2 ^ (maxL - l) ≤ cfg.ghostWidth * 2 ^ maxL := Int.mul_le_mul_of_nonneg_left (pow_mono_two (by omega)) (by omega)
    rw [add_mul, k1]
    show _ < D + _
    omega
  have hbase : ∀ l p, MRBase n cfg cells l p → ∀ x ∈ p, x * 2 ^ (maxL - l) < K := by
    intro l p hp
    refine (mrAll_below hbl hM (minL := minL) ?_).2
    exact mrGrow_base.1 (by cases l with | zero => exact hp | succ l => exact Or.inl hp)
  refine ⟨hbl, hhi, fun hb0 => ?_⟩
  have hper : ∀ l p, PerBase n cfg cells base b P l p → ∀ x ∈ p, x * 2 ^ (maxL - l) < K := by
    intro l p hp
    by_cases hl : base ≤ l ∧ l ≤ maxL
    · refine (perDirs_bound (Q := fun x => x * 2 ^ (maxL - l) < K) (fun x y h1 h2 => ?_) (fun p hp => mrBase_length h.wf hp) (hbase l) (perDirs n P)
        (fun d hd => (mem_perDirs.1 hd).1) (fun d hd => ⟨?_, hhi l hl.1 hl.2 d hd⟩)).2 p hp
      · have := Int.mul_le_mul_of_nonneg_right h1 (le_of_lt (pow_two_pos (maxL - l)))
        show x * 2 ^ (maxL - l) < K
        omega
      · exact Int.mul_lt_mul_of_pos_right (hb0 d hd) (pow_two_pos _)
    · exact absurd hp (perDirs_empty (fun q hq => hl (by have := mrBase_level h.between hq; have := h.coarse; omega)) p)
  intro l p hg
  cases l with
  | zero => exact hper 0 p hg
  | succ l =>
    rcases hg with hg | ⟨_, hm, hc⟩
    · exact hper _ p hg
    · intro x hx
      have k1 := (covered_child_below hbl hM hc).2 x hx
      have k2 : 0 ≤ ((cfg.maxStencilWidth : Int) + cfg.predictionOrder) * 2 ^ maxL := Int.mul_nonneg (by omega) (le_of_lt hpos)
      have k3 : K = D + ((cfg.maxStencilWidth : Int) + cfg.predictionOrder) * 2 ^ maxL + 2 ^ maxL := by
        show D + _ = _
        ring
      show _ < K
      omega

theorem LeavesInBox.top (h : LeavesInBox n cells minL maxL base b (cfg.maxStencilWidth + cfg.predictionOrder + 1)) : ∃ D : Int, 0 ≤ D ∧
    D + ((cfg.maxStencilWidth : Int) + cfg.predictionOrder + 1) * 2 ^ maxL + 2 < INT_MAX ∧ cells.Below n maxL D ∧
    (∀ l, base ≤ l → l ≤ maxL → ∀ d ≤ n, ((b.refined (l - base)).hi d + cfg.ghostWidth) * 2 ^ (maxL - l) <
      D + ((cfg.maxStencilWidth : Int) + cfg.predictionOrder + 1) * 2 ^ maxL) ∧
    ((∀ d ≤ n, b.lo d < b.hi d) → ∀ l p, MRGrow n cells minL (PerBase n cfg cells base b P) l p → ∀ x ∈ p, x * 2 ^ (maxL - l) <
      D + ((cfg.maxStencilWidth : Int) + cfg.predictionOrder + 1) * 2 ^ maxL) := by
  obtain ⟨D, d1, d2, d3⟩ := h.range
  push_cast at d2
  exact ⟨D, d1, d2, h.topOf d3⟩

theorem mrUpdateSubMeshPeriodic_spec {dom : LCA} {u : CA} (h : LeavesInBox n cells minL maxL base b (cfg.maxStencilWidth + cfg.predictionOrder + 1))
    (hdom : BoxDomain n dom base b) (hdl : maxL ≤ dom.level) (hgw : 1 ≤ cfg.ghostWidth) (hu : UnionOK n cells u minL) :
    ∃ m, mrUpdateSubMeshPeriodic n cfg dom P cells u minL maxL = some m ∧ MROKPer n cfg cells minL maxL base b P m := by
  obtain ⟨D, d1, d2, hbl, hhi, hgrow⟩ := h.top (P := P)
  have hM : ∀ l p, cells.Mem n l p → l ≤ maxL := fun l p hp => (h.between l p hp).2
  obtain ⟨cl0, cl1, c1, c2, p1, p3⟩ := mrParents_spec (cfg := cfg) h.wf h.leveled h.between h.size d1 d2 hbl hu
  obtain ⟨g1, g2, g3, g4, g5⟩ := c2.array
  obtain ⟨e1, e2, e3, e4⟩ := empty_spec n cells.maxSize
  have e5 : ∀ l p, ¬ (CA.empty n cells.maxSize).Mem n l p := fun l p h => e4 l p h.2
  unfold mrUpdateSubMeshPeriodic
  rw [c1]
  simp only []
  by_cases hne : maxL = minL
  · rw [if_neg (by simpa using hne)]
    refine ⟨_, rfl, rfl, ⟨g1, e1, g1⟩, ⟨g2, e2, g2⟩, ⟨g3, e3, g3⟩, g5, fun h => absurd hne.symm h, fun h => absurd hne.symm h,
      fun _ => ⟨fun _ _ => Iff.rfl, e5⟩⟩
  rw [if_pos hne, p1]
  simp only []
  let K : Int := D + ((cfg.maxStencilWidth : Int) + cfg.predictionOrder + 1) * 2 ^ maxL
  have hpos := pow_two_pos maxL
  have hmul0 : (0 : Int) ≤ ((cfg.maxStencilWidth : Int) + cfg.predictionOrder + 1) * 2 ^ maxL :=
    Int.mul_nonneg (by omega) (le_of_lt hpos)
  have hK0 : 0 ≤ K := Int.add_nonneg d1 hmul0
  obtain ⟨a1, a2, a3, a4, a5⟩ := p3.array
  have hco := h.coarse
  have hlev : ∀ l ∈ List.range' (CA.ofCL cl1).minLevel ((CA.ofCL cl1).maxLevel + 1 - (CA.ofCL cl1).minLevel), base ≤ l ∧ l ≤ maxL := by
    intro l hl
    rw [List.mem_range'_1] at hl
    rcases (CA.ofCL cl1).level_cases with ⟨_, h1, h2⟩ | ⟨h1, h2, h3, h4, _⟩
    · omega
    · obtain ⟨p, hp⟩ := CA.some_mem a2 (by omega) h3
      obtain ⟨q, hq⟩ := CA.some_mem a2 h2 h4
      have k1 := mrBase_level h.between ((a4 _ _).1 hp.2)
      have k2 := mrBase_level h.between ((a4 _ _).1 hq.2)
      omega
  have hsm : ∀ {l : Nat} {x : Int}, x * 2 ^ (maxL - l) < K → x < K := by
    intro l x hx
    exact small_of_below (p := [x]) hK0 (by simpa using hx) x (by simp)
  have hbase : ∀ l p, MRBase n cfg cells l p → ∀ x ∈ p, x * 2 ^ (maxL - l) < K := by
    intro l p hp
    refine (mrAll_below hbl hM (minL := minL) ?_).2
    exact mrGrow_base.1 (by cases l with | zero => exact hp | succ l => exact Or.inl hp)
  obtain ⟨I, hI, _⟩ := level_box hdom
  obtain ⟨s, s1, s2⟩ := mrPeriodicLevels_spec (P := P) (bx := fun l => b.refined (l - base)) (cfg := cfg) (m := cells.maxSize) hI (B := K) d2 hgw
    (List.range' (CA.ofCL cl1).minLevel ((CA.ofCL cl1).maxLevel + 1 - (CA.ofCL cl1).minLevel)) List.nodup_range'
    (s := (cl1, CA.ofCL cl1)) (S := MRBase n cfg cells) ⟨p3, a1, a2, a3, a4⟩ (by
      intro l hl
      obtain ⟨k1, k2⟩ := hlev l hl
      refine ⟨by have := h.size; omega, hdom.finer k1 (by omega), fun d hd => ?_, fun p hp => mrBase_length h.wf hp, fun p hp x hx => hsm (hbase l p hp x hx)⟩
      exact le_of_lt (hsm (hhi l k1 k2 d hd)))
  have s3 : PerState n cells.maxSize (PerBase n cfg cells base b P) s := by
    refine perState_congr s2 fun l p => ?_
    split
    · exact Iff.rfl
    · rename_i hl
      have hno : ∀ p, ¬ MRBase n cfg cells l p := by
        intro p hp
        have := CA.mem_levels a2 ((a5 l p).2 hp)
        exact hl (List.mem_range'_1.2 ⟨by omega, by omega⟩)
      exact ⟨fun h => absurd h (perDirs_empty hno p), fun h => absurd h (hno p)⟩
  have s4 : mrPeriodicGhosts n cfg dom P (cl1, CA.ofCL cl1) = some s := by
    unfold mrPeriodicGhosts
    rw [hI]
    exact s1
  rw [s4]
  simp only []
  obtain ⟨cl2, all, proj, q1, ⟨q2, q3, q4, q5⟩, q6, q7, q8, q9⟩ := mrProj_spec h.wf hu (K := K) d2
    (fun l p hg x hx => hsm (hgrow hdom.pos l p hg x hx)) (by
      intro l hlm p hp x hx
      have h1 := (hu.mem l p).1 ⟨by rw [hu.size]; exact hlm, hp⟩
      have := small_of_below d1 (coveredBy_below hbl hM h1.2) x hx
      show x < D + _
      omega) s3.hist s3.size s3.wf s3.leveled s3.mem
  rw [q1]
  exact ⟨_, rfl, rfl, ⟨g1, q6, q2⟩, ⟨g2, q7, q3⟩, ⟨g3, q8, q4⟩, g5, fun _ => q9, fun _ => q5, fun h => absurd h.symm hne⟩

/-- The meshes of a multiresolution mesh with periodic directions. -/
structure PeriodicMeshOK (n : Nat) (cfg : MeshConfig) (cells : CA) (minL maxL base : Nat) (b : Box) (P : Nat → Bool) (m : SubMeshes) (u : CA) : Prop where
  union : UnionOK n cells u minL
  content : ∃ m0, MROKPer n cfg cells minL maxL base b P m0 ∧ Renumbered n m0 m

theorem mrGrow_sub {X : Nat → List Int → Prop} {l : Nat} {p : List Int} (h : X l p) : MRGrow n cells minL X l p := by
  cases l with
  | zero => exact h
  | succ l => exact Or.inl h

theorem MROKPer.ghosts_all {m : SubMeshes} (h : MROKPer n cfg cells minL maxL base b P m) {l : Nat} {p : List Int} (hp : m.ghosts.Mem n l p) :
    m.all.Mem n l p := by
  by_cases heq : minL = maxL
  · exact ((h.flat heq).1 l p).2 hp
  · exact (h.all heq l p).2 (mrGrow_sub (perDirs_sub (Or.inl ((h.ghosts l p).1 hp))))

theorem mrMeshPeriodic_spec {dom : LCA} (h : LeavesInBox n cells minL maxL base b (cfg.maxStencilWidth + cfg.predictionOrder + 1))
    (hdom : BoxDomain n dom base b) (hdl : maxL ≤ dom.level) (hgw : 1 ≤ cfg.ghostWidth) :
    ∃ m u, mrMeshPeriodic n cfg dom P cells minL maxL = some (m, u) ∧ PeriodicMeshOK n cfg cells minL maxL base b P m u := by
  obtain ⟨u, u1, u2⟩ := h.proper.union
  obtain ⟨m0, m1, m2⟩ := mrUpdateSubMeshPeriodic_spec (cfg := cfg) (P := P) h hdom hdl hgw u2
  obtain ⟨m, r1, r2⟩ := renumbering_spec (n := n) (m0 := m0) ⟨by rw [m2.cells_eq]; exact h.wf, m2.wf⟩ ⟨by rw [m2.cells_eq]; exact h.leveled, m2.leveled⟩
    ⟨fun l p hp => m2.ghosts_all ((m2.ghosts l p).2 ⟨p, by rw [← m2.cells_eq]; exact hp, near_refl _ _⟩), fun l p => m2.ghosts_all, fun l p hp => by
      by_cases heq : minL = maxL
      · exact absurd hp ((m2.flat heq).2 l p)
      · exact (m2.all heq l p).2 ((m2.proj heq l p).1 hp).1⟩
  refine ⟨m, u, ?_, u2, m0, m2, r2⟩
  unfold mrMeshPeriodic
  rw [u1]
  simp only []
  rw [m1]
  simp only []
  rw [r1]

theorem covered_inBox (h : LeavesInBox n cells minL maxL base b margin) {l : Nat} (hl : base ≤ l) {p : List Int} (hc : CoveredBy n cells l p) :
    InBox (b.refined (l - base)) n p := by
  obtain ⟨l', q, h1, h2, h3⟩ := hc
  have := h.inside l' q h2
  rw [show l' - base = l - base + (l' - l) by omega, ← Box.refined_refined] at this
  exact box_of_desc h3 this

theorem near_toPt {w : Nat} {p q : List Int} (h : Near w p q) (hq : q.length = n + 1) {d : Nat} (hd : d ≤ n) :
    toPt p d ≤ toPt q d + w ∧ toPt q d ≤ toPt p d + w := by
  have := (near_iff_toPt (n := n) (h.length_eq.trans hq) hq).1 h d hd
  exact this

theorem PeriodicMeshOK.hasImages {m : SubMeshes} {u : CA} (g : PeriodicMeshOK n cfg cells minL maxL base b P m u)
    (h : LeavesInBox n cells minL maxL base b margin) (hpos : ∀ d ≤ n, b.lo d < b.hi d)
    (hflat : minL = maxL → ∀ p, InBox (b.refined (minL - base)) n p → cells.Mem n minL p) {l : Nat} (hbl : base ≤ l)
    (hw : ∀ d ≤ n, P d = true → (cfg.ghostWidth : Int) ≤ (b.refined (l - base)).hi d - (b.refined (l - base)).lo d) :
    HasImages n P cfg.ghostWidth (b.refined (l - base)) (m.all.Mem n l) := by
  obtain ⟨m0, m1, m2⟩ := g.content
  have hpos' : ∀ d ≤ n, (b.refined (l - base)).lo d < (b.refined (l - base)).hi d := fun d hd =>
    Int.mul_lt_mul_of_pos_right (hpos d hd) (pow_two_pos _)
  by_cases heq : minL = maxL
  · have hmem : ∀ p, m.all.Mem n l p ↔ l = minL ∧ AroundBox n cfg.maxStencilWidth (b.refined (l - base)) p := by
      intro p
      rw [m2.mem.2.2.2, (m1.flat heq).1, m1.ghosts]
      constructor
      · rintro ⟨q, q1, q2⟩
        have hl := h.between l q q1
        have hq := inBox_iff.1 (h.inside l q q1)
        refine ⟨by omega, q2.length_eq.trans hq.1, fun d hd => ?_⟩
        have := near_toPt q2 hq.1 hd
        have := hq.2 d hd
        omega
      · rintro ⟨rfl, hp, ha⟩
        let bx := b.refined (l - base)
        refine ⟨ofPt (n + 1) fun d => max (bx.lo d) (min (toPt p d) (bx.hi d - 1)), hflat heq _ (inBox_iff.2 ⟨ofPt_length _ _, fun d hd => ?_⟩),
          (near_iff_toPt hp (ofPt_length _ _)).2 fun d hd => ?_⟩
        · rw [toPt_ofPt _ (by omega)]
          have := hpos' d hd
          show bx.lo d ≤ _ ∧ _ < bx.hi d
          have h3 : bx.lo d < bx.hi d := this
          omega
        · rw [toPt_ofPt _ (by omega)]
          have h1 : bx.lo d < bx.hi d := hpos' d hd
          have h2 : bx.lo d - cfg.maxStencilWidth ≤ toPt p d ∧ toPt p d < bx.hi d + cfg.maxStencilWidth := ha d hd
          omega
    intro p hp ha d hd hP
    obtain ⟨rfl, hp1, hp2⟩ := (hmem p).1 hp
    have key : ∀ t : Int, (b.refined (l - base)).lo d ≤ toPt p d + t → toPt p d + t < (b.refined (l - base)).hi d →
        m.all.Mem n l (shiftPoint (alongDir d t) n p) := by
      intro t t1 t2
      refine (hmem _).2 ⟨rfl, by rw [shift_length]; exact hp1, fun k hk => ?_⟩
      rw [toPt_along hp1 hk]
      split
      · subst k; omega
      · exact hp2 k hk
    have h1 := ha.2 d hd
    have h2 := hw d hd hP
    exact ⟨fun h => key _ (by omega) (by omega), fun h => key _ (by omega) (by omega)⟩
  · have hX := perDirs_hasImages (n := n) (P := P) (S := MRBase n cfg cells l) hpos' hw
    intro p hp ha d hd hP
    have hup : ∀ q, PerBase n cfg cells base b P l q → m.all.Mem n l q := fun q hq =>
      (m2.mem.2.2.2 l q).2 ((m1.all heq l q).2 (mrGrow_sub hq))
    have hp' := (m1.all heq l p).1 ((m2.mem.2.2.2 l p).1 hp)
    have hcase : PerBase n cfg cells base b P l p ∨ InBox (b.refined (l - base)) n p := by
      cases l with
      | zero => exact .inl hp'
      | succ l =>
        rcases hp' with h1 | ⟨_, h2, h3⟩
        · exact .inl h1
        · refine .inr ?_
          have hll : base ≤ l := by have := h.coarse; omega
          have := desc_in_box (anc_iff.2 rfl : Anc 1 (p.map fun y => shr y 1) p) (covered_inBox h hll h3)
          rwa [Box.refined_refined, show l - base + 1 = l + 1 - base by omega] at this
    rcases hcase with h1 | h1
    · have := hX p h1 ha d hd hP
      exact ⟨fun h => hup _ (this.1 h), fun h => hup _ (this.2 h)⟩
    · have := (inBox_iff.1 h1).2 d hd
      exact ⟨fun h => absurd h (by omega), fun h => absurd h (by omega)⟩

theorem PeriodicMeshOK.ready {m : SubMeshes} {u : CA} (g : PeriodicMeshOK n cfg cells minL maxL base b P m u)
    (h : LeavesInBox n cells minL maxL base b (cfg.maxStencilWidth + cfg.predictionOrder + 1)) (hpos : ∀ d ≤ n, b.lo d < b.hi d) (hgw : 1 ≤ cfg.ghostWidth)
    (hflat : minL = maxL → ∀ p, InBox (b.refined (minL - base)) n p → cells.Mem n minL p) {l : Nat} (hbl : base ≤ l) (hlm : l ≤ maxL)
    (hw : ∀ d ≤ n, P d = true → (cfg.ghostWidth : Int) ≤ (b.refined (l - base)).hi d - (b.refined (l - base)).lo d) :
    PeriodicReady n m.all l cfg.ghostWidth (b.refined (l - base)) P := by
  obtain ⟨m0, m1, m2⟩ := g.content
  obtain ⟨D, d1, d2, d3, d4, d5⟩ := h.top (P := P)
  have hsz : m.all.maxSize = cells.maxSize := m2.size.2.2.2.trans m1.size.2.2
  have hp2 := pow_two_pos maxL
  let K : Int := D + ((cfg.maxStencilWidth : Int) + cfg.predictionOrder + 1) * 2 ^ maxL
  have hK0 : 0 ≤ K := Int.add_nonneg d1 (Int.mul_nonneg (by omega) (le_of_lt hp2))
  have hsm : ∀ {l : Nat} {x : Int}, x * 2 ^ (maxL - l) < K → x < K := by
    intro l x hx
    exact small_of_below (p := [x]) hK0 (by simpa using hx) x (by simp)
  refine ⟨m2.wf.2.2.2, m2.leveled.2.2.2, by have := h.size; omega, ?_, ⟨K, d2, ?_, fun d hd => le_of_lt (hsm (d4 l hbl hlm d hd))⟩,
    fun d hd => Int.mul_lt_mul_of_pos_right (hpos d hd) (pow_two_pos _), ⟨hgw, hw⟩, g.hasImages h hpos hflat hbl hw⟩
  · unfold CA.NumbersDiffer
    rw [m2.numbers]
    exact List.nodup_range.map fun a b h => by exact_mod_cast h
  · intro p hp x hx
    refine hsm (l := l) (d5 hpos l p ?_ x hx)
    have hp' := (m2.mem.2.2.2 l p).1 ⟨by have := h.size; omega, hp⟩
    by_cases heq : minL = maxL
    · exact mrGrow_sub (perDirs_sub (Or.inl ((m1.ghosts l p).1 (((m1.flat heq).1 l p).1 hp'))))
    · exact (m1.all heq l p).1 hp'

end
end Samurai

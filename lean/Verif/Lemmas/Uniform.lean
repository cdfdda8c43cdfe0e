import Verif.Lemmas.DetailStep

namespace Samurai

section
variable {K : Type} [Field K]

/-- A step that says the mesh did not change leaves it as it was. -/
theorem updateFieldMr_stop {n : Nat} {cfg : MeshConfig} {minL maxL : Nat} {tag : Int → BitVec 32} {m m' : SubMeshes} {u u' : CA} {f f' : CellField K}
    (h : updateFieldMr n cfg minL maxL tag m u f = some (true, m', u', f')) : m' = m := by
  unfold updateFieldMr at h
  split at h
  · exact absurd h (by simp)
  · split at h
    · exact absurd h (by simp)
    · split at h
      · simp only [Option.some.injEq, Prod.mk.injEq] at h
        exact h.2.1.symm
      · split at h
        · exact absurd h (by simp)
        · exact absurd h (by simp)

end

section
variable {K : Type} [Field K] [LinearOrder K] [IsStrictOrderedRing K]
variable {n : Nat} {cfg : MeshConfig} {dom : LCA} {minL maxL : Nat} {m : SubMeshes} {x : CA}

theorem threshold_pos {eps : K} (he : 0 < eps) (l : Nat) : 0 < threshold n maxL eps l := by
  unfold threshold
  positivity

/-- One step on a uniform field. -/
theorem uniform_step (hn : n ≤ 1) {base : Nat} {b : Box} (st : BoxSetup n cfg dom minL maxL base b) (h : AdaptInv n cfg dom minL maxL m x)
    (hd : GoodDomain n dom minL maxL (cfg.maxStencilWidth + cfg.predictionOrder + 1 + 3)) (hmin : 1 ≤ minL) (hlt : minL < maxL)
    (hsh : (n + 1) * (maxL - minL) < 31) (h0 : K) (bcs : List (BcCond K))
    (hbc : ∀ c ∈ bcs, GoodBc n dom cfg.maxStencilWidth c) (hcov : CoversBoundary n dom bcs) {k : K} (hk : ∀ c ∈ bcs, c.HoldsFor k) (f : CellField K)
    (hf : ∀ l p, m.cells.Mem n l p → f l p = k) {eps factor : K} (he : 0 < eps) (hfa : 0 < factor) {ite : Nat} (hite : ite ≤ maxL - minL)
    (hlev : ∀ l p, m.cells.Mem n l p → l ≤ maxL - ite) :
    ∃ stop m' x' f', adaptStep n cfg 1 minL maxL false dom h0 bcs eps factor ite m x f = some (stop, m', x', f') ∧
      AdaptInv n cfg dom minL maxL m' x' ∧ (∀ l p, m'.cells.Mem n l p → f' l p = k) ∧
      (∀ l p, m'.cells.Mem n l p → l ≤ max minL (maxL - (ite + 1))) ∧ (stop = true → ∀ l p, m'.cells.Mem n l p → l ≤ minL) := by
  have hgd : GoodDomain n dom minL maxL (cfg.maxStencilWidth + cfg.predictionOrder + 1) := hd.mono (by omega)
  obtain ⟨u, e1, e2, e3⟩ := uniform_values hn st h hgd (by omega) h0 bcs hbc hcov hk f hf
  have ho : 1 ≤ cfg.predictionOrder := by rw [st.order]
  obtain ⟨dt, d1, d2, d3⟩ := adaptStep_eq (by omega : n ≤ 2) h hd hlt ho hsh e1 false eps factor ite
  obtain ⟨c0, hc⟩ := h.mesh
  have hzero : ∀ l p, minL ≤ l → m.all.Mem n l p → fieldAt n m.all dt l p = 0 := by
    intro l p hl hp
    by_cases hh : HasDetail n m.cells maxL ite l p
    · rw [(d2 l p hh).2]
      exact uniform_details hn st h hlt e3 hh hl
    · exact d3 l p hp hh
  have hquiet : ∀ l p, m.cells.Mem n l p → (detailMasks n maxL eps factor m.all dt).large l p = false := by
    intro l p hp
    have hb := h.leaves.between l p hp
    by_contra hl
    rw [Bool.not_eq_false] at hl
    have := (mask_large hsh hb.1 p).1 hl
    rw [hzero l p hb.1 (hc.cells_all hp), abs_zero] at this
    exact absurd this (not_lt.2 (le_of_lt (mul_pos hfa (threshold_pos he l))))
  obtain ⟨stop, m', x', f', k1, k2, k3⟩ := quiet_inv h (detailMasks n maxL eps factor m.all dt) (fieldAt n m.all u) hd hmin hlt hite hquiet
  obtain ⟨t, b', m2, x2, f2, r1, r2, r3, r4, r5, r6, r7, r8, r9⟩ := harten_spec h hd hmin (by omega) hite false (detailMasks n maxL eps factor m.all dt) (fieldAt n m.all u)
  rw [k1] at r4
  simp only [Option.some.injEq, Prod.mk.injEq] at r4
  obtain ⟨rfl, rfl, rfl, rfl⟩ := r4
  obtain ⟨b3, m3, x3, f3, s1, s2, s3, s4, s5⟩ := updateFieldMr_spec (cfg := cfg) (tag := tagArray n m.all t) (u := x) (by omega : minL ≤ maxL) (h.proper hd (by omega))
    h.leaves.noOverlap (fieldAt n m.all u)
  rw [r5] at s1
  simp only [Option.some.injEq, Prod.mk.injEq] at s1
  obtain ⟨rfl, rfl, rfl, rfl⟩ := s1
  have tr := s4 r7
  -- a finest leaf above the minimum level is coarsened
  have gone : ∀ l p, m.cells.Mem n l p → minL < l → (∀ q, ¬ m.cells.Mem n (l + 1) q) → ¬ m'.cells.Mem n l p := by
    intro l p hp hl hno hp'
    obtain ⟨L, rfl⟩ : ∃ L, l = L + 1 := ⟨l - 1, by omega⟩
    have hfam : ∀ c, Anc 1 (parentOf p) c → m.cells.Mem n (L + 1) c := by
      intro c hcp
      rcases h.leaves.siblings hd.whole hl hp (anc_one.1 hcp) with h1 | ⟨c', h1, -⟩
      · exact h1
      · exact absurd h1 (hno c')
    have hall : ∀ c, Anc 1 (parentOf p) c → m.all.Mem n (L + 1) c := fun c hcp => hc.cells_all (hfam c hcp)
    have hpar : m.all.Mem n L (parentOf p) := hc.parent' (by omega) h.leaves.noOverlap (l := L + 1) (by omega) hp
    have := k3 L (parentOf p) (by omega) (hlev _ _ hp) hfam (fun c hcp _ => by
        rw [mask_small hsh (by omega), hzero _ c (by omega) (hall c hcp), abs_zero]
        exact threshold_pos he _) (by
        by_contra hlp
        rw [Bool.not_eq_false] at hlp
        have := (mask_parent hsh (by omega) _).1 hlp
        rw [hzero L _ (by omega) hpar, abs_zero] at this
        refine absurd this (not_lt.2 (le_of_lt ?_))
        have := threshold_pos (n := n) (maxL := maxL) he (L + 1)
        positivity) fun c d e _ _ _ he' => hno e he'
    have := (r7 L (parentOf p) (L + 1) p this hp' (by omega) (by rw [show L + 1 - L = 1 by omega]; exact anc_one.2 rfl)).1
    omega
  refine ⟨stop, m', x', f', d1.trans k1, r9 (by omega) rfl, fun l p hp => ?_, fun l p hp => ?_, fun hs l p hp => ?_⟩
  · rcases k2 l p hp with h1 | ⟨c, h1, h2⟩
    · rw [tr.kept l p h1 hp]
      exact e2 l p h1
    · have hb := r6 l p hp
      have hb' := h.leaves.between _ _ h2
      have hpar : m.all.Mem n l p := by
        have := hc.parent' (by omega) h.leaves.noOverlap (l := l + 1) (by omega) h2
        rwa [anc_one.1 h1] at this
      have hbox : InBox (b.refined (l - base)) n p := by
        have h3 := st.coarse
        have h4 := st.level
        exact leaf_inBox h.leaves (st.box.finer (by omega) (by omega)) (by omega) h2 (by omega) (by rw [show l + 1 - l = 1 by omega]; exact h1)
      rw [tr.coarse l p c hp h2 h1, project_mean n (by omega) _ _ (mem_length hp.2)]
      have : ((childrenOf p).map fun q => fieldAt n m.all u (l + 1) q) = (childrenOf p).map fun _ => k := by
        refine List.map_congr_left fun q hq => ?_
        have hqp : Anc 1 p q := anc_one.2 (mem_childrenOf.1 hq).symm
        refine e3 (l + 1) q ?_ (by omega) ⟨q, ?_, near_refl _ _⟩
        · exact (leafParent_reads (level := l) h hlt ⟨c, h2, anc_one.1 h1⟩).2.1 q (anc_one.1 hqp)
        · have h3 := st.coarse
          have := desc_in_box hqp hbox
          rwa [Box.refined_refined, show l - base + 1 = l + 1 - base by omega] at this
      rw [this]
      have h5 := mean_const (n := n) k (l := l) (mem_length hp.2)
      unfold MeanOfChildren at h5
      rw [← h5, ← mul_assoc, ← mul_pow]
      norm_num
  · have hb := r6 l p hp
    by_contra hcon
    rw [Nat.max_def] at hcon
    have hl1 : minL < l := by split at hcon <;> omega
    have hl2 : maxL - ite ≤ l := by split at hcon <;> omega
    rcases k2 l p hp with h1 | ⟨c, h1, h2⟩
    · refine gone l p h1 hl1 (fun q hq => ?_) hp
      have := hlev _ _ hq
      omega
    · have := hlev _ _ h2
      omega
  · rw [hs] at r5
    obtain rfl := updateFieldMr_stop r5
    have key : ∀ j l p, maxL - l ≤ j → m'.cells.Mem n l p → l ≤ minL := by
      intro j
      induction j with
      | zero =>
        intro l p hj hp
        by_contra hl
        refine gone l p hp (by omega) (fun q hq => ?_) hp
        have := h.leaves.between _ _ hq
        omega
      | succ j ih =>
        intro l p hj hp
        by_contra hl
        refine gone l p hp (by omega) (fun q hq => ?_) hp
        have := h.leaves.between _ _ hq
        have := ih _ q (by omega) hq
        omega
    exact key _ l p le_rfl hp

/-- The steps on a uniform field. -/
theorem uniform_steps (hn : n ≤ 1) {base : Nat} {b : Box} (st : BoxSetup n cfg dom minL maxL base b)
    (hd : GoodDomain n dom minL maxL (cfg.maxStencilWidth + cfg.predictionOrder + 1 + 3)) (hmin : 1 ≤ minL) (hlt : minL < maxL)
    (hsh : (n + 1) * (maxL - minL) < 31) (h0 : K) (bcs : List (BcCond K))
    (hbc : ∀ c ∈ bcs, GoodBc n dom cfg.maxStencilWidth c) (hcov : CoversBoundary n dom bcs) {k : K} (hk : ∀ c ∈ bcs, c.HoldsFor k)
    {eps factor : K} (he : 0 < eps) (hfa : 0 < factor) : ∀ (j i : Nat) (m : SubMeshes) (x : CA) (f : CellField K), i + j = maxL - minL →
    AdaptInv n cfg dom minL maxL m x → (∀ l p, m.cells.Mem n l p → f l p = k) → (∀ l p, m.cells.Mem n l p → l ≤ maxL - i) →
    ∃ m' x' f', adaptSteps n cfg 1 minL maxL false dom h0 bcs eps factor (List.range' i j) m x f = some (m', x', f') ∧
      AdaptInv n cfg dom minL maxL m' x' ∧ (∀ l p, m'.cells.Mem n l p → f' l p = k) ∧ ∀ l p, m'.cells.Mem n l p → l ≤ minL
  | 0, i, m, x, f, hij, h, hf, hlev => ⟨m, x, f, rfl, h, hf, fun l p hp => by
      have := hlev l p hp
      omega⟩
  | j + 1, i, m, x, f, hij, h, hf, hlev => by
    obtain ⟨stop, m', x', f', a1, a2, a3, a4, a5⟩ := uniform_step hn st h hd hmin hlt hsh h0 bcs hbc hcov hk f hf he hfa (ite := i) (by omega) hlev
    rw [List.range'_succ]
    unfold adaptSteps
    rw [a1]
    simp only []
    cases stop with
    | true => exact ⟨m', x', f', rfl, a2, a3, a5 rfl⟩
    | false =>
      refine uniform_steps hn st hd hmin hlt hsh h0 bcs hbc hcov hk he hfa j (i + 1) m' x' f' (by omega) a2 a3 fun l p hp => ?_
      have := a4 l p hp
      rw [Nat.max_def] at this
      split at this <;> omega

end

end Samurai

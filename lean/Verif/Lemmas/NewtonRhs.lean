/-
The vectors of the Newton solver: the rows of the ghosts.
-/
import Verif.Model.Newton
import Verif.Lemmas.PetscSolve
import Verif.Lemmas.GhostAdapted

namespace Samurai

section
variable {K : Type} [Field K] {m : Nat}

theorem eachComponent_some {f : Fin m → (Int → K) → Option (Int → K)} {u w : Int → Fin m → K} (h : ∀ j, f j (fun k => u k j) = some fun k => w k j) :
    eachComponent f u = some w := by
  unfold eachComponent
  rw [if_pos fun j => by rw [h j]; rfl]
  congr 1
  funext k j
  rw [h j]
  rfl

theorem vectorOf_at (L : MatLayout) (h : L.outSize = m) (out : Int → Fin m → K) {k : Int} (h0 : 0 ≤ k) (h1 : k < L.nCells) (i : Fin m) :
    vectorOf L out (L.row k i) = out k i := by
  subst h
  unfold vectorOf
  refine vecFold_val ?_ ?_
  · refine ⟨(L.row k i, out k i), List.mem_flatMap.2 ⟨k.toNat, List.mem_range.2 (by omega), List.mem_map.2 ⟨i, List.mem_finRange _, ?_⟩⟩, rfl⟩
    rw [show ((k.toNat : Nat) : Int) = k by omega]
  · intro e he hr
    obtain ⟨k', hk', he⟩ := List.mem_flatMap.1 he
    obtain ⟨i', -, rfl⟩ := List.mem_map.1 he
    rw [List.mem_range] at hk'
    obtain ⟨rfl, rfl⟩ := (dataIndex_inj (by omega) (by omega) h0 h1).1 hr
    rfl

theorem vecFold_key {T : List (Int × K)} {a b : Int → K} {r : Int} (h : ∃ e ∈ T, e.1 = r) : T.foldl vecInsert a r = T.foldl vecInsert b r := by
  induction T generalizing a b with
  | nil => obtain ⟨e, he, -⟩ := h; simp at he
  | cons e T ih =>
    rw [List.foldl_cons, List.foldl_cons]
    by_cases h' : ∃ e ∈ T, e.1 = r
    · exact ih h'
    · have hno : ∀ e' ∈ T, e'.1 ≠ r := fun e' he' k => h' ⟨e', he', k⟩
      rw [vecFold_other hno, vecFold_other hno]
      obtain ⟨e', he', rfl⟩ := h
      rcases List.mem_cons.1 he' with rfl | he'
      · unfold vecInsert
        rw [if_pos rfl, if_pos rfl]
      · exact absurd rfl (hno e' he')

end

theorem AdaptInv.allGhosts {n : Nat} {cfg : MeshConfig} {dom : LCA} {minL maxL : Nat} {M : SubMeshes} {x : CA} {margin : Nat} (hinv : AdaptInv n cfg dom minL maxL M x)
    (hne : minL ≠ maxL) (hd : GoodDomain n dom minL maxL margin) (hm : cfg.maxStencilWidth + cfg.predictionOrder + 3 ≤ margin) (hw : 1 ≤ cfg.maxStencilWidth) :
    ∃ G, Samurai.allGhosts n M.all M.cells maxL = some G ∧ ∀ k, k ∈ G ↔ ∃ l p, (l, p, k) ∈ M.all.numbered n ∧ ¬ M.cells.Mem n l p := by
  have gE := hinv.elim hd (by omega) hw
  obtain ⟨c0, hc⟩ := hinv.mesh
  obtain ⟨D, d1, d2, d3⟩ := hd.range
  obtain ⟨b1, -⟩ := hc.below (hinv.leaves.below d3) hinv.leaves.between
  have hs := hinv.leaves.size
  have hpos : (0 : Int) ≤ ((cfg.maxStencilWidth : Int) + cfg.predictionOrder + 1) * 2 ^ maxL := by
    have := pow_two_pos maxL
    positivity
  have hK : D + ((cfg.maxStencilWidth : Int) + cfg.predictionOrder + 1) * 2 ^ maxL + 2 < INT_MAX := by
    have : ((cfg.maxStencilWidth : Int) + cfg.predictionOrder + 1) * 2 ^ maxL ≤ (margin : Int) * 2 ^ maxL :=
      Int.mul_le_mul_of_nonneg_right (by omega) (le_of_lt (pow_two_pos maxL))
    omega
  have hlev : ∀ l p, M.all.Mem n l p → l ≤ maxL := by
    intro l p hp
    obtain ⟨m0, c1, c2, -, -, c5⟩ := hc.content
    have h := (c5 l p).1 hp
    rw [c1.all hne] at h
    exact (mrAll_levels (fun l q h => hinv.leaves.between l q ((c2 l q).2 h)) h).2
  obtain ⟨G, g1, g2⟩ := overLevels_mem (f := fun l => setNumbers n M.all (.op .diff (.leaf (.mesh (M.all.lca l))) (.leaf (.mesh (M.cells.lca l)))) l)
    (P := fun l k => ∃ p, (M.all.Mem n l p ∧ ¬ M.cells.Mem n l p) ∧ k = numOf n M.all l p) (List.range (maxL + 1)) (fun l hl => by
      rw [List.mem_range] at hl
      have hla : l ≤ M.all.maxSize := by rw [hc.size, ← hc.cellsLevels.1]; omega
      obtain ⟨ha, hf⟩ := admissible_two (o := .diff) (gE.fv.refWF l hla) (hinv.leaves.wf l (by omega)) (hc.allLevels l hla) (hinv.leaves.leveled l (by omega))
        (K := D + ((cfg.maxStencilWidth : Int) + cfg.predictionOrder + 1) * 2 ^ maxL) (b1.small (by omega) hla)
        (fun p hp y hy => by have := (hinv.leaves.below d3).small d1 (l := l) (by omega) p hp y hy; omega) hK
      obtain ⟨calls, h1, h2, -, h4⟩ := runSet_canon ha (ref := l) (by omega)
      have hcov : ∀ p, Covers calls p ↔ M.all.Mem n l p ∧ ¬ M.cells.Mem n l p := by
        intro p
        rw [h4 p]
        show AtLevel (M.all.lca l).level l ((M.all.lca l).Mem n) p ∧ ¬ AtLevel (M.cells.lca l).level l ((M.cells.lca l).Mem n) p ↔ _
        rw [hc.allLevels l hla, hinv.leaves.leveled l (by omega), atLevel_same, atLevel_same]
        unfold CA.Mem
        have : l ≤ M.cells.maxSize := by omega
        simp only [hla, this, true_and]
      obtain ⟨ks, k1, k2⟩ := setNumbers_spec gE.fv.refWF h1 h2 fun p hp => ((hcov p).1 hp).1
      exact ⟨ks, k1, fun k => (k2 k).trans (exists_congr fun p => and_congr_left fun _ => hcov p)⟩)
  refine ⟨G, g1, fun k => ?_⟩
  rw [g2]
  constructor
  · rintro ⟨l, -, p, ⟨h1, h2⟩, rfl⟩
    exact ⟨l, p, numOf_numbered gE.fv.refWF h1, h2⟩
  · rintro ⟨l, p, h1, h2⟩
    have hp := CA.mem_of_numbered gE.fv.refWF h1
    exact ⟨l, List.mem_range.2 (by have := hlev l p hp; omega), p, ⟨hp, h2⟩, CA.number_unique gE.fv.refWF h1 (numOf_numbered gE.fv.refWF hp)⟩

end Samurai

/-
The cells next to the leaves in dimension 1.
-/
import Verif.Lemmas.PetscLocal

namespace Samurai

theorem anc_seg {k : Nat} {a : Int} {m : List Int} : Anc k [a] m ↔ ∃ x : Int, m = [x] ∧ a = x / 2 ^ k := by
  rw [anc_iff]
  constructor
  · intro h
    match m, h with
    | [x], h =>
      simp only [List.map_cons, List.map_nil, List.cons.injEq, and_true] at h
      exact ⟨x, rfl, h⟩
    | [], h => simp at h
    | _ :: _ :: _, h => simp at h
  · rintro ⟨x, rfl, rfl⟩
    rfl

/-- A cell at distance at most one of a leaf of an interval is a leaf, a ghost of the projection or of the prediction, or a cell outside the domain: then it is the
neighbour `q = p + v` of a leaf whose last cell at the level of the domain is next to the boundary. -/
theorem ElimMesh.seg_cases {order : Nat} {cells cag ref : CA} {dom : LCA} {minL maxL : Nat} (g : ElimMesh 0 order cells cag ref dom minL maxL 1) (hdl : dom.level = maxL)
    {l : Nat} {q : List Int} (h : cag.Mem 0 l q) :
    cells.Mem 0 l q ∨ ProjGhost 0 cells cag l q ∨ PredGhost 0 cells cag l q ∨
      ∃ p m v, cells.Mem 0 l p ∧ UnitVector 0 v ∧ OneAxis 0 v ∧ q = walk 0 p 1 v ∧ dom.Mem 0 m ∧ Anc (maxL - l) p m ∧ ¬ dom.Mem 0 (shiftPoint v 0 m) := by
  obtain ⟨p, hp, hn⟩ := (g.cag_iff l q).1 h
  have hlen := mem_length hp.2
  obtain ⟨x, rfl⟩ : ∃ x, p = [x] := by
    match p, hlen with
    | [x], _ => exact ⟨x, rfl⟩
  obtain ⟨y, rfl, hy1, hy2⟩ : ∃ y, q = [y] ∧ y ≤ x + 1 ∧ x ≤ y + 1 := by
    cases hn with
    | cons h1 h2 =>
      cases h2
      exact ⟨_, rfl, by simpa using h1.1, by simpa using h1.2⟩
  by_cases hxy : y = x
  · subst hxy
    exact .inl hp
  have hb := g.fv.leaves.between _ _ hp
  have hpos := pow_two_pos (maxL - l)
  -- the cells of the level of the domain on both sides
  obtain ⟨m, m', hm, hm', hmm⟩ : ∃ m m' : Int, Anc (maxL - l) [x] [m] ∧ Anc (maxL - l) [y] [m'] ∧ m' = m + (y - x) := by
    rcases (by omega : y = x + 1 ∨ y = x - 1) with rfl | rfl
    · refine ⟨(x + 1) * 2 ^ (maxL - l) - 1, (x + 1) * 2 ^ (maxL - l), anc_seg.2 ⟨_, rfl, ?_⟩, anc_seg.2 ⟨_, rfl, ?_⟩, by ring⟩
      · symm
        rw [Int.ediv_eq_iff_of_pos hpos]
        constructor
        · nlinarith
        · nlinarith
      · rw [Int.mul_ediv_cancel _ (by omega)]
    · refine ⟨x * 2 ^ (maxL - l), x * 2 ^ (maxL - l) - 1, anc_seg.2 ⟨_, rfl, ?_⟩, anc_seg.2 ⟨_, rfl, ?_⟩, by ring⟩
      · rw [Int.mul_ediv_cancel _ (by omega)]
      · symm
        rw [Int.ediv_eq_iff_of_pos hpos]
        constructor
        · nlinarith
        · nlinarith
  have hin : ∀ z, InDomain 0 dom maxL z ↔ dom.Mem 0 z := by
    intro z
    unfold InDomain
    rw [hdl, Nat.sub_self]
    constructor
    · rintro ⟨d, h1, h2⟩
      rwa [anc_zero.1 h2] at h1
    · exact fun h => ⟨z, h, anc_zero.2 rfl⟩
  have hnear : Near 1 [m'] [m] := .cons (by constructor <;> push_cast <;> omega) .nil
  by_cases hd : dom.Mem 0 [m']
  · obtain ⟨l1, c, h1, h2, h3⟩ := (g.fv.leaves.tiles _).2 ((hin _).2 hd)
    rcases lt_trichotomy l1 l with hlt | rfl | hlt
    · have := graded_fine g.fv.leaves.graded h2 hp h1 hb.2 h3 hm hnear
      have hl : l = l1 + 1 := by omega
      subst hl
      refine .inr (.inr (.inl ⟨by omega, h, c, h2, ?_⟩))
      have := anc_of_anc (by omega) h3 hm'
      rwa [show maxL - l1 - (maxL - (l1 + 1)) = 1 by omega] at this
    · exact .inl (anc_unique h3 hm' ▸ h2)
    · have := graded_fine g.fv.leaves.graded hp h2 hb.2 h1 hm h3 (near_symm hnear)
      have hl : l1 = l + 1 := by omega
      subst hl
      refine .inr (.inl ⟨h, c, h2, ?_⟩)
      have := anc_of_anc (by omega) hm' h3
      rwa [show maxL - l - (maxL - (l + 1)) = 1 by omega] at this
  · refine .inr (.inr (.inr ⟨[x], [m], fun _ => y - x, hp, ⟨fun _ _ => by show y - x = -1 ∨ y - x = 0 ∨ y - x = 1; omega, 0, le_rfl, by show y - x ≠ 0; omega⟩,
      ⟨0, le_rfl, by show y - x ≠ 0; omega, fun k hk h => by omega⟩, ?_, ?_, hm, ?_⟩))
    · simp only [walk, shiftPoint, List.cons.injEq, and_true]
      omega
    · exact (hin _).1 ((g.fv.leaves.tiles _).1 ⟨l, [x], hb.2, hp, hm⟩)
    · have : shiftPoint (fun _ => y - x) 0 [m] = [m'] := by simp [shiftPoint, hmm]
      rw [this]
      exact hd

end Samurai

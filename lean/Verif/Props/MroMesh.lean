/-
Property C116: the meshes with overleaves.
-/
import Verif.Lemmas.MroMesh
import Verif.Spec.Graduation

namespace Samurai

/-! ### the contents -/

theorem sameParity_short {r : List Int} (h : r.length ≤ 1) : SameParity r := by
  match r, h with
  | [], _ => exact ⟨0, by simp⟩
  | [a], _ => exact ⟨a % 2, by simp⟩

/-- C116. In dimensions 1 and 2 the sub-meshes of a mesh with overleaves are built, for every set of leaves: `cells` are the leaves,
`cells_and_ghosts` holds exactly the cells within `ghost_width` of a leaf of the same level, `overleaves` exactly the children of
the leaves that are coarser than `max_level` and of the cells around them, and both are in the reference mesh, where the fields have values. -/
theorem C116_overleaves_partial (n w : Nat) (hn : n ≤ 1) (cells : CA) (minL maxL : Nat) (h : cells.Proper n minL maxL (w + 3)) :
    ∃ m, mroUpdateSubMesh n w cells maxL = some m ∧ m.cells = cells ∧
      (∀ l p, m.ghosts.Mem n l p ↔ ∃ q, cells.Mem n l q ∧ Near w p q) ∧
      (∀ l p, m.over.Mem n l p ↔ ∃ l0 q r, l = l0 + 1 ∧ l0 < maxL ∧ cells.Mem n l0 q ∧ Near 1 r q ∧ Anc 1 r p) ∧
      ∀ l p, m.ghosts.Mem n l p ∨ m.over.Mem n l p → m.all.Mem n l p := by
  obtain ⟨m, h1, h2⟩ := mroUpdateSubMesh_spec h
  refine ⟨m, h1, h2.cells_eq, h2.ghosts.2, fun l p => ?_, fun l p hp => ?_⟩
  · rw [h2.over.2]
    constructor
    · rintro ⟨l0, q, e1, e2, e3, e4, _⟩
      exact ⟨l0, q, _, e1, e2, e3, e4, anc_iff.2 rfl⟩
    · rintro ⟨l0, q, r, e1, e2, e3, e4, e5⟩
      rw [anc_iff.1 e5] at e4
      refine ⟨l0, q, e1, e2, e3, e4, sameParity_short ?_⟩
      have h3 := e4.length_eq
      have h4 := mem_length e3.2
      rw [List.length_map] at h3
      rw [List.length_dropLast]
      omega
  · rw [h2.all.2]
    rcases hp with hp | hp
    · exact Or.inl (Or.inl (Or.inl ((h2.ghosts.2 l p).1 hp)))
    · exact Or.inr ((h2.over.2 l p).1 hp)

/-- C116, projection. A projection cell is a cell of the reference mesh refined by leaves. In dimensions 1 and 2, if the next level has a leaf,
its children are all in the reference mesh or none is: the update of the ghosts, which projects on the projection cells that have a child in the
reference mesh, reads only cells of the reference mesh. -/
theorem C116_projection_partial (n w : Nat) (hn : n ≤ 1) (hw : 1 ≤ w) (cells : CA) (minL maxL : Nat) (h : cells.Proper n minL maxL (w + 3)) :
    ∃ m, mroUpdateSubMesh n w cells maxL = some m ∧
      (∀ l p, m.proj.Mem n l p → m.all.Mem n l p ∧ CoveredBy n cells l p) ∧
      ∀ l p c c', m.proj.Mem n l p → (∃ q, cells.Mem n (l + 1) q) → Anc 1 p c → Anc 1 p c' → m.all.Mem n (l + 1) c → m.all.Mem n (l + 1) c' := by
  obtain ⟨m, h1, h2⟩ := mroUpdateSubMesh_spec h
  refine ⟨m, h1, fun l p hp => ?_, fun l p c c' hp hq hc hc' hm => ?_⟩
  · have := (h2.proj.2 l p).1 hp
    exact ⟨(h2.all.2 l p).2 (Or.inl this.1), this.2.2⟩
  · have hcov := ((h2.proj.2 l p).1 hp).2.2
    rw [h2.all.2] at hm ⊢
    have hpar : (c.map fun y => shr y 1) = p := (anc_iff.1 hc).symm
    have hpar' : (c'.map fun y => shr y 1) = p := (anc_iff.1 hc').symm
    by_cases hleaf : ∃ q, cells.Mem n (l + 1) q ∧ Anc 1 p q
    · obtain ⟨q, q1, q2⟩ := hleaf
      refine Or.inl (Or.inl (Or.inl ⟨q, q1, ?_⟩))
      have hnear : Near 1 c' q := anc_one_near (by rw [hpar']; exact q2)
      exact List.Forall₂.imp (fun a b hab => ⟨by have := hab.1; omega, by have := hab.2; omega⟩) hnear
    · rcases hm with (hm | hm) | hm
      · refine Or.inl (Or.inr ⟨by omega, hq, ?_, ⟨c, hm, by rw [hpar']; exact hc⟩, by rw [hpar']; exact hleaf⟩)
        obtain ⟨q, q1, q2⟩ := (coveredBy_pred (l := l + 1) (by omega)).1 hcov
        rcases q1 with q1 | q1
        · exact absurd ⟨q, q1, q2⟩ hleaf
        · exact ⟨q, q1, by rw [hpar']; exact q2⟩
      · refine Or.inl (Or.inr ?_)
        unfold MroSib at hm ⊢
        rwa [hpar', ← hpar]
      · obtain ⟨l0, q, e1, e2, e3, e4, _⟩ := hm
        refine Or.inr ⟨l0, q, e1, e2, e3, by rw [hpar', ← hpar]; exact e4, sameParity_short ?_⟩
        have h3 := e4.length_eq
        have h4 := mem_length e3.2
        have h5 := anc_length hc
        have h6 := anc_length hc'
        rw [List.length_map] at h3
        rw [List.length_dropLast]
        omega

/-- C116, numbering. If the cells refined by leaves (of the levels from the coarsest one of the leaves, minus one) are all in the reference mesh,
the construction succeeds, the cells of the reference mesh are numbered `0 .. nb_cells - 1`, each once, and the number of a cell obtained
through any sub-mesh is its number in the reference mesh. -/
theorem C116_numbering_partial (n w : Nat) (cells : CA) (minL maxL : Nat) (h : cells.Proper n minL maxL (w + 3)) :
    ∃ m, mroUpdateSubMesh n w cells maxL = some m ∧
      ((∀ l p, cells.minLevel ≤ l + 1 → CoveredBy n cells l p → m.all.Mem n l p) → ∃ m', mroMesh n w cells maxL = some m' ∧
        (∀ l p, m'.cells.Mem n l p ↔ cells.Mem n l p) ∧ (∀ l p, m'.ghosts.Mem n l p ↔ m.ghosts.Mem n l p) ∧
        (∀ l p, m'.proj.Mem n l p ↔ m.proj.Mem n l p) ∧ (∀ l p, m'.union.Mem n l p ↔ m.union.Mem n l p) ∧
        (∀ l p, m'.over.Mem n l p ↔ m.over.Mem n l p) ∧ (∀ l p, m'.all.Mem n l p ↔ m.all.Mem n l p) ∧
        ((m'.all.numbered n).map fun e => e.2.2) = (List.range m'.all.nbCells).map (fun (k : Nat) => (k : Int)) ∧
        ∀ sub ∈ [m'.cells, m'.ghosts, m'.proj, m'.union, m'.over], ∀ l yz x, sub.Mem n l (yz ++ [x]) →
          ∃ v, getIndex (sub.lca l) n yz x = some v ∧ (l, yz ++ [x], v) ∈ m'.all.numbered n) := by
  obtain ⟨m, h1, h2⟩ := mroUpdateSubMesh_spec h
  refine ⟨m, h1, fun hcov => ?_⟩
  obtain ⟨all, a1, a2, a3, a4, a5, a6⟩ := C08_levels n m.all h2.all.1
  have hc : m.cells = cells := h2.cells_eq
  have sg : ∀ l p, m.ghosts.Mem n l p → m.all.Mem n l p := fun l p hp =>
    (h2.all.2 l p).2 (Or.inl (Or.inl (Or.inl ((h2.ghosts.2 l p).1 hp))))
  have sc : ∀ l p, m.cells.Mem n l p → m.all.Mem n l p := fun l p hp =>
    sg l p ((h2.ghosts.2 l p).2 ⟨p, by rw [← hc]; exact hp, near_refl _ _⟩)
  have sp : ∀ l p, m.proj.Mem n l p → m.all.Mem n l p := fun l p hp => (h2.all.2 l p).2 (Or.inl ((h2.proj.2 l p).1 hp).1)
  have su : ∀ l p, m.union.Mem n l p → m.all.Mem n l p := fun l p hp => hcov l p ((h2.union.2 l p).1 hp).1 ((h2.union.2 l p).1 hp).2
  have so : ∀ l p, m.over.Mem n l p → m.all.Mem n l p := fun l p hp => (h2.all.2 l p).2 (Or.inr ((h2.over.2 l p).1 hp))
  obtain ⟨c, c1, -, -, -, c4, c5⟩ := renumberSub_spec a3 (by rw [hc]; exact h.wf) (fun l p hp => (a4 l p).2 (sc l p hp))
  obtain ⟨g, g1, -, -, -, g4, g5⟩ := renumberSub_spec a3 h2.ghosts.1 (fun l p hp => (a4 l p).2 (sg l p hp))
  obtain ⟨q, q1, -, -, -, q4, q5⟩ := renumberSub_spec a3 h2.proj.1 (fun l p hp => (a4 l p).2 (sp l p hp))
  obtain ⟨u, u1, -, -, -, u4, u5⟩ := renumberSub_spec a3 h2.union.1 (fun l p hp => (a4 l p).2 (su l p hp))
  obtain ⟨o, o1, -, -, -, o4, o5⟩ := renumberSub_spec a3 h2.over.1 (fun l p hp => (a4 l p).2 (so l p hp))
  have fin : ∀ l yz x, m.all.Mem n l (yz ++ [x]) → ∃ v, getIndex (all.lca l) n yz x = some v ∧ (l, yz ++ [x], v) ∈ all.numbered n := by
    intro l yz x hx
    have hx := (a4 l _).2 hx
    obtain ⟨v, v1, v2⟩ := C09_get_index n (all.lca l) (a3 l hx.1) yz x hx.2
    refine ⟨v, v1, ?_⟩
    unfold CA.numbered
    rw [List.mem_flatMap]
    exact ⟨l, List.mem_range.2 (by have := hx.1; omega), List.mem_map.2 ⟨_, v2, rfl⟩⟩
  refine ⟨⟨c, g, q, u, all, o⟩, ?_, fun l p => by rw [← hc]; exact c4 l p, g4, q4, u4, o4, a4, ?_, ?_⟩
  · unfold mroMesh
    rw [h1]
    simp only []
    unfold mroRenumbering
    rw [a1]
    simp only []
    rw [c1, g1, q1, u1, o1]
  · show ((all.numbered n).map fun e => e.2.2) = _
    rw [a6, a5]
  · intro sub hs l yz x hx
    simp only [List.mem_cons, List.not_mem_nil, or_false] at hs
    rcases hs with rfl | rfl | rfl | rfl | rfl
    · obtain ⟨v, v1, v2⟩ := fin l yz x (sc _ _ ((c4 l _).1 hx))
      exact ⟨v, by rw [c5 l yz x ((c4 l _).1 hx), v1], v2⟩
    · obtain ⟨v, v1, v2⟩ := fin l yz x (sg _ _ ((g4 l _).1 hx))
      exact ⟨v, by rw [g5 l yz x ((g4 l _).1 hx), v1], v2⟩
    · obtain ⟨v, v1, v2⟩ := fin l yz x (sp _ _ ((q4 l _).1 hx))
      exact ⟨v, by rw [q5 l yz x ((q4 l _).1 hx), v1], v2⟩
    · obtain ⟨v, v1, v2⟩ := fin l yz x (su _ _ ((u4 l _).1 hx))
      exact ⟨v, by rw [u5 l yz x ((u4 l _).1 hx), v1], v2⟩
    · obtain ⟨v, v1, v2⟩ := fin l yz x (so _ _ ((o4 l _).1 hx))
      exact ⟨v, by rw [o5 l yz x ((o4 l _).1 hx), v1], v2⟩

/-! ### the meshes of the examples -/

/-- A mesh in one dimension with the intervals of the given levels. -/
def leavesOnLine (m : Nat) (h : List (Nat × Int × Int)) : CA :=
  match runLevelCalls 0 m (h.map fun e => (e.1, .interval [] (.mk' e.2.1 e.2.2))) with
  | some cl => CA.ofCL cl
  | none => CA.empty 0 m

theorem leavesOnLine_spec {m : Nat} {h : List (Nat × Int × Int)} (hh : ∀ e ∈ h, e.1 ≤ m ∧ e.2.1 < e.2.2) :
    (leavesOnLine m h).maxSize = m ∧ (leavesOnLine m h).WF 0 ∧ (leavesOnLine m h).Leveled ∧
      ∀ l p, (leavesOnLine m h).Mem 0 l p ↔ ∃ a b x, (l, a, b) ∈ h ∧ a ≤ x ∧ x < b ∧ p = [x] := by
  obtain ⟨cl, h1, h2⟩ := (hist_new 0 m).calls (k := h.map fun e => (e.1, .interval [] (.mk' e.2.1 e.2.2))) (by
    intro e he
    obtain ⟨e', he', rfl⟩ := List.mem_map.1 he
    exact ⟨(hh e' he').1, rfl, (hh e' he').2⟩)
  have he : leavesOnLine m h = CA.ofCL cl := by
    unfold leavesOnLine runLevelCalls
    rw [h1]
  obtain ⟨a1, a2, a3, -, a5⟩ := h2.array
  rw [he]
  refine ⟨a1, a2, a3, fun l p => (a5 l p).trans ?_⟩
  simp only [false_or]
  constructor
  · rintro ⟨c, hc, ha⟩
    obtain ⟨⟨l', a, b⟩, hm, heq⟩ := List.mem_map.1 hc
    simp only [Prod.mk.injEq] at heq
    obtain ⟨rfl, rfl⟩ := heq
    obtain ⟨x, x1, x2, rfl⟩ := ha
    exact ⟨a, b, x, hm, x1, x2, rfl⟩
  · rintro ⟨a, b, x, hm, x1, x2, rfl⟩
    exact ⟨_, List.mem_map.2 ⟨_, hm, rfl⟩, x, x1, x2, rfl⟩

/-- The leaves, from the left to the right: one of each level 1, 2, 3, then level 4. -/
def refinedRight : CA := leavesOnLine 4 [(1, -3, -2), (2, -4, -3), (3, -6, -5), (4, -10, 16)]

/-- The leaves, from the left to the right: level 4, then one of each level 3, 2, 1. -/
def refinedLeft : CA := leavesOnLine 4 [(1, 5, 6), (2, 9, 10), (3, 17, 18), (4, 0, 34)]

theorem refinedRight_mem (l : Nat) (p : List Int) : refinedRight.Mem 0 l p ↔ ∃ x, p = [x] ∧
    ((l = 1 ∧ x = -3) ∨ (l = 2 ∧ x = -4) ∨ (l = 3 ∧ x = -6) ∨ (l = 4 ∧ -10 ≤ x ∧ x < 16)) := by
  unfold refinedRight
  rw [(leavesOnLine_spec (by simp)).2.2.2]
  simp only [List.mem_cons, Prod.mk.injEq, List.not_mem_nil, or_false]
  constructor
  · rintro ⟨a, b, x, h, h1, h2, rfl⟩
    exact ⟨x, rfl, by omega⟩
  · rintro ⟨x, rfl, h | h | h | h⟩
    · exact ⟨-3, -2, x, by omega, by omega, by omega, rfl⟩
    · exact ⟨-4, -3, x, by omega, by omega, by omega, rfl⟩
    · exact ⟨-6, -5, x, by omega, by omega, by omega, rfl⟩
    · exact ⟨-10, 16, x, by omega, by omega, by omega, rfl⟩

theorem refinedLeft_mem (l : Nat) (p : List Int) : refinedLeft.Mem 0 l p ↔ ∃ x, p = [x] ∧
    ((l = 1 ∧ x = 5) ∨ (l = 2 ∧ x = 9) ∨ (l = 3 ∧ x = 17) ∨ (l = 4 ∧ 0 ≤ x ∧ x < 34)) := by
  unfold refinedLeft
  rw [(leavesOnLine_spec (by simp)).2.2.2]
  simp only [List.mem_cons, Prod.mk.injEq, List.not_mem_nil, or_false]
  constructor
  · rintro ⟨a, b, x, h, h1, h2, rfl⟩
    exact ⟨x, rfl, by omega⟩
  · rintro ⟨x, rfl, h | h | h | h⟩
    · exact ⟨5, 6, x, by omega, by omega, by omega, rfl⟩
    · exact ⟨9, 10, x, by omega, by omega, by omega, rfl⟩
    · exact ⟨17, 18, x, by omega, by omega, by omega, rfl⟩
    · exact ⟨0, 34, x, by omega, by omega, by omega, rfl⟩

theorem refinedRight_proper : refinedRight.Proper 0 1 4 5 := by
  obtain ⟨h1, h2, h3, _⟩ := leavesOnLine_spec (m := 4) (h := [(1, -3, -2), (2, -4, -3), (3, -6, -5), (4, -10, 16)]) (by simp)
  refine ⟨h2, h3, fun l p hp => ?_, by unfold refinedRight; rw [h1], 16, by omega, by decide, fun l p hp x hx => ?_⟩
  · obtain ⟨x, _, h⟩ := (refinedRight_mem l p).1 hp
    omega
  · obtain ⟨y, rfl, h⟩ := (refinedRight_mem l p).1 hp
    simp only [List.mem_singleton] at hx
    subst hx
    rcases h with ⟨rfl, h⟩ | ⟨rfl, h⟩ | ⟨rfl, h⟩ | ⟨rfl, h⟩ <;> norm_num <;> omega

theorem refinedLeft_proper : refinedLeft.Proper 0 1 4 5 := by
  obtain ⟨h1, h2, h3, _⟩ := leavesOnLine_spec (m := 4) (h := [(1, 5, 6), (2, 9, 10), (3, 17, 18), (4, 0, 34)]) (by simp)
  refine ⟨h2, h3, fun l p hp => ?_, by unfold refinedLeft; rw [h1], 64, by omega, by decide, fun l p hp x hx => ?_⟩
  · obtain ⟨x, _, h⟩ := (refinedLeft_mem l p).1 hp
    omega
  · obtain ⟨y, rfl, h⟩ := (refinedLeft_mem l p).1 hp
    simp only [List.mem_singleton] at hx
    subst hx
    rcases h with ⟨rfl, h⟩ | ⟨rfl, h⟩ | ⟨rfl, h⟩ | ⟨rfl, h⟩ <;> norm_num <;> omega

theorem line_graded {c : CA} (hlen : ∀ l p, c.Mem 0 l p → ∃ x, p = [x])
    (h : ∀ l l' z x y, c.Mem 0 l [z] → c.Mem 0 l' [x] → l ≤ l' → (x = y + 1 ∨ y = x + 1) → z = shr y (l' - l) → l' ≤ l + 1) :
    c.FaceGraded 0 := by
  intro l p l' p' q hp hp' hle hf ha
  obtain ⟨z, rfl⟩ := hlen l p hp
  obtain ⟨x, rfl⟩ := hlen l' p' hp'
  have ha := anc_iff.1 ha
  match q, hf, ha with
  | [y], hf, ha =>
    simp only [FaceNeighbours, and_false, false_or, and_true] at hf
    simp only [List.map_cons, List.map_nil, List.cons.injEq, and_true] at ha
    exact h l l' z x y hp hp' hle (by omega) ha

theorem refinedRight_graded : refinedRight.FaceGraded 0 := by
  refine line_graded (fun l p hp => by obtain ⟨x, hx, _⟩ := (refinedRight_mem l p).1 hp; exact ⟨x, hx⟩) ?_
  intro l l' z x y h1 h2 hle hxy hz
  obtain ⟨z', e1, h1⟩ := (refinedRight_mem l _).1 h1
  obtain ⟨x', e2, h2⟩ := (refinedRight_mem l' _).1 h2
  simp only [List.cons.injEq, and_true] at e1 e2
  subst e1
  subst e2
  rcases h1 with ⟨rfl, h1⟩ | ⟨rfl, h1⟩ | ⟨rfl, h1⟩ | ⟨rfl, h1⟩ <;>
    rcases h2 with ⟨rfl, h2⟩ | ⟨rfl, h2⟩ | ⟨rfl, h2⟩ | ⟨rfl, h2⟩ <;> first | omega | (simp [shr] at hz; omega)

theorem refinedLeft_graded : refinedLeft.FaceGraded 0 := by
  refine line_graded (fun l p hp => by obtain ⟨x, hx, _⟩ := (refinedLeft_mem l p).1 hp; exact ⟨x, hx⟩) ?_
  intro l l' z x y h1 h2 hle hxy hz
  obtain ⟨z', e1, h1⟩ := (refinedLeft_mem l _).1 h1
  obtain ⟨x', e2, h2⟩ := (refinedLeft_mem l' _).1 h2
  simp only [List.cons.injEq, and_true] at e1 e2
  subst e1
  subst e2
  rcases h1 with ⟨rfl, h1⟩ | ⟨rfl, h1⟩ | ⟨rfl, h1⟩ | ⟨rfl, h1⟩ <;>
    rcases h2 with ⟨rfl, h2⟩ | ⟨rfl, h2⟩ | ⟨rfl, h2⟩ | ⟨rfl, h2⟩ <;> first | omega | (simp [shr] at hz; omega)

/-- The hypotheses are met, with an overleaf, a ghost and a projection cell. -/
example : refinedRight.Proper 0 1 4 (2 + 3) ∧ (∃ q, refinedRight.Mem 0 1 q ∧ Near 1 [-2] q) ∧ Anc 1 [-2] [-3] ∧
    CoveredBy 0 refinedRight 1 [-2] ∧ ∃ q, refinedRight.Mem 0 2 q := by
  refine ⟨refinedRight_proper, ⟨[-3], (refinedRight_mem _ _).2 ⟨-3, rfl, by omega⟩, List.Forall₂.cons (by decide) List.Forall₂.nil⟩,
    anc_iff.2 (by decide), ⟨2, [-4], by omega, (refinedRight_mem _ _).2 ⟨-4, rfl, by omega⟩, anc_iff.2 (by decide)⟩,
    [-4], (refinedRight_mem _ _).2 ⟨-4, rfl, by omega⟩⟩

/-- A mesh whose refined cells are all in the reference mesh: the construction succeeds. -/
example : (leavesOnLine 2 [(1, 0, 1), (2, 2, 4)]).Proper 0 1 2 (1 + 3) ∧ (mroMesh 0 1 (leavesOnLine 2 [(1, 0, 1), (2, 2, 4)]) 2).isSome = true ∧
    ∀ m, mroUpdateSubMesh 0 1 (leavesOnLine 2 [(1, 0, 1), (2, 2, 4)]) 2 = some m →
      ∀ l p, CoveredBy 0 (leavesOnLine 2 [(1, 0, 1), (2, 2, 4)]) l p → m.all.Mem 0 l p := by
  obtain ⟨h1, h2, h3, h4⟩ := leavesOnLine_spec (m := 2) (h := [(1, 0, 1), (2, 2, 4)]) (by simp)
  have hm : ∀ l p, (leavesOnLine 2 [(1, 0, 1), (2, 2, 4)]).Mem 0 l p ↔ ∃ x, p = [x] ∧ ((l = 1 ∧ x = 0) ∨ (l = 2 ∧ 2 ≤ x ∧ x < 4)) := by
    intro l p
    rw [h4]
    simp only [List.mem_cons, Prod.mk.injEq, List.not_mem_nil, or_false]
    constructor
    · rintro ⟨a, b, x, h, h1, h2, rfl⟩
      exact ⟨x, rfl, by omega⟩
    · rintro ⟨x, rfl, h | h⟩
      · exact ⟨0, 1, x, by omega, by omega, by omega, rfl⟩
      · exact ⟨2, 4, x, by omega, by omega, by omega, rfl⟩
  have hp : (leavesOnLine 2 [(1, 0, 1), (2, 2, 4)]).Proper 0 1 2 (1 + 3) := by
    refine ⟨h2, h3, fun l p hp => ?_, by rw [h1], 4, by omega, by decide, fun l p hp x hx => ?_⟩
    · obtain ⟨x, _, h⟩ := (hm l p).1 hp
      omega
    · obtain ⟨y, rfl, h⟩ := (hm l p).1 hp
      simp only [List.mem_singleton] at hx
      subst hx
      rcases h with ⟨rfl, h⟩ | ⟨rfl, h⟩ <;> norm_num <;> omega
  refine ⟨hp, by decide +kernel, fun m e l p hc => ?_⟩
  obtain ⟨m', e', h5⟩ := mroUpdateSubMesh_spec (w := 1) hp
  obtain rfl : m' = m := Option.some.inj (e'.symm.trans e)
  rw [h5.all.2]
  obtain ⟨l', q, c1, c2, c3⟩ := hc
  obtain ⟨x, rfl, hx⟩ := (hm _ _).1 c2
  have c3 := anc_iff.1 c3
  have hn : ∀ (a : Int) (q : List Int), q = [a] → Near 1 [a] q := by
    rintro a q rfl
    exact near_refl 1 _
  rcases hx with ⟨rfl, rfl⟩ | ⟨rfl, hx⟩
  · obtain rfl : l = 0 := by omega
    exact Or.inl (Or.inl (Or.inr ⟨[0], (hm 1 _).2 ⟨0, rfl, by omega⟩, by rw [c3]; exact near_refl 1 _⟩))
  · obtain rfl | rfl : l = 0 ∨ l = 1 := by omega
    · refine Or.inl (Or.inl (Or.inr ⟨[0], (hm 1 _).2 ⟨0, rfl, by omega⟩, ?_⟩))
      rw [c3, List.map_singleton, show shr x (2 - 0) = 0 by simp [shr]; omega]
      exact near_refl 1 _
    · exact Or.inl (Or.inl (Or.inr ⟨[x], (hm 2 _).2 ⟨x, rfl, by omega⟩, by rw [c3]; exact near_refl 1 _⟩))

/-! ### what fails -/

/-- C116, projection: "every child of a projection cell is in the reference mesh" is false, even for a graduated mesh: with `ghost_width` 2, the
cell `[0]` of level 1 is a projection cell none of whose children is in the reference mesh. The update of the ghosts neither projects nor predicts it. -/
theorem C116_projection_refuted : ∃ (cells : CA) (m : MroMeshes), cells.Proper 0 1 4 5 ∧ cells.FaceGraded 0 ∧
    mroUpdateSubMesh 0 2 cells 4 = some m ∧ m.proj.Mem 0 1 [0] ∧ ¬ m.all.Mem 0 2 [0] ∧ ¬ m.all.Mem 0 2 [1] := by
  obtain ⟨m, h1, h2⟩ := mroUpdateSubMesh_spec (w := 2) refinedRight_proper
  have hmem : ∀ l x, refinedRight.Mem 0 l [x] ↔
      ((l = 1 ∧ x = -3) ∨ (l = 2 ∧ x = -4) ∨ (l = 3 ∧ x = -6) ∨ (l = 4 ∧ -10 ≤ x ∧ x < 16)) := by
    intro l x
    rw [refinedRight_mem]
    simp
  have hlen : ∀ l p, refinedRight.Mem 0 l p → ∃ x, p = [x] := fun l p hp => by
    obtain ⟨x, hx, _⟩ := (refinedRight_mem l p).1 hp; exact ⟨x, hx⟩
  have near1 : ∀ (w : Nat) (a b : Int), Near w [a] [b] ↔ a ≤ b + w ∧ b ≤ a + w := by
    intro w a b
    unfold Near
    simp
  have hbase : ∀ x, MroBase 0 2 refinedRight 2 [x] → x ≤ -1 := by
    intro x hx
    rcases hx with ⟨q, hq, hn⟩ | ⟨q, hq, hn⟩
    · obtain ⟨y, rfl⟩ := hlen _ _ hq
      rw [hmem] at hq
      rw [near1] at hn
      push_cast at hn
      omega
    · obtain ⟨y, rfl⟩ := hlen _ _ hq
      rw [hmem] at hq
      rw [List.map_singleton, near1] at hn
      simp only [shr] at hn
      push_cast at hn
      omega
  have hno : ∀ x, (x = 0 ∨ x = 1) → ¬ m.all.Mem 0 2 [x] := by
    intro x hx hm
    have hs : shr x 1 = 0 := by unfold shr; omega
    rw [h2.all.2] at hm
    rcases hm with (hm | ⟨_, _, _, ⟨q, q1, q2⟩, _⟩) | ⟨l0, q, e1, e2, e3, e4, _⟩
    · have := hbase x hm
      omega
    · have hl := anc_length q2
      obtain ⟨y, rfl⟩ : ∃ y, q = [y] := by
        match q, hl with
        | [y], _ => exact ⟨y, rfl⟩
      have := hbase y q1
      have h3 := anc_iff.1 q2
      simp only [List.map_cons, List.map_nil, List.cons.injEq, and_true, hs] at h3
      unfold shr at h3
      omega
    · obtain rfl : l0 = 1 := by omega
      obtain ⟨y, rfl⟩ := hlen _ _ e3
      rw [hmem] at e3
      rw [List.map_singleton, near1, hs] at e4
      push_cast at e4
      omega
  refine ⟨refinedRight, m, refinedRight_proper, refinedRight_graded, h1, ?_, hno 0 (Or.inl rfl), hno 1 (Or.inr rfl)⟩
  have hc : refinedRight.Mem 0 1 [-3] := (hmem 1 (-3)).2 (by omega)
  rw [h2.proj.2]
  refine ⟨Or.inl (Or.inr ⟨[-4], (hmem 2 (-4)).2 (by omega), ?_⟩), ?_, 4, [0], by omega, (hmem 4 0).2 (by omega), anc_iff.2 (by decide)⟩
  · rw [List.map_singleton, near1]
    decide
  · have := (CA.mem_levels refinedRight_proper.wf hc).1
    omega

/-- C116, overleaves: in dimension 3 half of the children are forgotten. With one leaf of level 0, its child `(0, 1, 0)` is neither in the overleaves
nor in the reference mesh. -/
theorem C116_dim3_refuted : ∃ (cells : CA) (m : MroMeshes), cells.Proper 2 0 1 4 ∧ mroUpdateSubMesh 2 1 cells 1 = some m ∧
    cells.Mem 2 0 [0, 0, 0] ∧ Anc 1 [0, 0, 0] [0, 1, 0] ∧ ¬ m.over.Mem 2 1 [0, 1, 0] ∧ ¬ m.all.Mem 2 1 [0, 1, 0] := by
  obtain ⟨cl, h1, h2⟩ := (hist_new 2 1).calls (k := [(0, .interval [0, 0] (.mk' 0 1))]) (by
    simp [CellCall.idx, CellCall.Valid, Interval.mk'])
  obtain ⟨a1, a2, a3, -, a5⟩ := h2.array
  have hm : ∀ l p, (CA.ofCL cl).Mem 2 l p ↔ l = 0 ∧ p = [0, 0, 0] := by
    intro l p
    rw [a5]
    simp only [List.mem_singleton, Prod.mk.injEq, false_or]
    constructor
    · rintro ⟨c, ⟨rfl, rfl⟩, x, x1, x2, rfl⟩
      simp only [Interval.mk'] at x1 x2
      obtain rfl : x = 0 := by omega
      exact ⟨rfl, rfl⟩
    · rintro ⟨rfl, rfl⟩
      exact ⟨_, ⟨rfl, rfl⟩, 0, by decide, by decide, rfl⟩
  have hp : (CA.ofCL cl).Proper 2 0 1 4 := by
    refine ⟨a2, a3, fun l p hp => ?_, by rw [a1], 2, by omega, by decide, fun l p hp x hx => ?_⟩
    · have := ((hm l p).1 hp).1; omega
    · obtain ⟨rfl, rfl⟩ := (hm l p).1 hp
      simp only [List.mem_cons, List.not_mem_nil, or_false, or_self] at hx
      subst hx
      decide
  obtain ⟨m, m1, m2⟩ := mroUpdateSubMesh_spec (w := 1) hp
  have hover : ¬ MroOver 2 (CA.ofCL cl) 1 1 [0, 1, 0] := by
    rintro ⟨_, _, _, _, _, _, b, hb⟩
    have h1 := hb 0 (by simp)
    have h2 := hb 1 (by simp)
    omega
  refine ⟨CA.ofCL cl, m, hp, m1, (hm 0 _).2 ⟨rfl, rfl⟩, anc_iff.2 (by decide), fun h => hover ((m2.over.2 _ _).1 h), fun h => ?_⟩
  rcases (m2.all.2 _ _).1 h with ((⟨q, hq, _⟩ | ⟨q, hq, _⟩) | ⟨_, ⟨q, hq⟩, _⟩) | h
  · have := ((hm _ _).1 hq).1; omega
  · have := ((hm _ _).1 hq).1; omega
  · have := ((hm _ _).1 hq).1; omega
  · exact hover h

/-- C116, numbering: the construction of a mesh with overleaves reads out of bounds for some graduated meshes: the sub-mesh `union_cells` holds cells
that are not in the reference mesh, and `renumbering()` looks for them there. -/
theorem C116_numbering_refuted : ∃ cells : CA, cells.Proper 0 1 4 4 ∧ cells.FaceGraded 0 ∧ mroMesh 0 1 cells 4 = none := by
  refine ⟨refinedLeft, refinedLeft_proper.sub (by omega), refinedLeft_graded, ?_⟩
  have : (mroMesh 0 1 refinedLeft 4).isNone = true := by decide +kernel
  simpa using this

end Samurai

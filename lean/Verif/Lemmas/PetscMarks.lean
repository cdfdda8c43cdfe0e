import Verif.Model.PetscSystem
import Verif.Lemmas.PetscFree
import Verif.Lemmas.DomainIndices
import Verif.Lemmas.GraduationLoop
import Verif.Props.Interface

/-! The rows that the scheme fills. -/

namespace Samurai

/-! ### loops that collect lists -/

theorem overLevels_mem {α : Type} {f : Nat → Option (List α)} {P : Nat → α → Prop} : ∀ ls : List Nat, (∀ l ∈ ls, ∃ r, f l = some r ∧ ∀ a, a ∈ r ↔ P l a) →
    ∃ r, overLevels f ls = some r ∧ ∀ a, a ∈ r ↔ ∃ l ∈ ls, P l a := by
  intro ls
  induction ls with
  | nil => intro _; exact ⟨[], rfl, by simp⟩
  | cons l ls ih =>
    intro h
    obtain ⟨r, h1, h2⟩ := h l List.mem_cons_self
    obtain ⟨s, h3, h4⟩ := ih fun l' hl' => h l' (List.mem_cons_of_mem _ hl')
    refine ⟨r ++ s, by rw [overLevels, h1, h3], fun a => ?_⟩
    rw [List.mem_append, h2, h4]
    simp

theorem overList_mem {α β : Type} {f : α → Option (List β)} {P : α → β → Prop} : ∀ ls : List α, (∀ l ∈ ls, ∃ r, f l = some r ∧ ∀ a, a ∈ r ↔ P l a) →
    ∃ r, overList f ls = some r ∧ ∀ a, a ∈ r ↔ ∃ l ∈ ls, P l a := by
  intro ls
  induction ls with
  | nil => intro _; exact ⟨[], rfl, by simp⟩
  | cons l ls ih =>
    intro h
    obtain ⟨r, h1, h2⟩ := h l List.mem_cons_self
    obtain ⟨s, h3, h4⟩ := ih fun l' hl' => h l' (List.mem_cons_of_mem _ hl')
    refine ⟨r ++ s, by rw [overList, h1, h3], fun a => ?_⟩
    rw [List.mem_append, h2, h4]
    simp

/-! ### every leaf has an interface in the direction x -/

theorem anc_corner (k : Nat) (yz : List Int) (x c : Int) (h0 : 0 ≤ c) (h1 : c < 2 ^ k) :
    Anc k (yz ++ [x]) ((yz.map fun y => y * 2 ^ k) ++ [x * 2 ^ k + c]) := by
  rw [anc_iff, List.map_append, List.map_map]
  have : ((fun x => shr x k) ∘ fun y : Int => y * 2 ^ k) = id := by
    funext y
    exact shr_mul_pow y k
  rw [this, List.map_id, List.map_singleton]
  congr 2
  symm
  rw [shr_eq_iff]
  have := pow_two_pos k
  constructor
  · omega
  · rw [add_mul]; omega

theorem shift_x {n : Nat} {yz : List Int} (hl : yz.length = n) (x : Int) : shiftPoint (unitDir 0) n (yz ++ [x]) = yz ++ [x + 1] := by
  rw [shift_snoc' hl]
  subst hl
  rw [shift_row (fun k _ => by simp [unitDir])]
  rfl

section
variable {n : Nat} {cells ref : CA} {dom : LCA} {minL maxL w : Nat}

theorem FVMesh.leaf_face (g : FVMesh n cells ref dom minL maxL w) {l : Nat} {p : List Int} (h : cells.Mem n l p) :
    (∃ b, Interface n cells (unitDir 0) (l, p) b) ∨ ∀ m, Anc (maxL - l) (shiftPoint (unitDir 0) n p) m → ¬ InDomain n dom maxL m := by
  have hlen := mem_length h.2
  have hb := g.leaves.between _ _ h
  obtain ⟨yz, x, rfl⟩ : ∃ yz x, p = yz ++ [x] := by
    rcases List.eq_nil_or_concat p with rfl | ⟨a, b, rfl⟩
    · simp at hlen
    · exact ⟨a, b, by simp⟩
  have hyz : yz.length = n := by simpa using hlen
  rw [shift_x hyz]
  have hp : ∀ k : Nat, (0 : Int) < 2 ^ k := pow_two_pos
  have hc := anc_corner (maxL - l) yz (x + 1) 0 le_rfl (hp _)
  by_cases hin : InDomain n dom maxL ((yz.map fun y => y * 2 ^ (maxL - l)) ++ [(x + 1) * 2 ^ (maxL - l) + 0])
  · left
    obtain ⟨l', q', hl', hq', ha⟩ := (g.leaves.tiles _).2 hin
    refine ⟨(l', q'), h, hq', ?_⟩
    unfold FaceAt
    simp only []
    rcases Nat.le_total l' l with hle | hle
    · rw [Nat.max_eq_left hle, Nat.sub_self]
      refine ⟨_, anc_zero.2 rfl, ?_⟩
      rw [shift_x hyz]
      refine anc_iff.2 ?_
      rw [anc_iff.1 ha, anc_iff.1 hc, List.map_map]
      refine List.map_congr_left fun y _ => ?_
      show shr y _ = shr (shr y _) _
      rw [shr_shr]
      congr 1
      omega
    · rw [Nat.max_eq_right hle, Nat.sub_self]
      refine ⟨(yz.map fun y => y * 2 ^ (l' - l)) ++ [x * 2 ^ (l' - l) + (2 ^ (l' - l) - 1)], anc_corner _ _ _ _ (by have := hp (l' - l); omega) (by omega), ?_⟩
      rw [shift_x (by simpa using hyz)]
      refine anc_zero.2 ?_
      rw [anc_iff.1 ha, List.map_append, List.map_map, List.map_singleton]
      congr 1
      · refine List.map_congr_left fun y _ => ?_
        show shr (y * 2 ^ (maxL - l)) _ = _
        rw [show maxL - l = (l' - l) + (maxL - l') by omega, pow_add, ← mul_assoc, shr_mul_pow]
      · rw [show maxL - l = (l' - l) + (maxL - l') by omega, pow_add, ← mul_assoc, add_zero, shr_mul_pow]
        congr 1
        ring
  · right
    intro m hm hd
    refine hin (g.domain.whole ((yz ++ [x + 1]).map fun y => shr y (l - minL)) m _ ?_ ?_ hd)
    · rw [show maxL - minL = (l - minL) + (maxL - l) by omega]
      exact anc_trans (anc_iff.2 rfl) hm
    · rw [show maxL - minL = (l - minL) + (maxL - l) by omega]
      exact anc_trans (anc_iff.2 rfl) hc

/-! ### the marked rows -/

theorem mem_faceMarks {L : MatLayout} {f : FaceCall} {r : Int} : r ∈ faceMarks L f ↔ ∃ i < L.outSize, r = L.row f.left.index i ∨ r = L.row f.right.index i := by
  unfold faceMarks
  simp [List.mem_flatMap]

theorem mem_bdryMarks {L : MatLayout} {f : BdryCall} {r : Int} : r ∈ bdryMarks L f ↔ ∃ i < L.outSize, r = L.row f.cell.index i := by
  unfold bdryMarks
  simp only [List.mem_map, List.mem_range]
  exact exists_congr fun i => and_congr_right fun _ => eq_comm

/-- With the boundary interfaces, the rows that are marked are those of the leaves. -/
theorem schemeMarks_spec (g : FVMesh n cells ref dom minL maxL w) (hN : FVNumbers n cells ref) {sub : LCA} (hsub : constructSubdomain n cells maxL = some sub)
    (L : MatLayout) {S : Nat → List (Nat → Int)} (hS : ∀ d ≤ n, StencilOK n w (unitDir d) (S d)) :
    ∃ R, schemeMarks n L ref sub cells maxL true S = some R ∧ ∀ r, r ∈ R ↔ ∃ k, LeafNum n cells k ∧ ∃ i < L.outSize, r = L.row k i := by
  have hleaf : ∀ {l q c}, cells.Mem n l q → CellIs n ref l q c → LeafNum n cells c.index := fun h hi => leafNum_of g.leaves.wf g.refWF hN h hi
  obtain ⟨a, a1, a2⟩ := overLevels_mem (f := fun d => (interiorFaces n ref cells maxL (cartesianDir d) (S d)).map fun fs => fs.flatMap (faceMarks L))
    (P := fun d r => ∃ fs, interiorFaces n ref cells maxL (unitDir d) (S d) = some fs ∧ ∃ f ∈ fs, r ∈ faceMarks L f) (List.range (n + 1)) (by
      intro d hd
      obtain ⟨fs, h1, -⟩ := C38_interior_interfaces n cells ref dom minL maxL w d (S d) g (by have := List.mem_range.1 hd; omega) (hS d (by have := List.mem_range.1 hd; omega))
      refine ⟨_, by show Option.map _ (interiorFaces n ref cells maxL (unitDir d) (S d)) = _; rw [h1]; rfl, fun r => ?_⟩
      rw [List.mem_flatMap]
      constructor
      · exact fun h => ⟨fs, h1, h⟩
      · rintro ⟨fs', h2, h⟩
        rw [h1] at h2
        cases h2
        exact h)
  obtain ⟨b, b1, b2⟩ := overLevels_mem (f := fun d => overLevels (bdryLevelMarks n L ref sub cells (cartesianDir d) (S d)) cells.usedLevels)
    (P := fun d r => ∃ l ∈ cells.usedLevels, ∃ fs fs', bdryFaces n ref sub cells (unitDir d) (S d) l = some fs ∧ bdryFacesOpp n ref sub cells (unitDir d) (S d) l = some fs' ∧
      ∃ f, (f ∈ fs ∨ f ∈ fs') ∧ r ∈ bdryMarks L f) (List.range (n + 1)) (by
      intro d hd
      refine overLevels_mem cells.usedLevels fun l hl => ?_
      obtain ⟨p, hp⟩ := (mem_usedLevels g.leaves.wf).1 hl
      obtain ⟨⟨fs, h1, -⟩, fs', h1', -⟩ := C41_boundary_calls n cells ref dom sub minL maxL w d l (S d) g (by have := List.mem_range.1 hd; omega)
        (hS d (by have := List.mem_range.1 hd; omega)) (g.leaves.between _ _ hp).2 hsub
      refine ⟨(fs ++ fs').flatMap (bdryMarks L), ?_, fun r => ?_⟩
      · show bdryLevelMarks n L ref sub cells (unitDir d) (S d) l = _
        unfold bdryLevelMarks
        rw [h1, h1']
      · rw [List.mem_flatMap]
        simp only [List.mem_append]
        constructor
        · exact fun h => ⟨fs, fs', h1, h1', h⟩
        · rintro ⟨gs, gs', h2, h2', h⟩
          rw [h1] at h2
          rw [h1'] at h2'
          cases h2
          cases h2'
          exact h)
  refine ⟨a ++ b, by unfold schemeMarks; rw [a1, if_pos rfl, b1], fun r => ?_⟩
  rw [List.mem_append, a2, b2]
  constructor
  · rintro (⟨d, hd, fs, h1, f, hf, hr⟩ | ⟨d, hd, l, hl, fs, fs', h1, h1', f, hf, hr⟩)
    · have hd' : d ≤ n := by have := List.mem_range.1 hd; omega
      obtain ⟨fs', j1, -, j3, j4⟩ := C38_interior_interfaces n cells ref dom minL maxL w d (S d) g hd' (hS d hd')
      rw [h1] at j1
      cases j1
      obtain ⟨k1, k2, -⟩ := (j3 _ _).1 (List.mem_map.2 ⟨f, hf, rfl⟩)
      obtain ⟨i, hi, h | h⟩ := mem_faceMarks.1 hr
      · exact ⟨_, hleaf k1 (j4 f hf).1, i, hi, h⟩
      · exact ⟨_, hleaf k2 (j4 f hf).2.1, i, hi, h⟩
    · have hd' : d ≤ n := by have := List.mem_range.1 hd; omega
      obtain ⟨p, hp⟩ := (mem_usedLevels g.leaves.wf).1 hl
      obtain ⟨⟨gs, j1, -, j2, j3⟩, gs', j1', -, j2', j3'⟩ := C41_boundary_calls n cells ref dom sub minL maxL w d l (S d) g hd' (hS d hd') (g.leaves.between _ _ hp).2 hsub
      rw [h1] at j1
      rw [h1'] at j1'
      cases j1
      cases j1'
      obtain ⟨i, hi, h⟩ := mem_bdryMarks.1 hr
      rcases hf with hf | hf
      · exact ⟨_, hleaf ((j2 _).1 (List.mem_map.2 ⟨f, hf, rfl⟩)).1 (j3 f hf).1, i, hi, h⟩
      · exact ⟨_, hleaf ((j2' _).1 (List.mem_map.2 ⟨f, hf, rfl⟩)).1 (j3' f hf).1, i, hi, h⟩
  · rintro ⟨k, ⟨l, q, hk⟩, i, hi, rfl⟩
    have hq := CA.mem_of_numbered g.leaves.wf hk
    have hnum := hN.same _ _ _ hk
    have h0 : 0 ∈ List.range (n + 1) := List.mem_range.2 (by omega)
    rcases g.leaf_face hq with ⟨b', hb⟩ | hb
    · left
      obtain ⟨fs, j1, -, j3, j4⟩ := C38_interior_interfaces n cells ref dom minL maxL w 0 (S 0) g (by omega) (hS 0 (by omega))
      obtain ⟨f, hf, he⟩ := List.mem_map.1 ((j3 _ _).2 hb)
      refine ⟨0, h0, fs, j1, f, hf, mem_faceMarks.2 ⟨i, hi, Or.inl ?_⟩⟩
      have hr := (j4 f hf).1.2.2
      have e1 : (f.left.level, f.left.pt) = (l, q) := congrArg Prod.fst he
      cases e1
      rw [CA.number_unique g.refWF hr hnum]
    · right
      obtain ⟨⟨gs, j1, -, j2, j3⟩, gs', j1', -⟩ := C41_boundary_calls n cells ref dom sub minL maxL w 0 l (S 0) g (by omega) (hS 0 (by omega)) (g.leaves.between _ _ hq).2 hsub
      obtain ⟨f, hf, he⟩ := List.mem_map.1 ((j2 q).2 ⟨hq, hb⟩)
      refine ⟨0, h0, l, (mem_usedLevels g.leaves.wf).2 ⟨q, hq⟩, gs, gs', j1, j1', f, Or.inl hf, mem_bdryMarks.2 ⟨i, hi, ?_⟩⟩
      have hr := (j3 f hf).1.2.2
      rw [he] at hr
      rw [CA.number_unique g.refWF hr hnum]

end

end Samurai

/-
C26: `make_graduation` and `is_graduated`.
-/
import Verif.Lemmas.GraduationLoop

namespace Samurai

theorem CA.Proper.gradInv {n g m : Nat} {c : CA} (h : c.Proper n c.minLevel c.maxLevel m) (hm : g + 2 ≤ m) (hn : c.NumbersDiffer n) :
    GradInv n c.minLevel c.maxLevel g c := by
  obtain ⟨D, d1, d2, d3⟩ := h.range
  refine ⟨h.wf, h.leveled, h.size, h.between, ⟨D, d1, ?_, d3⟩, hn⟩
  have h1 : ((g : Int) + 2) * 2 ^ c.maxLevel ≤ (m : Int) * 2 ^ c.maxLevel :=
    Int.mul_le_mul_of_nonneg_right (by omega) (by have := pow_two_pos c.maxLevel; omega)
  omega

/-- **C26** `is_graduated` is total, and says whether the mesh is graded: it returns `true` exactly when no leaf moved by a vector of the stencil
falls in a leaf more than one level coarser. -/
theorem C26_is_graduated {n g : Nat} {stencil : List (Nat → Int)} {c : CA} (h : c.Proper n c.minLevel c.maxLevel (g + 2)) (hn : c.NumbersDiffer n)
    (hs : ∀ s ∈ stencil, ∀ d, s d ≤ (g : Int)) :
    ∃ b, isGraduated n stencil c = some b ∧ (b = true ↔ c.GradedFor n stencil) := isGraduated_spec (h.gradInv le_rfl hn) hs

theorem GradInv.own {n minL maxL g : Nat} {c : CA} (h : GradInv n minL maxL g c) : GradInv n c.minLevel c.maxLevel g c := by
  obtain ⟨D, d1, d2, d3⟩ := h.range
  have hb : c.Between n c.minLevel c.maxLevel := fun l p hp => CA.mem_levels h.wf hp
  have hp := pow_two_pos maxL
  rcases c.level_cases with ⟨h1, _, h3⟩ | ⟨h0, h1, _, h3, _, _⟩
  · refine ⟨h.wf, h.leveled, by rw [h3]; exact Nat.zero_le _, hb, ⟨0, le_rfl, ?_, fun l p hm => ?_⟩, h.numbers⟩
    · rw [h3]
      have : ((g : Int) + 2) * 2 ^ 0 ≤ ((g : Int) + 2) * 2 ^ maxL := Int.mul_le_mul_of_nonneg_left (pow_mono_two (by omega)) (by omega)
      omega
    · obtain ⟨e, he, _⟩ := (Samurai.mem_iff_rows (h.wf l hm.1) p).1 hm.2
      rw [(rows_eq_nil_iff (h.wf l hm.1)).2 (h1 l hm.1)] at he
      simp at he
  · have hle : c.maxLevel ≤ maxL := by
      have hne : (c.lca c.maxLevel).rows n ≠ [] := by
        intro he
        rw [(rows_eq_nil_iff (h.wf _ h1)).1 he] at h3
        simp at h3
      obtain ⟨e, he⟩ := List.exists_mem_of_ne_nil _ hne
      have hv := (rows_valid (h.wf _ h1) he).2
      exact (h.between c.maxLevel (e.1 ++ [e.2.start]) ⟨h1, (Samurai.mem_iff_rows (h.wf _ h1) _).2 ⟨e, he, e.2.start,
        Interval.mem_def.2 ⟨le_rfl, hv⟩, rfl⟩⟩).2
    refine ⟨h.wf, h.leveled, h1, hb, ⟨D, d1, ?_, fun l p hm x hx => ?_⟩, h.numbers⟩
    · have : ((g : Int) + 2) * 2 ^ c.maxLevel ≤ ((g : Int) + 2) * 2 ^ maxL := Int.mul_le_mul_of_nonneg_left (pow_mono_two hle) (by omega)
      omega
    · have h5 := d3 l p hm x hx
      have h6 := (hb l p hm).2
      have h7 : (2 : Int) ^ (c.maxLevel - l) ≤ 2 ^ (maxL - l) := pow_mono_two (by omega)
      have h8 := pow_two_pos (c.maxLevel - l)
      rcases lt_or_ge x 0 with hx0 | hx0
      · have : x * 2 ^ (c.maxLevel - l) < 0 := Int.mul_neg_of_neg_of_pos hx0 h8
        omega
      · have := Int.mul_le_mul_of_nonneg_left h7 hx0
        omega

/-- What `make_graduation` gives. -/
theorem makeGraduation_spec {n g : Nat} {stencil : List (Nat → Int)} {c : CA} (h : c.Proper n c.minLevel c.maxLevel (g + 3)) (hn : c.NumbersDiffer n)
    (hs : ∀ s ∈ stencil, ∀ d, s d ≤ (g : Int)) (P : CA → Prop)
    (hP : ∀ d new : CA, new.maxSize = d.maxSize → (∀ l p, GradTagged n stencil d l p → l + 2 ≤ c.maxLevel) →
      (∀ l p, new.Mem n l p ↔ (d.Mem n l p ∧ ¬ GradTagged n stencil d l p) ∨
        ∃ l0 q, l = l0 + 1 ∧ d.Mem n l0 q ∧ GradTagged n stencil d l0 q ∧ Anc 1 q p) → P d → P new) :
    ∃ k c', (∀ fuel ≥ k, makeGraduation n stencil fuel c = some c') ∧ GradInv n c.minLevel c.maxLevel g c' ∧
      c'.GradedFor n stencil ∧ GradFrom n c.maxLevel c c' ∧ (P c → P c') := by
  obtain ⟨D, d1, d2, d3⟩ := h.range
  obtain ⟨c', h1, h2, h3, h4, h5⟩ := gradLoop_spec (minL := c.minLevel) hs d1 (by push_cast at d2; exact d2) d3 P
    (fun d new hi hm hmem => hP d new hm (fun l p ht => gradTagged_level hi ht) hmem)
    (gradMeasure n c.maxLevel c) c le_rfl (h.gradInv (by omega) hn) (fun l p hp => ⟨l, p, hp, le_rfl, by rw [Nat.sub_self]; exact anc_zero.2 rfl⟩)
  exact ⟨_, c', h1, h2, not_tagged_graded h3, h4, h5⟩

/-- **C26** `make_graduation` ends, for every mesh whose coordinates leave a margin in the range of `int` and every stencil. The result is graded for
the stencil, covers the same part of space, each of its cells lies in a cell of the input, levels stay between the minimum and maximum levels of the
input, and cells do not overlap when they did not; `is_graduated` accepts it. -/
theorem C26_make_graduation {n g : Nat} {stencil : List (Nat → Int)} {c : CA} (h : c.Proper n c.minLevel c.maxLevel (g + 3))
    (hn : c.NumbersDiffer n) (hs : ∀ s ∈ stencil, ∀ d, s d ≤ (g : Int)) :
    ∃ k c', (∀ fuel ≥ k, makeGraduation n stencil fuel c = some c') ∧ c'.WF n ∧ c'.NumbersDiffer n ∧
      c'.GradedFor n stencil ∧
      (∀ M m, c.maxLevel ≤ M → (c'.Tiles n M m ↔ c.Tiles n M m)) ∧
      c'.Refines n c ∧
      c'.Between n c.minLevel c.maxLevel ∧
      (c.NoOverlap n → c'.NoOverlap n) ∧
      isGraduated n stencil c' = some true := by
  obtain ⟨k, c', h1, h2, h3, h4, _⟩ := makeGraduation_spec h hn hs (fun _ => True) fun _ _ _ _ _ h => h
  refine ⟨k, c', h1, h2.wf, h2.numbers, h3, h4.tiles, h4.refines, h2.between, h4.noOverlap, ?_⟩
  obtain ⟨b, b1, b2⟩ := isGraduated_spec h2.own hs
  rw [b1, b2.2 h3]

/-- **C26** When the mesh is already graded, `make_graduation` keeps exactly its cells. -/
theorem C26_already_graded {n g : Nat} {stencil : List (Nat → Int)} {c : CA} (h : c.Proper n c.minLevel c.maxLevel (g + 3))
    (hn : c.NumbersDiffer n) (hs : ∀ s ∈ stencil, ∀ d, s d ≤ (g : Int)) (hg : c.GradedFor n stencil) :
    ∃ k c', (∀ fuel ≥ k, makeGraduation n stencil fuel c = some c') ∧ ∀ l p, c'.Mem n l p ↔ c.Mem n l p := by
  obtain ⟨k, c', h1, _, _, _, h5⟩ := makeGraduation_spec h hn hs (fun d => ∀ l p, d.Mem n l p ↔ c.Mem n l p) (by
    intro d new _ _ hmem hd l p
    have hT : ∀ l p, c.Mem n l p → ¬ GradTagged n stencil d l p := by
      intro l p hp
      rw [gradTagged_congr hd]
      exact graded_not_tagged hg hp
    rw [hmem]
    constructor
    · rintro (⟨a, _⟩ | ⟨l0, q, _, a, b, _⟩)
      · exact (hd l p).1 a
      · exact absurd b (hT l0 q ((hd l0 q).1 a))
    · intro hp
      exact Or.inl ⟨(hd l p).2 hp, hT l p hp⟩)
  exact ⟨k, c', h1, h5 fun _ _ => Iff.rfl⟩

/-- **C26** With a stencil of radius one, `make_graduation` refines no more than needed: every graded mesh of the same domain that refines the input
also refines the result. -/
theorem C26_coarsest {n : Nat} {stencil : List (Nat → Int)} {c : CA} (h : c.Proper n c.minLevel c.maxLevel 4)
    (hn : c.NumbersDiffer n) (hno : c.NoOverlap n) (hs : ∀ s ∈ stencil, ∀ d, -1 ≤ s d ∧ s d ≤ 1) :
    ∃ k c', (∀ fuel ≥ k, makeGraduation n stencil fuel c = some c') ∧
      ∀ d : CA, d.GradedFor n stencil → d.Refines n c → (∀ M m, c.maxSize ≤ M → d.maxSize ≤ M → (d.Tiles n M m ↔ c.Tiles n M m)) →
        d.Refines n c' := by
  obtain ⟨k, c', h1, _, _, _, h5⟩ := makeGraduation_spec (g := 1) h hn (fun s hs' d => (hs s hs' d).2)
    (fun x => x.maxSize = c.maxSize ∧ x.NoOverlap n ∧ (∀ M m, c.maxLevel ≤ M → (x.Tiles n M m ↔ c.Tiles n M m)) ∧
      ∀ d : CA, d.GradedFor n stencil → d.Refines n c → (∀ M m, c.maxSize ≤ M → d.maxSize ≤ M → (d.Tiles n M m ↔ c.Tiles n M m)) → d.Refines n x) (by
    rintro x new hm hT hmem ⟨e1, e2, e3, e4⟩
    have hf := gradFrom_step (maxL := c.maxLevel) hm hmem hT
    refine ⟨hm.trans e1, hf.noOverlap e2, fun M m hM => (hf.tiles M m hM).trans (e3 M m hM), fun d d1 d2 d3 => ?_⟩
    refine coarsest_step hs e2 hmem d1 (e4 d d1 d2 d3) fun M m hM hM' ht => ?_
    rw [e1] at hM
    exact (d3 M m hM hM').2 ((e3 M m (le_trans h.size hM)).1 ht))
  exact ⟨k, c', h1, (h5 ⟨rfl, hno, fun _ _ _ => Iff.rfl, fun _ _ h _ => h⟩).2.2.2⟩

theorem faceNeighbours_length : ∀ {q p : List Int}, FaceNeighbours q p → q.length = p.length
  | [], _, h => by simp [FaceNeighbours] at h
  | _ :: _, [], h => by simp [FaceNeighbours] at h
  | a :: q, b :: p, h => by
    rcases h with ⟨_, h⟩ | ⟨_, rfl⟩
    · rw [List.length_cons, List.length_cons, faceNeighbours_length h]
    · rfl

/-- The star stencil of radius one reaches the cell itself and the cells that share a face with it. -/
theorem star_reaches {n : Nat} {S : List (Nat → Int)} (hS : starStencil n 1 = some S) {p q : List Int} (hp : p.length = n + 1) :
    (∃ s ∈ S, q = shiftPoint s n p) ↔ q = p ∨ FaceNeighbours q p := by
  match n, p, hp with
  | 0, [x], _ =>
    simp only [starStencil, Option.some.injEq] at hS
    subst hS
    constructor
    · intro h
      simp [shiftPoint, vec] at h
      rcases h with rfl | rfl | rfl <;> simp [FaceNeighbours]
    · rintro (rfl | hf)
      · simp [shiftPoint, vec]
      · have hl := faceNeighbours_length hf
        match q, hl with
        | [a], _ =>
          simp only [FaceNeighbours] at hf
          simp [shiftPoint, vec]
          omega
  | 1, [y, x], _ =>
    simp only [starStencil, Option.some.injEq] at hS
    subst hS
    constructor
    · intro h
      simp [shiftPoint, vec] at h
      rcases h with rfl | rfl | rfl | rfl | rfl <;> simp [FaceNeighbours]
    · rintro (rfl | hf)
      · simp [shiftPoint, vec]
      · have hl := faceNeighbours_length hf
        match q, hl with
        | [a, b], _ =>
          simp only [FaceNeighbours, List.cons.injEq, and_true] at hf
          simp [shiftPoint, vec]
          omega
  | 2, [z, y, x], _ =>
    simp only [starStencil, Option.some.injEq] at hS
    subst hS
    constructor
    · intro h
      simp [shiftPoint, vec] at h
      rcases h with rfl | rfl | rfl | rfl | rfl | rfl | rfl <;> simp [FaceNeighbours]
    · rintro (rfl | hf)
      · simp [shiftPoint, vec]
      · have hl := faceNeighbours_length hf
        match q, hl with
        | [a, b, c], _ =>
          simp only [FaceNeighbours, List.cons.injEq, and_true, and_false, false_or] at hf
          rcases hf with ⟨rfl, ⟨rfl, rfl | rfl⟩ | ⟨rfl | rfl, rfl⟩⟩ | ⟨rfl | rfl, rfl, rfl⟩ <;> simp [shiftPoint, vec]
  | n + 3, _, _ => simp [starStencil] at hS

/-- **C26** For a mesh without overlap and the default stencil (the star of radius one, dimensions 1 to 3), "graded" means that the levels of two
leaves that share a part of a face differ by at most one. -/
theorem C26_star {n : Nat} {S : List (Nat → Int)} (hS : starStencil n 1 = some S) {c : CA} (hno : c.NoOverlap n) :
    c.GradedFor n S ↔ c.FaceGraded n := by
  constructor
  · intro h l p l' p' q hp hp' hl hf ha
    obtain ⟨s, hs, rfl⟩ := (star_reaches hS (CA.mem_len hp')).2 (Or.inr hf)
    exact h l p l' p' s hp hp' hs hl ha
  · intro h l p l' p' s hp hp' hs hl ha
    rcases (star_reaches hS (CA.mem_len hp')).1 ⟨s, hs, rfl⟩ with he | hf
    · rw [he] at ha
      have := (hno l p l' p' hp hp' hl ha).1
      omega
    · exact h l p l' p' _ hp hp' hl hf ha

theorem star_unit {n : Nat} {S : List (Nat → Int)} (hS : starStencil n 1 = some S) : ∀ s ∈ S, ∀ d, -1 ≤ s d ∧ s d ≤ 1 := by
  have key : ∀ L : List Int, (∀ x ∈ L, -1 ≤ x ∧ x ≤ 1) → ∀ d, -1 ≤ vec L d ∧ vec L d ≤ 1 := by
    intro L hL d
    unfold vec
    rw [List.getD_eq_getElem?_getD]
    cases h : L[d]? with
    | none => simp
    | some x => exact hL x (List.mem_of_getElem? h)
  match n with
  | 0 | 1 | 2 =>
    simp only [starStencil, Option.some.injEq] at hS
    subst hS
    simp only [List.mem_cons, List.not_mem_nil, or_false, forall_eq_or_imp, forall_eq]
    refine ⟨?_, ?_, ?_⟩ <;> first | exact key _ (by simp) | (refine ⟨?_, ?_⟩ <;> first | exact key _ (by simp) | (refine ⟨?_, ?_⟩ <;> exact key _ (by simp)) | (refine ⟨?_, ?_, ?_⟩ <;> exact key _ (by simp)) | (refine ⟨?_, ?_, ?_, ?_⟩ <;> exact key _ (by simp)))
  | n + 3 => simp [starStencil] at hS

/-! ### a concrete case -/

/-- In 1D, the leaf 0 of level 0 and the leaves 8 to 15 of level 3: the unit interval and the next one. -/
def gradCalls : List (Nat × CellCall) := [(0, .interval [] (.mk' 0 1)), (3, .interval [] (.mk' 8 16))]

def gradExample : CA := match runLevelCalls 0 4 gradCalls with
  | some cl => (updateIndexCA 0 (CA.ofCL cl)).getD (CA.empty 0 4)
  | none => CA.empty 0 4

theorem gradExample_size : gradExample.maxSize = 4 ∧ gradExample.minLevel = 0 ∧ gradExample.maxLevel = 3 := by decide +kernel

theorem gradExample_spec : gradExample.Built 0 ∧
    ∀ l p, gradExample.Mem 0 l p ↔ (l = 0 ∧ p = [0]) ∨ l = 3 ∧ ∃ x : Int, 8 ≤ x ∧ x < 16 ∧ p = [x] := by
  have hv : ∀ e ∈ gradCalls, e.1 ≤ 4 ∧ e.2.idx.length = 0 ∧ e.2.Valid ∧ e.2.PlainCall := by
    simp [gradCalls, CellCall.idx, CellCall.Valid, CellCall.PlainCall, Interval.mk']
  obtain ⟨cl, h1, _⟩ := runLevelCalls_spec (n := 0) fun e he => (hv e he).1
  obtain ⟨a1, a2, a3, a4⟩ := ofCL_spec h1 (fun e he => (hv e he).1) (fun e he => (hv e he).2.1) fun e he => (hv e he).2.2.1
  obtain ⟨c', g1, g2, g3, g4, _⟩ := C08_levels 0 _ a2
  have he : gradExample = c' := by
    unfold gradExample
    rw [h1]
    simp only []
    rw [g1, Option.getD_some]
  rw [he]
  refine ⟨⟨gradCalls, cl, ?_, ?_, g1⟩, fun l p => ?_⟩
  · rw [g2, a1]; exact hv
  · rw [g2, a1]; exact h1
  · rw [g4]
    unfold CA.Mem
    rw [a1, a4]
    simp only [gradCalls, List.mem_cons, Prod.mk.injEq, List.not_mem_nil, or_false]
    constructor
    · rintro ⟨_, c, ⟨rfl, rfl⟩ | ⟨rfl, rfl⟩, ha⟩ <;> obtain ⟨x, x1, x2, rfl⟩ := ha <;> simp only [Interval.mk'] at x1 x2
      · obtain rfl : x = 0 := by omega
        exact Or.inl ⟨rfl, rfl⟩
      · exact Or.inr ⟨rfl, x, x1, x2, rfl⟩
    · rintro (⟨rfl, rfl⟩ | ⟨rfl, x, x1, x2, rfl⟩)
      · exact ⟨by omega, _, Or.inl ⟨rfl, rfl⟩, 0, by simp [Interval.mk'], by simp [Interval.mk'], rfl⟩
      · exact ⟨by omega, _, Or.inr ⟨rfl, rfl⟩, x, x1, x2, rfl⟩

theorem gradExample_proper : gradExample.Proper 0 gradExample.minLevel gradExample.maxLevel 4 ∧ gradExample.NumbersDiffer 0 ∧
    gradExample.NoOverlap 0 := by
  obtain ⟨hb, hm⟩ := gradExample_spec
  obtain ⟨b1, b2, b3⟩ := hb.spec
  obtain ⟨s1, s2, s3⟩ := gradExample_size
  refine ⟨⟨b1, b2, fun l p hp => CA.mem_levels b1 hp, by omega, 16, by omega, by rw [s3]; decide, fun l p hp x hx => ?_⟩, b3, ?_⟩
  · rw [s3]
    rcases (hm l p).1 hp with ⟨rfl, rfl⟩ | ⟨rfl, y, y1, y2, rfl⟩
    · rw [List.mem_singleton] at hx; subst hx; omega
    · rw [List.mem_singleton] at hx; subst hx; simpa using y2
  · intro l p l' p' hp hp' hl ha
    rcases (hm l p).1 hp with ⟨rfl, rfl⟩ | ⟨rfl, y, y1, y2, rfl⟩ <;> rcases (hm l' p').1 hp' with ⟨rfl, rfl⟩ | ⟨rfl, z, z1, z2, rfl⟩
    · exact ⟨rfl, rfl⟩
    · rw [anc_iff] at ha
      simp [shr] at ha
      omega
    · omega
    · rw [Nat.sub_self] at ha
      exact ⟨rfl, anc_zero.1 ha⟩

/-- The hypotheses of the theorems are met by a mesh that is not graded. -/
example : gradExample.Proper 0 gradExample.minLevel gradExample.maxLevel (1 + 3) ∧ gradExample.NumbersDiffer 0 ∧ gradExample.NoOverlap 0 ∧
    (∀ s ∈ [vec [-1], vec [0], vec [1]], ∀ d, -1 ≤ s d ∧ s d ≤ 1) ∧ ¬ gradExample.GradedFor 0 [vec [-1], vec [0], vec [1]] := by
  refine ⟨gradExample_proper.1, gradExample_proper.2.1, gradExample_proper.2.2, star_unit (n := 0) rfl, fun h => ?_⟩
  have := h 0 [0] 3 [8] (vec [-1]) ((gradExample_spec.2 _ _).2 (Or.inl ⟨rfl, rfl⟩)) ((gradExample_spec.2 _ _).2 (Or.inr ⟨rfl, 8, by omega, by omega, rfl⟩))
    (by simp) (by omega) (by rw [anc_iff]; decide)
  omega

/-- The result of the code on this mesh: the leaf is cut into one leaf of level 1 and two of level 2. -/
example : ((makeGraduation 0 [vec [-1], vec [0], vec [1]] 5 gradExample).map fun c => (c.numbered 0).map fun e => (e.1, e.2.1)) =
    some ([(1, [0]), (2, [2]), (2, [3])] ++ [8, 9, 10, 11, 12, 13, 14, 15].map fun x => (3, [x])) := by decide +kernel

example : isGraduated 0 [vec [-1], vec [0], vec [1]] gradExample = some false := by decide +kernel

/-- The star stencil says nothing of cells that share only a corner: this mesh is accepted although the leaf (3, 3) of level 2 touches by a corner
the leaf (1, 1) of level 0. -/
example : (match runLevelCalls 1 4 [(0, .interval [1] (.mk' 1 2)), (1, .interval [0] (.mk' 2 4)), (1, .interval [1] (.mk' 2 4)),
      (2, .interval [3] (.mk' 3 4))] with
    | some cl => (updateIndexCA 1 (CA.ofCL cl)).bind fun c => isGraduated 1 [vec [-1, 0], vec [0, 0], vec [1, 0], vec [0, -1], vec [0, 1]] c
    | none => none) = some true := by decide +kernel

end Samurai

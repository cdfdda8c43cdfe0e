import Verif.Lemmas.Graduation
import Verif.Lemmas.MRMesh

namespace Samurai

/-! ### the measure -/

/-- The cells as a finite set. -/
def CA.cellSet (n : Nat) (c : CA) : Finset (Nat × List Int) := ((c.numbered n).map fun e => (e.1, e.2.1)).toFinset

theorem CA.mem_cellSet {n : Nat} {c : CA} (h : c.WF n) {l : Nat} {p : List Int} : (l, p) ∈ c.cellSet n ↔ c.Mem n l p := by
  unfold CA.cellSet
  rw [List.mem_toFinset, List.mem_map]
  constructor
  · rintro ⟨⟨l', p', v⟩, hv, heq⟩
    simp only [Prod.mk.injEq] at heq
    obtain ⟨rfl, rfl⟩ := heq
    exact CA.mem_of_numbered h hv
  · intro hp
    obtain ⟨v, hv⟩ := CA.exists_number h hp
    exact ⟨_, hv, rfl⟩

/-- A cell counts more than its children together. -/
def gradMeasure (n M : Nat) (c : CA) : Nat := ∑ e ∈ c.cellSet n, (2 ^ (n + 1) + 1) ^ (M - e.1)

theorem childrenOf_length (p : List Int) : (childrenOf p).length = 2 ^ p.length := by
  induction p with
  | nil => rfl
  | cons c p ih =>
    have : ∀ L : List (List Int), (L.flatMap fun q => [(2 * c) :: q, (2 * c + 1) :: q]).length = 2 * L.length := by
      intro L
      induction L with
      | nil => rfl
      | cons a L ihL => rw [List.flatMap_cons, List.length_append, ihL]; simp; omega
    rw [childrenOf, this, ih, List.length_cons, pow_succ]
    omega

theorem CA.mem_len {n : Nat} {c : CA} {l : Nat} {p : List Int} (h : c.Mem n l p) : p.length = n + 1 := mem_length h.2

theorem sum_biUnion_le' {α β : Type} [DecidableEq α] [DecidableEq β] (V : Finset α) (kids : α → Finset β) (w : β → Nat) :
    ∑ e ∈ V.biUnion kids, w e ≤ ∑ e ∈ V, ∑ f ∈ kids e, w f := by
  induction V using Finset.induction_on with
  | empty => simp
  | insert a V ha ih =>
    rw [Finset.biUnion_insert, Finset.sum_insert ha]
    have := Finset.sum_union_inter (s₁ := kids a) (s₂ := V.biUnion kids) (f := w)
    omega

theorem gradMeasure_lt {n M : Nat} {c new : CA} (hc : c.WF n) (hn : new.WF n) {T : Nat → List Int → Prop}
    (hmem : ∀ l p, new.Mem n l p ↔ (c.Mem n l p ∧ ¬ T l p) ∨ ∃ l0 q, l = l0 + 1 ∧ c.Mem n l0 q ∧ T l0 q ∧ Anc 1 q p)
    (hT : ∀ l p, c.Mem n l p → T l p → l < M) (hne : ∃ l p, c.Mem n l p ∧ T l p) : gradMeasure n M new < gradMeasure n M c := by
  have : DecidablePred fun e : Nat × List Int => T e.1 e.2 := fun _ => Classical.propDecidable _
  let B := 2 ^ (n + 1) + 1
  let w : Nat × List Int → Nat := fun e => B ^ (M - e.1)
  let kids : Nat × List Int → Finset (Nat × List Int) := fun e => ((childrenOf e.2).map fun q => (e.1 + 1, q)).toFinset
  let U := (c.cellSet n).filter fun e => ¬ T e.1 e.2
  let V := (c.cellSet n).filter fun e => T e.1 e.2
  have hsub : new.cellSet n ⊆ U ∪ V.biUnion kids := by
    rintro ⟨l, p⟩ hp
    rw [Finset.mem_union]
    rcases (hmem l p).1 ((CA.mem_cellSet hn).1 hp) with ⟨h1, h2⟩ | ⟨l0, q, rfl, h2, h3, h4⟩
    · exact Or.inl (Finset.mem_filter.2 ⟨(CA.mem_cellSet hc).2 h1, h2⟩)
    · refine Or.inr (Finset.mem_biUnion.2 ⟨(l0, q), Finset.mem_filter.2 ⟨(CA.mem_cellSet hc).2 h2, h3⟩, ?_⟩)
      exact List.mem_toFinset.2 (List.mem_map.2 ⟨p, mem_childrenOf.2 (anc_iff.1 h4), rfl⟩)
  have hkid : ∀ e ∈ V, (∑ f ∈ kids e, w f) < w e := by
    rintro ⟨l, p⟩ he
    obtain ⟨h1, h2⟩ := Finset.mem_filter.1 he
    have h1 := (CA.mem_cellSet hc).1 h1
    have hlM := hT l p h1 h2
    have hcard : (kids (l, p)).card ≤ 2 ^ (n + 1) := by
      refine (List.toFinset_card_le _).trans ?_
      rw [List.length_map, childrenOf_length, CA.mem_len h1]
    have hsum : ∑ f ∈ kids (l, p), w f = (kids (l, p)).card * B ^ (M - (l + 1)) := by
      rw [Finset.sum_congr rfl (g := fun _ => B ^ (M - (l + 1))), Finset.sum_const, smul_eq_mul]
      intro f hf
      obtain ⟨q, _, rfl⟩ := List.mem_map.1 (List.mem_toFinset.1 hf)
      rfl
    have hpos : 0 < B ^ (M - (l + 1)) := Nat.pow_pos (Nat.succ_pos _)
    show _ < B ^ (M - l)
    rw [hsum, show M - l = (M - (l + 1)) + 1 by omega, pow_succ, Nat.mul_comm]
    exact Nat.mul_lt_mul_of_pos_left (show _ < 2 ^ (n + 1) + 1 by omega) hpos
  have hV : V.Nonempty := by
    obtain ⟨l, p, h1, h2⟩ := hne
    exact ⟨(l, p), Finset.mem_filter.2 ⟨(CA.mem_cellSet hc).2 h1, h2⟩⟩
  have hsplit : gradMeasure n M c = (∑ e ∈ V, w e) + ∑ e ∈ U, w e := (Finset.sum_filter_add_sum_filter_not _ _ _).symm
  rw [hsplit]
  calc gradMeasure n M new ≤ ∑ e ∈ U ∪ V.biUnion kids, w e := Finset.sum_le_sum_of_subset hsub
    _ ≤ (∑ e ∈ U, w e) + ∑ e ∈ V.biUnion kids, w e := by
      have := Finset.sum_union_inter (s₁ := U) (s₂ := V.biUnion kids) (f := w)
      omega
    _ ≤ (∑ e ∈ U, w e) + ∑ e ∈ V, ∑ f ∈ kids e, w f := Nat.add_le_add_left (sum_biUnion_le' _ _ _) _
    _ < (∑ e ∈ U, w e) + ∑ e ∈ V, w e := Nat.add_lt_add_left (Finset.sum_lt_sum_of_nonempty hV hkid) _
    _ = _ := Nat.add_comm _ _

/-! ### comparison of meshes -/

theorem CA.beq_refl (n : Nat) (c : CA) : c.beq n c = true := by
  unfold CA.beq
  simp only [decide_true, Bool.and_self, Bool.true_and, List.all_eq_true]
  exact fun l _ => beq_iff.2 ⟨rfl, fun _ _ => rfl, fun _ _ => rfl⟩

theorem CA.beq_mem {n : Nat} {a b : CA} (ha : a.WF n) (hb : b.WF n) (hm : a.maxSize = b.maxSize) (h : a.beq n b = true) (l : Nat) (p : List Int) :
    a.Mem n l p ↔ b.Mem n l p := by
  unfold CA.beq at h
  simp only [Bool.and_eq_true, decide_eq_true_eq, List.all_eq_true] at h
  obtain ⟨⟨h1, h2⟩, h3⟩ := h
  have key : ∀ l, a.minLevel ≤ l → l ≤ a.maxLevel → ((a.lca l).Mem n p ↔ (b.lca l).Mem n p) := by
    intro l hl hl'
    have := h3 l (by unfold CA.levels; rw [List.mem_range'_1]; omega)
    exact (C07_sound n _ _ this).2 p
  constructor
  · intro hp
    have hl := CA.mem_levels ha hp
    exact ⟨by rw [← hm]; exact hp.1, (key l hl.1 hl.2).1 hp.2⟩
  · intro hp
    have hl := CA.mem_levels hb hp
    exact ⟨by rw [hm]; exact hp.1, (key l (by omega) (by omega)).2 hp.2⟩

/-! ### one turn of the loop -/

theorem gradTagged_level {n minL maxL g : Nat} {stencil : List (Nat → Int)} {c : CA} (h : GradInv n minL maxL g c) {l : Nat} {p : List Int}
    (ht : GradTagged n stencil c l p) : l + 2 ≤ maxL := by
  obtain ⟨l', q, s, _, h2, h3, _⟩ := ht
  have := (h.between _ _ h3).2
  omega

theorem gradTurn_spec {n minL maxL g : Nat} {stencil : List (Nat → Int)} {c : CA} (h : GradInv n minL maxL g c)
    (hs : ∀ s ∈ stencil, ∀ d, s d ≤ (g : Int)) :
    ∃ new, new.maxSize = c.maxSize ∧ new.Built n ∧
      (∀ l p, new.Mem n l p ↔ (c.Mem n l p ∧ ¬ GradTagged n stencil c l p) ∨
        ∃ l0 q, l = l0 + 1 ∧ c.Mem n l0 q ∧ GradTagged n stencil c l0 q ∧ Anc 1 q p) ∧
      ∀ fuel, gradLoop n minL maxL stencil (fuel + 1) c = if new.beq n c then some c else gradLoop n minL maxL stencil fuel new := by
  obtain ⟨tag, t1, t2⟩ := gradTags_spec h hs
  obtain ⟨new, g1, g2, g3, g4⟩ := gradMesh_spec h.wf t2 fun l p _ ht => by
    have := gradTagged_level h ht
    have := h.size
    omega
  refine ⟨new, g2, g3, g4, fun fuel => ?_⟩
  rw [gradLoop, t1]
  simp only []
  rw [g1]

/-- What a mesh obtained from `c` by refining cells satisfies. -/
structure GradFrom (n maxL : Nat) (c d : CA) : Prop where
  size : d.maxSize = c.maxSize
  refines : d.Refines n c
  levels : ∀ a, c.Between n a maxL → d.Between n a maxL
  tiles : ∀ M m, maxL ≤ M → (d.Tiles n M m ↔ c.Tiles n M m)
  noOverlap : c.NoOverlap n → d.NoOverlap n

theorem GradFrom.same {n maxL : Nat} {c d : CA} (hm : d.maxSize = c.maxSize) (h : ∀ l p, d.Mem n l p ↔ c.Mem n l p) : GradFrom n maxL c d := by
  refine ⟨hm, fun l p hp => ⟨l, p, (h l p).1 hp, le_rfl, by rw [Nat.sub_self]; exact anc_zero.2 rfl⟩, fun a ha l p hp => ha l p ((h l p).1 hp),
    fun M m _ => ?_, fun ho l p l' p' hp hp' => ho l p l' p' ((h _ _).1 hp) ((h _ _).1 hp')⟩
  unfold CA.Tiles
  simp only [h]

theorem GradFrom.trans {n maxL : Nat} {a b c : CA} (h1 : GradFrom n maxL a b) (h2 : GradFrom n maxL b c) : GradFrom n maxL a c := by
  refine ⟨h2.size.trans h1.size, fun l p hp => ?_, fun a ha => h2.levels a (h1.levels a ha), fun M m hM => (h2.tiles M m hM).trans (h1.tiles M m hM),
    fun h => h2.noOverlap (h1.noOverlap h)⟩
  obtain ⟨l', q, a1, a2, a3⟩ := h2.refines l p hp
  obtain ⟨l'', r, b1, b2, b3⟩ := h1.refines l' q a1
  refine ⟨l'', r, b1, by omega, ?_⟩
  have := anc_trans b3 a3
  rwa [show l' - l'' + (l - l') = l - l'' by omega] at this

theorem gradFrom_step {n maxL : Nat} {c new : CA} {T : Nat → List Int → Prop} (hm : new.maxSize = c.maxSize)
    (hmem : ∀ l p, new.Mem n l p ↔ (c.Mem n l p ∧ ¬ T l p) ∨ ∃ l0 q, l = l0 + 1 ∧ c.Mem n l0 q ∧ T l0 q ∧ Anc 1 q p)
    (hT : ∀ l p, T l p → l + 2 ≤ maxL) : GradFrom n maxL c new := by
  have href : new.Refines n c := by
    intro l p hp
    rcases (hmem l p).1 hp with ⟨h1, _⟩ | ⟨l0, q, rfl, h2, _, h4⟩
    · exact ⟨l, p, h1, le_rfl, by rw [Nat.sub_self]; exact anc_zero.2 rfl⟩
    · exact ⟨l0, q, h2, by omega, by rw [show l0 + 1 - l0 = 1 by omega]; exact h4⟩
  refine ⟨hm, href, fun a ha l p hp => ?_, fun M m hM => ⟨?_, ?_⟩, fun ho l p l' p' hp hp' hl ha => ?_⟩
  · rcases (hmem l p).1 hp with ⟨h1, _⟩ | ⟨l0, q, rfl, h2, h3, _⟩
    · exact ha l p h1
    · have := ha l0 q h2
      have := hT _ _ h3
      omega
  · rintro ⟨l, p, h1, h2, h3⟩
    obtain ⟨l', q, a1, a2, a3⟩ := href l p h2
    refine ⟨l', q, by omega, a1, ?_⟩
    have := anc_trans a3 h3
    rwa [show l - l' + (M - l) = M - l' by omega] at this
  · rintro ⟨l, p, h1, h2, h3⟩
    by_cases ht : T l p
    · have := hT _ _ ht
      rw [show M - l = 1 + (M - (l + 1)) by omega] at h3
      obtain ⟨q, h4, h5⟩ := anc_split h3
      exact ⟨l + 1, q, by omega, (hmem _ _).2 (Or.inr ⟨l, p, rfl, h2, ht, h4⟩), h5⟩
    · exact ⟨l, p, h1, (hmem _ _).2 (Or.inl ⟨h2, ht⟩), h3⟩
  · -- both come from the same leaf
    obtain ⟨a, q, q1, q2, q3⟩ := href l p hp
    obtain ⟨a', q', q1', q2', q3'⟩ := href l' p' hp'
    have hqa : Anc (l' - a) q p' := by
      have := anc_trans q3 ha
      rwa [show l - a + (l' - l) = l' - a by omega] at this
    obtain ⟨rfl, rfl⟩ := ho.same q1 q1' (M := l') (by omega) q2' hqa q3'
    have hcell : ∀ l p, new.Mem n l p → a ≤ l → Anc (l - a) q p → (T a q → l = a + 1) ∧ (¬ T a q → l = a) := by
      intro l p hp hal hq
      rcases (hmem l p).1 hp with ⟨h1, h2⟩ | ⟨l0, r, rfl, h2, h3, h4⟩
      · obtain ⟨e1, e2⟩ := ho.same q1 h1 (M := l) hal le_rfl hq (by rw [Nat.sub_self]; exact anc_zero.2 rfl)
        subst e1 e2
        exact ⟨fun h => absurd h h2, fun _ => rfl⟩
      · obtain ⟨e1, e2⟩ := ho.same q1 h2 (M := l0 + 1) hal (by omega) hq (by rw [show l0 + 1 - l0 = 1 by omega]; exact h4)
        subst e1 e2
        exact ⟨fun _ => rfl, fun h => absurd h3 h⟩
    have e1 := hcell l p hp q2 q3
    have e2 := hcell l' p' hp' q2' hqa
    have hll : l = l' := by
      by_cases ht : T a q
      · rw [e1.1 ht, e2.1 ht]
      · rw [e1.2 ht, e2.2 ht]
    subst hll
    rw [Nat.sub_self] at ha
    exact ⟨rfl, anc_zero.1 ha⟩

theorem refines_below {n maxL : Nat} {c d : CA} (h : d.Refines n c) {D : Int} (hb : c.Below n maxL D) (hd : ∀ l p, d.Mem n l p → l ≤ maxL) :
    d.Below n maxL (D + 2 ^ maxL) := by
  intro l p hp
  obtain ⟨l', q, h1, h2, h3⟩ := h l p hp
  have hl := hd l p hp
  have hq := hb l' q h1
  rw [anc_iff.1 h3] at hq
  intro x hx
  have h4 := hq (shr x (l - l')) (List.mem_map.2 ⟨x, hx, rfl⟩)
  have h5 : x < (shr x (l - l') + 1) * 2 ^ (l - l') := by
    unfold shr
    have := Int.emod_lt_of_pos x (pow_two_pos (l - l'))
    have := Int.mul_ediv_add_emod x (2 ^ (l - l'))
    rw [Int.add_mul, Int.mul_comm]
    omega
  have h6 : x * 2 ^ (maxL - l) < (shr x (l - l') + 1) * 2 ^ (l - l') * 2 ^ (maxL - l) := Int.mul_lt_mul_of_pos_right h5 (pow_two_pos _)
  rw [Int.mul_assoc, ← pow_add, show l - l' + (maxL - l) = maxL - l' by omega, Int.add_mul, Int.one_mul] at h6
  have h7 : (2 : Int) ^ (maxL - l') ≤ 2 ^ maxL := pow_mono_two (by omega)
  omega

theorem not_tagged_graded {n : Nat} {stencil : List (Nat → Int)} {c : CA} (h : ∀ l p, c.Mem n l p → ¬ GradTagged n stencil c l p) :
    c.GradedFor n stencil := by
  intro l p l' p' s hp hp' hs hl ha
  by_contra hlt
  exact h l p hp ⟨l', p', s, hs, by omega, hp', ha⟩

theorem graded_not_tagged {n : Nat} {stencil : List (Nat → Int)} {c : CA} (h : c.GradedFor n stencil) {l : Nat} {p : List Int} (hp : c.Mem n l p) :
    ¬ GradTagged n stencil c l p := by
  rintro ⟨l', q, s, h1, h2, h3, h4⟩
  have := h l p l' q s hp h3 h1 (by omega) h4
  omega

theorem gradTagged_congr {n : Nat} {stencil : List (Nat → Int)} {c d : CA} (h : ∀ l p, d.Mem n l p ↔ c.Mem n l p) (l : Nat) (p : List Int) :
    GradTagged n stencil d l p ↔ GradTagged n stencil c l p := by
  unfold GradTagged
  simp only [h]

theorem GradInv.congr {n minL maxL g : Nat} {c d : CA} (h : GradInv n minL maxL g c) (hb : d.Built n) (hm : d.maxSize = c.maxSize)
    (hmem : ∀ l p, d.Mem n l p ↔ c.Mem n l p) : GradInv n minL maxL g d := by
  obtain ⟨b1, b2, b3⟩ := hb.spec
  obtain ⟨D, d1, d2, d3⟩ := h.range
  exact ⟨b1, b2, by rw [hm]; exact h.size, fun l p hp => h.between l p ((hmem l p).1 hp),
    ⟨D, d1, d2, fun l p hp => d3 l p ((hmem l p).1 hp)⟩, b3⟩

/-- A graded mesh that was made by the constructor stops the loop. -/
theorem gradLoop_stable {n minL maxL g : Nat} {stencil : List (Nat → Int)} {c : CA} (h : GradInv n minL maxL g c)
    (hs : ∀ s ∈ stencil, ∀ d, s d ≤ (g : Int)) (hb : c.Built n) (hg : ∀ l p, c.Mem n l p → ¬ GradTagged n stencil c l p) (fuel : Nat) :
    gradLoop n minL maxL stencil (fuel + 1) c = some c := by
  obtain ⟨new, n1, n2, n3, n4⟩ := gradTurn_spec h hs
  have hmem : ∀ l p, new.Mem n l p ↔ c.Mem n l p := by
    intro l p
    rw [n3]
    constructor
    · rintro (h1 | ⟨l0, q, _, h2, h3, _⟩)
      · exact h1.1
      · exact absurd h3 (hg _ _ h2)
    · intro hp
      exact Or.inl ⟨hp, hg _ _ hp⟩
  rw [n4, built_unique n2 hb n1 hmem, if_pos (CA.beq_refl n c)]

/-- The loop ends, on a graded mesh. -/
theorem gradLoop_spec {n minL maxL g : Nat} {stencil : List (Nat → Int)} (hs : ∀ s ∈ stencil, ∀ d, s d ≤ (g : Int)) {c0 : CA} {D : Int}
    (hD0 : 0 ≤ D) (hD : D + ((g : Int) + 3) * 2 ^ maxL + 2 < INT_MAX) (hb0 : c0.Below n maxL D) (P : CA → Prop)
    (hP : ∀ c new : CA, GradInv n minL maxL g c → new.maxSize = c.maxSize →
      (∀ l p, new.Mem n l p ↔ (c.Mem n l p ∧ ¬ GradTagged n stencil c l p) ∨
        ∃ l0 q, l = l0 + 1 ∧ c.Mem n l0 q ∧ GradTagged n stencil c l0 q ∧ Anc 1 q p) → P c → P new) :
    ∀ (k : Nat) (c : CA), gradMeasure n maxL c ≤ k → GradInv n minL maxL g c → c.Refines n c0 →
    ∃ c', (∀ fuel, k + 2 ≤ fuel → gradLoop n minL maxL stencil fuel c = some c') ∧ GradInv n minL maxL g c' ∧
      (∀ l p, c'.Mem n l p → ¬ GradTagged n stencil c' l p) ∧ GradFrom n maxL c c' ∧ (P c → P c') := by
  intro k
  induction k using Nat.strong_induction_on with
  | _ k ih =>
    intro c hk hinv href
    obtain ⟨new, n1, n2, n3, n4⟩ := gradTurn_spec hinv hs
    obtain ⟨b1, b2, b3⟩ := n2.spec
    by_cases hT : ∃ l p, c.Mem n l p ∧ GradTagged n stencil c l p
    · have hlt : gradMeasure n maxL new < gradMeasure n maxL c :=
        gradMeasure_lt hinv.wf b1 n3 (fun l p _ ht => by have := gradTagged_level hinv ht; omega) hT
      have hfrom : GradFrom n maxL c new := gradFrom_step n1 n3 fun l p ht => gradTagged_level hinv ht
      have hneq : new.beq n c = false := by
        rw [← Bool.not_eq_true]
        intro hbe
        have hsame := CA.beq_mem b1 hinv.wf n1 hbe
        -- the coarsest tagged cell is not in the new mesh
        have : ∃ l, ∃ p, c.Mem n l p ∧ GradTagged n stencil c l p := hT
        have hdec : DecidablePred fun l => ∃ p, c.Mem n l p ∧ GradTagged n stencil c l p := fun _ => Classical.propDecidable _
        obtain ⟨p, hp, ht⟩ := Nat.find_spec this
        rcases (n3 _ p).1 ((hsame _ p).2 hp) with ⟨_, h2⟩ | ⟨l0, q, h1, h2, h3, _⟩
        · exact h2 ht
        · exact Nat.find_min this (m := l0) (by omega) ⟨q, h2, h3⟩
      have href' : new.Refines n c0 := by
        intro l p hp
        obtain ⟨l', q, a1, a2, a3⟩ := hfrom.refines l p hp
        obtain ⟨l'', r, b1, b2, b3⟩ := href l' q a1
        refine ⟨l'', r, b1, by omega, ?_⟩
        have := anc_trans b3 a3
        rwa [show l' - l'' + (l - l') = l - l'' by omega] at this
      have hbet := hfrom.levels minL hinv.between
      have hinv' : GradInv n minL maxL g new := by
        refine ⟨b1, b2, by rw [n1]; exact hinv.size, hbet, ⟨D + 2 ^ maxL, ?_, ?_, refines_below href' hb0 fun l p hp => (hbet l p hp).2⟩, b3⟩
        · have := pow_two_pos maxL; omega
        · have : ((g : Int) + 3) * 2 ^ maxL = ((g : Int) + 2) * 2 ^ maxL + 2 ^ maxL := by ring
          omega
      obtain ⟨c', i1, i2, i3, i4, i5⟩ := ih (gradMeasure n maxL new) (by omega) new le_rfl hinv' href'
      refine ⟨c', fun fuel hf => ?_, i2, i3, hfrom.trans i4, fun hp => i5 (hP c new hinv n1 n3 hp)⟩
      obtain ⟨f, rfl⟩ : ∃ f, fuel = f + 1 := ⟨fuel - 1, by omega⟩
      rw [n4, hneq]
      exact i1 f (by omega)
    · have hg : ∀ l p, c.Mem n l p → ¬ GradTagged n stencil c l p := fun l p hp ht => hT ⟨l, p, hp, ht⟩
      have hmem : ∀ l p, new.Mem n l p ↔ c.Mem n l p := by
        intro l p
        rw [n3]
        constructor
        · rintro (h1 | ⟨l0, q, _, h2, h3, _⟩)
          · exact h1.1
          · exact absurd h3 (hg _ _ h2)
        · intro hp
          exact Or.inl ⟨hp, hg _ _ hp⟩
      by_cases hbe : new.beq n c = true
      · refine ⟨c, fun fuel hf => ?_, hinv, hg, GradFrom.same rfl fun _ _ => Iff.rfl, id⟩
        obtain ⟨f, rfl⟩ : ∃ f, fuel = f + 1 := ⟨fuel - 1, by omega⟩
        rw [n4, if_pos hbe]
      · have hinv' := hinv.congr n2 n1 hmem
        have hg' : ∀ l p, new.Mem n l p → ¬ GradTagged n stencil new l p := by
          intro l p hp
          rw [gradTagged_congr hmem]
          exact hg l p ((hmem l p).1 hp)
        refine ⟨new, fun fuel hf => ?_, hinv', hg', GradFrom.same n1 hmem, hP c new hinv n1 n3⟩
        obtain ⟨f, rfl⟩ : ∃ f, fuel = f + 1 + 1 := ⟨fuel - 2, by omega⟩
        rw [n4, if_neg hbe]
        exact gradLoop_stable hinv' hs n2 hg' f

/-! ### the coarsest graded mesh -/

/-- The last descendant, `k` levels below, in the direction `s`. -/
def farPoint (s : Nat → Int) (k : Nat) : Nat → List Int → List Int
  | _, [] => []
  | d, c :: p => (if 0 < s d then (c + 1) * 2 ^ k - 1 else c * 2 ^ k) :: farPoint s k (d - 1) p

theorem shr_eq_iff {a b : Int} {k : Nat} : shr b k = a ↔ a * 2 ^ k ≤ b ∧ b < (a + 1) * 2 ^ k := by
  unfold shr
  rw [Int.ediv_eq_iff_of_pos (pow_two_pos k)]
  constructor <;> rintro ⟨h1, h2⟩ <;> constructor <;> linarith

theorem farPoint_anc (s : Nat → Int) (k : Nat) : ∀ (d : Nat) (p : List Int), Anc k p (farPoint s k d p) := by
  intro d p
  rw [anc_iff]
  induction p generalizing d with
  | nil => rfl
  | cons c p ih =>
    rw [farPoint, List.map_cons, ← ih]
    congr 1
    have := pow_two_pos k
    refine (shr_eq_iff.2 ?_).symm
    rw [Int.add_mul, Int.one_mul]
    split_ifs <;> omega

theorem farPoint_shift {s : Nat → Int} (hs : ∀ d, -1 ≤ s d ∧ s d ≤ 1) {a b : Nat} :
    ∀ (d : Nat) (q r : List Int), Anc b r (farPoint s (a + b) d q) → Anc a (shiftPoint s d q) (shiftPoint s d r) := by
  intro d q
  induction q generalizing d with
  | nil =>
    intro r h
    rw [anc_iff] at h ⊢
    rw [h]; rfl
  | cons c q ih =>
    intro r h
    rw [anc_iff] at h
    rw [h, farPoint, List.map_cons, shiftPoint, shiftPoint, anc_iff, List.map_cons]
    have h1 := ih (d - 1) _ (anc_iff.2 rfl)
    rw [anc_iff] at h1
    rw [← h1]
    congr 1
    have hb := pow_two_pos b
    have ha := pow_two_pos a
    symm
    by_cases h0 : 0 < s d
    · rw [if_pos h0]
      have : shr ((c + 1) * 2 ^ (a + b) - 1) b = (c + 1) * 2 ^ a - 1 := by
        rw [shr_eq_iff, pow_add, ← Int.mul_assoc, Int.sub_mul, Int.one_mul]
        have : ((c + 1) * 2 ^ a - 1 + 1) * 2 ^ b = (c + 1) * 2 ^ a * 2 ^ b := by rw [Int.sub_add_cancel]
        omega
      rw [this, show s d = 1 by have := hs d; omega, Int.sub_add_cancel, shr_eq_iff, Int.add_mul (c + 1)]
      omega
    · rw [if_neg h0]
      have : shr (c * 2 ^ (a + b)) b = c * 2 ^ a := by
        rw [shr_eq_iff, pow_add, ← Int.mul_assoc, Int.add_mul]
        omega
      rw [this, shr_eq_iff]
      have h2 := hs d
      have h3 : s d = 0 ∨ s d = -1 := by omega
      rcases h3 with h3 | h3 <;> rw [h3]
      · rw [Int.add_zero, Int.add_zero, Int.add_mul]; omega
      · have : (c + -1) * 2 ^ a = c * 2 ^ a - 2 ^ a := by ring
        rw [this, show c + -1 + 1 = c by omega]
        omega

/-- Another graded mesh of the same domain, finer than `c`, is finer than what one turn gives. -/
theorem coarsest_step {n : Nat} {stencil : List (Nat → Int)} (hs : ∀ s ∈ stencil, ∀ d, -1 ≤ s d ∧ s d ≤ 1) {c new d : CA} (hno : c.NoOverlap n)
    (hmem : ∀ l p, new.Mem n l p ↔ (c.Mem n l p ∧ ¬ GradTagged n stencil c l p) ∨
        ∃ l0 q, l = l0 + 1 ∧ c.Mem n l0 q ∧ GradTagged n stencil c l0 q ∧ Anc 1 q p)
    (hg : d.GradedFor n stencil) (hr : d.Refines n c) (ht : ∀ M m, c.maxSize ≤ M → d.maxSize ≤ M → c.Tiles n M m → d.Tiles n M m) :
    d.Refines n new := by
  intro l p hp
  obtain ⟨l0, q0, h1, h2, h3⟩ := hr l p hp
  by_cases htag : GradTagged n stencil c l0 q0
  · rcases Nat.lt_or_ge l0 l with hlt | hge
    · rw [show l - l0 = 1 + (l - (l0 + 1)) by omega] at h3
      obtain ⟨q, h4, h5⟩ := anc_split h3
      exact ⟨l0 + 1, q, (hmem _ _).2 (Or.inr ⟨l0, q0, rfl, h1, htag, h4⟩), by omega, h5⟩
    · obtain rfl : l0 = l := by omega
      rw [Nat.sub_self, anc_zero] at h3
      subst h3
      exfalso
      obtain ⟨l', q, s, s1, s2, s3, s4⟩ := htag
      let M := max c.maxSize d.maxSize
      have hM : c.maxSize ≤ M ∧ d.maxSize ≤ M := ⟨le_max_left _ _, le_max_right _ _⟩
      have hl' : l' ≤ M := le_trans s3.1 hM.1
      have ha := farPoint_anc s (M - l') n q
      obtain ⟨l2, r, r1, r2, r3⟩ := ht M (farPoint s (M - l') n q) hM.1 hM.2 ⟨l', q, hl', s3, ha⟩
      obtain ⟨l3, q3, t1, t2, t3⟩ := hr l2 r r2
      have t4 := anc_trans t3 r3
      rw [show l2 - l3 + (M - l2) = M - l3 by omega] at t4
      obtain ⟨rfl, rfl⟩ := hno.same t1 s3 (by omega) hl' t4 ha
      rw [show M - l3 = (l2 - l3) + (M - l2) by omega] at r3
      have h6 := anc_trans s4 (farPoint_shift (hs s s1) n q3 r r3)
      rw [show l3 - l0 + (l2 - l3) = l2 - l0 by omega] at h6
      have := hg l0 q0 l2 r s hp r2 s1 (by omega) h6
      omega
  · exact ⟨l0, q0, (hmem _ _).2 (Or.inl ⟨h1, htag⟩), h2, h3⟩

/-! ### is_graduated -/

theorem isGraduated_spec {n g : Nat} {stencil : List (Nat → Int)} {c : CA} (h : GradInv n c.minLevel c.maxLevel g c)
    (hs : ∀ s ∈ stencil, ∀ d, s d ≤ (g : Int)) :
    ∃ b, isGraduated n stencil c = some b ∧ (b = true ↔ c.GradedFor n stencil) := by
  obtain ⟨D, d1, d2, d3⟩ := h.range
  have key : ∀ (turns : List (Nat × Nat × (Nat → Int))) (cond : Bool),
      (∀ t ∈ turns, t.1 ≤ c.maxLevel ∧ t.2.1 < t.1 ∧ t.2.2 ∈ stencil) →
      ∃ b, turns.foldlM (isGradTurn n c) cond = some b ∧ (b = true ↔ cond = true ∧
        ∀ t ∈ turns, ∀ p q, c.Mem n t.2.1 p → c.Mem n t.1 q → ¬ Anc (t.1 - t.2.1) p (shiftPoint t.2.2 n q)) := by
    intro turns
    induction turns with
    | nil => intro cond _; exact ⟨cond, rfl, by simp⟩
    | cons t turns ih =>
      intro cond ht
      obtain ⟨t1, t2, t3⟩ := ht t List.mem_cons_self
      obtain ⟨calls, g1, g2, g3⟩ := gradSet_spec (s := t.2.2) h.wf h.leveled h.size d1 d2 d3 (hs _ t3) t1 t2
      have hempty : calls.isEmpty = true ↔ ∀ p q, c.Mem n t.2.1 p → c.Mem n t.1 q → ¬ Anc (t.1 - t.2.1) p (shiftPoint t.2.2 n q) := by
        rw [List.isEmpty_iff]
        constructor
        · rintro rfl p q hp hq ha
          have := (g3 p).2 ⟨hp, q, hq, ha⟩
          simp [Covers] at this
        · intro hno
          by_contra hne
          obtain ⟨k, hk⟩ := List.exists_mem_of_ne_nil _ hne
          obtain ⟨hp, q, hq, ha⟩ := (g3 (k.1 ++ [k.2.start])).1 ⟨k, hk, _, Interval.mem_def.2 ⟨le_rfl, (g2 k hk).2.1⟩, rfl⟩
          exact hno _ _ hp hq ha
      obtain ⟨b, i1, i2⟩ := ih (cond && calls.isEmpty) fun t ht' => ht t (List.mem_cons_of_mem _ ht')
      refine ⟨b, ?_, ?_⟩
      · rw [List.foldlM_cons]
        have : isGradTurn n c cond t = some (cond && calls.isEmpty) := by
          unfold isGradTurn
          rw [g1]
          cases cond <;> rfl
        rw [this]
        exact i1
      · rw [i2, Bool.and_eq_true, hempty]
        simp only [List.mem_cons, forall_eq_or_imp, and_assoc]
  obtain ⟨b, h1, h2⟩ := key (gradTurns c.minLevel c.maxLevel stencil) true (by
    rintro ⟨a, b, s⟩ ht
    obtain ⟨h1, h2, h3, h4⟩ := mem_gradTurns.1 ht
    exact ⟨h3, by simp only; omega, h4⟩)
  refine ⟨b, h1, h2.trans ?_⟩
  simp only [true_and]
  constructor
  · intro hno l p l' p' s hp hp' hst hl ha
    by_contra hlt
    exact hno (l', l, s) (mem_gradTurns.2 ⟨(h.between _ _ hp).1, by omega, (h.between _ _ hp').2, hst⟩) p p' hp hp' ha
  · rintro hg ⟨a, b, s⟩ ht p q hp hq ha
    obtain ⟨h1, h2, h3, h4⟩ := mem_gradTurns.1 ht
    have := hg b p a q s hp hq h4 (by omega) ha
    omega

end Samurai

/-
C27, C33: the adapted mesh built by `update_field_mr` and the field on it.
-/
import Verif.Lemmas.UpdateIntegral

namespace Samurai

variable {K : Type} [Field K]

theorem becomes_below {minL maxL : Nat} {t : BitVec 32} {l l' : Nat} {q p : List Int} {D : Int}
    (h : Becomes minL maxL t l q l' p) (hl : l ≤ maxL) (hq : ∀ x ∈ q, x * 2 ^ (maxL - l) < D) :
    ∀ x ∈ p, x * 2 ^ (maxL - l') < D + 2 ^ maxL := by
  have h0 := pow_two_pos maxL
  rcases h with ⟨_, h2, rfl, h4⟩ | ⟨_, _, rfl, h4⟩ | ⟨_, rfl, rfl⟩
  · rw [anc_iff.1 h4, show maxL - l = (maxL - (l + 1)) + 1 by omega] at hq
    intro x hx
    have h1 := child_below hq x hx
    have h3 : (2 : Int) ^ (maxL - (l + 1) + 1) ≤ 2 ^ maxL := pow_mono_two (by omega)
    omega
  · rw [anc_iff.1 h4]
    intro x hx
    have := up_below (k := 1) hq x hx
    rw [show maxL - (l' + 1) + 1 = maxL - l' by omega] at this
    omega
  · intro x hx
    have := hq x hx
    omega

/-- What `update_field_mr` gives. -/
theorem updateFieldMr_spec {n : Nat} {cfg : MeshConfig} {minL maxL : Nat} {tag : Int → BitVec 32} {m : SubMeshes} {u : CA}
    (hmm : minL ≤ maxL) (h : m.cells.Proper n minL maxL (cfg.maxStencilWidth + cfg.predictionOrder + 3))
    (hno : m.cells.NoOverlap n) (f : CellField K) :
    ∃ b m' u' f', updateFieldMr n cfg minL maxL tag m u f = some (b, m', u', f') ∧ m'.cells.WF n ∧
      (∀ l p, m'.cells.Mem n l p ↔ ∃ l' q t, LeafTag n m.cells tag l' q t ∧ Becomes minL maxL t l' q l p) ∧
      ((m'.cells.NoOverlap n) → Transferred n cfg.predictionOrder m.cells m'.cells f f') ∧
      ((m' = m ∧ u' = u) ∨ ∃ new, MRMeshOK n cfg new minL maxL m' u' ∧ new.maxSize = m.cells.maxSize) := by
  obtain ⟨new, n1, n2, n3, n4, n5⟩ := updateLeaves_spec (minL := minL) (maxL := maxL) (tag := tag) h.wf h.size
  obtain ⟨D, d1, d2, d3⟩ := h.range
  have hbt : new.Between n minL maxL := by
    intro l p hp
    obtain ⟨l', q, t, h1, h2⟩ := (n5 l p).1 hp
    exact becomes_level h2 (h.between l' q (h1.mem h.wf))
  have hbl : new.Below n maxL (D + 2 ^ maxL) := by
    intro l p hp
    obtain ⟨l', q, t, h1, h2⟩ := (n5 l p).1 hp
    have h3 := h1.mem h.wf
    exact becomes_below h2 (h.between l' q h3).2 (d3 l' q h3)
  have hp0 := pow_two_pos maxL
  have hprop : new.Proper n minL maxL (cfg.maxStencilWidth + cfg.predictionOrder + 1) := by
    refine ⟨n3, n4, hbt, by rw [n2]; exact h.size, D + 2 ^ maxL, by omega, ?_, hbl⟩
    push_cast at d2 ⊢
    linarith
  obtain ⟨m', u', r1, r2⟩ := mrMesh_spec hprop
  obtain ⟨m0, c1, c2, c3, c4, c5⟩ := r2.content
  unfold updateFieldMr
  rw [n1]
  simp only []
  rw [r1]
  simp only []
  by_cases he : meshEq n minL maxL m.cells m'.cells = true
  · rw [if_pos he]
    refine ⟨true, m, u, f, rfl, h.wf, fun l p => ?_, fun _ => ⟨fun _ _ _ _ => rfl, fun l p q h1 h2 h3 => ?_, fun l p q h1 h2 h3 => ?_⟩,
      Or.inl ⟨rfl, rfl⟩⟩
    · rw [← n5, ← c2]
      unfold meshEq at he
      rw [List.all_eq_true] at he
      by_cases hl : minL ≤ l ∧ l ≤ maxL
      · have := (C07_sound n _ _ (he l (List.mem_range'_1.2 (by omega)))).2 p
        unfold CA.Mem
        rw [this]
        have s1 := h.size
        have s2 : maxL ≤ m'.cells.maxSize := by rw [r2.cellsLevels.1, n2]; exact h.size
        constructor <;> rintro ⟨_, k⟩ <;> exact ⟨by omega, k⟩
      · constructor
        · intro hp; exact absurd (h.between l p hp) hl
        · intro hp; exact absurd (hbt l p ((c2 l p).1 hp)) hl
    · have := (hno l p (l + 1) q h1 h2 (by omega) (by rwa [show l + 1 - l = 1 by omega])).1
      omega
    · have := (hno l p (l + 1) q h1 h2 (by omega) (by rwa [show l + 1 - l = 1 by omega])).1
      omega
  · rw [if_neg he]
    have hbl' : m'.cells.Below n maxL (D + 2 ^ maxL) := fun l p hp => hbl l p ((c2 l p).1 hp)
    have hbl0 : m.cells.Below n maxL (D + 2 ^ maxL) := fun l p hp x hx => by
      have := d3 l p hp x hx
      omega
    have hfit : D + 2 ^ maxL + 2 * 2 ^ maxL + 2 < INT_MAX := by
      push_cast at d2
      have : (0 : Int) ≤ ((cfg.maxStencilWidth : Int) + cfg.predictionOrder) * 2 ^ maxL := by positivity
      linarith
    obtain ⟨f', g1, g2⟩ := updateFields_spec (order := cfg.predictionOrder) (minL := minL) h.wf r2.wf.1 h.leveled r2.cellsLevels.2
      h.size (by rw [r2.cellsLevels.1, n2]; exact h.size) (by omega) hfit hbl0 hbl' hmm f
    rw [g1]
    have hbt' : m'.cells.Between n minL maxL := fun l p hp => hbt l p ((c2 l p).1 hp)
    refine ⟨false, m', u', f', rfl, r2.wf.1, fun l p => ?_, fun hno' => ?_, Or.inr ⟨new, r2, n2⟩⟩
    · rw [← n5, ← c2]
    have noCoarse : ∀ l p, m.cells.Mem n l p → ¬ GotCoarse n m.cells m'.cells l p := by
      rintro l p hp ⟨_, q, hq, ha⟩
      have := (hno l p (l + 1) q hp hq (by omega) (by rwa [show l + 1 - l = 1 by omega])).1
      omega
    have noFine : ∀ l p, m.cells.Mem n l p → ¬ GotFine n m.cells m'.cells l p := by
      rintro l p hp ⟨h1, h2, _⟩
      have := (hno (l - 1) _ l p h2 hp (by omega) (by rw [show l - (l - 1) = 1 by omega]; exact anc_iff.2 rfl)).1
      omega
    refine ⟨fun l p h1 h2 => ?_, fun l p q h1 h2 h3 => ?_, fun l p q h1 h2 h3 => ?_⟩
    · rw [g2 l p (hbt' l p h2).1 (hbt' l p h2).2, if_neg (fun k => noCoarse l p h1 k.2), if_neg (fun k => noFine l p h1 k.2),
        if_pos ⟨h1, h2⟩]
    · have k1 := hbt' l p h1
      have k2 := h.between (l + 1) q h2
      rw [g2 l p k1.1 k1.2, if_pos ⟨by omega, h1, q, h2, h3⟩]
    · have k1 := hbt' (l + 1) q h2
      have k2 := h.between l p h1
      have hpar : (q.map fun y => shr y 1) = p := (anc_iff.1 h3).symm
      rw [g2 (l + 1) q k1.1 k1.2, if_neg, if_pos]
      · rfl
      · refine ⟨by omega, by omega, ?_, q, h2, ?_⟩
        · rw [hpar]; exact h1
        · rw [hpar]; exact h3
      · rintro ⟨_, _, q', hq', ha'⟩
        have h4 : Anc 2 p q' := anc_trans h3 ha'
        have := (hno l p (l + 1 + 1) q' h1 hq' (by omega) (by rwa [show l + 1 + 1 - l = 2 by omega])).1
        omega

/-- C27. `update_field_mr` succeeds and the new leaves are those the tags ask for; they do not overlap, have levels in
`[min_level, max_level]` and tile what the old leaves tile, when every leaf has a tag and siblings are coarsened together. -/
theorem C27_update_tiles (n : Nat) (cfg : MeshConfig) (minL maxL : Nat) (tag : Int → BitVec 32) (m : SubMeshes) (u : CA)
    (f : CellField K) (hmm : minL ≤ maxL)
    (h : m.cells.Proper n minL maxL (cfg.maxStencilWidth + cfg.predictionOrder + 3)) (hno : m.cells.NoOverlap n)
    (ht : TagsSet n m.cells tag) (hs : SiblingsAgree n m.cells minL tag) :
    ∃ b m' u' f', updateFieldMr n cfg minL maxL tag m u f = some (b, m', u', f') ∧
      (∀ l p, m'.cells.Mem n l p ↔ ∃ l' q t, LeafTag n m.cells tag l' q t ∧ Becomes minL maxL t l' q l p) ∧
      m'.cells.Between n minL maxL ∧ m'.cells.NoOverlap n ∧
      ∀ M c, maxL ≤ M → (m'.cells.Tiles n M c ↔ m.cells.Tiles n M c) := by
  obtain ⟨b, m', u', f', h1, _, h3, _, _⟩ := updateFieldMr_spec (tag := tag) (u := u) hmm h hno f
  exact ⟨b, m', u', f', h1, h3, update_tiling h.wf h.between hno ht hs h3⟩

/-- C33. The field after `update_field_mr`: a leaf that stays keeps its value, a coarsened leaf gets the mean of its children,
a refined leaf gives its children the predicted values; and the integral of the field does not change. -/
theorem C33_integral [CharZero K] (n : Nat) (hn : n ≤ 2) (cfg : MeshConfig) (minL maxL : Nat) (tag : Int → BitVec 32)
    (m : SubMeshes) (u : CA) (f : CellField K) (hmm : minL ≤ maxL)
    (h : m.cells.Proper n minL maxL (cfg.maxStencilWidth + cfg.predictionOrder + 3)) (hno : m.cells.NoOverlap n)
    (ht : TagsSet n m.cells tag) (hs : SiblingsAgree n m.cells minL tag) :
    ∃ b m' u' f', updateFieldMr n cfg minL maxL tag m u f = some (b, m', u', f') ∧
      (∀ l p, m.cells.Mem n l p → m'.cells.Mem n l p → f' l p = f l p) ∧
      (∀ l p q, m'.cells.Mem n l p → m.cells.Mem n (l + 1) q → Anc 1 p q →
        f' l p = (1 / 2) ^ (n + 1) * ((childrenOf p).map fun c => f (l + 1) c).sum) ∧
      (∀ l p q, m.cells.Mem n l p → m'.cells.Mem n (l + 1) q → Anc 1 p q →
        f' (l + 1) q = predictChild (n + 1) cfg.predictionOrder (f.at (n + 1) l) (toPt p) fun d => isOdd (toPt q d)) ∧
      integral n m'.cells f' = integral n m.cells f := by
  obtain ⟨b, m', u', f', h1, h2, h3, h4, _⟩ := updateFieldMr_spec (tag := tag) (u := u) hmm h hno f
  have hno' := (update_tiling h.wf h.between hno ht hs h3).2.1
  have h5 := h4 hno'
  refine ⟨b, m', u', f', h1, h5.kept, fun l p q k1 k2 k3 => ?_, fun l p q k1 k2 k3 => ?_, integral_transferred hn h.wf h2 h.between hno ht hs h3 h5⟩
  · rw [h5.coarse l p q k1 k2 k3, project_mean n hn f l (mem_length k1.2)]
  · rw [h5.fine l p q k1 k2 k3]
    unfold predicted
    rw [← anc_iff.1 k3]

/-- The children named in `C33_integral` are the cells whose parent is `p`. -/
theorem C33_children (p q : List Int) : q ∈ childrenOf p ↔ Anc 1 p q := by
  rw [mem_childrenOf, anc_iff]

/-! ### a mesh meeting the hypotheses -/

/-- Leaves: the cells 0 and 1 of level 1, 4, 5 and 6, 7 of level 2. -/
def updateExampleCalls : List (Nat × CellCall) := [(1, .interval [] (.mk' 0 2)), (2, .interval [] (.mk' 4 8))]

def updateExample : CA :=
  match (CL.new 0 3).calls updateExampleCalls with
  | some cl => CA.ofCL cl
  | none => CA.empty 0 3

/-- The tags: the cell 0 of level 1 is refined, the cells 4 and 5 of level 2 are coarsened, the others are kept (the numbers
of the cells are their coordinates here). -/
def updateExampleTag : Int → BitVec 32 := fun v => if v = 0 then 4#32 else if v = 4 ∨ v = 5 then 2#32 else 1#32

theorem updateExample_numbered : updateExample.numbered 0 =
    [(1, [0], 0), (1, [1], 1), (2, [4], 4), (2, [5], 5), (2, [6], 6), (2, [7], 7)] := by decide +kernel

theorem updateExample_spec : updateExample.WF 0 ∧ updateExample.Leveled ∧ updateExample.maxSize = 3 := by
  obtain ⟨cl, h1, h2⟩ := (hist_new 0 3).calls (k := updateExampleCalls) (by
    simp [updateExampleCalls, CellCall.idx, CellCall.Valid, Interval.mk'])
  have he : updateExample = CA.ofCL cl := by
    unfold updateExample
    rw [h1]
  obtain ⟨a1, a2, a3, -, -⟩ := h2.array
  rw [he]
  exact ⟨a2, a3, a1⟩

theorem updateExample_mem (l : Nat) (p : List Int) : updateExample.Mem 0 l p ↔
    (l = 1 ∧ (p = [0] ∨ p = [1])) ∨ (l = 2 ∧ (p = [4] ∨ p = [5] ∨ p = [6] ∨ p = [7])) := by
  have hw := updateExample_spec.1
  constructor
  · intro h
    obtain ⟨v, hv⟩ := CA.exists_number hw h
    rw [updateExample_numbered] at hv
    simp only [List.mem_cons, Prod.mk.injEq, List.not_mem_nil, or_false] at hv
    tauto
  · intro h
    have : ∃ v, (l, p, v) ∈ updateExample.numbered 0 := by
      rw [updateExample_numbered]
      rcases h with ⟨rfl, rfl | rfl⟩ | ⟨rfl, rfl | rfl | rfl | rfl⟩
      exacts [⟨0, by simp⟩, ⟨1, by simp⟩, ⟨4, by simp⟩, ⟨5, by simp⟩, ⟨6, by simp⟩, ⟨7, by simp⟩]
    obtain ⟨v, hv⟩ := this
    exact CA.mem_of_numbered hw hv

theorem updateExample_tag (l : Nat) (p : List Int) (t : BitVec 32) (h : LeafTag 0 updateExample updateExampleTag l p t) :
    (l = 1 ∧ p = [0] ∧ t = 4#32) ∨ (l = 1 ∧ p = [1] ∧ t = 1#32) ∨ (l = 2 ∧ (p = [4] ∨ p = [5]) ∧ t = 2#32) ∨
      (l = 2 ∧ (p = [6] ∨ p = [7]) ∧ t = 1#32) := by
  obtain ⟨v, hv, rfl⟩ := h
  rw [updateExample_numbered] at hv
  simp only [List.mem_cons, Prod.mk.injEq, List.not_mem_nil, or_false] at hv
  rcases hv with ⟨rfl, rfl, rfl⟩ | ⟨rfl, rfl, rfl⟩ | ⟨rfl, rfl, rfl⟩ | ⟨rfl, rfl, rfl⟩ | ⟨rfl, rfl, rfl⟩ | ⟨rfl, rfl, rfl⟩ <;>
    simp [updateExampleTag]

theorem updateExample_ok : updateExample.Proper 0 1 2 5 ∧ updateExample.NoOverlap 0 ∧
    TagsSet 0 updateExample updateExampleTag ∧ SiblingsAgree 0 updateExample 1 updateExampleTag := by
  obtain ⟨h1, h2, h3⟩ := updateExample_spec
  refine ⟨⟨h1, h2, ?_, by omega, 16, by omega, by decide, ?_⟩, ?_, ?_, ?_⟩
  · intro l p hp
    rw [updateExample_mem] at hp
    omega
  · intro l p hp x hx
    rw [updateExample_mem] at hp
    rcases hp with ⟨rfl, rfl | rfl⟩ | ⟨rfl, rfl | rfl | rfl | rfl⟩ <;>
      (simp only [List.mem_singleton] at hx; subst hx; decide)
  · intro l p l' p' hp hp' hl ha
    rw [updateExample_mem] at hp hp'
    rw [anc_iff] at ha
    rcases hp with ⟨rfl, hp⟩ | ⟨rfl, hp⟩ <;> rcases hp' with ⟨rfl, hp'⟩ | ⟨rfl, hp'⟩
    · exact ⟨rfl, by simpa [shr] using ha⟩
    · exfalso
      rcases hp with rfl | rfl <;> rcases hp' with rfl | rfl | rfl | rfl <;> revert ha <;> decide
    · omega
    · exact ⟨rfl, by simpa [shr] using ha⟩
  · intro l p t ht
    rcases updateExample_tag l p t ht with ⟨_, _, rfl⟩ | ⟨_, _, rfl⟩ | ⟨_, _, rfl⟩ | ⟨_, _, rfl⟩
    · exact Or.inl (by unfold AsksRefine; decide)
    · exact Or.inr (Or.inl (by unfold AsksKeep AsksRefine; decide))
    · exact Or.inr (Or.inr (by unfold AsksCoarsen AsksKeep AsksRefine; decide))
    · exact Or.inr (Or.inl (by unfold AsksKeep AsksRefine; decide))
  · intro l p t hl ht hc r q hr hq
    have hc1 : ¬ AsksCoarsen 1#32 := by unfold AsksCoarsen AsksKeep AsksRefine; decide
    have hc2 : AsksCoarsen 2#32 := by unfold AsksCoarsen AsksKeep AsksRefine; decide
    rcases updateExample_tag l p t ht with ⟨rfl, _, _⟩ | ⟨rfl, _, _⟩ | ⟨rfl, hp, rfl⟩ | ⟨_, _, rfl⟩
    · omega
    · omega
    · have hr' : r = [2] := by
        rw [anc_iff] at hr
        rcases hp with rfl | rfl
        · rw [hr]; decide
        · rw [hr]; decide
      subst hr'
      rw [anc_iff] at hq
      have hq' : q = [4] ∨ q = [5] := by
        have := mem_childrenOf.2 hq
        simpa [childrenOf] using this
      refine ⟨2#32, ?_, hc2⟩
      rcases hq' with rfl | rfl
      · exact ⟨4, by rw [updateExample_numbered]; simp, by decide⟩
      · exact ⟨5, by rw [updateExample_numbered]; simp, by decide⟩
    · exact absurd hc hc1

/-- The example meets the hypotheses of C27 and C33, and the mesh really changes: the new leaves include the children of a
refined leaf, a parent of coarsened leaves and a kept leaf. -/
example (f : CellField ℚ) : ∃ b m' u' f', updateFieldMr 0 ⟨1, 1⟩ 1 2 updateExampleTag
    ⟨updateExample, updateExample, updateExample, updateExample⟩ updateExample f = some (b, m', u', f') ∧
    m'.cells.Mem 0 2 [0] ∧ m'.cells.Mem 0 2 [1] ∧ m'.cells.Mem 0 1 [2] ∧ m'.cells.Mem 0 2 [7] ∧
    integral 0 m'.cells f' = integral 0 updateExample f := by
  obtain ⟨h1, h2, h3, h4⟩ := updateExample_ok
  obtain ⟨b, m', u', f', g1, g2, _⟩ := C27_update_tiles 0 ⟨1, 1⟩ 1 2 updateExampleTag
    ⟨updateExample, updateExample, updateExample, updateExample⟩ updateExample f (by omega) h1 h2 h3 h4
  obtain ⟨b2, m2, u2, f2, k1, _, _, _, k2⟩ := C33_integral 0 (by omega) ⟨1, 1⟩ 1 2 updateExampleTag
    ⟨updateExample, updateExample, updateExample, updateExample⟩ updateExample f (by omega) h1 h2 h3 h4
  rw [g1] at k1
  simp only [Option.some.injEq, Prod.mk.injEq] at k1
  obtain ⟨rfl, rfl, rfl, rfl⟩ := k1
  have t : ∀ (l : Nat) (p : List Int) (v : Int), (l, p, v) ∈ updateExample.numbered 0 →
      LeafTag 0 updateExample updateExampleTag l p (updateExampleTag v) := fun l p v h => ⟨v, h, rfl⟩
  refine ⟨_, _, _, _, g1, (g2 _ _).2 ⟨1, [0], 4#32, t 1 [0] 0 (by rw [updateExample_numbered]; simp), Or.inl ⟨?_, by omega, rfl, ?_⟩⟩,
    (g2 _ _).2 ⟨1, [0], 4#32, t 1 [0] 0 (by rw [updateExample_numbered]; simp), Or.inl ⟨?_, by omega, rfl, ?_⟩⟩,
    (g2 _ _).2 ⟨2, [4], 2#32, t 2 [4] 4 (by rw [updateExample_numbered]; simp), Or.inr (Or.inl ⟨?_, by omega, rfl, ?_⟩)⟩,
    (g2 _ _).2 ⟨2, [7], 1#32, t 2 [7] 7 (by rw [updateExample_numbered]; simp), Or.inr (Or.inr ⟨Or.inr (Or.inl ?_), rfl, rfl⟩)⟩, k2⟩
  · unfold AsksRefine; decide
  · exact anc_iff.2 (by decide)
  · unfold AsksRefine; decide
  · exact anc_iff.2 (by decide)
  · unfold AsksCoarsen AsksKeep AsksRefine; decide
  · exact anc_iff.2 (by decide)
  · unfold AsksKeep AsksRefine; decide

end Samurai

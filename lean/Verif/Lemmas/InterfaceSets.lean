import Verif.Spec.Interface
import Verif.Lemmas.Interface

namespace Samurai

theorem runSet_canon {n : Nat} {e : Expr Node} (h : e.Admissible n) {ref : Nat} (hr : ref ≤ e.finest) :
    ∃ calls, runSet n e ref = some calls ∧ CanonicalCalls calls ∧ (∀ c ∈ calls, c.1.length = n) ∧
      ∀ p, Covers calls p ↔ e.HoldsAt n ref p := by
  obtain ⟨calls, h1, h2, h3⟩ := C16_canonical n e h ref hr
  obtain ⟨calls', g1, _, g3⟩ := runSet_ok h hr
  rw [h1] at g1
  cases g1
  exact ⟨calls, h1, h2, h3, g3⟩

theorem runDefault_canon {n : Nat} {e : Expr Node} (h : e.Admissible n) :
    ∃ calls, runDefault n e = some calls ∧ CanonicalCalls calls ∧ (∀ c ∈ calls, c.1.length = n) ∧
      ∀ p, Covers calls p ↔ e.HoldsAt n e.finest p := by
  unfold runDefault
  rw [C15_default n e h]
  exact runSet_canon h le_rfl

theorem callCells_nodup {calls : List Call} (h : CanonicalCalls calls) : (callCells calls).Nodup := by
  unfold callCells
  rw [List.Nodup, List.pairwise_flatMap]
  constructor
  · intro c _
    unfold coords1
    rw [List.map_map, List.pairwise_map]
    refine (List.nodup_range (n := (c.2.stop - c.2.start).toNat)).imp ?_
    intro a b hab heq
    have h2 : c.2.start + (a : Int) = c.2.start + (b : Int) := (snoc_inj heq).2
    apply hab
    omega
  · refine h.1.imp ?_
    intro a b hab x hx y hy heq
    obtain ⟨u, hu, rfl⟩ := List.mem_map.1 hx
    obtain ⟨v, hv, rfl⟩ := List.mem_map.1 hy
    obtain ⟨h1, rfl⟩ := snoc_inj heq
    rw [mem_coords1] at hu hv
    rcases hab with h | ⟨_, h⟩
    · rw [h1] at h; exact List.lt_irrefl _ h
    · have := Interval.mem_def.1 hu
      have := Interval.mem_def.1 hv
      omega

theorem shift_snoc' {n : Nat} {s : Nat → Int} {x : Int} {yz : List Int} (h : yz.length = n) :
    shiftPoint s n (yz ++ [x]) = shiftPoint s n yz ++ [x + s 0] := by
  subst h; exact shift_snoc s x yz

theorem near_shifts {w n : Nat} {s t : Nat → Int} {p : List Int} (h : ∀ k ≤ n, - (w : Int) ≤ s k - t k ∧ s k - t k ≤ w) :
    Near w (shiftPoint s n p) (shiftPoint t n p) := by
  have := near_shift (w := w) (s := fun k => s k - t k) (shiftPoint t n p) n h
  rw [shift_shift] at this
  rwa [show (fun k => t k + (s k - t k)) = s by funext k; omega] at this

/-! ### sets of a mesh -/

section
variable {n : Nat} {cells ref : CA} {dom : LCA} {minL maxL w : Nat}

theorem FVMesh.usable (g : FVMesh n cells ref dom minL maxL w) : ∃ D : Int, 0 ≤ D ∧ D + (((1 : Nat) : Int) + 2) * 2 ^ maxL + 2 < INT_MAX ∧
    ∀ l, l ≤ maxL → UsableT n maxL 1 D (.mesh (cells.lca l)) ∧ ∀ s : Nat → Int, (∀ d, s d ≤ 1) →
      UsableT n maxL 1 D (.translate (.mesh (cells.lca l)) s) := by
  obtain ⟨D, d1, d2, d3⟩ := g.domain.range
  have hb := g.leaves.below d3
  have hp := pow_two_pos maxL
  refine ⟨D, d1, ?_, fun l hl => ?_⟩
  · have : (((1 : Nat) : Int) + 2) * 2 ^ maxL ≤ ((w + 3 : Nat) : Int) * 2 ^ maxL :=
      Int.mul_le_mul_of_nonneg_right (by push_cast; omega) (le_of_lt hp)
    omega
  · have hs := g.leaves.size
    have hbt : (cells.lca l).BelowAt n maxL D := by
      intro p hp x hx
      rw [g.leaves.leveled l (by omega)]
      exact hb l p ⟨by omega, hp⟩ x hx
    have hll : (cells.lca l).level ≤ maxL := by rw [g.leaves.leveled l (by omega)]; exact hl
    exact ⟨⟨_, fun _ => 0, Or.inl rfl, g.leaves.wf l (by omega), hll, hbt⟩,
      fun s hs => ⟨_, s, Or.inr ⟨rfl, by simpa using hs⟩, g.leaves.wf l (by omega), hll, hbt⟩⟩

theorem FVMesh.mem_lca (g : FVMesh n cells ref dom minL maxL w) {l : Nat} (hl : l ≤ maxL) {p : List Int} :
    (cells.lca l).Mem n p ↔ cells.Mem n l p :=
  ⟨fun h => ⟨le_trans hl g.leaves.size, h⟩, fun h => h.2⟩

theorem FVMesh.sameSet (g : FVMesh n cells ref dom minL maxL w) {dir : Nat → Int} (hdir : ∀ d, - dir d ≤ 1) {level : Nat} (hl : level ≤ maxL) :
    ∃ calls, runDefault n (.op .inter (.leaf (.mesh (cells.lca level))) (.leaf (.translate (.mesh (cells.lca level)) fun d => - dir d))) = some calls ∧
      CanonicalCalls calls ∧ (∀ c ∈ calls, c.1.length = n) ∧
      ∀ p, Covers calls p ↔ cells.Mem n level p ∧ cells.Mem n level (shiftPoint dir n p) := by
  obtain ⟨D, d1, d2, use⟩ := g.usable
  have hs := g.leaves.size
  have ha : (Expr.op .inter (.leaf (.mesh (cells.lca level))) (.leaf (.translate (.mesh (cells.lca level)) fun d => - dir d))).Admissible n :=
    usableT_admissible d1 d2 ⟨(use level hl).1, (use level hl).2 _ hdir⟩
  have hf : (Expr.op .inter (.leaf (.mesh (cells.lca level))) (.leaf (.translate (.mesh (cells.lca level)) fun d => - dir d))).finest = level := by
    show Nat.max (cells.lca level).level (cells.lca level).level = level
    rw [g.leaves.leveled level (by omega)]
    exact Nat.max_self _
  obtain ⟨calls, g1, g2, g3, g4⟩ := runDefault_canon ha
  refine ⟨calls, g1, g2, g3, fun p => (g4 p).trans ?_⟩
  rw [hf]
  show AtLevel (cells.lca level).level level ((cells.lca level).Mem n) p ∧
    AtLevel (cells.lca level).level level (fun p => (cells.lca level).Mem n (subPoint (fun d => - dir d) n p)) p ↔ _
  rw [g.leaves.leveled level (by omega), atLevel_same, atLevel_same, sub_eq_shift, g.mem_lca hl, g.mem_lca hl]

/-- The set of a level jump: `v` goes from the coarse side to the fine leaf. -/
theorem FVMesh.jumpSet (g : FVMesh n cells ref dom minL maxL w) {v : Nat → Int} (hv : ∀ d, - v d ≤ 1) {level : Nat} (hl : level < maxL) :
    ∃ calls, runSet n (.op .inter (.leaf (.mesh (cells.lca level)))
        (.leaf (.translate (.mesh (cells.lca (level + 1))) fun d => - v d))) (level + 1) = some calls ∧
      CanonicalCalls calls ∧ (∀ c ∈ calls, c.1.length = n) ∧
      ∀ p, Covers calls p ↔ cells.Mem n level (parentOf p) ∧ cells.Mem n (level + 1) (shiftPoint v n p) := by
  obtain ⟨D, d1, d2, use⟩ := g.usable
  have hs := g.leaves.size
  have ha : (Expr.op .inter (.leaf (.mesh (cells.lca level))) (.leaf (.translate (.mesh (cells.lca (level + 1))) fun d => - v d))).Admissible n :=
    usableT_admissible d1 d2 ⟨(use level (by omega)).1, (use (level + 1) hl).2 _ hv⟩
  have hf : (Expr.op .inter (.leaf (.mesh (cells.lca level))) (.leaf (.translate (.mesh (cells.lca (level + 1))) fun d => - v d))).finest = level + 1 := by
    show Nat.max (cells.lca level).level (cells.lca (level + 1)).level = level + 1
    rw [g.leaves.leveled level (by omega), g.leaves.leveled (level + 1) (by omega)]
    exact Nat.max_eq_right (by omega)
  obtain ⟨calls, g1, g2, g3, g4⟩ := runSet_canon ha (ref := level + 1) (by omega)
  refine ⟨calls, g1, g2, g3, fun p => (g4 p).trans ?_⟩
  show AtLevel (cells.lca level).level (level + 1) ((cells.lca level).Mem n) p ∧
    AtLevel (cells.lca (level + 1)).level (level + 1) (fun p => (cells.lca (level + 1)).Mem n (subPoint (fun d => - v d) n p)) p ↔ _
  rw [g.leaves.leveled level (by omega), g.leaves.leveled (level + 1) (by omega), atLevel_same, sub_eq_shift, g.mem_lca (by omega)]
  have := atLevel_parent (l := level + 1) (by omega) (S := (cells.lca level).Mem n) (p := p)
  rw [show level + 1 - 1 = level by omega] at this
  rw [this, g.mem_lca (by omega)]

/-! ### the rows of a level jump -/

/-- A Cartesian direction or its opposite: along x only, or not along x. -/
structure AxisDir (n : Nat) (v : Nat → Int) : Prop where
  small : ∀ k ≤ n, -1 ≤ v k ∧ v k ≤ 1
  axis : (v 0 = 0) ∨ ((v 0 = 1 ∨ v 0 = -1) ∧ ∀ k < n, v (k + 1) = 0)

theorem parentOf_snoc (yz : List Int) (x : Int) : parentOf (yz ++ [x]) = parentOf yz ++ [shr x 1] := by
  unfold parentOf
  rw [List.map_append, List.map_singleton]

theorem FVMesh.evenRow (g : FVMesh n cells ref dom minL maxL w) {v : Nat → Int} (hv : AxisDir n v) {level : Nat} {calls : List Call}
    (hc : CanonicalCalls calls) (hlen : ∀ c ∈ calls, c.1.length = n)
    (hcov : ∀ p, Covers calls p ↔ cells.Mem n level (parentOf p) ∧ cells.Mem n (level + 1) (shiftPoint v n p)) :
    ∀ c ∈ calls, EvenRow c := by
  intro c hcm
  obtain ⟨hlt, _⟩ := hc.2 c hcm
  have hn := hlen c hcm
  have here : ∀ x ∈ c.2, cells.Mem n level (parentOf c.1 ++ [shr x 1]) ∧ cells.Mem n (level + 1) (shiftPoint v n c.1 ++ [x + v 0]) := by
    intro x hx
    have := (hcov (c.1 ++ [x])).1 ⟨c, hcm, x, hx, rfl⟩
    rw [parentOf_snoc] at this
    rwa [shift_snoc' hn] at this
  rcases hv.axis with h0 | ⟨h0, h1⟩
  · right
    -- the sibling
    have sib : ∀ x x' : Int, x ∈ c.2 → shr x' 1 = shr x 1 → Covers calls (c.1 ++ [x']) := by
      intro x x' hx hxx
      obtain ⟨m1, m2⟩ := here x hx
      have hpar : parentOf (c.1 ++ [x']) = parentOf (c.1 ++ [x]) := by
        rw [parentOf_snoc, parentOf_snoc, hxx]
      have hsib : parentOf (shiftPoint v n c.1 ++ [x' + v 0]) = parentOf (shiftPoint v n c.1 ++ [x + v 0]) := by
        rw [parentOf_snoc, parentOf_snoc, h0, add_zero, add_zero, hxx]
      have hb := g.leaves.between _ _ m1
      rw [hcov]
      refine ⟨by rw [hpar, parentOf_snoc]; exact m1, ?_⟩
      have e : shiftPoint v n (c.1 ++ [x']) = shiftPoint v n c.1 ++ [x' + v 0] := shift_snoc' hn
      rw [e]
      rcases g.leaves.siblings g.domain.whole (l := level + 1) (by omega) m2 hsib with h | ⟨d, h, hd⟩
      · exact h
      · exfalso
        have hq : cells.Mem n level (parentOf (c.1 ++ [x'])) := by rw [hpar, parentOf_snoc]; exact m1
        refine g.leaves.no_jump g.domain.whole (l := level + 1) (q := c.1 ++ [x']) (by omega) hq h ?_
        rw [hd, ← e]
        have := near_shift (w := 1) (s := fun k => - v k) (shiftPoint v n (c.1 ++ [x'])) n
          (fun k hk => by have := hv.small k hk; constructor <;> push_cast <;> omega)
        rw [shift_shift] at this
        have e2 : (fun k => v k + - v k) = fun _ : Nat => (0 : Int) := by funext k; omega
        rwa [e2, shift_zero] at this
    have adj : ∀ x' : Int, (x' = c.2.start - 1 ∨ x' = c.2.stop) → ¬ Covers calls (c.1 ++ [x']) := by
      rintro x' hx' ⟨b, hb1, x, hx, heq⟩
      obtain ⟨e1, e2⟩ := snoc_inj heq
      subst e2
      have hx := Interval.mem_def.1 hx
      rcases eq_or_ne b c with rfl | hne
      · omega
      · rcases List.Pairwise.forall_of_forall_of_flip (R := fun a b : Call => a = b ∨ a.Before b ∨ b.Before a)
          (fun a _ => Or.inl rfl) (hc.1.imp fun h => Or.inr (Or.inl h)) (hc.1.imp fun h => Or.inr (Or.inr h)) hb1 hcm with h | h | h
        · exact hne h
        · rcases h with h | ⟨_, h⟩
          · rw [e1] at h; exact List.lt_irrefl _ h
          · omega
        · rcases h with h | ⟨_, h⟩
          · rw [e1] at h; exact List.lt_irrefl _ h
          · omega
    constructor
    · by_contra hodd
      exact adj _ (Or.inl rfl) (sib c.2.start _ (Interval.mem_def.2 ⟨le_rfl, hlt⟩) (by unfold shr; omega))
    · by_contra hodd
      exact adj _ (Or.inr rfl) (sib (c.2.stop - 1) _ (Interval.mem_def.2 ⟨by omega, by omega⟩) (by unfold shr; omega))
  · left
    by_contra hne
    have hx2 : c.2.start + 1 < c.2.stop := by omega
    have hrow : shiftPoint v n c.1 = c.1 := by subst hn; exact shift_row h1
    have k1 := here c.2.start (Interval.mem_def.2 ⟨le_rfl, hlt⟩)
    have k2 := here (c.2.start + 1) (Interval.mem_def.2 ⟨by omega, hx2⟩)
    rw [hrow] at k1 k2
    have clash : ∀ y, cells.Mem n level (parentOf c.1 ++ [shr y 1]) → cells.Mem n (level + 1) (c.1 ++ [y]) → False := by
      intro y a1 a2
      have := (g.leaves.noOverlap level _ (level + 1) _ a1 a2 (by omega) (by
        rw [show level + 1 - level = 1 by omega]
        exact anc_one.2 (parentOf_snoc _ _))).1
      omega
    rcases h0 with h0 | h0
    · exact clash (c.2.start + 1) k2.1 (by rw [← h0]; exact k1.2)
    · exact clash c.2.start k1.1 (by have := k2.2; rwa [h0, show c.2.start + 1 + -1 = c.2.start by omega] at this)

/-! ### the loops -/

/-- The stencil `S` around a cell `q` such that `q + b` is a leaf. -/
theorem FVMesh.avail (g : FVMesh n cells ref dom minL maxL w) {level : Nat} {c : Call} (hc : c.1.length = n) {b : Nat → Int}
    {S : List (Nat → Int)} (hb : ∀ x ∈ c.2, cells.Mem n level (shiftPoint b n (c.1 ++ [x])))
    (h0 : ∀ k ≤ n, - (w : Int) ≤ b k ∧ b k ≤ w) (hS : ∀ s ∈ S, ∀ k ≤ n, - (w : Int) ≤ s k - b k ∧ s k - b k ≤ w) :
    Avail n (ref.lca level) S c := by
  have key : ∀ t : Nat → Int, (∀ k ≤ n, - (w : Int) ≤ t k - b k ∧ t k - b k ≤ w) → ∀ x ∈ c.2,
      (ref.lca level).Mem n (shiftPoint t n c.1 ++ [x + t 0]) := by
    intro t ht x hx
    rw [← shift_snoc' hc]
    exact (g.ghosts level _ _ (hb x hx) (near_shifts ht)).2
  refine ⟨fun x hx => ?_, fun s hs x hx => key s (hS s hs) x hx, fun s hs hrow x hx t ht => ?_⟩
  · have := key (fun _ => 0) (fun k hk => by have := h0 k hk; constructor <;> omega) x hx
    rwa [shift_zero, add_zero] at this
  · have := key (fun k => if k = 0 then t else 0) (fun k hk => by
      have h1 := h0 k hk
      have h2 := hS s hs k hk
      by_cases hk0 : k = 0
      · subst hk0
        simp only [if_true]
        omega
      · simp only [hk0, if_false]; omega) x hx
    have e : shiftPoint (fun k => if k = 0 then t else 0) n c.1 = c.1 := by
      subst hc; exact shift_row fun k _ => by simp
    rw [e] at this
    simpa using this

theorem FVMesh.ref_level (g : FVMesh n cells ref dom minL maxL w) {l : Nat} {p : List Int} (h : cells.Mem n l p) :
    l ≤ ref.maxSize ∧ (ref.lca l).WF n := by
  have := (g.ghosts l p p h (near_refl _ _)).1
  exact ⟨this, g.refWF l this⟩

theorem FVMesh.cell_mem (g : FVMesh n cells ref dom minL maxL w) {l : Nat} {p : List Int} (h : cells.Mem n l p) : (ref.lca l).Mem n p :=
  (g.ghosts l p p h (near_refl _ _)).2

theorem FVMesh.sameFaces (g : FVMesh n cells ref dom minL maxL w) {dir : Nat → Int} {S : List (Nat → Int)} (hdir : ∀ d, - dir d ≤ 1)
    (hS : StencilOK n w dir S) {level : Nat} (hl : level ≤ maxL) :
    ∃ fs ps, sameLevelFaces n ref cells level dir S = some fs ∧ ps.Nodup ∧
      (∀ p, p ∈ ps ↔ cells.Mem n level p ∧ cells.Mem n level (shiftPoint dir n p)) ∧
      List.Forall₂ (SameFace n ref level dir S) ps fs := by
  obtain ⟨calls, h1, h2, h3, h4⟩ := g.sameSet hdir hl
  have hrow : ∀ c ∈ calls, ∃ fs, sameLevelRow n ref level dir S c = some fs ∧
      List.Forall₂ (SameFace n ref level dir S) ((coords1 c.2).map fun x => c.1 ++ [x]) fs := by
    intro c hc
    obtain ⟨hlt, _⟩ := h2.2 c hc
    have hn := h3 c hc
    have hleaf : ∀ x ∈ c.2, cells.Mem n level (c.1 ++ [x]) := fun x hx => ((h4 _).1 ⟨c, hc, x, hx, rfl⟩).1
    have hw := (g.ref_level (hleaf c.2.start (Interval.mem_def.2 ⟨le_rfl, hlt⟩))).2
    have a1 := g.avail (S := S) (b := fun _ => 0) hn (by simpa only [shift_zero] using hleaf) (fun k _ => by constructor <;> omega)
      (fun s hs k hk => by have := hS.width s hs k hk; constructor <;> omega)
    obtain ⟨t, ht, ht2⟩ := hS.next
    have a2 := g.avail (S := inOutStencil dir) (b := fun _ => 0) hn (by simpa only [shift_zero] using hleaf) (fun k _ => by constructor <;> omega)
      (fun s hs k hk => by
        unfold inOutStencil at hs
        simp only [List.mem_cons, List.not_mem_nil, or_false] at hs
        rcases hs with rfl | rfl
        · show - (w : Int) ≤ (0 : Int) - 0 ∧ (0 : Int) - 0 ≤ w
          omega
        · have := hS.width t ht k hk
          rw [ht2 k hk] at this
          constructor <;> omega)
    exact sameLevelRow_spec hw hn hlt a1 a2 hS.orig
  obtain ⟨fs, f1, f2⟩ := facesOf_spec hrow
  refine ⟨fs, callCells calls, ?_, callCells_nodup h2, fun p => mem_callCells.trans (h4 p), f2⟩
  unfold sameLevelFaces
  rw [h1]
  exact f1

theorem FVMesh.jumpRows (g : FVMesh n cells ref dom minL maxL w) {v : Nat → Int} {S : List (Nat → Int)} (hv : AxisDir n v)
    (hv1 : ∀ d, - v d ≤ 1) (hw1 : 1 ≤ w) (h0 : ∃ s ∈ S, ∀ k ≤ n, s k = 0) (hS : ∃ s ∈ S, ∀ k ≤ n, s k = v k)
    (hwd : ∀ s ∈ S, ∀ k ≤ n, - (w : Int) ≤ s k - v k ∧ s k - v k ≤ w) {level : Nat} (hl : level < maxL) :
    ∃ calls, runSet n (.op .inter (.leaf (.mesh (cells.lca level)))
        (.leaf (.translate (.mesh (cells.lca (level + 1))) fun d => - v d))) (level + 1) = some calls ∧ (callCells calls).Nodup ∧
      (∀ p, p ∈ callCells calls ↔ cells.Mem n level (parentOf p) ∧ cells.Mem n (level + 1) (shiftPoint v n p)) ∧
      ∀ c ∈ calls, ∃ k l j, stencilFind n S v = some k ∧ stencilInit n ref S (level + 1) c = some l ∧ jumpInit n ref level l k c = some j ∧
        List.Forall₂ (JumpFace n ref level v S) ((coords1 c.2).map fun x => c.1 ++ [x])
          ((slide (fun s : JumpIter × List MCell => (s.1.next, stencilNext s.2)) c.2.size (j, l)).map
            fun s => (s.1.coarse, s.1.fine, s.2)) := by
  obtain ⟨calls, h1, h2, h3, h4⟩ := g.jumpSet hv1 hl
  refine ⟨calls, h1, callCells_nodup h2, fun p => mem_callCells.trans (h4 p), fun c hc => ?_⟩
  obtain ⟨hlt, _⟩ := h2.2 c hc
  have hn := h3 c hc
  have hin : ∀ x ∈ c.2, cells.Mem n level (parentOf (c.1 ++ [x])) ∧ cells.Mem n (level + 1) (shiftPoint v n (c.1 ++ [x])) :=
    fun x hx => (h4 _).1 ⟨c, hc, x, hx, rfl⟩
  have hst := hin c.2.start (Interval.mem_def.2 ⟨le_rfl, hlt⟩)
  exact jump_spec (g.ref_level hst.2).2 (g.ref_level hst.1).2 hn hlt
    (g.avail hn (fun x hx => (hin x hx).2) (fun k hk => by have := hv.small k hk; constructor <;> omega) hwd) h0 hS
    (fun x hx => g.cell_mem (hin x hx).1) (g.evenRow hv h2 h3 h4 c hc)

/-! ### all the interfaces -/

/-- The calls `fs` are right and are, each once, those of the pairs of leaves with the property `P`. -/
structure FacesOK (n : Nat) (ref : CA) (dir : Nat → Int) (S : List (Nat → Int))
    (P : (Nat × List Int) × (Nat × List Int) → Prop) (fs : List FaceCall) : Prop where
  nodup : (fs.map FaceCall.ends).Nodup
  mem : ∀ e, e ∈ fs.map FaceCall.ends ↔ P e
  right : ∀ f ∈ fs, f.Right n ref dir S

theorem FacesOK.append {dir : Nat → Int} {S : List (Nat → Int)} {P Q : (Nat × List Int) × (Nat × List Int) → Prop} {fs gs : List FaceCall}
    (h1 : FacesOK n ref dir S P fs) (h2 : FacesOK n ref dir S Q gs) (hd : ∀ e, P e → Q e → False) :
    FacesOK n ref dir S (fun e => P e ∨ Q e) (fs ++ gs) := by
  refine ⟨?_, fun e => ?_, fun f hf => ?_⟩
  · rw [List.map_append, List.nodup_append]
    refine ⟨h1.nodup, h2.nodup, fun a ha b hb hab => ?_⟩
    subst hab
    exact hd a ((h1.mem a).1 ha) ((h2.mem a).1 hb)
  · rw [List.map_append, List.mem_append, h1.mem, h2.mem]
  · rcases List.mem_append.1 hf with hf | hf
    · exact h1.right f hf
    · exact h2.right f hf

theorem FacesOK.of {dir : Nat → Int} {S : List (Nat → Int)} {P : (Nat × List Int) × (Nat × List Int) → Prop} {ps : List (List Int)}
    {fs : List FaceCall} {e : List Int → (Nat × List Int) × (Nat × List Int)} (hnd : ps.Nodup) (he : Function.Injective e)
    (hP : ∀ a, P a ↔ ∃ q ∈ ps, e q = a) (h : List.Forall₂ (fun q f => FaceCall.ends f = e q) ps fs) (hr : ∀ f ∈ fs, f.Right n ref dir S) :
    FacesOK n ref dir S P fs := by
  have hm : fs.map FaceCall.ends = ps.map e := by
    clear hnd hr hP
    induction h with
    | nil => rfl
    | cons h _ ih => rw [List.map_cons, List.map_cons, h, ih]
  refine ⟨by rw [hm]; exact hnd.map he, fun a => ?_, hr⟩
  rw [hm, List.mem_map, hP]

theorem CellNum.is {l : Nat} {p : List Int} {m : MCell} (hl : l ≤ ref.maxSize) (h : CellNum n ref l p m) : CellIs n ref l p m := by
  obtain ⟨h1, h2, h3⟩ := h
  refine ⟨h1, h2, ?_⟩
  rw [← h2]
  exact num_numbered hl h3

theorem forall₂_mem {α β : Type} {R : α → β → Prop} {l : List α} {l' : List β} (h : List.Forall₂ R l l') {b : β} (hb : b ∈ l') :
    ∃ a ∈ l, R a b := by
  induction h with
  | nil => simp at hb
  | cons h _ ih =>
    rcases List.mem_cons.1 hb with rfl | hb
    · exact ⟨_, by simp, h⟩
    · obtain ⟨a, ha, hr⟩ := ih hb
      exact ⟨a, List.mem_cons_of_mem _ ha, hr⟩

/-- Interfaces of two leaves of level `level`. -/
def PSame (n : Nat) (cells : CA) (dir : Nat → Int) (level : Nat) (e : (Nat × List Int) × (Nat × List Int)) : Prop :=
  ∃ q, cells.Mem n level q ∧ cells.Mem n level (shiftPoint dir n q) ∧ e = ((level, q), (level, shiftPoint dir n q))

/-- Interfaces from a leaf of level `level` to a leaf of level `level + 1`. -/
def PJump (n : Nat) (cells : CA) (dir : Nat → Int) (level : Nat) (e : (Nat × List Int) × (Nat × List Int)) : Prop :=
  ∃ q, cells.Mem n level (parentOf q) ∧ cells.Mem n (level + 1) (shiftPoint dir n q) ∧
    e = ((level, parentOf q), (level + 1, shiftPoint dir n q))

/-- Interfaces from a leaf of level `level + 1` to a leaf of level `level`. -/
def POpp (n : Nat) (cells : CA) (dir : Nat → Int) (level : Nat) (e : (Nat × List Int) × (Nat × List Int)) : Prop :=
  ∃ q, cells.Mem n (level + 1) q ∧ cells.Mem n level (parentOf (shiftPoint dir n q)) ∧
    e = ((level + 1, q), (level, parentOf (shiftPoint dir n q)))

theorem FVMesh.sameOK (g : FVMesh n cells ref dom minL maxL w) {dir : Nat → Int} {S : List (Nat → Int)} (hdir : ∀ d, - dir d ≤ 1)
    (hS : StencilOK n w dir S) {level : Nat} (hl : level ≤ maxL) :
    ∃ fs, sameLevelFaces n ref cells level dir S = some fs ∧ FacesOK n ref dir S (PSame n cells dir level) fs := by
  obtain ⟨fs, ps, h1, h2, h3, h4⟩ := g.sameFaces hdir hS hl
  refine ⟨fs, h1, FacesOK.of (e := fun q => ((level, q), (level, shiftPoint dir n q))) h2 ?_ ?_ (h4.imp ?_) ?_⟩
  · intro a b hab
    simp only [Prod.mk.injEq] at hab
    exact hab.1.2
  · intro a
    constructor
    · rintro ⟨q, q1, q2, rfl⟩; exact ⟨q, (h3 q).2 ⟨q1, q2⟩, rfl⟩
    · rintro ⟨q, q1, rfl⟩; exact ⟨q, ((h3 q).1 q1).1, ((h3 q).1 q1).2, rfl⟩
  · rintro q f ⟨⟨a1, a2, _⟩, ⟨b1, b2, _⟩, _⟩
    unfold FaceCall.ends MCell.id
    rw [a1, a2, b1, b2]
  · intro f hf
    obtain ⟨q, hq, ha, hb, hc⟩ := forall₂_mem h4 hf
    have hlr := (g.ref_level ((h3 q).1 hq).1).1
    refine ⟨by rw [ha.1, ha.2.1]; exact ha.is hlr, by rw [hb.1, hb.2.1]; exact hb.is hlr, q, ?_, ?_⟩
    · unfold FaceAt MCell.id
      simp only []
      rw [ha.1, ha.2.1, hb.1, hb.2.1, Nat.max_self, Nat.sub_self]
      exact ⟨anc_zero.2 rfl, anc_zero.2 rfl⟩
    · rw [ha.1, hb.1, Nat.max_self]
      exact hc.imp fun s m hm => hm.is hlr

theorem facesOf_map {α β : Type} {row : Call → Option (List α)} {h : α → β} {calls : List Call} :
    facesOf (fun c => (row c).map fun l => l.map h) calls = (facesOf row calls).map fun l => l.map h := by
  induction calls with
  | nil => rfl
  | cons c cs ih =>
    unfold facesOf
    rw [ih]
    cases row c <;> cases facesOf row cs <;> simp

/-- The rows of a level jump, before the choice of the order of the two cells. -/
def jumpCore (n : Nat) (ref : CA) (level : Nat) (v : Nat → Int) (S : List (Nat → Int)) (c : Call) : Option (List (MCell × MCell × List MCell)) :=
  match stencilFind n S v, stencilInit n ref S (level + 1) c with
  | some k, some l =>
    match jumpInit n ref level l k c with
    | none => none
    | some j =>
      some ((slide (fun s : JumpIter × List MCell => (s.1.next, stencilNext s.2)) c.2.size (j, l)).map
        fun s => (s.1.coarse, s.1.fine, s.2))
  | _, _ => none

theorem jumpRow_core {level : Nat} {dir : Nat → Int} {S : List (Nat → Int)} :
    jumpRow n ref level dir S = fun c => (jumpCore n ref level dir S c).map fun l => l.map fun s => ⟨s.1, s.2.1, s.2.2⟩ := by
  funext c
  unfold jumpRow jumpCore
  cases stencilFind n S dir with
  | none => rfl
  | some k =>
    cases stencilInit n ref S (level + 1) c with
    | none => rfl
    | some l =>
      simp only []
      cases jumpInit n ref level l k c with
      | none => rfl
      | some j => simp [List.map_map, Function.comp_def]

theorem jumpRowOpp_core {level : Nat} {dir : Nat → Int} {S : List (Nat → Int)} :
    jumpRowOpp n ref level dir S = fun c => (jumpCore n ref level (fun d => - dir d) (minusStencil dir S) c).map
      fun l => l.map fun s => ⟨s.2.1, s.1, s.2.2⟩ := by
  funext c
  unfold jumpRowOpp jumpCore
  cases stencilFind n (minusStencil dir S) (fun d => - dir d) with
  | none => rfl
  | some k =>
    cases stencilInit n ref (minusStencil dir S) (level + 1) c with
    | none => rfl
    | some l =>
      simp only []
      cases jumpInit n ref level l k c with
      | none => rfl
      | some j => simp [List.map_map, Function.comp_def]

theorem FVMesh.jumpCores (g : FVMesh n cells ref dom minL maxL w) {v : Nat → Int} {S : List (Nat → Int)} (hv : AxisDir n v)
    (hv1 : ∀ d, - v d ≤ 1) (hw1 : 1 ≤ w) (h0 : ∃ s ∈ S, ∀ k ≤ n, s k = 0) (hS : ∃ s ∈ S, ∀ k ≤ n, s k = v k)
    (hwd : ∀ s ∈ S, ∀ k ≤ n, - (w : Int) ≤ s k - v k ∧ s k - v k ≤ w) {level : Nat} (hl : level < maxL) :
    ∃ calls fs, runSet n (.op .inter (.leaf (.mesh (cells.lca level)))
        (.leaf (.translate (.mesh (cells.lca (level + 1))) fun d => - v d))) (level + 1) = some calls ∧ (callCells calls).Nodup ∧
      (∀ p, p ∈ callCells calls ↔ cells.Mem n level (parentOf p) ∧ cells.Mem n (level + 1) (shiftPoint v n p)) ∧
      facesOf (jumpCore n ref level v S) calls = some fs ∧ List.Forall₂ (JumpFace n ref level v S) (callCells calls) fs := by
  obtain ⟨calls, h1, h2, h3, h4⟩ := g.jumpRows hv hv1 hw1 h0 hS hwd hl
  obtain ⟨fs, f1, f2⟩ := facesOf_spec (row := jumpCore n ref level v S) (R := JumpFace n ref level v S) (calls := calls) (by
    intro c hc
    obtain ⟨k, l, j, j1, j2, j3, j4⟩ := h4 c hc
    refine ⟨_, ?_, j4⟩
    unfold jumpCore
    rw [j1, j2]
    simp only []
    rw [j3])
  exact ⟨calls, fs, h1, h2, h3, f1, f2⟩

theorem facesOK_nil {dir : Nat → Int} {S : List (Nat → Int)} {P : (Nat × List Int) × (Nat × List Int) → Prop} (h : ∀ e, ¬ P e) :
    FacesOK n ref dir S P [] := by
  refine ⟨List.nodup_nil, fun e => ?_, fun f hf => by simp at hf⟩
  simp [h e]

theorem FVMesh.jumpOK (g : FVMesh n cells ref dom minL maxL w) {dir : Nat → Int} {S : List (Nat → Int)} (hdir : ∀ d, - dir d ≤ 1)
    (hax : AxisDir n dir) (hw1 : 1 ≤ w) (hS : StencilOK n w dir S) (level : Nat) :
    ∃ fs, jumpFaces n ref cells maxL level dir S = some fs ∧ FacesOK n ref dir S (PJump n cells dir level) fs := by
  unfold jumpFaces
  by_cases hl : level ≥ maxL
  · rw [if_pos hl]
    refine ⟨[], rfl, facesOK_nil ?_⟩
    rintro e ⟨q, _, h, _⟩
    have := (g.leaves.between _ _ h).2
    omega
  · rw [if_neg hl]
    obtain ⟨calls, fs, h1, h2, h3, h4, h5⟩ := g.jumpCores hax hdir hw1 hS.orig hS.next
      (fun s hs k hk => by have := hS.width s hs k hk; omega) (level := level) (by omega)
    rw [h1]
    simp only []
    rw [jumpRow_core, facesOf_map, h4]
    refine ⟨_, rfl, FacesOK.of (e := fun q => ((level, parentOf q), (level + 1, shiftPoint dir n q))) h2 ?_ ?_
      (List.forall₂_map_right_iff.2 (h5.imp ?_)) ?_⟩
    · intro a b hab
      simp only [Prod.mk.injEq] at hab
      exact shift_inj hab.2.2
    · intro a
      constructor
      · rintro ⟨q, q1, q2, rfl⟩; exact ⟨q, (h3 q).2 ⟨q1, q2⟩, rfl⟩
      · rintro ⟨q, q1, rfl⟩; exact ⟨q, ((h3 q).1 q1).1, ((h3 q).1 q1).2, rfl⟩
    · rintro q f ⟨⟨a1, a2, _⟩, ⟨b1, b2, _⟩, _⟩
      unfold FaceCall.ends MCell.id
      simp only []
      rw [a1, a2, b1, b2]
    · intro f hf
      obtain ⟨f', hf', rfl⟩ := List.mem_map.1 hf
      obtain ⟨q, hq, ha, hb, hc⟩ := forall₂_mem h5 hf'
      have hlr := (g.ref_level ((h3 q).1 hq).1).1
      have hlr1 := (g.ref_level ((h3 q).1 hq).2).1
      refine ⟨by simp only []; rw [ha.1, ha.2.1]; exact ha.is hlr, by simp only []; rw [hb.1, hb.2.1]; exact hb.is hlr1, q, ?_, ?_⟩
      · unfold FaceAt MCell.id
        simp only []
        rw [ha.1, ha.2.1, hb.1, hb.2.1, show max level (level + 1) - level = 1 by omega, show max level (level + 1) - (level + 1) = 0 by omega]
        exact ⟨anc_one.2 rfl, anc_zero.2 rfl⟩
      · simp only []
        rw [ha.1, hb.1, show max level (level + 1) = level + 1 by omega]
        exact hc.imp fun s m hm => hm.is hlr1

theorem FVMesh.oppOK (g : FVMesh n cells ref dom minL maxL w) {dir : Nat → Int} {S : List (Nat → Int)} (hdir : ∀ d, dir d ≤ 1)
    (hax : AxisDir n fun d => - dir d) (hw1 : 1 ≤ w) (hS : StencilOK n w dir S) (level : Nat) :
    ∃ fs, jumpFacesOpp n ref cells maxL level dir S = some fs ∧ FacesOK n ref dir S (POpp n cells dir level) fs := by
  unfold jumpFacesOpp
  have back : ∀ q, shiftPoint dir n (shiftPoint (fun d => - dir d) n q) = q := by
    intro q
    rw [shift_shift, show (fun k => - dir k + dir k) = fun _ : Nat => (0 : Int) by funext k; omega, shift_zero]
  have forth : ∀ q, shiftPoint (fun d => - dir d) n (shiftPoint dir n q) = q := by
    intro q
    rw [shift_shift, show (fun k => dir k + - dir k) = fun _ : Nat => (0 : Int) by funext k; omega, shift_zero]
  by_cases hl : level ≥ maxL
  · rw [if_pos hl]
    refine ⟨[], rfl, facesOK_nil ?_⟩
    rintro e ⟨q, h, _, _⟩
    have := (g.leaves.between _ _ h).2
    omega
  · rw [if_neg hl]
    obtain ⟨calls, fs, h1, h2, h3, h4, h5⟩ := g.jumpCores (S := minusStencil dir S) hax (by simpa using hdir) hw1
      (by
        obtain ⟨s, hs, h⟩ := hS.next
        exact ⟨_, List.mem_map.2 ⟨s, hs, rfl⟩, fun k hk => by simp only [h k hk]; omega⟩)
      (by
        obtain ⟨s, hs, h⟩ := hS.orig
        exact ⟨_, List.mem_map.2 ⟨s, hs, rfl⟩, fun k hk => by simp only [h k hk]; omega⟩)
      (by
        intro s' hs' k hk
        obtain ⟨s, hs, rfl⟩ := List.mem_map.1 hs'
        have := hS.width s hs k hk
        simp only []
        omega) (level := level) (by omega)
    rw [show (fun d => - (fun d => - dir d) d) = dir by funext d; simp] at h1
    rw [h1]
    simp only []
    rw [jumpRowOpp_core, facesOf_map, h4]
    refine ⟨_, rfl, FacesOK.of (e := fun q => ((level + 1, shiftPoint (fun d => - dir d) n q), (level, parentOf q))) h2 ?_ ?_
      (List.forall₂_map_right_iff.2 (h5.imp ?_)) ?_⟩
    · intro a b hab
      simp only [Prod.mk.injEq] at hab
      exact shift_inj hab.1.2
    · intro a
      constructor
      · rintro ⟨q, q1, q2, rfl⟩
        exact ⟨shiftPoint dir n q, (h3 _).2 ⟨q2, by rw [forth]; exact q1⟩, by rw [forth]⟩
      · rintro ⟨q, q1, rfl⟩
        exact ⟨_, ((h3 q).1 q1).2, by rw [back]; exact ((h3 q).1 q1).1, by rw [back]⟩
    · rintro q f ⟨⟨a1, a2, _⟩, ⟨b1, b2, _⟩, _⟩
      unfold FaceCall.ends MCell.id
      simp only []
      rw [a1, a2, b1, b2]
    · intro f hf
      obtain ⟨f', hf', rfl⟩ := List.mem_map.1 hf
      obtain ⟨q, hq, ha, hb, hc⟩ := forall₂_mem h5 hf'
      have hlr := (g.ref_level ((h3 q).1 hq).1).1
      have hlr1 := (g.ref_level ((h3 q).1 hq).2).1
      refine ⟨by simp only []; rw [hb.1, hb.2.1]; exact hb.is hlr1, by simp only []; rw [ha.1, ha.2.1]; exact ha.is hlr,
        shiftPoint (fun d => - dir d) n q, ?_, ?_⟩
      · unfold FaceAt MCell.id
        simp only []
        rw [ha.1, ha.2.1, hb.1, hb.2.1, show max (level + 1) level - level = 1 by omega, show max (level + 1) level - (level + 1) = 0 by omega, back]
        exact ⟨anc_zero.2 rfl, anc_one.2 rfl⟩
      · simp only []
        rw [ha.1, hb.1, show max (level + 1) level = level + 1 by omega]
        unfold CellsOf minusStencil at hc
        rw [List.forall₂_map_left_iff] at hc
        refine hc.imp fun s m hm => ?_
        rw [shift_shift]
        have := hm.is hlr1
        rwa [show (fun d => s d - dir d) = fun k => - dir k + s k by funext k; omega] at this

theorem FVMesh.levelOK (g : FVMesh n cells ref dom minL maxL w) {dir : Nat → Int} {S : List (Nat → Int)} (hdir : ∀ d, dir d ≤ 1 ∧ - dir d ≤ 1)
    (hax : AxisDir n dir) (hax' : AxisDir n fun d => - dir d) (hw1 : 1 ≤ w) (hS : StencilOK n w dir S) {level : Nat} (hl : level ≤ maxL) :
    ∃ fs, levelFaces n ref cells maxL dir S level = some fs ∧
      FacesOK n ref dir S (fun e => PSame n cells dir level e ∨ (PJump n cells dir level e ∨ POpp n cells dir level e)) fs := by
  obtain ⟨a, a1, a2⟩ := g.sameOK (fun d => (hdir d).2) hS hl
  obtain ⟨b, b1, b2⟩ := g.jumpOK (fun d => (hdir d).2) hax hw1 hS level
  obtain ⟨c, c1, c2⟩ := g.oppOK (fun d => (hdir d).1) hax' hw1 hS level
  refine ⟨_, by unfold levelFaces; rw [a1, b1, c1], a2.append (b2.append c2 ?_) ?_⟩
  · rintro e ⟨q, _, _, rfl⟩ ⟨q', _, _, h⟩
    simp only [Prod.mk.injEq] at h
    omega
  · rintro e ⟨q, _, _, rfl⟩ (⟨q', _, _, h⟩ | ⟨q', _, _, h⟩) <;>
    · simp only [Prod.mk.injEq] at h
      omega

/-- The level of the loop in which a pair of leaves is met. -/
theorem pair_level {dir : Nat → Int} {level : Nat} {e : (Nat × List Int) × (Nat × List Int)}
    (h : PSame n cells dir level e ∨ (PJump n cells dir level e ∨ POpp n cells dir level e)) :
    min e.1.1 e.2.1 = level ∧ ∃ p, cells.Mem n level p := by
  rcases h with ⟨q, h1, _, rfl⟩ | ⟨q, h1, _, rfl⟩ | ⟨q, _, h1, rfl⟩
  · exact ⟨by simp, _, h1⟩
  · exact ⟨by simp, _, h1⟩
  · exact ⟨by simp, _, h1⟩

theorem overLevels_ok {dir : Nat → Int} {S : List (Nat → Int)} {f : Nat → Option (List FaceCall)}
    {P : Nat → (Nat × List Int) × (Nat × List Int) → Prop} (hP : ∀ a b e, P a e → P b e → a = b) :
    ∀ ls : List Nat, ls.Nodup → (∀ l ∈ ls, ∃ fs, f l = some fs ∧ FacesOK n ref dir S (P l) fs) →
      ∃ fs, overLevels f ls = some fs ∧ FacesOK n ref dir S (fun e => ∃ l ∈ ls, P l e) fs := by
  intro ls
  induction ls with
  | nil => intro _ _; exact ⟨[], rfl, facesOK_nil (by simp)⟩
  | cons l ls ih =>
    intro hnd h
    rw [List.nodup_cons] at hnd
    obtain ⟨a, a1, a2⟩ := h l (by simp)
    obtain ⟨b, b1, b2⟩ := ih hnd.2 fun l' hl' => h l' (List.mem_cons_of_mem _ hl')
    refine ⟨a ++ b, by unfold overLevels; rw [a1, b1], ?_⟩
    have := a2.append b2 (by
      rintro e h1 ⟨l', hl', h2⟩
      rw [hP _ _ _ h1 h2] at hnd
      exact hnd.1 hl')
    refine ⟨this.nodup, fun e => (this.mem e).trans ?_, this.right⟩
    simp

end

end Samurai

import Verif.Lemmas.InterfaceSets

namespace Samurai

theorem mem_usedLevels {n : Nat} {c : CA} (h : c.WF n) {l : Nat} : l ∈ c.usedLevels ↔ ∃ p, c.Mem n l p := by
  unfold CA.usedLevels
  rw [List.mem_filter]
  constructor
  · rintro ⟨h1, h2⟩
    have hl := CA.levels_le h1
    have he : (c.lca l).isEmpty = false := by simpa using h2
    have hr : (c.lca l).rows n ≠ [] := fun h' => by
      rw [(rows_eq_nil_iff (h l hl)).1 h'] at he; simp at he
    obtain ⟨e, he⟩ := List.exists_mem_of_ne_nil _ hr
    have hv := (rows_valid (h l hl) he).2
    exact ⟨_, hl, (mem_iff_rows (h l hl) _).2 ⟨e, he, e.2.start, Interval.mem_def.2 ⟨le_rfl, hv⟩, rfl⟩⟩
  · rintro ⟨p, hp⟩
    have hlv := CA.mem_levels h hp
    refine ⟨?_, ?_⟩
    · unfold CA.levels
      rw [List.mem_range'_1]
      omega
    · by_contra hc
      have hc : (c.lca l).isEmpty = true := by simpa using hc
      obtain ⟨e, he, _⟩ := (mem_iff_rows (h l hp.1) p).1 hp.2
      rw [(rows_eq_nil_iff (h l hp.1)).2 hc] at he
      simp at he

theorem usedLevels_nodup (c : CA) : c.usedLevels.Nodup := c.levels_nodup.filter _

theorem unitDir_le (d k : Nat) : unitDir d k ≤ 1 ∧ - unitDir d k ≤ 1 := by
  unfold unitDir
  by_cases h : k = d <;> simp [h]

theorem unitDir_axis (n d : Nat) : AxisDir n (unitDir d) := by
  refine ⟨fun k _ => by have := unitDir_le d k; omega, ?_⟩
  cases d with
  | zero => exact Or.inr ⟨Or.inl rfl, fun k _ => by unfold unitDir; rw [if_neg (by omega)]⟩
  | succ d => exact Or.inl (by unfold unitDir; rw [if_neg (by omega)])

theorem unitDir_axis_neg (n d : Nat) : AxisDir n fun k => - unitDir d k := by
  refine ⟨fun k _ => by have := unitDir_le d k; omega, ?_⟩
  cases d with
  | zero => exact Or.inr ⟨Or.inr rfl, fun k _ => by unfold unitDir; rw [if_neg (by omega)]; rfl⟩
  | succ d => exact Or.inl (by unfold unitDir; rw [if_neg (by omega)]; rfl)

theorem StencilOK.pos {n w d : Nat} {S : List (Nat → Int)} (h : StencilOK n w (unitDir d) S) (hd : d ≤ n) : 1 ≤ w := by
  obtain ⟨s, hs, h1⟩ := h.next
  have := h.width s hs d hd
  rw [h1 d hd] at this
  unfold unitDir at this
  rw [if_pos rfl] at this
  omega

section
variable {n : Nat} {cells ref : CA} {dom : LCA} {minL maxL w : Nat}

/-- The interfaces are those of the three loops of a level. -/
theorem FVMesh.interface_iff (g : FVMesh n cells ref dom minL maxL w) {dir : Nat → Int} (hax : ∀ k ≤ n, -1 ≤ dir k ∧ dir k ≤ 1)
    (e : (Nat × List Int) × (Nat × List Int)) :
    (∃ l ∈ cells.usedLevels, PSame n cells dir l e ∨ (PJump n cells dir l e ∨ POpp n cells dir l e)) ↔ Interface n cells dir e.1 e.2 := by
  constructor
  · rintro ⟨l, _, ⟨q, h1, h2, rfl⟩ | ⟨q, h1, h2, rfl⟩ | ⟨q, h1, h2, rfl⟩⟩
    · refine ⟨h1, h2, q, ?_⟩
      unfold FaceAt
      simp only []
      rw [Nat.max_self, Nat.sub_self]
      exact ⟨anc_zero.2 rfl, anc_zero.2 rfl⟩
    · refine ⟨h1, h2, q, ?_⟩
      unfold FaceAt
      simp only []
      rw [show max l (l + 1) - l = 1 by omega, show max l (l + 1) - (l + 1) = 0 by omega]
      exact ⟨anc_one.2 rfl, anc_zero.2 rfl⟩
    · refine ⟨h1, h2, q, ?_⟩
      unfold FaceAt
      simp only []
      rw [show max (l + 1) l - l = 1 by omega, show max (l + 1) l - (l + 1) = 0 by omega]
      exact ⟨anc_zero.2 rfl, anc_one.2 rfl⟩
  · obtain ⟨⟨la, pa⟩, ⟨lb, pb⟩⟩ := e
    rintro ⟨h1, h2, q, h3, h4⟩
    simp only at h1 h2 h3 h4
    have near : Near 1 q (shiftPoint dir n q) := by
      have := near_shifts (w := 1) (n := n) (s := fun _ => 0) (t := dir) (p := q) (fun k hk => by
        have := hax k hk; constructor <;> push_cast <;> omega)
      rwa [shift_zero] at this
    have near' : Near 1 (shiftPoint dir n q) q := near_shift (w := 1) q n (fun k hk => by
        have := hax k hk; constructor <;> push_cast <;> omega)
    rcases Nat.lt_trichotomy la lb with hlt | heq | hgt
    · rw [show max la lb - lb = 0 by omega] at h4
      rw [show max la lb - la = lb - la by omega] at h3
      have e4 := anc_zero.1 h4
      subst e4
      have := g.leaves.graded la pa lb _ q h1 h2 (by omega) near h3
      have hlb : lb = la + 1 := by omega
      subst hlb
      rw [show la + 1 - la = 1 by omega] at h3
      have e3 := anc_one.1 h3
      subst e3
      exact ⟨la, (mem_usedLevels g.leaves.wf).2 ⟨_, h1⟩, Or.inr (Or.inl ⟨q, h1, h2, rfl⟩)⟩
    · subst heq
      rw [Nat.max_self, Nat.sub_self] at h3 h4
      have e3 := anc_zero.1 h3
      have e4 := anc_zero.1 h4
      subst e3 e4
      exact ⟨la, (mem_usedLevels g.leaves.wf).2 ⟨_, h1⟩, Or.inl ⟨pa, h1, h2, rfl⟩⟩
    · rw [show max la lb - lb = la - lb by omega] at h4
      rw [show max la lb - la = 0 by omega] at h3
      have e3 := anc_zero.1 h3
      subst e3
      have := g.leaves.graded lb pb la _ _ h2 h1 (by omega) near' h4
      have hla : la = lb + 1 := by omega
      subst hla
      rw [show lb + 1 - lb = 1 by omega] at h4
      have e4 := anc_one.1 h4
      subst e4
      exact ⟨lb, (mem_usedLevels g.leaves.wf).2 ⟨_, h2⟩, Or.inr (Or.inr ⟨pa, h1, h2, rfl⟩)⟩

theorem FVMesh.interior (g : FVMesh n cells ref dom minL maxL w) {d : Nat} (hd : d ≤ n) {S : List (Nat → Int)}
    (hS : StencilOK n w (unitDir d) S) :
    ∃ fs, interiorFaces n ref cells maxL (unitDir d) S = some fs ∧
      FacesOK n ref (unitDir d) S (fun e => Interface n cells (unitDir d) e.1 e.2) fs := by
  obtain ⟨fs, h1, h2⟩ := overLevels_ok (n := n) (ref := ref) (dir := unitDir d) (S := S) (f := levelFaces n ref cells maxL (unitDir d) S)
    (P := fun l e => PSame n cells (unitDir d) l e ∨ (PJump n cells (unitDir d) l e ∨ POpp n cells (unitDir d) l e))
    (fun a b e ha hb => by rw [← (pair_level ha).1, ← (pair_level hb).1]) cells.usedLevels (usedLevels_nodup _) (by
      intro l hl
      obtain ⟨p, hp⟩ := (mem_usedLevels g.leaves.wf).1 hl
      exact g.levelOK (unitDir_le d) (unitDir_axis n d) (unitDir_axis_neg n d) (hS.pos hd) hS (g.leaves.between _ _ hp).2)
  exact ⟨fs, h1, h2.nodup, fun e => (h2.mem e).trans (g.interface_iff (unitDir_axis n d).small e), h2.right⟩

/-! ### boundary -/

theorem atLevel_desc {l m : Nat} (h : m ≤ l) {S : List Int → Prop} {p : List Int} : AtLevel l m S p ↔ ∃ q, S q ∧ Anc (l - m) p q := by
  rcases Nat.eq_or_lt_of_le h with rfl | h
  · rw [atLevel_same, Nat.sub_self]
    constructor
    · intro h; exact ⟨p, h, anc_zero.2 rfl⟩
    · rintro ⟨q, h1, h2⟩; rw [anc_zero.1 h2]; exact h1
  · unfold AtLevel Anc
    rw [if_neg (by omega)]

theorem anc_shift {k : Nat} {s : Nat → Int} {p m : List Int} (h : Anc k p m) : ∀ d, Anc k (shiftPoint s d p) (shiftPoint (fun j => 2 ^ k * s j) d m) := by
  induction h with
  | nil => intro d; exact List.Forall₂.nil
  | @cons a b p m h _ ih =>
    intro d
    refine List.Forall₂.cons ?_ (ih (d - 1))
    obtain ⟨h1, h2⟩ := h
    constructor
    · show (a + s d) * 2 ^ k ≤ b + 2 ^ k * s d
      nlinarith
    · show b + 2 ^ k * s d < (a + s d + 1) * 2 ^ k
      nlinarith

theorem FVMesh.bdrySet (g : FVMesh n cells ref dom minL maxL w) {sub : LCA} (hsw : sub.WF n) (hsl : sub.level = maxL)
    (hsm : ∀ m, sub.Mem n m ↔ InDomain n dom maxL m) {dir : Nat → Int} (hdir : ∀ d, - dir d ≤ 1) {level : Nat} (hl : level ≤ maxL) :
    ∃ calls, boundarySet n sub cells level dir = some calls ∧ CanonicalCalls calls ∧ (∀ c ∈ calls, c.1.length = n) ∧
      ∀ p, Covers calls p ↔ cells.Mem n level p ∧ ∀ m, Anc (maxL - level) (shiftPoint dir n p) m → ¬ InDomain n dom maxL m := by
  obtain ⟨D, d1, d2, d3⟩ := g.domain.range
  have hs := g.leaves.size
  have hb := g.leaves.below d3
  have hp := pow_two_pos maxL
  have hmarg : (3 : Int) * 2 ^ maxL ≤ ((w + 3 : Nat) : Int) * 2 ^ maxL :=
    Int.mul_le_mul_of_nonneg_right (by push_cast; omega) (le_of_lt hp)
  have hlv := g.leaves.leveled level (by omega)
  have hf : (Expr.op .diff (.leaf (.mesh (cells.lca level)))
      (.leaf (.translate (.mesh sub) fun d => - (2 ^ (sub.level - level)) * dir d))).finest = maxL := by
    show Nat.max (cells.lca level).level sub.level = maxL
    rw [hlv, hsl]
    exact Nat.max_eq_right hl
  have hbt : (cells.lca level).BelowAt n maxL D := by
    intro p hp x hx
    rw [hlv]
    exact hb level p ⟨by omega, hp⟩ x hx
  have ha : (Expr.op .diff (.leaf (.mesh (cells.lca level)))
      (.leaf (.translate (.mesh sub) fun d => - (2 ^ (sub.level - level)) * dir d))).Admissible n := by
    unfold Expr.Admissible
    rw [hf]
    refine ⟨⟨g.leaves.wf level (by omega), inRange_below (g.leaves.wf level (by omega)) le_rfl (by rw [hlv]; exact hl) d1 hbt (by omega)⟩, hsw, ?_⟩
    intro d hd i hi
    have h1 := stop_le_of_mem hsw (B := D) (fun p hp c hc => d3 p ((hsm p).1 hp) c hc) hd hi
    show (i.stop + (0 + - (2 ^ (sub.level - level)) * dir d) + 1) * 2 ^ (maxL - sub.level) + 1 < INT_MAX
    rw [hsl, Nat.sub_self, pow_zero, mul_one]
    have h2 : (2 : Int) ^ (maxL - level) ≤ 2 ^ maxL := pow_mono_two (by omega)
    have h3 : - (2 : Int) ^ (maxL - level) * dir d ≤ 2 ^ (maxL - level) := by
      have := Int.mul_le_mul_of_nonneg_left (hdir d) (le_of_lt (pow_two_pos (maxL - level)))
      linarith
    omega
  obtain ⟨calls, g1, g2, g3, g4⟩ := runSet_canon ha (ref := level) (by rw [hf]; exact hl)
  refine ⟨calls, ?_, g2, g3, fun p => (g4 p).trans ?_⟩
  · unfold boundarySet
    rw [if_neg (by omega)]
    exact g1
  show AtLevel (cells.lca level).level level ((cells.lca level).Mem n) p ∧
    ¬ AtLevel sub.level level (fun p => sub.Mem n (subPoint (fun d => - (2 ^ (sub.level - level)) * dir d) n p)) p ↔ _
  rw [hlv, hsl, atLevel_same, atLevel_desc hl, g.mem_lca hl]
  have e1 : (fun d => - (2 ^ (maxL - level)) * dir d) = fun d => - ((fun j => 2 ^ (maxL - level) * dir j) d) := by
    funext d; ring
  rw [e1]
  simp only [sub_eq_shift, hsm]
  refine and_congr_right fun _ => ?_
  constructor
  · intro hno m hm hin
    refine hno ⟨shiftPoint (fun j => 2 ^ (maxL - level) * (- dir j)) n m, ?_, ?_⟩
    · rw [shift_shift]
      have e2 : (fun k => (2 : Int) ^ (maxL - level) * - dir k + 2 ^ (maxL - level) * dir k) = fun _ : Nat => (0 : Int) := by funext k; ring
      rwa [e2, shift_zero]
    · have := anc_shift (s := fun j => - dir j) hm n
      rw [shift_shift] at this
      have e2 : (fun k => dir k + - dir k) = fun _ : Nat => (0 : Int) := by funext k; ring
      rwa [e2, shift_zero] at this
  · rintro hno ⟨m, h1, h2⟩
    exact hno _ (anc_shift h2 n) h1

/-- What a call on the boundary cell `q` gets. -/
def BdryFace (n : Nat) (ref : CA) (level : Nat) (S : List (Nat → Int)) (q : List Int) (f : BdryCall) : Prop :=
  CellNum n ref level q f.cell ∧ CellsOf n ref level S q f.comput

theorem bdryRow_spec {level : Nat} {dir : Nat → Int} {S : List (Nat → Int)} {c : Call}
    (hw : (ref.lca level).WF n) (hc : c.1.length = n) (hlt : c.2.start < c.2.stop)
    (ha : Avail n (ref.lca level) S c) (hb : Avail n (ref.lca level) (inOutStencil dir) c) (h0 : ∃ s ∈ S, ∀ k ≤ n, s k = 0) :
    ∃ fs, bdryRow n ref level dir S c = some fs ∧
      List.Forall₂ (BdryFace n ref level S) ((coords1 c.2).map fun x => c.1 ++ [x]) fs := by
  obtain ⟨l, l1, l2⟩ := stencilInit_spec hw hc hlt ha h0
  obtain ⟨l', l3, l4⟩ := stencilInit_spec hw hc hlt hb ⟨_, by unfold inOutStencil; exact List.mem_cons_self, fun _ _ => rfl⟩
  unfold inOutStencil at l4
  cases l4 with
  | @cons _ a _ _ ha1 l5 =>
  cases l5 with
  | @cons _ b _ _ hb1 l6 =>
  cases l6
  refine ⟨_, by unfold bdryRow; rw [l3, l1], ?_⟩
  have hs := slide_of (next := fun s : MCell × MCell × List MCell => (s.1.next, s.2.1.next, stencilNext s.2.2))
    (fun i => (a.at i, b.at i, l.map fun m => m.at i))
    (fun i => by simp only [MCell.at_next, stencilNext_at]) c.2.size
  simp only [map_at_zero] at hs
  simp only [MCell.at_zero] at hs
  rw [hs, rowCells_eq, List.map_map]
  apply forall₂_range
  intro i hi
  refine ⟨?_, slides_cells hc l2 hi⟩
  have := slides_cell hc ha1 hi
  rwa [shift_zero] at this

theorem FVMesh.bdryFaces (g : FVMesh n cells ref dom minL maxL w) {sub : LCA} (hsw : sub.WF n) (hsl : sub.level = maxL)
    (hsm : ∀ m, sub.Mem n m ↔ InDomain n dom maxL m) {dir : Nat → Int} (hdir : ∀ d, - dir d ≤ 1) (hax : ∀ k ≤ n, -1 ≤ dir k ∧ dir k ≤ 1)
    (hw1 : 1 ≤ w) {S : List (Nat → Int)} (h0 : ∃ s ∈ S, ∀ k ≤ n, s k = 0) (hwd : ∀ s ∈ S, ∀ k ≤ n, - (w : Int) ≤ s k ∧ s k ≤ w)
    {level : Nat} (hl : level ≤ maxL) :
    ∃ fs ps, Samurai.bdryFaces n ref sub cells dir S level = some fs ∧ ps.Nodup ∧
      (∀ p, p ∈ ps ↔ cells.Mem n level p ∧ ∀ m, Anc (maxL - level) (shiftPoint dir n p) m → ¬ InDomain n dom maxL m) ∧
      List.Forall₂ (BdryFace n ref level S) ps fs := by
  obtain ⟨calls, h1, h2, h3, h4⟩ := g.bdrySet hsw hsl hsm hdir hl
  obtain ⟨fs, f1, f2⟩ := facesOf_spec (row := bdryRow n ref level dir S) (R := BdryFace n ref level S) (calls := calls) (by
    intro c hc
    obtain ⟨hlt, _⟩ := h2.2 c hc
    have hn := h3 c hc
    have hleaf : ∀ x ∈ c.2, cells.Mem n level (c.1 ++ [x]) := fun x hx => ((h4 _).1 ⟨c, hc, x, hx, rfl⟩).1
    have hw := (g.ref_level (hleaf c.2.start (Interval.mem_def.2 ⟨le_rfl, hlt⟩))).2
    refine bdryRow_spec hw hn hlt
      (g.avail (S := S) (b := fun _ => 0) hn (by simpa only [shift_zero] using hleaf) (fun k _ => by constructor <;> omega)
        (fun s hs k hk => by have := hwd s hs k hk; constructor <;> omega))
      (g.avail (S := inOutStencil dir) (b := fun _ => 0) hn (by simpa only [shift_zero] using hleaf) (fun k _ => by constructor <;> omega)
        (fun s hs k hk => ?_)) h0
    unfold inOutStencil at hs
    simp only [List.mem_cons, List.not_mem_nil, or_false] at hs
    rcases hs with rfl | rfl
    · show - (w : Int) ≤ (0 : Int) - 0 ∧ (0 : Int) - 0 ≤ w
      omega
    · have := hax k hk
      constructor <;> omega)
  refine ⟨fs, callCells calls, ?_, callCells_nodup h2, fun p => mem_callCells.trans (h4 p), f2⟩
  unfold Samurai.bdryFaces
  rw [h1]
  exact f1

end

end Samurai

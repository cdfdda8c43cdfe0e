import Verif.Lemmas.TagOps
import Verif.Spec.Adapt
import Verif.Lemmas.AMRMesh

namespace Samurai

/-! ### the sets of `harten` -/

theorem atLevel_same {l : Nat} {S : List Int → Prop} {p : List Int} : AtLevel l l S p ↔ S p := by
  unfold AtLevel
  rw [if_pos le_rfl, Nat.sub_self]
  constructor
  · rintro ⟨q, h1, h2⟩; rw [← anc_zero.1 h2]; exact h1
  · intro h; exact ⟨p, h, anc_zero.2 rfl⟩

theorem atLevel_parent {l : Nat} (hl : 0 < l) {S : List Int → Prop} {p : List Int} :
    AtLevel (l - 1) l S p ↔ S (parentOf p) := by
  unfold AtLevel
  rw [if_pos (by omega), show l - (l - 1) = 1 by omega]
  constructor
  · rintro ⟨q, h1, h2⟩; rw [anc_one.1 h2]; exact h1
  · intro h; exact ⟨_, h, anc_one.2 rfl⟩

/-- A mesh or a translate of a mesh by at most `g` cells, in the range of `int` at level `M`. -/
def UsableT (n M g : Nat) (D : Int) (N : Node) : Prop :=
  ∃ L s, (N = Node.mesh L ∨ (N = Node.translate (.mesh L) s ∧ ∀ d, s d ≤ (g : Int))) ∧ L.WF n ∧ L.level ≤ M ∧ L.BelowAt n M D

theorem usableT_finest {n M g : Nat} {D : Int} {e : Expr Node} (h : e.All (UsableT n M g D)) : e.finest ≤ M := by
  induction e with
  | leaf N =>
    obtain ⟨L, s, rfl | ⟨rfl, _⟩, _, hl, _⟩ := h
    · exact hl
    · exact hl
  | op o a b iha ihb => exact Nat.max_le.2 ⟨iha h.1, ihb h.2⟩

theorem inRange_translate {n m M g : Nat} {L : LCA} {s : Nat → Int} (h : L.WF n) (hm : m ≤ M) (hl : L.level ≤ M) {D : Int} (hD0 : 0 ≤ D)
    (hb : L.BelowAt n M D) (hs : ∀ d, s d ≤ (g : Int)) (hD : D + (g + 2) * 2 ^ M + 2 < INT_MAX) :
    (Node.translate (.mesh L) s).InRange n m := by
  have hk := pow_two_pos (M - L.level)
  have hkM : (2 : Int) ^ (M - L.level) ≤ 2 ^ M := pow_mono_two (by omega)
  have hB : ∀ p, L.Mem n p → ∀ c ∈ p, c < D / 2 ^ (M - L.level) + 1 := by
    intro p hp c hc
    have h1 := hb p hp c hc
    have h2 : c ≤ D / 2 ^ (M - L.level) := (Int.le_ediv_iff_mul_le hk).2 (by omega)
    omega
  intro d hd i hi
  have h1 := stop_le_of_mem h hB hd hi
  show (i.stop + (0 + s d) + 1) * 2 ^ (m - L.level) + 1 < INT_MAX
  have h3 : D / 2 ^ (M - L.level) * 2 ^ (M - L.level) ≤ D := Int.ediv_mul_le D (by omega)
  have h4 : (0 : Int) ≤ D / 2 ^ (M - L.level) := Int.ediv_nonneg hD0 (by omega)
  have h5 : (2 : Int) ^ (m - L.level) ≤ 2 ^ (M - L.level) := pow_mono_two (by omega)
  have h7 := pow_two_pos (m - L.level)
  have h8 : (i.stop + (0 + s d) + 1) * 2 ^ (m - L.level) ≤ (D / 2 ^ (M - L.level) + 1 + g + 1) * 2 ^ (m - L.level) :=
    Int.mul_le_mul_of_nonneg_right (by have := hs d; omega) (le_of_lt h7)
  have h6 : (D / 2 ^ (M - L.level) + 1 + g + 1) * 2 ^ (m - L.level) ≤ (D / 2 ^ (M - L.level) + 1 + g + 1) * 2 ^ (M - L.level) :=
    Int.mul_le_mul_of_nonneg_left h5 (by omega)
  have h9 : (D / 2 ^ (M - L.level) + 1 + g + 1) * 2 ^ (M - L.level) =
      D / 2 ^ (M - L.level) * 2 ^ (M - L.level) + (g + 2) * 2 ^ (M - L.level) := by ring
  have h10 : ((g : Int) + 2) * 2 ^ (M - L.level) ≤ (g + 2) * 2 ^ M := Int.mul_le_mul_of_nonneg_left hkM (by omega)
  omega

theorem usableT_admissible {n M g : Nat} {D : Int} (hD0 : 0 ≤ D) (hD : D + ((g : Int) + 2) * 2 ^ M + 2 < INT_MAX) {e : Expr Node}
    (h : e.All (UsableT n M g D)) : e.Admissible n := by
  have hf := usableT_finest h
  have hD2 : D + 2 * 2 ^ M + 2 < INT_MAX := by
    have : (2 : Int) * 2 ^ M ≤ (g + 2) * 2 ^ M := Int.mul_le_mul_of_nonneg_right (by omega) (le_of_lt (pow_two_pos M))
    omega
  unfold Expr.Admissible
  generalize e.finest = m at hf
  induction e with
  | leaf N =>
    obtain ⟨L, s, rfl | ⟨rfl, hs⟩, hw, hl, hb⟩ := h
    · exact ⟨hw, inRange_below hw hf hl hD0 hb hD2⟩
    · exact ⟨hw, inRange_translate hw hf hl hD0 hb hs hD⟩
  | op o a b iha ihb => exact ⟨iha h.1, ihb h.2⟩

/-- What the sets of `harten` contain. -/
structure AdaptSets (n gw : Nat) (cells ghosts all : CA) (dom : LCA) (maxL : Nat) : Prop where
  parents : ∀ level, 1 ≤ level → level ≤ maxL → ∃ calls, parentSet n cells all level = some calls ∧
    ∀ p, Covers calls p ↔ (∃ c, cells.Mem n level c ∧ parentOf c = p) ∧ all.Mem n (level - 1) p
  leaves : ∀ level, level ≤ maxL → ∃ calls,
    runDefault n (.op .inter (.leaf (.mesh (cells.lca level))) (.leaf (.mesh (cells.lca level)))) = some calls ∧
    ∀ p, Covers calls p ↔ cells.Mem n level p
  ghosts : ∀ level, level ≤ maxL → ∃ calls,
    runDefault n (.op .inter (.leaf (.mesh (ghosts.lca level))) (.leaf (.mesh (ghosts.lca level)))) = some calls
  balance : ∀ level s, 1 ≤ level → level ≤ maxL → s ∈ gradStencils n gw → ∃ calls,
    runSet n (.op .inter (.leaf (.mesh (cells.lca level))) (.leaf (.translate (.mesh (all.lca (level - 1))) s))) (level - 1) = some calls ∧
    ∀ p, Covers calls p ↔ (∃ c, cells.Mem n level c ∧ parentOf c = p) ∧ all.Mem n (level - 1) (subPoint s n p)
  graduate : ∀ level s, 1 ≤ level → level ≤ maxL → s ∈ gradStencils n gw → ∃ calls,
    runSet n (.op .inter (.leaf (.translate (.mesh (cells.lca level)) s))
      (.op .inter (.leaf (.mesh (all.lca (level - 1)))) (.leaf (.mesh dom)))) level = some calls ∧
    ∀ p, Covers calls p ↔ cells.Mem n level (subPoint s n p) ∧ all.Mem n (level - 1) (parentOf p) ∧
      AtLevel dom.level level (dom.Mem n) p

theorem boxDir_le {n : Nat} {s : Nat → Int} (h : s ∈ boxDir n) (d : Nat) : s d ≤ 1 := by
  rcases n with _ | _ | n <;> unfold boxDir at h <;> simp only [List.mem_cons, List.not_mem_nil, or_false] at h
  · rcases h with rfl | rfl <;> simp
  · rcases h with rfl | rfl | rfl | rfl <;> rcases d with _ | _ | d <;> simp
  · rcases h with rfl | rfl | rfl | rfl | rfl | rfl | rfl | rfl <;> rcases d with _ | _ | _ | d <;> simp

theorem gradStencils_le {n gw : Nat} {s : Nat → Int} (h : s ∈ gradStencils n gw) (d : Nat) : s d ≤ (gw : Int) := by
  unfold gradStencils at h
  obtain ⟨s', h1, rfl⟩ := List.mem_map.1 h
  have h2 := boxDir_le h1 d
  show (gw : Int) * s' d ≤ gw
  have : (gw : Int) * s' d ≤ gw * 1 := Int.mul_le_mul_of_nonneg_left h2 (by omega)
  omega

theorem adaptSets {n gw : Nat} {cells ghosts all : CA} {dom : LCA} {maxL : Nat} (w1 : cells.WF n) (w2 : ghosts.WF n) (w3 : all.WF n)
    (w4 : dom.WF n) (l1 : cells.Leveled) (l2 : ghosts.Leveled) (l3 : all.Leveled) (l4 : dom.level ≤ maxL)
    (s1 : maxL ≤ cells.maxSize) (s2 : maxL ≤ ghosts.maxSize) (s3 : maxL ≤ all.maxSize) {D : Int} (hD0 : 0 ≤ D)
    (hD : D + ((gw : Int) + 2) * 2 ^ maxL + 2 < INT_MAX) (b1 : cells.Below n maxL D) (b2 : ghosts.Below n maxL D)
    (b3 : all.Below n maxL D) (b4 : dom.BelowAt n maxL D) : AdaptSets n gw cells ghosts all dom maxL := by
  have use : ∀ {c : CA}, c.WF n → c.Leveled → maxL ≤ c.maxSize → c.Below n maxL D → ∀ {l : Nat}, l ≤ maxL →
      UsableT n maxL gw D (.mesh (c.lca l)) ∧ ∀ s : Nat → Int, (∀ d, s d ≤ (gw : Int)) →
        UsableT n maxL gw D (.translate (.mesh (c.lca l)) s) := by
    intro c hw hl hm hb l h
    have hbt : (c.lca l).BelowAt n maxL D := by
      intro p hp x hx
      rw [hl l (by omega)]
      exact hb l p ⟨by omega, hp⟩ x hx
    have hll : (c.lca l).level ≤ maxL := by rw [hl l (by omega)]; exact h
    exact ⟨⟨_, fun _ => 0, Or.inl rfl, hw l (by omega), hll, hbt⟩, fun s hs => ⟨_, s, Or.inr ⟨rfl, hs⟩, hw l (by omega), hll, hbt⟩⟩
  have mem : ∀ {c : CA}, maxL ≤ c.maxSize → ∀ {l p}, l ≤ maxL → (c.Mem n l p ↔ (c.lca l).Mem n p) := by
    intro c hm l p hl
    exact ⟨fun h => h.2, fun h => ⟨by omega, h⟩⟩
  refine ⟨fun level h1 h2 => ?_, fun level h2 => ?_, fun level h2 => ?_, fun level s h1 h2 hs => ?_, fun level s h1 h2 hs => ?_⟩
  · have ha : (Expr.op .inter (.leaf (.mesh (cells.lca level))) (.leaf (.mesh (all.lca (level - 1))))).Admissible n :=
      usableT_admissible hD0 hD ⟨(use w1 l1 s1 b1 h2).1, (use w3 l3 s3 b3 (by omega)).1⟩
    have hf : (Expr.op .inter (.leaf (.mesh (cells.lca level))) (.leaf (.mesh (all.lca (level - 1))))).finest = level := by
      show Nat.max (cells.lca level).level (all.lca (level - 1)).level = level
      rw [l1 level (by omega), l3 (level - 1) (by omega)]
      exact Nat.max_eq_left (by omega)
    obtain ⟨calls, g1, _, g3⟩ := runSet_ok ha (ref := level - 1) (by omega)
    refine ⟨calls, ?_, fun p => (g3 p).trans ?_⟩
    · unfold parentSet
      rw [if_neg (by omega)]
      exact g1
    · show AtLevel (cells.lca level).level (level - 1) _ p ∧ AtLevel (all.lca (level - 1)).level (level - 1) _ p ↔ _
      rw [l1 level (by omega), l3 (level - 1) (by omega), atLevel_up (by omega), atLevel_same]
      simp only [anc_one]
      rw [mem s3 (by omega)]
      simp only [mem s1 h2]
      rfl
  · have ha : (Expr.op .inter (.leaf (.mesh (cells.lca level))) (.leaf (.mesh (cells.lca level)))).Admissible n :=
      usableT_admissible hD0 hD ⟨(use w1 l1 s1 b1 h2).1, (use w1 l1 s1 b1 h2).1⟩
    have hf : (Expr.op .inter (.leaf (.mesh (cells.lca level))) (.leaf (.mesh (cells.lca level)))).finest = level := by
      show Nat.max (cells.lca level).level (cells.lca level).level = level
      rw [l1 level (by omega)]
      exact Nat.max_self _
    obtain ⟨calls, g1, _, g3⟩ := runDefault_ok ha
    refine ⟨calls, g1, fun p => (g3 p).trans ?_⟩
    rw [hf]
    show AtLevel (cells.lca level).level level _ p ∧ AtLevel (cells.lca level).level level _ p ↔ _
    rw [l1 level (by omega), atLevel_same, and_self, mem s1 h2]
    rfl
  · obtain ⟨calls, g1, _, _⟩ := runDefault_ok
      (usableT_admissible hD0 hD ⟨(use w2 l2 s2 b2 h2).1, (use w2 l2 s2 b2 h2).1⟩ :
        (Expr.op .inter (.leaf (.mesh (ghosts.lca level))) (.leaf (.mesh (ghosts.lca level)))).Admissible n)
    exact ⟨calls, g1⟩
  · have ha : (Expr.op .inter (.leaf (.mesh (cells.lca level))) (.leaf (.translate (.mesh (all.lca (level - 1))) s))).Admissible n :=
      usableT_admissible hD0 hD ⟨(use w1 l1 s1 b1 h2).1, (use w3 l3 s3 b3 (by omega)).2 s (gradStencils_le hs)⟩
    have hf : (Expr.op .inter (.leaf (.mesh (cells.lca level))) (.leaf (.translate (.mesh (all.lca (level - 1))) s))).finest = level := by
      show Nat.max (cells.lca level).level (all.lca (level - 1)).level = level
      rw [l1 level (by omega), l3 (level - 1) (by omega)]
      exact Nat.max_eq_left (by omega)
    obtain ⟨calls, g1, _, g3⟩ := runSet_ok ha (ref := level - 1) (by omega)
    refine ⟨calls, g1, fun p => (g3 p).trans ?_⟩
    show AtLevel (cells.lca level).level (level - 1) _ p ∧ AtLevel (all.lca (level - 1)).level (level - 1) _ p ↔ _
    rw [l1 level (by omega), l3 (level - 1) (by omega), atLevel_up (by omega), atLevel_same]
    simp only [anc_one]
    rw [mem s3 (by omega)]
    simp only [mem s1 h2]
    rfl
  · have ha : (Expr.op .inter (.leaf (.translate (.mesh (cells.lca level)) s))
        (.op .inter (.leaf (.mesh (all.lca (level - 1)))) (.leaf (.mesh dom)))).Admissible n :=
      usableT_admissible hD0 hD ⟨(use w1 l1 s1 b1 h2).2 s (gradStencils_le hs), (use w3 l3 s3 b3 (by omega)).1,
        ⟨dom, fun _ => 0, Or.inl rfl, w4, l4, b4⟩⟩
    have hf : level ≤ (Expr.op .inter (.leaf (.translate (.mesh (cells.lca level)) s))
        (.op .inter (.leaf (.mesh (all.lca (level - 1)))) (.leaf (.mesh dom)))).finest := by
      show level ≤ Nat.max (cells.lca level).level _
      rw [l1 level (by omega)]
      exact Nat.le_max_left _ _
    obtain ⟨calls, g1, _, g3⟩ := runSet_ok ha hf
    refine ⟨calls, g1, fun p => (g3 p).trans ?_⟩
    show AtLevel (cells.lca level).level level _ p ∧ AtLevel (all.lca (level - 1)).level level _ p ∧ AtLevel dom.level level _ p ↔ _
    rw [l1 level (by omega), l3 (level - 1) (by omega), atLevel_same, atLevel_parent (by omega), mem s3 (by omega), mem s1 h2]
    rfl

end Samurai

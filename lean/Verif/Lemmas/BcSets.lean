import Verif.Lemmas.BcPass
import Verif.Lemmas.Boundary

namespace Samurai

/-! ### range of the integers -/

theorem inRange_mono {n m M : Nat} {N : Node} (hm : m ≤ M) (h : N.InRange n M) : N.InRange n m := by
  intro d hd i hi
  have h1 := h d hd i hi
  have h2 : (2 : Int) ^ (m - N.level) ≤ 2 ^ (M - N.level) := pow_mono_two (by omega)
  have h3 := pow_two_pos (m - N.level)
  rcases le_or_gt 0 (i.stop + N.off d + 1) with h0 | h0
  · have := Int.mul_le_mul_of_nonneg_left h2 h0
    omega
  · have h4 : (i.stop + N.off d + 1) * 2 ^ (m - N.level) ≤ 0 := by nlinarith
    have : (2 : Int) < INT_MAX := by unfold INT_MAX; norm_num
    omega

theorem admissible_of {n M : Nat} {e : Expr Node} (hf : e.finest ≤ M) (h : e.All fun N => N.Operand n ∧ N.InRange n M) : e.Admissible n := by
  unfold Expr.Admissible
  generalize e.finest = m at hf
  induction e with
  | leaf N => exact ⟨h.1, inRange_mono hf h.2⟩
  | op o a b iha ihb => exact ⟨iha h.1, ihb h.2⟩

theorem inRange_shift {n M g : Nat} {L : LCA} {s : Nat → Int} (h : L.WF n) {D : Int} (hD0 : 0 ≤ D) (hb : L.BelowAt n M D)
    (hs : ∀ d ≤ n, s d ≤ (g : Int)) (hD : D + (g + 2) * 2 ^ (M - L.level) + 2 < INT_MAX) : (Node.translate (.mesh L) s).InRange n M := by
  have hk := pow_two_pos (M - L.level)
  have hB : ∀ p, L.Mem n p → ∀ c ∈ p, c < D / 2 ^ (M - L.level) + 1 := by
    intro p hp c hc
    have h1 := hb p hp c hc
    have h2 : c ≤ D / 2 ^ (M - L.level) := (Int.le_ediv_iff_mul_le hk).2 (by omega)
    omega
  intro d hd i hi
  have h1 := stop_le_of_mem h hB hd hi
  show (i.stop + (0 + s d) + 1) * 2 ^ (M - L.level) + 1 < INT_MAX
  have h3 : D / 2 ^ (M - L.level) * 2 ^ (M - L.level) ≤ D := Int.ediv_mul_le D (by omega)
  have h4 : (0 : Int) ≤ D / 2 ^ (M - L.level) := Int.ediv_nonneg hD0 (by omega)
  have h8 : (i.stop + (0 + s d) + 1) * 2 ^ (M - L.level) ≤ (D / 2 ^ (M - L.level) + 1 + g + 1) * 2 ^ (M - L.level) :=
    Int.mul_le_mul_of_nonneg_right (by have := hs d hd; omega) (le_of_lt hk)
  have h9 : (D / 2 ^ (M - L.level) + 1 + g + 1) * 2 ^ (M - L.level) =
      D / 2 ^ (M - L.level) * 2 ^ (M - L.level) + (g + 2) * 2 ^ (M - L.level) := by ring
  omega

theorem inRange_mesh' {n M : Nat} {L : LCA} (h : L.WF n) {D : Int} (hD0 : 0 ≤ D) (hb : L.BelowAt n M D)
    (hD : D + 2 * 2 ^ (M - L.level) + 2 < INT_MAX) : (Node.mesh L).InRange n M := by
  have := inRange_shift (s := fun _ => 0) (g := 0) h hD0 hb (fun _ _ => le_rfl) (by push_cast; omega)
  intro d hd i hi
  have := this d hd i hi
  show (i.stop + 0 + 1) * 2 ^ (M - L.level) + 1 < INT_MAX
  exact this

/-! ### boxes and levels -/

theorem anc_iff_toPt {k n : Nat} {p : List Int} (hp : p.length = n) : ∀ {q : List Int}, Anc k p q ↔ q.length = n ∧ ∀ d < n, IsAncestor k (toPt p d) (toPt q d) := by
  induction p generalizing n with
  | nil =>
    intro q
    subst hp
    constructor
    · intro h; cases h; exact ⟨rfl, fun d hd => by simp at hd⟩
    · rintro ⟨h, _⟩
      have : q = [] := by simpa using h
      subst this; exact List.Forall₂.nil
  | cons a p ih =>
    intro q
    cases q with
    | nil =>
      constructor
      · intro h; cases h
      · rintro ⟨h, _⟩; subst hp; simp at h
    | cons c q =>
      have hp' : p.length = n - 1 := by simp at hp; omega
      have hn : 1 ≤ n := by simp at hp; omega
      have e1 := toPt_cons_eq a p
      rw [hp'] at e1
      constructor
      · intro h
        cases h with
        | cons h1 h2 =>
          obtain ⟨g1, g2⟩ := (ih hp').1 h2
          have e2 := toPt_cons_eq c q
          rw [g1] at e2
          refine ⟨by simp [g1]; omega, fun d hd => ?_⟩
          rcases Nat.lt_or_eq_of_le (Nat.le_sub_one_of_lt hd) with hlt | rfl
          · rw [toPt_cons_lt _ _ (by omega), toPt_cons_lt _ _ (by omega)]; exact g2 d hlt
          · rw [e1, e2]; exact h1
      · rintro ⟨g1, g2⟩
        have hq : q.length = n - 1 := by simp at g1; omega
        have e2 := toPt_cons_eq c q
        rw [hq] at e2
        refine List.Forall₂.cons ?_ ((ih hp').2 ⟨hq, fun d hd => ?_⟩)
        · have := g2 (n - 1) (by omega); rwa [e1, e2] at this
        · have := g2 d (by omega); rwa [toPt_cons_lt _ _ (by omega), toPt_cons_lt _ _ (by omega)] at this

theorem anc_length' {k : Nat} {p q : List Int} (h : Anc k p q) : p.length = q.length := List.Forall₂.length_eq h

theorem box_of_desc {n k : Nat} {b : Box} {p q : List Int} (ha : Anc k p q) (h : InBox (b.refined k) n q) : InBox b n p := by
  obtain ⟨h1, h2⟩ := inBox_iff.1 h
  have hp : p.length = n + 1 := by rw [anc_length' ha, h1]
  obtain ⟨_, h3⟩ := (anc_iff_toPt hp).1 ha
  refine inBox_iff.2 ⟨hp, fun d hd => ?_⟩
  have h4 := h2 d hd
  have h5 := h3 d (by omega)
  have hk := pow_two_pos k
  simp only [Box.refined] at h4
  unfold IsAncestor at h5
  constructor
  · by_contra hc
    have : (toPt p d + 1) * 2 ^ k ≤ b.lo d * 2 ^ k := Int.mul_le_mul_of_nonneg_right (by omega) (le_of_lt hk)
    omega
  · by_contra hc
    have : b.hi d * 2 ^ k ≤ toPt p d * 2 ^ k := Int.mul_le_mul_of_nonneg_right (by omega) (le_of_lt hk)
    omega

theorem desc_in_box {n k : Nat} {b : Box} {p q : List Int} (ha : Anc k p q) (h : InBox b n p) : InBox (b.refined k) n q := by
  obtain ⟨h1, h2⟩ := inBox_iff.1 h
  obtain ⟨g1, h3⟩ := (anc_iff_toPt h1).1 ha
  refine inBox_iff.2 ⟨g1, fun d hd => ?_⟩
  have h4 := h2 d hd
  have h5 := h3 d (by omega)
  have hk := pow_two_pos k
  simp only [Box.refined]
  unfold IsAncestor at h5
  constructor
  · have : b.lo d * 2 ^ k ≤ toPt p d * 2 ^ k := Int.mul_le_mul_of_nonneg_right (by omega) (le_of_lt hk)
    omega
  · have : (toPt p d + 1) * 2 ^ k ≤ b.hi d * 2 ^ k := Int.mul_le_mul_of_nonneg_right (by omega) (le_of_lt hk)
    omega

/-- The first cell of level `k` finer inside a cell. -/
theorem anc_first (k : Nat) (p : List Int) : Anc k p (p.map fun x => x * 2 ^ k) := by
  induction p with
  | nil => exact List.Forall₂.nil
  | cons a p ih =>
    have hk := pow_two_pos k
    refine List.Forall₂.cons ⟨le_rfl, ?_⟩ ih
    show a * 2 ^ k < (a + 1) * 2 ^ k
    have : (a + 1) * 2 ^ k = a * 2 ^ k + 2 ^ k := by ring
    omega

theorem box_desc {n k : Nat} {b : Box} {p : List Int} : (∃ q, InBox (b.refined k) n q ∧ Anc k p q) ↔ InBox b n p :=
  ⟨fun ⟨_, h, ha⟩ => box_of_desc ha h, fun h => ⟨_, desc_in_box (anc_first k p) h, anc_first k p⟩⟩

theorem BoxDomain.at_level {n : Nat} {dom : LCA} {level : Nat} {b : Box} (h : BoxDomain n dom level b) {p : List Int} :
    AtLevel dom.level level (dom.Mem n) p ↔ InBox b n p := by
  rw [atLevel_desc h.le]
  simp only [h.mem]
  exact box_desc

theorem shift_neg_cancel (s : Nat → Int) (n : Nat) (p : List Int) : shiftPoint s n (shiftPoint (fun k => - s k) n p) = p := by
  rw [shift_shift]
  have : (fun k => - s k + s k) = fun _ : Nat => (0 : Int) := by funext k; ring
  rw [this, shift_zero]

/-- The domain translated by `2^(levels) * w`. -/
theorem BoxDomain.at_level_shift {n : Nat} {dom : LCA} {level : Nat} {b : Box} (h : BoxDomain n dom level b) {w s : Nat → Int}
    (hs : ∀ d ≤ n, s d = - (2 ^ (dom.level - level) * w d)) {p : List Int} :
    AtLevel dom.level level (fun p => dom.Mem n (subPoint s n p)) p ↔ InBox b n (shiftPoint w n p) := by
  have e : ∀ q, subPoint s n q = shiftPoint (fun j => 2 ^ (dom.level - level) * w j) n q := fun q => by
    have : subPoint s n q = shiftPoint (fun k => - s k) n q := by
      rw [← sub_eq_shift]
      simp only [neg_neg]
    rw [this]
    exact shift_congr _ _ fun d hd => by rw [hs d hd]; ring
  rw [atLevel_desc h.le, ← box_desc (k := dom.level - level)]
  simp only [e, h.mem]
  constructor
  · rintro ⟨q, h1, h2⟩
    exact ⟨_, h1, anc_shift h2 n⟩
  · rintro ⟨q, h1, h2⟩
    refine ⟨shiftPoint (fun k => - (2 ^ (dom.level - level) * w k)) n q, ?_, ?_⟩
    · rw [shift_neg_cancel (fun k => 2 ^ (dom.level - level) * w k)]
      exact h1
    · have := anc_shift (s := fun k => - w k) h2 n
      rw [shift_shift] at this
      have e2 : (fun k => w k + - w k) = fun _ : Nat => (0 : Int) := by funext k; ring
      rw [e2, shift_zero] at this
      have e3 : (fun k => - ((2 : Int) ^ (dom.level - level) * w k)) = fun k => 2 ^ (dom.level - level) * (- w k) := by funext k; ring
      rw [e3]
      exact this

/-! ### outward cells -/

theorem oneAxis_out {n : Nat} {b : Box} {p : List Int} {v : Nat → Int} (hv : UnitVector n v) (h1 : OneAxis n v) (hp : InBox b n p)
    (ho : ¬ InBox b n (shiftPoint v n p)) : Outward n b p v := by
  refine ⟨hp, hv, fun d hd hne hin => ho ?_⟩
  obtain ⟨hl, hb⟩ := inBox_iff.1 hp
  obtain ⟨e, he, _, h0⟩ := h1
  have hde : d = e := by
    by_contra hc
    exact hne (h0 d hd hc)
  refine inBox_iff.2 ⟨by rw [shift_length, hl], fun q hq => ?_⟩
  rw [toPt_shift hl hq]
  by_cases hqd : q = d
  · rw [hqd]; exact hin
  · rw [h0 q hq (by omega)]
    have := hb q hq
    omega

theorem outward_shift {n : Nat} {b : Box} {p : List Int} {v : Nat → Int} (h : Outward n b p v) : ¬ InBox b n (shiftPoint v n p) := by
  have := h.out (i := 1) le_rfl
  unfold walk at this
  simpa using this

theorem Outward.coarse {n k : Nat} {b : Box} {p q : List Int} {v : Nat → Int} (ha : Anc k p q) (h : Outward n (b.refined k) q v) : Outward n b p v := by
  have hp := box_of_desc ha h.1
  obtain ⟨hl, hb⟩ := inBox_iff.1 hp
  obtain ⟨_, h3⟩ := (anc_iff_toPt hl).1 ha
  refine ⟨hp, h.2.1, fun d hd hne => ?_⟩
  have h4 := hb d hd
  have h5 := h3 d (by omega)
  have hk := pow_two_pos k
  unfold IsAncestor at h5
  rcases h.edge hd with h6 | ⟨h6, h7⟩ | ⟨h6, h7⟩
  · exact absurd h6 hne
  · simp only [Box.refined] at h7
    rw [h6]
    have : b.hi d - 1 ≤ toPt p d := by
      by_contra hc
      have : (toPt p d + 1) * 2 ^ k ≤ (b.hi d - 1) * 2 ^ k := Int.mul_le_mul_of_nonneg_right (by omega) (le_of_lt hk)
      have e : (b.hi d - 1) * 2 ^ k = b.hi d * 2 ^ k - 2 ^ k := by ring
      omega
    omega
  · simp only [Box.refined] at h7
    rw [h6]
    have : toPt p d ≤ b.lo d := by
      by_contra hc
      have : (b.lo d + 1) * 2 ^ k ≤ toPt p d * 2 ^ k := Int.mul_le_mul_of_nonneg_right (by omega) (le_of_lt hk)
      have e : (b.lo d + 1) * 2 ^ k = b.lo d * 2 ^ k + 2 ^ k := by ring
      omega
    omega

theorem BdryRegion.outward {n : Nat} {dom : LCA} {level : Nat} {b : Box} (hd : BoxDomain n dom level b) {dir : Nat → Int} {L : LCA}
    (h : BdryRegion n dom dir L) (hu : UnitVector n dir) (h1 : OneAxis n dir) {p : List Int} (hp : RegionAt n L level p) : Outward n b p dir := by
  obtain ⟨q, hq, ha⟩ := hp
  obtain ⟨h2, h3⟩ := h.cells q hq
  rw [hd.mem] at h2 h3
  rw [h.level] at ha
  exact (oneAxis_out hu h1 h2 h3).coarse ha

/-! ### `faceSet` and `cornerSet` -/

theorem faceSet_holds {n : Nat} {dom : LCA} {level : Nat} {b : Box} (hd : BoxDomain n dom level b) {dir : Nat → Int} {p : List Int} :
    (faceSet dom (2 ^ (dom.level - level)) dir).HoldsAt n level p ↔ InBox b n p ∧ ¬ InBox b n (shiftPoint dir n p) := by
  show AtLevel dom.level level (dom.Mem n) p ∧ ¬ AtLevel dom.level level (fun p => dom.Mem n (subPoint (fun k => - 2 ^ (dom.level - level) * dir k) n p)) p ↔ _
  rw [hd.at_level, hd.at_level_shift (w := dir) fun d _ => by ring]

theorem unionAll_holdsAt {n level : Nat} {p : List Int} : ∀ (N : Node) (l : List Node),
    (unionAll N l).HoldsAt n level p ↔ ∃ N' ∈ N :: l, AtLevel N'.level level (N'.Holds n) p := by
  intro N l
  induction l generalizing N with
  | nil =>
    constructor
    · intro h; exact ⟨N, by simp, h⟩
    · rintro ⟨N', h1, h2⟩
      simp only [List.mem_singleton] at h1
      subst h1; exact h2
  | cons M l ih =>
    show AtLevel N.level level (N.Holds n) p ∨ (unionAll M l).HoldsAt n level p ↔ _
    rw [ih]
    constructor
    · rintro (h | ⟨N', h1, h2⟩)
      · exact ⟨N, by simp, h⟩
      · exact ⟨N', List.mem_cons_of_mem _ h1, h2⟩
    · rintro ⟨N', h1, h2⟩
      rcases List.mem_cons.1 h1 with rfl | h1
      · left; exact h2
      · right; exact ⟨N', h1, h2⟩

/-- The component `d` of a vector. -/
def only (dir : Nat → Int) (d : Nat) : Nat → Int := fun k => if k = d then dir d else 0

theorem cornerNodes {n : Nat} {dom : LCA} {a : Int} {dir : Nat → Int} {N : Node} :
    N ∈ Node.translate (.mesh dom) (axisPart a dir 0) :: ((List.range n).map fun d => Node.translate (.mesh dom) (axisPart a dir (d + 1))) ↔
      ∃ d ≤ n, N = .translate (.mesh dom) (axisPart a dir d) := by
  constructor
  · intro h
    rcases List.mem_cons.1 h with rfl | h
    · exact ⟨0, by omega, rfl⟩
    · obtain ⟨d, hd, rfl⟩ := List.mem_map.1 h
      exact ⟨d + 1, by have := List.mem_range.1 hd; omega, rfl⟩
  · rintro ⟨d, hd, rfl⟩
    cases d with
    | zero => simp
    | succ d => exact List.mem_cons_of_mem _ (List.mem_map.2 ⟨d, List.mem_range.2 (by omega), rfl⟩)

theorem cornerSet_holds {n : Nat} {dom : LCA} {level : Nat} {b : Box} (hd : BoxDomain n dom level b) {dir : Nat → Int} {p : List Int} :
    (cornerSet n dom (2 ^ (dom.level - level)) dir).HoldsAt n level p ↔ InBox b n p ∧ ∀ d ≤ n, ¬ InBox b n (shiftPoint (only dir d) n p) := by
  show AtLevel dom.level level (dom.Mem n) p ∧ ¬ (unionAll _ _).HoldsAt n level p ↔ _
  rw [hd.at_level, unionAll_holdsAt]
  refine and_congr_right fun _ => ?_
  have key : ∀ d, AtLevel dom.level level (fun p => dom.Mem n (subPoint (axisPart (2 ^ (dom.level - level)) dir d) n p)) p ↔
      InBox b n (shiftPoint (only dir d) n p) := fun d => hd.at_level_shift fun k _ => by
    unfold axisPart only
    by_cases h : k = d
    · rw [if_pos h, if_pos h]; ring
    · rw [if_neg h, if_neg h]; ring
  constructor
  · intro h d hdn hin
    exact h ⟨_, cornerNodes.2 ⟨d, hdn, rfl⟩, (key d).2 hin⟩
  · rintro h ⟨N, h1, h2⟩
    obtain ⟨d, hdn, rfl⟩ := cornerNodes.1 h1
    exact h d hdn ((key d).1 h2)

/-- The cells of `cornerSet`: all the components of the direction are nonzero and lead outside. -/
theorem corner_outward {n : Nat} {b : Box} {dir : Nat → Int} (hu : UnitVector n dir) {p : List Int} :
    (InBox b n p ∧ ∀ d ≤ n, ¬ InBox b n (shiftPoint (only dir d) n p)) ↔ Outward n b p dir ∧ ∀ d ≤ n, dir d ≠ 0 := by
  have shifted : ∀ {d : Nat}, d ≤ n → InBox b n p → (InBox b n (shiftPoint (only dir d) n p) ↔ b.lo d ≤ toPt p d + dir d ∧ toPt p d + dir d < b.hi d) := by
    intro d hd hp
    obtain ⟨hl, hb⟩ := inBox_iff.1 hp
    rw [inBox_iff, shift_length]
    constructor
    · rintro ⟨_, h⟩
      have := h d hd
      rw [toPt_shift hl hd] at this
      unfold only at this
      rwa [if_pos rfl] at this
    · intro h
      refine ⟨hl, fun q hq => ?_⟩
      rw [toPt_shift hl hq]
      unfold only
      by_cases hqd : q = d
      · rw [if_pos hqd, hqd]; exact h
      · rw [if_neg hqd]; have := hb q hq; omega
  constructor
  · rintro ⟨hp, h⟩
    refine ⟨⟨hp, hu, fun d hd _ hin => h d hd ((shifted hd hp).2 hin)⟩, fun d hd h0 => h d hd ((shifted hd hp).2 ?_)⟩
    have := (inBox_iff.1 hp).2 d hd
    rw [h0]; omega
  · rintro ⟨⟨hp, _, h⟩, hne⟩
    exact ⟨hp, fun d hd hin => h d hd (hne d hd) ((shifted hd hp).1 hin)⟩

end Samurai

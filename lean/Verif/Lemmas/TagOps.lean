import Verif.Model.Adapt
import Verif.Lemmas.UpdateField

namespace Samurai

/-! ### bits of a tag -/

theorem flagged_bit (v : BitVec 32) (i : Nat) (hi : i < 32) : flagged v (BitVec.twoPow 32 i) = v.getLsbD i := by
  unfold flagged
  rw [BitVec.and_twoPow]
  cases h : v.getLsbD i
  · simp
  · simp only [if_true, bne_iff_ne, ne_eq]
    intro h0
    have := congrArg (fun w => w.getLsbD i) h0
    simp [hi] at this

theorem flagged_keep_bit (v : BitVec 32) : flagged v CellFlag.keep = v.getLsbD 0 := flagged_bit v 0 (by omega)
theorem flagged_coarsen_bit (v : BitVec 32) : flagged v CellFlag.coarsen = v.getLsbD 1 := flagged_bit v 1 (by omega)
theorem flagged_refine_bit (v : BitVec 32) : flagged v CellFlag.refine = v.getLsbD 2 := flagged_bit v 2 (by omega)
theorem flagged_enlarge_bit (v : BitVec 32) : flagged v CellFlag.enlarge = v.getLsbD 3 := flagged_bit v 3 (by omega)

/-- The tag of the cell has the flag. -/
def TagField.Keep (t : TagField) (l : Nat) (p : List Int) : Prop := (t l p).getLsbD 0 = true
def TagField.Coarsen (t : TagField) (l : Nat) (p : List Int) : Prop := (t l p).getLsbD 1 = true
def TagField.Refine (t : TagField) (l : Nat) (p : List Int) : Prop := (t l p).getLsbD 2 = true

/-- The parent of a cell. -/
def parentOf (p : List Int) : List Int := p.map fun y => shr y 1

theorem mem_children {p q : List Int} : q ∈ childrenOf p ↔ parentOf q = p := by
  rw [mem_childrenOf]; exact eq_comm

theorem anc_one {p q : List Int} : Anc 1 p q ↔ parentOf q = p := by
  rw [anc_iff]; exact eq_comm

theorem or_idem (v f : BitVec 32) : v ||| f ||| f = v ||| f := by
  rw [BitVec.or_assoc, BitVec.or_self]

theorem and_idem (v f : BitVec 32) : v &&& f &&& f = v &&& f := by
  rw [BitVec.and_assoc, BitVec.and_self]

theorem foldl_add (flag : BitVec 32) (level : Nat) (L : List (List Int)) (l : Nat) (q : List Int) : ∀ t : TagField,
    L.foldl (fun t q => TagField.add flag t level q) t l q = if l = level ∧ q ∈ L then t l q ||| flag else t l q := by
  induction L with
  | nil => intro t; simp
  | cons p L ih =>
    intro t
    rw [List.foldl_cons, ih]
    unfold TagField.add
    rw [put_apply]
    by_cases h : l = level
    · subst h
      by_cases h2 : q = p
      · subst h2
        by_cases h1 : q ∈ L <;> simp [h1, or_idem]
      · by_cases h1 : q ∈ L <;> simp [h1, h2]
    · simp [h]

theorem foldl_clear (flag : BitVec 32) (level : Nat) (L : List (List Int)) (l : Nat) (q : List Int) : ∀ t : TagField,
    L.foldl (fun t q => TagField.clear flag t level q) t l q = if l = level ∧ q ∈ L then t l q &&& ~~~flag else t l q := by
  induction L with
  | nil => intro t; simp
  | cons p L ih =>
    intro t
    rw [List.foldl_cons, ih]
    unfold TagField.clear
    rw [put_apply]
    by_cases h : l = level
    · subst h
      by_cases h2 : q = p
      · subst h2
        by_cases h1 : q ∈ L <;> simp [h1, and_idem]
      · by_cases h1 : q ∈ L <;> simp [h1, h2]
    · simp [h]

theorem bits_keep (v : BitVec 32) : (v ||| CellFlag.keep).getLsbD 0 = true ∧ (v ||| CellFlag.keep).getLsbD 1 = v.getLsbD 1 ∧
    (v ||| CellFlag.keep).getLsbD 2 = v.getLsbD 2 := by
  simp [CellFlag.keep, BitVec.getLsbD_or]

theorem bits_refine (v : BitVec 32) : (v ||| CellFlag.refine).getLsbD 0 = v.getLsbD 0 ∧
    (v ||| CellFlag.refine).getLsbD 1 = v.getLsbD 1 ∧ (v ||| CellFlag.refine).getLsbD 2 = true := by
  have e : CellFlag.refine = BitVec.twoPow 32 2 := rfl
  rw [e]
  simp [BitVec.getLsbD_or, BitVec.getLsbD_twoPow]

theorem bits_enlarge (v : BitVec 32) : (v ||| CellFlag.enlarge).getLsbD 0 = v.getLsbD 0 ∧
    (v ||| CellFlag.enlarge).getLsbD 1 = v.getLsbD 1 ∧ (v ||| CellFlag.enlarge).getLsbD 2 = v.getLsbD 2 := by
  have e : CellFlag.enlarge = BitVec.twoPow 32 3 := rfl
  rw [e]
  simp [BitVec.getLsbD_or, BitVec.getLsbD_twoPow]

theorem bits_uncoarsen (v : BitVec 32) : (v &&& ~~~CellFlag.coarsen).getLsbD 0 = v.getLsbD 0 ∧
    (v &&& ~~~CellFlag.coarsen).getLsbD 1 = false ∧ (v &&& ~~~CellFlag.coarsen).getLsbD 2 = v.getLsbD 2 := by
  have e : CellFlag.coarsen = BitVec.twoPow 32 1 := rfl
  rw [e]
  simp [BitVec.getLsbD_and, BitVec.getLsbD_twoPow]

/-! ### `maximum` -/

/-- A child of `p` is tagged keep; all the children of `p` are tagged coarsen. -/
def AnyKeep (t : TagField) (level : Nat) (p : List Int) : Prop := ∃ c, parentOf c = p ∧ t.Keep (level + 1) c
def AllCoarsen (t : TagField) (level : Nat) (p : List Int) : Prop := ∀ c, parentOf c = p → t.Coarsen (level + 1) c

theorem any_keep {t : TagField} {level : Nat} {p : List Int} :
    ((childrenOf p).any fun q => flagged (t (level + 1) q) CellFlag.keep) = true ↔ AnyKeep t level p := by
  rw [List.any_eq_true]
  constructor
  · rintro ⟨c, h1, h2⟩; exact ⟨c, mem_children.1 h1, by rw [flagged_keep_bit] at h2; exact h2⟩
  · rintro ⟨c, h1, h2⟩; exact ⟨c, mem_children.2 h1, by rw [flagged_keep_bit]; exact h2⟩

theorem all_coarsen {t : TagField} {level : Nat} {p : List Int} :
    ((childrenOf p).all fun q => flagged (t (level + 1) q) CellFlag.coarsen) = true ↔ AllCoarsen t level p := by
  rw [List.all_eq_true]
  constructor
  · intro h c hc; have := h c (mem_children.2 hc); rw [flagged_coarsen_bit] at this; exact this
  · intro h c hc; rw [flagged_coarsen_bit]; exact h c (mem_children.1 hc)

open Classical in
theorem maximumCell_apply (level : Nat) (t : TagField) (p : List Int) (l : Nat) (q : List Int) :
    maximumCell level t p l q =
      if l = level + 1 ∧ parentOf q = p then
        (if AllCoarsen t level p then fun v => v else fun v => v &&& ~~~CellFlag.coarsen)
          (if AnyKeep t level p then t l q ||| CellFlag.keep else t l q)
      else if l = level ∧ q = p then
        (if AnyKeep t level p ∨ AllCoarsen t level p then t l q ||| CellFlag.keep else t l q)
      else t l q := by
  have hk : ((if AnyKeep t level p then TagField.add CellFlag.keep ((childrenOf p).foldl
      (fun t q => TagField.add CellFlag.keep t (level + 1) q) t) level p else t) : TagField) l q =
      if l = level + 1 ∧ parentOf q = p then (if AnyKeep t level p then t l q ||| CellFlag.keep else t l q)
      else if l = level ∧ q = p then (if AnyKeep t level p then t l q ||| CellFlag.keep else t l q)
      else t l q := by
    by_cases h : AnyKeep t level p
    · simp only [h, if_true]
      unfold TagField.add
      rw [put_apply]
      by_cases h1 : l = level ∧ q = p
      · rw [if_pos h1, if_neg (by omega), if_pos h1, h1.1, h1.2, ← h1.1]
        rw [show (List.foldl (fun t q => CellField.put t (l + 1) q (t (l + 1) q ||| CellFlag.keep)) t (childrenOf p)) l p =
          (List.foldl (fun t q => TagField.add CellFlag.keep t (l + 1) q) t (childrenOf p)) l p from rfl, foldl_add,
          if_neg (by omega)]
      · rw [if_neg h1, if_neg h1]
        rw [show (List.foldl (fun t q => CellField.put t (level + 1) q (t (level + 1) q ||| CellFlag.keep)) t (childrenOf p)) l q =
          (List.foldl (fun t q => TagField.add CellFlag.keep t (level + 1) q) t (childrenOf p)) l q from rfl, foldl_add]
        by_cases h2 : l = level + 1 ∧ parentOf q = p
        · rw [if_pos ⟨h2.1, mem_children.2 h2.2⟩, if_pos h2]
        · rw [if_neg (fun h' => h2 ⟨h'.1, mem_children.1 h'.2⟩), if_neg h2]
    · simp [h]
  have e1 : (if ((childrenOf p).any fun q => flagged (t (level + 1) q) CellFlag.keep) = true then
      TagField.add CellFlag.keep ((childrenOf p).foldl (fun t q => TagField.add CellFlag.keep t (level + 1) q) t) level p else t) =
      (if AnyKeep t level p then TagField.add CellFlag.keep ((childrenOf p).foldl
      (fun t q => TagField.add CellFlag.keep t (level + 1) q) t) level p else t) := by
    by_cases h : AnyKeep t level p
    · rw [if_pos (any_keep.2 h), if_pos h]
    · rw [if_neg (fun h' => h (any_keep.1 h')), if_neg h]
  unfold maximumCell
  show (if _ then _ else _ : TagField) l q = _
  rw [e1]
  generalize ht1 : (if AnyKeep t level p then TagField.add CellFlag.keep ((childrenOf p).foldl
      (fun t q => TagField.add CellFlag.keep t (level + 1) q) t) level p else t) = t1 at hk
  have hk1 := hk
  have hall : AllCoarsen t1 level p ↔ AllCoarsen t level p := by
    unfold AllCoarsen TagField.Coarsen
    refine forall_congr' fun c => imp_congr_right fun hc => ?_
    rw [← ht1]
    by_cases h : AnyKeep t level p
    · rw [if_pos h]
      unfold TagField.add
      rw [put_apply, if_neg (by omega)]
      rw [show (List.foldl (fun t q => CellField.put t (level + 1) q (t (level + 1) q ||| CellFlag.keep)) t (childrenOf p)) (level + 1) c =
          (List.foldl (fun t q => TagField.add CellFlag.keep t (level + 1) q) t (childrenOf p)) (level + 1) c from rfl, foldl_add,
        if_pos ⟨rfl, mem_children.2 hc⟩, (bits_keep _).2.1]
    · rw [if_neg h]
  by_cases h : AllCoarsen t level p
  · rw [if_pos (all_coarsen.2 (hall.2 h))]
    unfold TagField.add
    rw [put_apply]
    by_cases h1 : l = level + 1 ∧ parentOf q = p
    · rw [if_neg (by omega), if_pos h1, hk, if_pos h1, if_pos h]
    · rw [if_neg h1]
      by_cases h2 : l = level ∧ q = p
      · obtain ⟨rfl, rfl⟩ := h2
        rw [if_pos ⟨rfl, rfl⟩, if_pos ⟨rfl, rfl⟩, hk, if_neg (by omega), if_pos ⟨rfl, rfl⟩, if_pos (Or.inr h)]
        split
        · rw [or_idem]
        · rfl
      · rw [if_neg h2, if_neg h2, hk, if_neg h1, if_neg h2]
  · rw [if_neg (fun h' => h (hall.1 (all_coarsen.1 h'))), foldl_clear]
    by_cases h1 : l = level + 1 ∧ parentOf q = p
    · rw [if_pos ⟨h1.1, mem_children.2 h1.2⟩, if_pos h1, if_neg h, hk, if_pos h1]
    · rw [if_neg (fun h' => h1 ⟨h'.1, mem_children.1 h'.2⟩), if_neg h1, hk, if_neg h1]
      by_cases h2 : l = level ∧ q = p
      · rw [if_pos h2, if_pos h2]
        simp only [h, or_false]
      · rw [if_neg h2, if_neg h2]

open Classical in
theorem maximumCell_keep {level : Nat} {t : TagField} {p : List Int} {l : Nat} {q : List Int} :
    (maximumCell level t p).Keep l q ↔ t.Keep l q ∨ (l = level + 1 ∧ parentOf q = p ∧ AnyKeep t level p) ∨
      (l = level ∧ q = p ∧ (AnyKeep t level p ∨ AllCoarsen t level p)) := by
  unfold TagField.Keep
  rw [maximumCell_apply]
  by_cases h1 : l = level + 1 ∧ parentOf q = p
  · rw [if_pos h1]
    have h2 : l ≠ level := by omega
    have e : ((if AllCoarsen t level p then fun v => v else fun v => v &&& ~~~CellFlag.coarsen)
        (if AnyKeep t level p then t l q ||| CellFlag.keep else t l q)).getLsbD 0 =
        (if AnyKeep t level p then t l q ||| CellFlag.keep else t l q).getLsbD 0 := by
      split
      · rfl
      · exact (bits_uncoarsen _).1
    rw [e]
    by_cases ha : AnyKeep t level p
    · rw [if_pos ha]
      exact ⟨fun _ => Or.inr (Or.inl ⟨h1.1, h1.2, ha⟩), fun _ => (bits_keep _).1⟩
    · rw [if_neg ha]
      exact ⟨Or.inl, fun h => h.elim id fun h => h.elim (fun h => absurd h.2.2 ha) fun h => absurd h.1 h2⟩
  · rw [if_neg h1]
    have h1' : ¬ (l = level + 1 ∧ parentOf q = p ∧ AnyKeep t level p) := fun h => h1 ⟨h.1, h.2.1⟩
    by_cases h2 : l = level ∧ q = p
    · rw [if_pos h2]
      by_cases ha : AnyKeep t level p ∨ AllCoarsen t level p
      · rw [if_pos ha]
        exact ⟨fun _ => Or.inr (Or.inr ⟨h2.1, h2.2, ha⟩), fun _ => (bits_keep _).1⟩
      · rw [if_neg ha]
        exact ⟨Or.inl, fun h => h.elim id fun h => h.elim (fun h => absurd h h1') fun h => absurd h.2.2 ha⟩
    · rw [if_neg h2]
      have h2' : ¬ (l = level ∧ q = p ∧ (AnyKeep t level p ∨ AllCoarsen t level p)) := fun h => h2 ⟨h.1, h.2.1⟩
      exact ⟨Or.inl, fun h => h.elim id fun h => h.elim (fun h => absurd h h1') fun h => absurd h h2'⟩

open Classical in
theorem maximumCell_coarsen {level : Nat} {t : TagField} {p : List Int} {l : Nat} {q : List Int} :
    (maximumCell level t p).Coarsen l q ↔ t.Coarsen l q ∧ (l = level + 1 → parentOf q = p → AllCoarsen t level p) := by
  unfold TagField.Coarsen
  rw [maximumCell_apply]
  have hb : ∀ (c : Prop) [Decidable c] (v : BitVec 32), (if c then v ||| CellFlag.keep else v).getLsbD 1 = v.getLsbD 1 := by
    intro c _ v
    split
    · exact (bits_keep _).2.1
    · rfl
  by_cases h1 : l = level + 1 ∧ parentOf q = p
  · rw [if_pos h1]
    by_cases hc : AllCoarsen t level p
    · rw [if_pos hc, hb]
      simp [hc]
    · rw [if_neg hc, (bits_uncoarsen _).2.1]
      simp [hc, h1.1, h1.2]
  · rw [if_neg h1]
    have h1' : (l = level + 1 → parentOf q = p → AllCoarsen t level p) := fun a b => absurd ⟨a, b⟩ h1
    split
    · rw [hb]; exact (and_iff_left h1').symm
    · exact (and_iff_left h1').symm

open Classical in
theorem maximumCell_refine {level : Nat} {t : TagField} {p : List Int} {l : Nat} {q : List Int} :
    (maximumCell level t p).Refine l q ↔ t.Refine l q := by
  unfold TagField.Refine
  rw [maximumCell_apply]
  have hb : ∀ (c : Prop) [Decidable c] (v : BitVec 32), (if c then v ||| CellFlag.keep else v).getLsbD 2 = v.getLsbD 2 := by
    intro c _ v
    split
    · exact (bits_keep _).2.2
    · rfl
  split
  · by_cases hc : AllCoarsen t level p
    · rw [if_pos hc, hb]
    · rw [if_neg hc, (bits_uncoarsen _).2.2, hb]
  · split
    · rw [hb]
    · rfl

theorem maximumCell_any {level : Nat} {t : TagField} {p p' : List Int} :
    AnyKeep (maximumCell level t p) level p' ↔ AnyKeep t level p' := by
  constructor
  · rintro ⟨c, h1, h2⟩
    rcases maximumCell_keep.1 h2 with h | ⟨_, h, h'⟩ | ⟨h, _⟩
    · exact ⟨c, h1, h⟩
    · rw [← h1, h]; exact h'
    · omega
  · rintro ⟨c, h1, h2⟩
    exact ⟨c, h1, maximumCell_keep.2 (Or.inl h2)⟩

theorem maximumCell_all {level : Nat} {t : TagField} {p p' : List Int} :
    AllCoarsen (maximumCell level t p) level p' ↔ AllCoarsen t level p' := by
  constructor
  · intro h c hc
    exact (maximumCell_coarsen.1 (h c hc)).1
  · intro h c hc
    refine maximumCell_coarsen.2 ⟨h c hc, fun _ h2 => ?_⟩
    rw [← h2, hc]; exact h

/-- The effect of `maximum` on a set of cells of level `level`. -/
theorem tagMaximum {level : Nat} {calls : List Call} {t : TagField} :
    (∀ l q, (tagCells (maximumCell level) calls t).Keep l q ↔ t.Keep l q ∨
      (l = level + 1 ∧ Covers calls (parentOf q) ∧ AnyKeep t level (parentOf q)) ∨
      (l = level ∧ Covers calls q ∧ (AnyKeep t level q ∨ AllCoarsen t level q))) ∧
    (∀ l q, (tagCells (maximumCell level) calls t).Coarsen l q ↔ t.Coarsen l q ∧
      (l = level + 1 → Covers calls (parentOf q) → AllCoarsen t level (parentOf q))) ∧
    ∀ l q, (tagCells (maximumCell level) calls t).Refine l q ↔ t.Refine l q := by
  simp only [← mem_callCells]
  unfold tagCells
  generalize callCells calls = L
  induction L generalizing t with
  | nil => simp
  | cons p L ih =>
    obtain ⟨h1, h2, h3⟩ := ih (t := maximumCell level t p)
    simp only [List.foldl_cons]
    refine ⟨fun l q => ?_, fun l q => ?_, fun l q => ?_⟩
    · rw [h1, maximumCell_keep, maximumCell_any, maximumCell_any, maximumCell_all]
      simp only [List.mem_cons]
      constructor
      · rintro ((h | ⟨a, rfl, c⟩ | ⟨a, rfl, c⟩) | ⟨a, b, c⟩ | ⟨a, b, c⟩)
        · exact Or.inl h
        · exact Or.inr (Or.inl ⟨a, Or.inl rfl, c⟩)
        · exact Or.inr (Or.inr ⟨a, Or.inl rfl, c⟩)
        · exact Or.inr (Or.inl ⟨a, Or.inr b, c⟩)
        · exact Or.inr (Or.inr ⟨a, Or.inr b, c⟩)
      · rintro (h | ⟨a, b | b, c⟩ | ⟨a, b | b, c⟩)
        · exact Or.inl (Or.inl h)
        · exact Or.inl (Or.inr (Or.inl ⟨a, b, by rw [← b]; exact c⟩))
        · exact Or.inr (Or.inl ⟨a, b, c⟩)
        · exact Or.inl (Or.inr (Or.inr ⟨a, b, by rw [← b]; exact c⟩))
        · exact Or.inr (Or.inr ⟨a, b, c⟩)
    · rw [h2, maximumCell_coarsen, maximumCell_all]
      simp only [List.mem_cons]
      constructor
      · rintro ⟨⟨a, b⟩, c⟩
        refine ⟨a, fun h h' => ?_⟩
        rcases h' with h' | h'
        · rw [h']; exact b h h'
        · exact c h h'
      · rintro ⟨a, b⟩
        exact ⟨⟨a, fun h h' => by rw [← h']; exact b h (Or.inl h')⟩, fun h h' => b h (Or.inr h')⟩
    · rw [h3, maximumCell_refine]

/-! ### operators adding a flag -/

theorem near_one_cons {a b : Int} {p q : List Int} : Near 1 (a :: p) (b :: q) ↔ (a ≤ b + 1 ∧ b ≤ a + 1) ∧ Near 1 p q := by
  unfold Near
  rw [List.forall₂_cons]
  rfl

theorem mem_boxAround {p q : List Int} : q ∈ boxAround p ↔ Near 1 q p := by
  induction p generalizing q with
  | nil =>
    unfold boxAround Near
    simp
  | cons c p ih =>
    unfold boxAround
    rw [List.mem_flatMap]
    constructor
    · rintro ⟨r, hr, hq⟩
      have hr := ih.1 hr
      simp only [List.mem_cons, List.not_mem_nil, or_false] at hq
      rcases hq with rfl | rfl | rfl <;> exact near_one_cons.2 ⟨by omega, hr⟩
    · intro h
      cases q with
      | nil => cases h
      | cons y r =>
        obtain ⟨h1, h2⟩ := near_one_cons.1 h
        refine ⟨r, ih.2 h2, ?_⟩
        simp only [List.mem_cons, List.cons.injEq, and_true, List.not_mem_nil, or_false]
        omega

/-- The effect of `keep_around_refine` and `extend`. -/
theorem tagKeepAround {level : Nat} {calls : List Call} {t : TagField} :
    (∀ l q, (tagCells (keepAroundCell level) calls t).Keep l q ↔ t.Keep l q ∨
      (l = level ∧ ∃ p, Covers calls p ∧ t.Refine level p ∧ Near 1 q p)) ∧
    (∀ l q, (tagCells (keepAroundCell level) calls t).Coarsen l q ↔ t.Coarsen l q) ∧
    ∀ l q, (tagCells (keepAroundCell level) calls t).Refine l q ↔ t.Refine l q := by
  have one : ∀ (t : TagField) p, (∀ l q, (keepAroundCell level t p).Keep l q ↔ t.Keep l q ∨
      (l = level ∧ t.Refine level p ∧ Near 1 q p)) ∧
      (∀ l q, (keepAroundCell level t p).Coarsen l q ↔ t.Coarsen l q) ∧
      ∀ l q, (keepAroundCell level t p).Refine l q ↔ t.Refine l q := by
    intro t p
    unfold keepAroundCell
    rw [flagged_refine_bit]
    by_cases h : (t level p).getLsbD 2 = true
    · rw [if_pos h]
      unfold TagField.Keep TagField.Coarsen TagField.Refine
      refine ⟨fun l q => ?_, fun l q => ?_, fun l q => ?_⟩ <;> rw [foldl_add]
      · by_cases h1 : l = level ∧ q ∈ boxAround p
        · rw [if_pos h1]
          exact ⟨fun _ => Or.inr ⟨h1.1, h, mem_boxAround.1 h1.2⟩, fun _ => (bits_keep _).1⟩
        · rw [if_neg h1]
          have : ¬ (l = level ∧ (t level p).getLsbD 2 = true ∧ Near 1 q p) := fun k => h1 ⟨k.1, mem_boxAround.2 k.2.2⟩
          exact ⟨Or.inl, fun k => k.elim id fun k => absurd k this⟩
      · split
        · rw [(bits_keep _).2.1]
        · rfl
      · split
        · rw [(bits_keep _).2.2]
        · rfl
    · rw [if_neg h]
      have h' : ¬ t.Refine level p := h
      simp [h']
  simp only [← mem_callCells]
  unfold tagCells
  generalize callCells calls = L
  induction L generalizing t with
  | nil => simp
  | cons p L ih =>
    obtain ⟨h1, h2, h3⟩ := ih (t := keepAroundCell level t p)
    obtain ⟨o1, o2, o3⟩ := one t p
    simp only [List.foldl_cons]
    refine ⟨fun l q => ?_, fun l q => (h2 l q).trans (o2 l q), fun l q => (h3 l q).trans (o3 l q)⟩
    rw [h1, o1]
    simp only [o3, List.mem_cons]
    constructor
    · rintro ((h | ⟨a, b, c⟩) | ⟨a, r, b, c⟩)
      · exact Or.inl h
      · exact Or.inr ⟨a, p, Or.inl rfl, b, c⟩
      · exact Or.inr ⟨a, r, Or.inr b, c⟩
    · rintro (h | ⟨a, r, rfl | b, c⟩)
      · exact Or.inl (Or.inl h)
      · exact Or.inl (Or.inr ⟨a, c⟩)
      · exact Or.inr ⟨a, r, b, c⟩

/-- `t'` is `t` with more keep flags. -/
def MoreKeep (t t' : TagField) : Prop :=
  (∀ l q, t.Keep l q → t'.Keep l q) ∧ (∀ l q, t'.Coarsen l q ↔ t.Coarsen l q) ∧ ∀ l q, t'.Refine l q ↔ t.Refine l q

theorem MoreKeep.rfl' (t : TagField) : MoreKeep t t := ⟨fun _ _ h => h, fun _ _ => Iff.rfl, fun _ _ => Iff.rfl⟩

theorem MoreKeep.trans {a b c : TagField} (h : MoreKeep a b) (h' : MoreKeep b c) : MoreKeep a c :=
  ⟨fun l q k => h'.1 l q (h.1 l q k), fun l q => (h'.2.1 l q).trans (h.2.1 l q), fun l q => (h'.2.2 l q).trans (h.2.2 l q)⟩

theorem moreKeep_foldl {α : Type} {f : TagField → α → TagField} (hf : ∀ t a, MoreKeep t (f t a)) (L : List α) :
    ∀ t, MoreKeep t (L.foldl f t) := by
  induction L with
  | nil => exact fun t => MoreKeep.rfl' t
  | cons a L ih => exact fun t => (hf t a).trans (ih _)

theorem moreKeep_enlarge {level : Nat} {calls : List Call} (t : TagField) : MoreKeep t (tagCells (enlargeCell level) calls t) := by
  refine moreKeep_foldl (fun t p => ?_) _ t
  unfold enlargeCell
  split
  · unfold MoreKeep TagField.Keep TagField.Coarsen TagField.Refine
    refine ⟨fun l q h => ?_, fun l q => ?_, fun l q => ?_⟩ <;> rw [foldl_add] <;> split
    · rw [(bits_enlarge _).1]; exact h
    · exact h
    · rw [(bits_enlarge _).2.1]
    · rfl
    · rw [(bits_enlarge _).2.2]
    · rfl
  · exact MoreKeep.rfl' t

theorem moreKeep_tagToKeep {flag : BitVec 32} {level : Nat} {calls : List Call} (t : TagField) :
    MoreKeep t (tagCells (tagToKeepCell flag level) calls t) := by
  refine moreKeep_foldl (fun t p => ?_) _ t
  unfold tagToKeepCell
  split
  · unfold MoreKeep TagField.Keep TagField.Coarsen TagField.Refine TagField.add
    refine ⟨fun l q h => ?_, fun l q => ?_, fun l q => ?_⟩ <;> rw [put_apply] <;> split
    · exact (bits_keep _).1
    · exact h
    · rename_i h; rw [(bits_keep _).2.1, h.1, h.2]
    · rfl
    · rename_i h; rw [(bits_keep _).2.2, h.1, h.2]
    · rfl
  · exact MoreKeep.rfl' t

theorem moreKeep_around {level : Nat} {calls : List Call} (t : TagField) : MoreKeep t (tagCells (keepAroundCell level) calls t) :=
  ⟨fun l q h => (tagKeepAround.1 l q).2 (Or.inl h), tagKeepAround.2.1, tagKeepAround.2.2⟩

theorem sub_shift (s : Nat → Int) (p : List Int) : ∀ d, shiftPoint s d (subPoint s d p) = p := by
  induction p with
  | nil => intro d; rfl
  | cons c p ih => intro d; simp [subPoint, shiftPoint, ih]

theorem shift_sub (s : Nat → Int) (p : List Int) : ∀ d, subPoint s d (shiftPoint s d p) = p := by
  induction p with
  | nil => intro d; rfl
  | cons c p ih => intro d; simp [subPoint, shiftPoint, ih]

theorem mem_callRow {c : Call} {p : List Int} : (p ∈ (coords1 c.2).map fun x => c.1 ++ [x]) ↔ ∃ x ∈ c.2, p = c.1 ++ [x] := by
  rw [List.mem_map]
  simp only [mem_coords1]
  constructor
  · rintro ⟨x, h, rfl⟩; exact ⟨x, h, rfl⟩
  · rintro ⟨x, h, rfl⟩; exact ⟨x, h, rfl⟩

theorem bits_copyKeep (v w : BitVec 32) : ((v ||| (w &&& CellFlag.keep)).getLsbD 0 = true ↔ v.getLsbD 0 = true ∨ w.getLsbD 0 = true) ∧
    (v ||| (w &&& CellFlag.keep)).getLsbD 1 = v.getLsbD 1 ∧ (v ||| (w &&& CellFlag.keep)).getLsbD 2 = v.getLsbD 2 := by
  simp [CellFlag.keep, BitVec.getLsbD_or, BitVec.getLsbD_and]

theorem moreKeep_balanceRow {n level : Nat} {s : Nat → Int} (t : TagField) (c : Call) : MoreKeep t (balanceRow n level s t c) := by
  unfold MoreKeep TagField.Keep TagField.Coarsen TagField.Refine balanceRow
  refine ⟨fun l q h => ?_, fun l q => ?_, fun l q => ?_⟩ <;> split
  · exact (bits_copyKeep _ _).1.2 (Or.inl h)
  · exact h
  · rw [(bits_copyKeep _ _).2.1]
  · rfl
  · rw [(bits_copyKeep _ _).2.2]
  · rfl

/-- The effect of `balance_2to1`: a cell of the set tagged keep passes the flag to the cell at `- s`. -/
theorem tagBalance {n level : Nat} {s : Nat → Int} {calls : List Call} {t : TagField} :
    MoreKeep t (calls.foldl (balanceRow n level s) t) ∧
      ∀ p, Covers calls p → t.Keep level p → (calls.foldl (balanceRow n level s) t).Keep level (subPoint s n p) := by
  refine ⟨moreKeep_foldl (moreKeep_balanceRow) _ t, ?_⟩
  induction calls generalizing t with
  | nil => rintro p ⟨c, hc, _⟩; simp at hc
  | cons c calls ih =>
    rintro p ⟨c', hc, x, hx, hp⟩ hk
    simp only [List.foldl_cons]
    have h1 : MoreKeep t (balanceRow n level s t c) := moreKeep_balanceRow t c
    rcases List.mem_cons.1 hc with rfl | hc
    · refine (moreKeep_foldl (moreKeep_balanceRow) calls _).1 _ _ ?_
      unfold TagField.Keep balanceRow
      rw [sub_shift, if_pos ⟨rfl, mem_callRow.2 ⟨x, hx, hp⟩⟩]
      exact (bits_copyKeep _ _).1.2 (Or.inr hk)
    · exact ih p ⟨c', hc, x, hx, hp⟩ (h1.1 _ _ hk)

/-- The effect of `make_graduation`. -/
theorem tagGraduate {level : Nat} {calls : List Call} {t : TagField} :
    (∀ l q, (tagCells (graduateCell level) calls t).Keep l q ↔ t.Keep l q) ∧
    (∀ l q, (tagCells (graduateCell level) calls t).Coarsen l q ↔ t.Coarsen l q) ∧
    ∀ l q, (tagCells (graduateCell level) calls t).Refine l q ↔ t.Refine l q ∨
      (l = level - 1 ∧ ∃ p, Covers calls p ∧ t.Keep level p ∧ parentOf p = q) := by
  have one : ∀ (t : TagField) p, (∀ l q, (graduateCell level t p).Keep l q ↔ t.Keep l q) ∧
      (∀ l q, (graduateCell level t p).Coarsen l q ↔ t.Coarsen l q) ∧
      ∀ l q, (graduateCell level t p).Refine l q ↔ t.Refine l q ∨ (l = level - 1 ∧ t.Keep level p ∧ parentOf p = q) := by
    intro t p
    unfold graduateCell
    rw [flagged_keep_bit]
    by_cases h : (t level p).getLsbD 0 = true
    · rw [if_pos h]
      unfold TagField.Keep TagField.Coarsen TagField.Refine TagField.add
      refine ⟨fun l q => ?_, fun l q => ?_, fun l q => ?_⟩ <;> rw [put_apply]
      · split
        · rename_i k; rw [(bits_refine _).1, k.1, k.2]
        · rfl
      · split
        · rename_i k; rw [(bits_refine _).2.1, k.1, k.2]
        · rfl
      · by_cases h1 : l = level - 1 ∧ q = p.map fun y => shr y 1
        · rw [if_pos h1]
          exact ⟨fun _ => Or.inr ⟨h1.1, h, h1.2.symm⟩, fun _ => (bits_refine _).2.2⟩
        · rw [if_neg h1]
          have : ¬ (l = level - 1 ∧ (t level p).getLsbD 0 = true ∧ parentOf p = q) := fun k => h1 ⟨k.1, k.2.2.symm⟩
          exact ⟨Or.inl, fun k => k.elim id fun k => absurd k this⟩
    · rw [if_neg h]
      have h' : ¬ t.Keep level p := h
      simp [h']
  simp only [← mem_callCells]
  unfold tagCells
  generalize callCells calls = L
  induction L generalizing t with
  | nil => simp
  | cons p L ih =>
    obtain ⟨h1, h2, h3⟩ := ih (t := graduateCell level t p)
    obtain ⟨o1, o2, o3⟩ := one t p
    simp only [List.foldl_cons]
    refine ⟨fun l q => (h1 l q).trans (o1 l q), fun l q => (h2 l q).trans (o2 l q), fun l q => ?_⟩
    rw [h3, o3]
    simp only [o1, List.mem_cons]
    constructor
    · rintro ((h | ⟨a, b, c⟩) | ⟨a, r, b, c⟩)
      · exact Or.inl h
      · exact Or.inr ⟨a, p, Or.inl rfl, b, c⟩
      · exact Or.inr ⟨a, r, Or.inr b, c⟩
    · rintro (h | ⟨a, r, rfl | b, c⟩)
      · exact Or.inl (Or.inl h)
      · exact Or.inl (Or.inr ⟨a, c⟩)
      · exact Or.inr ⟨a, r, b, c⟩

end Samurai

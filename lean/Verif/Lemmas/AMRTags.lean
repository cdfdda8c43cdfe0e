import Verif.Lemmas.AdaptGeo
import Verif.Spec.AMRAdapt

namespace Samurai

theorem hasKeep_iff {t : TagField} {l : Nat} {p : List Int} : HasKeep t l p ↔ t.Keep l p := by
  unfold TagField.Keep HasKeep
  rw [← flagged_keep_bit]
  simp [flagged, CellFlag.keep]

theorem hasCoarsen_iff {t : TagField} {l : Nat} {p : List Int} : HasCoarsen t l p ↔ t.Coarsen l p := by
  unfold TagField.Coarsen HasCoarsen
  rw [← flagged_coarsen_bit]
  simp [flagged, CellFlag.coarsen]

theorem hasRefine_iff {t : TagField} {l : Nat} {p : List Int} : HasRefine t l p ↔ t.Refine l p := by
  unfold TagField.Refine HasRefine
  rw [← flagged_refine_bit]
  simp [flagged, CellFlag.refine]

theorem unshift_eq (s : Nat → Int) (p : List Int) : ∀ d, unshiftPoint s d p = subPoint s d p := by
  unfold unshiftPoint
  induction p with
  | nil => intro d; rfl
  | cons c p ih =>
    intro d
    simp only [shiftPoint, subPoint, ih, List.cons.injEq, and_true]
    omega

/-! ### loops with checks -/

theorem foldlM_checked {σ α : Type} {f : σ → α → Option σ} {g : σ → α → σ} {L : List α} (h : ∀ a ∈ L, ∀ t, f t a = some (g t a)) :
    ∀ t, L.foldlM f t = some (L.foldl g t) := by
  induction L with
  | nil => intro t; rfl
  | cons a L ih =>
    intro t
    rw [List.foldlM_cons, h a (by simp)]
    exact ih (fun b hb => h b (by simp [hb])) _

theorem hasCells_of {n : Nat} {all : CA} {l : Nat} {L : List (List Int)} (hw : all.WF n) (h : ∀ q ∈ L, all.Mem n l q) :
    hasCells n all l L = true := by
  unfold hasCells
  rw [List.all_eq_true]
  intro q hq
  have hm := h q hq
  obtain ⟨e, he, x, hx, rfl⟩ := (mem_iff_rows (hw l hm.1) q).1 hm.2
  rw [getInterval_row (hw l hm.1) he hx]
  rfl

/-! ### the operators -/

theorem mem_boxAroundW {w : Nat} {p q : List Int} : q ∈ boxAroundW w p ↔ Near w q p := by
  induction p generalizing q with
  | nil =>
    unfold boxAroundW Near
    simp
  | cons c p ih =>
    unfold boxAroundW
    rw [List.mem_flatMap]
    constructor
    · rintro ⟨r, hr, hq⟩
      obtain ⟨k, hk, rfl⟩ := List.mem_map.1 hq
      have hk := List.mem_range.1 hk
      exact List.Forall₂.cons ⟨by omega, by omega⟩ (ih.1 hr)
    · intro h
      cases q with
      | nil => cases h
      | cons y r =>
        obtain ⟨h1, h2⟩ := List.forall₂_cons.1 h
        refine ⟨r, ih.2 h2, List.mem_map.2 ⟨(y - c + w).toNat, List.mem_range.2 (by omega), ?_⟩⟩
        rw [List.cons.injEq]
        exact ⟨by omega, rfl⟩

/-- `keep_around_refine` of width `w`, without the checks. -/
def keepAroundPure (w level : Nat) (t : TagField) (p : List Int) : TagField :=
  if flagged (t level p) CellFlag.refine then (boxAroundW w p).foldl (fun t q => TagField.add CellFlag.keep t level q) t else t

def keepChildrenPure (level : Nat) (t : TagField) (p : List Int) : TagField :=
  if (childrenOf p).any fun q => flagged (t (level + 1) q) CellFlag.keep then
    (childrenOf p).foldl (fun t q => TagField.add CellFlag.keep t (level + 1) q) t
  else t

def graduatePure (n : Nat) (s : Nat → Int) (level : Nat) (t : TagField) (p : List Int) : TagField :=
  let t := if flagged (t level (unshiftPoint s n p)) CellFlag.refine then TagField.add CellFlag.refine t (level - 1) (p.map fun y => shr y 1) else t
  if flagged (t level (unshiftPoint s n p)) CellFlag.keep then TagField.add CellFlag.keep t (level - 1) (p.map fun y => shr y 1) else t

/-- The flags of `t'` are those of `t` with `keep` added on `A` and `refine` added on `B`. -/
structure Adds (t t' : TagField) (A B : Nat → List Int → Prop) : Prop where
  keep : ∀ l q, t'.Keep l q ↔ t.Keep l q ∨ A l q
  coarsen : ∀ l q, t'.Coarsen l q ↔ t.Coarsen l q
  refine : ∀ l q, t'.Refine l q ↔ t.Refine l q ∨ B l q

theorem Adds.nothing (t : TagField) : Adds t t (fun _ _ => False) (fun _ _ => False) :=
  ⟨fun _ _ => by simp, fun _ _ => Iff.rfl, fun _ _ => by simp⟩

theorem Adds.trans {a b c : TagField} {A A' B B' : Nat → List Int → Prop} (h : Adds a b A B) (h' : Adds b c A' B') :
    Adds a c (fun l q => A l q ∨ A' l q) (fun l q => B l q ∨ B' l q) :=
  ⟨fun l q => by rw [h'.keep, h.keep, or_assoc], fun l q => (h'.coarsen l q).trans (h.coarsen l q), fun l q => by
    rw [h'.refine, h.refine, or_assoc]⟩

theorem Adds.congr {a b : TagField} {A A' B B' : Nat → List Int → Prop} (h : Adds a b A B) (h1 : ∀ l q, A l q ↔ A' l q)
    (h2 : ∀ l q, B l q ↔ B' l q) : Adds a b A' B' :=
  ⟨fun l q => by rw [h.keep, h1], h.coarsen, fun l q => by rw [h.refine, h2]⟩

theorem adds_keep {level : Nat} (L : List (List Int)) (t : TagField) :
    Adds t (L.foldl (fun t q => TagField.add CellFlag.keep t level q) t) (fun l q => l = level ∧ q ∈ L) (fun _ _ => False) := by
  refine ⟨fun l q => ?_, fun l q => ?_, fun l q => ?_⟩
  · unfold TagField.Keep
    rw [foldl_add]
    by_cases h : l = level ∧ q ∈ L
    · rw [if_pos h, (bits_keep _).1]; exact iff_of_true rfl (Or.inr h)
    · rw [if_neg h]; exact ⟨Or.inl, fun k => k.resolve_right h⟩
  · unfold TagField.Coarsen
    rw [foldl_add]
    split
    · rw [(bits_keep _).2.1]
    · rfl
  · unfold TagField.Refine
    rw [foldl_add, or_false]
    split
    · rw [(bits_keep _).2.2]
    · rfl

theorem adds_one {level : Nat} {p : List Int} (t : TagField) :
    Adds t (TagField.add CellFlag.keep t level p) (fun l q => l = level ∧ q = p) (fun _ _ => False) :=
  (adds_keep [p] t).congr (fun l q => by simp) fun _ _ => Iff.rfl

theorem adds_oneRefine {level : Nat} {p : List Int} (t : TagField) :
    Adds t (TagField.add CellFlag.refine t level p) (fun _ _ => False) (fun l q => l = level ∧ q = p) := by
  refine ⟨fun l q => ?_, fun l q => ?_, fun l q => ?_⟩
  · unfold TagField.Keep TagField.add
    rw [put_apply, or_false]
    split
    · rename_i h; rw [(bits_refine _).1, h.1, h.2]
    · rfl
  · unfold TagField.Coarsen TagField.add
    rw [put_apply]
    split
    · rename_i h; rw [(bits_refine _).2.1, h.1, h.2]
    · rfl
  · unfold TagField.Refine TagField.add
    rw [put_apply]
    by_cases h : l = level ∧ q = p
    · rw [if_pos h, (bits_refine _).2.2]; exact iff_of_true rfl (Or.inr h)
    · rw [if_neg h]; exact ⟨Or.inl, fun k => k.resolve_right h⟩

theorem adds_around {w level : Nat} (L : List (List Int)) : ∀ t : TagField, Adds t (L.foldl (keepAroundPure w level) t)
    (fun l q => l = level ∧ ∃ p ∈ L, t.Refine level p ∧ Near w q p) (fun _ _ => False) := by
  induction L with
  | nil => intro t; exact (Adds.nothing t).congr (fun l q => by simp) fun _ _ => Iff.rfl
  | cons p L ih =>
    intro t
    have h1 : Adds t (keepAroundPure w level t p) (fun l q => l = level ∧ t.Refine level p ∧ Near w q p) (fun _ _ => False) := by
      unfold keepAroundPure
      rw [flagged_refine_bit]
      by_cases h : (t level p).getLsbD 2 = true
      · rw [if_pos h]
        refine (adds_keep _ t).congr (fun l q => ?_) fun _ _ => Iff.rfl
        rw [mem_boxAroundW]
        exact ⟨fun k => ⟨k.1, h, k.2⟩, fun k => ⟨k.1, k.2.2⟩⟩
      · rw [if_neg h]
        exact (Adds.nothing t).congr (fun l q => ⟨False.elim, fun k => h k.2.1⟩) fun _ _ => Iff.rfl
    refine (h1.trans (ih _)).congr (fun l q => ?_) (fun l q => by simp)
    simp only [h1.refine, or_false, List.mem_cons, exists_eq_or_imp]
    tauto

theorem adds_children {level : Nat} (L : List (List Int)) : ∀ t : TagField, Adds t (L.foldl (keepChildrenPure level) t)
    (fun l q => l = level + 1 ∧ parentOf q ∈ L ∧ AnyKeep t level (parentOf q)) (fun _ _ => False) := by
  induction L with
  | nil => intro t; exact (Adds.nothing t).congr (fun l q => by simp) fun _ _ => Iff.rfl
  | cons p L ih =>
    intro t
    have h1 : Adds t (keepChildrenPure level t p) (fun l q => l = level + 1 ∧ parentOf q = p ∧ AnyKeep t level p) (fun _ _ => False) := by
      unfold keepChildrenPure
      by_cases h : AnyKeep t level p
      · rw [if_pos (any_keep.2 h)]
        refine (adds_keep _ t).congr (fun l q => ?_) fun _ _ => Iff.rfl
        rw [mem_children]
        exact ⟨fun k => ⟨k.1, k.2, h⟩, fun k => ⟨k.1, k.2.1⟩⟩
      · rw [if_neg (fun k => h (any_keep.1 k))]
        exact (Adds.nothing t).congr (fun l q => ⟨False.elim, fun k => h k.2.2⟩) fun _ _ => Iff.rfl
    have h2 : ∀ r, AnyKeep (keepChildrenPure level t p) level r ↔ AnyKeep t level r := by
      intro r
      unfold AnyKeep
      constructor
      · rintro ⟨c, c1, c2⟩
        rcases (h1.keep _ _).1 c2 with c2 | ⟨_, c3, c4⟩
        · exact ⟨c, c1, c2⟩
        · rw [← c1, c3]; exact c4
      · rintro ⟨c, c1, c2⟩
        exact ⟨c, c1, (h1.keep _ _).2 (Or.inl c2)⟩
    refine (h1.trans (ih _)).congr (fun l q => ?_) (fun l q => by simp)
    simp only [h2, List.mem_cons]
    constructor
    · rintro (⟨a, rfl, c⟩ | ⟨a, b, c⟩)
      · exact ⟨a, Or.inl rfl, c⟩
      · exact ⟨a, Or.inr b, c⟩
    · rintro ⟨a, b | b, c⟩
      · exact Or.inl ⟨a, b, by rw [← b]; exact c⟩
      · exact Or.inr ⟨a, b, c⟩

theorem adds_graduate {n level : Nat} {s : Nat → Int} (hl : 1 ≤ level) (L : List (List Int)) : ∀ t : TagField,
    Adds t (L.foldl (graduatePure n s level) t)
      (fun l q => l = level - 1 ∧ ∃ p ∈ L, t.Keep level (unshiftPoint s n p) ∧ parentOf p = q)
      (fun l q => l = level - 1 ∧ ∃ p ∈ L, t.Refine level (unshiftPoint s n p) ∧ parentOf p = q) := by
  induction L with
  | nil => intro t; exact (Adds.nothing t).congr (fun l q => by simp) fun l q => by simp
  | cons p L ih =>
    intro t
    have h1 : Adds t (graduatePure n s level t p) (fun l q => l = level - 1 ∧ t.Keep level (unshiftPoint s n p) ∧ parentOf p = q)
        (fun l q => l = level - 1 ∧ t.Refine level (unshiftPoint s n p) ∧ parentOf p = q) := by
      unfold graduatePure
      rw [flagged_refine_bit]
      simp only []
      have h2 : Adds t (if (t level (unshiftPoint s n p)).getLsbD 2 = true then TagField.add CellFlag.refine t (level - 1) (p.map fun y => shr y 1) else t)
          (fun _ _ => False) (fun l q => l = level - 1 ∧ t.Refine level (unshiftPoint s n p) ∧ parentOf p = q) := by
        by_cases h : (t level (unshiftPoint s n p)).getLsbD 2 = true
        · rw [if_pos h]
          exact (adds_oneRefine t).congr (fun _ _ => Iff.rfl) fun l q => ⟨fun k => ⟨k.1, h, k.2.symm⟩, fun k => ⟨k.1, k.2.2.symm⟩⟩
        · rw [if_neg h]
          exact (Adds.nothing t).congr (fun _ _ => Iff.rfl) fun l q => ⟨False.elim, fun k => h k.2.1⟩
      generalize (if (t level (unshiftPoint s n p)).getLsbD 2 = true then TagField.add CellFlag.refine t (level - 1) (p.map fun y => shr y 1) else t) = t' at h2
      rw [flagged_keep_bit]
      have h3 : Adds t' (if (t' level (unshiftPoint s n p)).getLsbD 0 = true then TagField.add CellFlag.keep t' (level - 1) (p.map fun y => shr y 1) else t')
          (fun l q => l = level - 1 ∧ t.Keep level (unshiftPoint s n p) ∧ parentOf p = q) (fun _ _ => False) := by
        have hk : (t' level (unshiftPoint s n p)).getLsbD 0 = true ↔ t.Keep level (unshiftPoint s n p) := by
          have := h2.keep level (unshiftPoint s n p)
          rw [or_false] at this
          exact this
        by_cases h : (t' level (unshiftPoint s n p)).getLsbD 0 = true
        · rw [if_pos h]
          exact (adds_one t').congr (fun l q => ⟨fun k => ⟨k.1, hk.1 h, k.2.symm⟩, fun k => ⟨k.1, k.2.2.symm⟩⟩) fun _ _ => Iff.rfl
        · rw [if_neg h]
          exact (Adds.nothing t').congr (fun l q => ⟨False.elim, fun k => h (hk.2 k.2.1)⟩) fun _ _ => Iff.rfl
      exact (h2.trans h3).congr (fun l q => by simp) fun l q => by simp
    have hne : level ≠ level - 1 := by omega
    refine (h1.trans (ih _)).congr (fun l q => ?_) (fun l q => ?_)
    · simp only [h1.keep, hne, false_and, or_false, List.mem_cons, exists_eq_or_imp]
      tauto
    · simp only [h1.refine, hne, false_and, or_false, List.mem_cons, exists_eq_or_imp]
      tauto

end Samurai

import Verif.Lemmas.LevelCellArray

namespace Samurai

/-- All the intervals have default step and index. -/
def GridPlain : (n : Nat) → Grid n → Prop
  | 0, g => ∀ i ∈ (g : List Interval), Plain i
  | n + 1, g => ∀ e ∈ (g : List (Int × Grid n)), GridPlain n e.2

theorem gridFull_mem {n : Nat} {g : Grid n} (hw : GridWF n g) (hf : GridFull n g) :
    ∃ p, GridMem n g p := by
  induction n with
  | zero =>
    obtain ⟨i, l, h⟩ := List.exists_cons_of_ne_nil hf
    subst h
    exact ⟨[i.start], i, List.mem_cons_self, le_rfl, (Canonical.cons hw).1⟩
  | succ n ih =>
    obtain ⟨e, l, h⟩ := List.exists_cons_of_ne_nil hf.1
    subst h
    obtain ⟨p, hp⟩ := ih (hw.2 e List.mem_cons_self) (hf.2 e List.mem_cons_self)
    exact ⟨e.1 :: p, e, List.mem_cons_self, rfl, hp⟩

theorem assoc_unique {α : Type} {l m : List (Int × α)} (hl : l.Pairwise fun a b => a.1 < b.1)
    (hm : m.Pairwise fun a b => a.1 < b.1) (h : ∀ e, e ∈ l ↔ e ∈ m) : l = m := by
  induction l generalizing m with
  | nil =>
    cases m with
    | nil => rfl
    | cons e m => exact absurd ((h e).2 List.mem_cons_self) (by simp)
  | cons a l ih =>
    cases m with
    | nil => exact absurd ((h a).1 List.mem_cons_self) (by simp)
    | cons b m =>
      obtain ⟨h1, h2⟩ := List.pairwise_cons.1 hl
      obtain ⟨h3, h4⟩ := List.pairwise_cons.1 hm
      have hab : a = b := by
        rcases List.mem_cons.1 ((h a).1 List.mem_cons_self) with hb | hb
        · exact hb
        · rcases List.mem_cons.1 ((h b).2 List.mem_cons_self) with hb' | hb'
          · exact hb'.symm
          · have := h3 a hb; have := h1 b hb'; omega
      subst hab
      congr 1
      apply ih h2 h4
      intro e
      constructor
      · intro he
        rcases List.mem_cons.1 ((h e).1 (List.mem_cons_of_mem _ he)) with rfl | hb
        · have := h1 _ he; omega
        · exact hb
      · intro he
        rcases List.mem_cons.1 ((h e).2 (List.mem_cons_of_mem _ he)) with rfl | hb
        · have := h3 _ he; omega
        · exact hb

theorem grid_unique {n : Nat} {g g' : Grid n} (hw : GridWF n g) (hw' : GridWF n g')
    (hf : GridFull n g ∨ Grid.isEmpty n g = true) (hf' : GridFull n g' ∨ Grid.isEmpty n g' = true)
    (hp : GridPlain n g) (hp' : GridPlain n g') (h : ∀ p, GridMem n g p ↔ GridMem n g' p) : g = g' := by
  induction n with
  | zero =>
    exact eq_of_bounds_plain hp hp' (canonical_unique hw hw' (fun x => h [x]))
  | succ n ih =>
    have full : ∀ {g : Grid (n + 1)}, (GridFull (n + 1) g ∨ Grid.isEmpty (n + 1) g = true) →
        ∀ e ∈ (g : List (Int × Grid n)), GridFull n e.2 := by
      intro g hg
      rcases hg with hg | hg
      · exact hg.2
      · have : (g : List (Int × Grid n)) = [] := List.isEmpty_iff.1 hg
        rw [this]; simp
    have key : ∀ {g g' : Grid (n + 1)}, GridWF (n + 1) g → GridWF (n + 1) g' →
        (∀ e ∈ (g : List (Int × Grid n)), GridFull n e.2) →
        (∀ e ∈ (g' : List (Int × Grid n)), GridFull n e.2) → GridPlain (n + 1) g → GridPlain (n + 1) g' →
        (∀ p, GridMem (n + 1) g p ↔ GridMem (n + 1) g' p) →
        ∀ e, e ∈ (g : List (Int × Grid n)) → e ∈ (g' : List (Int × Grid n)) := by
      intro g g' hw hw' hf hf' hp hp' h e he
      obtain ⟨p, hpm⟩ := gridFull_mem (hw.2 e he) (hf e he)
      obtain ⟨e', he', hee, _⟩ := (h (e.1 :: p)).1 ⟨e, he, rfl, hpm⟩
      have : e.2 = e'.2 := by
        refine ih (hw.2 e he) (hw'.2 e' he') (Or.inl (hf e he)) (Or.inl (hf' e' he')) (hp e he) (hp' e' he') ?_
        intro q
        have hg1 : (g : List (Int × Grid n)).Pairwise fun a b => a.1 < b.1 := by
          have := hw.1
          rwa [List.pairwise_map] at this
        have hg2 : (g' : List (Int × Grid n)).Pairwise fun a b => a.1 < b.1 := by
          have := hw'.1
          rwa [List.pairwise_map] at this
        constructor
        · intro hq
          obtain ⟨e2, he2, hk, hq2⟩ := (h (e.1 :: q)).1 ⟨e, he, rfl, hq⟩
          rwa [← pairwise_fst_inj hg2 he2 he' (hk.trans hee.symm)]
        · intro hq
          obtain ⟨e2, he2, hk, hq2⟩ := (h (e.1 :: q)).2 ⟨e', he', hee, hq⟩
          rwa [← pairwise_fst_inj hg1 he2 he hk]
      have : e = e' := Prod.ext hee.symm this
      rw [this]; exact he'
    apply assoc_unique
    · have := hw.1
      rwa [List.pairwise_map] at this
    · have := hw'.1
      rwa [List.pairwise_map] at this
    · intro e
      exact ⟨key hw hw' (full hf) (full hf') hp hp' h e, key hw' hw (full hf') (full hf) hp' hp (fun p => (h p).symm) e⟩

theorem gridPlain_empty (n : Nat) : GridPlain n (Grid.empty n) := by
  cases n with
  | zero => simp [GridPlain, Grid.empty]
  | succ n => simp [GridPlain, Grid.empty]

theorem gridModify_plain {n : Nat} {f : List Interval → List Interval}
    (hf : ∀ l, (∀ i ∈ l, Plain i) → ∀ i ∈ f l, Plain i) {idx : List Int} {g : Grid n}
    (hw : GridWF n g) (hg : GridPlain n g) : GridPlain n (g.modify n f idx) := by
  induction n generalizing idx with
  | zero => exact hf g hg
  | succ n ih =>
    match idx with
    | [] => exact hg
    | k :: idx =>
      have hg1 : (g : List (Int × Grid n)).Pairwise fun a b => a.1 < b.1 := by
        have := hw.1
        rwa [List.pairwise_map] at this
      intro e he
      rcases (mapUpsert_mem hg1 e).1 he with ⟨_, he⟩ | ⟨_, ⟨a, ha, he⟩ | ⟨_, he⟩⟩
      · exact hg e he
      · rw [he]; exact ih (hw.2 _ ha) (hg _ ha)
      · rw [he]; exact ih (gridWF_empty n) (gridPlain_empty n)

theorem memRow_congr {L L' : LCA} {n : Nat} (hc : ∀ d ≤ n, L.cells d = L'.cells d)
    (ho : ∀ d < n, L.offsets d = L'.offsets d) (lo hi : Nat) (p : List Int) :
    MemRow L n lo hi p ↔ MemRow L' n lo hi p := by
  induction n generalizing lo hi p with
  | zero =>
    match p with
    | [x] => simp only [MemRow, hc 0 le_rfl]
    | [] => exact Iff.rfl
    | _ :: _ :: _ => exact Iff.rfl
  | succ n ih =>
    match p with
    | [] => exact Iff.rfl
    | c :: p =>
      have ih := fun lo hi p => ih (fun d hd => hc d (by omega)) (fun d hd => ho d (by omega)) lo hi p
      simp only [MemRow, hc (n + 1) le_rfl, ho n (by omega), ih]

theorem beq_iff {n : Nat} {a b : LCA} : a.beq n b = true ↔
    a.level = b.level ∧ (∀ d ≤ n, a.cells d = b.cells d) ∧ ∀ d < n, a.offsets d = b.offsets d := by
  simp only [LCA.beq, Bool.and_eq_true, decide_eq_true_eq, List.all_eq_true, List.mem_range,
    Nat.lt_succ_iff]
  constructor
  · rintro ⟨⟨⟨h1, _⟩, h3⟩, h4⟩
    exact ⟨h1, h3, h4⟩
  · rintro ⟨h1, h3, h4⟩
    exact ⟨⟨⟨h1, fun d hd => by rw [h3 d hd]⟩, h3⟩, h4⟩

end Samurai

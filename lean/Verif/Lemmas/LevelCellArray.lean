import Verif.Spec.LevelCellArray
import Verif.Lemmas.ListOfIntervals

namespace Samurai

/-! ### lists -/

theorem slice_prefix {α : Type} {l a r : List α} (h : a ++ r <+: l) :
    slice l a.length (a.length + r.length) = r := by
  obtain ⟨t, rfl⟩ := h
  unfold slice
  rw [List.append_assoc, List.take_append, List.drop_append]
  simp

theorem slice_of_prefix {α : Type} {l l' : List α} (h : l <+: l') {a b : Nat} (hb : b ≤ l.length) :
    slice l' a b = slice l a b := by
  obtain ⟨t, rfl⟩ := h
  unfold slice
  rw [List.take_append_of_le_length hb]

theorem slice_full {α : Type} (l : List α) : slice l 0 l.length = l := by simp [slice]

theorem prefix_getElem? {α : Type} {l l' : List α} (h : l <+: l') {j : Nat} {a : α}
    (hj : l[j]? = some a) : l'[j]? = some a := by
  obtain ⟨t, rfl⟩ := h
  rw [List.getElem?_append_left]
  · exact hj
  · exact (List.getElem?_eq_some_iff.1 hj).1

@[simp] theorem appendAt_self {α : Type} (a : Nat → List α) (d : Nat) (xs : List α) :
    appendAt a d xs d = a d ++ xs := by simp [appendAt]

theorem appendAt_ne {α : Type} (a : Nat → List α) {d d' : Nat} (xs : List α) (h : d' ≠ d) :
    appendAt a d xs d' = a d' := by simp [appendAt, h]

theorem pairwise_fst_inj {α : Type} {l : List (Int × α)} (h : l.Pairwise fun a b => a.1 < b.1)
    {a b : Int × α} (ha : a ∈ l) (hb : b ∈ l) (hab : a.1 = b.1) : a = b := by
  induction l with
  | nil => simp at ha
  | cons c l ih =>
    obtain ⟨h1, h2⟩ := List.pairwise_cons.1 h
    rcases List.mem_cons.1 ha with ha' | ha' <;> rcases List.mem_cons.1 hb with hb' | hb'
    · rw [ha', hb']
    · have := h1 b hb'; rw [← ha'] at this; omega
    · have := h1 a ha'; rw [← hb'] at this; omega
    · exact ih h2 ha' hb'

/-! ### grids -/

/-- Points of a grid. -/
def GridMem : (n : Nat) → Grid n → List Int → Prop
  | 0, g, [x] => MemList x g
  | n + 1, g, k :: p => ∃ e ∈ (g : List (Int × Grid n)), e.1 = k ∧ GridMem n e.2 p
  | _, _, _ => False

/-- Sorted keys, canonical rows. -/
def GridWF : (n : Nat) → Grid n → Prop
  | 0, g => Canonical g
  | n + 1, g => List.Pairwise (· < ·) (List.map Prod.fst (g : List (Int × Grid n))) ∧
      ∀ e ∈ (g : List (Int × Grid n)), GridWF n e.2

/-- No empty row. -/
def GridFull : (n : Nat) → Grid n → Prop
  | 0, g => (g : List Interval) ≠ []
  | n + 1, g => (g : List (Int × Grid n)) ≠ [] ∧ ∀ e ∈ (g : List (Int × Grid n)), GridFull n e.2

/-! ### runs of keys -/

/-- The intervals made of increasing keys, as built by the loop of `init_from_level_cell_list`;
`off` is the current number of offsets, `cur` the working interval. -/
def runsGo (off : Nat) (cur : Interval) : List Int → List Interval
  | [] => [cur]
  | k :: ks =>
    if k > cur.stop then cur :: runsGo (off + 1) (Interval.mk' k (k + 1) (off - k)) ks
    else runsGo (off + 1) { cur with stop := cur.stop + 1 } ks

theorem runsGo_cons (off : Nat) (cur : Interval) (k : Int) (ks : List Int) :
    runsGo off cur (k :: ks) =
      if k > cur.stop then cur :: runsGo (off + 1) (Interval.mk' k (k + 1) (off - k)) ks
      else runsGo (off + 1) { cur with stop := cur.stop + 1 } ks := rfl

/-- Same, at the start of the loop. -/
def runs (off : Nat) : List Int → List Interval
  | [] => []
  | k :: ks => runsGo (off + 1) (Interval.mk' k (k + 1) (off - k)) ks

theorem runsGo_spec {ks : List Int} {off : Nat} {cur : Interval} {b : Int}
    (hv : cur.start < cur.stop) (hi : cur.index + cur.stop = off) (hs : ks.Pairwise (· < ·))
    (hk : ∀ k ∈ ks, cur.stop ≤ k) (hb : b < cur.start) :
    CanonFrom b (runsGo off cur ks) ∧
    (∀ c, MemList c (runsGo off cur ks) ↔ c ∈ cur ∨ c ∈ ks) ∧
    (∀ i ∈ runsGo off cur ks, ∀ c ∈ i, (c ∈ cur ∧ i.index = cur.index) ∨
      ∃ j : Nat, ks[j]? = some c ∧ i.index + c = off + j) ∧
    IndexFrom (cur.index + cur.start) (runsGo off cur ks) ∧
    totalSize (runsGo off cur ks) = cur.size + ks.length := by
  induction ks generalizing off cur b with
  | nil =>
    refine ⟨⟨hb, hv, trivial⟩, by simp [runsGo], ?_, ⟨rfl, trivial⟩, by simp [runsGo, totalSize]⟩
    intro i hi c hc
    simp only [runsGo, List.mem_singleton] at hi
    subst hi
    exact Or.inl ⟨hc, rfl⟩
  | cons k ks ih =>
    have hs' := (List.pairwise_cons.1 hs).2
    have hs1 := (List.pairwise_cons.1 hs).1
    have hk0 := hk k List.mem_cons_self
    unfold runsGo
    split
    · rename_i hgt
      obtain ⟨h1, h2, h3, h4, h5⟩ := ih (off := off + 1)
        (cur := Interval.mk' k (k + 1) (off - k)) (b := cur.stop)
        (by simp [Interval.mk']) (by simp [Interval.mk']; omega) hs'
        (fun k' hk' => by have := hs1 k' hk'; simp [Interval.mk']; omega) (by simp [Interval.mk']; omega)
      refine ⟨⟨hb, hv, h1⟩, ?_, ?_, ?_, ?_⟩
      · intro c
        rw [memList_cons, h2, List.mem_cons]
        apply or_congr_right
        apply or_congr_left
        simp only [Interval.mem_def, Interval.mk']; omega
      · intro i hi c hc
        rcases List.mem_cons.1 hi with rfl | hi
        · exact Or.inl ⟨hc, rfl⟩
        · right
          rcases h3 i hi c hc with ⟨h6, h7⟩ | ⟨j, h6, h7⟩
          · simp only [Interval.mem_def, Interval.mk'] at h6
            simp only [Interval.mk'] at h7
            exact ⟨0, by simp; omega, by omega⟩
          · exact ⟨j + 1, by simpa using h6, by omega⟩
      · refine ⟨rfl, ?_⟩
        have : cur.index + cur.start + cur.size = (off : Int) - k + k := by
          unfold Interval.size; omega
        rw [this]; exact h4
      · have : totalSize (cur :: runsGo (off + 1) (Interval.mk' k (k + 1) (off - k)) ks)
            = cur.size + totalSize (runsGo (off + 1) (Interval.mk' k (k + 1) (off - k)) ks) := by
          simp [totalSize]
        rw [this, h5]
        simp [Interval.size, Interval.mk']
        omega
    · rename_i hgt
      have hks : k = cur.stop := by omega
      obtain ⟨h1, h2, h3, h4, h5⟩ := ih (off := off + 1)
        (cur := { cur with stop := cur.stop + 1 }) (b := b)
        (by simp; omega) (by simp; omega) hs'
        (fun k' hk' => by have := hs1 k' hk'; simp; omega) hb
      refine ⟨h1, ?_, ?_, h4, ?_⟩
      · intro c
        rw [h2, List.mem_cons, ← or_assoc]
        apply or_congr_left
        simp only [Interval.mem_def]; omega
      · intro i hi c hc
        rcases h3 i hi c hc with ⟨h6, h7⟩ | ⟨j, h6, h7⟩
        · simp only [Interval.mem_def] at h6 ⊢
          by_cases hck : c = k
          · exact Or.inr ⟨0, by simp [hck], by simp only [] at h7; omega⟩
          · exact Or.inl ⟨⟨h6.1, by omega⟩, h7⟩
        · exact Or.inr ⟨j + 1, by simpa using h6, by omega⟩
      · rw [h5]
        simp [Interval.size]
        omega

theorem runs_spec {ks : List Int} (off : Nat) (hs : ks.Pairwise (· < ·)) :
    Canonical (runs off ks) ∧
    (∀ c, MemList c (runs off ks) ↔ c ∈ ks) ∧
    (∀ i ∈ runs off ks, ∀ c ∈ i, ∃ j : Nat, ks[j]? = some c ∧ i.index + c = off + j) ∧
    IndexFrom off (runs off ks) ∧
    totalSize (runs off ks) = ks.length := by
  cases ks with
  | nil => simp [runs, Canonical, IndexFrom, totalSize]
  | cons k ks =>
    obtain ⟨h1, h2, h3, h4, h5⟩ := runsGo_spec (ks := ks) (off := off + 1)
      (cur := Interval.mk' k (k + 1) (off - k)) (b := k - 1)
      (by simp [Interval.mk']) (by simp [Interval.mk']; omega) (List.pairwise_cons.1 hs).2
      (fun k' hk' => by have := (List.pairwise_cons.1 hs).1 k' hk'; simp [Interval.mk']; omega)
      (by simp [Interval.mk'])
    refine ⟨h1.canonical, ?_, ?_, ?_, ?_⟩
    · intro c
      rw [runs, h2, List.mem_cons]
      apply or_congr_left
      simp only [Interval.mem_def, Interval.mk']; omega
    · intro i hi c hc
      rcases h3 i hi c hc with ⟨h6, h7⟩ | ⟨j, h6, h7⟩
      · simp only [Interval.mem_def, Interval.mk'] at h6
        simp only [Interval.mk'] at h7
        exact ⟨0, by simp; omega, by omega⟩
      · exact ⟨j + 1, by simpa using h6, by omega⟩
    · have : (off : Int) = off - k + k := by omega
      rw [this]; exact h4
    · rw [runs, h5]; simp [Interval.size, Interval.mk']; omega

theorem runs_ne_nil {ks : List Int} (off : Nat) (h : ks ≠ []) : runs off ks ≠ [] := by
  have hgo : ∀ (ks : List Int) off cur, runsGo off cur ks ≠ [] := by
    intro ks
    induction ks with
    | nil => intro off cur; simp [runsGo]
    | cons k ks ih =>
      intro off cur
      unfold runsGo
      split
      · simp
      · exact ih _ _
  cases ks with
  | nil => exact absurd rfl h
  | cons k ks => exact hgo _ _ _

/-! ### the construction -/

/-- Offsets of direction `d` with the virtual last entry. -/
def closed (s : LCA) (d : Nat) : List Nat := s.offsets d ++ [(s.cells d).length]

/-- `s'` extends `s` in the directions `≤ n`. -/
structure Ext (n : Nat) (s s' : LCA) : Prop where
  cells : ∀ d ≤ n, s.cells d <+: s'.cells d
  offs : ∀ d < n, closed s d <+: closed s' d

/-- `L` extends the closed version of `s` in the directions `≤ n`. -/
structure ExtL (n : Nat) (s L : LCA) : Prop where
  cells : ∀ d ≤ n, s.cells d <+: L.cells d
  offs : ∀ d < n, closed s d <+: L.offsets d

theorem Ext.refl (n : Nat) (s : LCA) : Ext n s s := ⟨fun _ _ => List.prefix_rfl, fun _ _ => List.prefix_rfl⟩

theorem Ext.trans {n : Nat} {a b c : LCA} (h : Ext n a b) (h' : Ext n b c) : Ext n a c :=
  ⟨fun d hd => (h.cells d hd).trans (h'.cells d hd), fun d hd => (h.offs d hd).trans (h'.offs d hd)⟩

theorem Ext.extL {n : Nat} {a b c : LCA} (h : Ext n a b) (h' : ExtL n b c) : ExtL n a c :=
  ⟨fun d hd => (h.cells d hd).trans (h'.cells d hd), fun d hd => (h.offs d hd).trans (h'.offs d hd)⟩

theorem ExtL.down {n : Nat} {a b : LCA} (h : ExtL (n + 1) a b) : ExtL n a b :=
  ⟨fun d hd => h.cells d (by omega), fun d hd => h.offs d (by omega)⟩

/-- Agreement on the part that `Ext n` looks at. -/
theorem Ext.congr_right {n : Nat} {a b c : LCA} (h : Ext n a b) (hc : ∀ d ≤ n, c.cells d = b.cells d)
    (ho : ∀ d < n, c.offsets d = b.offsets d) : Ext n a c :=
  ⟨fun d hd => by rw [hc d hd]; exact h.cells d hd,
   fun d hd => by unfold closed; rw [hc d hd.le, ho d hd]; exact h.offs d hd⟩

theorem Ext.congr_left {n : Nat} {a b c : LCA} (h : Ext n a b) (hc : ∀ d ≤ n, c.cells d = a.cells d)
    (ho : ∀ d < n, c.offsets d = a.offsets d) : Ext n c b :=
  ⟨fun d hd => by rw [hc d hd]; exact h.cells d hd,
   fun d hd => by unfold closed; rw [hc d hd.le, ho d hd]; exact h.offs d hd⟩

/-- What `initFromGrid n g` does to a state. -/
structure InitSpec (n : Nat) (g : Grid n) (s s' : LCA) : Prop where
  level : s'.level = s.level
  frameC : ∀ d, n < d → s'.cells d = s.cells d
  frameO : ∀ d, n ≤ d → s'.offsets d = s.offsets d
  ext : Ext n s s'
  mem : ∀ L, ExtL n s' L → ∀ p,
    MemRow L n (s.cells n).length (s'.cells n).length p ↔ GridMem n g p

/-- The state after one step. -/
structure StepSpec (n : Nat) (s s' : LCA) (cur cur' : Interval) (e : Int × Grid n) : Prop where
  level : s'.level = s.level
  frameC : ∀ d, n + 1 < d → s'.cells d = s.cells d
  frameO : ∀ d, n < d → s'.offsets d = s.offsets d
  ext : Ext n s s'
  offs : s'.offsets n = s.offsets n ++ [(s.cells n).length]
  valid : cur'.isValid = true
  cells : s'.cells (n + 1) ++ [cur'] =
    if cur.isValid then
      s.cells (n + 1) ++ (if e.1 > cur.stop then [cur, Interval.mk' e.1 (e.1 + 1) ((s.offsets n).length - e.1)]
        else [{ cur with stop := cur.stop + 1 }])
    else s.cells (n + 1) ++ [Interval.mk' e.1 (e.1 + 1) ((s.offsets n).length - e.1)]
  mem : ∀ L, ExtL n s' L → ∀ p,
    MemRow L n (s.cells n).length (s'.cells n).length p ↔ GridMem n e.2 p

theorem initStep_spec (n : Nat) (rec : Grid n → LCA → LCA)
    (s : LCA) (cur : Interval) (e : Int × Grid n)
    (h : InitSpec n e.2 s (rec e.2 s)) :
    StepSpec n s (initStep n rec (s, cur) e).1 cur (initStep n rec (s, cur) e).2 e := by
  have ho : (rec e.2 s).offsets n = s.offsets n := h.frameO n le_rfl
  have hc : (rec e.2 s).cells (n + 1) = s.cells (n + 1) := h.frameC (n + 1) (by omega)
  have hfv : ∀ (o : Int), (Interval.mk' e.1 (e.1 + 1) o).isValid = true := by
    intro o; simp [Interval.isValid, Interval.mk']
  -- the three branches share everything but the cells of direction n + 1
  have key : ∀ (s2 : LCA) (cur' : Interval), s2.level = (rec e.2 s).level →
      (∀ d, d ≠ n + 1 → s2.cells d = (rec e.2 s).cells d) → (s2.offsets = (rec e.2 s).offsets) →
      cur'.isValid = true →
      (s2.cells (n + 1) ++ [cur'] =
        if cur.isValid then
          s.cells (n + 1) ++ (if e.1 > cur.stop then [cur, Interval.mk' e.1 (e.1 + 1) ((s.offsets n).length - e.1)]
            else [{ cur with stop := cur.stop + 1 }])
        else s.cells (n + 1) ++ [Interval.mk' e.1 (e.1 + 1) ((s.offsets n).length - e.1)]) →
      StepSpec n s (s2.pushOffset n (s.cells n).length) cur cur' e := by
    intro s2 cur' hl h2 h3 hv h4
    have hext : Ext n s (s2.pushOffset n (s.cells n).length) :=
      h.ext.congr_right (fun d hd => h2 d (by omega)) (fun d hd => by
        show appendAt s2.offsets n _ d = _
        rw [appendAt_ne _ _ (by omega), h3])
    refine ⟨hl.trans h.level, fun d hd => ?_, fun d hd => ?_, hext, ?_, hv, h4, fun L hL p => ?_⟩
    · show s2.cells d = _
      rw [h2 d (by omega), h.frameC d (by omega)]
    · show appendAt s2.offsets n _ d = _
      rw [appendAt_ne _ _ (by omega), h3, h.frameO d (by omega)]
    · show appendAt s2.offsets n _ n = _
      rw [appendAt_self, h3, ho]
    · have e1 : (s2.pushOffset n (s.cells n).length).cells n = (rec e.2 s).cells n := h2 n (by omega)
      rw [e1]
      refine h.mem L ⟨fun d hd => ?_, fun d hd => ?_⟩ p
      · have := hL.cells d hd
        rwa [show (s2.pushOffset n (s.cells n).length).cells d = (rec e.2 s).cells d from h2 d (by omega)] at this
      · have := hL.offs d hd
        unfold closed at this ⊢
        rwa [show (s2.pushOffset n (s.cells n).length).cells d = (rec e.2 s).cells d from h2 d (by omega),
          show (s2.pushOffset n (s.cells n).length).offsets d = (rec e.2 s).offsets d from by
            show appendAt s2.offsets n _ d = _
            rw [appendAt_ne _ _ (by omega), h3]] at this
  unfold initStep
  simp only []
  by_cases hv : cur.isValid = true
  · rw [if_pos hv]
    by_cases hgt : e.1 > cur.stop
    · rw [if_pos hgt]
      refine key _ _ rfl (fun d hd => ?_) rfl (hfv _) ?_
      · exact appendAt_ne _ _ hd
      · show appendAt _ _ _ _ ++ _ = _
        rw [appendAt_self, hc, if_pos hv, if_pos hgt, ho]
        simp
    · rw [if_neg hgt]
      refine key _ _ rfl (fun d hd => rfl) rfl ?_ ?_
      · simp [Interval.isValid] at hv ⊢; omega
      · rw [hc, if_pos hv, if_neg hgt]
  · rw [if_neg hv]
    refine key _ _ rfl (fun d hd => rfl) rfl (hfv _) ?_
    rw [hc, if_neg hv, ho]

/-- What the whole loop does. -/
structure LoopSpec (n : Nat) (es : List (Int × Grid n)) (s s' : LCA) (cur cur' : Interval) : Prop where
  level : s'.level = s.level
  frameC : ∀ d, n + 1 < d → s'.cells d = s.cells d
  frameO : ∀ d, n < d → s'.offsets d = s.offsets d
  ext : Ext n s s'
  cells : s'.cells (n + 1) ++ (if cur'.isValid then [cur'] else []) = s.cells (n + 1) ++
    (if cur.isValid then runsGo (s.offsets n).length cur (es.map Prod.fst)
     else runs (s.offsets n).length (es.map Prod.fst))
  offs : ∃ A : List Nat, closed s' n = s.offsets n ++ A ∧ A.length = es.length + 1 ∧
    A[0]? = some (s.cells n).length ∧
    ∀ j e, es[j]? = some e → ∃ a b, A[j]? = some a ∧ A[j + 1]? = some b ∧
      ∀ L, ExtL n s' L → ∀ p, MemRow L n a b p ↔ GridMem n e.2 p

theorem loop_spec (n : Nat) (rec : Grid n → LCA → LCA)
    (es : List (Int × Grid n))
    (H : ∀ e ∈ es, ∀ s, InitSpec n e.2 s (rec e.2 s)) (s : LCA) (cur : Interval) :
    LoopSpec n es s (es.foldl (initStep n rec) (s, cur)).1 cur (es.foldl (initStep n rec) (s, cur)).2 := by
  induction es generalizing s cur with
  | nil =>
    refine ⟨rfl, fun _ _ => rfl, fun _ _ => rfl, Ext.refl _ _, ?_, ⟨[(s.cells n).length], rfl, rfl, rfl, ?_⟩⟩
    · simp only [List.foldl_nil, List.map_nil, runs, runsGo]
      rfl
    · intro j e he; simp at he
  | cons e es ih =>
    have h1 := initStep_spec n rec s cur e (H e List.mem_cons_self s)
    rw [List.foldl_cons]
    generalize hst : initStep n rec (s, cur) e = st at h1
    obtain ⟨s1, cur1⟩ := st
    simp only [] at h1
    have h2 := ih (fun e he => H e (List.mem_cons_of_mem _ he)) s1 cur1
    generalize es.foldl (initStep n rec) (s1, cur1) = st' at h2
    obtain ⟨s2, cur2⟩ := st'
    simp only [] at h2 ⊢
    have hlen : (s1.offsets n).length = (s.offsets n).length + 1 := by rw [h1.offs]; simp
    refine ⟨h2.level.trans h1.level, fun d hd => (h2.frameC d hd).trans (h1.frameC d hd),
      fun d hd => (h2.frameO d hd).trans (h1.frameO d hd), h1.ext.trans h2.ext, ?_, ?_⟩
    · rw [h2.cells, if_pos h1.valid, hlen]
      have hc := h1.cells
      by_cases hv : cur.isValid = true
      · rw [if_pos hv] at hc ⊢
        rw [List.map_cons, runsGo_cons]
        by_cases hgt : e.1 > cur.stop
        · rw [if_pos hgt] at hc ⊢
          have : s1.cells (n + 1) ++ [cur1] = (s.cells (n + 1) ++ [cur]) ++
              [Interval.mk' e.1 (e.1 + 1) ((s.offsets n).length - e.1)] := by rw [hc]; simp
          obtain ⟨e1, e2⟩ := List.append_inj' this rfl
          simp only [List.cons.injEq, and_true] at e2
          rw [e1, e2]
          simp only [List.append_assoc, List.singleton_append]
        · rw [if_neg hgt] at hc ⊢
          obtain ⟨e1, e2⟩ := List.append_inj' hc rfl
          simp only [List.cons.injEq, and_true] at e2
          rw [e1, e2]
      · rw [if_neg hv] at hc ⊢
        obtain ⟨e1, e2⟩ := List.append_inj' hc rfl
        simp only [List.cons.injEq, and_true] at e2
        rw [e1, e2, List.map_cons]
        rfl
    · obtain ⟨A, hA1, hA2, hA3, hA4⟩ := h2.offs
      refine ⟨(s.cells n).length :: A, ?_, by simp [hA2], rfl, ?_⟩
      · rw [hA1, h1.offs]; simp
      · intro j e' he'
        cases j with
        | zero =>
          simp only [List.getElem?_cons_zero, Option.some.injEq] at he'
          subst he'
          exact ⟨(s.cells n).length, (s1.cells n).length, rfl, by simpa using hA3,
            fun L hL p => h1.mem L (h2.ext.extL hL) p⟩
        | succ j =>
          simp only [List.getElem?_cons_succ] at he' ⊢
          exact hA4 j e' he'

theorem initFromGrid_spec (n : Nat) (g : Grid n) (s : LCA)
    (hwf : GridWF n g) : InitSpec n g s (initFromGrid n g s) := by
  induction n generalizing s with
  | zero =>
    refine ⟨rfl, fun d hd => appendAt_ne _ _ (by omega), fun _ _ => rfl, ⟨fun d hd => ?_, fun d hd => by omega⟩, ?_⟩
    · obtain rfl : d = 0 := by omega
      show s.cells 0 <+: appendAt s.cells 0 g 0
      rw [appendAt_self]; exact List.prefix_append _ _
    · intro L hL p
      have h := hL.cells 0 le_rfl
      have e1 : (initFromGrid 0 g s).cells 0 = s.cells 0 ++ g := by
        show appendAt s.cells 0 g 0 = _
        exact appendAt_self _ _ _
      rw [e1] at h ⊢
      rw [List.length_append]
      match p with
      | [x] =>
        show MemList x (slice (L.cells 0) _ _) ↔ MemList x g
        rw [slice_prefix h]
      | [] => exact Iff.rfl
      | _ :: _ :: _ => exact Iff.rfl
  | succ n ih =>
    have hl := loop_spec n (initFromGrid n) g (fun e he s => ih e.2 s (hwf.2 e he)) s (Interval.mk' 0 0 0)
    unfold initFromGrid
    simp only []
    generalize hst : List.foldl (initStep n (initFromGrid n)) (s, Interval.mk' 0 0 0) g = st at hl
    obtain ⟨s1, cur1⟩ := st
    simp only [] at hl ⊢
    have hc := hl.cells
    rw [if_neg (show ¬ (Interval.mk' 0 0 0).isValid = true by decide)] at hc
    -- the final state
    generalize hs2 : (if cur1.isValid then s1.pushCell (n + 1) cur1 else s1) = s2
    have c1 : s2.cells (n + 1) = s.cells (n + 1) ++ runs (s.offsets n).length (List.map Prod.fst g) := by
      rw [← hc, ← hs2]
      split
      · exact appendAt_self _ _ _
      · simp
    have c2 : ∀ d, d ≠ n + 1 → s2.cells d = s1.cells d := by
      intro d hd
      rw [← hs2]
      split
      · exact appendAt_ne _ _ hd
      · rfl
    have c3 : s2.offsets = s1.offsets := by rw [← hs2]; split <;> rfl
    have c4 : s2.level = s1.level := by rw [← hs2]; split <;> rfl
    obtain ⟨A, hA1, hA2, hA3, hA4⟩ := hl.offs
    have hcl : closed s2 n = closed s1 n := by unfold closed; rw [c2 n (by omega), c3]
    refine ⟨c4.trans hl.level, fun d hd => ?_, fun d hd => ?_, ⟨fun d hd => ?_, fun d hd => ?_⟩, ?_⟩
    · rw [c2 d (by omega)]; exact hl.frameC d hd
    · rw [c3]; exact hl.frameO d hd
    · rcases Nat.lt_or_eq_of_le hd with h | rfl
      · rw [c2 d (by omega)]; exact hl.ext.cells d (by omega)
      · rw [c1]; exact List.prefix_append _ _
    · rcases Nat.lt_or_eq_of_le (Nat.lt_succ_iff.1 hd) with h | rfl
      · have : closed s2 d = closed s1 d := by unfold closed; rw [c2 d (by omega), c3]
        rw [this]; exact hl.ext.offs d h
      · rw [hcl, hA1]
        unfold closed
        rw [List.prefix_append_right_inj]
        cases A with
        | nil => simp at hA3
        | cons a A =>
          simp only [List.getElem?_cons_zero, Option.some.injEq] at hA3
          rw [hA3]
          exact ⟨A, rfl⟩
    · intro L hL p
      have hslice : slice (L.cells (n + 1)) (s.cells (n + 1)).length (s2.cells (n + 1)).length
          = runs (s.offsets n).length (List.map Prod.fst g) := by
        have h := hL.cells (n + 1) le_rfl
        rw [c1] at h ⊢
        rw [List.length_append]
        exact slice_prefix h
      have hoff : s.offsets n ++ A <+: L.offsets n := by
        rw [← hA1, ← hcl]; exact hL.offs n (by omega)
      have hgetA : ∀ j a, A[j]? = some a → (L.offsets n)[(s.offsets n).length + j]? = some a := by
        intro j a hj
        refine prefix_getElem? hoff ?_
        rw [List.getElem?_append_right (by omega)]
        simpa using hj
      have hL1 : ExtL n s1 L := by
        refine ⟨fun d hd => ?_, fun d hd => ?_⟩
        · rw [← c2 d (by omega)]; exact hL.cells d (by omega)
        · have : closed s2 d = closed s1 d := by unfold closed; rw [c2 d (by omega), c3]
          rw [← this]; exact hL.offs d (by omega)
      obtain ⟨r1, r2, r3, r4, r5⟩ := runs_spec (s.offsets n).length hwf.1
      match p with
      | [] => exact Iff.rfl
      | c :: p =>
        simp only [MemRow, GridMem]
        rw [hslice]
        constructor
        · rintro ⟨i, hi, hci, h0, a, b, ha, hb, hm⟩
          obtain ⟨j, hj1, hj2⟩ := r3 i hi c hci
          rw [List.getElem?_map] at hj1
          obtain ⟨e, he, rfl⟩ := Option.map_eq_some_iff.1 hj1
          obtain ⟨a', b', ha', hb', hm'⟩ := hA4 j e he
          have hidx : (i.index + e.1).toNat = (s.offsets n).length + j := by omega
          rw [hidx] at ha hb
          rw [hgetA j a' ha'] at ha
          rw [show (s.offsets n).length + j + 1 = (s.offsets n).length + (j + 1) by omega,
            hgetA (j + 1) b' hb'] at hb
          cases ha; cases hb
          exact ⟨e, List.mem_of_getElem? he, rfl, (hm' L hL1 p).1 hm⟩
        · rintro ⟨e, he, rfl, hm⟩
          obtain ⟨i, hi, hci⟩ := (r2 e.1).2 (List.mem_map_of_mem he)
          obtain ⟨j, hj1, hj2⟩ := r3 i hi e.1 hci
          rw [List.getElem?_map] at hj1
          obtain ⟨e', he', hee⟩ := Option.map_eq_some_iff.1 hj1
          have : e' = e := by
            have hp := hwf.1
            rw [List.pairwise_map] at hp
            exact pairwise_fst_inj hp (List.mem_of_getElem? he') he hee
          subst this
          obtain ⟨a', b', ha', hb', hm'⟩ := hA4 j e' he'
          have hidx : (i.index + e'.1).toNat = (s.offsets n).length + j := by omega
          refine ⟨i, hi, hci, by omega, a', b', ?_, ?_, (hm' L hL1 p).2 hm⟩
          · rw [hidx]; exact hgetA j a' ha'
          · rw [hidx]; exact hgetA (j + 1) b' hb'

/-! ### well-formedness of the result -/

theorem indexFrom_append {a : Int} {l m : List Interval} :
    IndexFrom a (l ++ m) ↔ IndexFrom a l ∧ IndexFrom (a + totalSize l) m := by
  induction l generalizing a with
  | nil => simp [IndexFrom, totalSize]
  | cons i l ih =>
    simp only [List.cons_append, IndexFrom, ih, and_assoc]
    have : a + ↑i.size + ↑(totalSize l) = a + ↑(totalSize (i :: l)) := by
      simp [totalSize]; omega
    rw [this]

theorem totalSize_append (l m : List Interval) : totalSize (l ++ m) = totalSize l + totalSize m := by
  simp [totalSize]

/-- Partially built storage, directions below `n`. -/
structure PWF (n : Nat) (s : LCA) : Prop where
  index : ∀ d < n, IndexFrom 0 (s.cells (d + 1))
  count : ∀ d < n, (s.offsets d).length = totalSize (s.cells (d + 1))
  seg : ∀ d < n, SegOK (s.cells d) (closed s d)

theorem PWF.congr {n : Nat} {s s' : LCA} (h : PWF n s) (hc : ∀ d ≤ n, s'.cells d = s.cells d)
    (ho : ∀ d < n, s'.offsets d = s.offsets d) : PWF n s' :=
  ⟨fun d hd => by rw [hc _ hd]; exact h.index d hd,
   fun d hd => by rw [hc _ hd, ho d hd]; exact h.count d hd,
   fun d hd => by unfold closed; rw [hc d hd.le, ho d hd]; exact h.seg d hd⟩

theorem SegOK.extend {c r : List Interval} {o : List Nat} (h : SegOK c (o ++ [c.length]))
    (hr : r ≠ []) (hc : Canonical r) : SegOK (c ++ r) ((o ++ [c.length]) ++ [(c ++ r).length]) := by
  obtain ⟨h0, h1⟩ := h
  have hpos : 0 < r.length := List.length_pos_iff.2 hr
  refine ⟨?_, ?_⟩
  · rw [List.getElem?_append_left (by simp)]; exact h0
  · intro j a b ha hb
    by_cases hj : j + 1 < (o ++ [c.length]).length
    · rw [List.getElem?_append_left (by omega)] at ha
      rw [List.getElem?_append_left hj] at hb
      obtain ⟨h2, h3, h4⟩ := h1 j a b ha hb
      refine ⟨h2, by simp; omega, ?_⟩
      rw [slice_of_prefix (List.prefix_append _ _) h3]
      exact h4
    · have hlen := (List.getElem?_eq_some_iff.1 hb).1
      simp only [List.length_append, List.length_singleton] at hj hlen
      have hj' : j = o.length := by omega
      subst hj'
      have ha' : a = c.length := by
        rw [List.getElem?_append_left (by simp)] at ha
        simpa [eq_comm] using ha
      have hb' : b = (c ++ r).length := by
        rw [List.getElem?_append_right (by simp)] at hb
        simpa [eq_comm] using hb
      subst ha'; subst hb'
      refine ⟨by simp; omega, le_rfl, ?_⟩
      rw [List.length_append, slice_prefix List.prefix_rfl]
      exact hc

/-- What `initFromGrid` does to a partially built storage. -/
def InitWF (n : Nat) (s s' : LCA) : Prop :=
  PWF n s → PWF n s' ∧ ∃ r, s'.cells n = s.cells n ++ r ∧ r ≠ [] ∧ Canonical r

theorem initStep_wf (n : Nat) (rec : Grid n → LCA → LCA) (s : LCA) (cur : Interval) (e : Int × Grid n)
    (h : InitSpec n e.2 s (rec e.2 s)) (hw : InitWF n s (rec e.2 s)) (hp : PWF n s)
    (hs : SegOK (s.cells n) (closed s n)) :
    PWF n (initStep n rec (s, cur) e).1 ∧
      SegOK ((initStep n rec (s, cur) e).1.cells n) (closed (initStep n rec (s, cur) e).1 n) := by
  obtain ⟨h1, r, h2, h3, h4⟩ := hw hp
  have hss := initStep_spec n rec s cur e h
  have key : ∀ d ≤ n, (initStep n rec (s, cur) e).1.cells d = (rec e.2 s).cells d := by
    intro d hd
    unfold initStep
    simp only []
    show LCA.cells (Prod.fst _) d = _
    by_cases hv : cur.isValid = true
    · rw [if_pos hv]
      by_cases hgt : e.1 > cur.stop
      · rw [if_pos hgt]; exact appendAt_ne _ _ (by omega)
      · rw [if_neg hgt]
    · rw [if_neg hv]
  have key2 : ∀ d < n, (initStep n rec (s, cur) e).1.offsets d = (rec e.2 s).offsets d := by
    intro d hd
    have : (initStep n rec (s, cur) e).1.offsets d = appendAt (rec e.2 s).offsets n [(s.cells n).length] d := by
      unfold initStep
      simp only []
      by_cases hv : cur.isValid = true
      · rw [if_pos hv]
        by_cases hgt : e.1 > cur.stop
        · rw [if_pos hgt]; rfl
        · rw [if_neg hgt]; rfl
      · rw [if_neg hv]; rfl
    rw [this, appendAt_ne _ _ (by omega)]
  refine ⟨h1.congr key key2, ?_⟩
  have := hs.extend h3 h4
  unfold closed
  rw [hss.offs, key n le_rfl, h2]
  exact this

theorem loop_wf (n : Nat) (rec : Grid n → LCA → LCA) (es : List (Int × Grid n))
    (H : ∀ e ∈ es, ∀ s, InitSpec n e.2 s (rec e.2 s) ∧ InitWF n s (rec e.2 s)) (s : LCA) (cur : Interval)
    (hp : PWF n s) (hs : SegOK (s.cells n) (closed s n)) :
    PWF n (es.foldl (initStep n rec) (s, cur)).1 ∧
      SegOK ((es.foldl (initStep n rec) (s, cur)).1.cells n)
        (closed (es.foldl (initStep n rec) (s, cur)).1 n) := by
  induction es generalizing s cur with
  | nil => exact ⟨hp, hs⟩
  | cons e es ih =>
    have he := H e List.mem_cons_self s
    obtain ⟨h1, h2⟩ := initStep_wf n rec s cur e he.1 he.2 hp hs
    rw [List.foldl_cons]
    exact ih (fun e he => H e (List.mem_cons_of_mem _ he)) _ _ h1 h2

theorem initFromGrid_wf (n : Nat) (g : Grid n) (s : LCA) (hwf : GridWF n g) (hf : GridFull n g)
    (hseg : ∀ d < n, SegOK (s.cells d) (closed s d)) : InitWF n s (initFromGrid n g s) := by
  induction n generalizing s with
  | zero =>
    intro _
    refine ⟨⟨fun d hd => by omega, fun d hd => by omega, fun d hd => by omega⟩, g, ?_, hf, hwf⟩
    show appendAt s.cells 0 g 0 = _
    exact appendAt_self _ _ _
  | succ n ih =>
    intro hp
    have hp' : PWF n s := ⟨fun d hd => hp.index d (by omega), fun d hd => hp.count d (by omega),
      fun d hd => hp.seg d (by omega)⟩
    have H : ∀ e ∈ (g : List (Int × Grid n)), ∀ s, InitSpec n e.2 s (initFromGrid n e.2 s) ∧
        InitWF n s (initFromGrid n e.2 s) := fun e he s =>
      ⟨initFromGrid_spec n e.2 s (hwf.2 e he), fun hps => ih e.2 s (hwf.2 e he) (hf.2 e he) hps.seg hps⟩
    have hl := loop_spec n (initFromGrid n) g (fun e he s => (H e he s).1) s (Interval.mk' 0 0 0)
    have hw := loop_wf n (initFromGrid n) g H s (Interval.mk' 0 0 0) hp' (hp.seg n (by omega))
    unfold initFromGrid
    simp only []
    generalize hst : List.foldl (initStep n (initFromGrid n)) (s, Interval.mk' 0 0 0) g = st at hl hw
    obtain ⟨s1, cur1⟩ := st
    simp only [] at hl hw ⊢
    have hc := hl.cells
    rw [if_neg (show ¬ (Interval.mk' 0 0 0).isValid = true by decide)] at hc
    generalize hs2 : (if cur1.isValid then s1.pushCell (n + 1) cur1 else s1) = s2
    have c1 : s2.cells (n + 1) = s.cells (n + 1) ++ runs (s.offsets n).length (List.map Prod.fst g) := by
      rw [← hc, ← hs2]
      split
      · exact appendAt_self _ _ _
      · simp
    have c2 : ∀ d, d ≠ n + 1 → s2.cells d = s1.cells d := by
      intro d hd
      rw [← hs2]
      split
      · exact appendAt_ne _ _ hd
      · rfl
    have c3 : s2.offsets = s1.offsets := by rw [← hs2]; split <;> rfl
    obtain ⟨r1, r2, r3, r4, r5⟩ := runs_spec (s.offsets n).length hwf.1
    have hcount := hp.count n (by omega)
    have hp2 : PWF n s2 := hw.1.congr (fun d hd => c2 d (by omega)) (fun d hd => by rw [c3])
    refine ⟨⟨fun d hd => ?_, fun d hd => ?_, fun d hd => ?_⟩, _, c1, ?_, r1⟩
    · rcases Nat.lt_or_eq_of_le (Nat.lt_succ_iff.1 hd) with h | rfl
      · exact hp2.index d h
      · rw [c1, indexFrom_append]
        refine ⟨hp.index d hd, ?_⟩
        rw [zero_add, ← hcount]; exact r4
    · rcases Nat.lt_or_eq_of_le (Nat.lt_succ_iff.1 hd) with h | rfl
      · exact hp2.count d h
      · rw [c1, totalSize_append, r5, ← hcount, c3]
        obtain ⟨A, hA1, hA2, -, -⟩ := hl.offs
        have := congrArg List.length hA1
        unfold closed at this
        rw [List.length_append, List.length_append, hA2] at this
        simp at this ⊢
        omega
    · rcases Nat.lt_or_eq_of_le (Nat.lt_succ_iff.1 hd) with h | rfl
      · exact hp2.seg d h
      · have : closed s2 d = closed s1 d := by unfold closed; rw [c2 d (by omega), c3]
        rw [this, c2 d (by omega)]
        exact hw.2
    · apply runs_ne_nil
      have := hf.1
      simpa using this

/-! ### closing the offsets -/

theorem closeOffsets_cells (s : LCA) (n : Nat) : (s.closeOffsets n).cells = s.cells := by
  induction n with
  | zero => rfl
  | succ n ih => exact ih

theorem closeOffsets_level (s : LCA) (n : Nat) : (s.closeOffsets n).level = s.level := by
  induction n with
  | zero => rfl
  | succ n ih => exact ih

theorem closeOffsets_offsets (s : LCA) (n d : Nat) :
    (s.closeOffsets n).offsets d = if d < n then closed s d else s.offsets d := by
  induction n with
  | zero => rfl
  | succ n ih =>
    show appendAt (s.closeOffsets n).offsets n [(s.cells n).length] d = _
    by_cases h : d = n
    · subst h
      rw [appendAt_self, ih]
      simp [closed]
    · rw [appendAt_ne _ _ h, ih]
      by_cases h2 : d < n
      · rw [if_pos h2, if_pos (by omega)]
      · rw [if_neg h2, if_neg (by omega)]

theorem canonical_nil : Canonical [] := trivial

/-- A grid without empty rows gives a well-formed array holding its points. -/
theorem ofList_wf {n : Nat} (c : LCL n) (hwf : GridWF n c.grid)
    (hf : GridFull n c.grid ∨ c.isEmpty = true) : (LCA.ofList c).WF n := by
  unfold LCA.ofList
  by_cases he : c.isEmpty = true
  · simp only [he, if_true]
    exact ⟨trivial, fun _ => ⟨fun _ _ => rfl, fun _ _ => rfl⟩, fun _ _ => trivial,
      fun _ _ h => absurd rfl h, fun _ _ h => absurd rfl h, fun _ _ h => absurd rfl h⟩
  · have hf := hf.resolve_right he
    simp only []
    rw [if_neg he]
    have hp0 : PWF n ({ level := c.level } : LCA) := by
      refine ⟨fun _ _ => trivial, fun _ _ => rfl, fun d hd => ⟨rfl, ?_⟩⟩
      intro j a b ha hb
      simp [closed] at hb
    obtain ⟨h1, r, h2, h3, h4⟩ := initFromGrid_wf n c.grid { level := c.level } hwf hf hp0.seg hp0
    generalize initFromGrid n c.grid { level := c.level } = s at h1 h2
    have hcn : s.cells n = r := by rw [h2]; rfl
    have hoff : ∀ d < n, (s.closeOffsets n).offsets d = closed s d := by
      intro d hd; rw [closeOffsets_offsets, if_pos hd]
    refine ⟨?_, ?_, ?_, ?_, ?_, ?_⟩
    · rw [closeOffsets_cells, hcn]; exact h4
    · rw [closeOffsets_cells, hcn]; exact fun h => absurd h h3
    · intro d hd; rw [closeOffsets_cells]; exact h1.index d hd
    · intro d hd _
      rw [closeOffsets_cells, hoff d hd, ← h1.count d hd]
      simp [closed]
    · intro d hd _
      rw [closeOffsets_cells, hoff d hd]
      simp [closed]
    · intro d hd _
      rw [closeOffsets_cells, hoff d hd]
      exact h1.seg d hd

theorem gridMem_empty {n : Nat} {g : Grid n} (h : Grid.isEmpty n g = true) (p : List Int) : ¬ GridMem n g p := by
  intro hm
  match n, g, p, hm with
  | 0, g, [x], hm =>
    have : (g : List Interval) = [] := List.isEmpty_iff.1 h
    subst this
    simp [GridMem] at hm
  | n + 1, g, k :: p, hm =>
    have : (g : List (Int × Grid n)) = [] := List.isEmpty_iff.1 h
    subst this
    simp [GridMem] at hm

theorem memRow_nil (L : LCA) (n lo hi : Nat) (h : ∀ d, L.cells d = []) (p : List Int) :
    ¬ MemRow L n lo hi p := by
  intro hm
  match n, p, hm with
  | 0, [x], hm => simp [MemRow, slice, h] at hm
  | n + 1, k :: p, hm => simp [MemRow, slice, h] at hm

theorem ofList_mem {n : Nat} (c : LCL n) (hwf : GridWF n c.grid) (p : List Int) :
    (LCA.ofList c).Mem n p ↔ GridMem n c.grid p := by
  unfold LCA.ofList LCA.Mem
  by_cases he : c.isEmpty = true
  · simp only [he, if_true]
    have h2 := gridMem_empty he p
    simp only [h2, iff_false]
    exact memRow_nil _ _ _ _ (fun _ => rfl) p
  · simp only []
    rw [if_neg he]
    have h := initFromGrid_spec n c.grid { level := c.level } hwf
    have := h.mem ((initFromGrid n c.grid { level := c.level }).closeOffsets n)
      ⟨fun d hd => by rw [closeOffsets_cells]; exact List.prefix_rfl,
       fun d hd => by rw [closeOffsets_offsets, if_pos hd]; exact List.prefix_rfl⟩ p
    rw [closeOffsets_cells]
    exact this

/-! ### filling a grid -/

theorem mapUpsert_keys {α : Type} {k : Int} {dflt : α} {f : α → α} {l : List (Int × α)}
    (h : l.Pairwise fun a b => a.1 < b.1) :
    ((mapUpsert k dflt f l).Pairwise fun a b => a.1 < b.1) ∧
      (∀ b : Int, b < k → (∀ e ∈ l, b < e.1) → ∀ e ∈ mapUpsert k dflt f l, b < e.1) := by
  induction l with
  | nil => simp [mapUpsert]
  | cons e tl ih =>
    obtain ⟨h1, h2⟩ := List.pairwise_cons.1 h
    obtain ⟨ih1, ih2⟩ := ih h2
    unfold mapUpsert
    split
    · rename_i hlt
      refine ⟨List.pairwise_cons.2 ⟨?_, h⟩, ?_⟩
      · intro b hb
        rcases List.mem_cons.1 hb with rfl | hb
        · exact hlt
        · have := h1 b hb; simp only [] at *; omega
      · intro b hb hall e' he'
        rcases List.mem_cons.1 he' with rfl | he'
        · exact hb
        · exact hall e' he'
    · split
      · refine ⟨List.pairwise_cons.2 ⟨h1, h2⟩, ?_⟩
        intro b hb hall e' he'
        rcases List.mem_cons.1 he' with rfl | he'
        · exact hall e List.mem_cons_self
        · exact hall e' (List.mem_cons_of_mem _ he')
      · refine ⟨List.pairwise_cons.2 ⟨ih2 e.1 (by omega) h1, ih1⟩, ?_⟩
        intro b hb hall e' he'
        rcases List.mem_cons.1 he' with rfl | he'
        · exact hall _ List.mem_cons_self
        · exact ih2 b hb (fun e he => hall e (List.mem_cons_of_mem _ he)) e' he'

theorem mapUpsert_mem {α : Type} {k : Int} {dflt : α} {f : α → α} {l : List (Int × α)}
    (h : l.Pairwise fun a b => a.1 < b.1) (e : Int × α) :
    e ∈ mapUpsert k dflt f l ↔
      (e.1 ≠ k ∧ e ∈ l) ∨
      (e.1 = k ∧ ((∃ a, (k, a) ∈ l ∧ e.2 = f a) ∨ ((∀ e' ∈ l, e'.1 ≠ k) ∧ e.2 = f dflt))) := by
  induction l with
  | nil =>
    simp only [mapUpsert, List.mem_singleton, List.not_mem_nil, and_false, false_and, exists_false,
      false_or, IsEmpty.forall_iff, implies_true, true_and]
    constructor
    · rintro rfl; exact ⟨rfl, rfl⟩
    · rintro ⟨rfl, h⟩; ext <;> simp [h]
  | cons c tl ih =>
    obtain ⟨h1, h2⟩ := List.pairwise_cons.1 h
    have ih := ih h2
    unfold mapUpsert
    split
    · rename_i hlt
      have hno : ∀ e' ∈ c :: tl, e'.1 ≠ k := by
        intro e' he'
        rcases List.mem_cons.1 he' with rfl | he'
        · omega
        · have := h1 e' he'; omega
      constructor
      · intro he
        rcases List.mem_cons.1 he with rfl | he
        · exact Or.inr ⟨rfl, Or.inr ⟨hno, rfl⟩⟩
        · exact Or.inl ⟨hno e he, he⟩
      · rintro (⟨_, he⟩ | ⟨he1, ⟨a, ha, _⟩ | ⟨_, he2⟩⟩)
        · exact List.mem_cons_of_mem _ he
        · exact absurd rfl (hno _ ha)
        · have : e = (k, f dflt) := by ext <;> simp [he1, he2]
          rw [this]; exact List.mem_cons_self
    · split
      · rename_i hlt heq
        constructor
        · intro he
          rcases List.mem_cons.1 he with rfl | he
          · exact Or.inr ⟨heq.symm, Or.inl ⟨c.2, by rw [heq]; exact List.mem_cons_self, rfl⟩⟩
          · exact Or.inl ⟨by have := h1 e he; omega, List.mem_cons_of_mem _ he⟩
        · rintro (⟨hne, he⟩ | ⟨he1, ⟨a, ha, hf⟩ | ⟨hno, he2⟩⟩)
          · rcases List.mem_cons.1 he with rfl | he
            · exact absurd heq.symm hne
            · exact List.mem_cons_of_mem _ he
          · rcases List.mem_cons.1 ha with hac | ha
            · have : e = (c.1, f c.2) := by
                rw [← hac]; ext <;> simp [he1, hf]
              rw [this]; exact List.mem_cons_self
            · have := h1 _ ha; simp only [] at this; omega
          · exact absurd heq.symm (hno c List.mem_cons_self)
      · rename_i hlt heq
        rw [List.mem_cons, ih]
        constructor
        · rintro (rfl | ⟨hne, he⟩ | ⟨he1, ⟨a, ha, hf⟩ | ⟨hno, he2⟩⟩)
          · exact Or.inl ⟨fun h => heq h.symm, List.mem_cons_self⟩
          · exact Or.inl ⟨hne, List.mem_cons_of_mem _ he⟩
          · exact Or.inr ⟨he1, Or.inl ⟨a, List.mem_cons_of_mem _ ha, hf⟩⟩
          · refine Or.inr ⟨he1, Or.inr ⟨?_, he2⟩⟩
            intro e' he'
            rcases List.mem_cons.1 he' with rfl | he'
            · exact fun h => heq h.symm
            · exact hno e' he'
        · rintro (⟨hne, he⟩ | ⟨he1, ⟨a, ha, hf⟩ | ⟨hno, he2⟩⟩)
          · rcases List.mem_cons.1 he with rfl | he
            · exact Or.inl rfl
            · exact Or.inr (Or.inl ⟨hne, he⟩)
          · rcases List.mem_cons.1 ha with hac | ha
            · exact absurd (by rw [← hac]) heq
            · exact Or.inr (Or.inr ⟨he1, Or.inl ⟨a, ha, hf⟩⟩)
          · exact Or.inr (Or.inr ⟨he1, Or.inr ⟨fun e' he' => hno e' (List.mem_cons_of_mem _ he'), he2⟩⟩)

theorem gridWF_empty (n : Nat) : GridWF n (Grid.empty n) := by
  cases n with
  | zero => trivial
  | succ n => exact ⟨List.Pairwise.nil, by simp [Grid.empty]⟩

theorem gridMem_emptyGrid (n : Nat) (p : List Int) : ¬ GridMem n (Grid.empty n) p := by
  apply gridMem_empty
  cases n <;> rfl

/-- Modifying a row by a function that keeps lists canonical and adds the integers of `P`. -/
theorem gridModify_spec {n : Nat} {f : List Interval → List Interval} {P : Int → Prop}
    (hf : ∀ l, Canonical l → Canonical (f l) ∧ ∀ x, MemList x (f l) ↔ P x ∨ MemList x l)
    {idx : List Int} (hi : idx.length = n) {g : Grid n} (hg : GridWF n g) :
    GridWF n (g.modify n f idx) ∧
      ∀ p, GridMem n (g.modify n f idx) p ↔ (∃ x, P x ∧ p = idx ++ [x]) ∨ GridMem n g p := by
  induction n generalizing idx with
  | zero =>
    obtain rfl := List.length_eq_zero_iff.1 hi
    have := hf g hg
    refine ⟨this.1, fun p => ?_⟩
    match p with
    | [] => simp [GridMem]
    | [x] => simpa [GridMem, Grid.modify] using this.2 x
    | _ :: _ :: _ => simp [GridMem]
  | succ n ih =>
    match idx, hi with
    | k :: idx, hi =>
      have hi' : idx.length = n := by simpa using hi
      have hg1 : (g : List (Int × Grid n)).Pairwise fun a b => a.1 < b.1 := by
        have := hg.1
        rwa [List.pairwise_map] at this
      refine ⟨⟨?_, ?_⟩, ?_⟩
      · rw [List.pairwise_map]
        exact (mapUpsert_keys hg1).1
      · intro e he
        rcases (mapUpsert_mem hg1 e).1 he with ⟨_, he⟩ | ⟨_, ⟨a, ha, he⟩ | ⟨_, he⟩⟩
        · exact hg.2 e he
        · rw [he]; exact (ih hi' (hg.2 _ ha)).1
        · rw [he]; exact (ih hi' (gridWF_empty n)).1
      · intro p
        match p with
        | [] => simp [GridMem]
        | c :: p =>
          show (∃ e ∈ mapUpsert k (Grid.empty n) (Grid.modify n f idx) g, e.1 = c ∧ GridMem n e.2 p) ↔
            (∃ x, P x ∧ c :: p = k :: idx ++ [x]) ∨ (∃ e ∈ (g : List (Int × Grid n)), e.1 = c ∧ GridMem n e.2 p)
          constructor
          · rintro ⟨e, he, rfl, hm⟩
            rcases (mapUpsert_mem hg1 e).1 he with ⟨_, he⟩ | ⟨he1, ⟨a, ha, he⟩ | ⟨_, he⟩⟩
            · exact Or.inr ⟨e, he, rfl, hm⟩
            · rw [he] at hm
              rcases ((ih hi' (hg.2 _ ha)).2 p).1 hm with ⟨x, hx, rfl⟩ | hm
              · exact Or.inl ⟨x, hx, by rw [he1]; rfl⟩
              · exact Or.inr ⟨(k, a), ha, he1.symm, hm⟩
            · rw [he] at hm
              rcases ((ih hi' (gridWF_empty n)).2 p).1 hm with ⟨x, hx, rfl⟩ | hm
              · exact Or.inl ⟨x, hx, by rw [he1]; rfl⟩
              · exact absurd hm (gridMem_emptyGrid n p)
          · rintro (⟨x, hx, hp⟩ | ⟨e, he, rfl, hm⟩)
            · simp only [List.cons_append, List.cons.injEq] at hp
              obtain ⟨rfl, rfl⟩ := hp
              by_cases hex : ∃ a, (c, a) ∈ (g : List (Int × Grid n))
              · obtain ⟨a, ha⟩ := hex
                exact ⟨(c, a.modify n f idx), (mapUpsert_mem hg1 _).2 (Or.inr ⟨rfl, Or.inl ⟨a, ha, rfl⟩⟩), rfl,
                  ((ih hi' (hg.2 _ ha)).2 _).2 (Or.inl ⟨x, hx, rfl⟩)⟩
              · refine ⟨(c, (Grid.empty n).modify n f idx), (mapUpsert_mem hg1 _).2
                  (Or.inr ⟨rfl, Or.inr ⟨?_, rfl⟩⟩), rfl, ((ih hi' (gridWF_empty n)).2 _).2 (Or.inl ⟨x, hx, rfl⟩)⟩
                intro e' he' hc
                exact hex ⟨e'.2, by rw [← hc]; exact he'⟩
            · by_cases hek : e.1 = k
              · refine ⟨(e.1, e.2.modify n f idx), (mapUpsert_mem hg1 _).2
                  (Or.inr ⟨hek, Or.inl ⟨e.2, by rw [← hek]; exact he, rfl⟩⟩), rfl, ?_⟩
                exact ((ih hi' (hg.2 _ he)).2 _).2 (Or.inr hm)
              · exact ⟨e, (mapUpsert_mem hg1 e).2 (Or.inl ⟨hek, he⟩), rfl, hm⟩

theorem mapUpsert_ne_nil {α : Type} {k : Int} {dflt : α} {f : α → α} {l : List (Int × α)} :
    mapUpsert k dflt f l ≠ [] := by
  cases l with
  | nil => simp [mapUpsert]
  | cons e tl =>
    unfold mapUpsert
    split
    · simp
    · split <;> simp

/-- Full or empty is kept by modifications that leave non-empty rows. -/
theorem gridModify_full {n : Nat} {f : List Interval → List Interval} (hf : ∀ l, f l ≠ [])
    {idx : List Int} (hi : idx.length = n) {g : Grid n} (hw : GridWF n g)
    (hg : GridFull n g ∨ Grid.isEmpty n g = true) : GridFull n (g.modify n f idx) := by
  induction n generalizing idx with
  | zero => exact hf g
  | succ n ih =>
    match idx, hi with
    | k :: idx, hi =>
      have hi' : idx.length = n := by simpa using hi
      have hg1 : (g : List (Int × Grid n)).Pairwise fun a b => a.1 < b.1 := by
        have := hw.1
        rwa [List.pairwise_map] at this
      refine ⟨mapUpsert_ne_nil, ?_⟩
      intro e he
      have hfull : ∀ e ∈ (g : List (Int × Grid n)), GridFull n e.2 := by
        rcases hg with hg | hg
        · exact hg.2
        · have : (g : List (Int × Grid n)) = [] := List.isEmpty_iff.1 hg
          rw [this]; simp
      rcases (mapUpsert_mem hg1 e).1 he with ⟨_, he⟩ | ⟨_, ⟨a, ha, he⟩ | ⟨_, he⟩⟩
      · exact hfull e he
      · rw [he]; exact ih hi' (hw.2 _ ha) (Or.inl (hfull _ ha))
      · rw [he]; exact ih hi' (gridWF_empty n) (Or.inr (by cases n <;> rfl))

end Samurai

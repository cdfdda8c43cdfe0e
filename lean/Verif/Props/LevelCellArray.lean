import Verif.Lemmas.GridUnique

namespace Samurai

/-- The cells a call asks to add (points are outermost coordinate first). -/
def CellCall.Adds : CellCall → List Int → Prop
  | .interval idx i, p => ∃ x, i.start ≤ x ∧ x < i.stop ∧ p = idx ++ [x]
  | .cell idx x, p => p = idx ++ [x]
  | .touch _, _ => False

/-- A call that really adds something: not a mere access, not an invalid interval. -/
def CellCall.Valid : CellCall → Prop
  | .interval _ i => i.start < i.stop
  | .cell _ _ => True
  | .touch _ => False

/-- The interval of the call carries the default step and index. -/
def CellCall.PlainCall : CellCall → Prop
  | .interval _ i => i.step = 1 ∧ i.index = 0
  | _ => True

theorem CellCall.run_spec {n : Nat} (c : CellCall) (hi : c.idx.length = n) (l : LCL n)
    (hw : GridWF n l.grid) :
    GridWF n (c.run l).grid ∧ ∀ p, GridMem n (c.run l).grid p ↔ c.Adds p ∨ GridMem n l.grid p := by
  cases c with
  | interval idx i =>
    have := gridModify_spec (n := n) (f := fun l => addInterval l i) (P := fun x => x ∈ i)
      (fun l hl => addInterval_canonical hl) hi hw
    refine ⟨this.1, fun p => (this.2 p).trans (or_congr_left ?_)⟩
    simp only [Adds, Interval.mem_def, and_assoc, CellCall.idx]
  | cell idx x =>
    have := gridModify_spec (n := n) (f := fun l => addPoint l x) (P := fun y => y = x)
      (fun l hl => ⟨(addInterval_canonical hl).1, fun y => ((addInterval_canonical hl).2 y).trans
        (or_congr_left (by simp only [Interval.mem_def, Interval.mk']; omega))⟩) hi hw
    refine ⟨this.1, fun p => (this.2 p).trans (or_congr_left ?_)⟩
    simp [Adds, CellCall.idx]
  | touch idx =>
    have := gridModify_spec (n := n) (f := id) (P := fun _ => False)
      (fun l hl => ⟨hl, fun y => by simp⟩) hi hw
    refine ⟨this.1, fun p => (this.2 p).trans (or_congr_left ?_)⟩
    simp [Adds, CellCall.idx]

theorem CellCall.run_full {n : Nat} (c : CellCall) (hi : c.idx.length = n) (hv : c.Valid) (l : LCL n)
    (hw : GridWF n l.grid) (hf : GridFull n l.grid ∨ Grid.isEmpty n l.grid = true) :
    GridFull n (c.run l).grid := by
  cases c with
  | interval idx i =>
    refine gridModify_full (fun l => ?_) hi hw hf
    have : i.isValid = true := decide_eq_true hv
    show addInterval l i ≠ []
    unfold addInterval
    rw [if_pos this]
    exact insertValid_ne_nil _ _
  | cell idx x =>
    refine gridModify_full (fun l => ?_) hi hw hf
    show addPoint l x ≠ []
    unfold addPoint addInterval
    rw [if_pos (by simp [Interval.isValid, Interval.mk'])]
    exact insertValid_ne_nil _ _
  | touch idx => exact hv.elim

theorem CellCall.run_plain {n : Nat} (c : CellCall) (hv : c.PlainCall) (l : LCL n)
    (hw : GridWF n l.grid) (hf : GridPlain n l.grid) : GridPlain n (c.run l).grid := by
  cases c with
  | interval idx i => exact gridModify_plain (fun l hl => addInterval_plain hv hl) hw hf
  | cell idx x => exact gridModify_plain (fun l hl => addInterval_plain ⟨rfl, rfl⟩ hl) hw hf
  | touch idx => exact gridModify_plain (fun l hl => hl) hw hf

/-- Everything that is known of the list after a history. -/
theorem runCellCalls_spec (n level : Nat) (h : List CellCall) (hi : ∀ c ∈ h, c.idx.length = n) :
    GridWF n (runCellCalls n level h).grid ∧
    (∀ p, GridMem n (runCellCalls n level h).grid p ↔ ∃ c ∈ h, c.Adds p) ∧
    ((∀ c ∈ h, c.Valid) → GridFull n (runCellCalls n level h).grid ∨ (runCellCalls n level h).isEmpty = true) ∧
    ((∀ c ∈ h, c.PlainCall) → GridPlain n (runCellCalls n level h).grid) ∧
    (runCellCalls n level h).level = level := by
  suffices H : ∀ l : LCL n, GridWF n l.grid →
      GridWF n (h.foldl CellCall.run l).grid ∧
      (∀ p, GridMem n (h.foldl CellCall.run l).grid p ↔ (GridMem n l.grid p ∨ ∃ c ∈ h, c.Adds p)) ∧
      ((∀ c ∈ h, c.Valid) → (GridFull n l.grid ∨ l.isEmpty = true) →
        GridFull n (h.foldl CellCall.run l).grid ∨ (h.foldl CellCall.run l).isEmpty = true) ∧
      ((∀ c ∈ h, c.PlainCall) → GridPlain n l.grid → GridPlain n (h.foldl CellCall.run l).grid) ∧
      (h.foldl CellCall.run l).level = l.level by
    obtain ⟨h1, h2, h3, h4, h5⟩ := H (LCL.new n level) (gridWF_empty n)
    refine ⟨h1, fun p => (h2 p).trans ?_, fun hv => h3 hv (Or.inr (by cases n <;> rfl)),
      fun hp => h4 hp (gridPlain_empty n), h5⟩
    have := gridMem_emptyGrid n p
    simp [LCL.new, this]
  induction h with
  | nil => intro l hl; exact ⟨hl, by simp, fun _ h => h, fun _ h => h, rfl⟩
  | cons c h ih =>
    intro l hl
    obtain ⟨c1, c2⟩ := c.run_spec (hi c List.mem_cons_self) l hl
    obtain ⟨h1, h2, h3, h4, h5⟩ := ih (fun c hc => hi c (List.mem_cons_of_mem _ hc)) _ c1
    refine ⟨h1, fun p => ?_, fun hv hf => ?_, fun hp hl' => ?_, ?_⟩
    · rw [List.foldl_cons, h2, c2]
      simp only [List.mem_cons, exists_eq_or_imp]
      tauto
    · exact h3 (fun c hc => hv c (List.mem_cons_of_mem _ hc))
        (Or.inl (c.run_full (hi c List.mem_cons_self) (hv c List.mem_cons_self) l hl hf))
    · exact h4 (fun c hc => hp c (List.mem_cons_of_mem _ hc)) (c.run_plain (hp c List.mem_cons_self) l hl hl')
    · rw [List.foldl_cons, h5]; cases c <;> rfl

/-- C06: the array built from a list filled by any history (in any dimension `n + 1`) holds exactly the
cells that were added. -/
theorem C06_content (n level : Nat) (h : List CellCall) (hi : ∀ c ∈ h, c.idx.length = n) (p : List Int) :
    (LCA.ofList (runCellCalls n level h)).Mem n p ↔ ∃ c ∈ h, c.Adds p := by
  obtain ⟨h1, h2, -⟩ := runCellCalls_spec n level h hi
  rw [ofList_mem _ h1, h2]

/-- C06: and its storage is well formed, provided each call added something. -/
theorem C06_wellformed (n level : Nat) (h : List CellCall) (hi : ∀ c ∈ h, c.idx.length = n)
    (hv : ∀ c ∈ h, c.Valid) : (LCA.ofList (runCellCalls n level h)).WF n := by
  obtain ⟨h1, -, h3, -⟩ := runCellCalls_spec n level h hi
  exact ofList_wf _ h1 (h3 hv)

/-- A 2D history with an L-shaped set of cells (rows -1, 0 and 2) meets the hypotheses. -/
def exampleHistory : List CellCall :=
  [.interval [0] (.mk' 1 4), .cell [2] 7, .interval [-1] (.mk' (-2) 0), .interval [0] (.mk' 3 6)]

example : (∀ c ∈ exampleHistory, c.idx.length = 1) ∧ (∀ c ∈ exampleHistory, c.Valid) ∧
    (LCA.ofList (runCellCalls 1 3 exampleHistory)).cells 0 = [.mk' (-2) 0, .mk' 1 6, .mk' 7 8] ∧
    (LCA.ofList (runCellCalls 1 3 exampleHistory)).cells 1 = [.mk' (-1) 1 1, .mk' 2 3 0] ∧
    (LCA.ofList (runCellCalls 1 3 exampleHistory)).offsets 0 = [0, 1, 2, 3] := by
  refine ⟨by simp [exampleHistory, CellCall.idx], ?_, by decide, by decide, by decide⟩
  simp [exampleHistory, CellCall.Valid, Interval.mk']

/-- C06/C17 caveat (refutation without the validity hypothesis): merely accessing a row leaves an
array that is not well formed, its list is not empty although it holds no cell. -/
theorem C06_touch_refuted :
    ¬ ∀ (n level : Nat) (h : List CellCall), (∀ c ∈ h, c.idx.length = n) →
      (LCA.ofList (runCellCalls n level h)).WF n := by
  intro H
  have h := H 1 0 [.touch [0]] (by simp [CellCall.idx])
  have hc : (LCA.ofList (runCellCalls 1 0 [.touch [0]])).cells 1 = [.mk' 0 1 0] := by decide
  have ho : (LCA.ofList (runCellCalls 1 0 [.touch [0]])).offsets 0 = [0, 0] := by decide
  have := h.seg 0 (by omega) (by rw [hc]; simp)
  rw [ho] at this
  have := this.2 0 0 0 rfl rfl
  omega

/-- C07: two histories (any order, any splitting) adding the same cells give arrays that compare
equal with `operator==`. -/
theorem C07_canonical (n level : Nat) (h₁ h₂ : List CellCall)
    (hi₁ : ∀ c ∈ h₁, c.idx.length = n) (hi₂ : ∀ c ∈ h₂, c.idx.length = n)
    (hv₁ : ∀ c ∈ h₁, c.Valid) (hv₂ : ∀ c ∈ h₂, c.Valid)
    (hp₁ : ∀ c ∈ h₁, c.PlainCall) (hp₂ : ∀ c ∈ h₂, c.PlainCall)
    (h : ∀ p, (∃ c ∈ h₁, c.Adds p) ↔ ∃ c ∈ h₂, c.Adds p) :
    (LCA.ofList (runCellCalls n level h₁)).beq n (LCA.ofList (runCellCalls n level h₂)) = true := by
  obtain ⟨a1, a2, a3, a4, a5⟩ := runCellCalls_spec n level h₁ hi₁
  obtain ⟨b1, b2, b3, b4, b5⟩ := runCellCalls_spec n level h₂ hi₂
  have hg : (runCellCalls n level h₁).grid = (runCellCalls n level h₂).grid :=
    grid_unique a1 b1 (a3 hv₁) (b3 hv₂) (a4 hp₁) (b4 hp₂) (fun p => by rw [a2, b2, h])
  have : runCellCalls n level h₁ = runCellCalls n level h₂ := by
    cases hx : runCellCalls n level h₁
    cases hy : runCellCalls n level h₂
    rw [hx] at hg a5; rw [hy] at hg b5
    simp only [] at hg a5 b5
    rw [hg, a5, b5]
  rw [this]
  exact beq_iff.2 ⟨rfl, fun _ _ => rfl, fun _ _ => rfl⟩

/-- C07, converse: arrays that compare equal have the same level and the same cells. -/
theorem C07_sound (n : Nat) (a b : LCA) (h : a.beq n b = true) :
    a.level = b.level ∧ ∀ p, a.Mem n p ↔ b.Mem n p := by
  obtain ⟨h1, h2, h3⟩ := beq_iff.1 h
  refine ⟨h1, fun p => ?_⟩
  unfold LCA.Mem
  rw [h2 n le_rfl]
  exact memRow_congr h2 h3 _ _ _

/-- Two different histories meeting the hypotheses of `C07_canonical`. -/
example :
    let h₂ : List CellCall :=
      [.cell [2] 7, .interval [0] (.mk' 2 6), .interval [-1] (.mk' (-2) (-1)), .cell [0] 1, .cell [-1] (-1)]
    (∀ c ∈ h₂, c.idx.length = 1) ∧ (∀ c ∈ h₂, c.Valid) ∧ (∀ c ∈ h₂, c.PlainCall) ∧
      ∀ p, (∃ c ∈ exampleHistory, c.Adds p) ↔ ∃ c ∈ h₂, c.Adds p := by
  refine ⟨by simp [CellCall.idx], by simp [CellCall.Valid, Interval.mk'],
    by simp [CellCall.PlainCall, Interval.mk'], fun p => ?_⟩
  simp only [exampleHistory, List.mem_cons, List.not_mem_nil, or_false, exists_eq_or_imp,
    exists_eq_left, CellCall.Adds, Interval.mk']
  constructor
  · rintro (⟨x, h1, h2, rfl⟩ | rfl | ⟨x, h1, h2, rfl⟩ | ⟨x, h1, h2, rfl⟩)
    · by_cases h : x = 1
      · subst h; simp
      · right; left; exact ⟨x, by omega, by omega, rfl⟩
    · simp
    · by_cases h : x = -1
      · subst h; simp
      · right; right; left; exact ⟨x, by omega, by omega, rfl⟩
    · right; left; exact ⟨x, by omega, by omega, rfl⟩
  · rintro (rfl | ⟨x, h1, h2, rfl⟩ | ⟨x, h1, h2, rfl⟩ | rfl | rfl)
    · simp
    · by_cases h : x < 4
      · left; exact ⟨x, by omega, by omega, rfl⟩
      · right; right; right; exact ⟨x, by omega, by omega, rfl⟩
    · right; right; left; exact ⟨x, by omega, by omega, rfl⟩
    · left; exact ⟨1, by omega, by omega, rfl⟩
    · right; right; left; exact ⟨-1, by omega, by omega, rfl⟩

end Samurai

import Verif.Spec.LinFlux
import Verif.Lemmas.FluxSum

namespace Samurai

/-! ### the rows -/

theorem stencilCell_level {n : Nat} {ref : CA} {level : Nat} {c : Call} {v : Int} {s : Nat → Int} {m : MCell}
    (h : stencilCell n ref level c v s = some m) : m.level = level := by
  unfold stencilCell at h
  split at h
  · cases h; rfl
  · cases hg : getIndex (ref.lca level) n (shiftPoint s n c.1) (c.2.start + s 0) with
    | none => rw [hg] at h; cases h
    | some w => rw [hg] at h; cases h; rfl

theorem stencilCells_level {n : Nat} {ref : CA} {level : Nat} {c : Call} {v : Int} {o : Nat} :
    ∀ (S : List (Nat → Int)) (id : Nat) (l : List MCell), stencilCells n ref level c v o id S = some l → ∀ m ∈ l, m.level = level := by
  intro S
  induction S with
  | nil => intro id l h m hm; cases h; cases hm
  | cons s S ih =>
    intro id l h m hm
    unfold stencilCells at h
    split at h
    · rename_i a b h1 h2
      cases h
      rcases List.mem_cons.1 hm with rfl | hm
      · by_cases hid : id = o
        · rw [if_pos hid] at h1; cases h1; rfl
        · rw [if_neg hid] at h1; exact stencilCell_level h1
      · exact ih (id + 1) b h2 m hm
    · cases h

theorem stencilInit_level {n : Nat} {ref : CA} {S : List (Nat → Int)} {level : Nat} {c : Call} {l : List MCell}
    (h : stencilInit n ref S level c = some l) : ∀ m ∈ l, m.level = level := by
  unfold stencilInit at h
  split at h
  · cases h
  · split at h
    · cases h
    · exact stencilCells_level _ _ _ h

/-- The faces of a row between cells of same level. -/
def RowCall.faces (r : RowCall) : List FaceCall :=
  (List.range r.size).map fun i => ⟨r.left.at i, r.right.at i, r.comput.map fun m => m.at i⟩

/-- The faces of a row between a coarse cell (left) and a fine cell. -/
def RowCall.jumpFaces (r : RowCall) : List FaceCall :=
  (List.range r.size).map fun i => ⟨r.left.at (i / 2), r.right.at i, r.comput.map fun m => m.at i⟩

/-- The faces of a row between a fine cell (left) and a coarse cell. -/
def RowCall.oppFaces (r : RowCall) : List FaceCall :=
  (List.range r.size).map fun i => ⟨r.left.at i, r.right.at (i / 2), r.comput.map fun m => m.at i⟩

theorem sameLevelRow_eq {n : Nat} {ref : CA} {level : Nat} {dir : Nat → Int} {S : List (Nat → Int)} {c : Call} {fs : List FaceCall}
    (h : sameLevelRow n ref level dir S c = some fs) : ∃ r, sameLevelRowCall n ref level dir S c = some r ∧ fs = r.faces := by
  unfold sameLevelRow at h
  split at h
  · rename_i a b l h1 h2
    refine ⟨⟨a, b, l, c.2.size⟩, by unfold sameLevelRowCall; rw [h1, h2], ?_⟩
    have hs := slide_of (next := fun s : MCell × MCell × List MCell => (s.1.next, s.2.1.next, stencilNext s.2.2))
      (fun i => (a.at i, b.at i, l.map fun m => m.at i))
      (fun i => by simp only [MCell.at_next, stencilNext_at]) c.2.size
    simp only [map_at_zero] at hs
    simp only [MCell.at_zero] at hs
    rw [hs, List.map_map] at h
    cases h
    rfl
  · cases h

theorem bdryRow_eq {n : Nat} {ref : CA} {level : Nat} {dir : Nat → Int} {S : List (Nat → Int)} {c : Call} {bs : List BdryCall}
    (h : bdryRow n ref level dir S c = some bs) : ∃ a b l, stencilInit n ref (inOutStencil dir) level c = some [a, b] ∧ stencilInit n ref S level c = some l ∧
      bs = (List.range c.2.size).map fun i => ⟨a.at i, l.map fun m => m.at i⟩ := by
  unfold bdryRow at h
  split at h
  · rename_i a b l h1 h2
    refine ⟨a, b, l, h1, h2, ?_⟩
    have hs := slide_of (next := fun s : MCell × MCell × List MCell => (s.1.next, s.2.1.next, stencilNext s.2.2))
      (fun i => (a.at i, b.at i, l.map fun m => m.at i))
      (fun i => by simp only [MCell.at_next, stencilNext_at]) c.2.size
    simp only [map_at_zero] at hs
    simp only [MCell.at_zero] at hs
    rw [hs, List.map_map] at h
    cases h
    rfl
  · cases h

theorem jumpInit_ii {n : Nat} {ref : CA} {level : Nat} {l : List MCell} {k : Nat} {c : Call} {j : JumpIter} (h : jumpInit n ref level l k c = some j) :
    j.ii = 0 ∧ j.coarse.level = level ∧ j.fine ∈ l := by
  unfold jumpInit at h
  split at h
  · rename_i a b h1 h2
    cases h
    exact ⟨rfl, stencilInit_level h1 a (by simp), List.mem_of_getElem? h2⟩
  · cases h

theorem jump_slide (j : JumpIter) (l : List MCell) (hj : j.ii = 0) (k : Nat) :
    slide (fun s : JumpIter × List MCell => (s.1.next, stencilNext s.2)) k (j, l) =
      (List.range k).map fun i => (⟨j.coarse.at (i / 2), j.fine.at i, i⟩, l.map fun m => m.at i) := by
  obtain ⟨a, b, ii⟩ := j
  simp only at hj
  subst hj
  have hs := slide_of (next := fun s : JumpIter × List MCell => (s.1.next, stencilNext s.2))
    (fun i => (⟨a.at (i / 2), b.at i, i⟩, l.map fun m => m.at i))
    (fun i => by
      simp only [stencilNext_at, JumpIter.next, MCell.at_next, Prod.mk.injEq, JumpIter.mk.injEq, and_true]
      simp only [MCell.at, MCell.mk.injEq, true_and]
      by_cases h : i % 2 = 1
      · simp only [h, if_true]; omega
      · simp only [h, if_false]; omega) k
  simp only [map_at_zero, Nat.zero_div] at hs
  simp only [MCell.at_zero] at hs
  exact hs

theorem jumpRow_eq {n : Nat} {ref : CA} {level : Nat} {dir : Nat → Int} {S : List (Nat → Int)} {c : Call} {fs : List FaceCall}
    (h : jumpRow n ref level dir S c = some fs) : ∃ r, jumpRowCall n ref level dir S c = some r ∧ fs = r.jumpFaces := by
  unfold jumpRow at h
  split at h
  · rename_i k l h1 h2
    cases hj : jumpInit n ref level l k c with
    | none => rw [hj] at h; cases h
    | some j =>
      rw [hj] at h
      refine ⟨⟨j.coarse, j.fine, l, c.2.size⟩, by unfold jumpRowCall; rw [h1, h2]; simp only []; rw [hj], ?_⟩
      simp only [] at h
      rw [jump_slide j l (jumpInit_ii hj).1, List.map_map] at h
      cases h
      rfl
  · cases h

theorem jumpRowOpp_eq {n : Nat} {ref : CA} {level : Nat} {dir : Nat → Int} {S : List (Nat → Int)} {c : Call} {fs : List FaceCall}
    (h : jumpRowOpp n ref level dir S c = some fs) : ∃ r, jumpRowCallOpp n ref level dir S c = some r ∧ fs = r.oppFaces := by
  unfold jumpRowOpp at h
  split at h
  · rename_i k l h1 h2
    cases hj : jumpInit n ref level l k c with
    | none => rw [hj] at h; cases h
    | some j =>
      rw [hj] at h
      refine ⟨⟨j.fine, j.coarse, l, c.2.size⟩, by unfold jumpRowCallOpp; rw [h1, h2]; simp only []; rw [hj], ?_⟩
      simp only [] at h
      rw [jump_slide j l (jumpInit_ii hj).1, List.map_map] at h
      cases h
      rfl
  · cases h

theorem sameLevelRowCall_level {n : Nat} {ref : CA} {level : Nat} {dir : Nat → Int} {S : List (Nat → Int)} {c : Call} {r : RowCall}
    (h : sameLevelRowCall n ref level dir S c = some r) : r.left.level = level ∧ r.right.level = level ∧ ∀ m ∈ r.comput, m.level = level := by
  unfold sameLevelRowCall at h
  split at h
  · rename_i a b l h1 h2
    cases h
    exact ⟨stencilInit_level h1 a (by simp), stencilInit_level h1 b (by simp), stencilInit_level h2⟩
  · cases h

theorem jumpRowCall_level {n : Nat} {ref : CA} {level : Nat} {dir : Nat → Int} {S : List (Nat → Int)} {c : Call} {r : RowCall}
    (h : jumpRowCall n ref level dir S c = some r) :
    r.left.level = level ∧ r.right.level = level + 1 ∧ (∀ m ∈ r.comput, m.level = level + 1) ∧ r.size = c.2.size := by
  unfold jumpRowCall at h
  split at h
  · rename_i k l h1 h2
    cases hj : jumpInit n ref level l k c with
    | none => rw [hj] at h; cases h
    | some j =>
      rw [hj] at h
      cases h
      obtain ⟨_, j2, j3⟩ := jumpInit_ii hj
      exact ⟨j2, stencilInit_level h2 _ j3, stencilInit_level h2, rfl⟩
  · cases h

theorem jumpRowCallOpp_level {n : Nat} {ref : CA} {level : Nat} {dir : Nat → Int} {S : List (Nat → Int)} {c : Call} {r : RowCall}
    (h : jumpRowCallOpp n ref level dir S c = some r) :
    r.left.level = level + 1 ∧ r.right.level = level ∧ (∀ m ∈ r.comput, m.level = level + 1) ∧ r.size = c.2.size := by
  unfold jumpRowCallOpp at h
  split at h
  · rename_i k l h1 h2
    cases hj : jumpInit n ref level l k c with
    | none => rw [hj] at h; cases h
    | some j =>
      rw [hj] at h
      cases h
      obtain ⟨_, j2, j3⟩ := jumpInit_ii hj
      exact ⟨stencilInit_level h2 _ j3, j2, stencilInit_level h2, rfl⟩
  · cases h

/-! ### the updates of a row -/

section
variable {K U V : Type} [Field K] [AddCommGroup U] [Module K U] [AddCommGroup V] [Module K V]

/-- What is added to the cell `j` when the value `g i` is added to the cell `σ i`, for `i < k`. -/
def lineSum (k : Nat) (σ : Nat → Int) (g : Nat → V) (j : Int) : V := ((List.range k).map fun i => if j = σ i then g i else 0).sum

theorem lineSum_add (k : Nat) (σ : Nat → Int) (f g : Nat → V) (j : Int) : lineSum k σ (fun i => f i + g i) j = lineSum k σ f j + lineSum k σ g j := by
  unfold lineSum
  rw [← sum_map_add']
  refine sum_map_congr fun i _ => ?_
  by_cases h : j = σ i
  · simp only [if_pos h]
  · simp only [if_neg h, add_zero]

theorem lineSum_zero (k : Nat) (σ : Nat → Int) (j : Int) : lineSum k σ (fun _ => (0 : V)) j = 0 := by
  unfold lineSum
  simp only [ite_self, sum_map_zero']

theorem lineSum_line (k : Nat) (σ : Nat → Int) (g : Nat → V) (j : Int) : updSum ((List.range k).map fun i => ((σ i, g i) : Upd V)) j = lineSum k σ g j := by
  unfold updSum lineSum
  rw [List.map_map]
  rfl

/-- Two fine cells for one coarse cell. -/
theorem lineSum_pair (st : Int) (g : Nat → V) (j : Int) : ∀ k : Nat,
    lineSum k (fun i => st + (i : Int)) (fun i => g (2 * i) + g (2 * i + 1)) j = lineSum (2 * k) (fun i => st + ((i / 2 : Nat) : Int)) g j := by
  intro k
  induction k with
  | zero => rfl
  | succ k ih =>
    unfold lineSum at ih ⊢
    rw [show 2 * (k + 1) = 2 * k + 1 + 1 by omega, List.range_succ, List.range_succ, List.range_succ, List.map_append, List.map_append, List.map_append,
      List.sum_append, List.sum_append, List.sum_append, ih, add_assoc]
    congr 1
    simp only [List.map_cons, List.map_nil, List.sum_cons, List.sum_nil, add_zero]
    have e1 : st + ((2 * k / 2 : Nat) : Int) = st + (k : Int) := by rw [show 2 * k / 2 = k by omega]
    have e2 : st + (((2 * k + 1) / 2 : Nat) : Int) = st + (k : Int) := by rw [show (2 * k + 1) / 2 = k by omega]
    by_cases h : j = st + (k : Int)
    · rw [if_pos h, if_pos (h.trans e1.symm), if_pos (h.trans e2.symm)]
    · rw [if_neg h, if_neg (fun h' => h (h'.trans e1)), if_neg (fun h' => h (h'.trans e2)), add_zero]

theorem fineLoop_sum (u : Int → U) (a : U →ₗ[K] V) (st m : Int) (k : Nat) (j : Int) :
    updSum (fineLoop u a st m k) j = lineSum k (fun i => st + (i : Int)) (fun i => a (u (m + (i : Int)))) j := lineSum_line ..

theorem coarseLoop_sum (u : Int → U) (a : U →ₗ[K] V) (st m : Int) {k : Nat} (hk : k % 2 = 0) (j : Int) :
    updSum (coarseLoop u a st m k) j = lineSum k (fun i => st + ((i / 2 : Nat) : Int)) (fun i => a (u (m + (i : Int)))) j := by
  have h := lineSum_pair st (fun i => a (u (m + (i : Int)))) j (k / 2)
  rw [show 2 * (k / 2) = k by omega] at h
  rw [← h]
  unfold coarseLoop
  rw [lineSum_line]
  congr 1
  funext i
  push_cast
  rw [add_assoc]

/-- The loop on the stencil. -/
theorem stencilLoop_sum {u : Int → U} {f : (U →ₗ[K] V) → (U →ₗ[K] V) → MCell → List (Upd V)} {k : Nat} {σ τ : Nat → Int} {j : Int}
    (hf : ∀ a b m, updSum (f a b m) j = lineSum k σ (fun i => a (u (m.index + (i : Int)))) j + lineSum k τ (fun i => b (u (m.index + (i : Int)))) j) :
    ∀ (A B : List (U →ₗ[K] V)) (C : List MCell), A.length = B.length →
      updSum (stencilLoop f A B C) j = lineSum k σ (localSum u false A C) j + lineSum k τ (localSum u false B C) j := by
  intro A
  induction A with
  | nil =>
    intro B C h
    obtain rfl : B = [] := List.length_eq_zero_iff.1 h.symm
    have e : localSum u false ([] : List (U →ₗ[K] V)) C = fun _ => 0 := by funext i; rfl
    rw [e, lineSum_zero, lineSum_zero, add_zero]
    rfl
  | cons a A ih =>
    intro B C h
    cases B with
    | nil => cases h
    | cons b B =>
      cases C with
      | nil =>
        have e : ∀ A : List (U →ₗ[K] V), localSum u false A [] = fun _ => 0 := by intro A; funext i; cases A <;> rfl
        rw [e, e, lineSum_zero, lineSum_zero, add_zero]
        rfl
      | cons m C =>
        have e : ∀ (a : U →ₗ[K] V) A, localSum u false (a :: A) (m :: C) = fun (i : Nat) => a (u (m.index + (i : Int))) + localSum u false A C i := by
          intro a A; funext i; rfl
        rw [e, e, lineSum_add, lineSum_add]
        show updSum (f a b m ++ stencilLoop f A B C) j = _
        rw [updSum_append, hf, ih B C (by simpa using h)]
        abel

theorem stencilLoop_sum' {u : Int → U} {f : (U →ₗ[K] V) → (U →ₗ[K] V) → MCell → List (Upd V)} {k : Nat} {σ : Nat → Int} {j : Int}
    (hf : ∀ a b m, updSum (f a b m) j = lineSum k σ (fun i => a (u (m.index + (i : Int)))) j)
    (A B : List (U →ₗ[K] V)) (C : List MCell) (h : A.length = B.length) :
      updSum (stencilLoop f A B C) j = lineSum k σ (localSum u false A C) j := by
  induction A generalizing B C with
  | nil =>
    obtain rfl : B = [] := List.length_eq_zero_iff.1 h.symm
    have e : localSum u false ([] : List (U →ₗ[K] V)) C = fun _ => 0 := by funext i; rfl
    rw [e, lineSum_zero]
    rfl
  | cons a A ih =>
    cases B with
    | nil => cases h
    | cons b B =>
      cases C with
      | nil =>
        have e : ∀ A : List (U →ₗ[K] V), localSum u false A [] = fun _ => 0 := by intro A; funext i; cases A <;> rfl
        rw [e, lineSum_zero]
        rfl
      | cons m C =>
        have e : ∀ (a : U →ₗ[K] V) A, localSum u false (a :: A) (m :: C) = fun (i : Nat) => a (u (m.index + (i : Int))) + localSum u false A C i := by
          intro a A; funext i; rfl
        rw [e, lineSum_add]
        show updSum (f a b m ++ stencilLoop f A B C) j = _
        rw [updSum_append, hf, ih B C (by simpa using h)]

theorem mem_stencilLoop {α β γ δ : Type} {f : α → β → γ → List δ} {x : δ} : ∀ {A : List α} {B : List β} {C : List γ},
    x ∈ stencilLoop f A B C → ∃ a b c, x ∈ f a b c := by
  intro A
  induction A with
  | nil => intro B C h; cases h
  | cons a A ih =>
    intro B C h
    cases B with
    | nil => cases h
    | cons b B =>
      cases C with
      | nil => cases h
      | cons c C =>
        rcases List.mem_append.1 h with h | h
        · exact ⟨a, b, c, h⟩
        · exact ih h

theorem localSum_smul (u : Int → U) (s : K) (A : List (U →ₗ[K] V)) : ∀ (C : List MCell) (i : Nat),
    localSum u false (A.map fun a => s • a) C i = s • localSum u false A C i := by
  induction A with
  | nil => intro C i; exact (smul_zero s).symm
  | cons a A ih =>
    intro C i
    cases C with
    | nil => exact (smul_zero s).symm
    | cons m C =>
      show s • a (u (m.index + (i : Int))) + localSum u false (A.map fun a => s • a) C i = s • (a (u (m.index + (i : Int))) + localSum u false A C i)
      rw [ih, smul_add]

theorem localSum_neg (u : Int → U) (A : List (U →ₗ[K] V)) : ∀ (C : List MCell) (i : Nat), localSum u false (negL A) C i = - localSum u false A C i := by
  induction A with
  | nil => intro C i; exact neg_zero.symm
  | cons a A ih =>
    intro C i
    cases C with
    | nil => exact neg_zero.symm
    | cons m C =>
      show (- a) (u (m.index + (i : Int))) + localSum u false (negL A) C i = - (a (u (m.index + (i : Int))) + localSum u false A C i)
      rw [ih, neg_add]
      rfl

theorem localSum_pair (u : Int → U) (A : List (U →ₗ[K] V)) : ∀ (C : List MCell) (i : Nat),
    localSum u true A C i = localSum u false A C (2 * i) + localSum u false A C (2 * i + 1) := by
  induction A with
  | nil => intro C i; exact (add_zero 0).symm
  | cons a A ih =>
    intro C i
    cases C with
    | nil => exact (add_zero 0).symm
    | cons m C =>
      have e : localSum u true (a :: A) (m :: C) i =
        (a (u (m.index + 2 * (i : Int))) + a (u (m.index + 2 * (i : Int) + 1))) + localSum u true A C i := rfl
      have e' : ∀ k : Nat, localSum u false (a :: A) (m :: C) k = a (u (m.index + (k : Int))) + localSum u false A C k := fun _ => rfl
      rw [e, e', e', ih]
      push_cast
      rw [← add_assoc (m.index)]
      abel

theorem linValue_at (u : Int → U) (A : List (U →ₗ[K] V)) : ∀ (C : List MCell) (i : Nat), linValue u A (C.map fun m => m.at i) = localSum u false A C i := by
  induction A with
  | nil => intro C i; rfl
  | cons a A ih =>
    intro C i
    cases C with
    | nil => rfl
    | cons m C =>
      show a (u (m.index + (i : Int))) + linValue u A (C.map fun m => m.at i) = a (u (m.index + (i : Int))) + localSum u false A C i
      rw [ih]

/-! ### one task -/

/-- The task `t'` adds to each cell what `t` adds, and writes no other cell. -/
structure TaskSim (t t' : List (Upd V)) : Prop where
  sum : ∀ j, updSum t' j = updSum t j
  addr : ∀ x ∈ t', ∃ y ∈ t, y.1 = x.1

/-- The two lines of updates of a row. -/
def rowUpds (k : Nat) (σ τ : Nat → Int) (g g' : Nat → V) : List (Upd V) := (List.range k).flatMap fun i => [(σ i, g i), (τ i, g' i)]

theorem rowUpds_sum (k : Nat) (σ τ : Nat → Int) (g g' : Nat → V) (j : Int) : updSum (rowUpds k σ τ g g') j = lineSum k σ g j + lineSum k τ g' j := by
  unfold rowUpds lineSum
  rw [updSum_flatMap, ← sum_map_add']
  refine sum_map_congr fun i _ => ?_
  rw [updSum_cons, updSum_cons, updSum_nil, add_zero]

/-- A row treated by the linear scheme, in the sequential and in the parallel variant: `σ` and `τ` give the numbers of the left and of the right cell. -/
theorem linTask_sim (par : Bool) (u : Int → U) (A B : List (U →ₗ[K] V)) (hAB : A.length = B.length) (r : RowCall) (σ τ : Nat → Int)
    (h : (r.left.level = r.right.level ∧ (∀ i, σ i = r.left.index + (i : Int)) ∧ ∀ i, τ i = r.right.index + (i : Int)) ∨
      (r.left.level < r.right.level ∧ (r.size = 1 ∨ r.size % 2 = 0) ∧ (∀ i, σ i = r.left.index + ((i / 2 : Nat) : Int)) ∧ ∀ i, τ i = r.right.index + (i : Int)) ∨
      (r.right.level < r.left.level ∧ (r.size = 1 ∨ r.size % 2 = 0) ∧ (∀ i, σ i = r.left.index + (i : Int)) ∧ ∀ i, τ i = r.right.index + ((i / 2 : Nat) : Int))) :
    ∃ t, linTask par u A B (some r) = some t ∧ TaskSim (rowUpds r.size σ τ (localSum u false A r.comput) (localSum u false B r.comput)) t := by
  have hpar : ¬ (r.left.level ≠ r.right.level ∧ r.size ≠ 1 ∧ r.size % 2 = 1) := by
    rcases h with ⟨h, _⟩ | ⟨_, h, _⟩ | ⟨_, h, _⟩ <;> omega
  have line1 : ∀ g : Nat → V, ∀ j, r.size = 1 → (∀ i, σ i = r.left.index + ((i / 2 : Nat) : Int)) →
      lineSum r.size σ g j = lineSum r.size (fun i => r.left.index + (i : Int)) g j := by
    intro g j h1 h2
    unfold lineSum
    rw [h1]
    simp [h2]
  have line2 : ∀ g : Nat → V, ∀ j, r.size = 1 → (∀ i, τ i = r.right.index + ((i / 2 : Nat) : Int)) →
      lineSum r.size τ g j = lineSum r.size (fun i => r.right.index + (i : Int)) g j := by
    intro g j h1 h2
    unfold lineSum
    rw [h1]
    simp [h2]
  have mem : ∀ i < r.size, ∀ x : Upd V, (x.1 = σ i ∨ x.1 = τ i) →
      ∃ y ∈ rowUpds r.size σ τ (localSum u false A r.comput) (localSum u false B r.comput), y.1 = x.1 := by
    intro i hi x hx
    unfold rowUpds
    rcases hx with hx | hx
    · exact ⟨_, List.mem_flatMap.2 ⟨i, List.mem_range.2 hi, List.mem_cons_self⟩, hx.symm⟩
    · exact ⟨_, List.mem_flatMap.2 ⟨i, List.mem_range.2 hi, List.mem_cons_of_mem _ List.mem_cons_self⟩, hx.symm⟩
  have memL : ∀ ii : Nat, ii < r.size → ¬ (r.left.level < r.right.level ∧ r.size ≠ 1) → σ ii = r.left.index + (ii : Int) := by
    intro ii hii hn
    rcases h with ⟨_, h, _⟩ | ⟨h1, _, h, _⟩ | ⟨_, _, h, _⟩
    · exact h ii
    · have : r.size = 1 := by omega
      rw [h, show ii = 0 by omega]
    · exact h ii
  have memR : ∀ ii : Nat, ii < r.size → ¬ (r.right.level < r.left.level ∧ r.size ≠ 1) → τ ii = r.right.index + (ii : Int) := by
    intro ii hii hn
    rcases h with ⟨_, _, h⟩ | ⟨_, _, _, h⟩ | ⟨_, _, _, h⟩
    · exact h ii
    · exact h ii
    · have : r.size = 1 := by omega
      rw [h, show ii = 0 by omega]
  have memL2 : ∀ ii : Nat, r.left.level < r.right.level → σ (2 * ii) = r.left.index + (ii : Int) := by
    intro ii hl
    rcases h with ⟨h1, _⟩ | ⟨h1, _, h, _⟩ | ⟨h1, _⟩
    · omega
    · rw [h, show 2 * ii / 2 = ii by omega]
    · omega
  have memR2 : ∀ ii : Nat, r.right.level < r.left.level → τ (2 * ii) = r.right.index + (ii : Int) := by
    intro ii hl
    rcases h with ⟨h1, _⟩ | ⟨h1, _⟩ | ⟨h1, _, _, h⟩
    · omega
    · omega
    · rw [h, show 2 * ii / 2 = ii by omega]
  cases par with
  | false =>
    refine ⟨_, by unfold linTask; simp only []; rw [if_neg (by simp)]; unfold seqTask; rw [if_neg hpar], fun j => ?_, fun x hx => ?_⟩
    · rw [rowUpds_sum]
      refine stencilLoop_sum (fun a b m => ?_) A B r.comput hAB
      unfold seqBody
      by_cases h1 : r.left.level = r.right.level ∨ r.size = 1
      · rw [if_pos h1, updSum_append, fineLoop_sum, fineLoop_sum]
        rcases h with ⟨_, e1, e2⟩ | ⟨hl, _, e1, e2⟩ | ⟨hl, _, e1, e2⟩
        · rw [← funext e1, ← funext e2]
        · rw [line1 _ _ (by omega) e1, ← funext e2]
        · rw [line2 _ _ (by omega) e2, ← funext e1]
      · rw [if_neg h1]
        rcases h with ⟨hl, e1, e2⟩ | ⟨hl, hs, e1, e2⟩ | ⟨hl, hs, e1, e2⟩
        · omega
        · rw [if_pos hl, updSum_append, fineLoop_sum, coarseLoop_sum u a _ _ (by omega), ← funext e1, ← funext e2]
        · rw [if_neg (by omega), updSum_append, fineLoop_sum, coarseLoop_sum u b _ _ (by omega), ← funext e1, ← funext e2]
    · obtain ⟨a, b, m, hx⟩ := mem_stencilLoop hx
      unfold seqBody at hx
      by_cases h1 : r.left.level = r.right.level ∨ r.size = 1
      · rw [if_pos h1] at hx
        rcases List.mem_append.1 hx with hx | hx
        · obtain ⟨ii, hii, rfl⟩ := List.mem_map.1 hx
          have hii := List.mem_range.1 hii
          exact mem ii hii _ (Or.inl (memL ii hii (by omega)).symm)
        · obtain ⟨ii, hii, rfl⟩ := List.mem_map.1 hx
          have hii := List.mem_range.1 hii
          exact mem ii hii _ (Or.inr (memR ii hii (by omega)).symm)
      · rw [if_neg h1] at hx
        by_cases hl : r.left.level < r.right.level
        · rw [if_pos hl] at hx
          rcases List.mem_append.1 hx with hx | hx
          · obtain ⟨ii, hii, rfl⟩ := List.mem_map.1 hx
            have hii := List.mem_range.1 hii
            exact mem (2 * ii) (by omega) _ (Or.inl (memL2 ii hl).symm)
          · obtain ⟨ii, hii, rfl⟩ := List.mem_map.1 hx
            have hii := List.mem_range.1 hii
            exact mem ii hii _ (Or.inr (memR ii hii (by omega)).symm)
        · rw [if_neg hl] at hx
          rcases List.mem_append.1 hx with hx | hx
          · obtain ⟨ii, hii, rfl⟩ := List.mem_map.1 hx
            have hii := List.mem_range.1 hii
            exact mem ii hii _ (Or.inl (memL ii hii (by omega)).symm)
          · obtain ⟨ii, hii, rfl⟩ := List.mem_map.1 hx
            have hii := List.mem_range.1 hii
            exact mem (2 * ii) (by omega) _ (Or.inr (memR2 ii (by omega)).symm)
  | true =>
    refine ⟨_, by show parTask u A B r = _; unfold parTask; rw [if_neg hpar], fun j => ?_, fun x hx => ?_⟩
    · rw [rowUpds_sum, updSum_append, lineSum_line (σ := fun ii : Nat => r.left.index + (ii : Int)), lineSum_line (σ := fun ii : Nat => r.right.index + (ii : Int))]
      have pairing : ∀ (st : Int) (A : List (U →ₗ[K] V)), r.size % 2 = 0 → lineSum (r.size / 2) (fun ii : Nat => st + (ii : Int)) (fun ii => localSum u true A r.comput ii) j =
          lineSum r.size (fun i => st + ((i / 2 : Nat) : Int)) (localSum u false A r.comput) j := by
        intro st A hs
        have := lineSum_pair st (localSum u false A r.comput) j (r.size / 2)
        rw [show 2 * (r.size / 2) = r.size by omega] at this
        rw [← this]
        congr 1
        funext ii
        exact localSum_pair u A r.comput ii
      by_cases h1 : r.left.level = r.right.level ∨ r.size = 1
      · have hd : decide (r.left.level = r.right.level ∨ r.size = 1) = true := by simpa using h1
        rw [if_pos (by omega), if_pos (by omega), hd]
        simp only [Bool.not_true, Bool.false_and]
        rcases h with ⟨_, e1, e2⟩ | ⟨hl, _, e1, e2⟩ | ⟨hl, _, e1, e2⟩
        · rw [← funext e1, ← funext e2]
        · rw [line1 _ _ (by omega) e1, ← funext e2]
        · rw [line2 _ _ (by omega) e2, ← funext e1]
      · have hd : decide (r.left.level = r.right.level ∨ r.size = 1) = false := by simpa using h1
        rw [hd]
        rcases h with ⟨hl, e1, e2⟩ | ⟨hl, hs, e1, e2⟩ | ⟨hl, hs, e1, e2⟩
        · omega
        · rw [if_neg (by omega), if_pos (by omega)]
          simp only [Bool.not_false, Bool.true_and, hl, decide_true, Bool.not_true]
          rw [pairing _ _ (by omega), ← funext e1, ← funext e2]
        · rw [if_pos (by omega), if_neg (by omega)]
          have hl' : decide (r.left.level < r.right.level) = false := by simp; omega
          simp only [Bool.not_false, Bool.true_and, hl']
          rw [pairing _ _ (by omega), ← funext e1, ← funext e2]
    · rcases List.mem_append.1 hx with hx | hx
      · obtain ⟨ii, hii, rfl⟩ := List.mem_map.1 hx
        have hii := List.mem_range.1 hii
        by_cases hc : r.size = 1 ∨ r.left.level ≥ r.right.level
        · rw [if_pos hc] at hii
          exact mem ii hii _ (Or.inl (memL ii hii (by omega)).symm)
        · rw [if_neg hc] at hii
          exact mem (2 * ii) (by omega) _ (Or.inl (memL2 ii (by omega)).symm)
      · obtain ⟨ii, hii, rfl⟩ := List.mem_map.1 hx
        have hii := List.mem_range.1 hii
        by_cases hc : r.size = 1 ∨ r.left.level ≤ r.right.level
        · rw [if_pos hc] at hii
          exact mem ii hii _ (Or.inr (memR ii hii (by omega)).symm)
        · rw [if_neg hc] at hii
          exact mem (2 * ii) (by omega) _ (Or.inr (memR2 ii (by omega)).symm)

end

end Samurai

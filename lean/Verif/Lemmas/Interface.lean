import Verif.Model.Interface
import Verif.Lemmas.AdaptCriteria
import Verif.Lemmas.Renumber

namespace Samurai

/-! ### points -/

theorem shift_length (s : Nat → Int) (p : List Int) : ∀ d, (shiftPoint s d p).length = p.length := by
  induction p with
  | nil => intro d; rfl
  | cons c p ih => intro d; simp [shiftPoint, ih]

theorem shift_snoc (s : Nat → Int) (x : Int) (yz : List Int) : shiftPoint s yz.length (yz ++ [x]) = shiftPoint s yz.length yz ++ [x + s 0] := by
  induction yz with
  | nil => rfl
  | cons c p ih =>
    show (c + s (p.length + 1)) :: shiftPoint s p.length (p ++ [x]) = (c + s (p.length + 1)) :: (shiftPoint s p.length p ++ [x + s 0])
    rw [ih]

theorem shift_shift (s t : Nat → Int) (p : List Int) : ∀ d, shiftPoint s d (shiftPoint t d p) = shiftPoint (fun k => t k + s k) d p := by
  induction p with
  | nil => intro d; rfl
  | cons c p ih => intro d; simp [shiftPoint, ih, add_assoc]

theorem shift_congr {s t : Nat → Int} (p : List Int) : ∀ d, (∀ k ≤ d, s k = t k) → shiftPoint s d p = shiftPoint t d p := by
  induction p with
  | nil => intro d _; rfl
  | cons c p ih =>
    intro d h
    show (c + s d) :: shiftPoint s (d - 1) p = (c + t d) :: shiftPoint t (d - 1) p
    rw [h d le_rfl, ih (d - 1) fun k hk => h k (by omega)]

theorem shift_zero (p : List Int) : ∀ d, shiftPoint (fun _ => 0) d p = p := by
  induction p with
  | nil => intro d; rfl
  | cons c p ih => intro d; simp [shiftPoint, ih]

/-- The row of a vector without outer components. -/
theorem shift_row {s : Nat → Int} {yz : List Int} (h : ∀ k < yz.length, s (k + 1) = 0) : shiftPoint s yz.length yz = yz := by
  induction yz with
  | nil => rfl
  | cons c p ih =>
    show (c + s (p.length + 1)) :: shiftPoint s p.length p = c :: p
    rw [h p.length (by simp), ih fun k hk => h k (by simp; omega), add_zero]

theorem shift_inj {s : Nat → Int} {p q : List Int} {d : Nat} (h : shiftPoint s d p = shiftPoint s d q) : p = q := by
  rw [← shift_sub s p d, ← shift_sub s q d, h]

theorem near_shift {w : Nat} {s : Nat → Int} (p : List Int) : ∀ d, (∀ k ≤ d, - (w : Int) ≤ s k ∧ s k ≤ w) → Near w (shiftPoint s d p) p := by
  induction p with
  | nil => intro d _; exact List.Forall₂.nil
  | cons c p ih =>
    intro d h
    have := h d le_rfl
    exact List.Forall₂.cons ⟨by omega, by omega⟩ (ih (d - 1) fun k hk => h k (by omega))

/-! ### numbers along a row -/

/-- The cell `yz ++ [x]` has the number `v`. -/
def Num (n : Nat) (L : LCA) (yz : List Int) (x v : Int) : Prop := ∃ j, (yz, j) ∈ L.rows n ∧ x ∈ j ∧ v = j.index + x

theorem num_get {n : Nat} {L : LCA} (h : L.WF n) {yz : List Int} {x v : Int} (hv : Num n L yz x v) : getIndex L n yz x = some v := by
  obtain ⟨j, h1, h2, rfl⟩ := hv
  unfold getIndex
  rw [getInterval_row h h1 h2]
  rfl

theorem num_of_mem {n : Nat} {L : LCA} (h : L.WF n) {yz : List Int} {x : Int} (hm : L.Mem n (yz ++ [x])) :
    ∃ v, getIndex L n yz x = some v ∧ Num n L yz x v := by
  obtain ⟨e, he, y, hy, heq⟩ := (mem_iff_rows h _).1 hm
  obtain ⟨h1, rfl⟩ := snoc_inj heq
  have : Num n L yz x (e.2.index + x) := ⟨e.2, by rw [h1]; exact he, hy, rfl⟩
  exact ⟨_, num_get h this, this⟩

theorem num_shift {n : Nat} {L : LCA} (h : L.WF n) {yz : List Int} {a b v : Int} (hv : Num n L yz a v)
    (hm : ∀ x, (a ≤ x ∧ x ≤ b) ∨ (b ≤ x ∧ x ≤ a) → L.Mem n (yz ++ [x])) : Num n L yz b (v + (b - a)) := by
  obtain ⟨j, h1, h2, rfl⟩ := hv
  obtain ⟨j', g1, g2⟩ := same_interval h (yz := yz) (i := ⟨min a b, max a b + 1, 1, 0⟩) (by
    intro x hx
    have hx := Interval.mem_def.1 hx
    simp only at hx
    apply hm
    omega) (by show min a b < max a b + 1; omega)
  have ha : a ∈ j' := g2 a (Interval.mem_def.2 ⟨by show min a b ≤ a; omega, by show a < max a b + 1; omega⟩)
  have hb : b ∈ j' := g2 b (Interval.mem_def.2 ⟨by show min a b ≤ b; omega, by show b < max a b + 1; omega⟩)
  have := row_unique h h1 g1 h2 ha
  subst this
  exact ⟨j, h1, hb, by omega⟩

theorem num_numbered {n : Nat} {c : CA} {l : Nat} (hl : l ≤ c.maxSize) {yz : List Int} {x v : Int} (h : Num n (c.lca l) yz x v) :
    (l, yz ++ [x], v) ∈ c.numbered n := by
  obtain ⟨j, h1, h2, rfl⟩ := h
  unfold CA.numbered LCA.numbered
  rw [List.mem_flatMap]
  refine ⟨l, List.mem_range.2 (by omega), List.mem_map.2 ⟨(yz ++ [x], j.index + x), ?_, rfl⟩⟩
  rw [List.mem_flatMap]
  refine ⟨(yz, j), h1, List.mem_map.2 ⟨x, ?_, rfl⟩⟩
  have h2 := Interval.mem_def.1 h2
  show x ∈ (List.range (j.stop - j.start).toNat).map fun (k : Nat) => j.start + (k : Int)
  rw [List.mem_map]
  exact ⟨(x - j.start).toNat, List.mem_range.2 (by omega), by omega⟩

/-! ### iterators -/

theorem slide_of {σ : Type} {next : σ → σ} (f : Nat → σ) (hf : ∀ i, next (f i) = f (i + 1)) (k : Nat) :
    slide next k (f 0) = (List.range k).map f := by
  suffices ∀ k a, slide next k (f a) = (List.range k).map fun i => f (a + i) by simpa using this k 0
  intro k
  induction k with
  | zero => intro a; rfl
  | succ k ih =>
    intro a
    show f a :: slide next k (next (f a)) = _
    rw [hf, ih, List.range_succ_eq_map, List.map_cons, List.map_map]
    congr 1
    apply List.map_congr_left
    intro i _
    show f (a + 1 + i) = f (a + (i + 1))
    congr 1; omega

/-- The cell `i` steps further in its row. -/
def MCell.at (m : MCell) (i : Nat) : MCell := { m with x := m.x + i, index := m.index + i }

theorem MCell.at_zero (m : MCell) : m.at 0 = m := by cases m; simp [MCell.at]

theorem MCell.at_next (m : MCell) (i : Nat) : (m.at i).next = m.at (i + 1) := by
  cases m; simp only [MCell.at, MCell.next, Nat.cast_add, Nat.cast_one, MCell.mk.injEq]
  exact ⟨trivial, trivial, by omega, by omega⟩

theorem stencilNext_at (l : List MCell) (i : Nat) : stencilNext (l.map fun m => m.at i) = l.map fun m => m.at (i + 1) := by
  unfold stencilNext
  rw [List.map_map]
  apply List.map_congr_left
  intro m _
  exact m.at_next i

theorem map_at_zero (l : List MCell) : (l.map fun m => m.at 0) = l := by
  conv_rhs => rw [← List.map_id l]
  apply List.map_congr_left
  intro m _
  exact m.at_zero

/-- `m` is the cell `p` of level `l`, with its number. -/
def CellNum (n : Nat) (ref : CA) (l : Nat) (p : List Int) (m : MCell) : Prop :=
  m.level = l ∧ m.pt = p ∧ Num n (ref.lca l) m.yz m.x m.index

/-- The cells needed by `IteratorStencil::init`. -/
structure Avail (n : Nat) (L : LCA) (S : List (Nat → Int)) (c : Call) : Prop where
  orig : ∀ x ∈ c.2, L.Mem n (c.1 ++ [x])
  all : ∀ s ∈ S, ∀ x ∈ c.2, L.Mem n (shiftPoint s n c.1 ++ [x + s 0])
  row : ∀ s ∈ S, (∀ k < n, s (k + 1) = 0) → ∀ x ∈ c.2, ∀ t, (0 ≤ t ∧ t ≤ s 0) ∨ (s 0 ≤ t ∧ t ≤ 0) → L.Mem n (c.1 ++ [x + t])

/-- The cell of the stencil vector `s` at every position of the interval. -/
def Slides (n : Nat) (ref : CA) (level : Nat) (c : Call) (s : Nat → Int) (m : MCell) : Prop :=
  ∀ i : Nat, c.2.start + i < c.2.stop → CellNum n ref level (shiftPoint s n c.1 ++ [c.2.start + i + s 0]) (m.at i)

theorem slides_of {n : Nat} {ref : CA} {level : Nat} {c : Call} {s : Nat → Int} {v : Int} (hw : (ref.lca level).WF n)
    (hall : ∀ x ∈ c.2, (ref.lca level).Mem n (shiftPoint s n c.1 ++ [x + s 0]))
    (hv : Num n (ref.lca level) (shiftPoint s n c.1) (c.2.start + s 0) v) :
    Slides n ref level c s ⟨level, shiftPoint s n c.1, c.2.start + s 0, v⟩ := by
  intro i hi
  refine ⟨rfl, ?_, ?_⟩
  · show shiftPoint s n c.1 ++ [c.2.start + s 0 + i] = _
    congr 2; omega
  · show Num n (ref.lca level) (shiftPoint s n c.1) (c.2.start + s 0 + i) (v + i)
    have := num_shift hw (b := c.2.start + s 0 + i) hv (by
      intro x hx
      have := hall (x - s 0) (Interval.mem_def.2 ⟨by omega, by omega⟩)
      rwa [show x - s 0 + s 0 = x by omega] at this)
    rwa [show v + (c.2.start + s 0 + i - (c.2.start + s 0)) = v + i by omega] at this

theorem all_range {n : Nat} {f : Nat → Bool} : (List.range n).all f = true ↔ ∀ k < n, f k = true := by
  simp [List.all_eq_true]

theorem stencilCell_spec {n : Nat} {ref : CA} {level : Nat} {S : List (Nat → Int)} {c : Call} {s : Nat → Int} {v : Int}
    (hw : (ref.lca level).WF n) (hc : c.1.length = n) (hlt : c.2.start < c.2.stop) (ha : Avail n (ref.lca level) S c) (hs : s ∈ S)
    (hv : Num n (ref.lca level) c.1 c.2.start v) :
    ∃ m, stencilCell n ref level c v s = some m ∧ Slides n ref level c s m := by
  have hstart : c.2.start ∈ c.2 := Interval.mem_def.2 ⟨le_rfl, hlt⟩
  unfold stencilCell
  by_cases h0 : ∀ k < n, s (k + 1) = 0
  · rw [if_pos (all_range.2 fun k hk => by simpa using h0 k hk)]
    refine ⟨_, rfl, slides_of hw (ha.all s hs) ?_⟩
    rw [show shiftPoint s n c.1 = c.1 by subst hc; exact shift_row h0]
    have := num_shift hw (b := c.2.start + s 0) hv (by
      intro x hx
      have := ha.row s hs h0 c.2.start hstart (x - c.2.start) (by omega)
      rwa [show c.2.start + (x - c.2.start) = x by omega] at this)
    rwa [show v + (c.2.start + s 0 - c.2.start) = v + s 0 by omega] at this
  · rw [if_neg (by rw [all_range]; simpa using h0)]
    obtain ⟨u, u1, u2⟩ := num_of_mem hw (ha.all s hs c.2.start hstart)
    rw [u1]
    exact ⟨_, rfl, slides_of hw (ha.all s hs) u2⟩

theorem stencilCells_spec {n : Nat} {ref : CA} {level : Nat} {S : List (Nat → Int)} {c : Call} {v : Int} {o : Nat}
    (hw : (ref.lca level).WF n) (hc : c.1.length = n) (hlt : c.2.start < c.2.stop) (ha : Avail n (ref.lca level) S c)
    (hv : Num n (ref.lca level) c.1 c.2.start v) :
    ∀ (T : List (Nat → Int)) (id : Nat), (∀ s ∈ T, s ∈ S) → (∀ i s, T[i]? = some s → id + i = o → ∀ k ≤ n, s k = 0) →
      ∃ l, stencilCells n ref level c v o id T = some l ∧ List.Forall₂ (Slides n ref level c) T l := by
  intro T
  induction T with
  | nil => intro id _ _; exact ⟨[], rfl, List.Forall₂.nil⟩
  | cons s T ih =>
    intro id hS ho
    obtain ⟨l, l1, l2⟩ := ih (id + 1) (fun t ht => hS t (List.mem_cons_of_mem _ ht)) fun i t ht hi k hk =>
      ho (i + 1) t (by simpa using ht) (by omega) k hk
    have hcell : ∃ m, (if id = o then some ⟨level, c.1, c.2.start, v⟩ else stencilCell n ref level c v s) = some m ∧
        Slides n ref level c s m := by
      by_cases hid : id = o
      · rw [if_pos hid]
        have h0 := ho 0 s (by simp) (by omega)
        have e1 : shiftPoint s n c.1 = c.1 := by subst hc; exact shift_row fun k hk => h0 (k + 1) (by omega)
        have e2 : c.2.start + s 0 = c.2.start := by rw [h0 0 (by omega)]; omega
        have := slides_of (s := s) (v := v) (c := c) hw (ha.all s (hS s (by simp))) (by rw [e1, e2]; exact hv)
        rw [e1, e2] at this
        exact ⟨_, rfl, this⟩
      · rw [if_neg hid]
        exact stencilCell_spec hw hc hlt ha (hS s (by simp)) hv
    obtain ⟨m, m1, m2⟩ := hcell
    refine ⟨m :: l, ?_, List.Forall₂.cons m2 l2⟩
    unfold stencilCells
    rw [m1, l1]

theorem findIdx_some {α : Type} {f : α → Bool} {l : List α} {k : Nat} (h : l.findIdx? f = some k) :
    ∃ a, l[k]? = some a ∧ f a = true := by
  rw [List.findIdx?_eq_some_iff_getElem] at h
  obtain ⟨h1, h2, _⟩ := h
  exact ⟨_, List.getElem?_eq_getElem h1, h2⟩

theorem findIdx_of {α : Type} {f : α → Bool} {l : List α} {a : α} (h : a ∈ l) (hf : f a = true) :
    ∃ k, l.findIdx? f = some k ∧ ∃ b, l[k]? = some b ∧ f b = true := by
  cases hk : l.findIdx? f with
  | none =>
    rw [List.findIdx?_eq_none_iff] at hk
    have := hk a h
    rw [hf] at this
    cases this
  | some k => exact ⟨k, rfl, findIdx_some hk⟩

theorem stencilFind_of {n : Nat} {S : List (Nat → Int)} {v : Nat → Int} (h : ∃ s ∈ S, ∀ k ≤ n, s k = v k) :
    ∃ i, stencilFind n S v = some i ∧ ∃ s, S[i]? = some s ∧ ∀ k ≤ n, s k = v k := by
  obtain ⟨s, hs, hv⟩ := h
  obtain ⟨i, h1, t, h2, h3⟩ := findIdx_of (f := fun s : Nat → Int => (List.range (n + 1)).all fun k => s k == v k) hs
    (all_range.2 fun k hk => by simpa using hv k (by omega))
  refine ⟨i, h1, t, h2, fun k hk => ?_⟩
  have := all_range.1 h3 k (by omega)
  simpa using this

theorem stencilInit_spec {n : Nat} {ref : CA} {level : Nat} {S : List (Nat → Int)} {c : Call}
    (hw : (ref.lca level).WF n) (hc : c.1.length = n) (hlt : c.2.start < c.2.stop) (ha : Avail n (ref.lca level) S c)
    (h0 : ∃ s ∈ S, ∀ k ≤ n, s k = 0) :
    ∃ l, stencilInit n ref S level c = some l ∧ List.Forall₂ (Slides n ref level c) S l := by
  obtain ⟨o, h1, t, h2, h3⟩ := stencilFind_of (v := fun _ => 0) h0
  have h1 : stencilOrigin n S = some o := h1
  obtain ⟨v, v1, v2⟩ := num_of_mem hw (ha.orig c.2.start (Interval.mem_def.2 ⟨le_rfl, hlt⟩))
  obtain ⟨l, l1, l2⟩ := stencilCells_spec (o := o) hw hc hlt ha v2 S 0 (fun s hs => hs) (by
    intro i s hs hi k hk
    rw [show i = o by omega, h2] at hs
    cases hs
    exact h3 k hk)
  refine ⟨l, ?_, l2⟩
  unfold stencilInit
  rw [h1]
  simp only []
  rw [v1]
  exact l1

/-! ### one interval -/

/-- The cell of the stencil vector `s` seen from the cell `q`. -/
def CellsOf (n : Nat) (ref : CA) (level : Nat) (S : List (Nat → Int)) (q : List Int) (l : List MCell) : Prop :=
  List.Forall₂ (fun s m => CellNum n ref level (shiftPoint s n q) m) S l

theorem rowCells_eq (c : Call) : (coords1 c.2).map (fun x => c.1 ++ [x]) =
    (List.range c.2.size).map fun (i : Nat) => c.1 ++ [c.2.start + (i : Int)] := by
  unfold coords1
  rw [List.map_map]
  rfl

theorem slides_cell {n : Nat} {ref : CA} {level : Nat} {c : Call} {s : Nat → Int} {m : MCell} (hc : c.1.length = n)
    (h : Slides n ref level c s m) {i : Nat} (hi : i < c.2.size) :
    CellNum n ref level (shiftPoint s n (c.1 ++ [c.2.start + i])) (m.at i) := by
  unfold Interval.size at hi
  have := h i (by omega)
  subst hc
  rwa [shift_snoc]

theorem slides_cells {n : Nat} {ref : CA} {level : Nat} {c : Call} {S : List (Nat → Int)} {l : List MCell} (hc : c.1.length = n)
    (h : List.Forall₂ (Slides n ref level c) S l) {i : Nat} (hi : i < c.2.size) :
    CellsOf n ref level S (c.1 ++ [c.2.start + i]) (l.map fun m => m.at i) := by
  unfold CellsOf
  rw [List.forall₂_map_right_iff]
  exact h.imp fun s m hm => slides_cell hc hm hi

theorem forall₂_range {α β : Type} {R : α → β → Prop} {f : Nat → α} {g : Nat → β} {k : Nat} (h : ∀ i < k, R (f i) (g i)) :
    List.Forall₂ R ((List.range k).map f) ((List.range k).map g) := by
  rw [List.forall₂_map_right_iff, List.forall₂_map_left_iff, List.forall₂_same]
  intro i hi
  exact h i (List.mem_range.1 hi)

/-- What a call on the cell `q` of an interface of same level gets. -/
def SameFace (n : Nat) (ref : CA) (level : Nat) (dir : Nat → Int) (S : List (Nat → Int)) (q : List Int) (f : FaceCall) : Prop :=
  CellNum n ref level q f.left ∧ CellNum n ref level (shiftPoint dir n q) f.right ∧ CellsOf n ref level S q f.comput

theorem sameLevelRow_spec {n : Nat} {ref : CA} {level : Nat} {dir : Nat → Int} {S : List (Nat → Int)} {c : Call}
    (hw : (ref.lca level).WF n) (hc : c.1.length = n) (hlt : c.2.start < c.2.stop)
    (ha : Avail n (ref.lca level) S c) (hb : Avail n (ref.lca level) (inOutStencil dir) c) (h0 : ∃ s ∈ S, ∀ k ≤ n, s k = 0) :
    ∃ fs, sameLevelRow n ref level dir S c = some fs ∧
      List.Forall₂ (SameFace n ref level dir S) ((coords1 c.2).map fun x => c.1 ++ [x]) fs := by
  obtain ⟨l, l1, l2⟩ := stencilInit_spec hw hc hlt ha h0
  obtain ⟨l', l3, l4⟩ := stencilInit_spec hw hc hlt hb ⟨_, by unfold inOutStencil; exact List.mem_cons_self, fun _ _ => rfl⟩
  unfold inOutStencil at l4
  cases l4 with
  | @cons _ a _ _ ha1 l5 =>
  cases l5 with
  | @cons _ b _ _ hb1 l6 =>
  cases l6
  refine ⟨_, by unfold sameLevelRow; rw [l3, l1], ?_⟩
  have hs := slide_of (next := fun s : MCell × MCell × List MCell => (s.1.next, s.2.1.next, stencilNext s.2.2))
    (fun i => (a.at i, b.at i, l.map fun m => m.at i))
    (fun i => by simp only [MCell.at_next, stencilNext_at]) c.2.size
  simp only [map_at_zero] at hs
  simp only [MCell.at_zero] at hs
  rw [hs, rowCells_eq, List.map_map]
  apply forall₂_range
  intro i hi
  refine ⟨?_, slides_cell hc hb1 hi, slides_cells hc l2 hi⟩
  have := slides_cell hc ha1 hi
  rwa [shift_zero] at this

theorem facesOf_spec {α : Type} {row : Call → Option (List α)} {R : List Int → α → Prop} {calls : List Call}
    (h : ∀ c ∈ calls, ∃ fs, row c = some fs ∧ List.Forall₂ R ((coords1 c.2).map fun x => c.1 ++ [x]) fs) :
    ∃ fs, facesOf row calls = some fs ∧ List.Forall₂ R (callCells calls) fs := by
  induction calls with
  | nil => exact ⟨[], rfl, List.Forall₂.nil⟩
  | cons c cs ih =>
    obtain ⟨a, a1, a2⟩ := h c (by simp)
    obtain ⟨b, b1, b2⟩ := ih fun c' hc' => h c' (List.mem_cons_of_mem _ hc')
    refine ⟨a ++ b, by unfold facesOf; rw [a1, b1], ?_⟩
    show List.Forall₂ R (((coords1 c.2).map fun x => c.1 ++ [x]) ++ callCells cs) (a ++ b)
    exact List.rel_append a2 b2

/-! ### the level jump -/

/-- What a call on the cell `q` (of level `level + 1`) of a level jump gets: `v` goes from the coarse to the fine leaf. -/
def JumpFace (n : Nat) (ref : CA) (level : Nat) (v : Nat → Int) (S : List (Nat → Int)) (q : List Int)
    (f : MCell × MCell × List MCell) : Prop :=
  CellNum n ref level (parentOf q) f.1 ∧ CellNum n ref (level + 1) (shiftPoint v n q) f.2.1 ∧ CellsOf n ref (level + 1) S q f.2.2

theorem shr_even {a : Int} (h : a % 2 = 0) (i : Nat) : shr (a + i) 1 = shr a 1 + (i / 2 : Nat) := by
  unfold shr
  omega

/-- The rows of a level jump: one cell, or bounds that are even. -/
def EvenRow (c : Call) : Prop := c.2.stop = c.2.start + 1 ∨ (c.2.start % 2 = 0 ∧ c.2.stop % 2 = 0)

theorem jump_spec {n : Nat} {ref : CA} {level : Nat} {v : Nat → Int} {S : List (Nat → Int)} {c : Call}
    (hw1 : (ref.lca (level + 1)).WF n) (hw : (ref.lca level).WF n) (hc : c.1.length = n) (hlt : c.2.start < c.2.stop)
    (ha : Avail n (ref.lca (level + 1)) S c) (h0 : ∃ s ∈ S, ∀ k ≤ n, s k = 0) (hv : ∃ s ∈ S, ∀ k ≤ n, s k = v k)
    (hp : ∀ x ∈ c.2, (ref.lca level).Mem n (parentOf (c.1 ++ [x]))) (he : EvenRow c) :
    ∃ k l j, stencilFind n S v = some k ∧ stencilInit n ref S (level + 1) c = some l ∧ jumpInit n ref level l k c = some j ∧
      List.Forall₂ (JumpFace n ref level v S) ((coords1 c.2).map fun x => c.1 ++ [x])
        ((slide (fun s : JumpIter × List MCell => (s.1.next, stencilNext s.2)) c.2.size (j, l)).map
          fun s => (s.1.coarse, s.1.fine, s.2)) := by
  obtain ⟨k, k1, s, k2, k3⟩ := stencilFind_of hv
  obtain ⟨l, l1, l2⟩ := stencilInit_spec hw1 hc hlt ha h0
  have hlen := l2.length_eq
  have hk : k < S.length := (List.getElem?_eq_some_iff.1 k2).1
  obtain ⟨b, hb⟩ : ∃ b, l[k]? = some b := ⟨_, List.getElem?_eq_getElem (by omega)⟩
  have hsb : Slides n ref (level + 1) c s b := by
    have := (List.forall₂_iff_get.1 l2).2 k hk (by omega)
    have e1 : S.get ⟨k, hk⟩ = s := by rw [List.get_eq_getElem]; exact (List.getElem?_eq_some_iff.1 k2).2
    have e2 : l.get ⟨k, by omega⟩ = b := by rw [List.get_eq_getElem]; exact (List.getElem?_eq_some_iff.1 hb).2
    rwa [e1, e2] at this
  -- the coarse interval
  have hcp : ∀ y ∈ c.2.shiftRight 1, (ref.lca level).Mem n ((c.1.map fun y => shr y 1) ++ [y]) := by
    intro y hy
    obtain ⟨x, hx, hxy⟩ : ∃ x ∈ c.2, shr x 1 = y := by
      have hy : shr c.2.start 1 ≤ y ∧ y < shr (c.2.stop - 1) 1 + 1 := Interval.mem_def.1 hy
      unfold shr at hy ⊢
      by_cases h : c.2.start ≤ 2 * y
      · exact ⟨2 * y, Interval.mem_def.2 ⟨h, by omega⟩, by omega⟩
      · exact ⟨2 * y + 1, Interval.mem_def.2 ⟨by omega, by omega⟩, by omega⟩
    have := hp x hx
    unfold parentOf at this
    rw [List.map_append, List.map_singleton, hxy] at this
    exact this
  have hclt : (c.2.shiftRight 1).start < (c.2.shiftRight 1).stop := by
    show shr c.2.start 1 < shr (c.2.stop - 1) 1 + 1
    unfold shr; omega
  obtain ⟨l', l3, l4⟩ := stencilInit_spec (S := [fun _ => 0]) (c := (c.1.map fun y => shr y 1, c.2.shiftRight 1)) hw
    (by simp [hc]) hclt (by
      refine ⟨hcp, fun s hs x hx => ?_, fun s hs _ x hx t ht => ?_⟩
      · rw [List.mem_singleton.1 hs, shift_zero, add_zero]; exact hcp x hx
      · rw [List.mem_singleton.1 hs] at ht
        have ht : (0 ≤ t ∧ t ≤ 0) ∨ (0 ≤ t ∧ t ≤ 0) := ht
        rw [show t = 0 by omega, add_zero]; exact hcp x hx) ⟨_, List.mem_singleton.2 rfl, fun _ _ => rfl⟩
  cases l4 with
  | @cons _ a _ _ ha1 l5 =>
  cases l5
  refine ⟨k, l, ⟨a, b, 0⟩, k1, l1, by unfold jumpInit; rw [l3, hb], ?_⟩
  have hs := slide_of (next := fun s : JumpIter × List MCell => (s.1.next, stencilNext s.2))
    (fun i => (⟨a.at (i / 2), b.at i, i⟩, l.map fun m => m.at i))
    (fun i => by
      simp only [stencilNext_at, JumpIter.next, MCell.at_next, Prod.mk.injEq, JumpIter.mk.injEq, and_true]
      simp only [MCell.at, MCell.mk.injEq, true_and]
      by_cases h : i % 2 = 1
      · simp only [h, if_true]; omega
      · simp only [h, if_false]; omega) c.2.size
  simp only [map_at_zero, Nat.zero_div] at hs
  simp only [MCell.at_zero] at hs
  rw [hs, rowCells_eq, List.map_map]
  apply forall₂_range
  intro i hi
  refine ⟨?_, ?_, slides_cells hc l2 hi⟩
  · have hpar : parentOf (c.1 ++ [c.2.start + i]) = (c.1.map fun y => shr y 1) ++ [shr c.2.start 1 + (i / 2 : Nat)] := by
      unfold parentOf
      rw [List.map_append, List.map_singleton]
      congr 2
      rcases he with he | he
      · unfold Interval.size at hi
        rw [show i = 0 by omega]; simp
      · exact shr_even he.1 i
    have hsz : i / 2 < (c.2.shiftRight 1).size := by
      show i / 2 < (shr (c.2.stop - 1) 1 + 1 - shr c.2.start 1).toNat
      unfold Interval.size at hi
      unfold shr
      rcases he with he | he <;> omega
    have := slides_cell (by simp [hc]) ha1 hsz
    rw [shift_zero] at this
    rw [hpar]
    exact this
  · have := slides_cell hc hsb hi
    rwa [shift_congr _ n k3] at this

end Samurai

import Verif.Lemmas.RowAt
import Verif.Lemmas.Merge
import Verif.Lemmas.CellArray
import Verif.Spec.Subset

namespace Samurai

/-! ### nodes without projection -/

/-- No projection. -/
def Node.Flat : Node → Prop
  | .mesh _ => True
  | .translate t _ => t.Flat
  | .projection _ _ => False

/-- A well-formed mesh, with a `transform` that undoes all the translations. -/
structure Node.Good (n : Nat) (N : Node) : Prop where
  flat : N.Flat
  wf : N.base.WF n
  tr : ∀ d, 1 ≤ d → d ≤ n → ∀ c, N.transform d c = c - N.off d

theorem Node.start_eq {N : Node} (h : N.Flat) (he : N.base.isEmpty = false) (d k : Nat) :
    N.start d k = ((N.base.cells d)[k]?).map fun i => i.start + N.off d := by
  induction N with
  | mesh L => simp [Node.start, Node.base, Node.off] at *; simp [he]
  | translate t s ih =>
    simp only [Node.start, Node.base, Node.off]
    rw [ih h he]
    simp [Option.map_map, Function.comp_def, Int.add_assoc]
  | projection t l ih => exact h.elim

theorem Node.stop_eq {N : Node} (h : N.Flat) (he : N.base.isEmpty = false) (d k : Nat) :
    N.stop d k = ((N.base.cells d)[k]?).map fun i => i.stop + N.off d := by
  induction N with
  | mesh L => simp [Node.stop, Node.base, Node.off] at *; simp [he]
  | translate t s ih =>
    simp only [Node.stop, Node.base, Node.off]
    rw [ih h he]
    simp [Option.map_map, Function.comp_def, Int.add_assoc]
  | projection t l ih => exact h.elim

theorem Node.size_eq (N : Node) (d : Nat) : N.size d = (N.base.cells d).length := by
  induction N with
  | mesh L => rfl
  | translate t s ih => exact ih
  | projection t l ih => exact ih

theorem Node.offset_eq (N : Node) (d o : Nat) : N.offset (d + 1) o = (N.base.offsets d)[o]? := by
  induction N with
  | mesh L => rfl
  | translate t s ih => exact ih
  | projection t l ih => exact ih

theorem Node.interval_eq (N : Node) (d k : Nat) : N.interval d k = (N.base.cells d)[k]? := by
  induction N with
  | mesh L => rfl
  | translate t s ih => exact ih
  | projection t l ih => exact ih

theorem Node.find_eq (N : Node) (d lo hi : Nat) (c : Int) : N.find d lo hi c = findOnDim N.base d lo hi c := by
  induction N with
  | mesh L => rfl
  | translate t s ih => exact ih
  | projection t l ih => exact ih

theorem Node.isEmpty_eq (N : Node) : N.isEmpty = N.base.isEmpty := by
  induction N with
  | mesh L => rfl
  | translate t s ih => exact ih
  | projection t l ih => exact ih

theorem Node.level_eq {N : Node} (h : N.Flat) : N.level = N.base.level := by
  induction N with
  | mesh L => rfl
  | translate t s ih => exact ih h
  | projection t l ih => exact h.elim

/-- The coordinates of a node, moved to the level of the sweep, stay below `INT_MAX`. -/
def Node.Safe (n : Nat) (N : Node) (s : Int) : Prop :=
  ∀ d ≤ n, ∀ i ∈ N.base.cells d, (i.stop + N.off d + 1) * 2 ^ s.toNat + 1 < INT_MAX

/-! ### the view of a leaf in the current direction -/

namespace Leaf

/-- The intervals walked by the leaf, in the coordinates of the node level (or of the sweep level for
the work list). -/
def baseList (n : Nat) (l : Leaf) : List Interval :=
  if 0 ≤ l.shift ∨ l.d = n then (l.node.base.cells l.d).map (·.addAssign (l.node.off l.d)) else l.st.work

/-- The intervals seen by the sweep for a part of the base list. -/
def viewOf (n : Nat) (l : Leaf) (bs : List Interval) : List Interval :=
  if 0 ≤ l.shift then bs.map (·.shiftLeft l.shift.toNat)
  else if l.d = n then mergeProj (-l.shift).toNat bs else bs

/-- The intervals seen by the sweep in the current direction. -/
def view (n : Nat) (l : Leaf) : List Interval := l.viewOf n (slice (l.baseList n) l.st.start l.st.stop)

/-- What a leaf must satisfy in the current direction. -/
structure OK (n : Nat) (l : Leaf) : Prop where
  good : l.node.Good n
  le : l.d ≤ n
  safe : l.node.Safe n l.shift
  row : l.st.start = l.st.stop ∨
    (l.st.start < l.st.stop ∧ l.st.stop ≤ (l.baseList n).length ∧
      Canonical (slice (l.baseList n) l.st.start l.st.stop))
  cur : l.st.cur = INT_MAX ↔ l.st.start = l.st.stop
  work : ¬ (0 ≤ l.shift ∨ l.d = n) → l.st.start < l.st.stop →
    l.st.stop = l.st.work.length ∧ ∀ w ∈ l.st.work, w.stop + 1 < INT_MAX

/-- Two states that differ only by the position in the current direction (and by the directions
below). -/
structure Static (l l' : Leaf) : Prop where
  node : l'.node = l.node
  shift : l'.shift = l.shift
  d : l'.d = l.d
  up : ∀ d', l.d < d' → l'.dims d' = l.dims d'
  start : l'.st.start = l.st.start
  stop : l'.st.stop = l.st.stop
  startOff : l'.st.startOff = l.st.startOff
  endOff : l'.st.endOff = l.st.endOff
  work : l'.st.work = l.st.work
  workOffs : l'.st.workOffs = l.st.workOffs
  cur : l'.st.cur = INT_MAX ↔ l.st.cur = INT_MAX

theorem Static.refl (l : Leaf) : Static l l :=
  ⟨rfl, rfl, rfl, fun _ _ => rfl, rfl, rfl, rfl, rfl, rfl, rfl, Iff.rfl⟩

theorem Static.trans {a b c : Leaf} (h : Static a b) (h' : Static b c) : Static a c where
  node := h'.node.trans h.node
  shift := h'.shift.trans h.shift
  d := h'.d.trans h.d
  up d' hd := (h'.up d' (by rw [h.d]; exact hd)).trans (h.up d' hd)
  start := h'.start.trans h.start
  stop := h'.stop.trans h.stop
  startOff := h'.startOff.trans h.startOff
  endOff := h'.endOff.trans h.endOff
  work := h'.work.trans h.work
  workOffs := h'.workOffs.trans h.workOffs
  cur := h'.cur.trans h.cur

theorem Static.baseList {l l' : Leaf} (h : Static l l') (n : Nat) : l'.baseList n = l.baseList n := by
  unfold Leaf.baseList; rw [h.shift, h.d, h.node, h.work]

theorem Static.viewOf {l l' : Leaf} (h : Static l l') (n : Nat) : l'.viewOf n = l.viewOf n := by
  funext bs; unfold Leaf.viewOf; rw [h.shift, h.d]

theorem Static.view {l l' : Leaf} (h : Static l l') (n : Nat) : l'.view n = l.view n := by
  unfold Leaf.view; rw [h.viewOf, h.baseList, h.start, h.stop]

theorem Static.ok {l l' : Leaf} (h : Static l l') {n : Nat} (ho : l.OK n) : l'.OK n where
  good := by rw [h.node]; exact ho.good
  le := by rw [h.d]; exact ho.le
  safe := by rw [h.node, h.shift]; exact ho.safe
  row := by rw [h.start, h.stop, h.baseList]; exact ho.row
  cur := by rw [h.cur, h.start, h.stop]; exact ho.cur
  work := by rw [h.shift, h.d, h.start, h.stop, h.work]; exact ho.work

/-- Overwriting the position in the current direction. -/
theorem static_set (l : Leaf) (index : Nat) (ipos : Bool) (cur : Int) (h : cur = INT_MAX ↔ l.st.cur = INT_MAX) :
    Static l (l.setDim l.d { l.st with index := index, ipos := ipos, cur := cur }) := by
  have hst : (l.setDim l.d { l.st with index := index, ipos := ipos, cur := cur }).st =
      { l.st with index := index, ipos := ipos, cur := cur } := by
    simp [Leaf.st, Leaf.setDim]
  refine ⟨rfl, rfl, rfl, ?_, by rw [hst], by rw [hst], by rw [hst], by rw [hst], by rw [hst], by rw [hst], by rw [hst]; exact h⟩
  intro d' hd
  simp only [Leaf.setDim]
  rw [if_neg (by omega)]

@[simp] theorem st_setDim (l : Leaf) (s : LeafDim) : (l.setDim l.d s).st = s := by
  simp [Leaf.st, Leaf.setDim]

/-! ### properties of the view -/

theorem slice_drop_canonical {l : List Interval} {a b c : Nat} (h : Canonical (slice l a c)) (hab : a ≤ b) :
    Canonical (slice l b c) := by
  have : slice l b c = (slice l a c).drop (b - a) := by
    unfold slice
    rw [List.drop_drop]
    congr 1
    omega
  rw [this]
  generalize b - a = k
  generalize slice l a c = m at h
  induction k generalizing m with
  | zero => exact h
  | succ k ih =>
    cases m with
    | nil => exact h
    | cons i m => exact ih m h.tail

theorem OK.nonempty {n : Nat} {l : Leaf} (h : l.OK n) (hs : l.st.start < l.st.stop)
    (hk : 0 ≤ l.shift ∨ l.d = n) : l.node.base.isEmpty = false := by
  rcases h.row with h0 | ⟨_, h2, _⟩
  · omega
  · unfold baseList at h2
    rw [if_pos hk, List.length_map] at h2
    by_contra hc
    rw [Bool.not_eq_false] at hc
    have h0 := (isEmpty_iff h.good.wf).1 hc
    rw [(h.good.wf.empty h0).1 l.d h.le] at h2
    simp at h2
    omega

theorem viewOf_nil (n : Nat) (l : Leaf) : l.viewOf n [] = [] := by
  unfold viewOf
  split
  · rfl
  · split <;> rfl

theorem viewOf_cons (n : Nat) (l : Leaf) (b : Interval) (bs : List Interval) :
    ∃ i r, l.viewOf n (b :: bs) = i :: r ∧
      i.start = (if 0 ≤ l.shift ∨ l.d = n then shiftValue b.start l.shift else b.start) := by
  unfold viewOf shiftValue
  by_cases h : 0 ≤ l.shift
  · simp [h, Interval.shiftLeft]
  · by_cases h' : l.d = n
    · simp only [h, h', if_false, if_true, false_or]
      exact ⟨_, _, mergeGo_run _ _ _ _, rfl⟩
    · simp [h, h']

theorem viewOf_canonical (n : Nat) (l : Leaf) {bs : List Interval} (h : Canonical bs) :
    Canonical (l.viewOf n bs) := by
  unfold viewOf
  split
  · exact (canonical_shiftLeft h).1
  · split
    · exact (mergeProj_spec h).1
    · exact h

theorem OK.canonical {n : Nat} {l : Leaf} (h : l.OK n) : Canonical (l.view n) := by
  unfold view
  rcases h.row with h0 | ⟨_, _, h3⟩
  · rw [h0, slice_nil, viewOf_nil]; trivial
  · exact viewOf_canonical n l h3

theorem OK.view_nil {n : Nat} {l : Leaf} (h : l.OK n) : l.view n = [] ↔ l.st.start = l.st.stop := by
  unfold view
  constructor
  · intro h0
    rcases h.row with h1 | ⟨h1, h2, _⟩
    · exact h1
    · rw [slice_cons h1 (List.getElem?_eq_getElem (by omega))] at h0
      obtain ⟨i, r, h3, _⟩ := viewOf_cons n l ((l.baseList n)[l.st.start]) (slice (l.baseList n) (l.st.start + 1) l.st.stop)
      rw [h3] at h0
      cases h0
  · intro h0
    rw [h0, slice_nil, viewOf_nil]

theorem baseList_get {n : Nat} {l : Leaf} (hk : 0 ≤ l.shift ∨ l.d = n) (idx : Nat) :
    (l.baseList n)[idx]? = ((l.node.base.cells l.d)[idx]?).map (·.addAssign (l.node.off l.d)) := by
  unfold baseList
  rw [if_pos hk, List.getElem?_map]

/-- Reading the start of an interval of the leaf. -/
theorem OK.startAt {n : Nat} {l : Leaf} (h : l.OK n) (hs : l.st.start < l.st.stop) {idx : Nat}
    (h1 : idx < l.st.stop) :
    ∃ i r, l.viewOf n (slice (l.baseList n) idx l.st.stop) = i :: r ∧ l.startAt n idx = some i.start := by
  rcases h.row with h0 | ⟨_, h2, _⟩
  · omega
  · have hlt : idx < (l.baseList n).length := by omega
    have hget := List.getElem?_eq_getElem hlt
    generalize (l.baseList n)[idx] = b at hget
    rw [slice_cons h1 hget]
    obtain ⟨i, r, h3, h4⟩ := viewOf_cons n l b (slice (l.baseList n) (idx + 1) l.st.stop)
    refine ⟨i, r, h3, ?_⟩
    unfold Leaf.startAt
    by_cases hk : 0 ≤ l.shift ∨ l.d = n
    · rw [if_pos hk] at h4 ⊢
      rw [Node.start_eq h.good.flat (h.nonempty hs hk)]
      rw [baseList_get hk, Option.map_eq_some_iff] at hget
      obtain ⟨a, ha, rfl⟩ := hget
      rw [ha, h4]
      rfl
    · rw [if_neg hk] at h4 ⊢
      unfold baseList at hget
      rw [if_neg hk] at hget
      rw [hget, h4]
      rfl

/-! ### the position in the view -/

/-- The leaf is positioned at the first boundary of its view that is at least `s`. -/
def At (n : Nat) (sent : Int) (l : Leaf) (s : Int) : Prop :=
  ∃ pre rem, l.view n = pre ++ rem ∧ (∀ i ∈ pre, i.stop < s) ∧ (∀ i ∈ rem, s ≤ i.stop) ∧
    l.st.start ≤ l.st.index ∧
    ((l.st.ipos = false ∧ rem = l.viewOf n (slice (l.baseList n) l.st.index l.st.stop) ∧
        (rem = [] → sent ≤ l.st.cur) ∧ (∀ i r, rem = i :: r → l.st.cur = i.start ∧ s ≤ i.start)) ∨
     (l.st.ipos = true ∧ l.st.index < l.st.stop ∧
        ∃ i, rem = i :: l.viewOf n (slice (l.baseList n) (l.st.index + 1) l.st.stop) ∧
          l.st.cur = i.stop ∧ i.start < s))

/-- Boundaries left. -/
def left (l : Leaf) : Nat := 2 * (l.st.stop - l.st.index) - (if l.st.ipos then 1 else 0)

theorem mem_view_split {V pre rem : List Interval} (h : V = pre ++ rem) (x : Int) :
    MemList x V ↔ MemList x pre ∨ MemList x rem := by rw [h, memList_append]

theorem not_mem_pre {pre : List Interval} {s : Int} (h : ∀ i ∈ pre, i.stop < s) {x : Int} (hx : s - 1 ≤ x) :
    ¬ MemList x pre := by
  rintro ⟨i, hi, hm⟩
  have := h i hi
  have := Interval.mem_def.1 hm
  omega

theorem not_mem_rem {rem : List Interval} {c : Int} (h : CanonFrom c rem) {x : Int} (hx : x ≤ c) :
    ¬ MemList x rem := fun hm => by have := h.lt_of_mem hm; omega

theorem canonical_append_right {a b : List Interval} (h : Canonical (a ++ b)) : Canonical b := by
  induction a with
  | nil => exact h
  | cons i a ih => exact ih h.tail

/-- Between its position and the next boundary, membership in the view is constant. -/
theorem At.mem {n : Nat} {sent : Int} {l : Leaf} {s : Int} (ho : l.OK n) (h : l.At n sent s) {x : Int}
    (h1 : s - 1 ≤ x) (h2 : x < l.st.cur) : MemList x (l.view n) ↔ l.st.ipos = true := by
  obtain ⟨pre, rem, hv, hpre, hrem, hidx, hpos⟩ := h
  have hcan := ho.canonical
  rw [hv] at hcan
  have hcr := canonical_append_right hcan
  rw [mem_view_split hv]
  have hnp := not_mem_pre hpre h1
  rcases hpos with ⟨hp, hr, he, hc⟩ | ⟨hp, hlt, i, hr, hc, hi⟩
  · rw [hp]
    cases rem with
    | nil => simp [hnp]
    | cons i r =>
      obtain ⟨e1, e2⟩ := hc i r rfl
      have : ¬ MemList x (i :: r) :=
        not_mem_rem (canonFrom_of_canonical hcr (show x < i.start by omega)) le_rfl
      simp [hnp, this]
  · rw [hp, hr]
    have := hrem i (by rw [hr]; exact List.mem_cons_self)
    simp only [memList_cons, Interval.mem_def, iff_true]
    exact Or.inr (Or.inl ⟨by omega, by omega⟩)

/-- `eval` is the membership in the view. -/
theorem At.eval {n : Nat} {sent : Int} {l : Leaf} {s : Int} (ho : l.OK n) (h : l.At n sent s)
    (h1 : s ≤ l.st.cur) (h2 : s < sent) : (l.eval s = true ↔ MemList s (l.view n)) := by
  have hcan := ho.canonical
  have hnil := ho.view_nil
  obtain ⟨pre, rem, hv, hpre, hrem, hidx, hpos⟩ := h
  have hval : rem ≠ [] → l.isValid = true := by
    intro hr
    unfold Leaf.isValid
    have : l.view n ≠ [] := by rw [hv]; simp [hr]
    have : ¬ l.st.start = l.st.stop := fun hc => this (hnil.2 hc)
    simp; omega
  rw [hv] at hcan
  have hcr := canonical_append_right hcan
  rw [mem_view_split hv]
  have hnp := not_mem_pre hpre (show s - 1 ≤ s by omega)
  unfold Leaf.eval
  rcases hpos with ⟨hp, hr, he, hc⟩ | ⟨hp, hlt, i, hr, hc, hi⟩
  · rw [hp]
    cases rem with
    | nil =>
      have := he rfl
      simp [hnp]; omega
    | cons i r =>
      obtain ⟨e1, e2⟩ := hc i r rfl
      rw [hval (by simp)]
      obtain ⟨v1, v2⟩ := hcr.cons
      have : ¬ MemList s r := not_mem_rem v2 (by omega)
      simp only [hnp, false_or, memList_cons, this, or_false, Interval.mem_def, e1]
      simp
      omega
  · rw [hp, hval (by rw [hr]; simp), hc]
    rw [hr] at hcr
    obtain ⟨v1, v2⟩ := hcr.cons
    have h5 : ¬ MemList s (l.viewOf n (slice (l.baseList n) (l.st.index + 1) l.st.stop)) :=
      not_mem_rem v2 (by omega)
    rw [hr]
    simp only [hnp, false_or, memList_cons, h5, or_false, Interval.mem_def]
    simp
    omega

/-- Moving to a later position before the next boundary. -/
theorem At.jump {n : Nat} {sent : Int} {l : Leaf} {s s' : Int} (ho : l.OK n) (h : l.At n sent s) (h1 : s ≤ s')
    (h2 : s' ≤ l.st.cur) : l.At n sent s' := by
  have hcan := ho.canonical
  obtain ⟨pre, rem, hv, hpre, hrem, hidx, hpos⟩ := h
  rw [hv] at hcan
  have hcr := canonical_append_right hcan
  refine ⟨pre, rem, hv, fun i hi => by have := hpre i hi; omega, ?_, hidx, ?_⟩
  · intro i hi
    obtain ⟨a, r, ha⟩ : ∃ a r, rem = a :: r := by
      cases rem with
      | nil => simp at hi
      | cons a r => exact ⟨a, r, rfl⟩
    have hab : l.st.cur ≤ a.stop := by
      rw [ha] at hcr
      have := hcr.cons.1
      rcases hpos with ⟨_, _, _, hc⟩ | ⟨_, _, i', hr, hc, _⟩
      · have := (hc a r ha).1; omega
      · rw [ha] at hr; cases hr; omega
    rw [ha] at hi hcr
    obtain ⟨v1, v2⟩ := hcr.cons
    rcases List.mem_cons.1 hi with rfl | hi
    · omega
    · have := v2.of_mem hi; omega
  · rcases hpos with ⟨hp, hr, he, hc⟩ | ⟨hp, hlt, i, hr, hc, hi⟩
    · exact Or.inl ⟨hp, hr, he, fun i r hir => ⟨(hc i r hir).1, by have := (hc i r hir).1; omega⟩⟩
    · exact Or.inr ⟨hp, hlt, i, hr, hc, by omega⟩

theorem At.static {n : Nat} {sent : Int} {l l' : Leaf} {s : Int} (h : l.At n sent s) (hs : Static l l')
    (hst : l'.st = l.st) : l'.At n sent s := by
  unfold At at *
  rw [hs.view, hs.viewOf, hs.baseList, hst]
  exact h

theorem slice_empty {α : Type} {l : List α} {a b : Nat} (h : b ≤ a) : slice l a b = [] := by
  unfold slice
  rw [List.drop_eq_nil_iff, List.length_take]
  omega

/-- All the coordinates of the view are small. -/
theorem OK.bound {n : Nat} {l : Leaf} (h : l.OK n) {x : Int} (hx : MemList x (l.view n)) : x + 2 < INT_MAX := by
  have hne : l.st.start < l.st.stop := by
    by_contra hc
    have : l.st.start = l.st.stop := by rcases h.row with h0 | h0 <;> omega
    rw [h.view_nil.2 this] at hx
    simp at hx
  unfold view at hx
  rcases h.row with h0 | ⟨_, h2, h3⟩
  · omega
  by_cases hk : 0 ≤ l.shift ∨ l.d = n
  · -- coordinates below the bound for the node
    have hb : ∀ y, MemList y (slice (l.baseList n) l.st.start l.st.stop) →
        (y + 2) * 2 ^ l.shift.toNat + 1 < INT_MAX := by
      rintro y ⟨i, hi, hy⟩
      obtain ⟨k, _, _, hki⟩ := mem_slice.1 hi
      rw [baseList_get hk, Option.map_eq_some_iff] at hki
      obtain ⟨a, ha, rfl⟩ := hki
      have hs := h.safe l.d h.le a (List.mem_of_getElem? ha)
      have hy := Interval.mem_def.1 hy
      simp only [Interval.addAssign] at hy
      have : (y + 2) * 2 ^ l.shift.toNat ≤ (a.stop + l.node.off l.d + 1) * 2 ^ l.shift.toNat :=
        mul_le_mul_of_nonneg_right (by omega) (by positivity)
      omega
    unfold viewOf at hx
    by_cases hsh : 0 ≤ l.shift
    · rw [if_pos hsh, (canonical_shiftLeft h3).2] at hx
      have h4 := hb _ hx
      have h5 := lt_shl_shr_succ x l.shift.toNat
      unfold shl at h5
      have h6 := pow_two_pos l.shift.toNat
      have h7 : (shr x l.shift.toNat + 2) * 2 ^ l.shift.toNat =
        (shr x l.shift.toNat + 1) * 2 ^ l.shift.toNat + 2 ^ l.shift.toNat := by ring
      omega
    · have hd : l.d = n := by tauto
      rw [if_neg hsh, if_pos hd, (mergeProj_spec h3).2] at hx
      obtain ⟨y, hy, rfl⟩ := hx
      have h4 := hb _ hy
      rw [show l.shift.toNat = 0 by omega] at h4
      have h5 := shl_shr_le y (-l.shift).toNat
      have h6 := pow_two_pos (-l.shift).toNat
      by_contra hc
      have h8 : 0 ≤ shr y (-l.shift).toNat := by unfold INT_MAX at hc; omega
      have : shr y (-l.shift).toNat ≤ shl (shr y (-l.shift).toNat) (-l.shift).toNat := by
        unfold shl
        nlinarith
      omega
  · obtain ⟨hw1, hw2⟩ := h.work hk hne
    have hk1 : ¬ 0 ≤ l.shift := by tauto
    have hk2 : ¬ l.d = n := by tauto
    unfold viewOf at hx
    rw [if_neg hk1, if_neg hk2] at hx
    obtain ⟨i, hi, hxi⟩ := hx
    obtain ⟨k, _, _, hki⟩ := mem_slice.1 hi
    unfold baseList at hki
    rw [if_neg hk] at hki
    have := hw2 i (List.mem_of_getElem? hki)
    have := Interval.mem_def.1 hxi
    omega

theorem OK.bound_stop {n : Nat} {l : Leaf} (h : l.OK n) {i : Interval} (hi : i ∈ l.view n) :
    i.stop + 1 < INT_MAX := by
  have hv := h.canonical.valid hi
  have := h.bound ⟨i, hi, Interval.mem_def.2 (show i.start ≤ i.stop - 1 ∧ i.stop - 1 < i.stop by omega)⟩
  omega

/-- The merging loop of `update`. -/
theorem mergeLoop_spec {n : Nat} {l : Leaf} (h : l.OK n) (hs : l.st.start < l.st.stop) (hd : l.d = n)
    (hsh : ¬ 0 ≤ l.shift) (fuel : Nat) : ∀ (index : Nat) (value : Int), index < l.st.stop →
    l.st.stop ≤ index + fuel →
    ∃ index' value', mergeLoop l l.st.stop fuel index value = some (index', value') ∧ index ≤ index' ∧
      index' < l.st.stop ∧
      mergeRun (-l.shift).toNat value (slice (l.baseList n) (index + 1) l.st.stop) =
        (value', slice (l.baseList n) (index' + 1) l.st.stop) := by
  induction fuel with
  | zero => intro index value h1 h2; omega
  | succ fuel ih =>
    intro index value h1 h2
    unfold mergeLoop
    split
    · rename_i hlt
      have hlen : l.st.stop ≤ (l.baseList n).length := by
        rcases h.row with h0 | ⟨_, h2, _⟩
        · omega
        · exact h2
      have hne := h.nonempty hs (Or.inr hd)
      have hget := List.getElem?_eq_getElem (show index + 1 < (l.baseList n).length by omega)
      generalize (l.baseList n)[index + 1] = b at hget
      rw [slice_cons hlt hget]
      rw [baseList_get (Or.inr hd), Option.map_eq_some_iff] at hget
      obtain ⟨a, ha, rfl⟩ := hget
      rw [Node.start_eq h.good.flat hne, Node.stop_eq h.good.flat hne, ha]
      simp only [Option.map_some]
      unfold mergeRun
      have e1 : shiftValue (a.start + l.node.off l.d) l.shift =
          ps (-l.shift).toNat (a.addAssign (l.node.off l.d)) := by
        unfold shiftValue; rw [if_neg hsh]; rfl
      have e2 : shiftValue (a.stop + l.node.off l.d - 1) l.shift + 1 =
          pe (-l.shift).toNat (a.addAssign (l.node.off l.d)) := by
        unfold shiftValue; rw [if_neg hsh]; rfl
      rw [e1, e2]
      split
      · obtain ⟨i', v', g1, g2, g3, g4⟩ := ih (index + 1) (pe (-l.shift).toNat (a.addAssign (l.node.off l.d)))
          hlt (by omega)
        exact ⟨i', v', g1, by omega, g3, g4⟩
      · refine ⟨index, value, rfl, le_rfl, h1, ?_⟩
        rw [slice_cons hlt (by rw [baseList_get (Or.inr hd), ha]; rfl)]
    · rename_i hlt
      refine ⟨index, value, rfl, le_rfl, h1, ?_⟩
      rw [slice_empty (by omega)]
      rfl

/-- Entering an interval. -/
theorem OK.enter {n : Nat} {l : Leaf} (h : l.OK n) (hs : l.st.start < l.st.stop) {scan sent : Int}
    (h0 : scan = l.st.cur) (h1 : l.st.ipos = false) (h2 : l.st.index < l.st.stop)
    (hidx : l.st.start ≤ l.st.index) {i : Interval}
    {r : List Interval} (hv : l.viewOf n (slice (l.baseList n) l.st.index l.st.stop) = i :: r)
    (hc : l.st.cur = i.start) :
    ∃ index', l.update n scan sent =
        some (l.setDim l.d { l.st with index := index', ipos := true, cur := i.stop }) ∧
      l.st.index ≤ index' ∧ index' < l.st.stop ∧
      r = l.viewOf n (slice (l.baseList n) (index' + 1) l.st.stop) := by
  have hlen : l.st.stop ≤ (l.baseList n).length := by
    rcases h.row with h0 | ⟨_, h2, _⟩
    · omega
    · exact h2
  have hget := List.getElem?_eq_getElem (show l.st.index < (l.baseList n).length by omega)
  generalize (l.baseList n)[l.st.index] = b at hget
  rw [slice_cons h2 hget] at hv
  unfold Leaf.update
  simp only [h0, h1, if_true]
  rw [if_neg (by simp)]
  by_cases hsh : 0 ≤ l.shift
  · rw [if_pos hsh]
    have hne := h.nonempty hs (Or.inl hsh)
    rw [baseList_get (Or.inl hsh), Option.map_eq_some_iff] at hget
    obtain ⟨a, ha, rfl⟩ := hget
    rw [Node.stop_eq h.good.flat hne, ha]
    unfold viewOf at hv ⊢
    simp only [if_pos hsh] at hv ⊢
    rw [List.map_cons, List.cons.injEq] at hv
    obtain ⟨rfl, rfl⟩ := hv
    refine ⟨l.st.index, ?_, le_rfl, h2, rfl⟩
    simp [shiftValue, hsh, Interval.shiftLeft, Interval.addAssign]
  · rw [if_neg hsh]
    by_cases hd : l.d = n
    · rw [if_pos hd]
      have hne := h.nonempty hs (Or.inr hd)
      have hget' := hget
      rw [baseList_get (Or.inr hd), Option.map_eq_some_iff] at hget'
      obtain ⟨a, ha, rfl⟩ := hget'
      rw [Node.stop_eq h.good.flat hne, ha]
      have e1 : shiftValue (a.start + l.node.off l.d) l.shift =
          ps (-l.shift).toNat (a.addAssign (l.node.off l.d)) := by
        unfold shiftValue; rw [if_neg hsh]; rfl
      have e2 : shiftValue (a.stop + l.node.off l.d - 1) l.shift + 1 =
          pe (-l.shift).toNat (a.addAssign (l.node.off l.d)) := by
        unfold shiftValue; rw [if_neg hsh]; rfl
      simp only [Option.map_some, e2]
      have hcan : Canonical (slice (l.baseList n) l.st.start l.st.stop) := by
        rcases h.row with h0 | ⟨_, _, h3⟩
        · omega
        · exact h3
      unfold viewOf at hv ⊢
      rw [if_neg hsh, if_pos hd] at hv
      have hmerge : mergeProj (-l.shift).toNat (a.addAssign (l.node.off l.d) ::
          slice (l.baseList n) (l.st.index + 1) l.st.stop) = _ := mergeGo_run _ _ _ _
      rw [hmerge, List.cons.injEq] at hv
      obtain ⟨rfl, rfl⟩ := hv
      obtain ⟨i', v', g1, g2, g3, g4⟩ := mergeLoop_spec h hs hd hsh (l.st.stop - l.st.index + 1) l.st.index
        (pe (-l.shift).toNat (a.addAssign (l.node.off l.d))) h2 (by omega)
      have hne' : ¬ l.st.cur = pe (-l.shift).toNat (a.addAssign (l.node.off l.d)) := by
        rw [hc]
        show ¬ ps (-l.shift).toNat _ = _
        have hval := hcan.valid (mem_slice.2 ⟨l.st.index, hidx, h2, hget⟩)
        have := ps_lt_pe (k := (-l.shift).toNat) hval
        omega
      rw [if_neg hne', g1]
      refine ⟨i', ?_, g2, g3, ?_⟩
      · rw [g4]; rfl
      · rw [g4, if_neg hsh, if_pos hd]
    · rw [if_neg hd]
      unfold baseList at hget
      rw [if_neg (by tauto)] at hget
      rw [hget]
      unfold viewOf at hv ⊢
      simp only [if_neg hsh, if_neg hd] at hv ⊢
      cases hv
      exact ⟨l.st.index, rfl, le_rfl, h2, rfl⟩

/-- One step of `update`. -/
theorem update_spec {n : Nat} {l : Leaf} {s sent : Int} (h : l.OK n) (ha : l.At n sent s) (hs : s ≤ l.st.cur)
    (hss : s < sent) (hsent : sent < INT_MAX) :
    ∃ l', l.update n s sent = some l' ∧ Static l l' ∧ l'.At n sent (s + 1) ∧ s + 1 ≤ l'.st.cur ∧
      l'.left ≤ l.left ∧ (s = l.st.cur → l'.left < l.left) := by
  by_cases he : s = l.st.cur
  swap
  · refine ⟨l, ?_, Static.refl l, ha.jump h (by omega) (by omega), by omega, le_rfl, fun hc => absurd hc he⟩
    unfold Leaf.update
    simp [he]
  have hlt : l.st.start < l.st.stop := by
    rcases h.row with h0 | h0
    · have := h.cur.2 h0; omega
    · exact h0.1
  have hcur : l.st.cur ≠ INT_MAX := by omega
  have hbound := fun i hi => h.bound_stop (i := i) hi
  have hcan := h.canonical
  obtain ⟨pre, rem, hv, hpre, hrem, hidx, hpos⟩ := ha
  rw [hv] at hcan hbound
  have hcr := canonical_append_right hcan
  rcases hpos with ⟨hp, hr, he', hc⟩ | ⟨hp, hlt', i, hr, hc, hi⟩
  · -- entering an interval
    cases rem with
    | nil => have := he' rfl; omega
    | cons i r =>
      obtain ⟨e1, e2⟩ := hc i r rfl
      have hix : l.st.index < l.st.stop := by
        by_contra hcon
        rw [slice_empty (by omega), viewOf_nil] at hr
        cases hr
      obtain ⟨idx, g1, g2, g3, g4⟩ := h.enter (sent := sent) hlt he hp hix hidx hr.symm e1
      have hst := static_set l idx true i.stop (by
        have := hbound i (by simp)
        constructor
        · intro h'; omega
        · intro h'; omega)
      have hv1 := hcr.cons.1
      refine ⟨_, g1, hst, ?_, ?_, ?_, ?_⟩
      · refine ⟨pre, i :: r, by rw [hst.view]; exact hv, fun j hj => by have := hpre j hj; omega, ?_, ?_, Or.inr ?_⟩
        · intro j hj
          rcases List.mem_cons.1 hj with rfl | hj
          · omega
          · have := hcr.cons.2.of_mem hj
            omega
        · rw [st_setDim]; exact hidx.trans g2
        · rw [hst.viewOf, hst.baseList, st_setDim]
          exact ⟨rfl, g3, i, by rw [g4], rfl, by omega⟩
      · rw [st_setDim]; show s + 1 ≤ i.stop; omega
      · simp only [left, st_setDim, hp]; simp; omega
      · intro _; simp only [left, st_setDim, hp]; simp; omega
  · -- leaving an interval
    have hsp : ∀ c, c ≠ INT_MAX → Static l (l.setDim l.d { l.st with index := l.st.index + 1, ipos := false, cur := c }) :=
      fun c hc' => static_set l _ _ _ ⟨fun h' => absurd h' hc', fun h' => absurd h' hcur⟩
    subst hr
    have hv2 := hcr.cons.2
    have hleft : ∀ c, (l.setDim l.d { l.st with index := l.st.index + 1, ipos := false, cur := c }).left < l.left := by
      intro c
      simp only [left, st_setDim, hp]
      simp
      omega
    unfold Leaf.update
    simp only [he, hp, if_true]
    by_cases hend : l.st.index + 1 ≥ l.st.stop
    · rw [if_pos hend]
      have hst := hsp sent (by omega)
      refine ⟨_, rfl, hst, ?_, ?_, (hleft _).le, fun _ => hleft _⟩
      · rw [slice_empty hend, viewOf_nil] at hv
        refine ⟨pre ++ [i], [], by rw [hst.view, hv]; simp, ?_, by simp, ?_, Or.inl ?_⟩
        · intro j hj
          rcases List.mem_append.1 hj with hj | hj
          · have := hpre j hj; omega
          · simp at hj; subst hj; omega
        · rw [st_setDim]; exact Nat.le_succ_of_le hidx
        · rw [hst.viewOf, hst.baseList, st_setDim]
          refine ⟨rfl, ?_, fun _ => le_rfl, by simp⟩
          show _ = l.viewOf n (slice _ (l.st.index + 1) l.st.stop)
          rw [slice_empty hend, viewOf_nil]
      · rw [st_setDim]; show _ ≤ sent; omega
    · rw [if_neg hend]
      obtain ⟨j, r, g1, g2⟩ := h.startAt hlt (idx := l.st.index + 1) (by omega)
      rw [g2]
      rw [g1] at hv hbound hcr hv2
      have hb := hbound j (by simp)
      have hvj := hv2.canonical.cons.1
      have hij : i.stop < j.start := hv2.1
      have hst := hsp j.start (by omega)
      refine ⟨_, rfl, hst, ?_, ?_, (hleft _).le, fun _ => hleft _⟩
      · refine ⟨pre ++ [i], j :: r, by rw [hst.view, hv]; simp, ?_, ?_, ?_, Or.inl ?_⟩
        · intro j hj
          rcases List.mem_append.1 hj with hj | hj
          · have := hpre j hj; omega
          · simp at hj; subst hj; omega
        · intro k hk
          have := hv2.of_mem hk
          omega
        · rw [st_setDim]; exact Nat.le_succ_of_le hidx
        · rw [hst.viewOf, hst.baseList, st_setDim]
          refine ⟨rfl, g1.symm, by simp, ?_⟩
          intro i' r' h'
          cases h'
          exact ⟨rfl, by omega⟩
      · rw [st_setDim]; show _ ≤ j.start; omega

/-- The upper bound of a leaf. -/
theorem OK.max {n : Nat} {l : Leaf} (h : l.OK n) :
    ∃ m, l.max n = some m ∧ m + 1 < INT_MAX ∧ ∀ x, MemList x (l.view n) → x < m := by
  rcases h.row with h0 | ⟨h1, h2, h3⟩
  · refine ⟨INT_MIN, by unfold Leaf.max; simp [h0], by decide, ?_⟩
    intro x hx
    rw [h.view_nil.2 h0] at hx
    simp at hx
  · have hs : l.st.start ≠ l.st.stop := by omega
    have hget := List.getElem?_eq_getElem (show l.st.stop - 1 < (l.baseList n).length by omega)
    generalize (l.baseList n)[l.st.stop - 1] = b at hget
    have hbm : b ∈ slice (l.baseList n) l.st.start l.st.stop := mem_slice.2 ⟨_, by omega, by omega, hget⟩
    have hbv := h3.valid hbm
    have hlast : ∀ y, MemList y (slice (l.baseList n) l.st.start l.st.stop) → y < b.stop := by
      rintro y ⟨i, hi, hy⟩
      have hy := Interval.mem_def.1 hy
      obtain ⟨k, k1, k2, k3⟩ := mem_slice.1 hi
      by_cases hk : k = l.st.stop - 1
      · subst hk; rw [hget] at k3; cases k3; exact hy.2
      · have := slice_gap h3 k1 (show k < l.st.stop - 1 by omega) (by omega) k3 hget
        omega
    unfold Leaf.max view
    simp only [ne_eq, hs, not_false_eq_true, if_true]
    unfold viewOf
    by_cases hsh : 0 ≤ l.shift
    · rw [if_pos hsh]
      simp only [if_pos hsh]
      have hne := h.nonempty h1 (Or.inl hsh)
      rw [baseList_get (Or.inl hsh), Option.map_eq_some_iff] at hget
      obtain ⟨a, ha, rfl⟩ := hget
      rw [Node.stop_eq h.good.flat hne, ha]
      refine ⟨_, rfl, ?_, ?_⟩
      · have := h.safe l.d h.le a (List.mem_of_getElem? ha)
        simp only [Interval.addAssign, shiftValue, if_pos hsh, shl]
        have h5 : (a.stop + l.node.off l.d + (a.stop + l.node.off l.d) % 2) * 2 ^ l.shift.toNat ≤
            (a.stop + l.node.off l.d + 1) * 2 ^ l.shift.toNat :=
          mul_le_mul_of_nonneg_right (by omega) (by positivity)
        omega
      · intro x hx
        rw [(canonical_shiftLeft h3).2] at hx
        have := hlast _ hx
        rw [shr_lt_iff] at this
        simp only [Interval.addAssign, shiftValue, if_pos hsh] at this ⊢
        have h6 := (shl_le_shl l.shift.toNat).2 (show a.stop + l.node.off l.d ≤
          a.stop + l.node.off l.d + (a.stop + l.node.off l.d) % 2 by omega)
        omega
    · rw [if_neg hsh]
      simp only [if_neg hsh]
      by_cases hd : l.d = n
      · rw [if_pos hd]
        simp only [if_pos hd]
        have hne := h.nonempty h1 (Or.inr hd)
        have hvm : MemList (shr (b.stop - 1) (-l.shift).toNat) (l.view n) := by
          unfold view viewOf
          rw [if_neg hsh, if_pos hd, (mergeProj_spec h3).2]
          exact ⟨b.stop - 1, ⟨b, hbm, Interval.mem_def.2 (by omega)⟩, rfl⟩
        have hbd := h.bound hvm
        rw [baseList_get (Or.inr hd), Option.map_eq_some_iff] at hget
        obtain ⟨a, ha, rfl⟩ := hget
        rw [Node.stop_eq h.good.flat hne, ha]
        refine ⟨_, rfl, ?_, ?_⟩
        · simp only [shiftValue, if_neg hsh]
          simp only [Interval.addAssign] at hbd
          omega
        · intro x hx
          rw [(mergeProj_spec h3).2] at hx
          obtain ⟨y, hy, rfl⟩ := hx
          have := hlast _ hy
          simp only [shiftValue, if_neg hsh]
          have := shr_le_shr (-l.shift).toNat (show y ≤ a.stop + l.node.off l.d - 1 by
            simp only [Interval.addAssign] at this; omega)
          omega
      · rw [if_neg hd]
        simp only [if_neg hd]
        have hk : ¬ (0 ≤ l.shift ∨ l.d = n) := by tauto
        obtain ⟨hw1, hw2⟩ := h.work hk h1
        unfold baseList at hget
        rw [if_neg hk, hw1] at hget
        rw [List.getLast?_eq_getElem?, hget]
        exact ⟨_, rfl, hw2 b (List.mem_of_getElem? hget), hlast⟩

/-- A leaf at the beginning of its row. -/
structure Fresh (n : Nat) (l : Leaf) : Prop where
  ipos : l.st.ipos = false
  le : l.st.start ≤ l.st.index
  first : l.st.start < l.st.stop → l.st.index = l.st.start ∧ l.startAt n l.st.start = some l.st.cur

theorem Fresh.at {n : Nat} {l : Leaf} (hf : l.Fresh n) (h : l.OK n) {sent s : Int} (hs : s ≤ l.st.cur)
    (hsent : sent ≤ INT_MAX) : l.At n sent s := by
  have hcan := h.canonical
  refine ⟨[], l.view n, rfl, by simp, ?_, hf.le, Or.inl ⟨hf.ipos, ?_, ?_, ?_⟩⟩
  · rcases h.row with h0 | ⟨h1, h2, h3⟩
    · rw [h.view_nil.2 h0]; simp
    · intro i hi
      obtain ⟨j, r, g1, g2⟩ := h.startAt h1 h1
      rw [(hf.first h1).2, Option.some.injEq] at g2
      unfold view at hi hcan
      rw [g1] at hi hcan
      obtain ⟨c1, c2⟩ := hcan.cons
      rcases List.mem_cons.1 hi with rfl | hi
      · omega
      · have := c2.of_mem hi; omega
  · rcases h.row with h0 | ⟨h1, h2, h3⟩
    · rw [h.view_nil.2 h0, slice_empty (by have := hf.le; omega), viewOf_nil]
    · rw [(hf.first h1).1]; rfl
  · intro h0
    rw [h.cur.2 (h.view_nil.1 h0)]
    exact hsent
  · intro i r hir
    rcases h.row with h0 | ⟨h1, h2, h3⟩
    · rw [h.view_nil.2 h0] at hir; cases hir
    · obtain ⟨j, r', g1, g2⟩ := h.startAt h1 h1
      rw [(hf.first h1).2, Option.some.injEq] at g2
      unfold view at hir
      rw [g1] at hir
      cases hir
      exact ⟨g2, by omega⟩

end Leaf
end Samurai

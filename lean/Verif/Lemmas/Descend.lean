import Verif.Lemmas.Tree

namespace Samurai

/-! ### coordinates at the level of the sweep and at the level of the mesh -/

/-- `c` is a coordinate at the level of the sweep, `c'` a coordinate of the mesh translated by `t`;
`s` is the level of the sweep minus the level of the mesh. -/
def Cor (s t c c' : Int) : Prop :=
  if 0 ≤ s then c' = shr c s.toNat - t else c = shr (c' + t) (-s).toNat

/-- Same for the outer coordinates of a row; `d` is the direction of the first one. -/
def CorL (s : Int) (t : Nat → Int) : Nat → List Int → List Int → Prop
  | _, [], [] => True
  | d, c :: p, c' :: q => Cor s (t d) c c' ∧ CorL s t (d - 1) p q
  | _, _, _ => False

theorem corL_snoc {s : Int} {t : Nat → Int} {x : Int} (p : List Int) : ∀ {d e : Nat} {q' : List Int},
    d = p.length + e → (CorL s t d (p ++ [x]) q' ↔ ∃ q y, q' = q ++ [y] ∧ CorL s t d p q ∧ Cor s (t e) x y) := by
  induction p with
  | nil =>
    intro d e q' hd
    obtain rfl : d = e := by simpa using hd
    constructor
    · intro h
      match q', h with
      | [y], h => exact ⟨[], y, rfl, trivial, h.1⟩
      | y :: z :: q, h => exact h.2.elim
    · rintro ⟨q, y, rfl, h1, h2⟩
      cases q with
      | nil => exact ⟨h2, trivial⟩
      | cons z q => exact h1.elim
  | cons c p ih =>
    intro d e q' hd
    have hd' : d - 1 = p.length + e := by simp at hd; omega
    constructor
    · intro h
      match q', h with
      | c' :: q', h =>
        obtain ⟨q, y, rfl, h1, h2⟩ := (ih hd').1 h.2
        exact ⟨c' :: q, y, rfl, ⟨h.1, h1⟩, h2⟩
    · rintro ⟨q, y, rfl, h1, h2⟩
      match q, h1 with
      | c' :: q, h1 => exact ⟨h1.1, (ih hd').2 ⟨q, y, rfl, h1.2, h2⟩⟩

theorem corL_length {s : Int} {t : Nat → Int} {p : List Int} : ∀ {d : Nat} {q : List Int}, CorL s t d p q →
    q.length = p.length := by
  induction p with
  | nil => intro d q h; cases q with
    | nil => rfl
    | cons => exact h.elim
  | cons c p ih => intro d q h; cases q with
    | nil => exact h.elim
    | cons c' q => simp [ih h.2]

theorem corL_unique {s : Int} {t : Nat → Int} (hs : 0 ≤ s) {p : List Int} : ∀ {d : Nat} {q q' : List Int},
    CorL s t d p q → CorL s t d p q' → q = q' := by
  induction p with
  | nil =>
    intro d q q' h h'
    cases q with
    | nil => cases q' with
      | nil => rfl
      | cons => exact h'.elim
    | cons => exact h.elim
  | cons c p ih =>
    intro d q q' h h'
    cases q with
    | nil => exact h.elim
    | cons => cases q' with
      | nil => exact h'.elim
      | cons =>
        rw [ih h.2 h'.2]
        have h1 := h.1
        have h2 := h'.1
        unfold Cor at h1 h2
        rw [if_pos hs] at h1 h2
        rw [h1, h2]

namespace Leaf

/-- `x` is, at the level of the sweep, the next coordinate of a stored cell below the row `p`. -/
def Pre (n : Nat) (l : Leaf) (p : List Int) (d : Nat) (x : Int) : Prop :=
  ∃ q y, CorL l.shift l.node.off n p q ∧ Cor l.shift (l.node.off d) x y ∧ Pref l.node.base n q d y

theorem pre_closed {n : Nat} {l : Leaf} {p : List Int} {e : Nat} {c x : Int} (hn : n = p.length + (e + 1))
    (h : l.Pre n (p ++ [c]) e x) : l.Pre n p (e + 1) c := by
  obtain ⟨q', y, h1, h2, h3⟩ := h
  obtain ⟨q, z, rfl, h4, h5⟩ := (corL_snoc p hn).1 h1
  exact ⟨q, z, h4, h5, pref_closed (by rw [corL_length h4]; exact hn) h3⟩

/-- The rows of the mesh below the current row of the sweep. -/
def rowsOf (n : Nat) (l : Leaf) : List (Nat × Nat) :=
  if 0 ≤ l.shift ∨ l.d = n then [(l.st.startOff, l.st.endOff)] else l.st.workOffs

/-- The leaf is positioned on the row `p`. -/
structure On (n : Nat) (p : List Int) (l : Leaf) : Prop where
  ok : l.OK n
  len : p.length + l.d = n
  rows : l.st.start < l.st.stop → ∀ a b, (a, b) ∈ l.rowsOf n ↔
    ∃ q, CorL l.shift l.node.off n p q ∧
      RowAt l.node.base n 0 (l.node.base.cells n).length q a b
  mem : ∀ x, MemList x (l.view n) ↔ l.Pre n p l.d x

theorem Static.on {n : Nat} {p : List Int} {l l' : Leaf} (h : l.Static l') (ho : l.On n p) : l'.On n p where
  ok := h.ok ho.ok
  len := by rw [h.d]; exact ho.len
  rows := by
    have : l'.rowsOf n = l.rowsOf n := by
      unfold rowsOf; rw [h.shift, h.d, h.startOff, h.endOff, h.workOffs]
    rw [this, h.start, h.stop, h.shift, h.node]
    exact ho.rows
  mem := by
    unfold Pre
    rw [h.view, h.shift, h.node, h.d]
    exact ho.mem

theorem slice_map {α β : Type} (f : α → β) (l : List α) (a b : Nat) : slice (l.map f) a b = (slice l a b).map f := by
  unfold slice; rw [← List.map_take, ← List.map_drop]

/-- Membership in the view of a row of the mesh. -/
theorem mem_viewOf {n : Nat} {l : Leaf} (hk : 0 ≤ l.shift ∨ l.d = n) {a b : Nat}
    (hc : Canonical (slice (l.node.base.cells l.d) a b)) (x : Int) :
    MemList x (l.viewOf n (slice (l.baseList n) a b)) ↔
      ∃ y, Cor l.shift (l.node.off l.d) x y ∧ MemList y (slice (l.node.base.cells l.d) a b) := by
  unfold viewOf baseList Cor
  rw [if_pos hk, slice_map]
  obtain ⟨c1, c2⟩ := canonical_translate (t := l.node.off l.d) hc
  by_cases hs : 0 ≤ l.shift
  · simp only [if_pos hs]
    rw [(canonical_shiftLeft c1).2, c2]
    simp
  · have hd : l.d = n := by tauto
    simp only [if_neg hs, if_pos hd]
    rw [(mergeProj_spec c1).2]
    simp only [c2]
    constructor
    · rintro ⟨y, h1, h2⟩
      exact ⟨y - l.node.off l.d, by rw [← h2]; congr 1; omega, h1⟩
    · rintro ⟨y, h1, h2⟩
      exact ⟨y + l.node.off l.d, by simpa using h2, h1.symm⟩

end Leaf

/-! ### looking for a row -/

theorem findOnDim_spec {L : LCA} {e lo hi : Nat} (h : RowOK L (e + 1) lo hi) (c : Int) :
    (∃ k i a b, findOnDim L (e + 1) lo hi c = some (some k) ∧ (L.cells (e + 1))[k]? = some i ∧
      0 ≤ i.index + c ∧ (L.offsets e)[(i.index + c).toNat]? = some a ∧
      (L.offsets e)[(i.index + c).toNat + 1]? = some b ∧ RowOK L e a b ∧
      ∀ a' b', RowStep L e lo hi c a' b' ↔ a' = a ∧ b' = b) ∨
    (findOnDim L (e + 1) lo hi c = some none ∧ (∀ a b, ¬ RowStep L e lo hi c a b) ∧
      ¬ MemList c (slice (L.cells (e + 1)) lo hi)) := by
  rcases search_spec h.1.le h.2.1 h.2.2.1 c with ⟨k, i, h1, h2, h3, h4, h5⟩ | ⟨h1, h2⟩
  · left
    have him : i ∈ slice (L.cells (e + 1)) lo hi := mem_slice.2 ⟨k, h1, h2, h3⟩
    obtain ⟨g1, a, b, g2, g3, g4⟩ := h.2.2.2 i him c h4
    refine ⟨k, i, a, b, ?_, h3, g1, g2, g3, g4, ?_⟩
    · unfold findOnDim
      rw [h5]
      simp only [Option.some.injEq]
      rw [if_pos (by omega)]
      congr 1
      omega
    · intro a' b'
      constructor
      · rintro ⟨j, j1, j2, j3, j4, j5⟩
        obtain rfl := slice_unique h.2.2.1 him j1 h4 j2
        rw [g2] at j4; rw [g3] at j5
        cases j4; cases j5
        exact ⟨rfl, rfl⟩
      · rintro ⟨rfl, rfl⟩
        exact ⟨i, him, h4, g1, g2, g3⟩
  · right
    refine ⟨?_, ?_, h1⟩
    · unfold findOnDim; rw [h2]; simp
    · rintro a b ⟨i, i1, i2, _⟩
      exact h1 ⟨i, i1, i2⟩

/-! ### the projected rows -/

theorem addProjected_spec {N : Node} (hf : N.Flat) (he : N.base.isEmpty = false) (k d : Nat) (cnt : Nat) :
    ∀ {o : Nat} {acc : List Interval}, o + cnt ≤ (N.base.cells d).length →
    (∀ i ∈ slice (N.base.cells d) o (o + cnt), i.start < i.stop) → Canonical acc →
    ∃ r, Leaf.addProjected N k d cnt o acc = some r ∧ Canonical r ∧
      ∀ x, MemList x r ↔ MemList x acc ∨
        ∃ y, MemList y (slice (N.base.cells d) o (o + cnt)) ∧ shr (y + N.off d) k = x := by
  induction cnt with
  | zero =>
    intro o acc _ _ hc
    refine ⟨acc, rfl, hc, fun x => ?_⟩
    rw [Nat.add_zero, slice_nil]
    simp
  | succ cnt ih =>
    intro o acc hlen hval hc
    have hget := List.getElem?_eq_getElem (show o < (N.base.cells d).length by omega)
    generalize (N.base.cells d)[o] = i at hget
    have hs : slice (N.base.cells d) o (o + (cnt + 1)) = i :: slice (N.base.cells d) (o + 1) (o + 1 + cnt) := by
      rw [slice_cons (by omega) hget, show o + 1 + cnt = o + (cnt + 1) by omega]
    rw [hs] at hval ⊢
    have hi := hval i (by simp)
    unfold Leaf.addProjected
    rw [Node.start_eq hf he, Node.stop_eq hf he, hget]
    simp only [Option.map_some]
    have hlt : shr (i.start + N.off d) k < shr (i.stop + N.off d - 1) k + 1 := by
      have := shr_le_shr k (show i.start + N.off d ≤ i.stop + N.off d - 1 by omega)
      omega
    rw [if_neg (by omega)]
    obtain ⟨c1, c2⟩ := addInterval_canonical (l := acc)
      (v := Interval.mk' (shr (i.start + N.off d) k) (shr (i.stop + N.off d - 1) k + 1)) hc
    obtain ⟨r, r1, r2, r3⟩ := ih (o := o + 1) (by omega) (fun j hj => hval j (by simp [hj])) c1
    refine ⟨r, r1, r2, fun x => ?_⟩
    rw [r3, c2]
    have hp : (x ∈ Interval.mk' (shr (i.start + N.off d) k) (shr (i.stop + N.off d - 1) k + 1)) ↔
        ∃ y ∈ i, shr (y + N.off d) k = x := by
      have := mem_proj (k := k) (i := i.addAssign (N.off d)) (by simp only [Interval.addAssign]; omega) (x := x)
      refine Iff.trans this ?_
      constructor
      · rintro ⟨y, h1, h2⟩
        exact ⟨y - N.off d, by simp only [Interval.mem_def, Interval.addAssign] at *; omega, by rw [← h2]; congr 1; omega⟩
      · rintro ⟨y, h1, h2⟩
        exact ⟨y + N.off d, by simp only [Interval.mem_def, Interval.addAssign] at *; omega, h2⟩
    rw [hp]
    simp only [memList_cons, or_and_right, exists_or]
    constructor
    · rintro ((h | h) | h)
      · exact Or.inr (Or.inl h)
      · exact Or.inl h
      · exact Or.inr (Or.inr h)
    · rintro (h | h | h)
      · exact Or.inl (Or.inr h)
      · exact Or.inl (Or.inl h)
      · exact Or.inr h

/-- What has been collected: the rows `P` and the projection of their intervals. -/
structure Collected (N : Node) (k d : Nat) (P : Nat → Nat → Prop) (acc : List (Nat × Nat) × List Interval) : Prop where
  offs : ∀ a b, (a, b) ∈ acc.1 ↔ P a b
  can : Canonical acc.2
  mem : ∀ x, MemList x acc.2 ↔ ∃ a b, P a b ∧ ∃ y, MemList y (slice (N.base.cells d) a b) ∧ shr (y + N.off d) k = x

theorem collectOne_spec {N : Node} (hf : N.Flat) (he : N.base.isEmpty = false) {k d lo hi : Nat} {c : Int}
    (hr : RowOK N.base (d + 1) lo hi) {P : Nat → Nat → Prop} {acc : List (Nat × Nat) × List Interval}
    (h : Collected N k d P acc) :
    ∃ acc', Leaf.collectOne N k d lo hi c acc = some acc' ∧
      Collected N k d (fun a b => P a b ∨ RowStep N.base d lo hi c a b) acc' := by
  unfold Leaf.collectOne
  rw [Node.find_eq]
  rcases findOnDim_spec hr c with ⟨j, i, a, b, h1, h2, h3, h4, h5, h6, h7⟩ | ⟨h1, h2, _⟩
  · rw [h1]
    simp only [Node.interval_eq, h2, Node.offset_eq, h4, h5]
    rw [if_neg (by omega)]
    obtain ⟨b1, b2, b3⟩ := h6.base
    have hab : a + (b - a) = b := by omega
    obtain ⟨r, r1, r2, r3⟩ := addProjected_spec hf he k d (b - a) (o := a) (acc := acc.2) (by omega)
      (by rw [hab]; exact fun i hi => b3.valid hi) h.can
    rw [r1]
    rw [hab] at r3
    refine ⟨_, rfl, ?_, r2, ?_⟩
    · intro a' b'
      simp only [List.mem_append, List.mem_singleton, Prod.mk.injEq, h.offs, h7]
    · intro x
      simp only [r3, h.mem, h7]
      constructor
      · rintro (⟨a', b', p, y⟩ | y)
        · exact ⟨a', b', Or.inl p, y⟩
        · exact ⟨a, b, Or.inr ⟨rfl, rfl⟩, y⟩
      · rintro ⟨a', b', p | ⟨rfl, rfl⟩, y⟩
        · exact Or.inl ⟨a', b', p, y⟩
        · exact Or.inr y
  · rw [h1]
    refine ⟨acc, rfl, ?_, h.can, ?_⟩
    · intro a b; simp [h.offs, h2]
    · intro x; simp only [h.mem, h2, or_false]

/-- Folding a function that can fail. -/
theorem foldlM_spec {α β : Type} {f : β → α → Option β} {I : (α → Prop) → β → Prop} {l : List α} {b : β}
    (h0 : I (fun _ => False) b)
    (hext : ∀ P Q b, (∀ a, P a ↔ Q a) → I P b → I Q b)
    (hf : ∀ P b, ∀ a ∈ l, I P b → ∃ b', f b a = some b' ∧ I (fun x => P x ∨ x = a) b') :
    ∃ b', l.foldlM f b = some b' ∧ I (fun a => a ∈ l) b' := by
  suffices hgen : ∀ (l' : List α) (P : α → Prop) (b : β), (∀ a ∈ l', a ∈ l) → I P b →
      ∃ b', l'.foldlM f b = some b' ∧ I (fun a => P a ∨ a ∈ l') b' by
    obtain ⟨b', h1, h2⟩ := hgen l _ b (fun _ h => h) h0
    exact ⟨b', h1, hext _ _ _ (fun a => by simp) h2⟩
  intro l'
  induction l' with
  | nil =>
    intro P b _ h
    exact ⟨b, rfl, hext _ _ _ (fun a => by simp) h⟩
  | cons a l' ih =>
    intro P b hl h
    obtain ⟨b1, h1, h2⟩ := hf P b a (hl a (by simp)) h
    obtain ⟨b2, h3, h4⟩ := ih _ b1 (fun x hx => hl x (by simp [hx])) h2
    refine ⟨b2, by rw [List.foldlM_cons, h1]; exact h3, hext _ _ _ (fun x => ?_) h4⟩
    simp only [List.mem_cons]
    tauto

theorem Collected.congr {N : Node} {k d : Nat} {P Q : Nat → Nat → Prop} {acc : List (Nat × Nat) × List Interval}
    (h : ∀ a b, P a b ↔ Q a b) (hc : Collected N k d P acc) : Collected N k d Q acc :=
  ⟨fun a b => (hc.offs a b).trans (h a b), hc.can, fun x => (hc.mem x).trans (by simp only [h])⟩

theorem collect_spec {N : Node} (hf : N.Flat) (he : N.base.isEmpty = false) {k d : Nat} {base : Int}
    {rows : List (Nat × Nat)} (hr : ∀ r ∈ rows, RowOK N.base (d + 1) r.1 r.2) :
    ∃ acc, Leaf.collect N k d base rows = some acc ∧
      Collected N k d (fun a b => ∃ r ∈ rows, ∃ s < 2 ^ k,
        RowStep N.base d r.1 r.2 (N.transform (d + 1) (base + (s : Nat))) a b) acc := by
  unfold Leaf.collect
  obtain ⟨acc, h1, h2⟩ := foldlM_spec (l := rows)
    (f := fun acc (r : Nat × Nat) => (List.range (2 ^ k)).foldlM (fun acc (s : Nat) =>
      Leaf.collectOne N k d r.1 r.2 (N.transform (d + 1) (base + s)) acc) acc)
    (I := fun R acc => Collected N k d (fun a b => ∃ r, R r ∧ ∃ s < 2 ^ k,
        RowStep N.base d r.1 r.2 (N.transform (d + 1) (base + (s : Nat))) a b) acc)
    (b := ([], [])) ⟨by simp, trivial, by simp⟩
    (fun P Q b hPQ h => h.congr (fun a b => by simp only [hPQ]))
    (fun P acc r hrm hI => by
      obtain ⟨acc', g1, g2⟩ := foldlM_spec (l := List.range (2 ^ k))
        (f := fun acc (s : Nat) => Leaf.collectOne N k d r.1 r.2 (N.transform (d + 1) (base + s)) acc)
        (I := fun S acc => Collected N k d (fun a b =>
          (∃ r, P r ∧ ∃ s < 2 ^ k, RowStep N.base d r.1 r.2 (N.transform (d + 1) (base + (s : Nat))) a b) ∨
          ∃ s, S s ∧ RowStep N.base d r.1 r.2 (N.transform (d + 1) (base + (s : Nat))) a b) acc)
        (b := acc) (hI.congr (fun a b => by simp))
        (fun P Q b hPQ h => h.congr (fun a b => by simp only [hPQ]))
        (fun S acc s _ hS => by
          obtain ⟨acc', k1, k2⟩ := collectOne_spec (c := N.transform (d + 1) (base + s)) hf he (hr r hrm) hS
          refine ⟨acc', k1, k2.congr fun a b => ?_⟩
          constructor
          · rintro ((h | ⟨s', h, h'⟩) | h)
            · exact Or.inl h
            · exact Or.inr ⟨s', Or.inl h, h'⟩
            · exact Or.inr ⟨s, Or.inr rfl, h⟩
          · rintro (h | ⟨s', h | rfl, h'⟩)
            · exact Or.inl (Or.inl h)
            · exact Or.inl (Or.inr ⟨s', h, h'⟩)
            · exact Or.inr h')
      refine ⟨acc', g1, g2.congr fun a b => ?_⟩
      simp only [List.mem_range]
      constructor
      · rintro (⟨r', h, h'⟩ | h)
        · exact ⟨r', Or.inl h, h'⟩
        · exact ⟨r, Or.inr rfl, h⟩
      · rintro ⟨r', h | rfl, h'⟩
        · exact Or.inl ⟨r', h, h'⟩
        · exact Or.inr h')
  exact ⟨acc, h1, h2⟩

theorem shr_bound {y : Int} {k : Nat} (h : y + 2 < INT_MAX) : shr y k + 2 < INT_MAX := by
  have h5 := shl_shr_le y k
  have h6 := pow_two_pos k
  by_contra hc
  have h8 : 0 ≤ shr y k := by unfold INT_MAX at hc; omega
  have : shr y k ≤ shl (shr y k) k := by
    unfold shl
    nlinarith
  omega

namespace Leaf

/-- Leaves of the direction below. -/
structure Below (l l' : Leaf) : Prop where
  node : l'.node = l.node
  shift : l'.shift = l.shift
  d : l'.d + 1 = l.d
  up : ∀ d', l.d ≤ d' → l'.dims d' = l.dims d'

/-- Coming back from the direction below. -/
theorem Below.same {l l' l'' : Leaf} (h : l.Below l') (h' : l'.Static l'') : l.Same l''.incrementDim where
  node := h'.node.trans h.node
  shift := h'.shift.trans h.shift
  d := by
    show l''.d + 1 = l.d
    rw [h'.d, h.d]
  up d' hd := (h'.up d' (by have := h.d; omega)).trans (h.up d' hd)

/-- A leaf without cells in the row. -/
theorem on_invalid {n : Nat} {p : List Int} {l : Leaf} (hg : l.node.Good n) (hs : l.node.Safe n l.shift)
    (hle : l.d ≤ n) (hlen : p.length + l.d = n) (h1 : l.st.start = 0) (h2 : l.st.stop = 0) (h3 : l.st.cur = INT_MAX)
    (h4 : l.st.ipos = false) (hno : ∀ x, ¬ l.Pre n p l.d x) : l.On n p ∧ l.Fresh n := by
  have hok : l.OK n := ⟨hg, hle, hs, Or.inl (by omega), by simp [h1, h2, h3], by omega⟩
  refine ⟨⟨hok, hlen, by omega, fun x => ?_⟩, ⟨h4, by omega, by omega⟩⟩
  rw [hok.view_nil.2 (by omega)]
  simp [hno x]

/-- The state of the direction below. -/
def down (l : Leaf) (e : Nat) (s : LeafDim) : Leaf := { (l.setDim e s) with d := e }

theorem down_spec {n : Nat} {l : Leaf} {e : Nat} (s : LeafDim) :
    (l.down e s).st = s := by
  simp [Leaf.down, Leaf.st, Leaf.setDim]

@[reducible] def sA (l : Leaf) (e a b : Nat) (fa : Interval) : LeafDim :=
  { l.dims e with start := a, stop := b, startOff := a, endOff := b, cur := shiftValue (fa.start + l.node.off e) l.shift, index := a, ipos := false }

@[reducible] def sB (l : Leaf) (e : Nat) (w : Interval) (ws : List Interval) (offs : List (Nat × Nat)) : LeafDim :=
  { l.dims e with start := 0, stop := (w :: ws).length, cur := w.start, index := 0, ipos := false, work := w :: ws, workOffs := offs }

theorem decrementDim_spec {n : Nat} {p : List Int} {l : Leaf} {e : Nat} (h : l.On n p) (hd : l.d = e + 1) (i : Int) :
    ∃ l', l.decrementDim n i = some l' ∧ l.Below l' ∧ l'.On n (p ++ [i]) ∧ l'.Fresh n := by
  have hg := h.ok.good
  have hsafe := h.ok.safe
  have hn : n = p.length + (e + 1) := by have := h.len; omega
  have hst : l.st = l.dims (e + 1) := by unfold Leaf.st; rw [hd]
  -- the general form of the result
  have hbelow : ∀ s, l.Below (l.down e s) := by
    intro s
    refine ⟨rfl, rfl, by show e + 1 = l.d; omega, ?_⟩
    intro d' hd'
    show (if d' = e then s else l.dims d') = _
    rw [if_neg (by omega)]
  have hpre : ∀ s x, ((l.down e s).Pre n (p ++ [i]) e x ↔ l.Pre n (p ++ [i]) e x) :=
    fun s x => Iff.rfl
  have hinv : (∀ x, ¬ l.Pre n (p ++ [i]) e x) → ∀ s : LeafDim, s.start = 0 → s.stop = 0 → s.cur = INT_MAX →
      s.ipos = false → ((l.down e s).On n (p ++ [i]) ∧
        (l.down e s).Fresh n) := by
    intro hno s s1 s2 s3 s4
    refine on_invalid hg hsafe (by show e ≤ n; omega) (by show (p ++ [i]).length + e = n; simp; omega) ?_ ?_ ?_ ?_ hno
    · rw [down_spec (n := n)]; exact s1
    · rw [down_spec (n := n)]; exact s2
    · rw [down_spec (n := n)]; exact s3
    · rw [down_spec (n := n)]; exact s4
  unfold Leaf.decrementDim
  rw [hd]
  simp only
  rw [← hst]
  by_cases hmax : l.st.cur = INT_MAX
  · rw [if_pos hmax]
    have h0 := h.ok.cur.1 hmax
    refine ⟨l.down e _, rfl, hbelow _, hinv ?_ _ rfl rfl rfl rfl⟩
    intro x hx
    have h1 := pre_closed hn hx
    rw [← hd, ← h.mem, h.ok.view_nil.2 h0] at h1
    simp at h1
  · rw [if_neg hmax]
    have hvalid : l.st.start < l.st.stop := by
      rcases h.ok.row with h0 | h0
      · exact absurd (h.ok.cur.2 h0) hmax
      · exact h0.1
    have hrows := h.rows hvalid
    -- the mesh is not empty
    have hview : l.view n ≠ [] := fun hc => by have := h.ok.view_nil.1 hc; omega
    have hbase : l.node.base.isEmpty = false := by
      obtain ⟨v, r, hv⟩ : ∃ v r, l.view n = v :: r := by
        cases hvv : l.view n with
        | nil => exact absurd hvv hview
        | cons v r => exact ⟨v, r, rfl⟩
      have hval := h.ok.canonical.valid (i := v) (by rw [hv]; simp)
      obtain ⟨q, y, _, _, a, b, hab, j, hj, _⟩ := (h.mem v.start).1 ⟨v, by rw [hv]; simp, Interval.mem_def.2 ⟨le_rfl, hval⟩⟩
      by_contra hc
      rw [Bool.not_eq_false] at hc
      have h0 := (isEmpty_iff hg.wf).1 hc
      obtain ⟨k, _, _, hk⟩ := mem_slice.1 hj
      rw [(hg.wf.empty h0).1 l.d h.ok.le] at hk
      simp at hk
    have hne : l.node.base.cells n ≠ [] := fun hc => by
      rw [(isEmpty_iff hg.wf).2 hc] at hbase; cases hbase
    have htop := LCA.WF.rowOK hg.wf hne
    have htr := hg.tr (e + 1) (by omega) (by omega)
    by_cases hsh : 0 ≤ l.shift
    · -- the mesh is not finer than the sweep
      rw [if_pos hsh]
      have hrow : l.rowsOf n = [(l.st.startOff, l.st.endOff)] := by unfold rowsOf; rw [if_pos (Or.inl hsh)]
      obtain ⟨q, hq1, hq2⟩ := (hrows l.st.startOff l.st.endOff).1 (by rw [hrow]; simp)
      have hql := corL_length hq1
      have hro := rowAt_rowOK (e := e + 1) q htop (by omega) hq2
      have hcoord : l.node.transform (e + 1) (shiftValue i (-l.shift)) = shr i l.shift.toNat - l.node.off (e + 1) := by
        rw [htr]
        unfold shiftValue
        split
        · have : l.shift = 0 := by omega
          simp [this, shl, shr]
        · simp
      rw [hcoord, Node.find_eq]
      generalize hc : shr i l.shift.toNat - l.node.off (e + 1) = c
      have hcor : ∀ y, Cor l.shift (l.node.off (e + 1)) i y ↔ y = c := by
        intro y; unfold Cor; rw [if_pos hsh, hc]
      have hstep : ∀ q' a b, (CorL l.shift l.node.off n (p ++ [i]) q' ∧
          RowAt l.node.base n 0 (l.node.base.cells n).length q' a b) ↔
          q' = q ++ [c] ∧ RowStep l.node.base e l.st.startOff l.st.endOff c a b := by
        intro q' a b
        rw [corL_snoc p hn]
        constructor
        · rintro ⟨⟨q1, y, rfl, g1, g2⟩, g3⟩
          obtain rfl := corL_unique hsh g1 hq1
          rw [hcor] at g2
          subst g2
          obtain ⟨a', b', g4, g5⟩ := (rowAt_snoc (e := e) q1 (by omega)).1 g3
          obtain ⟨rfl, rfl⟩ := rowAt_unique (e := e + 1) q1 htop (by omega) hq2 g4
          exact ⟨rfl, g5⟩
        · rintro ⟨rfl, g5⟩
          exact ⟨⟨q, c, rfl, hq1, (hcor c).2 rfl⟩, (rowAt_snoc (e := e) q (by omega)).2 ⟨_, _, hq2, g5⟩⟩
      have hpre2 : ∀ x, l.Pre n (p ++ [i]) e x ↔ ∃ a b, RowStep l.node.base e l.st.startOff l.st.endOff c a b ∧
          ∃ y, Cor l.shift (l.node.off e) x y ∧ MemList y (slice (l.node.base.cells e) a b) := by
        intro x
        unfold Pre Pref
        constructor
        · rintro ⟨q', y, g1, g2, a, b, g3, g4⟩
          obtain ⟨_, g5⟩ := (hstep q' a b).1 ⟨g1, g3⟩
          exact ⟨a, b, g5, y, g2, g4⟩
        · rintro ⟨a, b, g5, y, g2, g4⟩
          obtain ⟨g1, g3⟩ := (hstep _ a b).2 ⟨rfl, g5⟩
          exact ⟨_, y, g1, g2, a, b, g3, g4⟩
      rcases findOnDim_spec hro c with ⟨j, it, a, b, f1, f2, f3, f4, f5, f6, f7⟩ | ⟨f1, f2, _⟩
      · rw [f1]
        simp only [Node.interval_eq, f2, Node.offset_eq, f4, f5]
        rw [if_neg (by omega)]
        obtain ⟨b1, b2, b3⟩ := f6.base
        have hgeta := List.getElem?_eq_getElem (show a < (l.node.base.cells e).length by omega)
        generalize hfa : (l.node.base.cells e)[a] = fa at hgeta
        rw [Node.start_eq hg.flat hbase, hgeta]
        simp only [Option.map_some]
        refine ⟨l.down e (sA l e a b fa), rfl, hbelow _, ?_⟩
        generalize hl' : l.down e (sA l e a b fa) = l'
        have hst' : l'.st = (sA l e a b fa) := by
          rw [← hl']; exact down_spec (n := n) _
        have hn' : l'.node = l.node := by rw [← hl']; rfl
        have hs' : l'.shift = l.shift := by rw [← hl']; rfl
        have hd' : l'.d = e := by rw [← hl']; rfl
        have hk' : 0 ≤ l'.shift ∨ l'.d = n := Or.inl (by rw [hs']; exact hsh)
        have hfb := hsafe e (by omega) fa (List.mem_of_getElem? hgeta)
        have hfv := b3.valid (mem_slice.2 ⟨a, le_rfl, b1, hgeta⟩)
        have hcurlt : shiftValue (fa.start + l.node.off e) l.shift < INT_MAX := by
          unfold shiftValue
          rw [if_pos hsh]
          unfold shl
          have : (fa.start + l.node.off e) * 2 ^ l.shift.toNat ≤ (fa.stop + l.node.off e + 1) * 2 ^ l.shift.toNat :=
            mul_le_mul_of_nonneg_right (by omega) (by positivity)
          omega
        have hcanb : Canonical (slice (l'.baseList n) a b) := by
          unfold baseList
          rw [if_pos hk', slice_map, hn', hd']
          exact (canonical_translate b3).1
        have hok : l'.OK n := by
          refine ⟨by rw [hn']; exact hg, by rw [hd']; omega, by rw [hn', hs']; exact hsafe, Or.inr ?_, ?_, ?_⟩
          · rw [hst']
            refine ⟨b1, ?_, hcanb⟩
            unfold baseList
            rw [if_pos hk', List.length_map, hn', hd']
            exact b2
          · rw [hst']
            simp only
            constructor
            · intro hc; omega
            · intro hc; omega
          · intro hc; exact absurd hk' hc
        refine ⟨⟨hok, by rw [hd']; simp; omega, ?_, ?_⟩, ?_, ?_, ?_⟩
        · intro _ a' b'
          unfold rowsOf
          rw [if_pos hk', hst', hs', hn']
          simp only [List.mem_singleton, Prod.mk.injEq]
          rw [← f7]
          constructor
          · intro g; exact ⟨_, (hstep _ a' b').2 ⟨rfl, g⟩⟩
          · rintro ⟨q', g⟩; exact ((hstep q' a' b').1 g).2
        · intro x
          have hpe : l'.Pre n (p ++ [i]) l'.d x ↔ l.Pre n (p ++ [i]) e x := by
            unfold Pre; rw [hs', hn', hd']
          rw [hpe, hpre2]
          unfold view
          rw [hst']
          simp only
          rw [mem_viewOf hk' (by rw [hn', hd']; exact b3), hs', hn', hd']
          constructor
          · intro g; exact ⟨a, b, (f7 a b).2 ⟨rfl, rfl⟩, g⟩
          · rintro ⟨a', b', g1, g2⟩
            obtain ⟨rfl, rfl⟩ := (f7 a' b').1 g1
            exact g2
        · rw [hst']
        · rw [hst']
        · intro _
          rw [hst']
          refine ⟨rfl, ?_⟩
          unfold Leaf.startAt
          rw [if_pos hk', hn', hs', hd', Node.start_eq hg.flat hbase, hgeta]
          rfl
      · rw [f1]
        refine ⟨l.down e _, rfl, hbelow _, hinv ?_ _ rfl rfl rfl rfl⟩
        intro x hx
        obtain ⟨a, b, g, _⟩ := (hpre2 x).1 hx
        exact f2 a b g
    · -- the mesh is finer than the sweep
      rw [if_neg hsh]
      have hrowsEq : (if e + 1 = n then [(l.st.startOff, l.st.endOff)] else l.st.workOffs) = l.rowsOf n := by
        unfold rowsOf
        rw [hd]
        by_cases hen : e + 1 = n
        · rw [if_pos hen, if_pos (Or.inr hen)]
        · rw [if_neg hen, if_neg (by tauto)]
      rw [hrowsEq]
      have hsv : shiftValue i (-l.shift) = shl i (-l.shift).toNat := by
        unfold shiftValue; rw [if_pos (by omega)]
      rw [hsv]
      obtain ⟨acc, c1, c2⟩ := collect_spec (N := l.node) hg.flat hbase (k := (-l.shift).toNat) (d := e)
        (base := shl i (-l.shift).toNat) (rows := l.rowsOf n) (by
          rintro ⟨a, b⟩ hab
          obtain ⟨q, hq1, hq2⟩ := (hrows a b).1 hab
          have hql := corL_length hq1
          exact rowAt_rowOK (e := e + 1) q htop (by omega) hq2)
      rw [c1]
      have hcor : ∀ y, Cor l.shift (l.node.off (e + 1)) i y ↔
          ∃ s < 2 ^ (-l.shift).toNat, y = l.node.transform (e + 1) (shl i (-l.shift).toNat + (s : Nat)) := by
        intro y
        unfold Cor
        rw [if_neg hsh]
        simp only [htr]
        generalize (-l.shift).toNat = k
        constructor
        · intro hi
          have g1 := shl_shr_le (y + l.node.off (e + 1)) k
          have g2 := lt_shl_shr_succ (y + l.node.off (e + 1)) k
          rw [← hi] at g1 g2
          have g3 : shl (i + 1) k = shl i k + 2 ^ k := by unfold shl; ring
          have g4 : ((2 ^ k : Nat) : Int) = 2 ^ k := by push_cast; rfl
          exact ⟨(y + l.node.off (e + 1) - shl i k).toNat, by omega, by omega⟩
        · rintro ⟨s, hs, rfl⟩
          have g4 : ((2 ^ k : Nat) : Int) = 2 ^ k := by push_cast; rfl
          have g3 : shl (i + 1) k = shl i k + 2 ^ k := by unfold shl; ring
          have e1 : i ≤ shr (shl i k + ↑s) k := le_shr_iff.2 (by omega)
          have e2 : shr (shl i k + ↑s) k < i + 1 := shr_lt_iff.2 (by omega)
          rw [show shl i k + ↑s - l.node.off (e + 1) + l.node.off (e + 1) = shl i k + ↑s by omega]
          omega
      have hP : ∀ a b, (∃ r ∈ l.rowsOf n, ∃ s < 2 ^ (-l.shift).toNat,
          RowStep l.node.base e r.1 r.2 (l.node.transform (e + 1) (shl i (-l.shift).toNat + (s : Nat))) a b) ↔
          ∃ q', CorL l.shift l.node.off n (p ++ [i]) q' ∧ RowAt l.node.base n 0 (l.node.base.cells n).length q' a b := by
        intro a b
        constructor
        · rintro ⟨⟨a', b'⟩, hr, s, hs, g⟩
          obtain ⟨q, hq1, hq2⟩ := (hrows a' b').1 hr
          have hql := corL_length hq1
          exact ⟨_, (corL_snoc p hn).2 ⟨q, _, rfl, hq1, (hcor _).2 ⟨s, hs, rfl⟩⟩,
            (rowAt_snoc (e := e) q (by omega)).2 ⟨a', b', hq2, g⟩⟩
        · rintro ⟨q', g1, g2⟩
          obtain ⟨q, y, rfl, g3, g4⟩ := (corL_snoc p hn).1 g1
          have hql := corL_length g3
          obtain ⟨a', b', g5, g6⟩ := (rowAt_snoc (e := e) q (by omega)).1 g2
          obtain ⟨s, hs, rfl⟩ := (hcor y).1 g4
          exact ⟨(a', b'), (hrows a' b').2 ⟨q, g3, g5⟩, s, hs, g6⟩
      replace c2 := c2.congr hP
      have hmem : ∀ x, MemList x acc.2 ↔ l.Pre n (p ++ [i]) e x := by
        intro x
        rw [c2.mem]
        unfold Pre Pref Cor
        simp only [if_neg hsh]
        constructor
        · rintro ⟨a, b, ⟨q, g1, g2⟩, y, g3, g4⟩
          exact ⟨q, y, g1, g4.symm, a, b, g2, g3⟩
        · rintro ⟨q, y, g1, g2, a, b, g3, g4⟩
          exact ⟨a, b, ⟨q, g1, g3⟩, y, g4, g2.symm⟩
      obtain ⟨offs, work⟩ := acc
      cases work with
      | nil =>
        refine ⟨l.down e _, rfl, hbelow _, hinv ?_ _ rfl rfl rfl rfl⟩
        intro x hx
        have := (hmem x).2 hx
        simp at this
      | cons w ws =>
        refine ⟨l.down e (sB l e w ws offs), rfl, hbelow _, ?_⟩
        generalize hl' : l.down e (sB l e w ws offs) = l'
        have hst' : l'.st = (sB l e w ws offs) := by
          rw [← hl']; exact down_spec (n := n) _
        have hn' : l'.node = l.node := by rw [← hl']; rfl
        have hs' : l'.shift = l.shift := by rw [← hl']; rfl
        have hd' : l'.d = e := by rw [← hl']; rfl
        have hk' : ¬ (0 ≤ l'.shift ∨ l'.d = n) := by rw [hs', hd']; omega
        have hbl : l'.baseList n = w :: ws := by
          unfold baseList; rw [if_neg hk', hst']
        have hvo : ∀ bs, l'.viewOf n bs = bs := by
          intro bs
          unfold viewOf
          rw [if_neg (by tauto), if_neg (by tauto)]
        have hcan := c2.can
        simp only at hcan hmem
        have hbound : ∀ j ∈ w :: ws, j.stop + 1 < INT_MAX := by
          intro j hj
          have hv := hcan.valid hj
          obtain ⟨a, b, _, y, hy, he⟩ := (c2.mem (j.stop - 1)).1 ⟨j, hj, Interval.mem_def.2 (by omega)⟩
          obtain ⟨f, hf, hyf⟩ := hy
          obtain ⟨k, _, _, hk⟩ := mem_slice.1 hf
          have hb := hsafe e (by omega) f (List.mem_of_getElem? hk)
          rw [show l.shift.toNat = 0 by omega] at hb
          have hyf := Interval.mem_def.1 hyf
          have := shr_bound (y := y + l.node.off e) (k := (-l.shift).toNat) (by omega)
          omega
        have hok : l'.OK n := by
          refine ⟨by rw [hn']; exact hg, by rw [hd']; omega, by rw [hn', hs']; exact hsafe, Or.inr ?_, ?_, ?_⟩
          · rw [hst', hbl]
            refine ⟨by simp, le_rfl, ?_⟩
            rw [slice_full]
            exact hcan
          · rw [hst']
            simp only
            have hw := hcan.valid (i := w) (by simp)
            have hwb := hbound w (by simp)
            constructor
            · intro hc; omega
            · intro hc; simp at hc
          · intro _ _
            rw [hst']
            exact ⟨rfl, hbound⟩
        refine ⟨⟨hok, by rw [hd']; simp; omega, ?_, ?_⟩, ?_, ?_, ?_⟩
        · intro _ a b
          unfold rowsOf
          rw [if_neg hk', hst', hs', hn']
          exact c2.offs a b
        · intro x
          have hpe : l'.Pre n (p ++ [i]) l'.d x ↔ l.Pre n (p ++ [i]) e x := by
            unfold Pre; rw [hs', hn', hd']
          rw [hpe, ← hmem]
          unfold view
          rw [hvo, hbl, hst']
          simp only
          rw [slice_full]
        · rw [hst']
        · rw [hst']
        · intro _
          rw [hst']
          refine ⟨rfl, ?_⟩
          unfold Leaf.startAt
          rw [if_neg hk', hst']
          rfl

theorem reset_spec {n : Nat} {l : Leaf} (hg : l.node.Good n) (hsafe : l.node.Safe n l.shift) :
    ∃ l', l.reset n = some l' ∧ l'.node = l.node ∧ l'.shift = l.shift ∧ l'.d = n ∧ l'.On n [] ∧ l'.Fresh n := by
  unfold Leaf.reset
  simp only [Node.size_eq]
  have hmemPre : ∀ x, l.Pre n [] n x ↔ ∃ y, Cor l.shift (l.node.off n) x y ∧ MemList y (l.node.base.cells n) := by
    intro x
    unfold Pre Pref
    constructor
    · rintro ⟨q, y, g1, g2, a, b, g3, g4⟩
      cases q with
      | nil =>
        obtain ⟨rfl, rfl⟩ := rowAt_nil.1 g3
        rw [slice_full] at g4
        exact ⟨y, g2, g4⟩
      | cons => exact g1.elim
    · rintro ⟨y, g1, g2⟩
      exact ⟨[], y, trivial, g1, 0, _, rowAt_nil.2 ⟨rfl, rfl⟩, by rw [slice_full]; exact g2⟩
  by_cases h0 : (l.node.base.cells n).length = 0
  · rw [if_neg (by simpa using h0)]
    refine ⟨_, rfl, rfl, rfl, rfl, ?_⟩
    refine on_invalid hg hsafe le_rfl (by simp; rfl) ?_ ?_ ?_ ?_ ?_
    · simp [Leaf.st, Leaf.setDim]
    · simp [Leaf.st, Leaf.setDim, h0]
    · simp [Leaf.st, Leaf.setDim]
    · simp [Leaf.st, Leaf.setDim]
    · intro x hx
      obtain ⟨y, _, hy⟩ := (hmemPre x).1 hx
      rw [List.length_eq_zero_iff.1 h0] at hy
      simp at hy
  · rw [if_pos h0]
    have hne : l.node.base.cells n ≠ [] := fun hc => h0 (by rw [hc]; rfl)
    have hbase : l.node.base.isEmpty = false := by
      by_contra hc
      rw [Bool.not_eq_false] at hc
      exact hne ((isEmpty_iff hg.wf).1 hc)
    have hget := List.getElem?_eq_getElem (show 0 < (l.node.base.cells n).length by omega)
    generalize (l.node.base.cells n)[0] = f at hget
    rw [Node.start_eq hg.flat hbase, hget]
    simp only [Option.map_some]
    refine ⟨_, rfl, rfl, rfl, rfl, ?_⟩
    generalize hl' : (({ l with d := n } : Leaf).setDim n _) = l'
    have hst' : l'.st = { l.dims n with start := 0, stop := (l.node.base.cells n).length, startOff := 0, endOff := (l.node.base.cells n).length, index := 0, ipos := false, cur := shiftValue (f.start + l.node.off n) l.shift } := by
      rw [← hl']; simp [Leaf.st, Leaf.setDim]
    have hn' : l'.node = l.node := by rw [← hl']; rfl
    have hs' : l'.shift = l.shift := by rw [← hl']; rfl
    have hd' : l'.d = n := by rw [← hl']; rfl
    have hk' : 0 ≤ l'.shift ∨ l'.d = n := Or.inr hd'
    have hfv := hg.wf.top.valid (List.mem_of_getElem? hget)
    have hfb := hsafe n le_rfl f (List.mem_of_getElem? hget)
    have hcurlt : shiftValue (f.start + l.node.off n) l.shift < INT_MAX := by
      unfold shiftValue
      split
      · unfold shl
        have : (f.start + l.node.off n) * 2 ^ l.shift.toNat ≤ (f.stop + l.node.off n + 1) * 2 ^ l.shift.toNat :=
          mul_le_mul_of_nonneg_right (by omega) (by positivity)
        omega
      · rw [show l.shift.toNat = 0 by omega] at hfb
        have := shr_bound (y := f.start + l.node.off n) (k := (-l.shift).toNat) (by omega)
        omega
    have hok : l'.OK n := by
      refine ⟨by rw [hn']; exact hg, by rw [hd'], by rw [hn', hs']; exact hsafe, Or.inr ?_, ?_, ?_⟩
      · rw [hst']
        unfold baseList
        rw [if_pos hk', slice_map, List.length_map, hn', hd']
        simp only
        rw [slice_full]
        exact ⟨by omega, le_rfl, (canonical_translate hg.wf.top).1⟩
      · rw [hst']
        simp only
        constructor
        · intro hc; omega
        · intro hc; omega
      · intro hc; exact absurd hk' hc
    refine ⟨⟨hok, by rw [hd']; simp, ?_, ?_⟩, ?_, ?_, ?_⟩
    · intro _ a b
      unfold rowsOf
      rw [if_pos hk', hst', hs', hn']
      simp only [List.mem_singleton, Prod.mk.injEq]
      constructor
      · rintro ⟨rfl, rfl⟩
        exact ⟨[], trivial, rowAt_nil.2 ⟨rfl, rfl⟩⟩
      · rintro ⟨q, g1, g2⟩
        cases q with
        | nil => exact rowAt_nil.1 g2
        | cons => exact g1.elim
    · intro x
      have hpe : l'.Pre n [] l'.d x ↔ l.Pre n [] n x := by
        unfold Pre; rw [hs', hn', hd']
      rw [hpe, hmemPre]
      unfold view
      rw [hst']
      simp only
      rw [mem_viewOf hk' (by rw [hn', hd', slice_full]; exact hg.wf.top), hs', hn', hd', slice_full]
    · rw [hst']
    · rw [hst']
    · intro _
      rw [hst']
      refine ⟨rfl, ?_⟩
      unfold Leaf.startAt
      rw [if_pos hk', hn', hs', hd', Node.start_eq hg.flat hbase, hget]
      rfl

end Leaf
end Samurai

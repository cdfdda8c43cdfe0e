import Verif.Lemmas.Sweep

namespace Samurai

/-! ### canonical sequences of calls are unique -/

theorem covers_cons {c : Call} {l : List Call} {p : List Int} :
    Covers (c :: l) p ↔ (∃ x ∈ c.2, p = c.1 ++ [x]) ∨ Covers l p := by simp [Covers]

theorem snoc_inj {a b : List Int} {x y : Int} (h : a ++ [x] = b ++ [y]) : a = b ∧ x = y := by
  obtain ⟨h1, h2⟩ := List.append_inj' h rfl
  exact ⟨h1, by simpa using h2⟩

theorem list_lt_irrefl (a : List Int) : ¬ a < a := List.lt_irrefl a

/-- The first cell of the first call is the least one. -/
theorem first_least {a : Call} {l : List Call} (h : CanonicalCalls (a :: l)) {r : List Int} {x : Int}
    (hc : Covers (a :: l) (r ++ [x])) : a.1 < r ∨ (a.1 = r ∧ a.2.start ≤ x) := by
  rcases covers_cons.1 hc with ⟨y, hy, he⟩ | ⟨c, hcl, y, hy, he⟩
  · obtain ⟨rfl, rfl⟩ := snoc_inj he
    exact Or.inr ⟨rfl, hy.1⟩
  · obtain ⟨rfl, rfl⟩ := snoc_inj he
    have hv := h.2 a (by simp)
    have hy := Interval.mem_def.1 hy
    rcases (List.pairwise_cons.1 h.1).1 c hcl with h1 | ⟨h1, h2⟩
    · exact Or.inl h1
    · exact Or.inr ⟨h1, by omega⟩

theorem CanonicalCalls.tail {a : Call} {l : List Call} (h : CanonicalCalls (a :: l)) : CanonicalCalls l :=
  ⟨(List.pairwise_cons.1 h.1).2, fun c hc => h.2 c (by simp [hc])⟩

theorem CanonicalCalls.not_tail {a : Call} {l : List Call} (h : CanonicalCalls (a :: l)) {x : Int} (hx : x ≤ a.2.stop) :
    ¬ Covers l (a.1 ++ [x]) := by
  rintro ⟨c, hc, y, hy, he⟩
  obtain ⟨h1, rfl⟩ := snoc_inj he
  have hy := Interval.mem_def.1 hy
  rcases (List.pairwise_cons.1 h.1).1 c hc with h2 | ⟨_, h3⟩
  · rw [h1] at h2; exact list_lt_irrefl _ h2
  · omega

theorem canonicalCalls_unique {l m : List Call} (hl : CanonicalCalls l) (hm : CanonicalCalls m)
    (h : ∀ r x, Covers l (r ++ [x]) ↔ Covers m (r ++ [x])) : l = m := by
  induction l generalizing m with
  | nil =>
    cases m with
    | nil => rfl
    | cons b m =>
      have hv := hm.2 b (by simp)
      have := (h b.1 b.2.start).2 (covers_cons.2 (Or.inl ⟨_, Interval.mem_def.2 ⟨le_rfl, hv.1⟩, rfl⟩))
      obtain ⟨c, hc, _⟩ := this
      simp at hc
  | cons a l ih =>
    cases m with
    | nil =>
      have hv := hl.2 a (by simp)
      have := (h a.1 a.2.start).1 (covers_cons.2 (Or.inl ⟨_, Interval.mem_def.2 ⟨le_rfl, hv.1⟩, rfl⟩))
      obtain ⟨c, hc, _⟩ := this
      simp at hc
    | cons b m =>
      have hva := hl.2 a (by simp)
      have hvb := hm.2 b (by simp)
      have ca : Covers (a :: l) (a.1 ++ [a.2.start]) := covers_cons.2 (Or.inl ⟨_, Interval.mem_def.2 ⟨le_rfl, hva.1⟩, rfl⟩)
      have cb : Covers (b :: m) (b.1 ++ [b.2.start]) := covers_cons.2 (Or.inl ⟨_, Interval.mem_def.2 ⟨le_rfl, hvb.1⟩, rfl⟩)
      have f1 := first_least hm ((h _ _).1 ca)
      have f2 := first_least hl ((h _ _).2 cb)
      have hrow : a.1 = b.1 ∧ a.2.start = b.2.start := by
        rcases f1 with f1 | ⟨f1, f1'⟩ <;> rcases f2 with f2 | ⟨f2, f2'⟩
        · exact absurd (List.lt_trans f1 f2) (list_lt_irrefl _)
        · rw [f2] at f1; exact absurd f1 (list_lt_irrefl _)
        · rw [f1] at f2; exact absurd f2 (list_lt_irrefl _)
        · exact ⟨f2, by omega⟩
      obtain ⟨hrow, hstart⟩ := hrow
      have e1 : a.2.stop ≤ b.2.stop := by
        by_contra hc
        have : Covers (a :: l) (a.1 ++ [b.2.stop]) :=
          covers_cons.2 (Or.inl ⟨_, Interval.mem_def.2 ⟨by omega, by omega⟩, rfl⟩)
        rcases covers_cons.1 ((h _ _).1 this) with ⟨y, hy, he⟩ | hx
        · obtain ⟨_, rfl⟩ := snoc_inj he
          have := hy.2; omega
        · rw [hrow] at hx; exact hm.not_tail le_rfl hx
      have e2 : b.2.stop ≤ a.2.stop := by
        by_contra hc
        have : Covers (b :: m) (b.1 ++ [a.2.stop]) :=
          covers_cons.2 (Or.inl ⟨_, Interval.mem_def.2 ⟨by omega, by omega⟩, rfl⟩)
        rcases covers_cons.1 ((h _ _).2 this) with ⟨y, hy, he⟩ | hx
        · obtain ⟨_, rfl⟩ := snoc_inj he
          have := hy.2; omega
        · rw [← hrow] at hx; exact hl.not_tail le_rfl hx
      have hab : a = b := by
        obtain ⟨ra, ia⟩ := a
        obtain ⟨rb, ib⟩ := b
        obtain ⟨s, t, u, v⟩ := ia
        obtain ⟨s', t', u', v'⟩ := ib
        simp only at *
        simp only [Prod.mk.injEq, Interval.mk.injEq]
        exact ⟨hrow, by omega, by omega, by omega, by omega⟩
      subst hab
      rw [ih hl.tail hm.tail]
      intro r x
      have hrx := h r x
      rw [covers_cons, covers_cons] at hrx
      constructor
      · intro hx
        rcases hrx.1 (Or.inr hx) with ⟨y, hy, he⟩ | h1
        · obtain ⟨rfl, rfl⟩ := snoc_inj he
          exact absurd hx (hl.not_tail hy.2.le)
        · exact h1
      · intro hx
        rcases hrx.2 (Or.inr hx) with ⟨y, hy, he⟩ | h1
        · obtain ⟨rfl, rfl⟩ := snoc_inj he
          exact absurd hx (hm.not_tail hy.2.le)
        · exact h1

/-! ### refinement of the calls -/

theorem mem_nestedIndices {K m : Nat} {st : List Int} :
    st ∈ nestedIndices K m ↔ st.length = m ∧ ∀ s ∈ st, 0 ≤ s ∧ s < K := by
  induction m generalizing st with
  | zero =>
    simp only [nestedIndices, List.mem_singleton]
    constructor
    · rintro rfl; simp
    · rintro ⟨h, _⟩; exact List.length_eq_zero_iff.1 h
  | succ m ih =>
    simp only [nestedIndices, List.mem_flatMap, List.mem_map, List.mem_range]
    constructor
    · rintro ⟨i, hi, st', hst', rfl⟩
      obtain ⟨h1, h2⟩ := ih.1 hst'
      refine ⟨by simp [h1], ?_⟩
      intro s hs
      rcases List.mem_cons.1 hs with rfl | hs
      · omega
      · exact h2 s hs
    · rintro ⟨h1, h2⟩
      cases st with
      | nil => simp at h1
      | cons s st =>
        have hs := h2 s (by simp)
        refine ⟨s.toNat, by omega, st, ih.2 ⟨by simpa using h1, fun s' hs' => h2 s' (by simp [hs'])⟩, ?_⟩
        rw [Int.toNat_of_nonneg hs.1]

/-- The refined rows are the rows having the coarse row as ancestor. -/
theorem zipWith_ancestor {k : Nat} {yz : List Int} : ∀ {r : List Int},
    (∃ st, st ∈ nestedIndices (2 ^ k) yz.length ∧ r = List.zipWith (fun y s => shl y k + s) yz st) ↔
      List.Forall₂ (IsAncestor k) yz r := by
  have hk : ((2 ^ k : Nat) : Int) = 2 ^ k := by push_cast; rfl
  induction yz with
  | nil =>
    intro r
    constructor
    · rintro ⟨st, _, rfl⟩; exact List.Forall₂.nil
    · intro h; cases h; exact ⟨[], by simp [nestedIndices], rfl⟩
  | cons y yz ih =>
    intro r
    constructor
    · rintro ⟨st, hst, rfl⟩
      obtain ⟨h1, h2⟩ := mem_nestedIndices.1 hst
      cases st with
      | nil => simp at h1
      | cons s st =>
        have hs := h2 s (by simp)
        rw [List.zipWith_cons_cons]
        refine List.Forall₂.cons ?_ (ih.1 ⟨st, mem_nestedIndices.2 ⟨by simpa using h1, fun s' hs' => h2 s' (by simp [hs'])⟩, rfl⟩)
        unfold IsAncestor shl
        have : (y + 1) * 2 ^ k = y * 2 ^ k + 2 ^ k := by ring
        omega
    · intro h
      cases h with
      | cons h1 h2 =>
        rename_i z r
        obtain ⟨st, h3, h4⟩ := ih.2 h2
        obtain ⟨h5, h6⟩ := mem_nestedIndices.1 h3
        unfold IsAncestor at h1
        have : (y + 1) * 2 ^ k = y * 2 ^ k + 2 ^ k := by ring
        refine ⟨(z - shl y k) :: st, mem_nestedIndices.2 ⟨by simp [h5], ?_⟩, ?_⟩
        · intro s hs
          rcases List.mem_cons.1 hs with rfl | hs
          · unfold shl; omega
          · exact h6 s hs
        · rw [List.zipWith_cons_cons, h4]
          congr 1
          omega

theorem forall₂_snoc {R : Int → Int → Prop} {a : List Int} {x : Int} {q : List Int} :
    List.Forall₂ R (a ++ [x]) q ↔ ∃ b y, q = b ++ [y] ∧ List.Forall₂ R a b ∧ R x y := by
  induction a generalizing q with
  | nil =>
    simp only [List.nil_append, List.forall₂_cons_left_iff, List.forall₂_nil_left_iff]
    constructor
    · rintro ⟨y, u, h, rfl, rfl⟩; exact ⟨[], y, rfl, rfl, h⟩
    · rintro ⟨b, y, rfl, rfl, h⟩; exact ⟨y, [], h, rfl, rfl⟩
  | cons c a ih =>
    simp only [List.cons_append, List.forall₂_cons_left_iff]
    constructor
    · rintro ⟨z, u, h, h', rfl⟩
      obtain ⟨b, y, rfl, h1, h2⟩ := ih.1 h'
      exact ⟨z :: b, y, rfl, ⟨z, b, h, h1, rfl⟩, h2⟩
    · rintro ⟨b, y, rfl, ⟨z, u, h, h1, rfl⟩, h2⟩
      exact ⟨z, u ++ [y], h, ih.2 ⟨u, y, rfl, h1, h2⟩, rfl⟩

theorem covers_emit {ref common : Nat} (h : common < ref) {calls : List Call} {p : List Int} :
    Covers (calls.flatMap fun c => emit ref common c.1 c.2) p ↔
      ∃ q, Covers calls q ∧ List.Forall₂ (IsAncestor (ref - common)) q p := by
  unfold Covers
  simp only [List.mem_flatMap]
  constructor
  · rintro ⟨c', ⟨c, hc, hc'⟩, x, hx, rfl⟩
    unfold emit at hc'
    rw [if_neg (by omega), List.mem_map] at hc'
    obtain ⟨st, hst, rfl⟩ := hc'
    rw [mem_shiftLeft] at hx
    refine ⟨c.1 ++ [shr x (ref - common)], ⟨c, hc, _, hx, rfl⟩, ?_⟩
    rw [forall₂_snoc]
    exact ⟨_, x, rfl, zipWith_ancestor.1 ⟨st, hst, rfl⟩, isAncestor_iff.2 rfl⟩
  · rintro ⟨q, ⟨c, hc, x, hx, rfl⟩, hq⟩
    obtain ⟨r, y, rfl, h1, h2⟩ := forall₂_snoc.1 hq
    rw [isAncestor_iff] at h2
    subst h2
    obtain ⟨st, hst, rfl⟩ := zipWith_ancestor.2 h1
    refine ⟨(List.zipWith (fun y s => shl y (ref - common) + s) c.1 st, _), ⟨c, hc, ?_⟩, y, mem_shiftLeft.2 hx, rfl⟩
    unfold emit
    rw [if_neg (by omega), List.mem_map]
    exact ⟨st, hst, rfl⟩

theorem emit_self {ref common : Nat} (h : ref ≤ common) (calls : List Call) :
    calls.flatMap (fun c => emit ref common c.1 c.2) = calls := by
  have : (fun c : Call => emit ref common c.1 c.2) = fun c => [c] := by
    funext c; unfold emit; rw [if_pos h]
  rw [this]
  simp

/-! ### the meaning of the leaves -/

theorem subPoint_subPoint (a b : Nat → Int) (p : List Int) : ∀ d, subPoint a d (subPoint b d p) = subPoint (fun e => a e + b e) d p := by
  induction p with
  | nil => intro d; rfl
  | cons c p ih => intro d; simp only [subPoint, ih]; congr 1; omega

theorem subPoint_zero (p : List Int) : ∀ d, subPoint (fun _ => 0) d p = p := by
  induction p with
  | nil => intro d; rfl
  | cons c p ih => intro d; simp [subPoint, ih]

theorem Node.holds_flat {n : Nat} {N : Node} (h : N.Flat) : ∀ p, N.Holds n p ↔ N.base.Mem n (subPoint N.off n p) := by
  induction N with
  | mesh L => intro p; simp only [Node.Holds, Node.base, Node.off, subPoint_zero]
  | translate t s ih =>
    intro p
    simp only [Node.Holds, Node.base, Node.off]
    rw [ih h, subPoint_subPoint]
  | projection t l ih => exact h.elim

theorem corL_up {s : Int} (hs : 0 ≤ s) {t : Nat → Int} {p : List Int} : ∀ {d : Nat} {q : List Int},
    CorL s t d p q ↔ q = subPoint t d (p.map fun c => shr c s.toNat) := by
  induction p with
  | nil => intro d q; cases q <;> simp [CorL, subPoint]
  | cons c p ih =>
    intro d q
    cases q with
    | nil => simp [CorL, subPoint]
    | cons c' q =>
      simp only [CorL, List.map_cons, subPoint, List.cons.injEq, ih, Cor, if_pos hs]

theorem corL_down {s : Int} (hs : ¬ 0 ≤ s) {t : Nat → Int} {p : List Int} : ∀ {d : Nat} {q : List Int},
    (∃ q', q = subPoint t d q' ∧ List.Forall₂ (IsAncestor (-s).toNat) p q') ↔ CorL s t d p q := by
  induction p with
  | nil =>
    intro d q
    cases q with
    | nil => simp [CorL, subPoint]
    | cons c q => simp [CorL, subPoint]
  | cons c p ih =>
    intro d q
    cases q with
    | nil =>
      simp only [CorL, iff_false]
      rintro ⟨q', h1, h2⟩
      cases h2
      simp [subPoint] at h1
    | cons c' q =>
      simp only [CorL, ← ih, Cor, if_neg hs]
      constructor
      · rintro ⟨q', h1, h2⟩
        cases h2 with
        | cons h3 h4 =>
          simp only [subPoint, List.cons.injEq] at h1
          rw [isAncestor_iff] at h3
          refine ⟨?_, _, h1.2, h4⟩
          rw [h3, h1.1]
          congr 1
          omega
      · rintro ⟨h1, q', h2, h3⟩
        refine ⟨(c' + t d) :: q', ?_, List.Forall₂.cons (isAncestor_iff.2 h1) h3⟩
        simp only [subPoint, List.cons.injEq]
        exact ⟨by omega, h2⟩

theorem forall₂_ancestor {k : Nat} {q p : List Int} :
    List.Forall₂ (IsAncestor k) q p ↔ q = p.map fun c => shr c k := by
  induction p generalizing q with
  | nil => simp
  | cons c p ih =>
    rw [List.forall₂_cons_right_iff]
    constructor
    · rintro ⟨a, u, h1, h2, rfl⟩
      rw [isAncestor_iff] at h1
      rw [ih] at h2
      simp [h1, h2]
    · intro h
      exact ⟨_, _, isAncestor_iff.2 rfl, ih.2 rfl, h⟩

/-- The stored prefixes are the cells seen from the level of the sweep. -/
theorem Leaf.pre_full {n : Nat} {l : Leaf} (hf : l.node.Flat) {m : Nat} (hm : l.shift = (m : Int) - l.node.level)
    {r : List Int} (hr : r.length = n) (x : Int) :
    l.Pre n r 0 x ↔ AtLevel l.node.level m (l.node.Holds n) (r ++ [x]) := by
  have h1 : l.Pre n r 0 x ↔ ∃ q, CorL l.shift l.node.off n (r ++ [x]) q ∧ l.node.base.Mem n q := by
    unfold Leaf.Pre
    constructor
    · rintro ⟨q, y, g1, g2, g3⟩
      rw [pref_full (by rw [corL_length g1]; exact hr)] at g3
      exact ⟨q ++ [y], (corL_snoc r (by omega)).2 ⟨q, y, rfl, g1, g2⟩, g3⟩
    · rintro ⟨q', g1, g2⟩
      obtain ⟨q, y, rfl, g3, g4⟩ := (corL_snoc (e := 0) r (by omega)).1 g1
      exact ⟨q, y, g3, g4, (pref_full (by rw [corL_length g3]; exact hr) y).2 g2⟩
  rw [h1]
  unfold AtLevel
  by_cases hs : 0 ≤ l.shift
  · rw [if_pos (by omega)]
    simp only [corL_up hs, Node.holds_flat hf, forall₂_ancestor]
    rw [show l.shift.toNat = m - l.node.level by omega]
    constructor
    · rintro ⟨q, rfl, h⟩; exact ⟨_, h, rfl⟩
    · rintro ⟨q, h, rfl⟩; exact ⟨_, rfl, h⟩
  · rw [if_neg (by omega)]
    simp only [← corL_down hs, Node.holds_flat hf]
    rw [show (-l.shift).toNat = l.node.level - m by omega]
    constructor
    · rintro ⟨q, ⟨q', rfl, h2⟩, h⟩; exact ⟨q', h, h2⟩
    · rintro ⟨q', h, h2⟩; exact ⟨_, ⟨q', rfl, h2⟩, h⟩

theorem holds_length {n : Nat} {N : Node} (h : N.Flat) {p : List Int} (hp : N.Holds n p) : p.length = n + 1 := by
  rw [Node.holds_flat h] at hp
  have hlen : ∀ (d lo hi : Nat) (L : LCA) (q : List Int), MemRow L d lo hi q → q.length = d + 1 := by
    intro d
    induction d with
    | zero =>
      intro lo hi L q hq
      match q, hq with
      | [x], _ => rfl
    | succ d ih =>
      intro lo hi L q hq
      match q, hq with
      | c :: q, ⟨_, _, _, _, a, b, _, _, h⟩ => simp [ih a b L q h]
  have := hlen n _ _ _ _ hp
  have hsub : ∀ (p : List Int) d, (subPoint N.off d p).length = p.length := by
    intro p
    induction p with
    | nil => intro d; rfl
    | cons c p ih => intro d; simp [subPoint, ih]
  rw [hsub] at this
  exact this

theorem atLevel_length {n lv m : Nat} {S : List Int → Prop} (hS : ∀ p, S p → p.length = n + 1) {p : List Int}
    (h : AtLevel lv m S p) : p.length = n + 1 := by
  unfold AtLevel at h
  split at h
  · obtain ⟨q, h1, h2⟩ := h; rw [← h2.length_eq]; exact hS q h1
  · obtain ⟨q, h1, h2⟩ := h; rw [h2.length_eq]; exact hS q h1

theorem Expr.holds_imp {α : Type} {f : α → Prop} {c : Prop} {t : Expr α} (h : t.All fun a => f a → c) (ht : t.Holds f) : c := by
  induction t with
  | leaf a => exact h ht
  | op o a b iha ihb =>
    cases o with
    | inter => exact iha h.1 ht.1
    | union => exact ht.elim (iha h.1) (ihb h.2)
    | diff => exact iha h.1 ht.1

/-! ### the objects -/

theorem finest_eq (e : Expr Node) : e.commonLevel Node.level = e.finest := by
  induction e with
  | leaf N => rfl
  | op o a b iha ihb =>
    simp only [Expr.commonLevel, Expr.finest, iha, ihb]
    show (if _ then _ else _) = max _ _
    split <;> omega

theorem le_finest (e : Expr Node) : e.All fun N => N.level ≤ e.finest := by
  induction e with
  | leaf N => exact le_rfl
  | op o a b iha ihb =>
    refine ⟨iha.mono fun N hN => hN.trans ?_, ihb.mono fun N hN => hN.trans ?_⟩
    · show _ ≤ max _ _; omega
    · show _ ≤ max _ _; omega

/-- The object is in a state of `expr.on(ref)`: the cursors and the work vectors are arbitrary. -/
structure SetObj.IsOn (o : SetObj) (e : Expr Node) (ref : Nat) : Prop where
  ref_eq : o.ref = ref
  tree : e.Rel (fun N l => l.node = N ∧ l.shift = (Nat.min ref e.finest : Nat) - (N.level : Int)) o.tree

theorem Expr.commonLevel_rel {e : Expr Node} : ∀ {t : Expr Leaf}, e.Rel (fun N l => l.node = N) t →
    t.commonLevel (fun l => l.node.level) = e.commonLevel Node.level := by
  induction e with
  | leaf N => intro t h; cases t with
    | leaf l => show l.node.level = N.level; rw [show l.node = N from h]
    | op => exact h.elim
  | op o a b iha ihb => intro t h; cases t with
    | leaf l => exact h.elim
    | op o' a' b' => simp only [Expr.commonLevel, iha h.2.1, ihb h.2.2]

theorem init_isOn {o : SetObj} {e : Expr Node} (h : e.Rel (fun N l => l.node = N) o.tree) (ref : Nat) :
    (o.init ref).IsOn e ref := by
  have hc : o.common = e.finest := by
    unfold SetObj.common
    rw [Expr.commonLevel_rel h, finest_eq]
  refine ⟨rfl, ?_⟩
  unfold SetObj.init
  rw [hc]
  refine Expr.Rel.trans (R := fun (N : Node) (l : Leaf) => l.node = N)
    (S := fun (l l' : Leaf) => l' = l.setShift ref e.finest) ?_ h
    (Expr.rel_map (f := Leaf.setShift ref e.finest) (P := fun _ => True) (R := fun (l l' : Leaf) => l' = l.setShift ref e.finest)
      (fun a _ => rfl) (Expr.all_true _ fun _ => trivial))
  rintro N l l' rfl rfl
  refine ⟨rfl, ?_⟩
  simp only [Leaf.setShift]
  have : Nat.min ref e.finest = min ref e.finest := rfl
  rw [this]
  split <;> omega

theorem isOn_node {o : SetObj} {e : Expr Node} {ref : Nat} (h : o.IsOn e ref) : e.Rel (fun N l => l.node = N) o.tree :=
  h.tree.mono fun _ _ h => h.1

theorem mkSet_isOn (e : Expr Node) : (mkSet e).IsOn e e.finest := by
  unfold mkSet SetObj.make
  have h : e.Rel (fun N (l : Leaf) => l.node = N) (e.map fun node => ({ node := node } : Leaf)) :=
    Expr.rel_map (f := fun node => ({ node := node } : Leaf)) (P := fun _ => True) (R := fun N (l : Leaf) => l.node = N)
      (fun a _ => rfl) (Expr.all_true _ fun _ => trivial)
  have hc : ({ tree := e.map fun node => ({ node := node } : Leaf), ref := 0 } : SetObj).common = e.finest := by
    unfold SetObj.common
    rw [Expr.commonLevel_rel h, finest_eq]
  simp only
  rw [hc]
  exact init_isOn h _

/-- The calls of an object, whatever its state. -/
theorem call_spec {n : Nat} {e : Expr Node} {ref : Nat} {o : SetObj} (hgood : e.All fun N => N.Good n)
    (hsafe : e.All fun N => N.Safe n ((e.finest : Int) - N.level)) (h : o.IsOn e ref) :
    ∃ o' calls, o.call n = some (o', calls) ∧ o'.IsOn e ref ∧
      ∃ calls0, calls = calls0.flatMap (fun c => emit ref e.finest c.1 c.2) ∧ CanonicalCalls calls0 ∧
        (∀ c ∈ calls0, c.1.length = n) ∧ ∀ p, Covers calls0 p ↔ e.HoldsAt n (Nat.min ref e.finest) p := by
  have hlev := le_finest e
  have hsafe' : e.Rel (fun N (l : Leaf) => l.node = N ∧ l.shift = (Nat.min ref e.finest : Nat) - (N.level : Int) ∧ N.Good n ∧
      N.Safe n l.shift) o.tree := by
    refine Expr.Rel.with (P := fun N => (N.Good n ∧ N.Safe n ((e.finest : Int) - N.level)) ∧ N.level ≤ e.finest)
      (R := fun (N : Node) (l : Leaf) => l.node = N ∧ l.shift = (Nat.min ref e.finest : Nat) - (N.level : Int))
      ?_ ((hgood.and hsafe).and hlev) h.tree
    rintro N l ⟨⟨h1, h2⟩, h3⟩ ⟨h4, h5⟩
    refine ⟨h4, h5, h1, ?_⟩
    intro d hd i hi
    have h6 := h2 d hd i hi
    have hmin : Nat.min ref e.finest = min ref e.finest := rfl
    rw [hmin] at h5
    have h7 : l.shift.toNat ≤ ((e.finest : Int) - N.level).toNat := by omega
    by_cases hneg : i.stop + N.off d + 1 ≤ 0
    · have := pow_two_pos l.shift.toNat
      have : (i.stop + N.off d + 1) * 2 ^ l.shift.toNat ≤ 0 := by nlinarith
      unfold INT_MAX
      omega
    · have : (i.stop + N.off d + 1) * 2 ^ l.shift.toNat ≤ (i.stop + N.off d + 1) * 2 ^ ((e.finest : Int) - N.level).toNat := by
        apply mul_le_mul_of_nonneg_left
        · exact pow_le_pow_right₀ (by norm_num) h7
        · omega
      omega
  have hall : o.tree.All fun l => l.node.Good n ∧ l.node.Safe n l.shift :=
    hsafe'.all fun N l hl => ⟨by rw [hl.1]; exact hl.2.2.1, by rw [hl.1]; exact hl.2.2.2⟩
  obtain ⟨t, t1, t2⟩ := Expr.mapM_spec (f := Leaf.reset n) (P := fun l => l.node.Good n ∧ l.node.Safe n l.shift)
    (R := fun l l' => l'.node = l.node ∧ l'.shift = l.shift ∧ l'.d = n ∧ l'.On n [] ∧ l'.Fresh n)
    (fun l hl => Leaf.reset_spec hl.1 hl.2) hall
  have hready : Ready n n [] t := t2.all fun a b hab => ⟨hab.2.2.2.1, hab.2.2.2.2, hab.2.2.1⟩
  obtain ⟨t', out, a1, a2, calls0, c1, c2, c3, c4⟩ := applySet_spec (ref := o.ref) (common := o.common) n (by simp) hready
  have hcom : o.common = e.finest := by
    unfold SetObj.common
    rw [Expr.commonLevel_rel (isOn_node h), finest_eq]
  rw [h.ref_eq, hcom] at a1 c1
  have hetree : e.Rel (fun N (l : Leaf) => l.node = N ∧ l.shift = (Nat.min ref e.finest : Nat) - (N.level : Int)) t :=
    Expr.Rel.trans (R := fun (N : Node) (l : Leaf) => l.node = N ∧ l.shift = (Nat.min ref e.finest : Nat) - (N.level : Int))
      (S := fun (l l' : Leaf) => l'.node = l.node ∧ l'.shift = l.shift ∧ l'.d = n ∧ l'.On n [] ∧ l'.Fresh n)
      (fun a b c hab hbc => ⟨hbc.1.trans hab.1, hbc.2.1.trans hab.2⟩) h.tree t2
  have hflat : e.All fun N => N.Flat := hgood.mono fun N hN => hN.flat
  refine ⟨{ o with tree := t' }, out, ?_, ⟨h.ref_eq, ?_⟩, calls0, c1, c2, fun c hc => (c3 c hc).2.1, ?_⟩
  · unfold SetObj.call
    rw [t1]
    simp only [h.ref_eq, hcom, a1]
  · exact Expr.Rel.trans (R := fun (N : Node) (l : Leaf) => l.node = N ∧ l.shift = (Nat.min ref e.finest : Nat) - (N.level : Int))
      (S := Leaf.Static) (fun a b c hab hbc => ⟨hbc.node.trans hab.1, hbc.shift.trans hab.2⟩) hetree a2
  · have key : ∀ r x, r.length = n → (Covers calls0 (r ++ [x]) ↔ e.HoldsAt n (Nat.min ref e.finest) (r ++ [x])) := by
      intro r x hr
      rw [c4 r x hr]
      simp only [List.nil_prefix, true_and]
      unfold Expr.HoldsAt
      refine (Expr.holds_congr (Expr.Rel.with (P := fun N => N.Flat)
        (R := fun (N : Node) (l : Leaf) => l.node = N ∧ l.shift = (Nat.min ref e.finest : Nat) - (N.level : Int)) ?_ hflat hetree)).symm
      rintro N l hN ⟨rfl, h2⟩
      exact (Leaf.pre_full hN h2 hr x).symm
    intro p
    constructor
    · rintro ⟨c, hc, x, hx, rfl⟩
      exact (key c.1 x (c3 c hc).2.1).1 ⟨c, hc, x, hx, rfl⟩
    · intro hp
      have hlen : p.length = n + 1 := by
        refine Expr.holds_imp (c := p.length = n + 1) (hflat.mono fun N hN hh => ?_) hp
        exact atLevel_length (fun q hq => holds_length hN hq) hh
      obtain ⟨r, x, rfl⟩ : ∃ r x, p = r ++ [x] := by
        have hne : p ≠ [] := by intro hc; rw [hc] at hlen; simp at hlen
        exact ⟨p.dropLast, p.getLast hne, (List.dropLast_append_getLast hne).symm⟩
      exact (key r x (by simpa using hlen)).2 hp

end Samurai

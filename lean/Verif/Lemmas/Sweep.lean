import Verif.Lemmas.Descend
import Mathlib.Data.List.Induction

namespace Samurai

/-! ### rows -/

theorem append_lt_append (p : List Int) {i j : Int} (h : i < j) (a b : List Int) : p ++ i :: a < p ++ j :: b := by
  induction p with
  | nil => exact List.Lex.rel h
  | cons c p ih => exact List.Lex.cons ih

theorem prefix_snoc_iff {p r : List Int} (h : p.length < r.length) : p <+: r ↔ ∃ i, p ++ [i] <+: r := by
  constructor
  · rintro ⟨s, rfl⟩
    cases s with
    | nil => simp at h
    | cons i s => exact ⟨i, s, by simp⟩
  · rintro ⟨i, s, rfl⟩
    exact ⟨i :: s, by simp⟩

theorem Leaf.pre_prefix {n : Nat} {l : Leaf} {p : List Int} {i : Int} (s : List Int) :
    ∀ {e e' : Nat} {x : Int}, n = p.length + (e + 1) → n = p.length + 1 + s.length + e' →
    l.Pre n (p ++ i :: s) e' x → l.Pre n p (e + 1) i := by
  induction s using List.reverseRecOn with
  | nil =>
    intro e e' x hn hn' h
    obtain rfl : e = e' := by simp at hn'; omega
    exact Leaf.pre_closed hn h
  | append_singleton s c ih =>
    intro e e' x hn hn' h
    have h' : l.Pre n ((p ++ i :: s) ++ [c]) e' x := by simpa using h
    have := Leaf.pre_closed (e := e') (by simp at hn' ⊢; omega) h'
    exact ih hn (by simp at hn'; omega) this

/-- Every stored prefix lies in a non-empty mesh. -/
theorem Leaf.pre_nonempty {n : Nat} {l : Leaf} (hg : l.node.Good n) {p : List Int} {d : Nat} (hd : d ≤ n) {x : Int}
    (h : l.Pre n p d x) : l.node.isEmpty = false := by
  obtain ⟨q, y, _, _, a, b, _, j, hj, _⟩ := h
  rw [Node.isEmpty_eq]
  by_contra hc
  rw [Bool.not_eq_false] at hc
  have h0 := (isEmpty_iff hg.wf).1 hc
  obtain ⟨k, _, _, hk⟩ := mem_slice.1 hj
  rw [(hg.wf.empty h0).1 d hd] at hk
  simp at hk

theorem Expr.isEmpty_spec {α : Type} {f : α → Bool} {g : α → Prop} {t : Expr α} (ht : t.All fun a => f a = true → ¬ g a)
    (h : t.isEmpty f = true) : ¬ t.Holds g := by
  induction t with
  | leaf a => exact ht h
  | op o a b iha ihb =>
    cases o
    · simp only [Expr.isEmpty, Fn.isEmpty, Bool.or_eq_true] at h
      rintro ⟨h1, h2⟩
      rcases h with h | h
      · exact iha ht.1 h h1
      · exact ihb ht.2 h h2
    · simp only [Expr.isEmpty, Fn.isEmpty, Bool.and_eq_true] at h
      rintro (h1 | h1)
      · exact iha ht.1 h.1 h1
      · exact ihb ht.2 h.2 h1
    · simp only [Expr.isEmpty, Fn.isEmpty] at h
      rintro ⟨h1, h2⟩
      exact iha ht.1 h h1

theorem Expr.holds_congr {α β : Type} {f : α → Prop} {g : β → Prop} {t : Expr α} {t' : Expr β}
    (h : t.Rel (fun a b => f a ↔ g b) t') : t.Holds f ↔ t'.Holds g := by
  rw [← Expr.holdsD_zero, ← Expr.holdsD_zero]
  exact Expr.holdsD_congr h

theorem Expr.all_rel {α : Type} {P : α → Prop} {t : Expr α} (h : t.All P) : t.Rel (fun a b => a = b ∧ P a) t :=
  Expr.Rel.with (P := P) (R := fun a b => a = b) (fun _ _ h1 h2 => ⟨h2, h1⟩) h (Expr.Rel.refl (fun _ => rfl) t)

/-! ### calls -/

/-- What the sweep of a tree positioned on the rows `p ++ [i]` with `i` in `S` must produce: `o` is the
expansion by `em` of a canonical list of calls whose cells are those of the expression. -/
def Sweeps (n : Nat) (em : Call → List Call) (t : Expr Leaf) (p : List Int) (S : List Int → Prop) (o : List Call) : Prop :=
  ∃ calls, o = calls.flatMap em ∧ CanonicalCalls calls ∧ (∀ c ∈ calls, p <+: c.1 ∧ c.1.length = n ∧ S c.1) ∧
    ∀ r x, r.length = n → (Covers calls (r ++ [x]) ↔ p <+: r ∧ S r ∧ t.Holds fun l => l.Pre n r 0 x)

theorem covers_append {a b : List Call} {p : List Int} : Covers (a ++ b) p ↔ Covers a p ∨ Covers b p := by
  simp [Covers, or_and_right, exists_or]

theorem canonicalCalls_append {a b : List Call} (ha : CanonicalCalls a) (hb : CanonicalCalls b)
    (h : ∀ c ∈ a, ∀ c' ∈ b, Call.Before c c') : CanonicalCalls (a ++ b) := by
  refine ⟨List.pairwise_append.2 ⟨ha.1, hb.1, h⟩, ?_⟩
  intro c hc
  rcases List.mem_append.1 hc with hc | hc
  · exact ha.2 c hc
  · exact hb.2 c hc

theorem canonicalCalls_nil : CanonicalCalls [] := ⟨List.Pairwise.nil, by simp⟩

theorem Sweeps.congr {n : Nat} {em : Call → List Call} {t t' : Expr Leaf} {p : List Int} {S S' : List Int → Prop}
    {o : List Call} (ht : t.Rel (fun l l' => l'.node = l.node ∧ l'.shift = l.shift) t')
    (hS : ∀ r, p <+: r → (S r ↔ S' r)) (h : Sweeps n em t p S o) : Sweeps n em t' p S' o := by
  obtain ⟨calls, h1, h2, h3, h4⟩ := h
  refine ⟨calls, h1, h2, fun c hc => ?_, fun r x hr => ?_⟩
  · obtain ⟨g1, g2, g3⟩ := h3 c hc
    exact ⟨g1, g2, (hS _ g1).1 g3⟩
  · rw [h4 r x hr, Expr.holds_congr (ht.mono fun l l' hl => by
      show l.Pre n r 0 x ↔ l'.Pre n r 0 x
      unfold Leaf.Pre; rw [hl.1, hl.2])]
    constructor
    · rintro ⟨g1, g2, g3⟩; exact ⟨g1, (hS r g1).1 g2, g3⟩
    · rintro ⟨g1, g2, g3⟩; exact ⟨g1, (hS r g1).2 g2, g3⟩

/-- Concatenation of the outputs for disjoint increasing sets of rows. -/
theorem Sweeps.append {n : Nat} {em : Call → List Call} {t : Expr Leaf} {p : List Int} {A B : Int → Prop}
    {o o' : List Call} (hAB : ∀ i j, A i → B j → i < j)
    (h : Sweeps n em t p (fun r => ∃ i, A i ∧ p ++ [i] <+: r) o)
    (h' : Sweeps n em t p (fun r => ∃ i, B i ∧ p ++ [i] <+: r) o') :
    Sweeps n em t p (fun r => ∃ i, (A i ∨ B i) ∧ p ++ [i] <+: r) (o ++ o') := by
  obtain ⟨c1, h1, h2, h3, h4⟩ := h
  obtain ⟨c2, h1', h2', h3', h4'⟩ := h'
  refine ⟨c1 ++ c2, by rw [h1, h1', List.flatMap_append], canonicalCalls_append h2 h2' ?_, ?_, ?_⟩
  · intro c hc c' hc'
    obtain ⟨_, _, i, hi, s, hs⟩ := h3 c hc
    obtain ⟨_, _, j, hj, s', hs'⟩ := h3' c' hc'
    left
    rw [← hs, ← hs', List.append_assoc, List.append_assoc]
    exact append_lt_append p (hAB i j hi hj) s s'
  · intro c hc
    rcases List.mem_append.1 hc with hc | hc
    · obtain ⟨g1, g2, i, hi, g3⟩ := h3 c hc; exact ⟨g1, g2, i, Or.inl hi, g3⟩
    · obtain ⟨g1, g2, i, hi, g3⟩ := h3' c hc; exact ⟨g1, g2, i, Or.inr hi, g3⟩
  · intro r x hr
    rw [covers_append, h4 r x hr, h4' r x hr]
    constructor
    · rintro (⟨g1, ⟨i, g2, g3⟩, g4⟩ | ⟨g1, ⟨i, g2, g3⟩, g4⟩)
      · exact ⟨g1, ⟨i, Or.inl g2, g3⟩, g4⟩
      · exact ⟨g1, ⟨i, Or.inr g2, g3⟩, g4⟩
    · rintro ⟨g1, ⟨i, g2 | g2, g3⟩, g4⟩
      · exact Or.inl ⟨g1, ⟨i, g2, g3⟩, g4⟩
      · exact Or.inr ⟨g1, ⟨i, g2, g3⟩, g4⟩

theorem Sweeps.nil {n : Nat} {em : Call → List Call} {t : Expr Leaf} {p : List Int} {S : List Int → Prop}
    (h : ∀ r x, r.length = n → p <+: r → S r → ¬ t.Holds fun l => l.Pre n r 0 x) : Sweeps n em t p S [] :=
  ⟨[], rfl, canonicalCalls_nil, by simp, fun r x hr => by
    constructor
    · rintro ⟨c, hc, _⟩; simp at hc
    · rintro ⟨h1, h2, h3⟩; exact absurd h3 (h r x hr h1 h2)⟩

/-- The tree is positioned at the beginning of the row `p`. -/
def Ready (n d : Nat) (p : List Int) (t : Expr Leaf) : Prop := t.All fun l => l.On n p ∧ l.Fresh n ∧ l.d = d

theorem static_nodes {t t' : Expr Leaf} (h : t.Rel Leaf.Static t') :
    t.Rel (fun l l' => l'.node = l.node ∧ l'.shift = l.shift) t' := h.mono fun _ _ h => ⟨h.node, h.shift⟩

theorem static_symm {t t' : Expr Leaf} (h : t.Rel (fun l l' => l'.node = l.node ∧ l'.shift = l.shift) t') :
    t'.Rel (fun l l' => l'.node = l.node ∧ l'.shift = l.shift) t :=
  Expr.Rel.symm (fun _ _ h => ⟨h.1.symm, h.2.symm⟩) h

/-- The loop of one direction. -/
theorem applyWith_spec {n d : Nat} {p : List Int} {t : Expr Leaf} (h : Ready n d p t)
    {sub : Interval → Expr Leaf → Option (Expr Leaf × List Call)} (Q : Interval → List Call → Prop)
    (hsub : ∀ I t', t.Rel Leaf.Static t' → I.start < I.stop → I.step = 1 ∧ I.index = 0 →
      ∃ t'' o, sub I t' = some (t'', o) ∧ t'.Rel Leaf.Same t'' ∧ Q I o) :
    (t.isEmpty (fun l => l.node.isEmpty) = true ∧ applyWith n d sub t = some (t, [])) ∨
    ∃ t' R os, applyWith n d sub t = some (t', os.flatten) ∧ t.Rel Leaf.Static t' ∧ List.Forall₂ Q R os ∧
      Canonical R ∧ (∀ i ∈ R, i.step = 1 ∧ i.index = 0) ∧
      ∀ x, MemList x R ↔ t.HoldsD d fun l => l.Pre n p d x := by
  unfold applyWith
  by_cases he : t.isEmpty (fun l => l.node.isEmpty) = true
  · left; exact ⟨he, by rw [if_pos he]⟩
  · right
    rw [if_neg he]
    have hok : t.All (Leaf.OK n) := h.mono fun l hl => hl.1.ok
    obtain ⟨m, m1, m2, m3⟩ := Expr.max_spec (f := Leaf.max n) (c := INT_MAX - 1)
      (P := fun l m => ∀ x, MemList x (l.view n) → x < m) (t := t)
      (fun a m m' h1 h2 x hx => lt_of_lt_of_le (h1 x hx) h2)
      (hok.mono fun l hl => by
        obtain ⟨m, h1, h2, h3⟩ := hl.max
        exact ⟨m, h1, by omega, h3⟩)
    rw [m1]
    have hmin := Expr.min_le Leaf.min t
    have hinv : SweepInv n d (m + 1) t (t.min Leaf.min) false 0 := by
      refine ⟨hok, ?_, rfl, ?_, ?_, by simp⟩
      · exact (h.and hmin).mono fun l hl => hl.1.2.1.at hl.1.1.ok hl.2 (by omega)
      · exact m3.mono fun l hl x hx => by have := hl x hx; omega
      · simp only [Bool.false_eq_true, false_iff]
        apply Expr.holdsD_false
        refine (h.and hmin).mono fun l hl hm => ?_
        have hat : l.At n (m + 1) (t.min Leaf.min) := hl.1.2.1.at hl.1.1.ok hl.2 (by omega)
        have hl2 : t.min Leaf.min ≤ l.st.cur := hl.2
        rw [hat.mem hl.1.1.ok le_rfl (by omega), hl.1.2.1.ipos] at hm
        cases hm
    have hw : t.weight Leaf.left < t.weight Leaf.weight + 1 := by
      refine Nat.lt_succ_of_le (Expr.weight_rel ?_)
      refine (Expr.all_rel h).mono fun a b hab => ?_
      obtain ⟨rfl, h1, h2, _⟩ := hab
      have := h2.le
      unfold Leaf.left Leaf.weight
      omega
    obtain ⟨t', R, os, r1, r2, r3, r4, r5, r6⟩ := sweepLoop_spec (t0 := t) (by omega) Q hsub _
      (Expr.Rel.refl Leaf.Static.refl t) hinv hw
    refine ⟨t', R, os, r1, r2, r3, r4.canonical, r5, fun x => ?_⟩
    rw [r6]
    simp only [Bool.false_eq_true, false_and, false_or]
    unfold TreeMem
    have : (t.HoldsD d fun l => MemList x (l.view n)) ↔ t.HoldsD d fun l => l.Pre n p d x :=
      Expr.holdsD_congr' (h.mono fun l hl => by rw [hl.1.mem, hl.2.2])
    rw [this]
    constructor
    · exact fun h => h.2
    · intro hx
      refine ⟨?_, hx⟩
      by_contra hc
      rw [← this] at hx
      refine Expr.holdsD_false ?_ hx
      refine (h.and hmin).mono fun l hl hm => ?_
      have hl2 : t.min Leaf.min ≤ l.st.cur := hl.2
      have hat : l.At n (m + 1) x := hl.1.2.1.at hl.1.1.ok (by omega) (by omega)
      rw [hat.mem hl.1.1.ok (by omega) (by omega), hl.1.2.1.ipos] at hm
      cases hm

theorem subLoop_spec {n e : Nat} {em : Call → List Call} {p : List Int} {t0 : Expr Leaf}
    (hn : n = p.length + (e + 1))
    {inner : Int → Expr Leaf → Option (Expr Leaf × List Call)}
    (hinner : ∀ i t, Ready n e (p ++ [i]) t → ∃ t' o, inner i t = some (t', o) ∧ t.Rel Leaf.Static t' ∧
      Sweeps n em t (p ++ [i]) (fun _ => True) o)
    (k : Nat) : ∀ {i : Int} {t : Expr Leaf}, t0.Rel (fun l l' => l'.node = l.node ∧ l'.shift = l.shift) t →
    (t.All fun l => l.On n p ∧ l.d = e + 1) →
    ∃ t' o, subLoop n inner k i t = some (t', o) ∧ t.Rel Leaf.Same t' ∧
      Sweeps n em t0 p (fun r => ∃ j, (i ≤ j ∧ j < i + k) ∧ p ++ [j] <+: r) o := by
  induction k with
  | zero =>
    intro i t _ _
    refine ⟨t, [], rfl, Expr.Rel.refl Leaf.Same.refl t, Sweeps.nil ?_⟩
    rintro r x _ _ ⟨j, hj, _⟩
    simp at hj; omega
  | succ k ih =>
    intro i t ht0 ht
    unfold subLoop
    obtain ⟨t1, h1, h2⟩ := Expr.mapM_spec (f := Leaf.decrementDim n i)
      (R := fun (l l' : Leaf) => l.Below l' ∧ l'.On n (p ++ [i]) ∧ l'.Fresh n) (P := fun l => l.On n p ∧ l.d = e + 1)
      (fun l hl => Leaf.decrementDim_spec hl.1 hl.2 i) ht
    rw [h1]
    have hready : Ready n e (p ++ [i]) t1 := h2.allWith ht fun a b ha hab => ⟨hab.2.1, hab.2.2, by
      have := hab.1.d; omega⟩
    obtain ⟨t2, o, h3, h4, h5⟩ := hinner i t1 hready
    simp only [h3]
    -- coming back
    have hsame : t.Rel Leaf.Same (t2.map Leaf.incrementDim) := by
      have h24 : t.Rel (fun l l'' => l.Same l''.incrementDim) t2 :=
        Expr.Rel.trans (R := fun (l l' : Leaf) => l.Below l' ∧ l'.On n (p ++ [i]) ∧ l'.Fresh n) (S := Leaf.Static)
          (fun a b c hab hbc => hab.1.same hbc) h2 h4
      refine Expr.Rel.trans (R := fun (l l'' : Leaf) => l.Same l''.incrementDim) (S := fun (l'' l3 : Leaf) => l3 = l''.incrementDim)
        (fun a b c hab hbc => by rw [hbc]; exact hab) h24 ?_
      exact Expr.rel_map (R := fun (l'' l3 : Leaf) => l3 = l''.incrementDim) (P := fun _ => True) (fun a _ => rfl) (Expr.all_true _ fun _ => trivial)
    have ht3 : (t2.map Leaf.incrementDim).All fun l => l.On n p ∧ l.d = e + 1 :=
      hsame.allWith ht fun a b ha hab => ⟨hab.static.on ha.1, by rw [hab.d]; exact ha.2⟩
    have ht03 : t0.Rel (fun l l' => l'.node = l.node ∧ l'.shift = l.shift) (t2.map Leaf.incrementDim) :=
      Expr.Rel.trans (R := fun (l l' : Leaf) => l'.node = l.node ∧ l'.shift = l.shift) (S := Leaf.Same)
        (fun a b c hab hbc => ⟨hbc.node.trans hab.1, hbc.shift.trans hab.2⟩) ht0 hsame
    obtain ⟨t3, o', h6, h7, h8⟩ := ih (i := i + 1) ht03 ht3
    simp only [h6]
    refine ⟨t3, o ++ o', rfl, Expr.Rel.trans (R := Leaf.Same) (S := Leaf.Same) (fun a b c hab hbc => hab.trans hbc) hsame h7, ?_⟩
    -- the first row
    have ht10 : t1.Rel (fun l l' => l'.node = l.node ∧ l'.shift = l.shift) t0 := by
      apply static_symm
      exact Expr.Rel.trans (R := fun (l l' : Leaf) => l'.node = l.node ∧ l'.shift = l.shift)
        (S := fun (l l' : Leaf) => l.Below l' ∧ l'.On n (p ++ [i]) ∧ l'.Fresh n)
        (fun a b c hab hbc => ⟨hbc.1.node.trans hab.1, hbc.1.shift.trans hab.2⟩) ht0 h2
    have h9 : Sweeps n em t0 p (fun r => ∃ j, j = i ∧ p ++ [j] <+: r) o := by
      obtain ⟨calls, g1, g2, g3, g4⟩ := h5.congr ht10 (fun _ _ => Iff.rfl)
      refine ⟨calls, g1, g2, fun c hc => ?_, fun r x hr => ?_⟩
      · obtain ⟨k1, k2, _⟩ := g3 c hc
        exact ⟨(List.prefix_append _ _).trans k1, k2, i, rfl, k1⟩
      · rw [g4 r x hr]
        constructor
        · rintro ⟨k1, _, k2⟩
          exact ⟨(List.prefix_append _ _).trans k1, ⟨i, rfl, k1⟩, k2⟩
        · rintro ⟨_, ⟨j, rfl, k1⟩, k2⟩
          exact ⟨k1, trivial, k2⟩
    have h10 := Sweeps.append (A := fun j => j = i) (B := fun j => i + 1 ≤ j ∧ j < i + 1 + k)
      (by intro a b ha hb; omega) h9 h8
    refine h10.congr (Expr.Rel.refl (fun _ => ⟨rfl, rfl⟩) t0) fun r _ => ?_
    constructor
    · rintro ⟨j, hj, hr⟩
      exact ⟨j, by push_cast; omega, hr⟩
    · rintro ⟨j, hj, hr⟩
      exact ⟨j, by push_cast at hj; omega, hr⟩

/-- Concatenation over the intervals of a direction. -/
theorem sweeps_flatten {n : Nat} {em : Call → List Call} {t : Expr Leaf} {p : List Int} {R : List Interval}
    {os : List (List Call)} : ∀ {b : Int}, CanonFrom b R →
    List.Forall₂ (fun I o => Sweeps n em t p (fun r => ∃ j, (I.start ≤ j ∧ j < I.stop) ∧ p ++ [j] <+: r) o) R os →
    Sweeps n em t p (fun r => ∃ j, MemList j R ∧ p ++ [j] <+: r) os.flatten := by
  induction R generalizing os with
  | nil =>
    intro b _ h
    cases h
    refine Sweeps.nil ?_
    rintro r x _ _ ⟨j, hj, _⟩
    simp at hj
  | cons I R ih =>
    intro b hc h
    cases h with
    | cons h1 h2 =>
      obtain ⟨c1, c2, c3⟩ := hc
      have h3 := Sweeps.append (A := fun j => I.start ≤ j ∧ j < I.stop) (B := fun j => MemList j R)
        (by
          intro i j hi hj
          have := c3.lt_of_mem hj
          omega) h1 (ih c3 h2)
      exact h3.congr (Expr.Rel.refl (fun _ => ⟨rfl, rfl⟩) t) fun r _ => by
        simp only [memList_cons, Interval.mem_def]

/-- The sweep. -/
theorem applySet_spec {n ref common : Nat} (d : Nat) : ∀ {p : List Int} {t : Expr Leaf}, p.length + d = n →
    Ready n d p t →
    ∃ t' o, applySet n ref common d p t = some (t', o) ∧ t.Rel Leaf.Static t' ∧
      Sweeps n (fun c => emit ref common c.1 c.2) t p (fun _ => True) o := by
  induction d with
  | zero =>
    intro p t hp h
    unfold applySet
    have hempty : t.isEmpty (fun l => l.node.isEmpty) = true →
        ∀ r x, ¬ t.Holds fun l => l.Pre n r 0 x := fun he r x =>
      Expr.isEmpty_spec (h.mono fun l hl hle hpre => by
        rw [Leaf.pre_nonempty hl.1.ok.good (by omega) hpre] at hle; cases hle) he
    rcases applyWith_spec h (sub := fun r t => some (t, emit ref common p r)) (fun I o => o = emit ref common p I)
      (fun I t' _ _ _ => ⟨t', _, rfl, Expr.Rel.refl Leaf.Same.refl t', rfl⟩) with
      ⟨h1, h2⟩ | ⟨t', R, os, r1, r2, r3, r4, r5, r6⟩
    · exact ⟨t, [], h2, Expr.Rel.refl Leaf.Static.refl t, Sweeps.nil fun r x _ _ _ => hempty h1 r x⟩
    · refine ⟨t', os.flatten, r1, r2, R.map fun I => (p, I), ?_, ⟨?_, ?_⟩, ?_, ?_⟩
      · clear r1 r4 r5 r6
        induction r3 with
        | nil => rfl
        | cons h _ ih => simp [h, ih]
      · obtain ⟨b, hb⟩ := canonical_iff.1 r4
        clear r1 r3 r4 r5 r6
        induction R generalizing b with
        | nil => exact List.Pairwise.nil
        | cons I R ih =>
          rw [List.map_cons, List.pairwise_cons]
          refine ⟨?_, ih _ hb.2.2⟩
          intro c hc
          obtain ⟨J, hJ, rfl⟩ := List.mem_map.1 hc
          exact Or.inr ⟨rfl, (hb.2.2.of_mem hJ).1⟩
      · intro c hc
        obtain ⟨J, hJ, rfl⟩ := List.mem_map.1 hc
        exact ⟨r4.valid hJ, r5 J hJ⟩
      · intro c hc
        obtain ⟨J, hJ, rfl⟩ := List.mem_map.1 hc
        exact ⟨List.prefix_rfl, by simpa using hp, trivial⟩
      · intro r x hr
        have hpr : p <+: r ↔ r = p := by
          constructor
          · intro h; exact (h.eq_of_length (by omega)).symm
          · rintro rfl; exact List.prefix_rfl
        rw [hpr]
        constructor
        · rintro ⟨c, hc, y, hy, he⟩
          obtain ⟨J, hJ, rfl⟩ := List.mem_map.1 hc
          obtain ⟨rfl, he⟩ := List.append_inj' he rfl
          simp at he
          subst he
          refine ⟨rfl, trivial, ?_⟩
          rw [← Expr.holdsD_zero, ← r6]
          exact ⟨J, hJ, hy⟩
        · rintro ⟨rfl, _, hx⟩
          rw [← Expr.holdsD_zero, ← r6] at hx
          obtain ⟨J, hJ, hy⟩ := hx
          exact ⟨(r, J), List.mem_map.2 ⟨J, hJ, rfl⟩, x, hy, rfl⟩
  | succ e ih =>
    intro p t hp h
    unfold applySet
    have hn : n = p.length + (e + 1) := by omega
    have hempty : t.isEmpty (fun l => l.node.isEmpty) = true →
        ∀ r x, ¬ t.Holds fun l => l.Pre n r 0 x := fun he r x =>
      Expr.isEmpty_spec (h.mono fun l hl hle hpre => by
        rw [Leaf.pre_nonempty hl.1.ok.good (by omega) hpre] at hle; cases hle) he
    rcases applyWith_spec h
      (sub := fun r t => subLoop n (fun i t => applySet n ref common e (p ++ [i]) t) r.size r.start t)
      (fun I o => Sweeps n (fun c => emit ref common c.1 c.2) t p
        (fun r => ∃ j, (I.start ≤ j ∧ j < I.stop) ∧ p ++ [j] <+: r) o)
      (fun I t' ht' hI _ => by
        obtain ⟨t'', o, g1, g2, g3⟩ := subLoop_spec (em := fun c => emit ref common c.1 c.2) (t0 := t) hn
          (inner := fun i t => applySet n ref common e (p ++ [i]) t)
          (fun i t1 h1 => ih (by simp; omega) h1) I.size (i := I.start) (t := t') (static_nodes ht')
          (ht'.allWith h fun a b ha hab => ⟨hab.on ha.1, by rw [hab.d]; exact ha.2.2⟩)
        refine ⟨t'', o, g1, g2, g3.congr (Expr.Rel.refl (fun _ => ⟨rfl, rfl⟩) t) fun r _ => ?_⟩
        have : (I.size : Int) = I.stop - I.start := by unfold Interval.size; omega
        rw [this]
        simp only [show I.start + (I.stop - I.start) = I.stop by omega]) with
      ⟨h1, h2⟩ | ⟨t', R, os, r1, r2, r3, r4, r5, r6⟩
    · exact ⟨t, [], h2, Expr.Rel.refl Leaf.Static.refl t, Sweeps.nil fun r x _ _ _ => hempty h1 r x⟩
    · obtain ⟨b, hb⟩ := canonical_iff.1 r4
      refine ⟨t', os.flatten, r1, r2, ?_⟩
      obtain ⟨calls, g1, g2, g3, g4⟩ := sweeps_flatten hb r3
      refine ⟨calls, g1, g2, fun c hc => ⟨(g3 c hc).1, (g3 c hc).2.1, trivial⟩, fun r x hr => ?_⟩
      rw [g4 r x hr]
      constructor
      · rintro ⟨k1, _, k2⟩; exact ⟨k1, trivial, k2⟩
      · rintro ⟨k1, _, k2⟩
        refine ⟨k1, ?_, k2⟩
        obtain ⟨i, hi⟩ := (prefix_snoc_iff (by omega)).1 k1
        refine ⟨i, ?_, hi⟩
        rw [r6]
        obtain ⟨s, rfl⟩ := hi
        rw [← Expr.holdsD_zero] at k2
        refine Expr.holdsD_mono (by omega) ?_ k2
        refine Expr.all_true t fun l hl => ?_
        rw [List.append_assoc] at hl
        refine Leaf.pre_prefix (e' := 0) s hn ?_ hl
        simp at hr; omega

end Samurai

import Verif.Lemmas.UpdateField
import Mathlib.Algebra.BigOperators.Group.Finset.Sigma

namespace Samurai

variable {K : Type} [Field K]

/-! ### sums over the leaves -/

/-- The leaves as a finite set. -/
def leafSet (n : Nat) (c : CA) : Finset (Nat × List Int) := ((c.numbered n).map fun e => (e.1, e.2.1)).toFinset

theorem mem_leafSet {n : Nat} {c : CA} (h : c.WF n) {e : Nat × List Int} : e ∈ leafSet n c ↔ c.Mem n e.1 e.2 := by
  unfold leafSet
  rw [List.mem_toFinset, List.mem_map]
  constructor
  · rintro ⟨⟨l, p, v⟩, h1, rfl⟩
    exact CA.mem_of_numbered h h1
  · intro h1
    obtain ⟨v, hv⟩ := CA.exists_number h h1
    exact ⟨_, hv, rfl⟩

theorem leaves_nodup {n : Nat} {c : CA} (h : c.WF n) : ((c.numbered n).map fun e => (e.1, e.2.1)).Nodup := by
  unfold CA.numbered
  rw [List.map_flatMap, List.Nodup, List.pairwise_flatMap]
  constructor
  · intro l hl
    rw [List.mem_range] at hl
    rw [List.map_map]
    have := numbered_sorted (h l (by omega))
    rw [List.pairwise_map] at this
    rw [List.pairwise_map]
    refine this.imp ?_
    intro a b hab heq
    simp only [Function.comp, Prod.mk.injEq, true_and] at heq
    rw [heq] at hab
    exact List.lt_irrefl _ hab
  · refine (List.nodup_range (n := c.maxSize + 1)).imp ?_
    intro a b hab x hx y hy heq
    simp only [List.mem_map] at hx hy
    obtain ⟨_, ⟨_, _, rfl⟩, rfl⟩ := hx
    obtain ⟨_, ⟨_, _, rfl⟩, rfl⟩ := hy
    simp only [Prod.mk.injEq] at heq
    exact hab heq.1

theorem integral_eq {n : Nat} {c : CA} (h : c.WF n) (f : CellField K) :
    integral n c f = ∑ e ∈ leafSet n c, f e.1 e.2 * cellVolume K (n + 1) e.1 := by
  unfold integral leafSet
  rw [List.sum_toFinset _ (leaves_nodup h), List.map_map]
  rfl

theorem childrenOf_nodup (p : List Int) : (childrenOf p).Nodup := by
  induction p with
  | nil => simp [childrenOf]
  | cons c p ih =>
    unfold childrenOf
    rw [List.Nodup, List.pairwise_flatMap]
    constructor
    · intro q _
      simp
    · refine ih.imp ?_
      intro a b hab x hx y hy heq
      simp only [List.mem_cons, List.not_mem_nil, or_false] at hx hy
      subst heq
      rcases hx with rfl | rfl <;> rcases hy with h | h <;> simp only [List.cons.injEq] at h <;> exact hab h.2

/-- The children of a cell as a finite set. -/
def childSet (l : Nat) (p : List Int) : Finset (Nat × List Int) := ((childrenOf p).map fun q => (l + 1, q)).toFinset

theorem mem_childSet {l : Nat} {p : List Int} {e : Nat × List Int} : e ∈ childSet l p ↔ e.1 = l + 1 ∧ Anc 1 p e.2 := by
  unfold childSet
  rw [List.mem_toFinset, List.mem_map]
  constructor
  · rintro ⟨q, hq, rfl⟩
    exact ⟨rfl, anc_iff.2 (mem_childrenOf.1 hq)⟩
  · rintro ⟨h1, h2⟩
    exact ⟨e.2, mem_childrenOf.2 (anc_iff.1 h2), by rw [← h1]⟩

theorem sum_childSet (l : Nat) (p : List Int) (F : Nat × List Int → K) :
    ∑ e ∈ childSet l p, F e = ((childrenOf p).map fun q => F (l + 1, q)).sum := by
  unfold childSet
  rw [List.sum_toFinset, List.map_map]
  · rfl
  · refine List.Nodup.map ?_ (childrenOf_nodup p)
    intro a b h
    simpa using h

theorem ofPt_toPt {dim : Nat} {p : List Int} (h : p.length = dim) : ofPt dim (toPt p) = p := by
  unfold ofPt toPt
  subst h
  rw [List.reverse_eq_iff]
  apply List.ext_getElem
  · simp
  · intro i h1 h2
    have : i < p.reverse.length := h2
    simp only [List.getElem_map, List.getElem_range]
    rw [List.getD_eq_getElem?_getD, List.getElem?_eq_getElem this]
    rfl

/-- The mean of the children. -/
theorem project_mean (n : Nat) (hn : n ≤ 2) (g : CellField K) (l : Nat) {p : List Int} (hp : p.length = n + 1) :
    project (n + 1) (g.at (n + 1) (l + 1)) (toPt p) = (1 / 2) ^ (n + 1) * ((childrenOf p).map fun q => g (l + 1) q).sum := by
  rcases (by omega : n = 0 ∨ n = 1 ∨ n = 2) with rfl | rfl | rfl
  · obtain ⟨x, rfl⟩ : ∃ x, p = [x] := List.length_eq_one_iff.1 hp
    simp [project, CellField.at, childrenOf, ofPt, childPt, toPt, List.range_succ]
  · obtain ⟨y, x, rfl⟩ : ∃ y x, p = [y, x] := List.length_eq_two.1 hp
    simp [project, CellField.at, childrenOf, ofPt, childPt, toPt, List.range_succ]
    have : (4 : K)⁻¹ = (2 ^ 2)⁻¹ := by norm_num
    rw [this]
    ring
  · obtain ⟨z, y, x, rfl⟩ : ∃ z y x, p = [z, y, x] := List.length_eq_three.1 hp
    simp [project, CellField.at, childrenOf, ofPt, childPt, toPt, List.range_succ]
    have : (8 : K)⁻¹ = (2 ^ 3)⁻¹ := by norm_num
    rw [this]
    ring

theorem toPt_child {n : Nat} {p : List Int} (hp : p.length = n + 1) (a : Nat → Bool) :
    ((ofPt (n + 1) (childPt (toPt p) a)).map fun y => shr y 1) = p ∧
      ∀ d ≤ n, toPt (ofPt (n + 1) (childPt (toPt p) a)) d = childPt (toPt p) a d := by
  constructor
  · conv_rhs => rw [← ofPt_toPt hp]
    unfold ofPt
    rw [List.map_reverse, List.map_map]
    congr 1
    apply List.map_congr_left
    intro d _
    exact shr_two_mul _ _
  · intro d hd
    show (ofPt (n + 1) (childPt (toPt p) a)).reverse.getD d 0 = _
    unfold ofPt
    rw [List.reverse_reverse, List.getD_eq_getElem?_getD, List.getElem?_eq_getElem (by simp; omega)]
    simp

theorem predictChild_congr {dim order : Nat} (hd : 1 ≤ dim ∧ dim ≤ 3) {f : Pt → K} {p : Pt} {a b : Nat → Bool}
    (h : ∀ d, d < dim → a d = b d) : predictChild dim order f p a = predictChild dim order f p b := by
  rcases (by omega : dim = 1 ∨ dim = 2 ∨ dim = 3) with rfl | rfl | rfl
  · simp only [predictChild, h 0 (by omega)]
  · simp only [predictChild, h 0 (by omega), h 1 (by omega)]
  · simp only [predictChild, h 0 (by omega), h 1 (by omega), h 2 (by omega)]

/-- When the children of `p` have the predicted values, their mean is the value of `p`. -/
theorem mean_predicted [CharZero K] (n order : Nat) (hn : n ≤ 2) (f g : CellField K) (l : Nat) {p : List Int} (hp : p.length = n + 1)
    (hg : ∀ q, Anc 1 p q → g (l + 1) q = predicted (n + 1) order f l q) :
    (1 / 2) ^ (n + 1) * ((childrenOf p).map fun q => g (l + 1) q).sum = f l p := by
  rw [← project_mean n hn g l hp]
  have := C29_projection_prediction (K := K) (n + 1) order (by omega) (f.at (n + 1) l) (g.at (n + 1) (l + 1)) (toPt p) (by
    intro a
    obtain ⟨h1, h2⟩ := toPt_child hp a
    show g (l + 1) (ofPt (n + 1) (childPt (toPt p) a)) = _
    rw [hg _ (anc_iff.2 h1.symm)]
    unfold predicted
    rw [h1]
    refine predictChild_congr (by omega) ?_
    intro d hd
    rw [h2 d (by omega)]
    exact isOdd_two_mul _ _)
  rw [this]
  show f l (ofPt (n + 1) (toPt p)) = _
  rw [ofPt_toPt hp]

theorem volume_child [CharZero K] (dim l : Nat) : cellVolume K dim (l + 1) = (1 / 2) ^ dim * cellVolume K dim l := by
  unfold cellVolume
  rw [pow_succ, mul_pow, mul_comm]

/-! ### the integral -/

/-- All the leaves that become the new leaf `(l, p)` have the same level. -/
theorem becomes_same_level {n minL maxL : Nat} {tag : Int → BitVec 32} {cells : CA} (hw : cells.WF n)
    (hb : cells.Between n minL maxL) (hno : cells.NoOverlap n) (hs : SiblingsAgree n cells minL tag) {l l1 l2 : Nat}
    {p q1 q2 : List Int} {t1 t2 : BitVec 32} (g1 : LeafTag n cells tag l1 q1 t1) (g2 : LeafTag n cells tag l2 q2 t2)
    (b1 : Becomes minL maxL t1 l1 q1 l p) (b2 : Becomes minL maxL t2 l2 q2 l p) : l1 = l2 := by
  have f1 := hb l1 q1 (g1.mem hw)
  have f2 := hb l2 q2 (g2.mem hw)
  have f := becomes_level b1 f1
  obtain ⟨m, hm⟩ := anc_exists (maxL - l) p
  obtain ⟨q1', t1', u1, _, u3⟩ := becomes_above hw hs g1 b1 f1.2 f.2 hm
  obtain ⟨q2', t2', v1, _, v3⟩ := becomes_above hw hs g2 b2 f2.2 f.2 hm
  exact (hno.same (u1.mem hw) (v1.mem hw) f1.2 f2.2 u3 v3).1

/-- The values of the new field at the new leaves. -/
structure Transferred (n order : Nat) (cells new : CA) (f f' : CellField K) : Prop where
  kept : ∀ l p, cells.Mem n l p → new.Mem n l p → f' l p = f l p
  coarse : ∀ l p q, new.Mem n l p → cells.Mem n (l + 1) q → Anc 1 p q →
    f' l p = project (n + 1) (f.at (n + 1) (l + 1)) (toPt p)
  fine : ∀ l p q, cells.Mem n l p → new.Mem n (l + 1) q → Anc 1 p q → f' (l + 1) q = predicted (n + 1) order f l q

open Classical in
theorem integral_transferred [CharZero K] {n order minL maxL : Nat} (hn : n ≤ 2) {tag : Int → BitVec 32} {cells new : CA}
    (hw : cells.WF n) (hw' : new.WF n) (hb : cells.Between n minL maxL) (hno : cells.NoOverlap n) (ht : TagsSet n cells tag)
    (hs : SiblingsAgree n cells minL tag)
    (hnew : ∀ l p, new.Mem n l p ↔ ∃ l' q t, LeafTag n cells tag l' q t ∧ Becomes minL maxL t l' q l p) {f f' : CellField K}
    (hf : Transferred n order cells new f f') : integral n new f' = integral n cells f := by
  rw [integral_eq hw, integral_eq hw']
  let R (a b : Nat × List Int) : Prop := ∃ t, LeafTag n cells tag a.1 a.2 t ∧ Becomes minL maxL t a.1 a.2 b.1 b.2
  let vol (l : Nat) : K := cellVolume K (n + 1) l
  let g (a b : Nat × List Int) : K := if b.1 < a.1 then f a.1 a.2 * vol a.1 else f' b.1 b.2 * vol b.1
  have hk : ∀ {t}, AsksKeep t → ¬ AsksRefine t := fun h => h.1
  have hcr : ∀ {t}, AsksCoarsen t → ¬ AsksRefine t := fun h => h.1
  have hck : ∀ {t}, AsksCoarsen t → ¬ AsksKeep t := fun h => h.2.1
  -- sum over the old leaves that become `b`
  have s1 : ∀ b ∈ leafSet n new, ∑ a ∈ (leafSet n cells).filter (R · b), g a b = f' b.1 b.2 * vol b.1 := by
    rintro ⟨l, p⟩ hbm
    rw [mem_leafSet hw'] at hbm
    have hplen : p.length = n + 1 := mem_length hbm.2
    obtain ⟨l0, q0, t0, g0, b0⟩ := (hnew l p).1 hbm
    have hlev : ∀ a : Nat × List Int, R a (l, p) → a.1 = l0 := by
      rintro a ⟨t, h1, h2⟩
      exact becomes_same_level hw hb hno hs h1 g0 h2 b0
    have hR0 : R (l0, q0) (l, p) := ⟨t0, g0, b0⟩
    rcases (by
      rcases b0 with ⟨_, _, h, _⟩ | ⟨_, _, h, _⟩ | ⟨_, h, _⟩ <;> omega : l = l0 + 1 ∨ l0 = l + 1 ∨ l = l0) with h0 | h0 | h0
    · have : (leafSet n cells).filter (R · (l, p)) = {(l0, q0)} := by
        ext a
        simp only [Finset.mem_filter, Finset.mem_singleton]
        constructor
        · rintro ⟨_, hR⟩
          have hl := hlev a hR
          obtain ⟨t, h1, h2⟩ := hR
          have e1 : Anc 1 a.2 p := by
            rcases h2 with ⟨_, _, _, h⟩ | ⟨_, _, h, _⟩ | ⟨_, h, _⟩
            · exact h
            · simp only at h; omega
            · simp only at h; omega
          have e2 : Anc 1 q0 p := by
            rcases b0 with ⟨_, _, _, h⟩ | ⟨_, _, h, _⟩ | ⟨_, h, _⟩
            · exact h
            · omega
            · omega
          exact Prod.ext hl (anc_unique e1 e2)
        · rintro rfl
          exact ⟨(mem_leafSet hw).2 (g0.mem hw), hR0⟩
      rw [this, Finset.sum_singleton]
      show (if l < l0 then _ else _) = _
      rw [if_neg (by omega)]
    · have hcase : AsksCoarsen t0 ∧ minL < l0 ∧ Anc 1 p q0 := by
        rcases b0 with ⟨_, _, h, _⟩ | ⟨h1, h2, _, h4⟩ | ⟨_, h, _⟩
        · omega
        · exact ⟨h1, h2, h4⟩
        · omega
      have : (leafSet n cells).filter (R · (l, p)) = childSet l p := by
        ext a
        simp only [Finset.mem_filter]
        rw [mem_childSet]
        constructor
        · rintro ⟨_, hR⟩
          have hl := hlev a hR
          obtain ⟨t, h1, h2⟩ := hR
          refine ⟨by omega, ?_⟩
          rcases h2 with ⟨_, _, h, _⟩ | ⟨_, _, _, h⟩ | ⟨_, h, _⟩
          · simp only at h; omega
          · exact h
          · simp only at h; omega
        · rintro ⟨h1, h2⟩
          obtain ⟨t', k1, k2⟩ := hs l0 q0 t0 hcase.2.1 g0 hcase.1 p a.2 hcase.2.2 h2
          rw [show l0 = a.1 by omega] at k1
          exact ⟨(mem_leafSet hw).2 (k1.mem hw), t', k1, Or.inr (Or.inl ⟨k2, by omega, by simpa using h1, h2⟩)⟩
      rw [this, sum_childSet]
      have e : ∀ q, g (l + 1, q) (l, p) = f (l + 1) q * vol (l + 1) := fun q => if_pos (by simp)
      simp only [e]
      rw [List.sum_map_mul_right, hf.coarse l p q0 hbm (by rw [← h0]; exact g0.mem hw) hcase.2.2, project_mean n hn f l hplen]
      simp only [vol]
      rw [volume_child]
      ring
    · have : (leafSet n cells).filter (R · (l, p)) = {(l0, q0)} := by
        ext a
        simp only [Finset.mem_filter, Finset.mem_singleton]
        constructor
        · rintro ⟨_, hR⟩
          have hl := hlev a hR
          obtain ⟨t, h1, h2⟩ := hR
          have e1 : p = a.2 := by
            rcases h2 with ⟨_, _, h, _⟩ | ⟨_, _, h, _⟩ | ⟨_, _, h⟩
            · simp only at h; omega
            · simp only at h; omega
            · exact h
          have e2 : p = q0 := by
            rcases b0 with ⟨_, _, h, _⟩ | ⟨_, _, h, _⟩ | ⟨_, _, h⟩
            · omega
            · omega
            · exact h
          exact Prod.ext hl (e1.symm.trans e2)
        · rintro rfl
          exact ⟨(mem_leafSet hw).2 (g0.mem hw), hR0⟩
      rw [this, Finset.sum_singleton]
      show (if l < l0 then _ else _) = _
      rw [if_neg (by omega)]
  -- sum over the new leaves that `a` becomes
  have s2 : ∀ a ∈ leafSet n cells, ∑ b ∈ (leafSet n new).filter (R a ·), g a b = f a.1 a.2 * vol a.1 := by
    rintro ⟨l, p⟩ ham
    rw [mem_leafSet hw] at ham
    have hplen : p.length = n + 1 := mem_length ham.2
    obtain ⟨t, hta⟩ := LeafTag.exists hw tag ham
    have hR : ∀ b, R (l, p) b ↔ Becomes minL maxL t l p b.1 b.2 := by
      intro b
      constructor
      · rintro ⟨t', h1, h2⟩
        rw [h1.unique hw hta] at h2
        exact h2
      · intro h; exact ⟨t, hta, h⟩
    have hin : ∀ b : Nat × List Int, Becomes minL maxL t l p b.1 b.2 → b ∈ leafSet n new := fun b h =>
      (mem_leafSet hw').2 ((hnew _ _).2 ⟨l, p, t, hta, h⟩)
    have hset : (leafSet n new).filter (R (l, p) ·) = (leafSet n new).filter fun b => Becomes minL maxL t l p b.1 b.2 := by
      ext b
      simp only [Finset.mem_filter, hR]
    have stay : ((AsksRefine t ∧ maxL ≤ l) ∨ AsksKeep t ∨ (AsksCoarsen t ∧ l ≤ minL)) →
        ∑ b ∈ (leafSet n new).filter (R (l, p) ·), g (l, p) b = f l p * vol l := by
      intro h
      have : (leafSet n new).filter (R (l, p) ·) = {(l, p)} := by
        rw [hset]
        ext b
        simp only [Finset.mem_filter, Finset.mem_singleton]
        constructor
        · rintro ⟨_, ⟨h1, h2, _⟩ | ⟨h1, h2, _⟩ | ⟨_, h1, h2⟩⟩
          · rcases h with h | h | h
            · omega
            · exact absurd h1 (hk h)
            · exact absurd h1 (hcr h.1)
          · rcases h with h | h | h
            · exact absurd h.1 (hcr h1)
            · exact absurd h (hck h1)
            · omega
          · exact Prod.ext h1 h2
        · rintro rfl
          exact ⟨hin (l, p) (Or.inr (Or.inr ⟨h, rfl, rfl⟩)), Or.inr (Or.inr ⟨h, rfl, rfl⟩)⟩
      rw [this, Finset.sum_singleton]
      show (if l < l then _ else _) = _
      rw [if_neg (by omega), hf.kept l p ham ((mem_leafSet hw').1 (hin (l, p) (Or.inr (Or.inr ⟨h, rfl, rfl⟩))))]
    rcases ht l p t hta with h | h | h
    · rcases Nat.lt_or_ge l maxL with h1 | h1
      · have : (leafSet n new).filter (R (l, p) ·) = childSet l p := by
          rw [hset]
          ext b
          simp only [Finset.mem_filter]
          rw [mem_childSet]
          constructor
          · rintro ⟨_, ⟨_, _, k1, k2⟩ | ⟨k1, _, _⟩ | ⟨k1, _⟩⟩
            · exact ⟨k1, k2⟩
            · exact absurd h (hcr k1)
            · rcases k1 with k | k | k
              · omega
              · exact absurd h (hk k)
              · exact absurd h (hcr k.1)
          · rintro ⟨k1, k2⟩
            exact ⟨hin b (Or.inl ⟨h, h1, k1, k2⟩), Or.inl ⟨h, h1, k1, k2⟩⟩
        rw [this, sum_childSet]
        have e : ∀ q, g (l, p) (l + 1, q) = f' (l + 1) q * vol (l + 1) := fun q => if_neg (by simp)
        simp only [e]
        rw [List.sum_map_mul_right]
        have := mean_predicted n order hn f f' l hplen (fun q hq => hf.fine l p q ham
          ((mem_leafSet hw').1 (hin (l + 1, q) (Or.inl ⟨h, h1, rfl, hq⟩))) hq)
        rw [← this]
        simp only [vol]
        rw [volume_child]
        ring
      · exact stay (Or.inl ⟨h, h1⟩)
    · exact stay (Or.inr (Or.inl h))
    · rcases Nat.lt_or_ge minL l with h1 | h1
      · have hb1 : Becomes minL maxL t l p (l - 1) (p.map fun y => shr y 1) :=
          Or.inr (Or.inl ⟨h, h1, by omega, anc_iff.2 rfl⟩)
        have : (leafSet n new).filter (R (l, p) ·) = {(l - 1, p.map fun y => shr y 1)} := by
          rw [hset]
          ext b
          simp only [Finset.mem_filter, Finset.mem_singleton]
          constructor
          · rintro ⟨_, ⟨k1, _⟩ | ⟨_, _, k1, k2⟩ | ⟨k1, _⟩⟩
            · exact absurd k1 (hcr h)
            · exact Prod.ext (by simp only; omega) (anc_iff.1 k2)
            · rcases k1 with k | k | k
              · exact absurd k.1 (hcr h)
              · exact absurd k (hck h)
              · omega
          · rintro rfl
            exact ⟨hin _ hb1, hb1⟩
        rw [this, Finset.sum_singleton]
        show (if l - 1 < l then _ else _) = _
        rw [if_pos (by omega)]
      · exact stay (Or.inr (Or.inr ⟨h, h1⟩))
  calc ∑ b ∈ leafSet n new, f' b.1 b.2 * vol b.1
      = ∑ b ∈ leafSet n new, ∑ a ∈ (leafSet n cells).filter (R · b), g a b := (Finset.sum_congr rfl s1).symm
    _ = ∑ a ∈ leafSet n cells, ∑ b ∈ (leafSet n new).filter (R a ·), g a b := by
        refine Finset.sum_comm' ?_
        intro b a
        simp only [Finset.mem_filter]
        tauto
    _ = ∑ a ∈ leafSet n cells, f a.1 a.2 * vol a.1 := Finset.sum_congr rfl s2

end Samurai

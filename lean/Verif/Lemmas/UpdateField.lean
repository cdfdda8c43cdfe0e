import Verif.Lemmas.Update
import Verif.Lemmas.AMRMesh
import Verif.Props.Prediction

namespace Samurai

/-! ### writing a field -/

theorem put_apply {K : Type} {f : CellField K} {l : Nat} {p : List Int} {v : K} (l' : Nat) (p' : List Int) :
    f.put l p v l' p' = if l' = l ∧ p' = p then v else f l' p' := rfl

theorem foldl_put {K : Type} (l : Nat) (v : List Int → K) (L : List (List Int)) (l' : Nat) (p' : List Int) : ∀ new : CellField K,
    L.foldl (fun (new : CellField K) p => new.put l p (v p)) new l' p' = if l' = l ∧ p' ∈ L then v p' else new l' p' := by
  induction L with
  | nil => intro new; simp
  | cons p L ih =>
    intro new
    rw [List.foldl_cons, ih, put_apply]
    by_cases h : l' = l
    · by_cases h1 : p' ∈ L
      · simp [h, h1]
      · by_cases h2 : p' = p
        · subst h2; simp [h, h1]
        · simp [h, h1, h2]
    · simp [h]

theorem mem_coords1 {i : Interval} {x : Int} : x ∈ coords1 i ↔ x ∈ i := by
  unfold coords1
  rw [List.mem_map, Interval.mem_def]
  constructor
  · rintro ⟨k, hk, rfl⟩
    rw [List.mem_range] at hk
    omega
  · intro h
    exact ⟨(x - i.start).toNat, List.mem_range.2 (by omega), by omega⟩

theorem mem_callCells {calls : List Call} {p : List Int} : p ∈ callCells calls ↔ Covers calls p := by
  unfold callCells Covers
  simp only [List.mem_flatMap, List.mem_map, mem_coords1]
  constructor
  · rintro ⟨c, h1, x, h2, rfl⟩; exact ⟨c, h1, x, h2, rfl⟩
  · rintro ⟨c, h1, x, h2, rfl⟩; exact ⟨c, h1, x, h2, rfl⟩

theorem mem_childrenOf {p q : List Int} : q ∈ childrenOf p ↔ p = q.map fun y => shr y 1 := by
  induction p generalizing q with
  | nil => simp only [childrenOf, List.mem_singleton]; constructor
           · rintro rfl; rfl
           · intro h; exact List.map_eq_nil_iff.1 h.symm
  | cons c p ih =>
    unfold childrenOf
    rw [List.mem_flatMap]
    constructor
    · rintro ⟨r, hr, hq⟩
      have hr := ih.1 hr
      simp only [List.mem_cons, List.not_mem_nil, or_false] at hq
      rcases hq with rfl | rfl
      · rw [List.map_cons, ← hr]
        congr 1
        unfold shr; omega
      · rw [List.map_cons, ← hr]
        congr 1
        unfold shr; omega
    · intro h
      cases q with
      | nil => simp at h
      | cons y r =>
        rw [List.map_cons, List.cons.injEq] at h
        refine ⟨r, ih.2 h.2, ?_⟩
        have h1 := h.1
        simp only [List.mem_cons, List.cons.injEq, and_true, List.not_mem_nil, or_false]
        unfold shr at h1
        omega

variable {K : Type} [Field K]

/-- The value predicted in the cell `q` of level `l + 1`. -/
def predicted (dim order : Nat) (f : CellField K) (l : Nat) (q : List Int) : K :=
  predictChild dim order (f.at dim l) (toPt (q.map fun y => shr y 1)) fun d => isOdd (toPt q d)

theorem predictCell_apply (dim order : Nat) (f : CellField K) (l : Nat) (new : CellField K) (p : List Int) (l' : Nat)
    (p' : List Int) : predictCell dim order f l new p l' p' =
      if l' = l + 1 ∧ (p'.map fun y => shr y 1) = p then predicted dim order f l p' else new l' p' := by
  unfold predictCell
  rw [foldl_put]
  by_cases h : l' = l + 1 ∧ (p'.map fun y => shr y 1) = p
  · rw [if_pos ⟨h.1, mem_childrenOf.2 h.2.symm⟩, if_pos h]
    unfold predicted
    rw [h.2]
  · rw [if_neg (fun h' => h ⟨h'.1, (mem_childrenOf.1 h'.2).symm⟩), if_neg h]

theorem applyPredict (dim order : Nat) (f : CellField K) (l : Nat) (calls : List Call) (l' : Nat) (p' : List Int)
    (new : CellField K) : applyOp (predictCell dim order f l) calls new l' p' =
      if l' = l + 1 ∧ (p'.map fun y => shr y 1) ∈ callCells calls then predicted dim order f l p' else new l' p' := by
  unfold applyOp
  generalize callCells calls = L
  induction L generalizing new with
  | nil => simp
  | cons p L ih =>
    rw [List.foldl_cons, ih, predictCell_apply]
    by_cases h : l' = l + 1
    · by_cases h1 : (p'.map fun y => shr y 1) ∈ L
      · simp [h, h1]
      · by_cases h2 : (p'.map fun y => shr y 1) = p
        · subst h2; simp [h, h1]
        · simp [h, h1, h2]
    · simp [h]

theorem applyCopy (f : CellField K) (l : Nat) (calls : List Call) (l' : Nat) (p' : List Int) (new : CellField K) :
    applyOp (copyCell f l) calls new l' p' = if l' = l ∧ p' ∈ callCells calls then f l p' else new l' p' :=
  foldl_put l (fun p => f l p) _ _ _ _

theorem applyProject (dim : Nat) (f : CellField K) (l : Nat) (calls : List Call) (l' : Nat) (p' : List Int) (new : CellField K) :
    applyOp (projectCell dim f l) calls new l' p' =
      if l' = l ∧ p' ∈ callCells calls then project dim (f.at dim (l + 1)) (toPt p') else new l' p' :=
  foldl_put l (fun p => project dim (f.at dim (l + 1)) (toPt p)) _ _ _ _

/-! ### `update_fields` -/

/-- `p` of level `l` is a new leaf with an old child. -/
def GotCoarse (n : Nat) (cells new : CA) (l : Nat) (p : List Int) : Prop :=
  new.Mem n l p ∧ ∃ q, cells.Mem n (l + 1) q ∧ Anc 1 p q

/-- The parent of `p` is an old leaf with a new child. -/
def GotFine (n : Nat) (cells new : CA) (l : Nat) (p : List Int) : Prop :=
  0 < l ∧ cells.Mem n (l - 1) (p.map fun y => shr y 1) ∧ ∃ q, new.Mem n l q ∧ Anc 1 (p.map fun y => shr y 1) q

theorem usable_lca {n M : Nat} {D : Int} {c : CA} (hw : c.WF n) (hl : c.Leveled) (hb : c.Below n M D) (hm : M ≤ c.maxSize) {l : Nat}
    (h : l ≤ M) : Usable n M D (.mesh (c.lca l)) := by
  refine ⟨_, rfl, hw l (by omega), by rw [hl l (by omega)]; exact h, fun p hp x hx => ?_⟩
  rw [hl l (by omega)]
  exact hb l p ⟨by omega, hp⟩ x hx

open Classical in
theorem updateFields_spec {n order minL maxL : Nat} {cells new : CA} (hw : cells.WF n) (hw' : new.WF n) (hl : cells.Leveled)
    (hl' : new.Leveled) (hm : maxL ≤ cells.maxSize) (hm' : maxL ≤ new.maxSize) {D : Int} (hD0 : 0 ≤ D)
    (hD : D + 2 * 2 ^ maxL + 2 < INT_MAX) (hb : cells.Below n maxL D) (hb' : new.Below n maxL D) (hmm : minL ≤ maxL)
    (f : CellField K) :
    ∃ f', updateFields n order minL maxL cells new f = some f' ∧ ∀ l p, minL ≤ l → l ≤ maxL →
      f' l p = if l < maxL ∧ GotCoarse n cells new l p then project (n + 1) (f.at (n + 1) (l + 1)) (toPt p)
        else if minL < l ∧ GotFine n cells new l p then predicted (n + 1) order f (l - 1) p
        else if cells.Mem n l p ∧ new.Mem n l p then f l p else 0 := by
  have hu : ∀ l ≤ maxL, Usable n maxL D (.mesh (cells.lca l)) := fun l h => usable_lca hw hl hb hm h
  have hu' : ∀ l ≤ maxL, Usable n maxL D (.mesh (new.lca l)) := fun l h => usable_lca hw' hl' hb' hm' h
  -- copies
  obtain ⟨f1, a1, a2⟩ := foldRange (copyLevel n cells new f)
    (fun k (g : CellField K) => ∀ l p, minL ≤ l → l ≤ maxL →
      g l p = if l < k ∧ cells.Mem n l p ∧ new.Mem n l p then f l p else 0) minL (maxL + 1 - minL) (by
    intro k g hk hk2 hg
    obtain ⟨calls, h1, h2, h3⟩ := runDefault_two (n := n) (o := .inter) (A := cells.lca k) (B := new.lca k) (l := k)
      (hw k (by omega)) (hw' k (by omega)) (hl k (by omega)) (hl' k (by omega)) (K := D)
      (by
        intro p hp x hx
        have := hb k p ⟨by omega, hp⟩ x hx
        have hk := pow_two_pos (maxL - k)
        nlinarith)
      (by
        intro p hp x hx
        have := hb' k p ⟨by omega, hp⟩ x hx
        have hk := pow_two_pos (maxL - k)
        nlinarith)
      (by have := pow_two_pos maxL; omega)
    unfold copyLevel
    rw [h1]
    refine ⟨_, rfl, fun l p h4 h5 => ?_⟩
    rw [applyCopy, hg l p h4 h5]
    have hc : (Expr.op Fn.inter (.leaf (Node.mesh (cells.lca k))) (.leaf (Node.mesh (new.lca k)))).Holds
        (fun (N : Node) => N.Holds n p) ↔ cells.Mem n k p ∧ new.Mem n k p := by
      show (cells.lca k).Mem n p ∧ (new.lca k).Mem n p ↔ _
      unfold CA.Mem
      constructor
      · rintro ⟨u, v⟩; exact ⟨⟨by omega, u⟩, ⟨by omega, v⟩⟩
      · rintro ⟨⟨_, u⟩, ⟨_, v⟩⟩; exact ⟨u, v⟩
    simp only [mem_callCells, h3, hc]
    by_cases he : l = k
    · subst he
      by_cases hh : cells.Mem n l p ∧ new.Mem n l p
      · rw [if_pos ⟨rfl, hh⟩, if_pos ⟨by omega, hh⟩]
      · rw [if_neg (fun u => hh u.2), if_neg (fun u => hh u.2), if_neg (fun u => hh u.2)]
    · rw [if_neg (fun u => he u.1)]
      exact if_congr (by constructor <;> rintro ⟨u, v⟩ <;> exact ⟨by omega, v⟩) rfl rfl)
    (fun _ _ => 0) (by
      intro l p h1 h2
      rw [if_neg (fun u => by omega)])
  -- transfers
  obtain ⟨f2, b1, b2⟩ := foldRange (transferLevel n order cells new f)
    (fun k (g : CellField K) => ∀ l p, minL ≤ l → l ≤ maxL →
      g l p = if l + 1 < k ∧ GotCoarse n cells new l p then project (n + 1) (f.at (n + 1) (l + 1)) (toPt p)
        else if (minL < l ∧ l < k) ∧ GotFine n cells new l p then predicted (n + 1) order f (l - 1) p
        else if cells.Mem n l p ∧ new.Mem n l p then f l p else 0) (minL + 1) (maxL - minL) (by
    intro k g hk hk2 hg
    obtain ⟨k, rfl⟩ : ∃ j, k = j + 1 := ⟨k - 1, by omega⟩
    have inter : ∀ (A B : CA), A.WF n → B.WF n → A.Leveled → B.Leveled → maxL ≤ A.maxSize → maxL ≤ B.maxSize →
        (∀ l ≤ maxL, Usable n maxL D (.mesh (A.lca l))) → (∀ l ≤ maxL, Usable n maxL D (.mesh (B.lca l))) →
        ∃ calls, runSet n (.op .inter (.leaf (.mesh (A.lca (k + 1)))) (.leaf (.mesh (B.lca k)))) k = some calls ∧
          ∀ p, p ∈ callCells calls ↔ (∃ q, A.Mem n (k + 1) q ∧ Anc 1 p q) ∧ B.Mem n k p := by
      intro A B wA wB lA lB mA mB uA uB
      have hfin : (Expr.op Fn.inter (.leaf (Node.mesh (A.lca (k + 1)))) (.leaf (Node.mesh (B.lca k)))).finest = k + 1 := by
        simp only [Expr.finest, Node.level, lA (k + 1) (by omega), lB k (by omega)]
        exact Nat.max_eq_left (by omega)
      obtain ⟨calls, h1, h2, h3⟩ := runSet_ok (usable_admissible hD0 hD
        (e := .op .inter (.leaf (.mesh (A.lca (k + 1)))) (.leaf (.mesh (B.lca k))))
        ⟨uA (k + 1) (by omega), uB k (by omega)⟩) (ref := k) (by rw [hfin]; omega)
      refine ⟨calls, h1, fun p => ?_⟩
      rw [mem_callCells, h3]
      show AtLevel (A.lca (k + 1)).level k (fun q => (A.lca (k + 1)).Mem n q) p ∧
        AtLevel (B.lca k).level k (fun q => (B.lca k).Mem n q) p ↔ _
      rw [lA (k + 1) (by omega), lB k (by omega), atLevel_self]
      have := atLevel_up (l := k + 1) (by omega) (S := fun q => (A.lca (k + 1)).Mem n q) (p := p)
      rw [show k + 1 - 1 = k by omega] at this
      rw [this]
      unfold CA.Mem
      constructor
      · rintro ⟨⟨q, u, v⟩, w⟩; exact ⟨⟨q, ⟨by omega, u⟩, v⟩, by omega, w⟩
      · rintro ⟨⟨q, ⟨_, u⟩, v⟩, _, w⟩; exact ⟨⟨q, u, v⟩, w⟩
    obtain ⟨c1, h1, h2⟩ := inter cells new hw hw' hl hl' hm hm' hu hu'
    obtain ⟨c2, h3, h4⟩ := inter new cells hw' hw hl' hl hm' hm hu' hu
    unfold transferLevel
    rw [show k + 1 - 1 = k by omega, h1]
    simp only []
    rw [h3]
    refine ⟨_, rfl, fun l p h5 h6 => ?_⟩
    rw [applyPredict, applyProject, hg l p h5 h6]
    simp only [h2, h4]
    have e1 : l = k + 1 → ((∃ q, new.Mem n (k + 1) q ∧ Anc 1 (p.map fun y => shr y 1) q) ∧
        cells.Mem n k (p.map fun y => shr y 1) ↔ GotFine n cells new l p) := by
      rintro rfl
      unfold GotFine
      rw [show k + 1 - 1 = k by omega]
      constructor
      · rintro ⟨u, v⟩; exact ⟨by omega, v, u⟩
      · rintro ⟨_, v, u⟩; exact ⟨u, v⟩
    have e2 : l = k → ((∃ q, cells.Mem n (k + 1) q ∧ Anc 1 p q) ∧ new.Mem n k p ↔ GotCoarse n cells new l p) := by
      rintro rfl
      exact and_comm
    by_cases hlk : l = k + 1
    · have hne : ¬ l = k := by omega
      have hn1 : ¬ (l + 1 < k + 1 ∧ GotCoarse n cells new l p) := fun u => by omega
      have hn2 : ¬ (l + 1 < k + 1 + 1 ∧ GotCoarse n cells new l p) := fun u => by omega
      have hn3 : ¬ ((minL < l ∧ l < k + 1) ∧ GotFine n cells new l p) := fun u => by omega
      rw [if_neg hn1, if_neg hn2, if_neg hn3]
      simp only [e1 hlk, hne, false_and, if_false]
      by_cases hf : GotFine n cells new l p
      · rw [if_pos ⟨hlk, hf⟩, if_pos ⟨by omega, hf⟩, hlk]
        rfl
      · simp only [hf, and_false, if_false]
    · simp only [hlk, false_and, if_false]
      by_cases hlk' : l = k
      · simp only [e2 hlk']
        by_cases hc : GotCoarse n cells new l p
        · rw [if_pos ⟨hlk', hc⟩, if_pos ⟨by omega, hc⟩, hlk']
        · simp only [hc, and_false, if_false]
          exact if_congr (by constructor <;> rintro ⟨u, v⟩ <;> exact ⟨by omega, v⟩) rfl rfl
      · simp only [hlk', false_and, if_false]
        refine if_congr (by constructor <;> rintro ⟨u, v⟩ <;> exact ⟨by omega, v⟩) rfl ?_
        exact if_congr (by constructor <;> rintro ⟨u, v⟩ <;> exact ⟨by omega, v⟩) rfl rfl)
    f1 (by
      intro l p h1 h2
      rw [if_neg (fun u => by omega), if_neg (fun u => by omega), a2 l p h1 h2]
      exact if_congr (by constructor; exacts [fun u => u.2, fun u => ⟨by omega, u⟩]) rfl rfl)
  refine ⟨f2, ?_, fun l p h1 h2 => ?_⟩
  · unfold updateFields
    rw [a1]
    exact b1
  · rw [b2 l p h1 h2]
    refine if_congr (by constructor <;> rintro ⟨u, v⟩ <;> exact ⟨by omega, v⟩) rfl ?_
    exact if_congr (by constructor <;> rintro ⟨u, v⟩ <;> exact ⟨by omega, v⟩) rfl rfl

end Samurai

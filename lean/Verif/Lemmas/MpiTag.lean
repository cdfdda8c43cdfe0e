/-
Lemmas for C122: what `keep_only_one_coarse_tag` does to the tags.
-/
import Verif.Spec.MpiTag
import Verif.Lemmas.TagOps
import Verif.Lemmas.AMRMesh
import Verif.Lemmas.MRMesh
import Verif.Lemmas.Update
import Mathlib.Data.List.Nodup

namespace Samurai

/-- All the children of the cell `s` of level `l - 1` have the flag `coarsen` and none has the flag `keep`. -/
def FamilyCoarse (t : TagField) (l : Nat) (s : List Int) : Prop := ∀ q, parentOf q = s → t l q &&& 2#32 ≠ 0#32 ∧ t l q &&& 1#32 = 0#32

theorem flagged_iff {t f : BitVec 32} : flagged t f = true ↔ t &&& f ≠ 0#32 := by
  unfold flagged
  exact bne_iff_ne

theorem foldl_put_zero (level : Nat) (l : Nat) (x : List Int) : ∀ (L : List (List Int)) (t : TagField),
    L.foldl (fun (t : TagField) q => t.put level q 0#32) t l x = if l = level ∧ x ∈ L then 0#32 else t l x
  | [], t => by simp
  | q :: L, t => by
    rw [List.foldl_cons, foldl_put_zero level l x L]
    by_cases h1 : l = level ∧ x ∈ L
    · rw [if_pos h1, if_pos ⟨h1.1, List.mem_cons_of_mem _ h1.2⟩]
    · rw [if_neg h1]
      unfold CellField.put
      by_cases h2 : l = level ∧ x = q
      · rw [if_pos h2, if_pos ⟨h2.1, by rw [h2.2]; exact List.mem_cons_self⟩]
      · rw [if_neg h2, if_neg]
        rintro ⟨h3, h4⟩
        rcases List.mem_cons.1 h4 with h4 | h4
        · exact h2 ⟨h3, h4⟩
        · exact h1 ⟨h3, h4⟩

open Classical in
theorem keepOneCell_apply (level : Nat) (t : TagField) (p : List Int) (l : Nat) (x : List Int) :
    keepOneCell level t p l x = if l = level ∧ parentOf x = p ∧ FamilyCoarse t level p then 0#32 else t l x := by
  have hc : ((childrenOf p).all (fun q => flagged (t level q) CellFlag.coarsen) && !((childrenOf p).any fun q => flagged (t level q) CellFlag.keep)) = true ↔
      FamilyCoarse t level p := by
    rw [Bool.and_eq_true, List.all_eq_true, Bool.not_eq_true', List.any_eq_false]
    unfold FamilyCoarse
    simp only [mem_children, flagged_iff]
    constructor
    · rintro ⟨h1, h2⟩ q hq
      exact ⟨h1 q hq, not_not.1 (h2 q hq)⟩
    · intro h
      exact ⟨fun q hq => (h q hq).1, fun q hq => not_not.2 (h q hq).2⟩
  unfold keepOneCell
  by_cases hf : FamilyCoarse t level p
  · rw [if_pos (hc.2 hf), foldl_put_zero]
    simp only [mem_children, hf, and_true]
  · rw [if_neg (fun h => hf (hc.1 h))]
    simp [hf]

/-- The cells (level of the children, parent) one after the other. -/
def keepOneAll (S : List (Nat × List Int)) (t : TagField) : TagField := S.foldl (fun t e => keepOneCell e.1 t e.2) t

open Classical in
theorem keepOneAll_apply (l : Nat) (x : List Int) : ∀ (S : List (Nat × List Int)) (t : TagField),
    keepOneAll S t l x = if (l, parentOf x) ∈ S ∧ FamilyCoarse t l (parentOf x) then 0#32 else t l x
  | [], t => by simp [keepOneAll]
  | (l0, p0) :: S, t => by
    show keepOneAll S (keepOneCell l0 t p0) l x = _
    rw [keepOneAll_apply l x S]
    by_cases he : l = l0 ∧ parentOf x = p0
    · obtain ⟨rfl, rfl⟩ := he
      by_cases hf : FamilyCoarse t l (parentOf x)
      · have h0 : ∀ q, parentOf q = parentOf x → keepOneCell l t (parentOf x) l q = 0#32 := fun q hq => by
          rw [keepOneCell_apply, if_pos ⟨rfl, hq, hf⟩]
        rw [if_neg (fun h => (h.2 x rfl).1 (by rw [h0 x rfl]; decide)), h0 x rfl, if_pos ⟨List.mem_cons_self, hf⟩]
      · have h0 : ∀ q, keepOneCell l t (parentOf x) l q = t l q := fun q => by
          rw [keepOneCell_apply, if_neg (fun h => hf h.2.2)]
        have hf' : ¬ FamilyCoarse (keepOneCell l t (parentOf x)) l (parentOf x) := fun h => hf fun q hq => by
          rw [← h0 q]
          exact h q hq
        rw [h0 x, if_neg (fun h => hf' h.2), if_neg (fun h => hf h.2)]
    · have h0 : ∀ q, parentOf q = parentOf x → keepOneCell l0 t p0 l q = t l q := fun q hq => by
        rw [keepOneCell_apply, if_neg]
        rintro ⟨h1, h2, -⟩
        exact he ⟨h1, by rw [← hq]; exact h2⟩
      have hf : FamilyCoarse (keepOneCell l0 t p0) l (parentOf x) ↔ FamilyCoarse t l (parentOf x) := by
        unfold FamilyCoarse
        refine forall_congr' fun q => forall_congr' fun hq => ?_
        rw [h0 q hq]
      have hm : (l, parentOf x) ∈ (l0, p0) :: S ↔ (l, parentOf x) ∈ S := by
        rw [List.mem_cons, or_iff_right]
        intro h
        exact he (Prod.mk.inj h)
      rw [h0 x rfl]
      by_cases hc : (l, parentOf x) ∈ S ∧ FamilyCoarse t l (parentOf x)
      · rw [if_pos ⟨hc.1, hf.2 hc.2⟩, if_pos ⟨hm.2 hc.1, hc.2⟩]
      · rw [if_neg (fun h => hc ⟨h.1, hf.1 h.2⟩), if_neg (fun h => hc ⟨hm.1 h.1, h.2⟩)]

theorem keepOneAll_append (S S' : List (Nat × List Int)) (t : TagField) : keepOneAll (S ++ S') t = keepOneAll S' (keepOneAll S t) := by
  unfold keepOneAll
  rw [List.foldl_append]

/-- A loop of such sequences is one of them. -/
theorem keepOne_loop {α : Type} {f : TagField → α → Option TagField} {P : α → Nat × List Int → Prop} : ∀ (L : List α),
    (∀ a ∈ L, ∃ S, (∀ e, e ∈ S ↔ P a e) ∧ ∀ t, f t a = some (keepOneAll S t)) →
    ∃ S, (∀ e, e ∈ S ↔ ∃ a ∈ L, P a e) ∧ ∀ t, L.foldlM f t = some (keepOneAll S t)
  | [], _ => ⟨[], by simp, fun t => rfl⟩
  | a :: L, h => by
    obtain ⟨S, h1, h2⟩ := h a List.mem_cons_self
    obtain ⟨S', h3, h4⟩ := keepOne_loop L fun b hb => h b (List.mem_cons_of_mem _ hb)
    refine ⟨S ++ S', fun e => ?_, fun t => ?_⟩
    · rw [List.mem_append, h1, h3]
      constructor
      · rintro (h | ⟨b, hb, h⟩)
        · exact ⟨a, List.mem_cons_self, h⟩
        · exact ⟨b, List.mem_cons_of_mem _ hb, h⟩
      · rintro ⟨b, hb, hP⟩
        rcases List.mem_cons.1 hb with rfl | hb
        · exact Or.inl hP
        · exact Or.inr ⟨b, hb, hP⟩
    · rw [List.foldlM_cons, h2]
      show L.foldlM f (keepOneAll S t) = _
      rw [h4, keepOneAll_append]

theorem nested {a b : Nat} {p q m : List Int} (h1 : Anc a p m) (h2 : Anc b q m) (hab : b ≤ a) : Anc (a - b) p q := by
  rw [anc_iff] at *
  rw [h1, h2, map_shr_add]
  congr 1
  funext c
  rw [show b + (a - b) = a by omega]

/-- Every cell has a descendant. -/
theorem some_descendant (k : Nat) (p : List Int) : ∃ m, Anc k p m := by
  induction k generalizing p with
  | zero => exact ⟨p, anc_zero.2 rfl⟩
  | succ k ih =>
    have : Anc 1 p (p.map fun x => 2 * x) := by
      rw [anc_iff, List.map_map]
      conv_lhs => rw [← List.map_id p]
      apply List.map_congr_left
      intro x _
      simp only [id, Function.comp, shr]
      omega
    obtain ⟨m, hm⟩ := ih (p.map fun x => 2 * x)
    exact ⟨m, by rw [Nat.add_comm]; exact anc_trans this hm⟩

section
variable {n size minL maxL : Nat} {ref cells : Nat → CA} {sub : Nat → LCA} {t : TagField} {tag : Nat → TagField}

/-- The tags after `keep_only_one_coarse_tag`. -/
theorem keepOnly_spec (h : MpiLeaves n size maxL ref cells sub) {r : Nat} (hr : r < size) : ∃ S, (∀ t, keepOnlyOneCoarseTag n size r (ref r).minLevel (cells r) sub t = some (keepOneAll S t)) ∧
    ∀ l s, (l, s) ∈ S ↔ 1 ≤ l ∧ (∃ c, (cells r).Mem n l c ∧ parentOf c = s) ∧ ∃ q < r, ∃ m, (sub q).Mem n m ∧ Anc (maxL - (l - 1)) s m := by
  obtain ⟨D, d0, d1, d2⟩ := h.range
  have hlevel : ∀ q < size, ∀ l, 1 ≤ l → l ≤ maxL → ∃ S, (∀ e, e ∈ S ↔ e.1 = l ∧ (∃ c, (cells r).Mem n l c ∧ parentOf c = e.2) ∧ ∃ m, (sub q).Mem n m ∧ Anc (maxL - (l - 1)) e.2 m) ∧
      ∀ t, keepOneLevel n (cells r) (sub q) t l = some (keepOneAll S t) := by
    intro q hq l h1 h2
    have hroom := h.room r hr
    have e1 : ((cells r).lca l).level = l := h.leveled r hr l (by omega)
    have ha : (Expr.op .inter (.leaf (.mesh ((cells r).lca l))) (.leaf (.mesh (sub q)))).Admissible n :=
      usable_admissible (M := maxL) d0 d1 ⟨⟨_, rfl, h.wf r hr l (by omega), by rw [e1]; exact h2, fun p hp x hx => by
        rw [e1]
        exact (d2 r hr).1 l p ⟨by omega, hp⟩ x hx⟩, ⟨_, rfl, h.subWF q hq, (h.subLevel q hq).le, (d2 q hq).2⟩⟩
    have hf : l - 1 ≤ (Expr.op .inter (.leaf (.mesh ((cells r).lca l))) (.leaf (.mesh (sub q)))).finest := by
      show l - 1 ≤ Nat.max ((cells r).lca l).level _
      rw [e1]
      exact le_trans (by omega) (Nat.le_max_left _ _)
    obtain ⟨calls, g1, _, g3⟩ := runSet_ok ha hf
    refine ⟨(callCells calls).map fun p => (l, p), fun e => ?_, fun t => ?_⟩
    · have hcov : ∀ p, Covers calls p ↔ (∃ c, (cells r).Mem n l c ∧ parentOf c = p) ∧ ∃ m, (sub q).Mem n m ∧ Anc (maxL - (l - 1)) p m := by
        intro p
        refine (g3 p).trans ?_
        show AtLevel ((cells r).lca l).level (l - 1) _ p ∧ AtLevel (sub q).level (l - 1) _ p ↔ _
        rw [e1, h.subLevel q hq, atLevel_up (by omega)]
        unfold AtLevel
        rw [if_neg (by omega)]
        simp only [anc_one]
        refine and_congr ⟨?_, ?_⟩ Iff.rfl
        · rintro ⟨c, hc, hp⟩
          exact ⟨c, ⟨by omega, hc⟩, hp⟩
        · rintro ⟨c, hc, hp⟩
          exact ⟨c, hc.2, hp⟩
      rw [List.mem_map]
      constructor
      · rintro ⟨p, hp, rfl⟩
        exact ⟨rfl, (hcov p).1 (mem_callCells.1 hp)⟩
      · rintro ⟨rfl, he⟩
        exact ⟨e.2, mem_callCells.2 ((hcov _).2 he), rfl⟩
    · unfold keepOneLevel
      rw [g1]
      show some (tagCells (keepOneCell l) calls t) = _
      unfold tagCells keepOneAll
      rw [List.foldl_map]
  have hmax : (cells r).maxLevel ≤ maxL := by
    rcases (cells r).level_cases with ⟨-, -, h3⟩ | ⟨-, h2, -, h4, -⟩
    · omega
    · have hne : ((cells r).lca (cells r).maxLevel).rows n ≠ [] := fun h0 => by
        rw [(rows_eq_nil_iff (h.wf r hr _ h2)).1 h0] at h4
        simp at h4
      obtain ⟨e, he⟩ := List.exists_mem_of_ne_nil _ hne
      have hv := rows_valid (h.wf r hr _ h2) he
      exact h.top r hr _ (e.1 ++ [e.2.start]) ⟨h2, (Samurai.mem_iff_rows (h.wf r hr _ h2) _).2 ⟨e, he, e.2.start, Interval.mem_def.2 ⟨le_rfl, hv.2⟩, rfl⟩⟩
  have hrank : ∀ q ∈ mpiOthers size r, ∃ S, (∀ e, e ∈ S ↔ q < r ∧ 1 ≤ e.1 ∧ (∃ c, (cells r).Mem n e.1 c ∧ parentOf c = e.2) ∧ ∃ m, (sub q).Mem n m ∧ Anc (maxL - (e.1 - 1)) e.2 m) ∧
      ∀ t, (if r > q then (List.range' (max 1 (ref r).minLevel) ((cells r).maxLevel + 1 - max 1 (ref r).minLevel)).foldlM (keepOneLevel n (cells r) (sub q)) t else some t) =
        some (keepOneAll S t) := by
    intro q hq
    have hq : q < size := by
      have := (List.mem_filter.1 hq).1
      exact List.mem_range.1 this
    by_cases hrq : r > q
    · obtain ⟨S, h1, h2⟩ := keepOne_loop (List.range' (max 1 (ref r).minLevel) ((cells r).maxLevel + 1 - max 1 (ref r).minLevel)) (fun l hl => by
        have := List.mem_range'_1.1 hl
        exact hlevel q hq l (by omega) (by omega))
      refine ⟨S, fun e => (h1 e).trans ?_, fun t => by rw [if_pos hrq]; exact h2 t⟩
      constructor
      · rintro ⟨l, hl, rfl, he⟩
        have := List.mem_range'_1.1 hl
        exact ⟨hrq, by omega, he⟩
      · rintro ⟨-, h3, ⟨c, hc, hce⟩, hm⟩
        have h4 := h.inRef r hr _ _ hc
        have h5 := (CA.mem_levels (h.wf r hr) hc).2
        exact ⟨e.1, List.mem_range'_1.2 ⟨by omega, by omega⟩, rfl, ⟨c, hc, hce⟩, hm⟩
    · exact ⟨[], fun e => by simp; omega, fun t => by rw [if_neg hrq]; rfl⟩
  obtain ⟨S, h1, h2⟩ := keepOne_loop _ hrank
  refine ⟨S, h2, fun l s => (h1 _).trans ?_⟩
  constructor
  · rintro ⟨q, hq, h3, h4, h5, h6⟩
    exact ⟨h4, h5, q, h3, h6⟩
  · rintro ⟨h4, h5, q, h3, h6⟩
    refine ⟨q, List.mem_filter.2 ⟨List.mem_range.2 (by omega), by simp; omega⟩, h3, h4, h5, h6⟩

theorem tagArray_leaf (h : MpiLeaves n size maxL ref cells sub) {r : Nat} (hr : r < size) (t : TagField) {l : Nat} {p : List Int} {v : BitVec 32} :
    LeafTag n (cells r) (tagArray n (ref r) t) l p v ↔ (cells r).Mem n l p ∧ t l p = v := by
  have key : ∀ {k : Int}, (l, p, k) ∈ (cells r).numbered n → tagArray n (ref r) t k = t l p := by
    intro k hk
    have hin := h.sameNumbers r hr _ hk
    unfold tagArray
    cases hf : ((ref r).numbered n).find? fun e => e.2.2 == k with
    | none =>
      rw [List.find?_eq_none] at hf
      exact absurd (by simp) (hf _ hin)
    | some e =>
      have he := List.find?_some hf
      have hem := List.mem_of_find?_eq_some hf
      have : e = (l, p, k) := List.inj_on_of_nodup_map (h.numbers r hr) hem hin (by simpa using he)
      rw [this]
  constructor
  · rintro ⟨k, hk, rfl⟩
    exact ⟨CA.mem_of_numbered (h.wf r hr) hk, (key hk).symm⟩
  · rintro ⟨hm, rfl⟩
    obtain ⟨yz, i, x, h1, h2, rfl⟩ := (CA.mem_iff_rows (h.wf r hr)).1 hm
    have hk := CA.mem_numbered.2 ⟨yz, i, x, h1, h2, rfl, rfl⟩
    exact ⟨_, hk, key hk⟩

/-- The new leaves of a process, from the tags of all: a leaf that is coarsened counts only if no process of smaller rank has a sibling of it. -/
theorem newLeaves_spec (h : MpiLeaves n size maxL ref cells sub) (ht : MpiTags n size minL cells t tag) {r : Nat} (hr : r < size) :
    ∃ new, mpiNewLeaves n size minL maxL r (ref r) (cells r) sub (tag r) = some new ∧ ∀ l p, new.Mem n l p ↔
      ∃ l' q, (cells r).Mem n l' q ∧ Becomes minL maxL (t l' q) l' q l p ∧ (AsksCoarsen (t l' q) → ∀ r' < r, ∀ c, (cells r').Mem n l' c → ¬ Anc 1 (parentOf q) c) := by
  obtain ⟨S, h1, h2⟩ := keepOnly_spec h hr
  obtain ⟨new, n1, -, -, -, n5⟩ := updateLeaves_spec (minL := minL) (maxL := maxL) (tag := tagArray n (ref r) (keepOneAll S (tag r))) (h.wf r hr) (h.room r hr)
  refine ⟨new, ?_, fun l p => (n5 l p).trans ?_⟩
  · unfold mpiNewLeaves
    rw [h1]
    exact n1
  have hself : ∀ {l q}, (cells r).Mem n l q → tag r l q = t l q := fun hq => ht.same r hr r hr _ _ _ (parentOf _) hq hq (anc_one.2 rfl) (anc_one.2 rfl)
  -- the family of a leaf that asks to be coarsened
  have hfam : ∀ {l q}, (cells r).Mem n l q → (FamilyCoarse (tag r) l (parentOf q) ↔ AsksCoarsen (t l q)) := by
    intro l q hq
    constructor
    · intro hf
      obtain ⟨f1, f2⟩ := hf q rfl
      rw [hself hq] at f1 f2
      have hnr : ¬ AsksRefine (t l q) := fun ha => ht.refine r hr l q hq ha f1 f2
      exact ⟨hnr, fun hk => hk.2 f2, f1⟩
    · intro ha q' hq'
      obtain ⟨r', hr', hm, ha'⟩ := ht.siblings r hr l q q' (parentOf q) hq ha (anc_one.2 rfl) (anc_one.2 hq')
      rw [ht.same r hr r' hr' l q q' (parentOf q) hq hm (anc_one.2 rfl) (anc_one.2 hq')]
      refine ⟨ha'.2.2, ?_⟩
      by_contra hk
      exact ha'.2.1 ⟨ha'.1, hk⟩
  -- the processes that have a part of a family
  have hown : ∀ {l q}, (cells r).Mem n l q → AsksCoarsen (t l q) → ∀ r' < r, ((∃ m, (sub r').Mem n m ∧ Anc (maxL - (l - 1)) (parentOf q) m) ↔ ∃ c, (cells r').Mem n l c ∧ Anc 1 (parentOf q) c) := by
    intro l q hq ha r' hr'
    have hl := ht.bottom r hr l q hq ha
    have hlM := h.top r hr l q hq
    constructor
    · rintro ⟨m, hm, hanc⟩
      obtain ⟨l0, p0, k1, k2, k3⟩ := (h.region r' (by omega) m).1 hm
      rw [show maxL - (l - 1) = 1 + (maxL - l) by omega] at hanc
      obtain ⟨y, y1, y2⟩ := anc_split hanc
      obtain ⟨r'', hr'', hy, -⟩ := ht.siblings r hr l q y (parentOf q) hq ha (anc_one.2 rfl) y1
      rcases Nat.le_total l0 l with hle | hle
      · have := nested k3 y2 (by omega)
        rw [show maxL - l0 - (maxL - l) = l - l0 by omega] at this
        obtain ⟨rfl, rfl, rfl⟩ := h.apart r' (by omega) r'' hr'' _ _ _ _ k2 hy hle this
        exact ⟨_, k2, y1⟩
      · have := nested y2 k3 (by omega)
        rw [show maxL - l - (maxL - l0) = l0 - l by omega] at this
        obtain ⟨rfl, rfl, rfl⟩ := h.apart r'' hr'' r' (by omega) _ _ _ _ hy k2 hle this
        exact ⟨_, k2, y1⟩
    · rintro ⟨c, hc, hanc⟩
      obtain ⟨m, hm⟩ := some_descendant (maxL - l) c
      refine ⟨m, (h.region r' (by omega) m).2 ⟨l, c, hlM, hc, hm⟩, ?_⟩
      rw [show maxL - (l - 1) = 1 + (maxL - l) by omega]
      exact anc_trans hanc hm
  -- the tag of a leaf afterwards
  have hS : ∀ {l q}, (cells r).Mem n l q → ((l, parentOf q) ∈ S ∧ FamilyCoarse (tag r) l (parentOf q) ↔
      AsksCoarsen (t l q) ∧ ∃ r' < r, ∃ c, (cells r').Mem n l c ∧ Anc 1 (parentOf q) c) := by
    intro l q hq
    rw [hfam hq, h2]
    constructor
    · rintro ⟨⟨-, -, r', hr', hm⟩, ha⟩
      exact ⟨ha, r', hr', (hown hq ha r' hr').1 hm⟩
    · rintro ⟨ha, r', hr', hc⟩
      have := ht.bottom r hr l q hq ha
      exact ⟨⟨by omega, ⟨q, hq, rfl⟩, r', hr', (hown hq ha r' hr').2 hc⟩, ha⟩
  constructor
  · rintro ⟨l', q, v, hv, hb⟩
    obtain ⟨hq, rfl⟩ := (tagArray_leaf h hr _).1 hv
    rw [keepOneAll_apply] at hb
    by_cases hz : (l', parentOf q) ∈ S ∧ FamilyCoarse (tag r) l' (parentOf q)
    · rw [if_pos hz] at hb
      exfalso
      have z1 : ¬ AsksRefine 0#32 := fun h => h (by decide)
      have z2 : ¬ AsksKeep 0#32 := fun h => h.2 (by decide)
      have z3 : ¬ AsksCoarsen 0#32 := fun h => h.2.2 (by decide)
      rcases hb with hb | hb | ⟨hb | hb | hb, -⟩
      · exact z1 hb.1
      · exact z3 hb.1
      · exact z1 hb.1
      · exact z2 hb
      · exact z3 hb.1
    · rw [if_neg hz, hself hq] at hb
      refine ⟨l', q, hq, hb, fun ha r' hr' c hc hcc => hz ((hS hq).2 ⟨ha, r', hr', c, hc, hcc⟩)⟩
  · rintro ⟨l', q, hq, hb, hmin⟩
    refine ⟨l', q, _, (tagArray_leaf h hr _).2 ⟨hq, rfl⟩, ?_⟩
    rw [keepOneAll_apply, if_neg, hself hq]
    · exact hb
    · intro hz
      obtain ⟨ha, r', hr', c, hc, hcc⟩ := (hS hq).1 hz
      exact hmin ha r' hr' c hc hcc

end
end Samurai

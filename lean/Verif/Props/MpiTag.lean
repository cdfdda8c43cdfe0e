/-
C122: the processes that adapt their meshes together get one mesh.
-/
import Verif.Lemmas.MpiTag
import Verif.Props.MpiExample

namespace Samurai

/-- Where a new leaf of a process comes from. -/
theorem newLeaf_from {n size minL maxL : Nat} {cells : Nat → CA} {t : TagField} {tag : Nat → TagField}
    (ht : MpiTags n size minL cells t tag) {r : Nat} (hr : r < size) {l' l : Nat} {q p : List Int} (hq : (cells r).Mem n l' q) (hb : Becomes minL maxL (t l' q) l' q l p) :
    (¬ AsksCoarsen (t l' q) ∧ l' ≤ l ∧ Anc (l - l') q p ∧ (AsksRefine (t l' q) ∧ l' < maxL → l = l' + 1) ∧ (¬ (AsksRefine (t l' q) ∧ l' < maxL) → l = l')) ∨
    (AsksCoarsen (t l' q) ∧ l' = l + 1 ∧ Anc 1 p q) := by
  rcases hb with ⟨h1, h2, rfl, h3⟩ | ⟨h1, -, rfl, h3⟩ | ⟨h1, rfl, rfl⟩
  · refine Or.inl ⟨fun hc => hc.1 h1, by omega, by rw [show l' + 1 - l' = 1 by omega]; exact h3, fun _ => rfl, fun hn => (hn ⟨h1, h2⟩).elim⟩
  · exact Or.inr ⟨h1, rfl, h3⟩
  · refine Or.inl ⟨?_, le_rfl, by rw [Nat.sub_self]; exact anc_zero.2 rfl, ?_, fun _ => rfl⟩
    · intro hc
      rcases h1 with h1 | h1 | h1
      · exact hc.1 h1.1
      · exact hc.2.1 h1
      · have := ht.bottom r hr _ _ hq hc
        omega
    · rintro ⟨a1, a2⟩
      rcases h1 with h1 | h1 | h1
      · omega
      · exact (h1.1 a1).elim
      · exact (h1.1.1 a1).elim

/-- C122. Several processes whose leaves make up one mesh, with the tags of one field, adapt their meshes: every process computes its new leaves without an error; together they are what the tags ask for, as
on one process; no new leaf lies in another one, of the same process or not (a family of cells that is coarsened gives one leaf of one process); and they cover the same region. In any dimension, for any number
of processes and any shape of the subdomains, families of cells on several processes included. -/
theorem C122_one_mesh (n size minL maxL : Nat) (ref cells : Nat → CA) (sub : Nat → LCA) (t : TagField) (tag : Nat → TagField)
    (h : MpiLeaves n size maxL ref cells sub) (ht : MpiTags n size minL cells t tag) :
    ∃ new : Nat → CA, (∀ r < size, mpiNewLeaves n size minL maxL r (ref r) (cells r) sub (tag r) = some (new r)) ∧
      (∀ l p, (∃ r < size, (new r).Mem n l p) ↔ ∃ r < size, ∃ l' q, (cells r).Mem n l' q ∧ Becomes minL maxL (t l' q) l' q l p) ∧
      (∀ r < size, ∀ r' < size, ∀ l p l' p', (new r).Mem n l p → (new r').Mem n l' p' → l ≤ l' → Anc (l' - l) p p' → r = r' ∧ l = l' ∧ p = p') ∧
      ∀ m, (∃ r < size, (new r).Tiles n maxL m) ↔ ∃ r < size, (cells r).Tiles n maxL m := by
  classical
  have hnew : ∀ r, ∃ new, r < size → mpiNewLeaves n size minL maxL r (ref r) (cells r) sub (tag r) = some new ∧ ∀ l p, new.Mem n l p ↔
      ∃ l' q, (cells r).Mem n l' q ∧ Becomes minL maxL (t l' q) l' q l p ∧ (AsksCoarsen (t l' q) → ∀ r' < r, ∀ c, (cells r').Mem n l' c → ¬ Anc 1 (parentOf q) c) := by
    intro r
    by_cases hr : r < size
    · obtain ⟨new, hn⟩ := newLeaves_spec h ht hr
      exact ⟨new, fun _ => hn⟩
    · exact ⟨cells r, fun hr' => (hr hr').elim⟩
  choose new hnew using hnew
  have hunion : ∀ l p, (∃ r < size, (new r).Mem n l p) ↔ ∃ r < size, ∃ l' q, (cells r).Mem n l' q ∧ Becomes minL maxL (t l' q) l' q l p := by
    intro l p
    constructor
    · rintro ⟨r, hr, hp⟩
      obtain ⟨l', q, hq, hb, -⟩ := ((hnew r hr).2 l p).1 hp
      exact ⟨r, hr, l', q, hq, hb⟩
    · rintro ⟨r, hr, l', q, hq, hb⟩
      rcases newLeaf_from ht hr hq hb with ⟨hn, -⟩ | ⟨hc, rfl, hpq⟩
      · exact ⟨r, hr, ((hnew r hr).2 l p).2 ⟨l', q, hq, hb, fun hc => (hn hc).elim⟩⟩
      · have hex : ∃ r0, ∃ c, r0 < size ∧ (cells r0).Mem n (l + 1) c ∧ Anc 1 p c := ⟨r, q, hr, hq, hpq⟩
        obtain ⟨c, hr0, hcm, hpc⟩ := Nat.find_spec hex
        have hca : AsksCoarsen (t (l + 1) c) := by
          obtain ⟨-, -, -, ha⟩ := ht.siblings r hr _ q c p hq hc hpq hpc
          exact ha
        refine ⟨Nat.find hex, hr0, ((hnew _ hr0).2 l p).2 ⟨l + 1, c, hcm, Or.inr (Or.inl ⟨hca, ht.bottom _ hr0 _ _ hcm hca, rfl, hpc⟩), ?_⟩⟩
        intro _ r' hr' c' hc' hcc
        rw [anc_one.1 hpc] at hcc
        exact Nat.find_min hex hr' ⟨c', by omega, hc', hcc⟩
  refine ⟨new, fun r hr => (hnew r hr).1, hunion, ?_, ?_⟩
  · intro r hr r' hr' l p l' p' hp hp' hll hpp
    obtain ⟨l1, q1, hq1, hb1, hm1⟩ := ((hnew r hr).2 l p).1 hp
    obtain ⟨l2, q2, hq2, hb2, hm2⟩ := ((hnew r' hr').2 l' p').1 hp'
    -- two leaves that contain a cell are the same
    have same : ∀ {r1 r2 a b : Nat} {x y z : List Int} {M : Nat}, r1 < size → r2 < size → (cells r1).Mem n a x → (cells r2).Mem n b y → a ≤ M → b ≤ M → Anc (M - a) x z → Anc (M - b) y z →
        r1 = r2 ∧ a = b ∧ x = y := by
      intro r1 r2 a b x y z M h1 h2 hx hy ha hb' hxz hyz
      rcases Nat.le_total a b with hab | hab
      · have := nested hxz hyz (by omega)
        rw [show M - a - (M - b) = b - a by omega] at this
        exact h.apart r1 h1 r2 h2 _ _ _ _ hx hy hab this
      · have := nested hyz hxz (by omega)
        rw [show M - b - (M - a) = a - b by omega] at this
        obtain ⟨e1, e2, e3⟩ := h.apart r2 h2 r1 h1 _ _ _ _ hy hx hab this
        exact ⟨e1.symm, e2.symm, e3.symm⟩
    rcases newLeaf_from ht hr hq1 hb1 with ⟨c1, k1, a1, u1, v1⟩ | ⟨c1, rfl, a1⟩ <;> rcases newLeaf_from ht hr' hq2 hb2 with ⟨c2, k2, a2, u2, v2⟩ | ⟨c2, rfl, a2⟩
    · have a3 := anc_trans a1 hpp
      rw [show l - l1 + (l' - l) = l' - l1 by omega] at a3
      obtain ⟨rfl, rfl, rfl⟩ := same hr hr' hq1 hq2 (by omega) k2 a3 a2
      have : l = l' := by
        by_cases hc : AsksRefine (t l1 q1) ∧ l1 < maxL
        · rw [u1 hc, u2 hc]
        · rw [v1 hc, v2 hc]
      subst this
      rw [Nat.sub_self, anc_zero] at hpp
      exact ⟨rfl, rfl, hpp⟩
    · exfalso
      have a3 := anc_trans (anc_trans a1 hpp) a2
      rw [show l - l1 + (l' - l) + 1 = l' + 1 - l1 by omega] at a3
      obtain ⟨-, e, -⟩ := h.apart r hr r' hr' _ _ _ _ hq1 hq2 (by omega) a3
      omega
    · exfalso
      rcases Nat.eq_or_lt_of_le hll with rfl | hlt
      · rw [Nat.sub_self, anc_zero] at hpp
        subst hpp
        have a3 := anc_trans a2 a1
        rw [show l - l2 + 1 = l + 1 - l2 by omega] at a3
        obtain ⟨-, e, -⟩ := h.apart r' hr' r hr _ _ _ _ hq2 hq1 (by omega) a3
        omega
      · rw [show l' - l = 1 + (l' - (l + 1)) by omega] at hpp
        obtain ⟨y, y1, y2⟩ := anc_split hpp
        obtain ⟨r3, hr3, hy, hya⟩ := ht.siblings r hr _ q1 y p hq1 c1 a1 y1
        obtain ⟨-, rfl, rfl⟩ := same hr3 hr' hy hq2 (by omega) k2 y2 a2
        exact c2 hya
    · rcases Nat.eq_or_lt_of_le hll with rfl | hlt
      · rw [Nat.sub_self, anc_zero] at hpp
        subst hpp
        refine ⟨?_, rfl, rfl⟩
        rcases Nat.lt_trichotomy r r' with hlt | he | hlt
        · exact (hm2 c2 r hlt q1 hq1 (by rw [anc_one.1 a2]; exact a1)).elim
        · exact he
        · exact (hm1 c1 r' hlt q2 hq2 (by rw [anc_one.1 a1]; exact a2)).elim
      · exfalso
        rw [show l' - l = 1 + (l' - (l + 1)) by omega] at hpp
        obtain ⟨y, y1, y2⟩ := anc_split hpp
        obtain ⟨r3, hr3, hy, -⟩ := ht.siblings r hr _ q1 y p hq1 c1 a1 y1
        have a3 := anc_trans y2 a2
        rw [show l' - (l + 1) + 1 = l' + 1 - (l + 1) by omega] at a3
        obtain ⟨-, e, -⟩ := h.apart r3 hr3 r' hr' _ _ _ _ hy hq2 (by omega) a3
        omega
  · intro m
    constructor
    · rintro ⟨r, hr, l, p, hl, hp, hm⟩
      obtain ⟨r1, hr1, l', q, hq, hb⟩ := (hunion l p).1 ⟨r, hr, hp⟩
      rcases newLeaf_from ht hr1 hq hb with ⟨-, k, a, -⟩ | ⟨hc, rfl, a⟩
      · have a3 := anc_trans a hm
        rw [show l - l' + (maxL - l) = maxL - l' by omega] at a3
        exact ⟨r1, hr1, l', q, by omega, hq, a3⟩
      · have hlM := h.top r1 hr1 _ _ hq
        rw [show maxL - l = 1 + (maxL - (l + 1)) by omega] at hm
        obtain ⟨y, y1, y2⟩ := anc_split hm
        obtain ⟨r3, hr3, hy, -⟩ := ht.siblings r1 hr1 _ q y p hq hc a y1
        exact ⟨r3, hr3, l + 1, y, hlM, hy, y2⟩
    · rintro ⟨r, hr, l, p, hl, hp, hm⟩
      have key : ∃ l' p', l' ≤ maxL ∧ Becomes minL maxL (t l p) l p l' p' ∧ Anc (maxL - l') p' m := by
        rcases ht.asks r hr l p hp with ha | ha | ha
        · rcases Nat.lt_or_ge l maxL with hlt | hge
          · rw [show maxL - l = 1 + (maxL - (l + 1)) by omega] at hm
            obtain ⟨y, y1, y2⟩ := anc_split hm
            exact ⟨l + 1, y, hlt, Or.inl ⟨ha, hlt, rfl, y1⟩, y2⟩
          · exact ⟨l, p, hl, Or.inr (Or.inr ⟨Or.inl ⟨ha, hge⟩, rfl, rfl⟩), hm⟩
        · exact ⟨l, p, hl, Or.inr (Or.inr ⟨Or.inr (Or.inl ha), rfl, rfl⟩), hm⟩
        · have hlt := ht.bottom r hr l p hp ha
          refine ⟨l - 1, parentOf p, by omega, Or.inr (Or.inl ⟨ha, hlt, by omega, anc_one.2 rfl⟩), ?_⟩
          have := anc_trans (anc_one.2 rfl : Anc 1 (parentOf p) p) hm
          rwa [show 1 + (maxL - l) = maxL - (l - 1) by omega] at this
      obtain ⟨l', p', h1, h2, h3⟩ := key
      obtain ⟨r', hr', hp'⟩ := (hunion l' p').2 ⟨r, hr, l, p, hp, h2⟩
      exact ⟨r', hr', l', p', h1, hp', h3⟩

/-- C122. The owners of the new leaves: the leaf that replaces a family of cells belongs to the process with the least rank among those that have cells of the family; leaves that stay or are refined keep their owner. -/
theorem C122_owner (n size minL maxL : Nat) (ref cells : Nat → CA) (sub : Nat → LCA) (t : TagField) (tag : Nat → TagField)
    (h : MpiLeaves n size maxL ref cells sub) (ht : MpiTags n size minL cells t tag) :
    ∃ new : Nat → CA, (∀ r < size, mpiNewLeaves n size minL maxL r (ref r) (cells r) sub (tag r) = some (new r)) ∧
      (∀ r < size, ∀ l q p, (cells r).Mem n (l + 1) q → AsksCoarsen (t (l + 1) q) → Anc 1 p q → ((new r).Mem n l p ↔ ∀ r' < r, ∀ c, (cells r').Mem n (l + 1) c → ¬ Anc 1 p c)) ∧
      ∀ r < size, ∀ l' q l p, (cells r).Mem n l' q → ¬ AsksCoarsen (t l' q) → Becomes minL maxL (t l' q) l' q l p → (new r).Mem n l p := by
  have hnew : ∀ r, ∃ new, r < size → mpiNewLeaves n size minL maxL r (ref r) (cells r) sub (tag r) = some new ∧ ∀ l p, new.Mem n l p ↔
      ∃ l' q, (cells r).Mem n l' q ∧ Becomes minL maxL (t l' q) l' q l p ∧ (AsksCoarsen (t l' q) → ∀ r' < r, ∀ c, (cells r').Mem n l' c → ¬ Anc 1 (parentOf q) c) := by
    intro r
    by_cases hr : r < size
    · obtain ⟨new, hn⟩ := newLeaves_spec h ht hr
      exact ⟨new, fun _ => hn⟩
    · exact ⟨cells r, fun hr' => (hr hr').elim⟩
  choose new hnew using hnew
  refine ⟨new, fun r hr => (hnew r hr).1, fun r hr l q p hq hc hpq => ⟨fun hp => ?_, fun hm => ?_⟩, fun r hr l' q l p hq hc hb => ?_⟩
  · obtain ⟨l', q', hq', hb, hm⟩ := ((hnew r hr).2 l p).1 hp
    rcases newLeaf_from ht hr hq' hb with ⟨-, k, a, -⟩ | ⟨c', rfl, a⟩
    · have a3 := anc_trans a hpq
      rw [show l - l' + 1 = l + 1 - l' by omega] at a3
      obtain ⟨-, e, -⟩ := h.apart r hr r hr _ _ _ _ hq' hq (by omega) a3
      omega
    · have := hm c'
      rwa [anc_one.1 a] at this
  · refine ((hnew r hr).2 l p).2 ⟨l + 1, q, hq, Or.inr (Or.inl ⟨hc, ht.bottom r hr _ _ hq hc, rfl, hpq⟩), fun _ => ?_⟩
    rwa [anc_one.1 hpq]
  · exact ((hnew r hr).2 l p).2 ⟨l', q, hq, hb, fun h => (hc h).elim⟩

/-! ### two processes -/

/-- The leaves of two processes on a line: the cell 0 of level 1 and the cells 2, 3, 4 of level 2; the cells 5, 6, 7 of level 2 and the cell 4 of level 1. The cells 4 and 5 of level 2 are siblings. -/
def tagPieces (r : Nat) : CA := if r = 0 then pieceMesh 0 1 2 5 else pieceMesh 4 5 5 8
def tagSubs (r : Nat) : LCA := if r = 0 then pieceSub 0 5 else pieceSub 5 10

/-- The leaves of level 2 are to be coarsened, those of level 1 are kept. -/
def tagLine : TagField := fun l _ => if l = 2 then 2#32 else 1#32

theorem tagPieces_mem (r l : Nat) (p : List Int) : (tagPieces r).Mem 0 l p ↔
    ∃ x : Int, p = [x] ∧ ((r = 0 ∧ (l = 1 ∧ x = 0 ∨ l = 2 ∧ 2 ≤ x ∧ x < 5)) ∨ (r ≠ 0 ∧ (l = 1 ∧ x = 4 ∨ l = 2 ∧ 5 ≤ x ∧ x < 8))) := by
  unfold tagPieces
  by_cases hr : r = 0
  · rw [if_pos hr, (pieceMesh_spec (by omega)).2.2.2.2]
    exact exists_congr fun x => and_congr_right fun _ => by omega
  · rw [if_neg hr, (pieceMesh_spec (by omega)).2.2.2.2]
    exact exists_congr fun x => and_congr_right fun _ => by omega

theorem anc_line {k : Nat} {x y : Int} : Anc k [x] [y] ↔ x * 2 ^ k ≤ y ∧ y < (x + 1) * 2 ^ k := by
  unfold Anc
  simp [IsAncestor]

theorem tagLine_coarsen (l : Nat) (p : List Int) : AsksCoarsen (tagLine l p) ↔ l = 2 := by
  unfold tagLine AsksCoarsen AsksKeep AsksRefine
  by_cases h : l = 2 <;> simp [h]

theorem tagLine_keep (l : Nat) (p : List Int) : AsksKeep (tagLine l p) ↔ l ≠ 2 := by
  unfold tagLine AsksKeep AsksRefine
  by_cases h : l = 2 <;> simp [h]

theorem tagLine_refine (l : Nat) (p : List Int) : ¬ AsksRefine (tagLine l p) := by
  unfold tagLine AsksRefine
  by_cases h : l = 2 <;> simp [h]

theorem tagPieces_ok : MpiLeaves 0 2 2 tagPieces tagPieces tagSubs := by
  have hs : ∀ r, (tagPieces r).maxSize = 3 ∧ (tagPieces r).WF 0 ∧ (tagPieces r).Leveled ∧ (tagPieces r).NumbersDiffer 0 := by
    intro r
    unfold tagPieces
    split
    · obtain ⟨a, b, c, d, -⟩ := pieceMesh_spec (a := 0) (b := 1) (c := 2) (d := 5) (by omega)
      exact ⟨a, b, c, d⟩
    · obtain ⟨a, b, c, d, -⟩ := pieceMesh_spec (a := 4) (b := 5) (c := 5) (d := 8) (by omega)
      exact ⟨a, b, c, d⟩
  have hlev : ∀ r, (tagSubs r).level = 2 := by
    intro r
    unfold tagSubs
    split <;> exact (ofBox_spec _ 0 2).2.2
  have hmem : ∀ r p, (tagSubs r).Mem 0 p ↔ ∃ x : Int, p = [x] ∧ ((r = 0 ∧ 0 ≤ x ∧ x < 5) ∨ (r ≠ 0 ∧ 5 ≤ x ∧ x < 10)) := by
    intro r p
    unfold tagSubs
    by_cases hr : r = 0
    · rw [if_pos hr, pieceSub_mem]
      exact exists_congr fun x => and_congr_right fun _ => by omega
    · rw [if_neg hr, pieceSub_mem]
      exact exists_congr fun x => and_congr_right fun _ => by omega
  refine ⟨fun r _ => (hs r).2.1, fun r _ => (hs r).2.2.1, fun r _ => by rw [(hs r).1]; omega, ?_, fun r _ l p hp => (CA.mem_levels (hs r).2.1 hp).1, fun r _ => (hs r).2.2.2,
    fun r _ e he => he, ?_, ?_, fun r _ => hlev r, ?_, 100, by omega, by norm_num [INT_MAX], fun r _ => ⟨?_, ?_⟩⟩
  · intro r _ l p hp
    obtain ⟨x, -, hx⟩ := (tagPieces_mem r l p).1 hp
    omega
  · intro r hr r' hr' l p l' p' hp hp' hll ha
    obtain ⟨x, rfl, hx⟩ := (tagPieces_mem r l p).1 hp
    obtain ⟨y, rfl, hy⟩ := (tagPieces_mem r' l' p').1 hp'
    rw [anc_line] at ha
    have hcases : (l = 1 ∧ l' = 1) ∨ (l = 1 ∧ l' = 2) ∨ (l = 2 ∧ l' = 2) := by omega
    rcases hcases with ⟨rfl, rfl⟩ | ⟨rfl, rfl⟩ | ⟨rfl, rfl⟩ <;> norm_num at ha hx hy <;> simp only [List.cons.injEq, and_true, true_and] <;> omega
  · intro r _
    unfold tagSubs
    split <;> exact ofBox_wf 2 fun d hd => by norm_num
  · intro r _ m
    rw [hmem]
    constructor
    · rintro ⟨x, rfl, hx⟩
      have : (r = 0 ∧ 0 ≤ x ∧ x < 2) ∨ (r = 0 ∧ 2 ≤ x ∧ x < 5) ∨ (r ≠ 0 ∧ 5 ≤ x ∧ x < 8) ∨ (r ≠ 0 ∧ 8 ≤ x ∧ x < 10) := by omega
      rcases this with h | h | h | h
      · exact ⟨1, [0], by omega, (tagPieces_mem r 1 [0]).2 ⟨0, rfl, by omega⟩, anc_line.2 (by norm_num; omega)⟩
      · exact ⟨2, [x], by omega, (tagPieces_mem r 2 [x]).2 ⟨x, rfl, by omega⟩, anc_line.2 (by norm_num)⟩
      · exact ⟨2, [x], by omega, (tagPieces_mem r 2 [x]).2 ⟨x, rfl, by omega⟩, anc_line.2 (by norm_num)⟩
      · exact ⟨1, [4], by omega, (tagPieces_mem r 1 [4]).2 ⟨4, rfl, by omega⟩, anc_line.2 (by norm_num; omega)⟩
    · rintro ⟨l, p, hl, hp, ha⟩
      obtain ⟨x, rfl, hx⟩ := (tagPieces_mem r l p).1 hp
      match m with
      | [] => exact (by cases ha)
      | _ :: _ :: _ => exact (by cases ha with | cons _ h => cases h)
      | [y] =>
        rw [anc_line] at ha
        have hcases : l = 1 ∨ l = 2 := by omega
        refine ⟨y, rfl, ?_⟩
        rcases hcases with rfl | rfl <;> norm_num at ha hx <;> omega
  · intro l p hp y hy
    obtain ⟨x, rfl, hx⟩ := (tagPieces_mem r l p).1 hp
    obtain rfl : y = x := by simpa using hy
    have hcases : l = 1 ∨ l = 2 := by omega
    rcases hcases with rfl | rfl <;> norm_num at hx ⊢ <;> omega
  · intro p hp y hy
    obtain ⟨x, rfl, hx⟩ := (hmem r p).1 hp
    obtain rfl : y = x := by simpa using hy
    rw [hlev]
    norm_num
    omega

theorem tagLine_ok : MpiTags 0 2 1 tagPieces tagLine fun _ => tagLine := by
  refine ⟨fun _ _ _ _ _ _ _ _ _ _ _ _ => rfl, ?_, ?_, ?_, ?_⟩
  · intro r _ l p _
    by_cases h : l = 2
    · exact Or.inr (Or.inr ((tagLine_coarsen l p).2 h))
    · exact Or.inr (Or.inl ((tagLine_keep l p).2 h))
  · intro r _ l p q s hp hc hsp hsq
    obtain rfl := (tagLine_coarsen l p).1 hc
    obtain ⟨x, rfl, hx⟩ := (tagPieces_mem r 2 p).1 hp
    match s, q with
    | [], _ => exact (by cases hsp)
    | _ :: _ :: _, _ => exact (by cases hsp with | cons _ h => cases h)
    | [y], [] => exact (by cases hsq)
    | [y], _ :: _ :: _ => exact (by cases hsq with | cons _ h => cases h)
    | [y], [z] =>
      rw [anc_line] at hsp hsq
      norm_num at hsp hsq hx
      by_cases hz : z < 5
      · exact ⟨0, by omega, (tagPieces_mem 0 2 [z]).2 ⟨z, rfl, by omega⟩, (tagLine_coarsen 2 [z]).2 rfl⟩
      · exact ⟨1, by omega, (tagPieces_mem 1 2 [z]).2 ⟨z, rfl, by omega⟩, (tagLine_coarsen 2 [z]).2 rfl⟩
  · intro r _ l p _ hc
    rw [(tagLine_coarsen l p).1 hc]
    omega
  · intro r _ l p _ h
    exact (tagLine_refine l p h).elim

/-- The hypotheses of `C122_one_mesh` for these processes; the family of the cells 4 and 5 becomes the leaf 2 of the process 0 alone. -/
example : ∃ new : Nat → CA, (∀ r < 2, mpiNewLeaves 0 2 1 2 r (tagPieces r) (tagPieces r) tagSubs tagLine = some (new r)) ∧ (new 0).Mem 0 1 [2] ∧ ¬ (new 1).Mem 0 1 [2] ∧ (new 1).Mem 0 1 [3] := by
  obtain ⟨a, a1, a2⟩ := newLeaves_spec tagPieces_ok tagLine_ok (r := 0) (by omega)
  obtain ⟨b, b1, b2⟩ := newLeaves_spec tagPieces_ok tagLine_ok (r := 1) (by omega)
  obtain ⟨new, h1, h2, h3, -⟩ := C122_one_mesh 0 2 1 2 tagPieces tagPieces tagSubs tagLine (fun _ => tagLine) tagPieces_ok tagLine_ok
  have ea : new 0 = a := Option.some.inj ((h1 0 (by omega)).symm.trans a1)
  have eb : new 1 = b := Option.some.inj ((h1 1 (by omega)).symm.trans b1)
  have k0 : (new 0).Mem 0 1 [2] := by
    rw [ea, a2]
    exact ⟨2, [4], (tagPieces_mem 0 2 [4]).2 ⟨4, rfl, by omega⟩, Or.inr (Or.inl ⟨(tagLine_coarsen 2 [4]).2 rfl, by omega, rfl, anc_line.2 (by norm_num)⟩), fun _ r' hr' => by omega⟩
  refine ⟨new, h1, k0, fun k1 => ?_, ?_⟩
  · have := (h3 0 (by omega) 1 (by omega) 1 [2] 1 [2] k0 k1 le_rfl (by rw [Nat.sub_self]; exact anc_zero.2 rfl)).1
    omega
  · rw [eb, b2]
    refine ⟨2, [6], (tagPieces_mem 1 2 [6]).2 ⟨6, rfl, by omega⟩, Or.inr (Or.inl ⟨(tagLine_coarsen 2 [6]).2 rfl, by omega, rfl, anc_line.2 (by norm_num)⟩), ?_⟩
    intro _ r' hr' c hc hcc
    obtain ⟨x, rfl, hx⟩ := (tagPieces_mem r' 2 c).1 hc
    rw [show parentOf [6] = [3] from rfl, anc_line] at hcc
    norm_num at hcc
    omega

end Samurai

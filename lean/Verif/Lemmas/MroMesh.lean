import Verif.Model.MroMesh
import Verif.Spec.MroMesh
import Verif.Lemmas.AMRMesh
import Verif.Lemmas.GhostAdapted

namespace Samurai

/-! ### the cells of the construction -/

/-- The cells of the list after the ghosts and the parents. -/
def MroBase (n w : Nat) (cells : CA) (l : Nat) (p : List Int) : Prop :=
  (∃ q, cells.Mem n l q ∧ Near w p q) ∨ ∃ q, cells.Mem n (l + 1) q ∧ Near w p (q.map fun y => shr y 1)

/-- The cells added by the compaction. -/
def MroSib (n w : Nat) (cells : CA) (l : Nat) (p : List Int) : Prop :=
  1 ≤ l ∧ (∃ q, cells.Mem n l q) ∧ (∃ q, CoveredBy n cells l q ∧ Anc 1 (p.map fun y => shr y 1) q) ∧
    (∃ q, MroBase n w cells l q ∧ Anc 1 (p.map fun y => shr y 1) q) ∧ ¬ ∃ q, cells.Mem n l q ∧ Anc 1 (p.map fun y => shr y 1) q

theorem shr_succ_stop (s : Int) : shr (s + 1) 1 = shr (s - 1) 1 + 1 := by
  unfold shr
  omega

theorem mroParentStep_spec {n w : Nat} {cells : CA} {cl : CL n} {S : Nat → List Int → Prop} {level : Nat}
    (hlev : 1 ≤ level) (hmax : level ≤ cells.maxSize) (hw : cells.WF n) (h : Hist n cells.maxSize cl S) :
    ∃ cl', mroParentStep n w cells cl level = some cl' ∧
      Hist n cells.maxSize cl' fun l p => S l p ∨ (l + 1 = level ∧ ∃ q, cells.Mem n level q ∧ Near w p (q.map fun y => shr y 1)) := by
  have hL := hw level hmax
  obtain ⟨L', h1⟩ := forEach_const hL (fun acc yz i =>
    acc ++ grow w (yz.map fun y => shr y 1) (Interval.mk' (shr i.start 1) (shr (i.stop + 1) 1))) []
  have key : ∀ (l : List (List Int × Interval)) t,
      l.foldl (fun s e => s ++ grow w (e.1.map fun y => shr y 1) (Interval.mk' (shr e.2.start 1) (shr (e.2.stop + 1) 1))) t =
        t ++ l.flatMap fun e => grow w (e.1.map fun y => shr y 1) (Interval.mk' (shr e.2.start 1) (shr (e.2.stop + 1) 1)) := by
    intro l
    induction l with
    | nil => intro t; simp
    | cons e l ih => intro t; rw [List.foldl_cons, ih, List.flatMap_cons, List.append_assoc]
  rw [key, List.nil_append] at h1
  have hval : ∀ e ∈ (cells.lca level).rows n, (Interval.mk' (shr e.2.start 1) (shr (e.2.stop + 1) 1)).start <
      (Interval.mk' (shr e.2.start 1) (shr (e.2.stop + 1) 1)).stop := by
    intro e he
    have := (rows_valid hL he).2
    have h2 := shiftRight_valid 1 this
    simp only [Interval.shiftRight] at h2
    simp only [Interval.mk', shr_succ_stop]
    exact h2
  have hmem : ∀ e ∈ (cells.lca level).rows n, ∀ x, x ∈ Interval.mk' (shr e.2.start 1) (shr (e.2.stop + 1) 1) ↔
      ∃ y ∈ e.2, shr y 1 = x := by
    intro e he x
    have hv := (rows_valid hL he).2
    rw [Interval.mem_def]
    simp only [Interval.mk', shr_succ_stop]
    have := mem_shiftRight (i := e.2) (k := 1) hv (x := x)
    rw [Interval.mem_def] at this
    simpa [Interval.shiftRight] using this
  obtain ⟨cl', d1, d2⟩ := h.calls (k := ((cells.lca level).rows n |>.flatMap fun e =>
      grow w (e.1.map fun y => shr y 1) (Interval.mk' (shr e.2.start 1) (shr (e.2.stop + 1) 1))).map fun e => (level - 1, e)) (by
    intro e he
    obtain ⟨e', he', rfl⟩ := List.mem_map.1 he
    obtain ⟨r, hr, he'⟩ := List.mem_flatMap.1 he'
    refine ⟨by simp only; omega, ?_, grow_valid (hval r hr) he'⟩
    rw [grow_idx he', List.length_map, (rows_valid hL hr).1])
  refine ⟨cl', ?_, d2.congr fun l p => ?_⟩
  · unfold mroParentStep
    rw [h1]
    exact d1
  · rw [map_level]
    refine or_congr_right ?_
    constructor
    · rintro ⟨hl, q, hq, hn⟩
      refine ⟨by omega, ?_⟩
      obtain ⟨r, hr, x, hx, rfl⟩ := (mem_iff_rows hL _).1 hq.2
      rw [List.map_append, List.map_singleton] at hn
      obtain ⟨c, hc, ha⟩ := (grow_adds (w := w) (hval r hr)).2 ⟨shr x 1, (hmem r hr _).2 ⟨x, hx, rfl⟩, hn⟩
      exact ⟨c, List.mem_flatMap.2 ⟨r, hr, hc⟩, ha⟩
    · rintro ⟨hl, c, hc, ha⟩
      refine ⟨by omega, ?_⟩
      obtain ⟨r, hr, hc⟩ := List.mem_flatMap.1 hc
      obtain ⟨x, hx, hn⟩ := (grow_adds (hval r hr)).1 ⟨c, hc, ha⟩
      obtain ⟨y, hy, rfl⟩ := (hmem r hr _).1 hx
      exact ⟨r.1 ++ [y], ⟨hmax, (mem_iff_rows hL _).2 ⟨r, hr, y, hy, rfl⟩⟩, by simpa using hn⟩

/-! ### the overleaves -/

theorem overRows_adds {yz : List Int} {i : Interval} (hv : i.start < i.stop) {p : List Int} :
    (∃ c ∈ overRows yz i, c.Adds p) ↔ ∃ x ∈ i, Near 1 (p.map fun y => shr y 1) (yz ++ [x]) ∧ SameParity p.dropLast := by
  have hlast : ∀ y : Int, (2 * (i.start - 1) ≤ y ∧ y < 2 * (i.stop + 1)) ↔ ∃ x ∈ i, shr y 1 ≤ x + 1 ∧ x ≤ shr y 1 + 1 := by
    intro y
    have hs : shr y 1 = y / 2 := by unfold shr; simp
    rw [hs]
    constructor
    · rintro ⟨h1, h2⟩
      by_cases hx : y / 2 < i.start
      · exact ⟨i.start, Interval.mem_def.2 ⟨le_rfl, hv⟩, by omega, by omega⟩
      · by_cases hx' : y / 2 < i.stop
        · exact ⟨y / 2, Interval.mem_def.2 ⟨by omega, hx'⟩, by omega, by omega⟩
        · exact ⟨i.stop - 1, Interval.mem_def.2 ⟨by omega, by omega⟩, by omega, by omega⟩
    · rintro ⟨x, hx, h1, h2⟩
      have := Interval.mem_def.1 hx
      omega
  have hnear : ∀ r : List Int, (∃ st ∈ nestedIndices 3 yz.length, r = List.zipWith (fun y s => y + (s - 1)) yz st) ↔ Near 1 r yz :=
    fun r => mem_zip_nested (w := 1)
  have hhalf : ∀ (r : List Int) (b : Int), (b = 0 ∨ b = 1) → ((r.map fun y => 2 * y + b).map fun y => shr y 1) = r := by
    intro r b hb
    rw [List.map_map]
    conv_rhs => rw [← List.map_id r]
    apply List.map_congr_left
    intro y _
    show shr (2 * y + b) 1 = y
    unfold shr
    omega
  constructor
  · rintro ⟨c, hc, ha⟩
    obtain ⟨st, hst, hc⟩ := List.mem_flatMap.1 hc
    have hn : Near 1 _ yz := (hnear _).1 ⟨st, hst, rfl⟩
    simp only [List.mem_cons, List.not_mem_nil, or_false] at hc
    have fin : ∀ (b : Int), (b = 0 ∨ b = 1) → (CellCall.interval ((List.zipWith (fun y s => y + (s - 1)) yz st).map fun y => 2 * y + b)
        (Interval.mk' (2 * (i.start - 1)) (2 * (i.stop + 1)))).Adds p →
        ∃ x ∈ i, Near 1 (p.map fun y => shr y 1) (yz ++ [x]) ∧ SameParity p.dropLast := by
      rintro b hb ⟨y, h1, h2, rfl⟩
      obtain ⟨x, hx, g1, g2⟩ := (hlast y).1 ⟨h1, h2⟩
      refine ⟨x, hx, ?_, b, ?_⟩
      · rw [List.map_append, hhalf _ b hb]
        exact near_append.2 ⟨hn, by push_cast; omega, by push_cast; omega⟩
      · intro z hz
        rw [List.dropLast_concat] at hz
        obtain ⟨w, _, rfl⟩ := List.mem_map.1 hz
        omega
    rcases hc with rfl | rfl
    · exact fin 0 (Or.inl rfl) (by simpa using ha)
    · exact fin 1 (Or.inr rfl) ha
  · rintro ⟨x, hx, hn, b, hb⟩
    have hl : p.length = yz.length + 1 := by
      have := hn.length_eq
      simpa using this
    obtain ⟨r, y, rfl⟩ : ∃ r y, p = r ++ [y] := by
      rcases List.eq_nil_or_concat p with rfl | ⟨r, y, rfl⟩
      · simp at hl
      · exact ⟨r, y, by simp⟩
    rw [List.map_append, List.map_singleton] at hn
    obtain ⟨h1, h2, h3⟩ := near_append.1 hn
    rw [List.dropLast_concat] at hb
    obtain ⟨st, hst, hr⟩ := (hnear _).2 h1
    have hy := (hlast y).2 ⟨x, hx, by push_cast at h2; omega, by push_cast at h3; omega⟩
    have hrow : ∀ (b' : Int), (∀ z ∈ r, z % 2 = b') → ((r.map fun y => shr y 1).map fun y => 2 * y + b') = r := by
      intro b' hb'
      rw [List.map_map]
      conv_rhs => rw [← List.map_id r]
      apply List.map_congr_left
      intro z hz
      have := hb' z hz
      show 2 * shr z 1 + b' = z
      unfold shr
      omega
    by_cases hb0 : b = 0
    · subst hb0
      refine ⟨_, List.mem_flatMap.2 ⟨st, hst, List.mem_cons_self⟩, y, hy.1, hy.2, ?_⟩
      rw [← hr]
      have := hrow 0 hb
      simp only [add_zero] at this
      rw [this]
    · refine ⟨_, List.mem_flatMap.2 ⟨st, hst, List.mem_cons_of_mem _ List.mem_cons_self⟩, y, hy.1, hy.2, ?_⟩
      rw [← hr]
      have := hrow 1 (fun z hz => by have := hb z hz; omega)
      rw [this]

theorem overRows_ok {yz : List Int} {i : Interval} (hv : i.start < i.stop) {c : CellCall} (hc : c ∈ overRows yz i) :
    c.idx.length = yz.length ∧ c.Valid := by
  obtain ⟨st, hst, hc⟩ := List.mem_flatMap.1 hc
  have hs := (mem_nestedIndices.1 hst).1
  simp only [List.mem_cons, List.not_mem_nil, or_false] at hc
  rcases hc with rfl | rfl
  · refine ⟨by simp [CellCall.idx, hs], ?_⟩
    show 2 * (i.start - 1) < 2 * (i.stop + 1)
    omega
  · refine ⟨by simp [CellCall.idx, hs], ?_⟩
    show 2 * (i.start - 1) < 2 * (i.stop + 1)
    omega

/-- The overleaves: the cells whose parent is near a leaf. -/
def MroOver (n : Nat) (cells : CA) (maxL : Nat) (l : Nat) (p : List Int) : Prop :=
  ∃ l0 q, l = l0 + 1 ∧ l0 < maxL ∧ cells.Mem n l0 q ∧ Near 1 (p.map fun y => shr y 1) q ∧ SameParity p.dropLast

theorem overCalls_spec {n : Nat} {cells : CA} {maxL : Nat} (hw : cells.WF n) (hmax : maxL ≤ cells.maxSize) :
    ∃ h, overCalls n cells maxL = some h ∧ (∀ e ∈ h, e.1 ≤ cells.maxSize ∧ e.2.idx.length = n ∧ e.2.Valid) ∧
      ∀ l p, (∃ c, (l, c) ∈ h ∧ c.Adds p) ↔ MroOver n cells maxL l p := by
  refine ⟨_, collectCalls_spec hw _, ?_, fun l p => ?_⟩
  · intro e he
    obtain ⟨⟨l, yz, i⟩, hr, he⟩ := List.mem_flatMap.1 he
    obtain ⟨r1, r2⟩ := CA.mem_rows.1 hr
    obtain ⟨v1, v2⟩ := rows_valid (hw _ r1) r2
    simp only at he
    split at he
    · obtain ⟨c, hc, rfl⟩ := List.mem_map.1 he
      obtain ⟨o1, o2⟩ := overRows_ok v2 hc
      exact ⟨by simp only; omega, o1.trans v1, o2⟩
    · simp at he
  · constructor
    · rintro ⟨c, hc, ha⟩
      obtain ⟨⟨l0, yz, i⟩, hr, he⟩ := List.mem_flatMap.1 hc
      obtain ⟨r1, r2⟩ := CA.mem_rows.1 hr
      obtain ⟨v1, v2⟩ := rows_valid (hw _ r1) r2
      simp only at he
      split at he
      · rename_i hlt
        obtain ⟨c', hc', heq⟩ := List.mem_map.1 he
        simp only [Prod.mk.injEq] at heq
        obtain ⟨rfl, rfl⟩ := heq
        obtain ⟨x, hx, g1, g2⟩ := (overRows_adds v2).1 ⟨_, hc', ha⟩
        exact ⟨l0, yz ++ [x], rfl, hlt, (CA.mem_iff_rows hw).2 ⟨yz, i, x, hr, hx, rfl⟩, g1, g2⟩
      · simp at he
    · rintro ⟨l0, q, rfl, hlt, hq, g1, g2⟩
      obtain ⟨yz, i, x, hr, hx, rfl⟩ := (CA.mem_iff_rows hw).1 hq
      obtain ⟨r1, r2⟩ := CA.mem_rows.1 hr
      obtain ⟨v1, v2⟩ := rows_valid (hw _ r1) r2
      obtain ⟨c, hc, ha⟩ := (overRows_adds v2).2 ⟨x, hx, g1, g2⟩
      refine ⟨c, List.mem_flatMap.2 ⟨_, hr, ?_⟩, ha⟩
      simp only
      rw [if_pos hlt]
      exact List.mem_map.2 ⟨c, hc, rfl⟩

/-! ### bounds -/

theorem anc_one_near {p q : List Int} (h : Anc 1 (p.map fun y => shr y 1) q) : Near 1 p q := by
  have h := anc_iff.1 h
  induction p generalizing q with
  | nil =>
    cases q with
    | nil => exact List.Forall₂.nil
    | cons b q => simp at h
  | cons a p ih =>
    cases q with
    | nil => simp at h
    | cons b q =>
      simp only [List.map_cons, List.cons.injEq] at h
      refine List.Forall₂.cons ?_ (ih (anc_iff.2 h.2) h.2)
      have := h.1
      unfold shr at this
      omega

theorem mroBase_below {n w : Nat} {cells : CA} {M : Nat} {D : Int} (hb : cells.Below n M D)
    (hM : ∀ l p, cells.Mem n l p → l ≤ M) {l : Nat} {p : List Int} (h : MroBase n w cells l p) :
    l ≤ M ∧ ∀ x ∈ p, x * 2 ^ (M - l) < D + w * 2 ^ (M - l) := by
  rcases h with ⟨q, hq, hn⟩ | ⟨q, hq, hn⟩
  · exact ⟨hM l q hq, near_below hn (hb l q hq)⟩
  · have h1 := hM _ q hq
    have h2 := up_below (k := 1) (hb _ q hq)
    rw [show M - (l + 1) + 1 = M - l by omega] at h2
    exact ⟨by omega, near_below hn h2⟩

theorem mroMid_below {n w : Nat} {cells : CA} {M : Nat} {D : Int} (hb : cells.Below n M D)
    (hM : ∀ l p, cells.Mem n l p → l ≤ M) {l : Nat} {p : List Int} (h : MroBase n w cells l p ∨ MroSib n w cells l p) :
    l ≤ M ∧ ∀ x ∈ p, x * 2 ^ (M - l) < D + ((w : Int) + 1) * 2 ^ M := by
  have hk := pow_two_pos (M - l)
  have hm : (2 : Int) ^ (M - l) ≤ 2 ^ M := pow_mono_two (by omega)
  have hc : ((w : Int) + 1) * 2 ^ (M - l) ≤ ((w : Int) + 1) * 2 ^ M := Int.mul_le_mul_of_nonneg_left hm (by omega)
  have he : ((w : Int) + 1) * 2 ^ (M - l) = w * 2 ^ (M - l) + 2 ^ (M - l) := by ring
  rcases h with h | ⟨_, _, _, ⟨q, hq, ha⟩, _⟩
  · obtain ⟨h1, h2⟩ := mroBase_below hb hM h
    refine ⟨h1, fun x hx => ?_⟩
    have := h2 x hx
    omega
  · obtain ⟨h1, h2⟩ := mroBase_below hb hM hq
    refine ⟨h1, fun x hx => ?_⟩
    have := near_below (anc_one_near ha) h2 x hx
    push_cast at this
    omega

/-! ### the loops -/

theorem mroParents_spec {n w : Nat} {cells : CA} (hw : cells.WF n) :
    ∃ cl0 cl1, mrGhostList n ⟨w, 0⟩ cells = some cl0 ∧
      (Hist n cells.maxSize cl0 fun l p => ∃ q, cells.Mem n l q ∧ Near w p q) ∧
      (List.range' (if cells.minLevel = 0 then 1 else cells.minLevel) (cells.maxLevel + 1 - if cells.minLevel = 0 then 1 else cells.minLevel)).foldlM
        (mroParentStep n w cells) cl0 = some cl1 ∧ Hist n cells.maxSize cl1 (MroBase n w cells) := by
  obtain ⟨cl0, c1, c2⟩ := mrGhostList_spec (cfg := ⟨w, 0⟩) hw
  have hmaxL : cells.maxLevel ≤ cells.maxSize := by
    rcases cells.level_cases with ⟨_, h, _⟩ | ⟨_, h, _⟩ <;> omega
  generalize hlo : (if cells.minLevel = 0 then 1 else cells.minLevel) = lo
  have hlo1 : 1 ≤ lo := by rw [← hlo]; split <;> omega
  have hlo2 : cells.minLevel ≤ lo := by rw [← hlo]; split <;> omega
  have hlo3 : lo ≤ max 1 cells.minLevel := by rw [← hlo]; split <;> omega
  let S : Nat → Nat → List Int → Prop := fun k l p => (∃ q, cells.Mem n l q ∧ Near w p q) ∨
    (l + 1 < k ∧ ∃ q, cells.Mem n (l + 1) q ∧ Near w p (q.map fun y => shr y 1))
  obtain ⟨cl1, p1, p2⟩ := foldRange (mroParentStep n w cells) (fun k cl => Hist n cells.maxSize cl (S k)) lo (cells.maxLevel + 1 - lo) (by
    intro k cl hk1 hk2 hI
    obtain ⟨cl', h1, h2⟩ := mroParentStep_spec (w := w) (level := k) (by omega) (by omega) hw hI
    refine ⟨cl', h1, h2.congr fun l p => ?_⟩
    constructor
    · rintro (h | ⟨h, h'⟩)
      · exact Or.inl (Or.inl h)
      · by_cases hlk : l + 1 = k
        · rw [hlk] at h'
          exact Or.inr ⟨hlk, h'⟩
        · exact Or.inl (Or.inr ⟨by omega, h'⟩)
    · rintro ((h | ⟨h, h'⟩) | ⟨h, h'⟩)
      · exact Or.inl h
      · exact Or.inr ⟨by omega, h'⟩
      · rw [← h] at h'
        exact Or.inr ⟨by omega, h'⟩) cl0 (by
    refine c2.congr fun l p => ⟨?_, Or.inl⟩
    rintro (h | ⟨h, q, hq, _⟩)
    · exact h
    · have := CA.mem_levels hw hq
      omega)
  refine ⟨cl0, cl1, c1, c2, p1, p2.congr fun l p => ?_⟩
  refine or_congr_right ⟨?_, And.right⟩
  rintro ⟨q, hq, hn⟩
  have := CA.mem_levels hw hq
  exact ⟨by omega, q, hq, hn⟩

theorem atLevel_one {l : Nat} {S : List Int → Prop} (hl : 1 ≤ l) {p : List Int} :
    AtLevel l (l - 1) S p ↔ ∃ q, S q ∧ Anc 1 p q := atLevel_up (by omega)

theorem mroSiblingStep_spec {n w : Nat} {cells u all : CA} {cl : CL n} {S : Nat → List Int → Prop} {level M : Nat}
    (hlev : 1 ≤ level) (hmax : level ≤ cells.maxSize) (hM : level ≤ M) (hw : cells.WF n) (hl : cells.Leveled)
    (hu : UnionOK n cells u cells.minLevel) (hmin : cells.minLevel ≤ level + 1)
    (aw : all.WF n) (al : all.Leveled) (as : all.maxSize = cells.maxSize) (am : ∀ l p, all.Mem n l p ↔ MroBase n w cells l p)
    {D : Int} (hD0 : 0 ≤ D) (hD : D + 2 * 2 ^ M + 2 < INT_MAX)
    (bc : cells.Below n M D) (bu : u.Below n M D) (ba : all.Below n M D) (h : Hist n cells.maxSize cl S) :
    ∃ cl', mroSiblingStep n cells u all cl level = some cl' ∧
      Hist n cells.maxSize cl' fun l p => S l p ∨ (l = level ∧ MroSib n w cells l p) := by
  unfold mroSiblingStep
  by_cases hemp : (cells.lca level).isEmpty = true
  · rw [if_pos hemp]
    refine ⟨cl, rfl, h.congr fun l p => ⟨?_, Or.inl⟩⟩
    rintro (h | ⟨rfl, _, ⟨q, hq⟩, _⟩)
    · exact h
    · exfalso
      obtain ⟨e, he, _⟩ := (Samurai.mem_iff_rows (hw l hq.1) q).1 hq.2
      rw [(rows_eq_nil_iff (hw l hq.1)).2 hemp] at he
      simp at he
  · rw [if_neg hemp]
    have hne : ∃ q, cells.Mem n level q := CA.some_mem hw hmax (by simpa using hemp)
    have use : ∀ c : CA, c.WF n → c.Leveled → c.maxSize = cells.maxSize → c.Below n M D →
        Usable n M D (Node.mesh (c.lca level)) := by
      intro c c1 c2 c3 c4
      refine ⟨_, rfl, c1 level (by omega), by rw [c2 level (by omega)]; exact hM, fun p hp x hx => ?_⟩
      rw [c2 level (by omega)]
      exact c4 level p ⟨by omega, hp⟩ x hx
    have hadm := usable_admissible (e := .op .inter (.leaf (.mesh (u.lca level)))
      (.op .diff (.leaf (.mesh (all.lca level))) (.leaf (.mesh (cells.lca level))))) hD0 hD
      ⟨use u hu.wf hu.leveled hu.size bu, use all aw al as ba, use cells hw hl rfl bc⟩
    obtain ⟨calls, a1, a2, a3⟩ := runSet_ok hadm (ref := level - 1) (by
      simp only [Expr.finest, Node.level, hu.leveled level (by rw [hu.size]; omega)]
      exact le_trans (by omega) (Nat.le_max_left _ _))
    have a3' : ∀ p, Covers calls p ↔ (∃ q, CoveredBy n cells level q ∧ Anc 1 p q) ∧
        (∃ q, MroBase n w cells level q ∧ Anc 1 p q) ∧ ¬ ∃ q, cells.Mem n level q ∧ Anc 1 p q := by
      intro p
      rw [a3]
      show (AtLevel (u.lca level).level (level - 1) ((u.lca level).Mem n) p ∧
        (AtLevel (all.lca level).level (level - 1) ((all.lca level).Mem n) p ∧
          ¬ AtLevel (cells.lca level).level (level - 1) ((cells.lca level).Mem n) p)) ↔ _
      rw [hu.leveled level (by rw [hu.size]; omega), al level (by omega), hl level hmax, atLevel_one hlev, atLevel_one hlev, atLevel_one hlev]
      simp only [mem_lca (c := u) (by rw [hu.size]; omega : level ≤ u.maxSize), mem_lca (c := all) (by omega : level ≤ all.maxSize),
        mem_lca hmax, am, hu.mem, hmin, true_and]
    rw [a1]
    simp only []
    obtain ⟨cl', d1, d2⟩ := h.calls (k := (calls.flatMap fun c => childRows c.1 c.2).map fun e => (level, e)) (by
      intro e he
      obtain ⟨e', he', rfl⟩ := List.mem_map.1 he
      obtain ⟨o1, o2⟩ := childRows_ok a2 e' he'
      exact ⟨hmax, o1, o2⟩)
    rw [flatMap_map_level, d1]
    refine ⟨cl', rfl, d2.congr fun l p => ?_⟩
    rw [map_level, childRows_adds a2, a3']
    refine or_congr_right ?_
    constructor
    · rintro ⟨rfl, _, _, h1, h2, h3⟩
      exact ⟨rfl, h1, h2, h3⟩
    · rintro ⟨rfl, h1, h2, h3⟩
      exact ⟨rfl, hlev, hne, h1, h2, h3⟩

/-- What is known of the sub-meshes of a mesh with overleaves before the renumbering. -/
structure MroOK (n w : Nat) (cells : CA) (maxL : Nat) (m : MroMeshes) : Prop where
  cells_eq : m.cells = cells
  ghosts : m.ghosts.WF n ∧ ∀ l p, m.ghosts.Mem n l p ↔ ∃ q, cells.Mem n l q ∧ Near w p q
  proj : m.proj.WF n ∧ ∀ l p, m.proj.Mem n l p ↔ (MroBase n w cells l p ∨ MroSib n w cells l p) ∧ cells.minLevel ≤ l + 1 ∧ CoveredBy n cells l p
  union : m.union.WF n ∧ ∀ l p, m.union.Mem n l p ↔ cells.minLevel ≤ l + 1 ∧ CoveredBy n cells l p
  over : m.over.WF n ∧ ∀ l p, m.over.Mem n l p ↔ MroOver n cells maxL l p
  all : m.all.WF n ∧ ∀ l p, m.all.Mem n l p ↔ (MroBase n w cells l p ∨ MroSib n w cells l p) ∨ MroOver n cells maxL l p
  levels : (m.all.maxSize = cells.maxSize ∧ m.all.Leveled) ∧ m.proj.maxSize = cells.maxSize ∧ m.proj.Leveled

theorem mroUpdateSubMesh_spec {n w : Nat} {cells : CA} {minL maxL : Nat} (h : cells.Proper n minL maxL (w + 3)) :
    ∃ m, mroUpdateSubMesh n w cells maxL = some m ∧ MroOK n w cells maxL m := by
  have hw := h.wf
  have hl := h.leveled
  have hmaxL : cells.maxLevel ≤ cells.maxSize := by
    rcases cells.level_cases with ⟨_, h, _⟩ | ⟨_, h, _⟩ <;> omega
  have hM : ∀ l p, cells.Mem n l p → l ≤ maxL := fun l p h' => (h.between l p h').2
  obtain ⟨D, d1, d2, d3⟩ := h.range
  have hpos := pow_two_pos maxL
  have hle : ∀ l p, cells.Mem n l p → l ≤ cells.maxLevel := fun l p h' => (CA.mem_levels hw h').2
  -- the greatest level of a leaf is at most `maxL`
  have hmm : cells.maxLevel ≤ maxL := by
    rcases cells.level_cases with ⟨_, h5, h6⟩ | ⟨_, h5, h6, h7, _⟩
    · omega
    · obtain ⟨y, hy⟩ := CA.some_mem hw (l := cells.maxLevel) hmaxL h7
      exact hM _ y hy
  have hbelow' : cells.Below n cells.maxLevel D := by
    intro l p hp x hx
    have h1 := d3 l p hp x hx
    have h2 := hle l p hp
    have h3 : maxL - l = (cells.maxLevel - l) + (maxL - cells.maxLevel) := by omega
    rw [h3, pow_add, ← mul_assoc] at h1
    have h4 := pow_two_pos (maxL - cells.maxLevel)
    by_contra hlt
    have : x * 2 ^ (cells.maxLevel - l) * 1 ≤ x * 2 ^ (cells.maxLevel - l) * 2 ^ (maxL - cells.maxLevel) :=
      Int.mul_le_mul_of_nonneg_left (by omega) (by omega)
    omega
  have hcast : ((w + 3 : Nat) : Int) * 2 ^ maxL = ((w : Int) + 1) * 2 ^ maxL + 2 * 2 ^ maxL := by push_cast; ring
  have hw0 : (0 : Int) ≤ ((w : Int) + 1) * 2 ^ maxL := Int.mul_nonneg (by omega) (le_of_lt hpos)
  obtain ⟨u, u1, u2⟩ := constructUnion_spec hw hl (minL := cells.minLevel) (maxL := cells.maxLevel) (fun l p hp => CA.mem_levels hw hp) hmaxL d1
    (by omega) hbelow'
  obtain ⟨cl0, cl1, g1, g2, g3, g4⟩ := mroParents_spec (w := w) hw
  let K : Int := D + ((w : Int) + 1) * 2 ^ maxL
  have hK0 : 0 ≤ K := Int.add_nonneg d1 hw0
  have hK : K + 2 * 2 ^ maxL + 2 < INT_MAX := by
    show D + ((w : Int) + 1) * 2 ^ maxL + 2 * 2 ^ maxL + 2 < INT_MAX
    omega
  have bmid : ∀ l p, (MroBase n w cells l p ∨ MroSib n w cells l p) → ∀ x ∈ p, x * 2 ^ (maxL - l) < K :=
    fun l p hp => (mroMid_below d3 hM hp).2
  have bc : cells.Below n maxL K := fun l p hp x hx => by
    have := d3 l p hp x hx
    show _ < D + _
    omega
  have bu : u.Below n maxL K := fun l p hp x hx => by
    have := coveredBy_below d3 hM ((u2.mem l p).1 hp).2 x hx
    show _ < D + _
    omega
  obtain ⟨b1, b2, b3, b4, b5⟩ := g4.array
  generalize hlo : (if cells.minLevel = 0 then 1 else cells.minLevel) = lo at g3
  have hlo1 : 1 ≤ lo := by rw [← hlo]; split <;> omega
  have hlo2 : cells.minLevel ≤ lo := by rw [← hlo]; split <;> omega
  have hlo3 : lo ≤ max 1 cells.minLevel := by rw [← hlo]; split <;> omega
  -- compaction
  obtain ⟨cl2, s1, s2⟩ := foldDown (mroSiblingStep n cells u (CA.ofCL cl1))
    (fun k cl => Hist n cells.maxSize cl fun l p => MroBase n w cells l p ∨ (k < l ∧ MroSib n w cells l p)) lo cells.maxLevel hlo1 (by
      intro k cl hk1 hk2 hI
      obtain ⟨cl', e1, e2⟩ := mroSiblingStep_spec (level := k) (M := maxL) (by omega) (by omega) (by omega) hw hl u2 (by omega) b2 b3 b1 b5 hK0 hK bc bu
        (fun l p hp => bmid l p (Or.inl ((b5 l p).1 hp))) hI
      refine ⟨cl', e1, e2.congr fun l p => ?_⟩
      rw [or_assoc]
      refine or_congr_right ?_
      constructor
      · rintro ⟨h1, h2⟩
        by_cases hlk : l = k
        · exact Or.inr ⟨hlk, h2⟩
        · exact Or.inl ⟨by omega, h2⟩
      · rintro (⟨h1, h2⟩ | ⟨h1, h2⟩)
        · exact ⟨by omega, h2⟩
        · exact ⟨by omega, h2⟩) cells.maxLevel cl1 le_rfl (by
      refine g4.congr fun l p => ⟨?_, Or.inl⟩
      rintro (h1 | ⟨h1, _, ⟨q, hq⟩, _⟩)
      · exact h1
      · have := hle l q hq
        omega)
  have s2' : Hist n cells.maxSize cl2 fun l p => MroBase n w cells l p ∨ MroSib n w cells l p := by
    refine s2.congr fun l p => or_congr_right ⟨fun h1 => ⟨?_, h1⟩, And.right⟩
    obtain ⟨h1, ⟨q, hq⟩, _⟩ := h1
    have := CA.mem_levels hw hq
    omega
  obtain ⟨t1, t2, t3, t4, t5⟩ := s2'.array
  -- projection cells
  obtain ⟨e1, e2, e3, e4⟩ := empty_spec n cells.maxSize
  have small_t : ∀ l, ((CA.ofCL cl2).lca l).Small n K := fun l p hp => small_of_below hK0 (bmid l p ((t4 l p).1 hp))
  have small_u : ∀ l, l ≤ cells.maxSize → (u.lca l).Small n K := fun l hlm p hp =>
    small_of_below hK0 (bu l p ⟨by rw [u2.size]; exact hlm, hp⟩)
  obtain ⟨proj, q1, q2, q3, q4, q5⟩ := foldDown (mroProjStep n u (CA.ofCL cl2))
    (fun k P => P.maxSize = cells.maxSize ∧ P.WF n ∧ P.Leveled ∧ ∀ l p, (P.lca l).Mem n p ↔
      k ≤ l ∧ l < cells.maxLevel ∧ (MroBase n w cells l p ∨ MroSib n w cells l p) ∧ (u.lca l).Mem n p) lo cells.maxLevel hlo1 (by
      rintro k P hk1 hk2 ⟨i1, i2, i3, i4⟩
      obtain ⟨calls, a1, a2, a3⟩ := runDefault_two (o := .inter) (t2 (k - 1) (by omega)) (u2.wf (k - 1) (by rw [u2.size]; omega))
        (t3 (k - 1) (by omega)) (u2.leveled (k - 1) (by rw [u2.size]; omega)) (small_t (k - 1)) (small_u (k - 1) (by omega)) (by omega)
      obtain ⟨w1, w2, w3⟩ := lcaOfCalls_spec (level := k - 1) a2
      refine ⟨P.set (k - 1) (lcaOfCalls n (k - 1) calls), ?_, i1, CA.set_wf i2 w1, CA.set_leveled i3 w2, fun l p => ?_⟩
      · unfold mroProjStep
        rw [a1]
      · by_cases hlk : l = k - 1
        · subst hlk
          rw [CA.set_same, w3, a3]
          show ((CA.ofCL cl2).lca (k - 1)).Mem n p ∧ (u.lca (k - 1)).Mem n p ↔ _
          rw [t4]
          constructor
          · rintro ⟨h1, h2⟩
            exact ⟨le_rfl, by omega, h1, h2⟩
          · rintro ⟨_, _, h1, h2⟩
            exact ⟨h1, h2⟩
        · rw [CA.set_ne _ hlk, i4]
          refine ⟨fun ⟨h1, h2⟩ => ⟨by omega, h2⟩, fun ⟨h1, h2⟩ => ⟨by omega, h2⟩⟩) cells.maxLevel (CA.empty n cells.maxSize) le_rfl
    ⟨e1, e2, e3, fun l p => ⟨fun h1 => absurd h1 (e4 l p), fun ⟨h1, h2, _⟩ => by omega⟩⟩
  have q5' : ∀ l p, proj.Mem n l p ↔ (MroBase n w cells l p ∨ MroSib n w cells l p) ∧ cells.minLevel ≤ l + 1 ∧ CoveredBy n cells l p := by
    intro l p
    unfold CA.Mem
    rw [q2, q5]
    constructor
    · rintro ⟨h1, h2, h3, h4, h5⟩
      exact ⟨h4, (u2.mem l p).1 ⟨by rw [u2.size]; exact h1, h5⟩⟩
    · rintro ⟨h1, h2⟩
      have h3 := (u2.mem l p).2 h2
      obtain ⟨l', q, c1, c2, _⟩ := h2.2
      have := hle l' q c2
      exact ⟨by omega, by omega, by omega, h1, h3.2⟩
  -- overleaves
  obtain ⟨hh, o1, o2, o3⟩ := overCalls_spec hw h.size
  obtain ⟨ol, v1, v2⟩ := (hist_new n cells.maxSize).calls o2
  obtain ⟨cl3, x1, x2⟩ := s2'.calls o2
  obtain ⟨-, v3, -, -, v4⟩ := v2.array
  obtain ⟨x5, x3, x6, -, x4⟩ := x2.array
  obtain ⟨-, z3, -, -, z4⟩ := g2.array
  refine ⟨⟨cells, CA.ofCL cl0, proj, u, CA.ofCL cl3, CA.ofCL ol⟩, ?_, rfl, ⟨z3, z4⟩, ⟨q3, q5'⟩, ⟨u2.wf, u2.mem⟩, ⟨v3, fun l p => ?_⟩,
    ⟨x3, fun l p => ?_⟩, ⟨x5, x6⟩, q2, q4⟩
  · unfold mroUpdateSubMesh
    simp only []
    rw [u1]
    simp only []
    rw [g1]
    simp only [hlo]
    rw [g3]
    simp only []
    rw [s1]
    simp only []
    rw [q1]
    simp only []
    rw [o1]
    simp only []
    rw [v1, x1]
  · rw [v4, o3]
    simp
  · rw [x4, o3]

end Samurai

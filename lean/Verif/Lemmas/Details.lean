import Verif.Model.Details
import Verif.Lemmas.GhostOps
import Verif.Lemmas.AdaptStep
import Verif.Props.Prediction

namespace Samurai

section
variable {n : Nat} {ref : CA} {K : Type} [Field K]

/-- The value of a cell minus its prediction from the level below, in an array of values. -/
def detailOf (n order : Nat) (ref : CA) (u : Int → K) (l : Nat) (p : List Int) : K :=
  u (numOf n ref l p) - predictFine (n + 1) order (fun q => u (numOf n ref (l - 1) (ofPt (n + 1) q))) (toPt p)

/-- The details of the cells of `S` are written, and nothing else. -/
structure Fills (n order : Nat) (ref : CA) (u : Int → K) (S : Nat → List Int → Prop) (dt dt' : Int → K) : Prop where
  mem : ∀ l p, S l p → ref.Mem n l p
  keeps : ∀ idx, (∀ l p, S l p → idx ≠ numOf n ref l p) → dt' idx = dt idx
  value : ∀ l p, S l p → dt' (numOf n ref l p) = detailOf n order ref u l p

theorem Fills.trans (hw : ref.WF n) (hd : ref.NumbersDiffer n) {order : Nat} {u : Int → K} {S T : Nat → List Int → Prop} {a b c : Int → K}
    (h1 : Fills n order ref u S a b) (h2 : Fills n order ref u T b c) : Fills n order ref u (fun l p => S l p ∨ T l p) a c := by
  refine ⟨fun l p h => h.elim (h1.mem l p) (h2.mem l p), fun idx h => ?_, fun l p h => ?_⟩
  · rw [h2.keeps idx fun l p hp => h l p (Or.inr hp), h1.keeps idx fun l p hp => h l p (Or.inl hp)]
  · by_cases ht : T l p
    · exact h2.value l p ht
    · have hs := h.resolve_right ht
      rw [h2.keeps _ fun l' p' h' he => ?_, h1.value l p hs]
      obtain ⟨rfl, rfl⟩ := numOf_level hw hd (h1.mem l p hs) (h2.mem l' p' h') he
      exact ht h'

theorem Fills.congr {order : Nat} {u : Int → K} {S T : Nat → List Int → Prop} {a b : Int → K}
    (h : Fills n order ref u S a b) (e : ∀ l p, T l p ↔ S l p) : Fills n order ref u T a b :=
  ⟨fun l p hp => h.mem l p ((e l p).1 hp), fun idx hi => h.keeps idx fun l p hp => hi l p ((e l p).2 hp), fun l p hp => h.value l p ((e l p).1 hp)⟩

theorem fills_foldlM (hw : ref.WF n) (hd : ref.NumbersDiffer n) {order : Nat} {u : Int → K} {α : Type} {op : (Int → K) → α → Option (Int → K)}
    {S : α → Nat → List Int → Prop} : ∀ (as : List α), (∀ a ∈ as, ∀ dt, ∃ dt', op dt a = some dt' ∧ Fills n order ref u (S a) dt dt') →
    ∀ dt, ∃ dt', as.foldlM op dt = some dt' ∧ Fills n order ref u (fun l p => ∃ a ∈ as, S a l p) dt dt' := by
  intro as
  induction as with
  | nil =>
    intro _ dt
    exact ⟨dt, rfl, by simp, fun _ _ => rfl, by simp⟩
  | cons a as ih =>
    intro h dt
    obtain ⟨d1, a1, a2⟩ := h a List.mem_cons_self dt
    obtain ⟨d2, b1, b2⟩ := ih (fun b hb => h b (List.mem_cons_of_mem _ hb)) d1
    refine ⟨d2, by rw [List.foldlM_cons, a1]; exact b1, (a2.trans hw hd b2).congr fun l p => ?_⟩
    simp

/-! ### rows -/

variable {level : Nat}

omit [Field K] in
theorem writeStrided_ok (hw : ref.WF n) {l : Nat} {yz : List Int} {i : Interval} (hv : i.start < i.stop) (hs : i.step = 2) (he : (i.stop - i.start) % 2 = 0)
    (hi : ∀ y, i.start ≤ y → y ≤ i.stop - 2 → ref.Mem n l (yz ++ [y])) (values : Int → K) (u : Int → K) :
    ∃ u', writeStrided n ref l yz i values u = some u' ∧
      (∀ idx, (∀ y, i.start ≤ y → y < i.stop → (y - i.start) % 2 = 0 → idx ≠ numOf n ref l (yz ++ [y])) → u' idx = u idx) ∧
      ∀ y, i.start ≤ y → y < i.stop → (y - i.start) % 2 = 0 → u' (numOf n ref l (yz ++ [y])) = values y := by
  obtain ⟨r, h2, h3⟩ := fieldInterval_ok (l := l) hw (yz := yz) (I := i) (by omega) (fun y h1 h2 => hi y h1 (by omega))
  unfold writeStrided
  rw [h2]
  refine ⟨_, rfl, fun idx hne => ?_, fun y h1 h2 h4 => ?_⟩
  · simp only [hs]
    refine if_neg fun h => hne (idx - r.index) (by omega) (by omega) (by omega) ?_
    rw [h3 _ (by omega) (by omega)]; omega
  · rw [h3 y (by omega) (by omega)]
    simp only [hs]
    rw [if_pos ⟨⟨by omega, by omega⟩, by omega⟩, show r.index + y - r.index = y by omega]

/-- A row operator that reads another array. -/
theorem rowOp_from (hw : ref.WF n) {l l' : Nat} {read : (Int → K) → Int → Pt → Option K} {need : Int → List Pt} {F : (Pt → K) → Pt → K} {u dt : Int → K}
    {c : Call} (hv : c.2.start < c.2.stop) (hs : c.2.step = 1) (hi : ∀ x ∈ c.2, ref.Mem n l (c.1 ++ [x]))
    (hread : ∀ x ∈ c.2, ∀ q ∈ need x, read dt x q = some (u (numOf n ref l' (ofPt (n + 1) q))))
    (hF : ∀ x ∈ c.2, ∀ f f' : Pt → K, (∀ q ∈ need x, f q = f' q) → F f (toPt (c.1 ++ [x])) = F f' (toPt (c.1 ++ [x]))) :
    ∃ dt', rowOp n ref l read need F dt c = some dt' ∧ (∀ idx, (∀ x ∈ c.2, idx ≠ numOf n ref l (c.1 ++ [x])) → dt' idx = dt idx) ∧
      ∀ x ∈ c.2, dt' (numOf n ref l (c.1 ++ [x])) = F (fun q => u (numOf n ref l' (ofPt (n + 1) q))) (toPt (c.1 ++ [x])) := by
  have h0 : c.2.start ∈ c.2 := Interval.mem_def.2 ⟨le_rfl, hv⟩
  unfold rowOp
  rw [if_pos (List.all_eq_true.2 fun q hq => by rw [hread _ h0 q hq]; rfl)]
  obtain ⟨u', h1, h2, h3⟩ := writeRow_ok hw hv hs hi (fun x => F (fun q => (read dt x q).getD 0) (toPt (c.1 ++ [x]))) dt
  refine ⟨u', h1, h2, fun x hx => ?_⟩
  rw [h3 x hx]
  exact hF x hx _ _ fun q hq => by rw [hread x hx q hq]; rfl

/-- What a row of `compute_detail` needs. -/
structure DetailRow (n order : Nat) (ref : CA) (level : Nat) (c : Call) : Prop where
  length : c.1.length = n
  lt : c.2.start < c.2.stop
  step : c.2.step = 1
  children : ∀ x ∈ c.2, ∀ q, parentOf q = c.1 ++ [x] → ref.Mem n (level + 1) q
  near : ∀ x ∈ c.2, ∀ q, Near order q (c.1 ++ [x]) → ref.Mem n level q
  below : 1 ≤ level → ∀ x ∈ c.2, ∀ q, Near order q (parentOf (c.1 ++ [x])) → ref.Mem n (level - 1) q

theorem DetailRow.child {order : Nat} {c : Call} (h : DetailRow n order ref level c) {x : Int} (hx : x ∈ c.2) {r : Pt}
    (hr : ∀ d ≤ n, 2 * toPt (c.1 ++ [x]) d ≤ r d ∧ r d < 2 * toPt (c.1 ++ [x]) d + 2) : ref.Mem n (level + 1) (ofPt (n + 1) r) := by
  refine h.children x hx _ (toPt_ext (n := n + 1) (by simp [parentOf, ofPt_length]) (by simp [h.length]) fun d hd => ?_)
  unfold parentOf
  rw [toPt_half (ofPt_length _ _) (by omega), toPt_ofPt _ hd]
  have := hr d (by omega)
  omega

theorem DetailRow.nearPt {order : Nat} {c : Call} (h : DetailRow n order ref level c) {x : Int} (hx : x ∈ c.2) {r : Pt}
    (hr : ∀ d ≤ n, r d ≤ toPt (c.1 ++ [x]) d + order ∧ toPt (c.1 ++ [x]) d ≤ r d + order) : ref.Mem n level (ofPt (n + 1) r) := by
  refine h.near x hx _ ((near_iff_toPt (ofPt_length _ _) (by simp [h.length])).2 fun d hd => ?_)
  rw [toPt_ofPt _ (by omega)]
  exact hr d hd

theorem DetailRow.belowPt {order : Nat} {c : Call} (h : DetailRow n order ref level c) (hl : 1 ≤ level) {x : Int} (hx : x ∈ c.2) {r : Pt}
    (hr : ∀ d ≤ n, r d ≤ toPt (c.1 ++ [x]) d / 2 + order ∧ toPt (c.1 ++ [x]) d / 2 ≤ r d + order) : ref.Mem n (level - 1) (ofPt (n + 1) r) := by
  refine h.below hl x hx _ ((near_iff_toPt (ofPt_length _ _) (by simp [parentOf, h.length])).2 fun d hd => ?_)
  unfold parentOf
  rw [toPt_half (n := n) (by simp [h.length]) (by omega), toPt_ofPt _ (by omega)]
  exact hr d hd

/-- The child `s` of the cells of the row. -/
theorem detailChildRow_ok (hw : ref.WF n) {order : Nat} (hn : n ≤ 2) (ho : 1 ≤ order) (u : Int → K) {c : Call} (h : DetailRow n order ref level c)
    {s : Nat → Int} (hs : s ∈ offsetsFrom n 0 2) (dt : Int → K) :
    ∃ dt', detailChildRow n order ref level u c dt s = some dt' ∧
      Fills n order ref u (fun l q => l = level + 1 ∧ ∃ x ∈ c.2, q = ofPt (n + 1) fun d => 2 * toPt (c.1 ++ [x]) d + s d) dt dt' := by
  obtain ⟨s1, s2⟩ := mem_offsetsFrom.1 hs
  have s0 := s1 0 (by omega)
  push_cast at s1 s0
  have hx0 : c.2.start ∈ c.2 := Interval.mem_def.2 ⟨le_rfl, h.lt⟩
  have hlt := h.lt
  have hstep := h.step
  have readC : ∀ x ∈ c.2, ∀ t ∈ offsetsFrom n (-(order : Int)) (2 * order + 1),
      readView n ref level u c.2 x (fun d => toPt (c.1 ++ [x]) d + t d) = some (u (numOf n ref level (ofPt (n + 1) fun d => toPt (c.1 ++ [x]) d + t d))) := by
    intro x hx t ht
    have hx' := Interval.mem_def.1 hx
    have ht' := (mem_offsetsFrom.1 ht).1
    refine readView_ok hw u hx'.1 (by omega) fun y h1 h2 => ?_
    simp only [toPt_snoc_zero] at h1 h2
    rw [ofPt_row]
    refine h.nearPt (x := y - t 0) (Interval.mem_def.2 ⟨by omega, by omega⟩) fun d hd => ?_
    by_cases h0 : d = 0
    · subst h0
      simp only [toPt_snoc_zero, if_true]
      have := ht' 0 (by omega)
      push_cast at this
      omega
    · simp only [if_neg h0]
      rw [toPt_snoc_succ _ x (y - t 0) h0]
      have := ht' d hd
      push_cast at this
      omega
  have readF : ∀ x ∈ c.2, readView n ref (level + 1) u (c.2.mul 2) (2 * x) (fun d => 2 * toPt (c.1 ++ [x]) d + s d) =
      some (u (numOf n ref (level + 1) (ofPt (n + 1) fun d => 2 * toPt (c.1 ++ [x]) d + s d))) := by
    intro x hx
    have hx' := Interval.mem_def.1 hx
    refine readView_ok hw u (by simp only [Interval.mul]; omega) (by simp only [Interval.mul, hstep]; omega) fun y h1 h2 => ?_
    simp only [toPt_snoc_zero, Interval.mul, hstep] at h1 h2
    rw [ofPt_row]
    refine h.child (x := y / 2) (Interval.mem_def.2 ⟨by omega, by omega⟩) fun d hd => ?_
    by_cases h0 : d = 0
    · subst h0
      rw [toPt_snoc_zero, if_pos rfl]
      omega
    · rw [if_neg h0, toPt_snoc_succ _ x (y / 2) h0]
      have := s1 d hd
      omega
  unfold detailChildRow
  simp only []
  rw [if_pos (by
    rw [Bool.and_eq_true]
    refine ⟨List.all_eq_true.2 fun q hq => ?_, by rw [readF _ hx0]; rfl⟩
    obtain ⟨t, ht, rfl⟩ := List.mem_map.1 hq
    rw [readC _ hx0 t ht]; rfl)]
  have row : ∀ x, (ofPt (n + 1) fun d => 2 * toPt (c.1 ++ [c.2.start]) d + s d).dropLast ++ [2 * x + s 0] =
      ofPt (n + 1) fun d => 2 * toPt (c.1 ++ [x]) d + s d := by
    intro x
    rw [ofPt_row]
    refine ofPt_congr fun d hd => ?_
    by_cases h0 : d = 0
    · subst h0
      rw [if_pos rfl, toPt_snoc_zero]
    · simp only [if_neg h0]
      rw [toPt_snoc_succ _ _ x h0]
  have hI : (c.2.mul 2).addRight (s 0) = ⟨2 * c.2.start + s 0, 2 * c.2.stop + s 0, 2, (c.2.mul 2).index⟩ := by
    simp only [Interval.mul, Interval.addRight, Interval.addAssign, hstep]
    congr 1 <;> omega
  obtain ⟨dt', a1, a2, a3⟩ := writeStrided_ok (l := level + 1) hw (yz := (ofPt (n + 1) fun d => 2 * toPt (c.1 ++ [c.2.start]) d + s d).dropLast)
    (i := (c.2.mul 2).addRight (s 0)) (by rw [hI]; simp only []; omega) (by rw [hI]) (by rw [hI]; simp only []; omega)
    (by
      rw [hI]
      simp only []
      intro y h1 h2
      rw [ofPt_row]
      refine h.child (x := y / 2) (Interval.mem_def.2 ⟨by omega, by omega⟩) fun d hd => ?_
      by_cases h0 : d = 0
      · subst h0
        rw [toPt_snoc_zero, if_pos rfl]
        omega
      · rw [if_neg h0, toPt_snoc_succ _ c.2.start (y / 2) h0]
        have := s1 d hd
        omega)
    (fun y => detailChild (n + 1) order (fun q => (readView n ref (level + 1) u (c.2.mul 2) (2 * shr y 1) q).getD 0)
      (fun q => (readView n ref level u c.2 (shr y 1) q).getD 0) (toPt (c.1 ++ [shr y 1])) fun d => decide (s d = 1)) dt
  rw [hI] at a2 a3
  simp only [] at a2 a3
  refine ⟨dt', a1, ?_, fun idx hi => a2 idx fun y h1 h2 h3 => ?_, ?_⟩
  · rintro l q ⟨rfl, x, hx, rfl⟩
    refine h.child hx fun d hd => ?_
    have := s1 d hd
    omega
  · obtain ⟨x, rfl⟩ : ∃ x, y = 2 * x + s 0 := ⟨(y - s 0) / 2, by omega⟩
    rw [row]
    exact hi _ _ ⟨rfl, x, Interval.mem_def.2 ⟨by omega, by omega⟩, rfl⟩
  · rintro l q ⟨rfl, x, hx, rfl⟩
    have hx' := Interval.mem_def.1 hx
    rw [← row, a3 _ (by omega) (by omega) (by omega), row]
    have hsh : shr (2 * x + s 0) 1 = x := by rw [shr_one_eq]; omega
    simp only [hsh]
    have hlen : (c.1 ++ [x]).length = n + 1 := by simp [h.length]
    have hch : childPt (toPt (c.1 ++ [x])) (fun d => decide (s d = 1)) = fun d => 2 * toPt (c.1 ++ [x]) d + s d := by
      funext d
      unfold childPt
      by_cases hd : d ≤ n
      · have := s1 d hd
        by_cases e : s d = 1
        · simp [e]
        · simp only [e, decide_false, Bool.false_eq_true, if_false]
          omega
      · simp [s2 d (by omega)]
    have hto : toPt (ofPt (n + 1) fun d => 2 * toPt (c.1 ++ [x]) d + s d) = fun d => 2 * toPt (c.1 ++ [x]) d + s d := by
      funext d
      by_cases hd : d ≤ n
      · rw [toPt_ofPt _ (by omega)]
      · rw [toPt_zero (ofPt_length _ _) (by omega), toPt_zero hlen (by omega), s2 d (by omega)]
        rfl
    have hrest := C32_restore (n + 1) order (by omega) ho (fun q => (readView n ref (level + 1) u (c.2.mul 2) (2 * x) q).getD 0)
      (fun q => (readView n ref level u c.2 x q).getD 0) (toPt (c.1 ++ [x])) (fun d => decide (s d = 1))
    rw [← C53_same_value (n + 1) order (by omega)] at hrest
    have e2 := sub_eq_of_eq_add' hrest
    rw [← e2]
    unfold detailOf
    rw [hto, hch]
    congr 1
    · simp only [readF x hx, Option.getD_some]
    · refine predictFine_congr fun t ht => ?_
      have hpar : parentPt (fun d => 2 * toPt (c.1 ++ [x]) d + s d) = toPt (c.1 ++ [x]) := by rw [← hch, parentPt_childPt]
      rw [hpar, readC x hx t ht]
      rfl

/-- The cells of the row themselves, above level 0. -/
theorem detailSelfRow_ok (hw : ref.WF n) (hd : ref.NumbersDiffer n) {order : Nat} (u : Int → K) {c : Call} (h : DetailRow n order ref level c) (hl : 1 ≤ level) (dt : Int → K) :
    ∃ d1 dt', detailPredictRow n order ref level u c dt = some d1 ∧ detailSubRow n ref level u c d1 = some dt' ∧
      Fills n order ref u (fun l q => l = level ∧ ∃ x ∈ c.2, q = c.1 ++ [x]) dt dt' := by
  have hpar : ∀ (p : List Int) d, parentPt (toPt p) d = toPt p d / 2 := fun p d => shr_one_eq _
  have hmem : ∀ x ∈ c.2, ref.Mem n level (c.1 ++ [x]) := fun x hx => h.near x hx _ (near_refl _ _)
  have hlt := h.lt
  have hstep := h.step
  obtain ⟨d1, a1, a2, a3⟩ := rowOp_from (n := n) (ref := ref) (l := level) (l' := level - 1) (u := u) (dt := dt) (c := c) (F := predictFine (n + 1) order)
    (read := fun _ x => readView n ref (level - 1) u (c.2.shiftRight 1) (shr x 1))
    (need := fun x => (offsetsFrom n (-(order : Int)) (2 * order + 1)).map fun s d => parentPt (toPt (c.1 ++ [x])) d + s d) hw hlt hstep hmem (by
      intro x hx q hq
      obtain ⟨s, hs, rfl⟩ := List.mem_map.1 hq
      have hx' := Interval.mem_def.1 hx
      have hs' := (mem_offsetsFrom.1 hs).1
      have s0 := hs' 0 (by omega)
      push_cast at s0
      refine readView_ok hw u ?_ ?_ fun y h1 h2 => ?_
      · simp only [Interval.shiftRight, shr_one_eq]; omega
      · simp only [Interval.shiftRight, shr_one_eq]; omega
      simp only [Interval.shiftRight, hpar, shr_one_eq, toPt_snoc_zero] at h1 h2
      rw [ofPt_row]
      obtain ⟨x', g1, g2, g3⟩ : ∃ x', c.2.start ≤ x' ∧ x' < c.2.stop ∧ x' / 2 = y - s 0 := by
        by_cases hc : 2 * (y - s 0) < c.2.start
        · exact ⟨c.2.start, by omega, by omega, by omega⟩
        · exact ⟨2 * (y - s 0), by omega, by omega, by omega⟩
      refine h.belowPt hl (x := x') (Interval.mem_def.2 ⟨g1, g2⟩) fun d hd => ?_
      by_cases h0 : d = 0
      · subst h0
        rw [toPt_snoc_zero, if_pos rfl]
        omega
      · rw [if_neg h0, hpar, toPt_snoc_succ _ x x' h0]
        have := hs' d hd
        push_cast at this
        omega)
    (fun x _ f f' hf => predictFine_congr fun s hs => hf _ (List.mem_map.2 ⟨s, hs, rfl⟩))
  obtain ⟨r, r1, r2⟩ := fieldInterval_ok (l := level) hw (yz := c.1) (I := c.2) (by omega)
    (fun y h1 h2 => hmem y (Interval.mem_def.2 ⟨h1, by omega⟩))
  obtain ⟨dt', b1, b2, b3⟩ := writeRow_ok (l := level) hw hlt hstep hmem (fun x => u (r.index + x) - d1 (r.index + x)) d1
  refine ⟨d1, dt', a1, ?_, ?_, fun idx hi => ?_, ?_⟩
  · unfold detailSubRow
    rw [r1]
    exact b1
  · rintro l q ⟨rfl, x, hx, rfl⟩
    exact hmem x hx
  · rw [b2 idx fun x hx => hi _ _ ⟨rfl, x, hx, rfl⟩, a2 idx fun x hx => hi _ _ ⟨rfl, x, hx, rfl⟩]
  · rintro l q ⟨rfl, x, hx, rfl⟩
    have hx' := Interval.mem_def.1 hx
    rw [b3 x hx, ← r2 x hx'.1 (by omega), a3 x hx]
    rfl

/-- The cells whose details a row writes. -/
def RowDetails (level : Nat) (S : List Int → Prop) (l : Nat) (q : List Int) : Prop :=
  (l = level + 1 ∧ S (parentOf q)) ∨ (1 ≤ level ∧ l = level ∧ S q)

theorem detailRow_ok (hw : ref.WF n) (hd : ref.NumbersDiffer n) {order : Nat} (hn : n ≤ 2) (ho : 1 ≤ order) (u : Int → K) {c : Call}
    (h : DetailRow n order ref level c) (dt : Int → K) :
    ∃ dt', detailRow n order ref level u dt c = some dt' ∧ Fills n order ref u (RowDetails level fun p => ∃ x ∈ c.2, p = c.1 ++ [x]) dt dt' := by
  obtain ⟨d1, a1, a2⟩ := fills_foldlM hw hd (order := order) (u := u) (op := detailChildRow n order ref level u c)
    (S := fun s l q => l = level + 1 ∧ ∃ x ∈ c.2, q = ofPt (n + 1) fun d => 2 * toPt (c.1 ++ [x]) d + s d) (offsetsFrom n 0 2)
    (fun s hs dt => detailChildRow_ok hw hn ho u h hs dt) dt
  have e : ∀ l q, (l = level + 1 ∧ ∃ x ∈ c.2, parentOf q = c.1 ++ [x]) ↔
      ∃ s ∈ offsetsFrom n 0 2, l = level + 1 ∧ ∃ x ∈ c.2, q = ofPt (n + 1) fun d => 2 * toPt (c.1 ++ [x]) d + s d := by
    intro l q
    constructor
    · rintro ⟨rfl, x, hx, hq⟩
      have hlen : q.length = n + 1 := by
        have := congrArg List.length hq
        simpa [parentOf, h.length] using this
      have hh : ∀ d ≤ n, toPt q d / 2 = toPt (c.1 ++ [x]) d := by
        intro d hd
        rw [← hq]
        unfold parentOf
        rw [toPt_half hlen (by omega)]
      refine ⟨fun d => toPt q d - 2 * toPt (c.1 ++ [x]) d, mem_offsetsFrom.2 ⟨fun d hd => ?_, fun d hd => ?_⟩, rfl, x, hx, ?_⟩
      · have := hh d hd
        push_cast
        omega
      · rw [toPt_zero hlen (by omega), toPt_zero (n := n) (by simp [h.length]) (by omega)]
        rfl
      · refine toPt_ext (n := n + 1) hlen (ofPt_length _ _) fun d hd => ?_
        rw [toPt_ofPt _ hd]
        simp only []
        omega
    · rintro ⟨s, hs, rfl, x, hx, rfl⟩
      refine ⟨rfl, x, hx, toPt_ext (n := n + 1) (by simp [parentOf, ofPt_length]) (by simp [h.length]) fun d hd => ?_⟩
      unfold parentOf
      rw [toPt_half (ofPt_length _ _) (by omega), toPt_ofPt _ hd]
      have := (mem_offsetsFrom.1 hs).1 d (by omega)
      push_cast at this
      omega
  have a2 := a2.congr e
  unfold detailRow
  rw [a1]
  by_cases hl : 1 ≤ level
  · obtain ⟨d2, dt', b1, b2, b3⟩ := detailSelfRow_ok hw hd u h hl d1
    refine ⟨dt', ?_, (a2.trans hw hd b3).congr fun l q => ?_⟩
    · simp only [if_pos hl, b1, b2]
    · unfold RowDetails
      simp only [hl, true_and]
  · refine ⟨d1, by simp only [if_neg hl], a2.congr fun l q => ?_⟩
    unfold RowDetails
    simp only [hl, false_and, or_false]

/-! ### levels -/

theorem mrNumbers {cfg : MeshConfig} {c0 : CA} {minL maxL : Nat} {m : SubMeshes} {x : CA} (h : MRMeshOK n cfg c0 minL maxL m x) : m.all.NumbersDiffer n := by
  unfold CA.NumbersDiffer
  rw [h.numbers]
  exact List.Nodup.map (fun a b h => Int.ofNat.inj h) List.nodup_range

variable {cfg : MeshConfig} {dom : LCA} {minL maxL : Nat} {m : SubMeshes} {x : CA}

/-- The parents of the leaves of a level. -/
def LeafParent (n : Nat) (cells : CA) (level : Nat) (p : List Int) : Prop := ∃ c, cells.Mem n (level + 1) c ∧ parentOf c = p

/-- What `compute_detail` reads around the parent of a leaf is in the reference mesh. -/
theorem leafParent_reads (h : AdaptInv n cfg dom minL maxL m x) (hlt : minL < maxL) {p : List Int} (hp : LeafParent n m.cells level p) :
    (∀ q, Near cfg.predictionOrder q p → m.all.Mem n level q) ∧ (∀ q, parentOf q = p → m.all.Mem n (level + 1) q) ∧
      (1 ≤ level → ∀ q, Near cfg.predictionOrder q (parentOf p) → m.all.Mem n (level - 1) q) := by
  obtain ⟨c, hc, rfl⟩ := hp
  obtain ⟨c0, hm⟩ := h.mesh
  obtain ⟨m0, c1, c2, c3, c4, c5⟩ := hm.content
  have hne : minL ≠ maxL := by omega
  have hb := h.leaves.between _ _ hc
  have hc0 := (c2 _ _).1 hc
  have hunc : ¬ CoveredBy n c0 (level + 1) c := by
    rintro ⟨l', q', h1, h2, h3⟩
    have := (h.leaves.noOverlap (level + 1) c l' q' hc ((c2 l' q').2 h2) (by omega) h3).1
    omega
  have near : ∀ q, Near cfg.predictionOrder q (parentOf c) → m.all.Mem n level q := fun q hq =>
    (c5 _ _).2 ((c1.all hne _ _).2 (MRBase.all (Or.inr (Or.inl ⟨c, ⟨c, hc0, near_refl _ _⟩, hunc, hq⟩))))
  refine ⟨near, fun q hq => ?_, fun hl q hq => ?_⟩
  · rw [c5, c1.all hne]
    refine Or.inr ⟨?_, by omega, level + 1, c, by omega, hc0, ?_⟩
    · have := (c1.all hne _ _).1 ((c5 _ _).1 (near _ (near_refl _ _)))
      rw [← hq] at this
      exact this
    · rw [show level + 1 - level = 1 by omega]
      exact anc_one.2 hq.symm
  · rw [c5, c1.all hne]
    refine MRBase.all (Or.inr (Or.inr ⟨c, ?_, ?_⟩))
    · rw [show level - 1 + 2 = level + 1 by omega]
      exact hc0
    · have : parentOf (parentOf c) = c.map fun y => shr y 2 := map_shr_add c 1 1
      rw [← this]
      exact hq

theorem detailSet_ok (h : AdaptInv n cfg dom minL maxL m x) {gw : Nat}
    (hd : GoodDomain n dom minL maxL (cfg.maxStencilWidth + cfg.predictionOrder + gw + 3)) (hlt : minL < maxL) (hl : level < maxL) :
    ∃ calls, runSet n (.op .inter (.leaf (.mesh (m.all.lca level))) (.leaf (.mesh (m.cells.lca (level + 1))))) level = some calls ∧ OkCalls n calls ∧
      ∀ p, Covers calls p ↔ LeafParent n m.cells level p := by
  obtain ⟨c0, hc⟩ := h.mesh
  obtain ⟨D, d1, d2, d3⟩ := hd.range
  have hb := h.leaves.below d3
  obtain ⟨b1, b2⟩ := hc.below hb h.leaves.between
  have hs := h.leaves.size
  have hs' : maxL ≤ m.all.maxSize := by rw [hc.size, ← hc.cellsLevels.1]; exact hs
  have h0 : (0 : Int) ≤ ((cfg.maxStencilWidth : Int) + cfg.predictionOrder + 1) * 2 ^ maxL := by
    have := pow_two_pos maxL
    positivity
  have hD : D + ((cfg.maxStencilWidth : Int) + cfg.predictionOrder + 1) * 2 ^ maxL + 2 * 2 ^ maxL + 2 < INT_MAX := by
    push_cast at d2
    have : ((cfg.maxStencilWidth : Int) + cfg.predictionOrder + gw + 3) * 2 ^ maxL =
      ((cfg.maxStencilWidth : Int) + cfg.predictionOrder + 1) * 2 ^ maxL + 2 * 2 ^ maxL + (gw : Int) * 2 ^ maxL := by ring
    have : (0 : Int) ≤ (gw : Int) * 2 ^ maxL := by
      have := pow_two_pos maxL
      positivity
    omega
  have e1 : (m.all.lca level).level = level := hc.allLevels _ (by omega)
  have e2 : (m.cells.lca (level + 1)).level = level + 1 := hc.cellsLevels.2 _ (by omega)
  have ha : (Expr.op .inter (.leaf (.mesh (m.all.lca level))) (.leaf (.mesh (m.cells.lca (level + 1))))).Admissible n := by
    refine usable_admissible (M := maxL) (D := D + ((cfg.maxStencilWidth : Int) + cfg.predictionOrder + 1) * 2 ^ maxL) (by omega) hD
      ⟨⟨_, rfl, hc.wf.2.2.2 _ (by omega), by rw [e1]; omega, ?_⟩, ⟨_, rfl, hc.wf.1 _ (by omega), by rw [e2]; omega, ?_⟩⟩
    · intro p hp z hz
      rw [e1]
      exact b1 level p ⟨by omega, hp⟩ z hz
    · intro p hp z hz
      rw [e2]
      have := hb (level + 1) p ⟨by omega, hp⟩ z hz
      omega
  have hf : (Expr.op .inter (.leaf (.mesh (m.all.lca level))) (.leaf (.mesh (m.cells.lca (level + 1))))).finest = level + 1 := by
    show Nat.max (m.all.lca level).level (m.cells.lca (level + 1)).level = level + 1
    rw [e1, e2]
    exact Nat.max_eq_right (by omega)
  obtain ⟨calls, r1, r2, r3⟩ := runSet_ok ha (ref := level) (by omega)
  refine ⟨calls, r1, r2, fun p => (r3 p).trans ?_⟩
  show AtLevel (m.all.lca level).level level (fun q => (m.all.lca level).Mem n q) p ∧
    AtLevel (m.cells.lca (level + 1)).level level (fun q => (m.cells.lca (level + 1)).Mem n q) p ↔ _
  rw [e1, e2, atLevel_self]
  have := atLevel_up (l := level + 1) (by omega) (S := fun q => (m.cells.lca (level + 1)).Mem n q) (p := p)
  rw [show level + 1 - 1 = level by omega] at this
  rw [this]
  constructor
  · rintro ⟨_, q, hq, ha⟩
    exact ⟨q, ⟨by omega, hq⟩, anc_one.1 ha⟩
  · rintro ⟨c, hcm, rfl⟩
    exact ⟨((leafParent_reads h hlt ⟨c, hcm, rfl⟩).1 _ (near_refl _ _)).2, c, hcm.2, anc_one.2 rfl⟩

theorem detailLevel_ok (h : AdaptInv n cfg dom minL maxL m x) {gw : Nat}
    (hd : GoodDomain n dom minL maxL (cfg.maxStencilWidth + cfg.predictionOrder + gw + 3)) (hlt : minL < maxL) (hn : n ≤ 2) (ho : 1 ≤ cfg.predictionOrder)
    (hl : level < maxL) (u dt : Int → K) :
    ∃ dt', detailLevel n cfg.predictionOrder m.cells m.all u dt level = some dt' ∧
      Fills n cfg.predictionOrder m.all u (RowDetails level (LeafParent n m.cells level)) dt dt' := by
  obtain ⟨c0, hc⟩ := h.mesh
  obtain ⟨calls, r1, r2, r3⟩ := detailSet_ok h hd hlt hl
  unfold detailLevel
  rw [r1]
  obtain ⟨dt', a1, a2⟩ := fills_foldlM hc.wf.2.2.2 (mrNumbers hc) (order := cfg.predictionOrder) (u := u)
    (op := detailRow n cfg.predictionOrder m.all level u) (S := fun c => RowDetails level fun p => ∃ x ∈ c.2, p = c.1 ++ [x]) calls (fun c hcc dt => by
      obtain ⟨o1, o2, o3, _⟩ := r2 c hcc
      have hr : ∀ y ∈ c.2, LeafParent n m.cells level (c.1 ++ [y]) := fun y hy => (r3 _).1 ⟨c, hcc, y, hy, rfl⟩
      exact detailRow_ok hc.wf.2.2.2 (mrNumbers hc) hn ho u ⟨o1, o2, o3, fun y hy => (leafParent_reads h hlt (hr y hy)).2.1,
        fun y hy => (leafParent_reads h hlt (hr y hy)).1, fun hl y hy => (leafParent_reads h hlt (hr y hy)).2.2 hl⟩ dt) dt
  refine ⟨dt', a1, a2.congr fun l q => ?_⟩
  unfold RowDetails
  simp only [← r3]
  unfold Covers
  constructor
  · rintro (⟨h1, c, hc, h2⟩ | ⟨h1, h2, c, hc, h3⟩)
    · exact ⟨c, hc, Or.inl ⟨h1, h2⟩⟩
    · exact ⟨c, hc, Or.inr ⟨h1, h2, h3⟩⟩
  · rintro ⟨c, hc, ⟨h1, h2⟩ | ⟨h1, h2, h3⟩⟩
    · exact Or.inl ⟨h1, c, hc, h2⟩
    · exact Or.inr ⟨h1, h2, c, hc, h3⟩

/-- The details computed in a step. -/
theorem computeDetails_ok (h : AdaptInv n cfg dom minL maxL m x) {gw : Nat}
    (hd : GoodDomain n dom minL maxL (cfg.maxStencilWidth + cfg.predictionOrder + gw + 3)) (hlt : minL < maxL) (hn : n ≤ 2) (ho : 1 ≤ cfg.predictionOrder)
    (ite : Nat) (u : Int → K) :
    ∃ dt, computeDetails n cfg.predictionOrder minL maxL ite m.cells m.all u = some dt ∧
      Fills n cfg.predictionOrder m.all u (fun l q => ∃ level, (minL - 1 ≤ level ∧ level < maxL - ite) ∧ RowDetails level (LeafParent n m.cells level) l q)
        (fun _ => 0) dt := by
  obtain ⟨c0, hc⟩ := h.mesh
  unfold computeDetails
  obtain ⟨dt, a1, a2⟩ := fills_foldlM hc.wf.2.2.2 (mrNumbers hc) (order := cfg.predictionOrder) (u := u)
    (op := detailLevel n cfg.predictionOrder m.cells m.all u) (S := fun level => RowDetails level (LeafParent n m.cells level))
    (List.range' (minL - 1) (maxL - ite - (minL - 1))) (fun level hl dt => by
      rw [List.mem_range'_1] at hl
      exact detailLevel_ok h hd hlt hn ho (by omega) u dt) fun _ => 0
  refine ⟨dt, a1, a2.congr fun l q => ?_⟩
  constructor
  · rintro ⟨level, h1, h2⟩
    exact ⟨level, List.mem_range'_1.2 (by omega), h2⟩
  · rintro ⟨level, h1, h2⟩
    rw [List.mem_range'_1] at h1
    exact ⟨level, by omega, h2⟩

end

end Samurai

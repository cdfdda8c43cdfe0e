import Verif.Model.GhostUpdate
import Verif.Lemmas.BcAdapted

namespace Samurai

/-! ### points -/

theorem ofPt_length (dim : Nat) (q : Pt) : (ofPt dim q).length = dim := by simp [ofPt]

theorem toPt_ofPt {dim : Nat} (q : Pt) {d : Nat} (hd : d < dim) : toPt (ofPt dim q) d = q d := by
  unfold toPt ofPt
  rw [List.reverse_reverse, List.getD_eq_getElem?_getD, List.getElem?_eq_getElem (by simpa using hd)]
  simp

theorem ofPt_congr {dim : Nat} {q q' : Pt} (h : ∀ d < dim, q d = q' d) : ofPt dim q = ofPt dim q' := by
  unfold ofPt
  congr 1
  exact List.map_congr_left fun d hd => h d (List.mem_range.1 hd)

theorem ofPt_snoc (n : Nat) (q : Pt) : ofPt (n + 1) q = (ofPt (n + 1) q).dropLast ++ [q 0] := by
  unfold ofPt
  rw [List.range_succ_eq_map, List.map_cons, List.reverse_cons]
  simp

theorem ofPt_row (n : Nat) (q : Pt) (y : Int) : (ofPt (n + 1) q).dropLast ++ [y] = ofPt (n + 1) fun d => if d = 0 then y else q d := by
  unfold ofPt
  rw [List.range_succ_eq_map]
  simp only [List.map_cons, List.reverse_cons, List.map_map, List.dropLast_concat]
  congr 2

theorem toPt_snoc_zero (yz : List Int) (x : Int) : toPt (yz ++ [x]) 0 = x := by simp [toPt]

theorem toPt_snoc_succ (yz : List Int) (x y : Int) {d : Nat} (hd : d ≠ 0) : toPt (yz ++ [x]) d = toPt (yz ++ [y]) d := by
  obtain ⟨k, rfl⟩ : ∃ k, d = k + 1 := ⟨d - 1, by omega⟩
  simp [toPt]

theorem mem_offsetsFrom {n : Nat} {lo : Int} {k : Nat} {s : Nat → Int} :
    s ∈ offsetsFrom n lo k ↔ (∀ d ≤ n, lo ≤ s d ∧ s d < lo + k) ∧ ∀ d, n < d → s d = 0 := by
  unfold offsetsFrom
  rw [List.mem_map]
  constructor
  · rintro ⟨st, hst, rfl⟩
    obtain ⟨h1, h2⟩ := mem_nestedIndices.1 hst
    refine ⟨fun d hd => ?_, fun d hd => if_neg (by omega)⟩
    simp only [if_pos hd]
    rw [List.getD_eq_getElem?_getD, List.getElem?_eq_getElem (by rw [List.length_reverse]; omega)]
    have := h2 _ (List.mem_reverse.1 (List.getElem_mem (l := st.reverse) (n := d) (by rw [List.length_reverse]; omega)))
    simp only [Option.getD_some]
    omega
  · rintro ⟨h1, h2⟩
    refine ⟨ofPt (n + 1) fun d => s d - lo, mem_nestedIndices.2 ⟨ofPt_length _ _, fun x hx => ?_⟩, ?_⟩
    · obtain ⟨d, hd, rfl⟩ := mem_toPt (ofPt_length _ _) hx
      rw [toPt_ofPt _ (by omega)]
      have := h1 d hd
      omega
    · funext d
      by_cases hd : d ≤ n
      · simp only [if_pos hd]
        have := toPt_ofPt (dim := n + 1) (fun d => s d - lo) (d := d) (by omega)
        unfold toPt at this
        rw [this]; omega
      · simp only [if_neg hd]
        rw [h2 d (by omega)]

/-! ### operators -/

section
variable {K : Type} [Field K]

theorem project_congr {n : Nat} {f f' : Pt → K} {p : Pt} (hp : ∀ d, n < d → p d = 0)
    (h : ∀ s ∈ offsetsFrom n 0 2, f (fun d => 2 * p d + s d) = f' fun d => 2 * p d + s d) : project (n + 1) f p = project (n + 1) f' p := by
  have key : ∀ a : Nat → Bool, (∀ d, n < d → a d = false) → f (childPt p a) = f' (childPt p a) := by
    intro a ha
    refine h (fun d => if a d then 1 else 0) (mem_offsetsFrom.2 ⟨fun d _ => ?_, fun d hd => ?_⟩)
    · split <;> omega
    · rw [ha d hd]; rfl
  match n with
  | 0 =>
    simp only [project]
    rw [key _ fun d hd => ?_, key _ fun d hd => ?_]
    all_goals
      obtain ⟨d, rfl⟩ : ∃ e, d = e + 1 := ⟨d - 1, by omega⟩
      simp
  | 1 =>
    simp only [project]
    rw [key _ fun d hd => ?_, key _ fun d hd => ?_, key _ fun d hd => ?_, key _ fun d hd => ?_]
    all_goals
      obtain ⟨d, rfl⟩ : ∃ e, d = e + 2 := ⟨d - 2, by omega⟩
      simp
  | n + 2 =>
    simp only [project]
    rw [key _ fun d hd => ?_, key _ fun d hd => ?_, key _ fun d hd => ?_, key _ fun d hd => ?_, key _ fun d hd => ?_, key _ fun d hd => ?_,
      key _ fun d hd => ?_, key _ fun d hd => ?_]
    all_goals
      obtain ⟨d, rfl⟩ : ∃ e, d = e + 3 := ⟨d - 3, by omega⟩
      simp

/-- Two expressions that agree on the points within `S` of `p` in the direction `d`. -/
theorem qsFrom_local (c : List K) (S d : Nat) {e e' : QsExpr K} {p : Pt} (h : ∀ s, ∀ t : Int, - (S : Int) ≤ t → t ≤ S → e s (move p d t) = e' s (move p d t)) :
    ∀ k, qsFrom c S d e k p = qsFrom c S d e' k p := by
  intro k
  induction k with
  | zero => unfold qsFrom; rw [h _ _ (by omega) (by omega), h _ _ (by omega) (by omega)]
  | succ k ih =>
    unfold qsFrom
    simp only []
    rw [h _ _ (by omega) (by omega), h _ _ (by omega) (by omega), ih]

theorem predictFine_congr {n order : Nat} {f f' : Pt → K} {q : Pt}
    (h : ∀ s ∈ offsetsFrom n (-(order : Int)) (2 * order + 1), f (fun d => parentPt q d + s d) = f' fun d => parentPt q d + s d) :
    predictFine (n + 1) order f q = predictFine (n + 1) order f' q := by
  have key : ∀ r : Pt, (∀ d ≤ n, parentPt q d - order ≤ r d ∧ r d ≤ parentPt q d + order) → (∀ d, n < d → r d = parentPt q d) → f r = f' r := by
    intro r h1 h2
    have := h (fun d => r d - parentPt q d) (mem_offsetsFrom.2 ⟨fun d hd => ?_, fun d hd => ?_⟩)
    · simpa using this
    · have := h1 d hd
      push_cast
      omega
    · rw [h2 d hd]; omega
  have mv : ∀ (r : Pt) (e : Nat) (t : Int) (d : Nat), move r e t d = if d = e then r d + t else r d := fun _ _ _ _ => rfl
  have k0 : f (parentPt q) = f' (parentPt q) := key _ (fun d _ => by omega) fun d _ => rfl
  have k1 : ∀ e, e ≤ n → Qs order e f (parentPt q) = Qs order e f' (parentPt q) := by
    intro e he
    unfold Qs qsOp
    refine qsFrom_local _ _ _ (fun s t t1 t2 => key _ (fun d hd => ?_) fun d hd => ?_) _
    · rw [mv]; split <;> omega
    · rw [mv, if_neg (by omega)]
  have k2 : ∀ e e', e ≤ n → e' ≤ n → e ≠ e' → Qs2 order e e' f (parentPt q) = Qs2 order e e' f' (parentPt q) := by
    intro e e' he he' hne
    unfold Qs2 qsOp
    refine qsFrom_local _ _ _ (fun s t t1 t2 => ?_) _
    refine qsFrom_local _ _ _ (fun s' t' t1' t2' => key _ (fun d hd => ?_) fun d hd => ?_) _
    · rw [mv, mv]; split <;> split <;> omega
    · rw [mv, mv, if_neg (by omega), if_neg (by omega)]
  have k3 : 2 ≤ n → Qs3 order f (parentPt q) = Qs3 order f' (parentPt q) := by
    intro hn
    unfold Qs3 qsOp
    refine qsFrom_local _ _ _ (fun s t t1 t2 => ?_) _
    refine qsFrom_local _ _ _ (fun s' t' t1' t2' => ?_) _
    refine qsFrom_local _ _ _ (fun s'' t'' t1'' t2'' => key _ (fun d hd => ?_) fun d hd => ?_) _
    · rw [mv, mv, mv]
      by_cases d0 : d = 0
      · simp [d0]; subst d0; omega
      by_cases d1 : d = 1
      · simp [d1]; subst d1; omega
      by_cases d2 : d = 2
      · simp [d2]; subst d2; omega
      simp [d0, d1, d2]
    · rw [mv, mv, mv, if_neg (by omega), if_neg (by omega), if_neg (by omega)]
  unfold predictFine
  simp only []
  rw [k0]
  split
  · rfl
  · match n with
    | 0 => simp only []; rw [k1 0 (by omega)]
    | 1 => simp only []; rw [k1 0 (by omega), k1 1 (by omega), k2 0 1 (by omega) (by omega) (by omega)]
    | n + 2 =>
      rw [k1 0 (by omega), k1 1 (by omega), k1 2 (by omega), k2 0 1 (by omega) (by omega) (by omega), k2 0 2 (by omega) (by omega) (by omega),
        k2 1 2 (by omega) (by omega) (by omega), k3 (by omega)]

end

/-! ### rows -/

section
variable {n : Nat} {ref : CA} {l : Nat}

theorem fieldInterval_ok (hw : ref.WF n) {yz : List Int} {I : Interval} (hv : I.start ≤ I.stop - I.step)
    (hI : ∀ y, I.start ≤ y → y ≤ I.stop - I.step → ref.Mem n l (yz ++ [y])) :
    ∃ r, fieldInterval n ref l yz I = some r ∧ ∀ y, I.start ≤ y → y ≤ I.stop - I.step → numOf n ref l (yz ++ [y]) = r.index + y := by
  have hl := (hI I.start le_rfl hv).1
  obtain ⟨r, hr, hin⟩ := same_interval (hw l hl) (yz := yz) (i := Interval.mk' I.start (I.stop - I.step + 1)) (fun x hx => (hI x (by
    have := Interval.mem_def.1 hx; exact this.1) (by have := Interval.mem_def.1 hx; simp only [Interval.mk'] at this; omega)).2) (by simp only [Interval.mk']; omega)
  have hin' : ∀ y, I.start ≤ y → y ≤ I.stop - I.step → y ∈ r := fun y h1 h2 => hin y (Interval.mem_def.2 ⟨h1, by simp only [Interval.mk']; omega⟩)
  refine ⟨r, ?_, fun y h1 h2 => ?_⟩
  · unfold fieldInterval
    rw [getInterval_row (hw l hl) hr (hin' _ le_rfl hv)]
    simp only []
    have h1 := Interval.mem_def.1 (hin' _ le_rfl hv)
    have h2 := Interval.mem_def.1 (hin' _ hv le_rfl)
    rw [if_neg (by omega)]
  · have := num_get (hw l hl) (v := r.index + y) ⟨r, hr, hin' y h1 h2, rfl⟩
    unfold numOf
    simp [this]

variable {K : Type} [Field K]

omit [Field K] in
theorem readView_ok (hw : ref.WF n) (u : Int → K) {I : Interval} {x0 : Int} {q : Pt} (h0 : I.start ≤ x0) (h1 : x0 ≤ I.stop - I.step)
    (hI : ∀ y, I.start + (q 0 - x0) ≤ y → y ≤ I.stop + (q 0 - x0) - I.step → ref.Mem n l ((ofPt (n + 1) q).dropLast ++ [y])) :
    readView n ref l u I x0 q = some (u (numOf n ref l (ofPt (n + 1) q))) := by
  obtain ⟨r, h2, h3⟩ := fieldInterval_ok (l := l) hw (yz := (ofPt (n + 1) q).dropLast) (I := I.addRight (q 0 - x0))
    (by simp only [Interval.addRight, Interval.addAssign]; omega) (by simpa only [Interval.addRight, Interval.addAssign] using hI)
  unfold readView
  rw [h2]
  have := h3 (q 0) (by simp only [Interval.addRight, Interval.addAssign]; omega) (by simp only [Interval.addRight, Interval.addAssign]; omega)
  rw [← ofPt_snoc] at this
  rw [this]
  rfl

omit [Field K] in
theorem writeRow_ok (hw : ref.WF n) {yz : List Int} {i : Interval} (hv : i.start < i.stop) (hs : i.step = 1)
    (hi : ∀ x ∈ i, ref.Mem n l (yz ++ [x])) (values : Int → K) (u : Int → K) :
    ∃ u', writeRow n ref l yz i values u = some u' ∧ (∀ idx, (∀ x ∈ i, idx ≠ numOf n ref l (yz ++ [x])) → u' idx = u idx) ∧
      ∀ x ∈ i, u' (numOf n ref l (yz ++ [x])) = values x := by
  obtain ⟨r, h2, h3⟩ := fieldInterval_ok (l := l) hw (yz := yz) (I := i) (by omega) (fun y h1 h2 => hi y (Interval.mem_def.2 ⟨h1, by omega⟩))
  unfold writeRow
  rw [h2]
  refine ⟨_, rfl, fun idx hne => ?_, fun x hx => ?_⟩
  · refine if_neg fun h => hne (idx - r.index) (Interval.mem_def.2 ⟨by omega, by omega⟩) ?_
    rw [h3 _ (by omega) (by omega)]; omega
  · have hx := Interval.mem_def.1 hx
    rw [h3 x (by omega) (by omega)]
    show (if r.index + i.start ≤ r.index + x ∧ r.index + x < r.index + i.stop then values (r.index + x - r.index) else _) = _
    rw [if_pos ⟨by omega, by omega⟩, show r.index + x - r.index = x by omega]

/-- One row: the values are those of the operator applied to the field before. -/
theorem rowOp_ok (hw : ref.WF n) {l' : Nat} {read : (Int → K) → Int → Pt → Option K} {need : Int → List Pt} {F : (Pt → K) → Pt → K} {u : Int → K}
    {c : Call} (hv : c.2.start < c.2.stop) (hs : c.2.step = 1) (hi : ∀ x ∈ c.2, ref.Mem n l (c.1 ++ [x]))
    (hread : ∀ x ∈ c.2, ∀ q ∈ need x, read u x q = some (u (numOf n ref l' (ofPt (n + 1) q))))
    (hF : ∀ x ∈ c.2, ∀ f f' : Pt → K, (∀ q ∈ need x, f q = f' q) → F f (toPt (c.1 ++ [x])) = F f' (toPt (c.1 ++ [x]))) :
    ∃ u', rowOp n ref l read need F u c = some u' ∧ (∀ idx, (∀ x ∈ c.2, idx ≠ numOf n ref l (c.1 ++ [x])) → u' idx = u idx) ∧
      ∀ x ∈ c.2, u' (numOf n ref l (c.1 ++ [x])) = F (fun q => u (numOf n ref l' (ofPt (n + 1) q))) (toPt (c.1 ++ [x])) := by
  have h0 : c.2.start ∈ c.2 := Interval.mem_def.2 ⟨le_rfl, hv⟩
  unfold rowOp
  rw [if_pos (List.all_eq_true.2 fun q hq => by rw [hread _ h0 q hq]; rfl)]
  obtain ⟨u', h1, h2, h3⟩ := writeRow_ok hw hv hs hi (fun x => F (fun q => (read u x q).getD 0) (toPt (c.1 ++ [x]))) u
  refine ⟨u', h1, h2, fun x hx => ?_⟩
  rw [h3 x hx]
  exact hF x hx _ _ fun q hq => by rw [hread x hx q hq]; rfl

omit [Field K] in
/-- Several rows: no cell read is written. -/
theorem rows_ok {l' : Nat} {op : (Int → K) → Call → Option (Int → K)} {need : List Int → List Pt} {F : (Pt → K) → Pt → K}
    (hF : ∀ p, p.length = n + 1 → ∀ f f' : Pt → K, (∀ q ∈ need p, f q = f' q) → F f (toPt p) = F f' (toPt p)) :
    ∀ (calls : List Call), (∀ c ∈ calls, ∀ x ∈ c.2, c.1.length = n) →
    (∀ c ∈ calls, ∀ u : Int → K, ∃ u', op u c = some u' ∧ (∀ idx, (∀ x ∈ c.2, idx ≠ numOf n ref l (c.1 ++ [x])) → u' idx = u idx) ∧
      ∀ x ∈ c.2, u' (numOf n ref l (c.1 ++ [x])) = F (fun q => u (numOf n ref l' (ofPt (n + 1) q))) (toPt (c.1 ++ [x]))) →
    (∀ p p', Covers calls p → Covers calls p' → ∀ q ∈ need p, numOf n ref l' (ofPt (n + 1) q) ≠ numOf n ref l p') →
    (∀ p p', Covers calls p → Covers calls p' → numOf n ref l p = numOf n ref l p' → p = p') →
    ∀ u : Int → K, ∃ u', calls.foldlM op u = some u' ∧ (∀ idx, (∀ p, Covers calls p → idx ≠ numOf n ref l p) → u' idx = u idx) ∧
      ∀ p, Covers calls p → u' (numOf n ref l p) = F (fun q => u (numOf n ref l' (ofPt (n + 1) q))) (toPt p) := by
  intro calls
  induction calls with
  | nil =>
    intro _ _ _ _ u
    refine ⟨u, rfl, fun _ _ => rfl, ?_⟩
    rintro p ⟨c, hc, _⟩
    simp at hc
  | cons c calls ih =>
    intro hlen hop hdis hinj u
    obtain ⟨u1, a1, a2, a3⟩ := hop c List.mem_cons_self u
    have tail : ∀ {p}, Covers calls p → Covers (c :: calls) p := fun ⟨e, he, r⟩ => ⟨e, List.mem_cons_of_mem _ he, r⟩
    have head : ∀ {x}, x ∈ c.2 → Covers (c :: calls) (c.1 ++ [x]) := fun {x} hx => ⟨c, List.mem_cons_self, x, hx, rfl⟩
    obtain ⟨u', b1, b2, b3⟩ := ih (fun e he => hlen e (List.mem_cons_of_mem _ he)) (fun e he => hop e (List.mem_cons_of_mem _ he))
      (fun p p' hp hp' => hdis p p' (tail hp) (tail hp')) (fun p p' hp hp' => hinj p p' (tail hp) (tail hp')) u1
    refine ⟨u', by rw [List.foldlM_cons, a1]; exact b1, fun idx hne => ?_, fun p hp => ?_⟩
    · rw [b2 idx fun p hp => hne p (tail hp), a2 idx fun x hx => hne _ (head hx)]
    · by_cases hc : Covers calls p
      · rw [b3 p hc]
        refine hF p ?_ _ _ fun q hq => a2 _ fun x hx => hdis p _ hp (head hx) q hq
        obtain ⟨e, he, x, hx, rfl⟩ := hc
        simp [hlen e (List.mem_cons_of_mem _ he) x hx]
      · obtain ⟨e, he, x, hx, rfl⟩ := hp
        rcases List.mem_cons.1 he with rfl | he
        · by_cases hne : ∀ p', Covers calls p' → numOf n ref l (e.1 ++ [x]) ≠ numOf n ref l p'
          · rw [b2 _ hne, a3 x hx]
          · push Not at hne
            obtain ⟨p', hp', heq⟩ := hne
            rw [hinj _ _ (head hx) (tail hp') heq] at hc
            exact absurd hp' hc
        · exact absurd ⟨e, he, x, hx, rfl⟩ hc

end

end Samurai

import Verif.Lemmas.GhostRow

namespace Samurai

section
variable {n : Nat} {ref : CA} {l : Nat} {K : Type} [Field K]

theorem toPt_zero {n : Nat} {p : List Int} (hp : p.length = n + 1) {d : Nat} (hd : n < d) : toPt p d = 0 := by
  unfold toPt
  rw [List.getD_eq_getElem?_getD, List.getElem?_eq_none (by rw [List.length_reverse]; omega)]
  rfl

theorem numOf_level (hw : ref.WF n) (hd : ref.NumbersDiffer n) {l l' : Nat} {p q : List Int} (hp : ref.Mem n l p) (hq : ref.Mem n l' q)
    (h : numOf n ref l p = numOf n ref l' q) : l = l' ∧ p = q := by
  have h1 := numOf_numbered hw hp
  have h2 := numOf_numbered hw hq
  rw [h] at h1
  exact number_inj hd h1 h2

/-- A pass of an operator on the rows of a set: `need p` are the cells of level `l'` read for the cell `p`. -/
theorem pass_rows (hw : ref.WF n) (hd : ref.NumbersDiffer n) {l' : Nat} {op : (Int → K) → Call → Option (Int → K)} {need : List Int → List Pt}
    {F : (Pt → K) → Pt → K} {calls : List Call} (hok : OkCalls n calls) (hmem : ∀ p, Covers calls p → ref.Mem n l p)
    (hneed : ∀ p, Covers calls p → ∀ q ∈ need p, ref.Mem n l' (ofPt (n + 1) q) ∧ ¬ (l' = l ∧ Covers calls (ofPt (n + 1) q)))
    (hF : ∀ p, p.length = n + 1 → ∀ f f' : Pt → K, (∀ q ∈ need p, f q = f' q) → F f (toPt p) = F f' (toPt p))
    (hop : ∀ c ∈ calls, ∃ rd nd, (∀ u, op u c = rowOp n ref l rd nd F u c) ∧ (∀ x, nd x = need (c.1 ++ [x])) ∧
      ∀ u : Int → K, ∀ x ∈ c.2, ∀ q ∈ need (c.1 ++ [x]), rd u x q = some (u (numOf n ref l' (ofPt (n + 1) q)))) (u : Int → K) :
    ∃ u', calls.foldlM op u = some u' ∧ Keeps n ref l (Covers calls) u u' ∧
      ∀ p, Covers calls p → u' (numOf n ref l p) = F (fun q => u (numOf n ref l' (ofPt (n + 1) q))) (toPt p) := by
  have hstep : ∀ c ∈ calls, ∀ u : Int → K, ∃ u', op u c = some u' ∧ (∀ idx, (∀ x ∈ c.2, idx ≠ numOf n ref l (c.1 ++ [x])) → u' idx = u idx) ∧
      ∀ x ∈ c.2, u' (numOf n ref l (c.1 ++ [x])) = F (fun q => u (numOf n ref l' (ofPt (n + 1) q))) (toPt (c.1 ++ [x])) := by
    intro c hc u
    obtain ⟨rd, nd, e1, e2, e3⟩ := hop c hc
    obtain ⟨o1, o2, o3, _⟩ := hok c hc
    obtain ⟨u', h1, h2, h3⟩ := rowOp_ok (n := n) (ref := ref) (l := l) (l' := l') (read := rd) (need := nd) (F := F) (u := u) (c := c) hw o2 o3
      (fun x hx => hmem _ ⟨c, hc, x, hx, rfl⟩) (fun x hx q hq => e3 u x hx q (by rw [← e2]; exact hq))
      (fun x hx f f' h => hF _ (by simp [o1]) f f' fun q hq => h q (by rw [e2]; exact hq))
    exact ⟨u', by rw [e1]; exact h1, h2, h3⟩
  have hdis : ∀ p p', Covers calls p → Covers calls p' → ∀ q ∈ need p, numOf n ref l' (ofPt (n + 1) q) ≠ numOf n ref l p' := by
    intro p p' hp hp' q hq he
    obtain ⟨h1, h2⟩ := hneed p hp q hq
    obtain ⟨h3, h4⟩ := numOf_level hw hd h1 (hmem p' hp') he
    exact h2 ⟨h3, by rw [h4]; exact hp'⟩
  obtain ⟨u', h1, h2, h3⟩ := rows_ok (n := n) (ref := ref) (l := l) (l' := l') (op := op) hF calls (fun c hc _ _ => (hok c hc).1) hstep hdis
    (fun p p' hp hp' he => (numOf_level hw hd (hmem p hp) (hmem p' hp') he).2) u
  exact ⟨u', h1, fun idx hi => h2 idx fun p hp => hi p (hmem p hp) hp, h3⟩

/-- The projection on a set of cells whose children are in the mesh. -/
theorem projectRows_ok (hw : ref.WF n) (hd : ref.NumbersDiffer n) {calls : List Call} (hok : OkCalls n calls)
    (hmem : ∀ p, Covers calls p → ref.Mem n l p) (hch : ∀ p, Covers calls p → ∀ q, (q.map fun y => shr y 1) = p → ref.Mem n (l + 1) q) (u : Int → K) :
    ∃ u', calls.foldlM (projectRow n ref l) u = some u' ∧ Keeps n ref l (Covers calls) u u' ∧
      ∀ p, Covers calls p → u' (numOf n ref l p) = project (n + 1) (fun q => u (numOf n ref (l + 1) (ofPt (n + 1) q))) (toPt p) := by
  have hlen : ∀ p, Covers calls p → p.length = n + 1 := fun p hp => mem_length (hmem p hp).2
  have child : ∀ p, Covers calls p → ∀ r : Pt, (∀ d ≤ n, 2 * toPt p d ≤ r d ∧ r d < 2 * toPt p d + 2) → ref.Mem n (l + 1) (ofPt (n + 1) r) := by
    intro p hp r hr
    refine hch p hp _ (toPt_ext (n := n + 1) (by simp [ofPt_length]) (hlen p hp) fun d hd => ?_)
    rw [toPt_half (ofPt_length _ _) (by omega), toPt_ofPt _ hd]
    have := hr d (by omega)
    omega
  refine pass_rows hw hd (l' := l + 1) (need := fun p => (offsetsFrom n 0 2).map fun s d => 2 * toPt p d + s d) hok hmem ?_ ?_ ?_ u
  · rintro p hp q hq
    obtain ⟨s, hs, rfl⟩ := List.mem_map.1 hq
    refine ⟨child p hp _ fun d hd => ?_, fun h => by omega⟩
    have := (mem_offsetsFrom.1 hs).1 d hd
    omega
  · intro p hp f f' h
    refine project_congr (fun d hd => toPt_zero hp hd) fun s hs => h _ (List.mem_map.2 ⟨s, hs, rfl⟩)
  · intro c hc
    obtain ⟨o1, o2, o3, _⟩ := hok c hc
    refine ⟨_, _, fun u => rfl, fun x => rfl, ?_⟩
    intro u x hx q hq
    obtain ⟨s, hs, rfl⟩ := List.mem_map.1 hq
    have hx' := Interval.mem_def.1 hx
    have hs' := (mem_offsetsFrom.1 hs).1
    have s0 := hs' 0 (by omega)
    simp only [Interval.mul]
    refine readView_ok hw u (by simp only [] ; omega) (by simp only [o3]; omega) fun y h1 h2 => ?_
    simp only [toPt_snoc_zero, o3] at h1 h2
    rw [ofPt_row]
    refine child (c.1 ++ [y / 2]) ⟨c, hc, y / 2, Interval.mem_def.2 ⟨by omega, by omega⟩, rfl⟩ _ fun d hd => ?_
    by_cases h0 : d = 0
    · subst h0
      rw [toPt_snoc_zero, if_pos rfl]
      omega
    · rw [if_neg h0, toPt_snoc_succ _ x (y / 2) h0]
      have := hs' d hd
      omega

/-- The prediction on a set of cells. -/
theorem predictRows_ok (hw : ref.WF n) (hd : ref.NumbersDiffer n) {order : Nat} {calls : List Call} (hok : OkCalls n calls) (hl : 1 ≤ l)
    (hmem : ∀ p, Covers calls p → ref.Mem n l p)
    (hnear : ∀ p, Covers calls p → ∀ q, Near order q (p.map fun y => shr y 1) → ref.Mem n (l - 1) q) (u : Int → K) :
    ∃ u', calls.foldlM (predictRow n order ref l) u = some u' ∧ Keeps n ref l (Covers calls) u u' ∧
      ∀ p, Covers calls p → u' (numOf n ref l p) = predictFine (n + 1) order (fun q => u (numOf n ref (l - 1) (ofPt (n + 1) q))) (toPt p) := by
  have hlen : ∀ p, Covers calls p → p.length = n + 1 := fun p hp => mem_length (hmem p hp).2
  have near : ∀ p, Covers calls p → ∀ r : Pt, (∀ d ≤ n, r d ≤ toPt p d / 2 + order ∧ toPt p d / 2 ≤ r d + order) → ref.Mem n (l - 1) (ofPt (n + 1) r) := by
    intro p hp r hr
    refine hnear p hp _ ((near_iff_toPt (ofPt_length _ _) (by simpa using hlen p hp)).2 fun d hd => ?_)
    rw [toPt_half (hlen p hp) (by omega), toPt_ofPt _ (by omega)]
    exact hr d hd
  have hpar : ∀ (p : List Int) d, parentPt (toPt p) d = toPt p d / 2 := fun p d => shr_one_eq _
  refine pass_rows hw hd (l' := l - 1)
    (need := fun p => (offsetsFrom n (-(order : Int)) (2 * order + 1)).map fun s d => parentPt (toPt p) d + s d) hok hmem ?_ ?_ ?_ u
  · rintro p hp q hq
    obtain ⟨s, hs, rfl⟩ := List.mem_map.1 hq
    refine ⟨near p hp _ fun d hd => ?_, fun h => by omega⟩
    have := (mem_offsetsFrom.1 hs).1 d hd
    rw [hpar]
    push_cast at this
    omega
  · intro p hp f f' h
    exact predictFine_congr fun s hs => h _ (List.mem_map.2 ⟨s, hs, rfl⟩)
  · intro c hc
    obtain ⟨o1, o2, o3, _⟩ := hok c hc
    refine ⟨_, _, fun u => rfl, fun x => rfl, ?_⟩
    intro u x hx q hq
    obtain ⟨s, hs, rfl⟩ := List.mem_map.1 hq
    have hx' := Interval.mem_def.1 hx
    have hs' := (mem_offsetsFrom.1 hs).1
    have s0 := hs' 0 (by omega)
    push_cast at s0
    refine readView_ok hw u ?_ ?_ fun y h1 h2 => ?_
    · simp only [Interval.shiftRight, shr_one_eq]; omega
    · simp only [Interval.shiftRight, shr_one_eq]; omega
    simp only [Interval.shiftRight, hpar, shr_one_eq, toPt_snoc_zero] at h1 h2
    rw [ofPt_row]
    obtain ⟨x', g1, g2, g3⟩ : ∃ x', c.2.start ≤ x' ∧ x' < c.2.stop ∧ x' / 2 = y - s 0 := by
      by_cases hc : 2 * (y - s 0) < c.2.start
      · exact ⟨c.2.start, by omega, by omega, by omega⟩
      · exact ⟨2 * (y - s 0), by omega, by omega, by omega⟩
    refine near (c.1 ++ [x']) ⟨c, hc, x', Interval.mem_def.2 ⟨g1, g2⟩, rfl⟩ _ fun d hd => ?_
    by_cases h0 : d = 0
    · subst h0
      rw [toPt_snoc_zero, if_pos rfl]
      omega
    · rw [if_neg h0, hpar, toPt_snoc_succ _ x x' h0]
      have := hs' d hd
      push_cast at this
      omega

/-- The copy of cells shifted by a vector. -/
theorem shiftRows_ok (hw : ref.WF n) (hd : ref.NumbersDiffer n) {v : Nat → Int} {calls : List Call} (hok : OkCalls n calls)
    (hmem : ∀ p, Covers calls p → ref.Mem n l p)
    (hsh : ∀ p, Covers calls p → ref.Mem n l (shiftPoint v n p) ∧ ¬ Covers calls (shiftPoint v n p)) (u : Int → K) :
    ∃ u', calls.foldlM (shiftRow n ref l v) u = some u' ∧ Keeps n ref l (Covers calls) u u' ∧
      ∀ p, Covers calls p → u' (numOf n ref l p) = u (numOf n ref l (shiftPoint v n p)) := by
  have hlen : ∀ p, Covers calls p → p.length = n + 1 := fun p hp => mem_length (hmem p hp).2
  have hpt : ∀ p, p.length = n + 1 → ofPt (n + 1) (fun d => toPt p d + v d) = shiftPoint v n p := by
    intro p hp
    refine toPt_ext (n := n + 1) (ofPt_length _ _) (by rw [shift_length, hp]) fun d hd => ?_
    rw [toPt_ofPt _ hd, toPt_shift hp (by omega)]
  have key : ∃ u', calls.foldlM (shiftRow n ref l v) u = some u' ∧ Keeps n ref l (Covers calls) u u' ∧
      ∀ p, Covers calls p → u' (numOf n ref l p) =
        (fun (f : Pt → K) (p : Pt) => f fun d => p d + v d) (fun q => u (numOf n ref l (ofPt (n + 1) q))) (toPt p) := by
    refine pass_rows hw hd (l := l) (l' := l) (op := shiftRow n ref l v) (need := fun p => [fun d => toPt p d + v d])
      (F := fun f p => f fun d => p d + v d) hok hmem ?_ ?_ ?_ u
    · rintro p hp q hq
      rw [List.mem_singleton] at hq
      subst hq
      rw [hpt p (hlen p hp)]
      exact ⟨(hsh p hp).1, fun h => (hsh p hp).2 h.2⟩
    · intro p hp f f' h
      exact h _ (List.mem_singleton.2 rfl)
    · intro c hc
      obtain ⟨o1, o2, o3, _⟩ := hok c hc
      refine ⟨_, _, fun u => rfl, fun x => rfl, ?_⟩
      intro u x hx q hq
      rw [List.mem_singleton] at hq
      subst hq
      have hx' := Interval.mem_def.1 hx
      refine readView_ok hw u hx'.1 (by omega) fun y h1 h2 => ?_
      simp only [toPt_snoc_zero, o3] at h1 h2
      rw [ofPt_row]
      have hcov : Covers calls (c.1 ++ [y - v 0]) := ⟨c, hc, y - v 0, Interval.mem_def.2 ⟨by omega, by omega⟩, rfl⟩
      have := (hsh _ hcov).1
      rw [← hpt _ (by simp [o1])] at this
      rw [ofPt_congr (q' := fun d => toPt (c.1 ++ [y - v 0]) d + v d) fun d _ => ?_]
      · exact this
      · by_cases h0 : d = 0
        · subst h0
          rw [if_pos rfl, toPt_snoc_zero]; omega
        · simp only [if_neg h0]
          rw [toPt_snoc_succ _ x (y - v 0) h0]
  obtain ⟨u', h1, h2, h3⟩ := key
  refine ⟨u', h1, h2, fun p hp => ?_⟩
  rw [h3 p hp]
  show u (numOf n ref l (ofPt (n + 1) fun d => toPt p d + v d)) = _
  rw [hpt p (hlen p hp)]

end

end Samurai

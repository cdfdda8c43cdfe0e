/-
The interfaces on one side of a leaf.
-/
import Verif.Lemmas.LinUnique

namespace Samurai

/-! ### moves along an axis -/

/-- A Cartesian direction or its opposite. -/
def AxisStep (n : Nat) (v : Nat → Int) : Prop := ∃ d ≤ n, v = unitDir d ∨ v = fun k => - unitDir d k

theorem AxisStep.neg {n : Nat} {v : Nat → Int} (h : AxisStep n v) : AxisStep n fun k => - v k := by
  obtain ⟨d, hd, rfl | rfl⟩ := h
  · exact ⟨d, hd, Or.inr rfl⟩
  · exact ⟨d, hd, Or.inl (by funext k; simp)⟩

theorem AxisStep.small {n : Nat} {v : Nat → Int} (h : AxisStep n v) (k : Nat) : -1 ≤ v k ∧ v k ≤ 1 := by
  obtain ⟨d, -, rfl | rfl⟩ := h <;> simp only [unitDir] <;> split <;> omega

theorem AxisStep.only {n : Nat} {v : Nat → Int} (h : AxisStep n v) : ∃ d ≤ n, (v d = 1 ∨ v d = -1) ∧ ∀ k, k ≠ d → v k = 0 := by
  obtain ⟨d, hd, rfl | rfl⟩ := h
  · exact ⟨d, hd, Or.inl (by simp [unitDir]), fun k hk => by simp [unitDir, hk]⟩
  · exact ⟨d, hd, Or.inr (by simp [unitDir]), fun k hk => by simp [unitDir, hk]⟩

theorem shift_back {n : Nat} (v : Nat → Int) (p : List Int) : shiftPoint (fun k => - v k) n (shiftPoint v n p) = p := by
  rw [shift_shift, shift_congr (t := fun _ => 0) p n (fun k _ => by simp), shift_zero]

theorem shift_forth {n : Nat} (v : Nat → Int) (p : List Int) : shiftPoint v n (shiftPoint (fun k => - v k) n p) = p := by
  rw [shift_shift, shift_congr (t := fun _ => 0) p n (fun k _ => by simp), shift_zero]

theorem shift_moves {v : Nat → Int} : ∀ (p : List Int) (d k : Nat), p.length = d + 1 → k ≤ d → v k ≠ 0 → shiftPoint v d p ≠ p := by
  intro p
  induction p with
  | nil => intro d k h; simp at h
  | cons c p ih =>
    intro d k hlen hk hv h
    simp only [shiftPoint, List.cons.injEq] at h
    rcases Nat.eq_or_lt_of_le hk with rfl | hlt
    · omega
    · refine ih (d - 1) k ?_ (by omega) hv h.2
      simp only [List.length_cons] at hlen
      omega

theorem shr_step {a s : Int} (k : Nat) (hs : s = 1 ∨ s = -1) : shr (a + s) k = shr a k ∨ shr (a + s) k = shr a k + s := by
  have hk : (0 : Int) < 2 ^ k := by positivity
  unfold shr
  have h1 := Int.emod_add_mul_ediv a (2 ^ k)
  have h2 := Int.emod_nonneg a hk.ne'
  have h3 := Int.emod_lt_of_pos a hk
  generalize a / 2 ^ k = x at *
  generalize a % 2 ^ k = y at *
  have key : ∀ z : Int, 2 ^ k * z ≤ a + s → a + s < 2 ^ k * (z + 1) → (a + s) / 2 ^ k = z := by
    intro z g1 g2
    refine le_antisymm (Int.lt_add_one_iff.1 (Int.ediv_lt_of_lt_mul hk (by linarith [mul_comm (2 ^ k : Int) (z + 1)]))) ((Int.le_ediv_iff_mul_le hk).2 (by linarith [mul_comm (2 ^ k : Int) z]))
  rcases hs with rfl | rfl
  · by_cases h : y + 1 < 2 ^ k
    · left; exact key x (by linarith) (by linarith [mul_add (2 ^ k : Int) x 1])
    · right; exact key (x + 1) (by linarith [mul_add (2 ^ k : Int) x 1]) (by linarith [mul_add (2 ^ k : Int) (x + 1) 1, mul_add (2 ^ k : Int) x 1])
  · by_cases h : 1 ≤ y
    · left; exact key x (by linarith) (by linarith [mul_add (2 ^ k : Int) x 1])
    · right; exact key (x + -1) (by linarith [mul_add (2 ^ k : Int) x (-1)]) (by linarith [mul_add (2 ^ k : Int) (x + -1) 1, mul_add (2 ^ k : Int) x (-1)])

theorem shift_fixed {v : Nat → Int} {e : Nat} (h0 : ∀ j, j ≠ e → v j = 0) {a : List Int} (h : a.length ≤ e) : shiftPoint v (e - 1) a = a := by
  cases a with
  | nil => rfl
  | cons c a =>
    simp only [List.length_cons] at h
    rw [shift_congr (t := fun _ => 0) _ _ (fun k hk => h0 k (by omega)), shift_zero]

/-- One step of a small cell stays in its large cell or goes to the next one. -/
theorem step_in (k : Nat) {v : Nat → Int} {e : Nat} (he : v e = 1 ∨ v e = -1) (h0 : ∀ j, j ≠ e → v j = 0) : ∀ (a : List Int) (d : Nat),
    a.length ≤ d + 1 →
    Anc k (a.map fun c => shr c k) (shiftPoint v d a) ∨ Anc k (shiftPoint v d (a.map fun c => shr c k)) (shiftPoint v d a) := by
  intro a
  simp only [anc_iff]
  induction a with
  | nil => intro d _; left; rfl
  | cons c a ih =>
    intro d hlen
    simp only [List.length_cons] at hlen
    simp only [List.map_cons, shiftPoint]
    by_cases hd : d = e
    · subst hd
      rw [shift_fixed h0 (by omega), shift_fixed h0 (by rw [List.length_map]; omega)]
      rcases shr_step (a := c) k he with h | h
      · left; rw [h]
      · right; rw [h]
    · rw [h0 d hd]
      simp only [Int.add_zero, List.cons.injEq, true_and]
      cases a with
      | nil => left; rfl
      | cons c' a' =>
        simp only [List.length_cons] at hlen
        exact ih (d - 1) (by simp only [List.length_cons]; omega)

theorem shr_edge (k : Nat) (r s : Int) (hs : -1 ≤ s ∧ s ≤ 1) : ∃ m, r = shr m k ∧ r + s = shr (m + s) k := by
  have hk : (0 : Int) < 2 ^ k := by positivity
  have key : ∀ z x : Int, 2 ^ k * z ≤ x → x < 2 ^ k * (z + 1) → z = shr x k := by
    intro z x g1 g2
    unfold shr
    refine le_antisymm ((Int.le_ediv_iff_mul_le hk).2 (by linarith [mul_comm (2 ^ k : Int) z])) (Int.lt_add_one_iff.1 (Int.ediv_lt_of_lt_mul hk (by linarith [mul_comm (2 ^ k : Int) (z + 1)])))
  obtain h | h | h : s = -1 ∨ s = 0 ∨ s = 1 := by omega
  · subst h
    exact ⟨2 ^ k * r, key _ _ (by linarith) (by linarith [mul_add (2 ^ k : Int) r 1]), key _ _ (by linarith [mul_add (2 ^ k : Int) r (-1)])
      (by linarith [mul_add (2 ^ k : Int) (r + -1) 1, mul_add (2 ^ k : Int) r (-1)])⟩
  · subst h
    exact ⟨2 ^ k * r, key _ _ (by linarith) (by linarith [mul_add (2 ^ k : Int) r 1]), key _ _ (by linarith) (by linarith [mul_add (2 ^ k : Int) (r + 0) 1, mul_add (2 ^ k : Int) r 0])⟩
  · subst h
    exact ⟨2 ^ k * r + (2 ^ k - 1), key _ _ (by linarith) (by linarith [mul_add (2 ^ k : Int) r 1]), key _ _ (by linarith [mul_add (2 ^ k : Int) r 1])
      (by linarith [mul_add (2 ^ k : Int) (r + 1) 1, mul_add (2 ^ k : Int) r 1])⟩

/-- A small cell at the edge of its large cell: the step goes to the next large cell. -/
theorem edge_down (k : Nat) {s : Nat → Int} (hs : ∀ j, -1 ≤ s j ∧ s j ≤ 1) (r : List Int) : ∀ d,
    ∃ m, Anc k r m ∧ Anc k (shiftPoint s d r) (shiftPoint s d m) := by
  simp only [anc_iff]
  induction r with
  | nil => intro d; exact ⟨[], rfl, rfl⟩
  | cons c r ih =>
    intro d
    obtain ⟨m, h1, h2⟩ := ih (d - 1)
    obtain ⟨x, g1, g2⟩ := shr_edge k c (s d) (hs d)
    exact ⟨x :: m, by rw [List.map_cons, ← g1, ← h1], by simp only [shiftPoint, List.map_cons]; rw [← g2, ← h2]⟩

/-! ### the neighbours of a leaf -/

section
variable {n : Nat} {cells : CA} {dom : LCA} {minL maxL : Nat}

theorem interface_symm {v : Nat → Int} {a b : Nat × List Int} : Interface n cells v b a ↔ Interface n cells (fun k => - v k) a b := by
  unfold Interface FaceAt
  constructor
  · rintro ⟨h1, h2, q, h3, h4⟩
    exact ⟨h2, h1, shiftPoint v n q, by rwa [max_comm], by rwa [shift_back, max_comm]⟩
  · rintro ⟨h1, h2, q, h3, h4⟩
    exact ⟨h2, h1, shiftPoint (fun k => - v k) n q, by rwa [max_comm], by rwa [shift_forth, max_comm]⟩

theorem mem_length' {l : Nat} {p : List Int} (h : cells.Mem n l p) : p.length = n + 1 := mem_length h.2

/-- The cells of the finer level on both sides of an interface of the leaf `p`. -/
theorem interface_fine (g : GoodLeaves n cells dom minL maxL) {v : Nat → Int} (hv : AxisStep n v) {l : Nat} {p : List Int} {b : Nat × List Int}
    (h : Interface n cells v (l, p) b) : ∃ r, Anc (max l b.1 - l) (shiftPoint v n p) r ∧ Anc (max l b.1 - b.1) b.2 r ∧
      Anc (max l b.1 - l) p (shiftPoint (fun k => - v k) n r) := by
  obtain ⟨h1, h2, q, h3, h4⟩ := h
  obtain ⟨e, he, he1, he2⟩ := hv.only
  have hlen := mem_length' h1
  simp only at h1 h3 h4 hlen
  have hq : q.length = n + 1 := by rw [← anc_length h3, hlen]
  refine ⟨shiftPoint v n q, ?_, h4, by rwa [shift_back]⟩
  rcases step_in (max l b.1 - l) he1 he2 q n (by omega) with h5 | h5
  · rw [← anc_iff.1 h3] at h5
    exfalso
    obtain ⟨h6, h7⟩ := g.noOverlap.same h1 h2 (le_max_left _ _) (le_max_right _ _) h5 h4
    obtain ⟨b1, b2⟩ := b
    simp only at h6 h7
    subst h6 h7
    rw [max_self, Nat.sub_self] at h3 h4
    rw [anc_zero] at h3 h4
    subst h3
    exact shift_moves p n e hlen he (by rcases he1 with h | h <;> omega) h4.symm
  · rwa [← anc_iff.1 h3] at h5

/-- The interfaces of the leaf `p` in the direction `v`: none if the neighbour is outside the domain, one if the neighbour is in a leaf, or those with
the children of the neighbour that touch `p`. -/
theorem side_cases (g : GoodLeaves n cells dom minL maxL)
    (hw : ∀ p m m', Anc (maxL - minL) p m → Anc (maxL - minL) p m' → InDomain n dom maxL m → InDomain n dom maxL m') {v : Nat → Int}
    (hv : AxisStep n v) {l : Nat} {p : List Int} (hp : cells.Mem n l p) :
    (Outside n dom maxL l (shiftPoint v n p) ∧ ∀ b, ¬ Interface n cells v (l, p) b) ∨
    (¬ Outside n dom maxL l (shiftPoint v n p) ∧ ∃ b : Nat × List Int, b.1 ≤ l ∧ ∀ b', Interface n cells v (l, p) b' ↔ b' = b) ∨
    (¬ Outside n dom maxL l (shiftPoint v n p) ∧ ∀ b', Interface n cells v (l, p) b' ↔
      b'.1 = l + 1 ∧ Anc 1 (shiftPoint v n p) b'.2 ∧ Anc 1 p (shiftPoint (fun k => - v k) n b'.2)) := by
  have hlm := g.between l p hp
  by_cases ho : Outside n dom maxL l (shiftPoint v n p)
  · refine Or.inl ⟨ho, fun b hb => ?_⟩
    obtain ⟨r, h1, h2, -⟩ := interface_fine g hv hb
    have hbm := g.between _ _ hb.2.1
    obtain ⟨m, hm⟩ := anc_exists (maxL - max l b.1) r
    have h3 := anc_trans h1 hm
    have h4 := anc_trans h2 hm
    rw [show max l b.1 - l + (maxL - max l b.1) = maxL - l by omega] at h3
    rw [show max l b.1 - b.1 + (maxL - max l b.1) = maxL - b.1 by omega] at h4
    exact ho m h3 ((g.tiles m).1 ⟨b.1, b.2, hbm.2, hb.2.1, h4⟩)
  refine Or.inr ?_
  have hin : ∀ m, Anc (maxL - l) (shiftPoint v n p) m → InDomain n dom maxL m := by
    intro m hm
    unfold Outside at ho
    push Not at ho
    obtain ⟨m0, h1, h2⟩ := ho
    have up : ∀ z, Anc (maxL - l) (shiftPoint v n p) z → Anc (maxL - minL) ((shiftPoint v n p).map fun x => shr x (l - minL)) z := by
      intro z hz
      have := anc_trans (anc_iff.2 rfl : Anc (l - minL) _ (shiftPoint v n p)) hz
      rwa [show l - minL + (maxL - l) = maxL - minL by omega] at this
    exact hw _ _ _ (up _ h1) (up _ hm) h2
  by_cases hb : ∃ b : Nat × List Int, cells.Mem n b.1 b.2 ∧ b.1 ≤ l ∧ Anc (l - b.1) b.2 (shiftPoint v n p)
  · obtain ⟨b, h1, h2, h3⟩ := hb
    refine Or.inl ⟨ho, b, h2, fun b' => ⟨fun h => ?_, ?_⟩⟩
    · obtain ⟨r, g1, g2, -⟩ := interface_fine g hv h
      have := anc_trans h3 g1
      rw [show l - b.1 + (max l b'.1 - l) = max l b'.1 - b.1 by omega] at this
      obtain ⟨e1, e2⟩ := g.noOverlap.same h.2.1 h1 (le_max_right l b'.1) (le_trans h2 (le_max_left _ _)) g2 this
      exact Prod.ext e1 e2
    · rintro rfl
      refine ⟨hp, h1, p, ?_, ?_⟩
      · simp only [max_eq_left h2, Nat.sub_self]; exact anc_zero.2 rfl
      · simpa only [max_eq_left h2] using h3
  · have hno : ∀ (l' : Nat) (p' m : List Int), cells.Mem n l' p' → l' ≤ maxL → Anc (maxL - l') p' m → Anc (maxL - l) (shiftPoint v n p) m → l < l' := by
      intro l' p' m h1 h2 h3 h4
      by_contra h5
      refine hb ⟨(l', p'), h1, by simp only; omega, ?_⟩
      have := anc_of_anc (by omega) h3 h4
      rwa [show maxL - l' - (maxL - l) = l - l' by omega] at this
    refine Or.inr ⟨ho, fun b' => ⟨fun h => ?_, ?_⟩⟩
    · obtain ⟨r, g1, g2, g3⟩ := interface_fine g hv h
      have hbm := g.between _ _ h.2.1
      obtain ⟨m, hm⟩ := anc_exists (maxL - max l b'.1) r
      have k1 := anc_trans g1 hm
      have k2 := anc_trans g2 hm
      rw [show max l b'.1 - l + (maxL - max l b'.1) = maxL - l by omega] at k1
      rw [show max l b'.1 - b'.1 + (maxL - max l b'.1) = maxL - b'.1 by omega] at k2
      have hlt := hno _ _ _ h.2.1 hbm.2 k2 k1
      rw [max_eq_right (by omega)] at g1 g2 g3
      rw [Nat.sub_self, anc_zero] at g2
      subst g2
      have hle := g.graded l p b'.1 b'.2 _ hp h.2.1 (by omega)
        (near_shift (w := 1) _ n (fun k _ => by have := hv.small k; simp only [Nat.cast_one]; omega)) g3
      obtain he : b'.1 = l + 1 := by omega
      rw [he, Nat.add_sub_cancel_left] at g1 g3
      exact ⟨he, g1, g3⟩
    · rintro ⟨h1, h2, h3⟩
      obtain ⟨l', r⟩ := b'
      simp only at h1 h2 h3
      subst h1
      have hlt : l + 1 ≤ maxL := by
        obtain ⟨m, hm⟩ := anc_exists (maxL - l) (shiftPoint v n p)
        obtain ⟨l', p', g1, g2, g3⟩ := (g.tiles m).2 (hin m hm)
        have := hno _ _ _ g2 g1 g3 hm
        omega
      obtain ⟨m, hm1, hm2⟩ := edge_down (maxL - (l + 1)) hv.neg.small r n
      have k1 := anc_trans h2 hm1
      have k2 := anc_trans h3 hm2
      rw [show 1 + (maxL - (l + 1)) = maxL - l by omega] at k1 k2
      obtain ⟨l', p', g1, g2, g3⟩ := (g.tiles m).2 (hin m k1)
      have j1 := hno _ _ _ g2 g1 g3 k1
      have j2 := graded_fine g.graded hp g2 hlm.2 g1 k2 g3
        (near_shift (w := 1) _ n (fun k _ => by have := hv.small k; simp only [Nat.cast_one]; omega))
      obtain rfl : l' = l + 1 := by omega
      obtain rfl := anc_unique g3 hm1
      refine ⟨hp, g2, shiftPoint (fun k => - v k) n p', ?_, ?_⟩
      · rw [show max l (l + 1) - l = 1 by omega]; exact h3
      · rw [show max l (l + 1) - (l + 1) = 0 by omega, shift_forth]; exact anc_zero.2 rfl

end

/-! ### their number -/

/-- The children of `q` that touch `q - v`. -/
def sideChildren (v : Nat → Int) : Nat → List Int → List (List Int)
  | _, [] => [[]]
  | d, c :: q => (if v d = 0 then [2 * c, 2 * c + 1] else if v d = 1 then [2 * c] else [2 * c + 1]).flatMap fun x =>
      (sideChildren v (d - 1) q).map fun r => x :: r

theorem mem_sideChildren {v : Nat → Int} (hv : ∀ k, -1 ≤ v k ∧ v k ≤ 1) : ∀ (q : List Int) (d : Nat) (r : List Int),
    r ∈ sideChildren v d q ↔ Anc 1 q r ∧ Anc 1 (shiftPoint (fun k => - v k) d q) (shiftPoint (fun k => - v k) d r) := by
  intro q
  simp only [anc_iff]
  induction q with
  | nil =>
    intro d r
    cases r <;> simp [sideChildren, shiftPoint]
  | cons c q ih =>
    intro d r
    cases r with
    | nil => simp [sideChildren]
    | cons x r =>
      have hx : (x ∈ (if v d = 0 then [2 * c, 2 * c + 1] else if v d = 1 then [2 * c] else [2 * c + 1])) ↔
          c = shr x 1 ∧ c + - v d = shr (x + - v d) 1 := by
        have := hv d
        unfold shr
        obtain h | h | h : v d = -1 ∨ v d = 0 ∨ v d = 1 := by omega
        · rw [h]; simp; omega
        · rw [h]; simp; omega
        · rw [h]; simp; omega
      simp only [sideChildren, List.mem_flatMap, List.mem_map, List.cons.injEq, shiftPoint, List.map_cons]
      constructor
      · rintro ⟨x', h1, r', h2, rfl, rfl⟩
        have := hx.1 h1
        have h3 := (ih (d - 1) r').1 h2
        exact ⟨⟨this.1, h3.1⟩, this.2, h3.2⟩
      · rintro ⟨⟨h1, h2⟩, h3, h4⟩
        exact ⟨x, hx.2 ⟨h1, h3⟩, r, (ih (d - 1) r).2 ⟨h2, h4⟩, rfl, rfl⟩

theorem sideChildren_nodup (v : Nat → Int) : ∀ (q : List Int) (d : Nat), (sideChildren v d q).Nodup := by
  intro q
  induction q with
  | nil => intro d; simp [sideChildren]
  | cons c q ih =>
    intro d
    simp only [sideChildren]
    refine List.nodup_flatMap.2 ⟨fun x _ => (ih (d - 1)).map fun a b h => by simpa using h, ?_⟩
    have : ∀ x y : Int, x ≠ y → (Function.onFun List.Disjoint fun x => (sideChildren v (d - 1) q).map fun r => x :: r) x y := by
      intro x y hxy z h1 h2
      simp only [List.mem_map] at h1 h2
      obtain ⟨_, _, rfl⟩ := h1
      obtain ⟨_, _, h⟩ := h2
      simp only [List.cons.injEq] at h
      exact hxy h.1.symm
    refine List.Pairwise.imp (fun h => this _ _ h) ?_
    split
    · simp
    · split <;> simp

theorem sideChildren_free {v : Nat → Int} : ∀ (q : List Int) (d : Nat), q.length ≤ d + 1 → (∀ k ≤ d, v k = 0) →
    (sideChildren v d q).length = 2 ^ q.length := by
  intro q
  induction q with
  | nil => intro d _ _; rfl
  | cons c q ih =>
    intro d hl h
    simp only [List.length_cons] at hl
    simp only [sideChildren, h d le_rfl, if_true, List.length_flatMap, List.length_map, List.map_cons, List.map_nil, List.sum_cons, List.sum_nil,
      List.length_cons]
    cases q with
    | nil => simp [sideChildren]
    | cons c' q' =>
      simp only [List.length_cons] at hl
      rw [ih (d - 1) (by simp only [List.length_cons]; omega) fun k hk => h k (by omega)]
      simp only [List.length_cons, pow_succ]; omega

theorem sideChildren_length {v : Nat → Int} {e : Nat} (he : v e = 1 ∨ v e = -1) (h0 : ∀ j, j ≠ e → v j = 0) : ∀ (q : List Int) (d : Nat),
    q.length = d + 1 → e ≤ d → (sideChildren v d q).length = 2 ^ d := by
  intro q
  induction q with
  | nil => intro d h; simp at h
  | cons c q ih =>
    intro d hl hd
    simp only [List.length_cons] at hl
    by_cases hde : d = e
    · subst hde
      have hne : v d ≠ 0 := by rcases he with h | h <;> omega
      have hlen : (sideChildren v (d - 1) q).length = 2 ^ d := by
        cases q with
        | nil => simp only [List.length_nil] at hl; obtain rfl : d = 0 := by omega
                 rfl
        | cons c' q' =>
          simp only [List.length_cons] at hl
          rw [sideChildren_free _ _ (by simp only [List.length_cons]; omega) fun k hk => h0 k (by omega)]
          simp only [List.length_cons]; congr 1; omega
      simp only [sideChildren, if_neg hne, List.length_flatMap, List.length_map]
      split <;> simp [hlen]
    · simp only [sideChildren, h0 d hde, if_true, List.length_flatMap, List.length_map, List.map_cons, List.map_nil, List.sum_cons, List.sum_nil]
      rw [ih (d - 1) (by omega) (by omega)]
      obtain ⟨d', rfl⟩ : ∃ d', d = d' + 1 := ⟨d - 1, by omega⟩
      simp only [Nat.add_sub_cancel, pow_succ]; omega

/-! ### their area -/

section
variable {K V : Type} [Field K] [AddCommGroup V] [Module K V] {n : Nat} {cells : CA} {dom : LCA} {minL maxL : Nat}

/-- The interfaces on one side of a leaf have together the area of the side. -/
theorem side_area (h2 : (2 : K) ≠ 0) (h0 : K) (g : GoodLeaves n cells dom minL maxL)
    (hw : ∀ p m m', Anc (maxL - minL) p m → Anc (maxL - minL) p m' → InDomain n dom maxL m → InDomain n dom maxL m') {v : Nat → Int}
    (hv : AxisStep n v) {l : Nat} {p : List Int} (hp : cells.Mem n l p) {es : List ((Nat × List Int) × (Nat × List Int))} (hnd : es.Nodup)
    (hmem : ∀ a b, (a, b) ∈ es ↔ Interface n cells v a b) (x : V) (out : Prop) [Decidable out] (ho : out ↔ Outside n dom maxL l (shiftPoint v n p)) :
    (es.map fun e => if e.1 = (l, p) then (cellLength h0 (max e.1.1 e.2.1)) ^ n • x else 0).sum +
      (if out then (cellLength h0 l) ^ n • x else 0) = (cellLength h0 l) ^ n • x := by
  have hone : ∀ e0 ∈ es, ∀ y : V, (es.map fun e => if e = e0 then y else 0).sum = y := by
    intro e0 he y
    simp only [eq_comm (b := e0)]
    exact sum_pick (fun e => e) es (by simpa using hnd) e0 (by simpa using he) y
  rcases side_cases g hw hv hp with ⟨h1, h3⟩ | ⟨h1, b, hb, h3⟩ | ⟨h1, h3⟩
  · rw [if_pos (ho.2 h1)]
    rw [(sum_map_congr (g := fun _ => (0 : V)) fun e he => ?_).trans (sum_map_zero' _), zero_add]
    rw [if_neg]
    rintro h
    exact h3 e.2 (by rw [← h]; exact (hmem _ _).1 he)
  · rw [if_neg (fun h => h1 (ho.1 h)), add_zero]
    rw [← hone ((l, p), b) ((hmem _ _).2 ((h3 b).2 rfl)) ((cellLength h0 l) ^ n • x)]
    refine sum_map_congr fun e he => ?_
    obtain ⟨a, b'⟩ := e
    by_cases h : a = (l, p)
    · subst h
      obtain rfl := (h3 b').1 ((hmem _ _).1 he)
      simp only [if_true, max_eq_left hb]
    · rw [if_neg h, if_neg]
      rintro h'
      exact h (Prod.mk.inj h').1
  · rw [if_neg (fun h => h1 (ho.1 h)), add_zero]
    obtain ⟨e, he, he1, he2⟩ := hv.only
    have hlen := mem_length' hp
    set q := shiftPoint v n p with hq
    have hqp : shiftPoint (fun k => - v k) n q = p := shift_back v p
    set Y : V := (cellLength h0 (l + 1)) ^ n • x with hY
    have hc : ∀ r, r ∈ sideChildren v n q ↔ Interface n cells v (l, p) (l + 1, r) := by
      intro r
      rw [mem_sideChildren hv.small, hqp, h3 (l + 1, r)]
      simp
    have e1 : (es.map fun e => if e.1 = (l, p) then (cellLength h0 (max e.1.1 e.2.1)) ^ n • x else 0).sum =
        (es.map fun e => ((sideChildren v n q).map fun r => if e = ((l, p), (l + 1, r)) then Y else 0).sum).sum := by
      refine sum_map_congr fun e he => ?_
      obtain ⟨a, b'⟩ := e
      by_cases h : a = (l, p)
      · subst h
        have hi := (hmem _ _).1 he
        obtain ⟨k1, -⟩ := (h3 b').1 hi
        obtain ⟨l', r0⟩ := b'
        simp only at k1
        subst k1
        have : ((sideChildren v n q).map fun r => if (((l, p), (l + 1, r0)) : (Nat × List Int) × (Nat × List Int)) = ((l, p), (l + 1, r)) then Y else 0).sum = Y := by
          refine (sum_map_congr fun r _ => ?_).trans
            (sum_pick (fun r => r) (sideChildren v n q) (by simpa using sideChildren_nodup v q n) r0 (by simpa using (hc r0).2 hi) Y)
          simp only [Prod.mk.injEq, true_and]
        rw [this, if_pos rfl]
        simp only [hY]
        rw [show max l (l + 1) = l + 1 by omega]
      · rw [if_neg h]
        refine ((sum_map_congr (g := fun _ => (0 : V)) fun r _ => ?_).trans (sum_map_zero' _)).symm
        rw [if_neg]
        rintro h'
        exact h (Prod.mk.inj h').1
    rw [e1, sum_map_comm]
    rw [sum_map_congr (g := fun _ => Y) fun r hr => hone _ ((hmem _ _).2 ((hc r).1 hr)) Y]
    rw [List.map_const', List.sum_replicate, sideChildren_length he1 he2 q n (by rw [hq, shift_length, hlen]) he, hY, ← Nat.cast_smul_eq_nsmul K,
      smul_smul]
    congr 1
    unfold cellLength
    rw [pow_succ, Nat.cast_pow, Nat.cast_ofNat, ← mul_pow]
    congr 1
    field_simp

/-- The flux through a side in a uniform flow. -/
theorem dirShare_uniform {n : Nat} {cells ref : CA} {dom : LCA} {minL maxL w : Nat} (h2 : (2 : K) ≠ 0) (h0 : K) (g : FVMesh n cells ref dom minL maxL w)
    {d : Nat} (hd : d ≤ n) {S : List (Nat → Int)} {F : List MCell → V × V} {fs : List FaceCall} {bs bs' : List BdryCall}
    (hi : IsInterior n ref cells (unitDir d) S fs) (hb : IsBoundary n ref cells dom maxL (unitDir d) S (fun p => p) bs)
    (hb' : IsBoundary n ref cells dom maxL (fun k => - unitDir d k) S (fun p => shiftPoint (fun k => - unitDir d k) n p) bs') (φ : V)
    (hF : ∀ (l : Nat) (q : List Int) (C : List MCell), List.Forall₂ (fun s c => CellIs n ref l (shiftPoint s n q) c) S C → F C = (φ, - φ))
    {l : Nat} {p : List Int} (hp : cells.Mem n l p) (bdry : Bool)
    (hin : bdry = true ∨ (¬ Outside n dom maxL l (shiftPoint (unitDir d) n p) ∧ ¬ Outside n dom maxL l (shiftPoint (fun k => - unitDir d k) n p))) :
    dirShare n h0 F bdry fs bs bs' (l, p) = 0 := by
  have : ∀ q, Decidable (Outside n dom maxL l q) := fun _ => Classical.propDecidable _
  have hv : AxisStep n (unitDir d) := ⟨d, hd, Or.inl rfl⟩
  have e1 := side_area (V := V) h2 h0 g.leaves g.domain.whole hv hp (es := fs.map FaceCall.ends) hi.nodup hi.mem φ
    (Outside n dom maxL l (shiftPoint (unitDir d) n p)) Iff.rfl
  have e2 := side_area (V := V) h2 h0 g.leaves g.domain.whole hv.neg hp (es := (fs.map FaceCall.ends).map Prod.swap)
    (hi.nodup.map Prod.swap_injective) (fun a b => by
      rw [← interface_symm, ← hi.mem, List.mem_map]
      constructor
      · rintro ⟨⟨x, y⟩, h, h'⟩
        rw [Prod.swap_prod_mk, Prod.mk.injEq] at h'
        rw [← h'.1, ← h'.2]; exact h
      · exact fun h => ⟨_, h, rfl⟩) (-φ)
    (Outside n dom maxL l (shiftPoint (fun k => - unitDir d k) n p)) Iff.rfl
  rw [List.map_map] at e1 e2
  rw [List.map_map] at e2
  have f1 : (fs.map fun f => faceShare n h0 F (l, p) f).sum =
      (fs.map ((fun e : (Nat × List Int) × (Nat × List Int) => if e.1 = (l, p) then (cellLength h0 (max e.1.1 e.2.1)) ^ n • φ else 0) ∘ FaceCall.ends)).sum +
      (fs.map (((fun e : (Nat × List Int) × (Nat × List Int) => if e.1 = (l, p) then (cellLength h0 (max e.1.1 e.2.1)) ^ n • (-φ) else 0) ∘ Prod.swap) ∘
        FaceCall.ends)).sum := by
    rw [← sum_map_add']
    refine sum_map_congr fun f hf => ?_
    obtain ⟨-, -, q, -, hC⟩ := hi.right f hf
    unfold faceShare
    rw [hF _ _ _ hC]
    refine congrArg₂ _ rfl ?_
    show _ = if f.right.id = (l, p) then (cellLength h0 (max f.right.level f.left.level)) ^ n • (-φ) else 0
    rw [max_comm f.right.level]
  have hbd : ∀ (dir : Nat → Int) (base : List Int → List Int) (L : List BdryCall) (G : List MCell → V) (ψ : V),
      IsBoundary n ref cells dom maxL dir S base L → (∀ f ∈ L, G f.comput = ψ) →
      (L.map fun f => if f.cell.id = (l, p) then bdryShare n h0 G f else 0).sum =
        if Outside n dom maxL l (shiftPoint dir n p) then (cellLength h0 l) ^ n • ψ else 0 := by
    intro dir base L G ψ hL hG
    have step : (L.map fun f => if f.cell.id = (l, p) then bdryShare n h0 G f else 0).sum =
        (L.map fun f => if (l, p) = f.cell.id then (cellLength h0 l) ^ n • ψ else 0).sum := by
      refine sum_map_congr fun f hf => ?_
      by_cases h : f.cell.id = (l, p)
      · rw [if_pos h, if_pos h.symm]
        unfold bdryShare
        rw [hG f hf, show f.cell.level = l from congrArg Prod.fst h]
      · rw [if_neg h, if_neg (fun h' => h h'.symm)]
    rw [step]
    by_cases ho : Outside n dom maxL l (shiftPoint dir n p)
    · rw [if_pos ho]
      exact sum_pick (fun f : BdryCall => f.cell.id) L hL.nodup (l, p) ((hL.mem l p).2 ⟨hp, ho⟩) _
    · rw [if_neg ho]
      refine (sum_map_congr (g := fun _ => (0 : V)) fun f hf => ?_).trans (sum_map_zero' _)
      rw [if_neg]
      intro h
      exact ho ((hL.mem l p).1 (by rw [h]; exact List.mem_map.2 ⟨f, hf, rfl⟩)).2
  unfold dirShare
  rw [f1]
  have b1 := hbd _ _ bs (fun x => (F x).1) φ hb fun f hf => by
    obtain ⟨-, hC⟩ := hb.right f hf
    rw [hF _ _ _ hC]
  have b2 := hbd _ _ bs' (fun x => (F x).2) (-φ) hb' fun f hf => by
    obtain ⟨-, hC⟩ := hb'.right f hf
    rw [hF _ _ _ hC]
  rcases hin with rfl | ⟨k1, k2⟩
  · rw [if_pos rfl, b1, b2]
    have : ∀ a b c d : V, a + b + (c + d) = (a + c) + (b + d) := fun a b c d => by abel
    rw [this, e1, e2, smul_neg, add_neg_cancel]
  · rw [if_neg k1, add_zero] at e1
    rw [if_neg k1] at b1
    rw [if_neg k2, add_zero] at e2
    rw [if_neg k2] at b2
    rw [e1, e2, smul_neg, add_neg_cancel, zero_add]
    split
    · rw [b1, b2, add_zero]
    · rfl

/-! ### a leaf between two leaves of its level -/

theorem side_unique (g : GoodLeaves n cells dom minL maxL)
    (hw : ∀ p m m', Anc (maxL - minL) p m → Anc (maxL - minL) p m' → InDomain n dom maxL m → InDomain n dom maxL m') {v : Nat → Int}
    (hv : AxisStep n v) {l : Nat} {p : List Int} (hp : cells.Mem n l p) (hq : cells.Mem n l (shiftPoint v n p)) :
    ¬ Outside n dom maxL l (shiftPoint v n p) ∧ ∀ b, Interface n cells v (l, p) b ↔ b = (l, shiftPoint v n p) := by
  have hi : Interface n cells v (l, p) (l, shiftPoint v n p) := by
    refine ⟨hp, hq, p, ?_, ?_⟩ <;> simp only [max_self, Nat.sub_self] <;> exact anc_zero.2 rfl
  rcases side_cases g hw hv hp with ⟨-, h⟩ | ⟨h1, b, -, h⟩ | ⟨-, h⟩
  · exact absurd hi (h _)
  · rw [← (h _).1 hi] at h
    exact ⟨h1, h⟩
  · have := ((h _).1 hi).1
    simp at this

/-- The sum over the interfaces that start at the leaf `c` when there is only one. -/
theorem sum_single {ends : FaceCall → (Nat × List Int) × (Nat × List Int)} {fs : List FaceCall} (hnd : (fs.map ends).Nodup) {c b : Nat × List Int}
    (hmem : (c, b) ∈ fs.map ends) (huniq : ∀ f ∈ fs, (ends f).1 = c → (ends f).2 = b) (X : FaceCall → V) :
    ∃ f ∈ fs, ends f = (c, b) ∧ (fs.map fun f => if (ends f).1 = c then X f else 0).sum = X f := by
  obtain ⟨f, hf, he⟩ := List.mem_map.1 hmem
  refine ⟨f, hf, he, ?_⟩
  rw [← sum_pick ends fs hnd (c, b) hmem (X f)]
  refine sum_map_congr fun f' hf' => ?_
  by_cases h : (ends f').1 = c
  · have e : ends f' = (c, b) := Prod.ext h (huniq f' hf' h)
    rw [if_pos h, if_pos e.symm, List.inj_on_of_nodup_map hnd hf' hf (e.trans he.symm)]
  · rw [if_neg h, if_neg]
    intro h'
    exact h (by rw [← h'])

theorem dirShare_regular {ref : CA} {w : Nat} (h0 : K) (g : FVMesh n cells ref dom minL maxL w) {d : Nat} (hd : d ≤ n) {S : List (Nat → Int)}
    {F : List MCell → V × V} {fs : List FaceCall} {bs bs' : List BdryCall}
    (hi : IsInterior n ref cells (unitDir d) S fs) (hb : IsBoundary n ref cells dom maxL (unitDir d) S (fun p => p) bs)
    (hb' : IsBoundary n ref cells dom maxL (fun k => - unitDir d k) S (fun p => shiftPoint (fun k => - unitDir d k) n p) bs')
    {l : Nat} {p : List Int} (hp : cells.Mem n l p) (hq : cells.Mem n l (shiftPoint (unitDir d) n p))
    (hq' : cells.Mem n l (shiftPoint (fun k => - unitDir d k) n p)) (bdry : Bool) :
    ∃ C C', List.Forall₂ (fun s c => CellIs n ref l (shiftPoint s n p) c) S C ∧
      List.Forall₂ (fun s c => CellIs n ref l (shiftPoint s n (shiftPoint (fun k => - unitDir d k) n p)) c) S C' ∧
      dirShare n h0 F bdry fs bs bs' (l, p) = (cellLength h0 l) ^ n • ((F C).1 + (F C').2) := by
  have hv : AxisStep n (unitDir d) := ⟨d, hd, Or.inl rfl⟩
  obtain ⟨o1, u1⟩ := side_unique g.leaves g.domain.whole hv hp hq
  obtain ⟨o2, u2⟩ := side_unique g.leaves g.domain.whole hv.neg hp hq'
  obtain ⟨f, hf, e1, s1⟩ := sum_single (ends := FaceCall.ends) hi.nodup ((hi.mem _ _).2 ((u1 _).2 rfl))
    (fun f hf h => (u1 _).1 ((hi.mem _ _).1 (List.mem_map.2 ⟨f, hf, by rw [← h]⟩)))
    (fun f => (cellLength h0 (max f.left.level f.right.level)) ^ n • (F f.comput).1)
  obtain ⟨f', hf', e2, s2⟩ := sum_single (ends := fun f => f.ends.swap) (fs := fs) (c := (l, p)) (b := (l, shiftPoint (fun k => - unitDir d k) n p))
    (by have := hi.nodup.map Prod.swap_injective; rwa [List.map_map] at this)
    (by
      obtain ⟨f, hf, he⟩ := List.mem_map.1 ((hi.mem _ _).2 (interface_symm.2 ((u2 _).2 rfl)))
      exact List.mem_map.2 ⟨f, hf, by rw [he]; rfl⟩)
    (fun f hf h => (u2 _).1 (interface_symm.1 ((hi.mem _ _).1 (List.mem_map.2 ⟨f, hf, by rw [← h]; rfl⟩))))
    (fun f => (cellLength h0 (max f.left.level f.right.level)) ^ n • (F f.comput).2)
  have lv1 : f.left.level = l ∧ f.left.pt = p ∧ f.right.level = l := by
    unfold FaceCall.ends MCell.id at e1
    simp only [Prod.mk.injEq] at e1
    exact ⟨e1.1.1, e1.1.2, e1.2.1⟩
  have lv2 : f'.right.level = l ∧ f'.left.level = l ∧ f'.left.pt = shiftPoint (fun k => - unitDir d k) n p := by
    unfold FaceCall.ends MCell.id at e2
    simp only [Prod.swap_prod_mk, Prod.mk.injEq] at e2
    exact ⟨e2.1.1, e2.2.1, e2.2.2⟩
  refine ⟨f.comput, f'.comput, ?_, ?_, ?_⟩
  · obtain ⟨-, -, q, hq, hC⟩ := hi.right f hf
    have := hq.1
    simp only [MCell.id, lv1.1, lv1.2.1, lv1.2.2, max_self, Nat.sub_self] at this hC
    rw [anc_zero] at this
    rwa [← this] at hC
  · obtain ⟨-, -, q, hq, hC⟩ := hi.right f' hf'
    have := hq.1
    simp only [MCell.id, lv2.1, lv2.2.1, lv2.2.2, max_self, Nat.sub_self] at this hC
    rw [anc_zero] at this
    rwa [← this] at hC
  · unfold dirShare faceShare
    rw [sum_map_add']
    have t1 : (fs.map fun f => if f.left.id = (l, p) then (cellLength h0 (max f.left.level f.right.level)) ^ n • (F f.comput).1 else 0).sum =
      (cellLength h0 l) ^ n • (F f.comput).1 := by
      refine Eq.trans s1 ?_
      simp only [lv1.1, lv1.2.2, max_self]
    have t2 : (fs.map fun f => if f.right.id = (l, p) then (cellLength h0 (max f.left.level f.right.level)) ^ n • (F f.comput).2 else 0).sum =
      (cellLength h0 l) ^ n • (F f'.comput).2 := by
      refine Eq.trans s2 ?_
      simp only [lv2.1, lv2.2.1, max_self]
    have nb : ∀ (dir : Nat → Int) (base : List Int → List Int) (L : List BdryCall) (G : List MCell → V),
        IsBoundary n ref cells dom maxL dir S base L → ¬ Outside n dom maxL l (shiftPoint dir n p) →
        (L.map fun f => if f.cell.id = (l, p) then bdryShare n h0 G f else 0).sum = 0 := by
      intro dir base L G hL ho
      refine (sum_map_congr (g := fun _ => (0 : V)) fun f hf => ?_).trans (sum_map_zero' _)
      rw [if_neg]
      intro h
      exact ho ((hL.mem l p).1 (by rw [h.symm]; exact List.mem_map.2 ⟨f, hf, rfl⟩)).2
    rw [t1, t2, nb _ _ bs _ hb o1, nb _ _ bs' _ hb' o2, smul_add]
    simp

end

end Samurai

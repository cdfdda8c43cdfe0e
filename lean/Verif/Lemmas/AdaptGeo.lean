import Verif.Lemmas.AdaptTags
import Verif.Lemmas.Update

namespace Samurai

/-! ### touching cells -/

theorem near_symm {w : Nat} {p q : List Int} (h : Near w p q) : Near w q p := by
  induction h with
  | nil => exact List.Forall₂.nil
  | cons h _ ih => exact List.Forall₂.cons ⟨h.2, h.1⟩ ih

theorem shr_near {a b : Int} (k : Nat) (h : a ≤ b + 1) : shr a k ≤ shr b k + 1 := by
  unfold shr
  have hp : (0 : Int) < 2 ^ k := pow_two_pos k
  have h1 : a / 2 ^ k ≤ (b + 2 ^ k) / 2 ^ k := Int.ediv_le_ediv hp (by omega)
  rwa [Int.add_ediv_of_dvd_right (dvd_refl _), Int.ediv_self (by omega)] at h1

theorem near_up {a b : List Int} (k : Nat) (h : Near 1 a b) : Near 1 (a.map fun x => shr x k) (b.map fun x => shr x k) := by
  induction h with
  | nil => exact List.Forall₂.nil
  | cons h _ ih => exact List.Forall₂.cons ⟨shr_near k h.1, shr_near k h.2⟩ ih

theorem near_up' {a b p q : List Int} {k : Nat} (h : Near 1 a b) (hp : Anc k p a) (hq : Anc k q b) : Near 1 p q := by
  rw [anc_iff.1 hp, anc_iff.1 hq]; exact near_up k h

theorem touch_one (k : Nat) {p q : Int} (h1 : p ≤ q + 1) (h2 : q ≤ p + 1) :
    ∃ a b, shr a k = p ∧ shr b k = q ∧ a ≤ b + 1 ∧ b ≤ a + 1 := by
  have hp : (0 : Int) < 2 ^ k := pow_two_pos k
  have e1 : ∀ x : Int, shr (x * 2 ^ k) k = x := fun x => by unfold shr; exact Int.mul_ediv_cancel _ (by omega)
  have e2 : ∀ x : Int, shr (x * 2 ^ k + (2 ^ k - 1)) k = x := by
    intro x
    unfold shr
    rw [Int.add_comm, Int.add_mul_ediv_right _ _ (by omega), Int.ediv_eq_zero_of_lt (by omega) (by omega)]
    omega
  rcases lt_trichotomy p q with h | h | h
  · obtain rfl : q = p + 1 := by omega
    refine ⟨p * 2 ^ k + (2 ^ k - 1), (p + 1) * 2 ^ k, e2 p, e1 _, ?_, ?_⟩ <;> rw [add_mul] <;> omega
  · subst h
    exact ⟨_, _, e1 p, e1 p, by omega, by omega⟩
  · obtain rfl : p = q + 1 := by omega
    refine ⟨(q + 1) * 2 ^ k, q * 2 ^ k + (2 ^ k - 1), e1 _, e2 q, ?_, ?_⟩ <;> rw [add_mul] <;> omega

/-- Two cells that touch contain fine cells that touch. -/
theorem touch_down (k : Nat) {p q : List Int} (h : Near 1 p q) : ∃ a b, Anc k p a ∧ Anc k q b ∧ Near 1 a b := by
  simp only [anc_iff]
  induction h with
  | nil => exact ⟨[], [], rfl, rfl, List.Forall₂.nil⟩
  | @cons x y p q h _ ih =>
    obtain ⟨a, b, h1, h2, h3⟩ := ih
    obtain ⟨c, d, g1, g2, g3, g4⟩ := touch_one k h.1 h.2
    refine ⟨c :: a, d :: b, ?_, ?_, List.Forall₂.cons ⟨g3, g4⟩ h3⟩
    · rw [List.map_cons, g1, ← h1]
    · rw [List.map_cons, g2, ← h2]

theorem near_siblings {s q : List Int} (h : parentOf s = parentOf q) : Near 1 s q := by
  unfold parentOf at h
  induction s generalizing q with
  | nil =>
    cases q with
    | nil => exact List.Forall₂.nil
    | cons b q => simp at h
  | cons a s ih =>
    cases q with
    | nil => simp at h
    | cons b q =>
      rw [List.map_cons, List.map_cons, List.cons.injEq] at h
      refine List.Forall₂.cons ?_ (ih h.2)
      have := h.1
      unfold shr at this
      constructor <;> omega

/-- The graded condition on the fine cells of level `M` in the leaves. -/
theorem graded_fine {n : Nat} {c : CA} {M : Nat} (hg : c.Graded n) {l l' : Nat} {p p' a b : List Int} (hp : c.Mem n l p)
    (hp' : c.Mem n l' p') (hl : l ≤ M) (hl' : l' ≤ M) (ha : Anc (M - l) p a) (hb : Anc (M - l') p' b) (h : Near 1 a b) : l' ≤ l + 1 := by
  by_cases hle : l ≤ l'
  · refine hg l p l' p' (a.map fun x => shr x (M - l')) hp hp' hle (near_up' h (anc_iff.2 rfl) hb) ?_
    have := anc_of_anc (by omega) ha (anc_iff.2 rfl : Anc (M - l') _ a)
    rwa [show M - l - (M - l') = l' - l by omega] at this
  · omega

theorem graded_of_fine {n : Nat} {c : CA} {M : Nat} (hM : ∀ l p, c.Mem n l p → l ≤ M)
    (h : ∀ l p l' p' a b, c.Mem n l p → c.Mem n l' p' → Anc (M - l) p a → Anc (M - l') p' b → Near 1 a b → l' ≤ l + 1) : c.Graded n := by
  intro l p l' p' q hp hp' hle hq ha
  have hl' := hM l' p' hp'
  obtain ⟨a, b, h1, h2, h3⟩ := touch_down (M - l') hq
  refine h l p l' p' a b hp hp' ?_ h2 h3
  have := anc_trans ha h1
  rwa [show l' - l + (M - l') = M - l by omega] at this

/-! ### leaves that tile a domain -/

theorem GoodDomain.mono {n : Nat} {dom : LCA} {minL maxL margin margin' : Nat} (h : GoodDomain n dom minL maxL margin) (hm : margin' ≤ margin) :
    GoodDomain n dom minL maxL margin' := by
  obtain ⟨D, d1, d2, d3⟩ := h.range
  refine ⟨h.wf, h.level, h.whole, D, d1, ?_, d3⟩
  have : (margin' : Int) * 2 ^ maxL ≤ (margin : Int) * 2 ^ maxL := Int.mul_le_mul_of_nonneg_right (by omega) (le_of_lt (pow_two_pos maxL))
  omega

theorem GoodDomain.belowAt {n : Nat} {dom : LCA} {maxL : Nat} {D : Int}
    (h : ∀ m, InDomain n dom maxL m → ∀ x ∈ m, x < D) : dom.BelowAt n maxL D := by
  intro p hp x hx
  refine h (p.map fun x => shl x (maxL - dom.level)) ⟨p, hp, anc_iff.2 ?_⟩ _ (List.mem_map.2 ⟨x, hx, rfl⟩)
  rw [List.map_map]
  conv_lhs => rw [← List.map_id p]
  apply List.map_congr_left
  intro x _
  simp [shr_shl]

theorem GoodLeaves.below {n : Nat} {cells : CA} {dom : LCA} {minL maxL : Nat} (g : GoodLeaves n cells dom minL maxL) {D : Int}
    (h : ∀ m, InDomain n dom maxL m → ∀ x ∈ m, x < D) : cells.Below n maxL D := by
  intro l p hp x hx
  refine h (p.map fun x => shl x (maxL - l)) ((g.tiles _).1 ⟨l, p, (g.between l p hp).2, hp, anc_iff.2 ?_⟩) _ (List.mem_map.2 ⟨x, hx, rfl⟩)
  rw [List.map_map]
  conv_lhs => rw [← List.map_id p]
  apply List.map_congr_left
  intro x _
  simp [shr_shl]

theorem GoodLeaves.siblings {n : Nat} {cells : CA} {dom : LCA} {minL maxL : Nat} (g : GoodLeaves n cells dom minL maxL)
    (hw : ∀ p m m', Anc (maxL - minL) p m → Anc (maxL - minL) p m' → InDomain n dom maxL m → InDomain n dom maxL m') {l : Nat}
    {q s : List Int} (hl : minL < l) (hq : cells.Mem n l q) (hs : parentOf s = parentOf q) :
    cells.Mem n l s ∨ ∃ c, cells.Mem n (l + 1) c ∧ parentOf c = s := by
  have hlm := (g.between l q hq).2
  obtain ⟨m', m, h1, h2, h3⟩ := touch_down (maxL - l) (near_siblings hs)
  have hps : Anc 1 (parentOf q) s := anc_one.2 hs
  have hpq : Anc 1 (parentOf q) q := anc_one.2 rfl
  have a1 : Anc (maxL - minL) ((parentOf q).map fun x => shr x (l - 1 - minL)) m := by
    have := anc_trans (anc_trans (anc_iff.2 rfl : Anc (l - 1 - minL) _ (parentOf q)) hpq) h2
    rwa [show l - 1 - minL + 1 + (maxL - l) = maxL - minL by omega] at this
  have a2 : Anc (maxL - minL) ((parentOf q).map fun x => shr x (l - 1 - minL)) m' := by
    have := anc_trans (anc_trans (anc_iff.2 rfl : Anc (l - 1 - minL) _ (parentOf q)) hps) h1
    rwa [show l - 1 - minL + 1 + (maxL - l) = maxL - minL by omega] at this
  obtain ⟨l', p', g1, g2, g3⟩ := (g.tiles m').2 (hw _ _ _ a1 a2 ((g.tiles m).1 ⟨l, q, hlm, hq, h2⟩))
  have h4 : l' ≤ l + 1 := graded_fine g.graded hq g2 hlm g1 h2 g3 (near_symm h3)
  rcases Nat.lt_trichotomy l' l with h5 | h5 | h5
  · exfalso
    have b1 : Anc (l - 1 - l') p' (parentOf q) := by
      have := anc_of_anc (j := maxL - l') (k := 1 + (maxL - l)) (by omega) g3 (anc_trans hps h1)
      rwa [show maxL - l' - (1 + (maxL - l)) = l - 1 - l' by omega] at this
    have b2 : Anc (l - l') p' q := by
      have := anc_trans b1 hpq
      rwa [show l - 1 - l' + 1 = l - l' by omega] at this
    have := (g.noOverlap l' p' l q g2 hq (by omega) b2).1
    omega
  · subst h5
    left
    rw [anc_unique h1 g3]; exact g2
  · obtain rfl : l' = l + 1 := by omega
    right
    refine ⟨p', g2, anc_one.1 ?_⟩
    have := anc_of_anc (j := maxL - l) (k := maxL - (l + 1)) (by omega) h1 g3
    rwa [show maxL - l - (maxL - (l + 1)) = 1 by omega] at this

/-! ### diagonals -/

theorem exists_sign (x y : Int) (h1 : x ≤ y + 1) (h2 : y ≤ x + 1) :
    ∃ e : Int, (e = -1 ∨ e = 1) ∧ shr (y + e) 1 = shr x 1 := by
  unfold shr
  rcases lt_trichotomy x y with h | h | h
  · exact ⟨-1, Or.inl rfl, by congr 1; omega⟩
  · subst h
    rcases Int.emod_two_eq_zero_or_one x with h | h
    · exact ⟨1, Or.inr rfl, by omega⟩
    · exact ⟨-1, Or.inl rfl, by omega⟩
  · exact ⟨1, Or.inr rfl, by congr 1; omega⟩

theorem exists_dir {n : Nat} (hn : n ≤ 2) {x y : List Int} (hy : y.length = n + 1) (h : Near 1 x y) :
    ∃ s ∈ gradStencils n 1, parentOf (shiftPoint s n y) = parentOf x ∧ Near 1 (shiftPoint s n y) y := by
  have step : ∀ e : Int, (e = -1 ∨ e = 1) → ∀ y : Int, y + 1 * e ≤ y + (1 : Nat) ∧ y ≤ y + 1 * e + (1 : Nat) := by
    rintro e (rfl | rfl) y <;> constructor <;> omega
  have key : ∀ s : Nat → Int, s ∈ boxDir n → (fun d => ((1 : Nat) : Int) * s d) ∈ gradStencils n 1 := fun s hs =>
    List.mem_map.2 ⟨s, hs, rfl⟩
  rcases n with _ | _ | _ | n
  · match y, hy, x, h with
    | [c], _, [a], .cons h1 .nil =>
      obtain ⟨e, he, h2⟩ := exists_sign a c (by simpa using h1.1) (by simpa using h1.2)
      refine ⟨fun d => ((1 : Nat) : Int) * (fun _ => e) d, key _ ?_, ?_, ?_⟩
      · rcases he with rfl | rfl <;> simp [boxDir]
      · simp [parentOf, shiftPoint, h2]
      · simpa [shiftPoint, Near] using step e he c
  · match y, hy, x, h with
    | [c0, c], _, [a0, a], .cons h0 (.cons h1 .nil) =>
      obtain ⟨e, he, h2⟩ := exists_sign a c (by simpa using h1.1) (by simpa using h1.2)
      obtain ⟨e0, he0, h20⟩ := exists_sign a0 c0 (by simpa using h0.1) (by simpa using h0.2)
      refine ⟨fun d => ((1 : Nat) : Int) * (fun d => [e, e0].getD d 0) d, key _ ?_, ?_, ?_⟩
      · rcases he with rfl | rfl <;> rcases he0 with rfl | rfl <;> simp [boxDir]
      · simp [parentOf, shiftPoint, h2, h20]
      · exact List.Forall₂.cons (step e0 he0 c0) (.cons (step e he c) .nil)
  · match y, hy, x, h with
    | [c1, c0, c], _, [a1, a0, a], .cons h9 (.cons h0 (.cons h1 .nil)) =>
      obtain ⟨e, he, h2⟩ := exists_sign a c (by simpa using h1.1) (by simpa using h1.2)
      obtain ⟨e0, he0, h20⟩ := exists_sign a0 c0 (by simpa using h0.1) (by simpa using h0.2)
      obtain ⟨e1, he1, h21⟩ := exists_sign a1 c1 (by simpa using h9.1) (by simpa using h9.2)
      refine ⟨fun d => ((1 : Nat) : Int) * (fun d => [e, e0, e1].getD d 0) d, key _ ?_, ?_, ?_⟩
      · rcases he with rfl | rfl <;> rcases he0 with rfl | rfl <;> rcases he1 with rfl | rfl <;> simp [boxDir]
      · simp [parentOf, shiftPoint, h2, h20, h21]
      · exact List.Forall₂.cons (step e1 he1 c1) (.cons (step e0 he0 c0) (.cons (step e he c) .nil))
  · omega

theorem sub_eq_shift (s : Nat → Int) (p : List Int) : ∀ d, subPoint (fun d => - s d) d p = shiftPoint s d p := by
  induction p with
  | nil => intro d; rfl
  | cons c p ih => intro d; simp [subPoint, shiftPoint, ih]

theorem boxDir_neg {n : Nat} {s : Nat → Int} (h : s ∈ boxDir n) : (fun d => - s d) ∈ boxDir n := by
  have e1 : ∀ a b : Int, (fun d : Nat => - ([a, b].getD d 0)) = fun d => [-a, -b].getD d 0 := by
    intro a b; funext d; rcases d with _ | _ | d <;> simp
  have e2 : ∀ a b c : Int, (fun d : Nat => - ([a, b, c].getD d 0)) = fun d => [-a, -b, -c].getD d 0 := by
    intro a b c; funext d; rcases d with _ | _ | _ | d <;> simp
  rcases n with _ | _ | n <;> unfold boxDir at h ⊢ <;> simp only [List.mem_cons, List.not_mem_nil, or_false] at h
  · rcases h with rfl | rfl <;> simp
  · rcases h with rfl | rfl | rfl | rfl <;> rw [e1] <;> simp
  · rcases h with rfl | rfl | rfl | rfl | rfl | rfl | rfl | rfl <;> rw [e2] <;> simp

theorem exists_dir_sub {n : Nat} (hn : n ≤ 2) {x y : List Int} (hy : y.length = n + 1) (h : Near 1 x y) :
    ∃ s ∈ gradStencils n 1, parentOf (subPoint s n y) = parentOf x := by
  obtain ⟨s, h1, h2, _⟩ := exists_dir hn hy h
  refine ⟨fun d => - s d, ?_, by rw [sub_eq_shift]; exact h2⟩
  obtain ⟨s', h3, rfl⟩ := List.mem_map.1 h1
  exact List.mem_map.2 ⟨_, boxDir_neg h3, by funext d; simp⟩

end Samurai

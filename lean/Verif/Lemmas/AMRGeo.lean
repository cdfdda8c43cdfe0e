import Verif.Lemmas.AMRGraduation
import Verif.Lemmas.AdaptStep

namespace Samurai

/-! ### neighbours -/

/-- What the proofs use of the relation between neighbours. -/
structure NearRel (near : List Int → List Int → Prop) : Prop where
  touch : ∀ {p q}, near p q → Near 1 p q
  symm : ∀ {p q}, near p q → near q p
  up : ∀ {p q} (k : Nat), near p q → (p.map fun x => shr x k) = (q.map fun x => shr x k) ∨ near (p.map fun x => shr x k) (q.map fun x => shr x k)
  down : ∀ {p q} (k : Nat), near p q → ∃ a b, Anc k p a ∧ Anc k q b ∧ near a b
  faces : ∀ {p q}, FaceNeighbours p q → near p q

theorem face_near : ∀ {p q : List Int}, FaceNeighbours p q → Near 1 p q
  | [], _, h => by simp [FaceNeighbours] at h
  | _ :: _, [], h => by simp [FaceNeighbours] at h
  | a :: p, b :: q, h => by
    rcases h with ⟨rfl, h⟩ | ⟨h, rfl⟩
    · exact List.Forall₂.cons ⟨by omega, by omega⟩ (face_near h)
    · exact List.Forall₂.cons ⟨by omega, by omega⟩ (near_refl 1 _)

theorem nearRel_near : NearRel (Near 1) where
  touch h := h
  symm := near_symm
  up k h := Or.inr (near_up k h)
  down k h := touch_down k h
  faces := face_near

theorem face_symm : ∀ {p q : List Int}, FaceNeighbours p q → FaceNeighbours q p
  | [], _, h => by simp [FaceNeighbours] at h
  | _ :: _, [], h => by simp [FaceNeighbours] at h
  | a :: p, b :: q, h => by
    rcases h with ⟨rfl, h⟩ | ⟨h, rfl⟩
    · exact Or.inl ⟨rfl, face_symm h⟩
    · exact Or.inr ⟨h.symm, rfl⟩

theorem face_up (k : Nat) : ∀ {p q : List Int}, FaceNeighbours p q →
    (p.map fun x => shr x k) = (q.map fun x => shr x k) ∨ FaceNeighbours (p.map fun x => shr x k) (q.map fun x => shr x k)
  | [], _, h => by simp [FaceNeighbours] at h
  | _ :: _, [], h => by simp [FaceNeighbours] at h
  | a :: p, b :: q, h => by
    rcases h with ⟨rfl, h⟩ | ⟨h, rfl⟩
    · rcases face_up k h with h | h
      · left; simp only [List.map_cons, h]
      · right; exact Or.inl ⟨rfl, h⟩
    · have h1 := shr_near (a := a) (b := b) k (by omega)
      have h2 := shr_near (a := b) (b := a) k (by omega)
      by_cases he : shr a k = shr b k
      · left; simp only [List.map_cons, he]
      · right; exact Or.inr ⟨(by omega : shr a k = shr b k + 1 ∨ shr b k = shr a k + 1), rfl⟩

theorem touch_step (k : Nat) {p q : Int} (h : p = q + 1 ∨ q = p + 1) : ∃ a b, shr a k = p ∧ shr b k = q ∧ (a = b + 1 ∨ b = a + 1) := by
  obtain ⟨a, b, h1, h2, h3, h4⟩ := touch_one k (p := p) (q := q) (by omega) (by omega)
  refine ⟨a, b, h1, h2, ?_⟩
  have : a ≠ b := by rintro rfl; omega
  omega

theorem face_down (k : Nat) : ∀ {p q : List Int}, FaceNeighbours p q → ∃ a b, Anc k p a ∧ Anc k q b ∧ FaceNeighbours a b
  | [], _, h => by simp [FaceNeighbours] at h
  | _ :: _, [], h => by simp [FaceNeighbours] at h
  | x :: p, y :: q, h => by
    have e : shr (shl x k) k = x := by unfold shr shl; exact Int.mul_ediv_cancel _ (by have := pow_two_pos k; omega)
    rcases h with ⟨rfl, h⟩ | ⟨h, rfl⟩
    · obtain ⟨a, b, h1, h2, h3⟩ := face_down k h
      refine ⟨shl x k :: a, shl x k :: b, anc_iff.2 ?_, anc_iff.2 ?_, Or.inl ⟨rfl, h3⟩⟩
      · rw [List.map_cons, ← anc_iff.1 h1, e]
      · rw [List.map_cons, ← anc_iff.1 h2, e]
    · obtain ⟨a, b, h1, h2, h3⟩ := touch_step k h
      obtain ⟨c, hc⟩ := anc_exists k p
      refine ⟨a :: c, b :: c, anc_iff.2 ?_, anc_iff.2 ?_, Or.inr ⟨h3, rfl⟩⟩
      · rw [List.map_cons, ← anc_iff.1 hc, h1]
      · rw [List.map_cons, ← anc_iff.1 hc, h2]

theorem nearRel_face : NearRel FaceNeighbours where
  touch := face_near
  symm := face_symm
  up k h := face_up k h
  down k h := face_down k h
  faces h := h

theorem nearRel_of {near : List Int → List Int → Prop} (h : near = FaceNeighbours ∨ near = Near 1) : NearRel near := by
  rcases h with rfl | rfl
  · exact nearRel_face
  · exact nearRel_near

/-- The siblings of a cell are reached by changing one coordinate after the other. -/
theorem change_coords : ∀ (p q : List Int), parentOf q = parentOf p → ∀ P : List Int → Prop, P p →
    (∀ r s, P r → FaceNeighbours s r → parentOf s = parentOf r → P s) → P q
  | [], [], _, _, h, _ => h
  | [], _ :: _, h, _, _, _ => by simp [parentOf] at h
  | _ :: _, [], h, _, _, _ => by simp [parentOf] at h
  | a :: p, b :: q, h, P, hp, step => by
    simp only [parentOf, List.map_cons, List.cons.injEq] at h
    obtain ⟨h1, h2⟩ := h
    have h3 : P (b :: p) := by
      by_cases hab : b = a
      · rw [hab]; exact hp
      · refine step _ _ hp (Or.inr ⟨?_, rfl⟩) (by simp only [parentOf, List.map_cons, h1])
        unfold shr at h1
        omega
    exact change_coords p q h2 (fun r => P (b :: r)) h3 fun r s hr hf hs =>
      step _ _ hr (Or.inl ⟨rfl, hf⟩) (by simp only [parentOf, List.map_cons, List.cons.injEq, true_and]; exact hs)

/-! ### graded meshes -/

variable {n gw : Nat} {near : List Int → List Int → Prop} {S : List (Nat → Int)} {cells all : CA} {dom : LCA} {minL maxL : Nat}

theorem gradedBy_fine (hr : NearRel near) {c : CA} {M : Nat} (hg : c.GradedBy n near) (hno : c.NoOverlap n) {l l' : Nat} {p p' a b : List Int} (hp : c.Mem n l p)
    (hp' : c.Mem n l' p') (hl : l ≤ M) (hl' : l' ≤ M) (ha : Anc (M - l) p a) (hb : Anc (M - l') p' b) (h : near a b) : l' ≤ l + 1 := by
  by_cases hle : l ≤ l'
  · have h1 : Anc (l' - l) p (a.map fun x => shr x (M - l')) := by
      have := anc_of_anc (by omega) ha (anc_iff.2 rfl : Anc (M - l') _ a)
      rwa [show M - l - (M - l') = l' - l by omega] at this
    rcases hr.up (M - l') h with he | hn
    · rw [he, ← anc_iff.1 hb] at h1
      have := (hno l p l' p' hp hp' hle h1).1
      omega
    · rw [← anc_iff.1 hb] at hn
      exact hg l p l' p' _ hp hp' hle hn h1
  · omega

theorem gradedBy_of_fine (hr : NearRel near) {c : CA} {M : Nat} (hM : ∀ l p, c.Mem n l p → l ≤ M)
    (h : ∀ l p l' p' a b, c.Mem n l p → c.Mem n l' p' → Anc (M - l) p a → Anc (M - l') p' b → near a b → l' ≤ l + 1) : c.GradedBy n near := by
  intro l p l' p' q hp hp' hle hq ha
  have hl' := hM l' p' hp'
  obtain ⟨a, b, h1, h2, h3⟩ := hr.down (M - l') hq
  refine h l p l' p' a b hp hp' ?_ h2 h3
  have := anc_trans ha h1
  rwa [show l' - l + (M - l') = M - l by omega] at this

theorem AMRLeaves.below (g : AMRLeaves n near cells dom minL maxL) {D : Int}
    (h : ∀ m, InDomain n dom maxL m → ∀ x ∈ m, x < D) : cells.Below n maxL D := by
  intro l p hp x hx
  refine h (p.map fun x => shl x (maxL - l)) ((g.tiles _).1 ⟨l, p, (g.between l p hp).2, hp, anc_iff.2 ?_⟩) _ (List.mem_map.2 ⟨x, hx, rfl⟩)
  rw [List.map_map]
  conv_lhs => rw [← List.map_id p]
  apply List.map_congr_left
  intro y _
  unfold shr shl
  exact (Int.mul_ediv_cancel _ (by have := pow_two_pos (maxL - l); omega)).symm

/-- A sibling that is a neighbour of a leaf is a leaf or has a child that is a leaf. -/
theorem AMRLeaves.siblings (hr : NearRel near) (g : AMRLeaves n near cells dom minL maxL)
    (hw : ∀ p m m', Anc (maxL - minL) p m → Anc (maxL - minL) p m' → InDomain n dom maxL m → InDomain n dom maxL m') {l : Nat}
    {q s : List Int} (hl : minL < l) (hq : cells.Mem n l q) (hn : near s q) (hs : parentOf s = parentOf q) :
    cells.Mem n l s ∨ ∃ c, cells.Mem n (l + 1) c ∧ parentOf c = s := by
  have hlm := (g.between l q hq).2
  obtain ⟨m', m, h1, h2, h3⟩ := hr.down (maxL - l) hn
  have hps : Anc 1 (parentOf q) s := anc_one.2 hs
  have hpq : Anc 1 (parentOf q) q := anc_one.2 rfl
  have a1 : Anc (maxL - minL) ((parentOf q).map fun x => shr x (l - 1 - minL)) m := by
    have := anc_trans (anc_trans (anc_iff.2 rfl : Anc (l - 1 - minL) _ (parentOf q)) hpq) h2
    rwa [show l - 1 - minL + 1 + (maxL - l) = maxL - minL by omega] at this
  have a2 : Anc (maxL - minL) ((parentOf q).map fun x => shr x (l - 1 - minL)) m' := by
    have := anc_trans (anc_trans (anc_iff.2 rfl : Anc (l - 1 - minL) _ (parentOf q)) hps) h1
    rwa [show l - 1 - minL + 1 + (maxL - l) = maxL - minL by omega] at this
  obtain ⟨l', p', g1, g2, g3⟩ := (g.tiles m').2 (hw _ _ _ a1 a2 ((g.tiles m).1 ⟨l, q, hlm, hq, h2⟩))
  have h4 : l' ≤ l + 1 := gradedBy_fine hr g.graded g.noOverlap hq g2 hlm g1 h2 g3 (hr.symm h3)
  rcases Nat.lt_trichotomy l' l with h5 | h5 | h5
  · exfalso
    have b1 : Anc (l - 1 - l') p' (parentOf q) := by
      have := anc_of_anc (j := maxL - l') (k := 1 + (maxL - l)) (by omega) g3 (anc_trans hps h1)
      rwa [show maxL - l' - (1 + (maxL - l)) = l - 1 - l' by omega] at this
    have b2 : Anc (l - l') p' q := by
      have := anc_trans b1 hpq
      rwa [show l - 1 - l' + 1 = l - l' by omega] at this
    have := (g.noOverlap l' p' l q g2 hq (by omega) b2).1
    omega
  · subst h5
    left
    rw [anc_unique h1 g3]; exact g2
  · obtain rfl : l' = l + 1 := by omega
    right
    refine ⟨p', g2, anc_one.1 ?_⟩
    have := anc_of_anc (j := maxL - l) (k := maxL - (l + 1)) (by omega) h1 g3
    rwa [show maxL - l - (maxL - (l + 1)) = 1 by omega] at this

/-- The flags after `graduation`. -/
structure GraduatedTags (n gw : Nat) (S : List (Nat → Int)) (cells all : CA) (t t' : TagField) : Prop where
  coarsen : ∀ l q, t'.Coarsen l q ↔ t.Coarsen l q
  refine : ∀ l q, t'.Refine l q ↔ MustRefine n S cells t l q
  keep : ∀ l q, t'.Keep l q ↔ MustKeep n gw S cells all t l q

/-- A leaf without flag `keep` or `refine` has the same siblings, and they are leaves. -/
theorem graduated_siblings (hr : NearRel near) (g : AMRLeaves n near cells dom minL maxL) (R : AMRRoom n gw cells all)
    (hw : ∀ p m m', Anc (maxL - minL) p m → Anc (maxL - minL) p m' → InDomain n dom maxL m → InDomain n dom maxL m')
    {t t' : TagField} (h : GraduatedTags n gw S cells all t t') {l : Nat} {p q : List Int} (hl : minL < l) (hp : cells.Mem n l p)
    (hk : ¬ t'.Keep l p) (hq : parentOf q = parentOf p) : cells.Mem n l q ∧ ¬ t'.Keep l q ∧ ¬ t'.Refine l q := by
  obtain ⟨l, rfl⟩ : ∃ j, l = j + 1 := ⟨l - 1, by omega⟩
  have none : ∀ q, parentOf q = parentOf p → ¬ t'.Keep (l + 1) q := by
    intro q hq hkq
    exact hk ((h.keep _ _).2 (.siblings hp ((h.keep _ _).1 hkq) (anc_one.2 rfl) (anc_one.2 hq) (anc_one.2 rfl)))
  have leaf : parentOf q = parentOf p ∧ cells.Mem n (l + 1) q := by
    refine change_coords p q hq (fun q => parentOf q = parentOf p ∧ cells.Mem n (l + 1) q) ⟨rfl, hp⟩ fun r s ⟨e, hr'⟩ hf hs => ?_
    refine ⟨hs.trans e, ?_⟩
    rcases g.siblings hr hw hl hr' (hr.faces hf) hs with k | ⟨c, k1, k2⟩
    · exact k
    · exact absurd ((h.keep _ _).2 (.parent k1 (anc_one.2 k2) (R.near _ _ _ hr' (face_near hf)))) (none s (hs.trans e))
  refine ⟨leaf.2, none q hq, fun hrf => none q hq ((h.keep _ _).2 (.around leaf.2 ((h.refine _ _).1 hrf) (near_refl _ _)))⟩

theorem near_mono {w w' : Nat} (h : w ≤ w') {p q : List Int} (hn : Near w p q) : Near w' p q := by
  induction hn with
  | nil => exact List.Forall₂.nil
  | cons h1 _ ih => exact List.Forall₂.cons ⟨by omega, by omega⟩ ih

/-- The new mesh is graded. -/
theorem graduated_graded (hr : NearRel near) (g : AMRLeaves n near cells dom minL maxL) (hgw : 1 ≤ gw) (hS : Reaches n near S)
    {t t' : TagField} (h : GraduatedTags n gw S cells all t t') {tag : Int → BitVec 32}
    (hleaf : ∀ l p v, LeafTag n cells tag l p v ↔ cells.Mem n l p ∧ t' l p = v) (hs : SiblingsAgree n cells minL tag) {new : CA}
    (hb : new.Between n minL maxL)
    (hnew : ∀ l p, new.Mem n l p ↔ ∃ l' q v, LeafTag n cells tag l' q v ∧ Becomes minL maxL v l' q l p) :
    new.GradedBy n near := by
  have hbt := g.between
  refine gradedBy_of_fine hr (M := maxL) (fun l p hp => (hb l p hp).2) fun l p l' p' a b hp hp' ha hb' hab => ?_
  have hlM := (hb l p hp).2
  have hlM' := (hb l' p' hp').2
  have old : ∀ l p a, new.Mem n l p → l ≤ maxL → Anc (maxL - l) p a → ∃ a0 x0, cells.Mem n a0 x0 ∧ Anc (maxL - a0) x0 a ∧
      Becomes minL maxL (t' a0 x0) a0 x0 l p := by
    intro l p a hp hl ha
    obtain ⟨a0, x1, v, k1, k2⟩ := (hnew l p).1 hp
    have hm1 := k1.mem g.wf
    obtain ⟨x0, v', k3, k4, k5⟩ := becomes_above g.wf hs k1 k2 (hbt a0 x1 hm1).2 hl ha
    obtain ⟨k6, rfl⟩ := (hleaf _ _ _).1 k3
    exact ⟨a0, x0, k6, k5, k4⟩
  obtain ⟨a0, x0, x1, x2, x3⟩ := old l p a hp hlM ha
  obtain ⟨b0, y0, y1, y2, y3⟩ := old l' p' b hp' hlM' hb'
  have hx := hbt a0 x0 x1
  have hy := hbt b0 y0 y1
  have g1 := gradedBy_fine hr g.graded g.noOverlap x1 y1 hx.2 hy.2 x2 y2 hab
  have g2 := gradedBy_fine hr g.graded g.noOverlap y1 x1 hy.2 hx.2 y2 x2 (hr.symm hab)
  -- what the tags say
  have X : (t'.Refine a0 x0 ∧ a0 < maxL ∧ l = a0 + 1) ∨ (¬ t'.Refine a0 x0 ∧ ¬ t'.Keep a0 x0 ∧ minL < a0 ∧ l + 1 = a0) ∨
      ((t'.Refine a0 x0 → maxL ≤ a0) ∧ l = a0) := by
    rcases x3 with ⟨e1, e2, e3, _⟩ | ⟨e1, e2, e3, _⟩ | ⟨e1, e2, _⟩
    · exact Or.inl ⟨asks_refine.1 e1, e2, e3⟩
    · exact Or.inr (Or.inl ⟨(asks_coarsen.1 e1).1, (asks_coarsen.1 e1).2.1, e2, e3.symm⟩)
    · refine Or.inr (Or.inr ⟨fun hr => ?_, e2⟩)
      rcases e1 with e1 | e1 | e1
      · exact e1.2
      · exact absurd hr (asks_keep.1 e1).1
      · exact absurd hr (asks_coarsen.1 e1.1).1
  have Y : (t'.Refine b0 y0 ∧ b0 < maxL ∧ l' = b0 + 1) ∨ (l' = b0 ∧ (t'.Refine b0 y0 ∨ t'.Keep b0 y0 ∨ b0 ≤ minL)) ∨ l' + 1 = b0 := by
    rcases y3 with ⟨e1, e2, e3, _⟩ | ⟨e1, e2, e3, _⟩ | ⟨e1, e2, _⟩
    · exact Or.inl ⟨asks_refine.1 e1, e2, e3⟩
    · exact Or.inr (Or.inr e3.symm)
    · refine Or.inr (Or.inl ⟨e2, ?_⟩)
      rcases e1 with e1 | e1 | e1
      · exact Or.inl (asks_refine.1 e1.1)
      · exact Or.inr (Or.inl (asks_keep.1 e1).2)
      · exact Or.inr (Or.inr e1.2)
  by_contra hcon
  rcases Nat.lt_trichotomy b0 a0 with hlt | heq | hgt
  · omega
  · -- same level: `y0` is refined and `x0` is coarsened
    subst heq
    rcases Y with ⟨r1, r2, r3⟩ | r
    swap
    · omega
    rcases X with ⟨s1, s2, s3⟩ | ⟨s1, s2, s3, s4⟩ | ⟨s1, s2⟩
    · omega
    · exact s2 ((h.keep _ _).2 (.around y1 ((h.refine _ _).1 r1) (near_mono hgw (near_up' (hr.touch hab) x2 y2))))
    · omega
  · obtain rfl : b0 = a0 + 1 := by omega
    -- a vector of the stencil moves `y0` into `x0`
    have hxa : Anc 1 x0 (a.map fun x => shr x (maxL - (a0 + 1))) := by
      have := anc_of_anc (by omega) x2 (anc_iff.2 rfl : Anc (maxL - (a0 + 1)) _ a)
      rwa [show maxL - a0 - (maxL - (a0 + 1)) = 1 by omega] at this
    have hnot : ¬ Anc 1 x0 y0 := fun hanc => by
      have := (g.noOverlap a0 x0 (a0 + 1) y0 x1 y1 (by omega) (by rwa [show a0 + 1 - a0 = 1 by omega])).1
      omega
    obtain ⟨s, hs1, hs2⟩ : ∃ s ∈ S, Anc 1 x0 (shiftPoint s n y0) := by
      rcases hr.up (maxL - (a0 + 1)) hab with he | hn
      · rw [he, ← anc_iff.1 y2] at hxa
        exact absurd hxa hnot
      · rw [← anc_iff.1 y2] at hn
        obtain ⟨s, k1, r, k2, k3⟩ := hS y0 _ (mem_length y1.2) hn fun r ⟨r1, r2⟩ => hnot (by rw [anc_unique hxa r2]; exact r1)
        exact ⟨s, k1, by rw [anc_unique hxa k2]; exact k3⟩
    have refined : t'.Refine (a0 + 1) y0 → t'.Refine a0 x0 := fun hrf => (h.refine _ _).2 (.neighbour y1 hs1 ((h.refine _ _).1 hrf) hs2 x1)
    have kept : t'.Keep (a0 + 1) y0 → t'.Keep a0 x0 := fun hk => (h.keep _ _).2 (.neighbour y1 hs1 ((h.keep _ _).1 hk) hs2 x1)
    rcases X with ⟨s1, s2, s3⟩ | ⟨s1, s2, s3, s4⟩ | ⟨s1, s2⟩
    · omega
    · rcases Y with ⟨r1, _⟩ | ⟨r1, r2 | r2 | r2⟩ | r
      · exact s1 (refined r1)
      · exact s1 (refined r2)
      · exact s2 (kept r2)
      · omega
      · omega
    · rcases Y with ⟨r1, r2, r3⟩ | r
      · have := s1 (refined r1); omega
      · omega

end Samurai

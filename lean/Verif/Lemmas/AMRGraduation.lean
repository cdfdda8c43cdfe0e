import Verif.Lemmas.AMRSets

namespace Samurai

variable {n gw : Nat} {S : List (Nat → Int)} {cells all : CA} {maxL : Nat}

/-- The flags `keep` of a level set by the criterion and by the turn of the loop for the next finer level. -/
def KeptFrom (n gw : Nat) (S : List (Nat → Int)) (cells all : CA) (t : TagField) (k : Nat) (q : List Int) : Prop :=
  t.Keep k q ∨ ((∃ c, cells.Mem n (k + 1) c ∧ parentOf c = q) ∧ all.Mem n k q) ∨
    ∃ s ∈ S, ∃ c, cells.Mem n (k + 1) c ∧ MustKeep n gw S cells all t (k + 1) c ∧ parentOf (shiftPoint s n c) = q ∧ cells.Mem n k q

theorem mustRefine_iff {t : TagField} {k : Nat} {q : List Int} : MustRefine n S cells t k q ↔ t.Refine k q ∨
    ∃ s ∈ S, ∃ c, cells.Mem n (k + 1) c ∧ MustRefine n S cells t (k + 1) c ∧ parentOf (shiftPoint s n c) = q ∧ cells.Mem n k q := by
  constructor
  · rintro (h | ⟨h1, h2, h3, h4, h5⟩)
    · exact Or.inl (hasRefine_iff.1 h)
    · exact Or.inr ⟨_, h2, _, h1, h3, anc_one.1 h4, h5⟩
  · rintro (h | ⟨s, h2, c, h1, h3, h4, h5⟩)
    · exact .criterion (hasRefine_iff.2 h)
    · exact .neighbour h1 h2 h3 (anc_one.2 h4) h5

theorem keptFrom_must {t : TagField} {k : Nat} {q : List Int} (h : KeptFrom n gw S cells all t k q) : MustKeep n gw S cells all t k q := by
  rcases h with h | ⟨⟨c, h1, h2⟩, h3⟩ | ⟨s, h2, c, h1, h3, h4, h5⟩
  · exact .criterion (hasKeep_iff.2 h)
  · exact .parent h1 (anc_one.2 h2) h3
  · exact .neighbour h1 h2 h3 (anc_one.2 h4) h5

theorem mustKeep_cases {t : TagField} {k : Nat} {q : List Int} (h : MustKeep n gw S cells all t k q) :
    (KeptFrom n gw S cells all t k q ∨ ∃ c, cells.Mem n k c ∧ MustRefine n S cells t k c ∧ Near gw q c) ∨
      ∃ c r, cells.Mem n k c ∧ parentOf c = parentOf q ∧ parentOf r = parentOf q ∧
        (KeptFrom n gw S cells all t k r ∨ ∃ c, cells.Mem n k c ∧ MustRefine n S cells t k c ∧ Near gw r c) := by
  induction h with
  | criterion h => exact Or.inl (Or.inl (Or.inl (hasKeep_iff.1 h)))
  | around h1 h2 h3 => exact Or.inl (Or.inr ⟨_, h1, h2, h3⟩)
  | parent h1 h2 h3 => exact Or.inl (Or.inl (Or.inr (Or.inl ⟨⟨_, h1, anc_one.1 h2⟩, h3⟩)))
  | neighbour h1 h2 h3 h4 h5 _ => exact Or.inl (Or.inl (Or.inr (Or.inr ⟨_, h2, _, h1, h3, anc_one.1 h4, h5⟩)))
  | siblings h1 _ h3 h4 h5 ih =>
    rw [anc_one] at h3 h4 h5
    rcases ih with h | ⟨c, r, k1, k2, k3, k4⟩
    · exact Or.inr ⟨_, _, h1, by rw [h3, h5], by rw [h4, h5], h⟩
    · exact Or.inr ⟨_, _, h1, by rw [h3, h5], by rw [k3, h4, h5], k4⟩

theorem mustKeep_iff {t : TagField} {k : Nat} (hk : 1 ≤ k) {q : List Int} : MustKeep n gw S cells all t k q ↔
    (KeptFrom n gw S cells all t k q ∨ ∃ c, cells.Mem n k c ∧ MustRefine n S cells t k c ∧ Near gw q c) ∨
      ∃ c r, cells.Mem n k c ∧ parentOf c = parentOf q ∧ parentOf r = parentOf q ∧
        (KeptFrom n gw S cells all t k r ∨ ∃ c, cells.Mem n k c ∧ MustRefine n S cells t k c ∧ Near gw r c) := by
  refine ⟨mustKeep_cases, fun h => ?_⟩
  have base : ∀ q, (KeptFrom n gw S cells all t k q ∨ ∃ c, cells.Mem n k c ∧ MustRefine n S cells t k c ∧ Near gw q c) →
      MustKeep n gw S cells all t k q := by
    rintro q (h | ⟨c, h1, h2, h3⟩)
    · exact keptFrom_must h
    · exact .around h1 h2 h3
  rcases h with h | ⟨c, r, k1, k2, k3, k4⟩
  · exact base q h
  · obtain ⟨k, rfl⟩ : ∃ j, k = j + 1 := ⟨k - 1, by omega⟩
    exact .siblings k1 (base r k4) (anc_one.2 k2) (anc_one.2 k3) (anc_one.2 rfl)

/-- What `graduation` does to the tags. -/
theorem graduation_spec (A : AMRSets n S cells all maxL) (R : AMRRoom n gw cells all) (hS : n = 0 → ∀ s ∈ S, s 0 ≤ 1 ∧ -1 ≤ s 0)
    (hlo : ∀ p, ¬ cells.Mem n 0 p) (hhi : ∀ l p, maxL < l → ¬ cells.Mem n l p) (t : TagField) :
    ∃ t', graduation n gw maxL S cells all t = some t' ∧ (∀ l q, t'.Coarsen l q ↔ t.Coarsen l q) ∧
      (∀ l q, t'.Refine l q ↔ MustRefine n S cells t l q) ∧ ∀ l q, t'.Keep l q ↔ MustKeep n gw S cells all t l q := by
  have noRef : ∀ l q, maxL ≤ l → (t.Refine l q ↔ MustRefine n S cells t l q) := by
    intro l q hl
    rw [mustRefine_iff]
    exact ⟨Or.inl, fun h => h.elim id fun ⟨_, _, c, h1, _⟩ => absurd h1 (hhi _ _ (by omega))⟩
  have noFrom : ∀ l q, maxL ≤ l → (KeptFrom n gw S cells all t l q ↔ t.Keep l q) := by
    intro l q hl
    refine ⟨?_, Or.inl⟩
    rintro (h | ⟨⟨c, h1, h2⟩, h3⟩ | ⟨s, h2, c, h1, h3, h4, h5⟩)
    · exact h
    · exact absurd h1 (hhi _ _ (by omega))
    · exact absurd h1 (hhi _ _ (by omega))
  obtain ⟨t', h1, h2⟩ := foldDown (graduationLevel n gw S cells all) (fun k (t' : TagField) =>
      (∀ l q, t'.Coarsen l q ↔ t.Coarsen l q) ∧ (∀ l q, k < l → (t'.Keep l q ↔ MustKeep n gw S cells all t l q)) ∧
      (∀ l q, k ≤ l → (t'.Refine l q ↔ MustRefine n S cells t l q)) ∧ (∀ q, t'.Keep k q ↔ KeptFrom n gw S cells all t k q) ∧
      ∀ l q, l < k → (t'.Keep l q ↔ t.Keep l q) ∧ (t'.Refine l q ↔ t.Refine l q)) 1 maxL le_rfl (by
    rintro k t1 hk1 hk2 ⟨i1, i2, i3, i4, i5⟩
    obtain ⟨t2, e1, e2, e3, e4, e5⟩ := graduationLevel_spec (gw := gw) A R hS hk1 hk2 t1
    have hk : ∀ q, LevelKeep n gw cells t1 k q ↔ MustKeep n gw S cells all t k q := by
      intro q
      rw [mustKeep_iff hk1]
      unfold LevelKeep
      simp only [i4, i3 k _ le_rfl]
    have hk' : k - 1 + 1 = k := by omega
    refine ⟨t2, e1, fun l q => (e2 l q).trans (i1 l q), fun l q hl => ?_, fun l q hl => ?_, fun q => ?_, fun l q hl => ?_⟩
    · by_cases h : l = k
      · subst h
        rw [(e4 q).1, hk]
      · rw [(e3 l h (by omega) q).1, i2 l q (by omega)]
    · by_cases h : l = k
      · subst h
        rw [(e4 q).2, i3 l q le_rfl]
      · by_cases h' : l = k - 1
        · subst h'
          rw [(e5 q).2, mustRefine_iff, hk', (i5 (k - 1) q (by omega)).2]
          simp only [i3 k _ le_rfl]
        · rw [(e3 l h h' q).2, i3 l q (by omega)]
    · rw [(e5 q).1, (i5 (k - 1) q (by omega)).1]
      unfold KeptFrom
      rw [hk']
      simp only [hk]
    · rw [(e3 l (by omega) (by omega) q).1, (e3 l (by omega) (by omega) q).2]
      exact i5 l q (by omega)) maxL t le_rfl
    ⟨fun _ _ => Iff.rfl, fun l q hl => by
      constructor
      · intro h; exact .criterion (hasKeep_iff.2 h)
      · intro h
        rcases mustKeep_cases h with (h | ⟨c, h, _⟩) | ⟨c, _, h, _⟩
        · exact (noFrom l q (by omega)).1 h
        · exact absurd h (hhi _ _ hl)
        · exact absurd h (hhi _ _ hl), noRef, fun q => (noFrom _ q le_rfl).symm, fun _ _ _ => ⟨Iff.rfl, Iff.rfl⟩⟩
  rw [show min maxL (1 - 1) = 0 by omega] at h2
  obtain ⟨i1, i2, i3, i4, _⟩ := h2
  refine ⟨t', h1, i1, fun l q => i3 l q (by omega), fun l q => ?_⟩
  rcases Nat.eq_zero_or_pos l with rfl | hl
  · rw [i4]
    refine ⟨keptFrom_must, fun h => ?_⟩
    rcases mustKeep_cases h with (h | ⟨c, h, _⟩) | ⟨c, _, h, _⟩
    · exact h
    · exact absurd h (hlo _)
    · exact absurd h (hlo _)
  · exact i2 l q hl

end Samurai

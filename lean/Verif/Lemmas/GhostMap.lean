import Verif.Lemmas.PetscMat

namespace Samurai

section
variable {K : Type} [Field K]

/-- The keys of a map. -/
def GhostMap.keys (m : GhostMap K) : List Int := m.map Prod.fst

/-! ### find and set -/

omit [Field K] in
theorem find_key {m : GhostMap K} {k : Int} : k ∈ m.keys ↔ ∃ l, m.find k = some l := by
  unfold GhostMap.keys GhostMap.find
  induction m with
  | nil => simp
  | cons e m ih =>
    obtain ⟨k', l'⟩ := e
    rw [List.map_cons, List.mem_cons, List.lookup_cons]
    by_cases hk : k = k'
    · subst hk
      simp
    · have : (k == k') = false := by simpa using hk
      rw [this]
      simp [hk, ih]

omit [Field K] in
theorem find_isSome {m : GhostMap K} {k : Int} : (m.find k).isSome = true ↔ k ∈ m.keys := by
  rw [find_key, Option.isSome_iff_exists]

omit [Field K] in
theorem mem_find {m : GhostMap K} (h : m.keys.Nodup) {k : Int} {l : LinComb K} (hm : (k, l) ∈ m) : m.find k = some l := by
  unfold GhostMap.keys at h
  unfold GhostMap.find
  induction m with
  | nil => simp at hm
  | cons e m ih =>
    obtain ⟨k', l'⟩ := e
    rw [List.map_cons, List.nodup_cons] at h
    rw [List.lookup_cons]
    rcases List.mem_cons.1 hm with he | hm'
    · cases he
      simp
    · have hk : k ≠ k' := by
        rintro rfl
        exact h.1 (List.mem_map.2 ⟨_, hm', rfl⟩)
      have : (k == k') = false := by simpa using hk
      rw [this]
      exact ih h.2 hm'

omit [Field K] in
theorem set_keys (m : GhostMap K) (k : Int) (v : LinComb K) : (m.set k v).keys = m.keys := by
  unfold GhostMap.keys
  induction m with
  | nil => rfl
  | cons e m ih =>
    obtain ⟨k', l'⟩ := e
    unfold GhostMap.set
    split_ifs
    · rfl
    · rw [List.map_cons, List.map_cons, ih]

omit [Field K] in
theorem find_set (m : GhostMap K) (k : Int) (v : LinComb K) (hk : k ∈ m.keys) (k' : Int) : (m.set k v).find k' = if k' = k then some v else m.find k' := by
  unfold GhostMap.keys at hk
  unfold GhostMap.find
  induction m with
  | nil => simp at hk
  | cons e m ih =>
    obtain ⟨a, l⟩ := e
    unfold GhostMap.set
    by_cases h : k = a
    · subst h
      rw [if_pos rfl, List.lookup_cons, List.lookup_cons]
      by_cases h' : k' = k
      · subst h'; simp
      · have : (k' == k) = false := by simpa using h'
        rw [this, if_neg h']
    · rw [if_neg h, List.lookup_cons, List.lookup_cons]
      rw [List.map_cons, List.mem_cons] at hk
      rw [ih (hk.resolve_left h)]
      by_cases h' : k' = a
      · subst h'
        simp [Ne.symm h]
      · have : (k' == a) = false := by simpa using h'
        rw [this]

/-! ### insert -/

omit [Field K] in
theorem insert_spec {m : GhostMap K} (h : m.keys.Pairwise (· < ·)) (k : Int) (v : LinComb K) :
    (m.insert k v).keys.Pairwise (· < ·) ∧ (∀ k', k' ∈ (m.insert k v).keys ↔ k' = k ∨ k' ∈ m.keys) ∧
      ∀ e, e ∈ m.insert k v ↔ e ∈ m ∨ (e = (k, v) ∧ k ∉ m.keys) := by
  unfold GhostMap.keys at h ⊢
  induction m with
  | nil => simp [GhostMap.insert]
  | cons e m ih =>
    obtain ⟨a, l⟩ := e
    rw [List.map_cons, List.pairwise_cons] at h
    obtain ⟨i1, i2, i3⟩ := ih h.2
    unfold GhostMap.insert
    split_ifs with h1 h2
    · refine ⟨?_, fun k' => by simp, fun e => ?_⟩
      · rw [List.map_cons, List.map_cons, List.pairwise_cons, List.pairwise_cons]
        refine ⟨fun b hb => ?_, h⟩
        rcases List.mem_cons.1 hb with rfl | hb
        · exact h1
        · exact lt_trans h1 (h.1 b hb)
      · have hn : k ∉ ((a, l) :: m).map Prod.fst := by
          rw [List.map_cons, List.mem_cons]
          rintro (h' | h')
          · dsimp at h'; omega
          · have := h.1 k h'
            dsimp at this
            omega
        rw [List.mem_cons]
        constructor
        · rintro (h' | h')
          · exact Or.inr ⟨h', hn⟩
          · exact Or.inl h'
        · rintro (h' | h')
          · exact Or.inr h'
          · exact Or.inl h'.1
    · subst h2
      refine ⟨by rw [List.map_cons, List.pairwise_cons]; exact h, fun k' => by simp, fun e => ?_⟩
      have : k ∈ ((k, l) :: m).map Prod.fst := by simp
      simp
    · refine ⟨?_, fun k' => ?_, fun e => ?_⟩
      · rw [List.map_cons, List.pairwise_cons]
        refine ⟨fun b hb => ?_, i1⟩
        rcases (i2 b).1 hb with rfl | hb
        · dsimp; omega
        · exact h.1 b hb
      · rw [List.map_cons, List.mem_cons, i2, List.map_cons, List.mem_cons]
        tauto
      · rw [List.mem_cons, i3, List.mem_cons, List.map_cons, List.mem_cons]
        have : ¬ k = a := h2
        tauto

omit [Field K] in
theorem inserts_spec (es : List (Int × LinComb K)) : ∀ m : GhostMap K, m.keys.Pairwise (· < ·) →
    let m' := es.foldl (fun (m : GhostMap K) (e : Int × LinComb K) => m.insert e.1 e.2) m
    m'.keys.Pairwise (· < ·) ∧ (∀ k, k ∈ m'.keys ↔ k ∈ m.keys ∨ k ∈ es.map Prod.fst) ∧ (∀ e ∈ m', e ∈ m ∨ e ∈ es) ∧
      ((m.keys ++ es.map Prod.fst).Nodup → ∀ e, e ∈ m' ↔ e ∈ m ∨ e ∈ es) := by
  induction es with
  | nil => intro m h; simp [h]
  | cons a es ih =>
    intro m h
    obtain ⟨i1, i2, i3⟩ := insert_spec h a.1 a.2
    obtain ⟨j1, j2, j3, j4⟩ := ih _ i1
    refine ⟨j1, fun k => ?_, fun e he => ?_, fun hnd e => ?_⟩
    · rw [List.foldl_cons, j2, i2, List.map_cons, List.mem_cons]
      tauto
    · rcases j3 e he with h' | h'
      · rcases (i3 e).1 h' with h' | h'
        · exact Or.inl h'
        · exact Or.inr (by rw [h'.1]; exact List.mem_cons_self)
      · exact Or.inr (List.mem_cons_of_mem _ h')
    · rw [List.map_cons, List.nodup_append] at hnd
      obtain ⟨n1, n2, n3⟩ := hnd
      rw [List.nodup_cons] at n2
      have ha : a.1 ∉ m.keys := fun h' => n3 _ h' _ List.mem_cons_self rfl
      rw [List.foldl_cons, j4, i3, List.mem_cons]
      · constructor
        · rintro ((h' | h') | h')
          · exact Or.inl h'
          · exact Or.inr (Or.inl h'.1)
          · exact Or.inr (Or.inr h')
        · rintro (h' | h' | h')
          · exact Or.inl (Or.inl h')
          · exact Or.inl (Or.inr ⟨h', ha⟩)
          · exact Or.inr h'
      · rw [List.nodup_append]
        refine ⟨i1.imp fun h => ne_of_lt h, n2.2, fun x hx y hy => ?_⟩
        rcases (i2 x).1 hx with rfl | hx
        · rintro rfl
          exact n2.1 hy
        · exact n3 _ hx _ (List.mem_cons_of_mem _ hy)

/-! ### the substitutions -/

/-- The value of a combination. -/
def combVal {U : Type} [AddCommGroup U] [Module K U] (l : LinComb K) (u : Int → U) : U := (l.map fun t => t.2 • u t.1).sum

theorem holds_find {U : Type} [AddCommGroup U] [Module K U] {m : GhostMap K} (h : m.keys.Nodup) {u : Int → U} :
    GhostsHold m u ↔ ∀ k l, m.find k = some l → u k = combVal l u :=
  ⟨fun hg k l hf => hg (k, l) (find_mem hf), fun hg e he => hg e.1 e.2 (mem_find h he)⟩

theorem combVal_subst {U : Type} [AddCommGroup U] [Module K U] {m : GhostMap K} {u : Int → U} {l : LinComb K}
    (h : ∀ t ∈ l, ∀ l', m.find t.1 = some l' → u t.1 = combVal l' u) : combVal (substComb m l) u = combVal l u := by
  induction l with
  | nil => rfl
  | cons t l ih =>
    have ih := ih fun t' ht' => h t' (List.mem_cons_of_mem _ ht')
    unfold substComb combVal at ih ⊢
    rw [List.flatMap_cons, List.map_append, List.sum_append, ih, List.map_cons, List.sum_cons]
    congr 1
    cases hf : m.find t.1 with
    | none => simp
    | some l' =>
      simp only []
      rw [List.map_map, h t List.mem_cons_self l' hf]
      unfold combVal
      rw [← sum_map_smul]
      exact sum_map_congr fun e _ => mul_smul ..

theorem mem_subst {m : GhostMap K} {l : LinComb K} {t : Int × K} (h : t ∈ substComb m l) :
    (t.1 ∉ m.keys ∧ t ∈ l) ∨ ∃ s ∈ l, ∃ l' t', m.find s.1 = some l' ∧ t' ∈ l' ∧ t.1 = t'.1 := by
  unfold substComb at h
  obtain ⟨s, hs, h⟩ := List.mem_flatMap.1 h
  cases hf : m.find s.1 with
  | none =>
    rw [hf] at h
    simp only [List.mem_singleton] at h
    subst h
    refine Or.inl ⟨fun hk => ?_, hs⟩
    obtain ⟨l', hl⟩ := find_key.1 hk
    rw [hf] at hl
    cases hl
  | some l' =>
    rw [hf] at h
    obtain ⟨t', ht', rfl⟩ := List.mem_map.1 h
    exact Or.inr ⟨s, hs, l', t', hf, ht', rfl⟩

theorem subst_none {m : GhostMap K} {l : LinComb K} (h : ∀ t ∈ l, t.1 ∉ m.keys) : substComb m l = l := by
  induction l with
  | nil => rfl
  | cons t l ih =>
    have ih := ih fun t' ht' => h t' (List.mem_cons_of_mem _ ht')
    unfold substComb at ih ⊢
    rw [List.flatMap_cons, ih]
    have : m.find t.1 = none := by
      cases hf : m.find t.1 with
      | none => rfl
      | some l' => exact absurd (find_key.2 ⟨l', hf⟩) (h t List.mem_cons_self)
    rw [this]
    rfl

omit [Field K] in
theorem set_same {m : GhostMap K} {k : Int} {l : LinComb K} (h : m.find k = some l) : m.set k l = m := by
  unfold GhostMap.find at h
  induction m with
  | nil => rfl
  | cons e m ih =>
    obtain ⟨a, l'⟩ := e
    unfold GhostMap.set
    rw [List.lookup_cons] at h
    by_cases hk : k = a
    · subst hk
      simp only [beq_self_eq_true, Option.some.injEq] at h
      rw [if_pos rfl, h]
    · have : (k == a) = false := by simpa using hk
      rw [this] at h
      rw [if_neg hk, ih h]

/-- What a pass keeps. -/
structure PassInv (m : GhostMap K) (ρ : Int → Nat) (Q : Int → Prop) (j : Nat) (done : List Int) (s : GhostMap K × Bool) : Prop where
  keys : s.1.keys = m.keys
  rank : ∀ k l, s.1.find k = some l → ∀ t ∈ l, t.1 ∈ m.keys → ρ t.1 + j < ρ k ∧ (k ∈ done → ρ t.1 + (j + 1) < ρ k)
  ok : ∀ k l, s.1.find k = some l → ∀ t ∈ l, Q t.1
  holds : ∀ (U : Type) [AddCommGroup U] [Module K U] (u : Int → U), GhostsHold s.1 u ↔ GhostsHold m u
  still : s.2 = false → s.1 = m ∧ ∀ k ∈ done, ∀ l, m.find k = some l → ∀ t ∈ l, t.1 ∉ m.keys

theorem PassInv.step {m : GhostMap K} (hm : m.keys.Nodup) {ρ : Int → Nat} {Q : Int → Prop} {j : Nat} {done : List Int} {s : GhostMap K × Bool}
    (h : PassInv m ρ Q j done s) {k : Int} (hk : k ∈ m.keys) :
    PassInv m ρ Q j (done ++ [k]) (match s.1.find k with
      | none => s
      | some l => (s.1.set k (substComb s.1 l), s.2 || l.any fun e => (s.1.find e.1).isSome)) := by
  have hks := hk
  rw [← h.keys] at hks
  obtain ⟨l, hl⟩ := find_key.1 hks
  rw [hl]
  simp only []
  have hnd : s.1.keys.Nodup := by rw [h.keys]; exact hm
  have hfs := find_set s.1 k (substComb s.1 l) hks
  have hnew : ∀ t ∈ substComb s.1 l, (t.1 ∈ m.keys → ρ t.1 + (j + 1) < ρ k) ∧ Q t.1 := by
    intro t ht
    rcases mem_subst ht with ⟨h1, h2⟩ | ⟨s', h1, l', t', h2, h3, h4⟩
    · exact ⟨fun hk' => absurd hk' (by rw [← h.keys]; exact h1), h.ok k l hl t h2⟩
    · rw [h4]
      have hs' : s'.1 ∈ m.keys := by rw [← h.keys]; exact find_key.2 ⟨l', h2⟩
      refine ⟨fun hk' => ?_, h.ok _ _ h2 t' h3⟩
      have a := (h.rank _ _ h2 t' h3 hk').1
      have b := (h.rank k l hl s' h1 hs').1
      omega
  refine ⟨by rw [set_keys, h.keys], fun k' l' hf t ht hk' => ?_, fun k' l' hf t ht => ?_, fun U _ _ u => ?_, fun hb => ?_⟩
  · rw [hfs] at hf
    by_cases e : k' = k
    · rw [if_pos e] at hf
      cases hf
      subst e
      have := (hnew t ht).1 hk'
      exact ⟨by omega, fun _ => this⟩
    · rw [if_neg e] at hf
      have := h.rank k' l' hf t ht hk'
      refine ⟨this.1, fun hd => this.2 ?_⟩
      rcases List.mem_append.1 hd with hd | hd
      · exact hd
      · exact absurd (List.mem_singleton.1 hd) e
  · rw [hfs] at hf
    by_cases e : k' = k
    · rw [if_pos e] at hf
      cases hf
      exact (hnew t ht).2
    · rw [if_neg e] at hf
      exact h.ok k' l' hf t ht
  · rw [← h.holds U u, holds_find hnd, holds_find (by rw [set_keys]; exact hnd)]
    have self : ∀ t ∈ l, t.1 ≠ k := by
      rintro t ht rfl
      have := (h.rank _ l hl t ht hk).1
      omega
    constructor
    · intro hg k' l' hf
      by_cases e : k' = k
      · subst e
        rw [hl] at hf
        cases hf
        rw [hg k' _ (by rw [hfs, if_pos rfl])]
        refine combVal_subst fun t ht l'' hf' => hg _ _ ?_
        rw [hfs, if_neg (self t ht)]
        exact hf'
      · exact hg k' l' (by rw [hfs, if_neg e]; exact hf)
    · intro hg k' l' hf
      rw [hfs] at hf
      by_cases e : k' = k
      · rw [if_pos e] at hf
        cases hf
        rw [e, combVal_subst fun t ht l'' hf' => hg _ _ hf']
        exact hg k l hl
      · rw [if_neg e] at hf
        exact hg k' l' hf
  · simp only [Bool.or_eq_false_iff] at hb
    obtain ⟨h1, h2⟩ := h.still hb.1
    have h3 : ∀ t ∈ l, t.1 ∉ m.keys := by
      intro t ht hk'
      have := List.any_eq_false.1 hb.2 t ht
      rw [find_isSome, h.keys] at this
      exact this hk'
    have hs : substComb s.1 l = l := subst_none fun t ht => by rw [h.keys]; exact h3 t ht
    refine ⟨by rw [hs, set_same hl]; exact h1, fun k' hk' l' hl' t ht => ?_⟩
    rcases List.mem_append.1 hk' with hk' | hk'
    · exact h2 k' hk' l' hl' t ht
    · rw [List.mem_singleton.1 hk', ← h1, hl] at hl'
      cases hl'
      exact h3 t ht

/-- One turn of the loop. -/
theorem substPass_spec {m : GhostMap K} (hm : m.keys.Nodup) {ρ : Int → Nat} {Q : Int → Prop} {j : Nat}
    (hr : ∀ k l, m.find k = some l → ∀ t ∈ l, t.1 ∈ m.keys → ρ t.1 + j < ρ k) (hq : ∀ k l, m.find k = some l → ∀ t ∈ l, Q t.1) :
    PassInv m ρ Q j m.keys (substPass m) := by
  unfold substPass
  have key : ∀ (ks done : List Int) (s : GhostMap K × Bool), (∀ k ∈ ks, k ∈ m.keys) → PassInv m ρ Q j done s →
      PassInv m ρ Q j (done ++ ks) (ks.foldl (fun s k => match s.1.find k with
        | none => s
        | some l => (s.1.set k (substComb s.1 l), s.2 || l.any fun e => (s.1.find e.1).isSome)) s) := by
    intro ks
    induction ks with
    | nil => intro done s _ h; rw [List.append_nil]; exact h
    | cons k ks ih =>
      intro done s hks h
      have := ih (done ++ [k]) _ (fun k' hk' => hks k' (List.mem_cons_of_mem _ hk')) (h.step hm (hks k List.mem_cons_self))
      rw [List.append_assoc] at this
      exact this
  have := key m.keys [] (m, false) (fun k hk => hk) ⟨rfl, fun k l hf t ht hk => ⟨hr k l hf t ht hk, fun h => by simp at h⟩, hq, fun _ _ _ _ => Iff.rfl,
    fun _ => ⟨rfl, fun k hk => by simp at hk⟩⟩
  rw [List.nil_append] at this
  exact this

/-- The loop ends: the ranks decrease along the combinations. -/
theorem substLoop_spec {ρ : Int → Nat} {Q : Int → Prop} {R : Nat} : ∀ (i j : Nat) (m : GhostMap K), R ≤ i + j → m.keys.Nodup → (∀ k ∈ m.keys, ρ k ≤ R) →
    (∀ k l, m.find k = some l → ∀ t ∈ l, t.1 ∈ m.keys → ρ t.1 + j < ρ k) → (∀ k l, m.find k = some l → ∀ t ∈ l, Q t.1) →
    ∃ m' : GhostMap K, (∀ fuel, i < fuel → substLoop fuel m = some m') ∧ m'.keys = m.keys ∧
      (∀ (U : Type) [AddCommGroup U] [Module K U] (u : Int → U), GhostsHold m' u ↔ GhostsHold m u) ∧
      ∀ e ∈ m', ∀ t ∈ e.2, t.1 ∉ m.keys ∧ Q t.1 := by
  intro i
  induction i with
  | zero =>
    intro j m hR hm hb hr hq
    have hp := substPass_spec hm hr hq
    have hno : ∀ k l, m.find k = some l → ∀ t ∈ l, t.1 ∉ m.keys := by
      intro k l hf t ht hk
      have := hr k l hf t ht hk
      have := hb k (find_key.2 ⟨l, hf⟩)
      omega
    obtain ⟨h2, h3⟩ : (substPass m).2 = false ∧ (substPass m).1 = m := by
      have key : ∀ ks : List Int, ks.foldl (fun (s : GhostMap K × Bool) k => match s.1.find k with
          | none => s
          | some l => (s.1.set k (substComb s.1 l), s.2 || l.any fun e => (s.1.find e.1).isSome)) (m, false) = (m, false) := by
        intro ks
        induction ks with
        | nil => rfl
        | cons k ks ih =>
          rw [List.foldl_cons]
          cases hf : m.find k with
          | none => exact ih
          | some l =>
            simp only []
            rw [subst_none (hno k l hf), set_same hf]
            have : (l.any fun e => (m.find e.1).isSome) = false := List.any_eq_false.2 fun t ht => by rw [find_isSome]; exact hno k l hf t ht
            rw [this]
            exact ih
      have : substPass m = (m, false) := key m.keys
      rw [this]
      exact ⟨rfl, rfl⟩
    refine ⟨m, fun fuel hf => ?_, rfl, fun _ _ _ _ => Iff.rfl, fun e he t ht => ⟨hno e.1 e.2 (mem_find hm he) t ht, hq e.1 e.2 (mem_find hm he) t ht⟩⟩
    obtain ⟨f, rfl⟩ : ∃ f, fuel = f + 1 := ⟨fuel - 1, by omega⟩
    rw [substLoop, show substPass m = (m, false) from Prod.ext h3 h2]
  | succ i ih =>
    intro j m hR hm hb hr hq
    have hp := substPass_spec hm hr hq
    cases hc : (substPass m).2 with
    | false =>
      obtain ⟨h1, h2⟩ := hp.still hc
      refine ⟨m, fun fuel hf => ?_, rfl, fun _ _ _ _ => Iff.rfl, fun e he t ht =>
        ⟨h2 e.1 (List.mem_map.2 ⟨e, he, rfl⟩) e.2 (mem_find hm he) t ht, hq e.1 e.2 (mem_find hm he) t ht⟩⟩
      obtain ⟨f, rfl⟩ : ∃ f, fuel = f + 1 := ⟨fuel - 1, by omega⟩
      rw [substLoop, show substPass m = (m, false) from Prod.ext h1 hc]
    | true =>
      have hk := hp.keys
      obtain ⟨m', k1, k2, k3, k4⟩ := ih (j + 1) (substPass m).1 (by omega) (by rw [hk]; exact hm) (by rw [hk]; exact hb)
        (fun k l hf t ht hkt => by
          have h' : k ∈ m.keys := by rw [← hk]; exact find_key.2 ⟨l, hf⟩
          rw [hk] at hkt
          have := (hp.rank k l hf t ht hkt).2 h'
          omega) hp.ok
      refine ⟨m', fun fuel hf => ?_, by rw [k2, hk], fun U _ _ u => (k3 U u).trans (hp.holds U u), by rw [hk] at k4; exact k4⟩
      obtain ⟨f, rfl⟩ : ∃ f, fuel = f + 1 := ⟨fuel - 1, by omega⟩
      rw [substLoop, show substPass m = ((substPass m).1, true) from Prod.ext rfl hc]
      exact k1 f (by omega)

end

end Samurai

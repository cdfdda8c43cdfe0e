import Verif.Lemmas.SparsityFlux

/-! The places of a part of a stencil, the places of the cell itself. -/

namespace Samurai

section
variable {K : Type} [Field K] {n : Nat} {L : MatLayout} {rec : GhostMap K} {m p : Nat} {cells ref : CA} {dom sub : LCA} {minL maxL w : Nat}

omit [Field K] in
theorem mem_facePlaces {f : FaceCall} {e : Int × Int} : e ∈ facePlaces L rec f ↔ ∃ i < L.outSize, ∃ j < L.inSize, ∃ c ∈ f.comput, ∃ t ∈ terms rec c.index,
    e = (L.row f.left.index i, L.col t j) ∨ e = (L.row f.right.index i, L.col t j) := by
  unfold facePlaces
  simp only [List.mem_flatMap, List.mem_range, List.mem_cons, List.not_mem_nil, or_false]

theorem mem_bdryPlaces {f : BdryCall} {e : Int × Int} : e ∈ bdryPlaces L f ↔ ∃ i < L.outSize, ∃ j < L.inSize, ∃ c ∈ f.comput, e = (L.row f.cell.index i, L.col c.index j) := by
  unfold bdryPlaces
  simp only [List.mem_flatMap, List.mem_range, List.mem_map]
  exact exists_congr fun i => and_congr_right fun _ => exists_congr fun j => and_congr_right fun _ => exists_congr fun c => and_congr_right fun _ => eq_comm

theorem forall₂_left {α β : Type} {R : α → β → Prop} {l : List α} {l' : List β} (h : List.Forall₂ R l l') {a : α} (ha : a ∈ l) : ∃ b ∈ l', R a b :=
  forall₂_mem (R := fun b a => R a b) h.flip ha

/-- The cells of a part of the stencil. -/
theorem comput_sub (hw : ref.WF n) {l : Nat} {q : List Int} {S S' : List (Nat → Int)} (hS : ∀ s ∈ S', ∃ t ∈ S, ∀ k ≤ n, s k = t k) {a b : List MCell}
    (ha : List.Forall₂ (fun s c => CellIs n ref l (shiftPoint s n q) c) S' a) (hb : List.Forall₂ (fun s c => CellIs n ref l (shiftPoint s n q) c) S b) : ∀ c ∈ a, c ∈ b := by
  intro c hc
  obtain ⟨s, hs, h1⟩ := forall₂_mem ha hc
  obtain ⟨t, ht, hst⟩ := hS s hs
  obtain ⟨c', hc', h2⟩ := forall₂_left hb ht
  rw [shift_congr q n hst] at h1
  rw [cellIs_unique hw h1 h2]
  exact hc'

omit [Field K] in
theorem FluxPlace.mono (g : FVMesh n cells ref dom minL maxL w) (hsub : constructSubdomain n cells maxL = some sub)
    {S S' : Nat → List (Nat → Int)} (hS : ∀ d ≤ n, StencilOK n w (unitDir d) (S d)) (hS' : ∀ d ≤ n, StencilOK n w (unitDir d) (S' d))
    (hSS : ∀ d ≤ n, ∀ s ∈ S' d, ∃ t ∈ S d, ∀ k ≤ n, s k = t k) {e : Int × Int} (h : FluxPlace n L rec cells ref sub maxL S' e) : FluxPlace n L rec cells ref sub maxL S e := by
  obtain ⟨d, hd, h⟩ := h
  refine ⟨d, hd, ?_⟩
  rcases h with ⟨fs', h1, f, hf, he⟩ | ⟨l, hl, fs', h1, f, hf, he⟩
  · left
    obtain ⟨gs', j1, j2⟩ := g.interior hd (hS' d hd)
    rw [h1] at j1
    cases j1
    obtain ⟨fs, i1, i2⟩ := g.interior hd (hS d hd)
    obtain ⟨f0, hf0, hfe⟩ := List.mem_map.1 ((i2.mem f.ends).2 ((j2.mem f.ends).1 (List.mem_map.2 ⟨f, hf, rfl⟩)))
    obtain ⟨a1, a2, q, a3, a4⟩ := j2.right f hf
    obtain ⟨b1, b2, q', b3, b4⟩ := i2.right f0 hf0
    unfold FaceCall.ends at hfe
    injection hfe with e1 e2
    rw [e1, e2] at b3
    have := faceAt_unique a3 b3
    subst this
    unfold MCell.id at e1 e2
    injection e1 with l1 p1
    injection e2 with l2 p2
    rw [l1, p1] at b1
    rw [l2, p2] at b2
    rw [l1, l2] at b4
    have hl := cellIs_unique g.refWF b1 a1
    have hr := cellIs_unique g.refWF b2 a2
    refine ⟨fs, i1, f0, hf0, ?_⟩
    obtain ⟨i, hi, j, hj, c, hc, t, ht, he⟩ := mem_facePlaces.1 he
    exact mem_facePlaces.2 ⟨i, hi, j, hj, c, comput_sub g.refWF (hSS d hd) a4 b4 c hc, t, ht, by rw [hl, hr]; exact he⟩
  · right
    obtain ⟨p, hp⟩ := (mem_usedLevels g.leaves.wf).1 hl
    have hlm := (g.leaves.between _ _ hp).2
    obtain ⟨⟨gs, j1, -, j2, j3⟩, gs', j1', -, j2', j3'⟩ := C41_boundary_calls n cells ref dom sub minL maxL w d l (S d) g hd (hS d hd) hlm hsub
    obtain ⟨⟨hs, k1, -, k2, k3⟩, hs', k1', -, k2', k3'⟩ := C41_boundary_calls n cells ref dom sub minL maxL w d l (S' d) g hd (hS' d hd) hlm hsub
    obtain ⟨i, hi, j, hj, c, hc, he⟩ := mem_bdryPlaces.1 he
    rcases h1 with h1 | h1
    · rw [h1] at k1
      cases k1
      obtain ⟨f0, hf0, hfe⟩ := List.mem_map.1 ((j2 f.cell.pt).2 ((k2 f.cell.pt).1 (List.mem_map.2 ⟨f, hf, rfl⟩)))
      obtain ⟨a1, a2⟩ := k3 f hf
      obtain ⟨b1, b2⟩ := j3 f0 hf0
      rw [hfe] at b1 b2
      exact ⟨l, hl, gs, Or.inl j1, f0, hf0, mem_bdryPlaces.2 ⟨i, hi, j, hj, c, comput_sub g.refWF (hSS d hd) a2 b2 c hc, by rw [cellIs_unique g.refWF b1 a1]; exact he⟩⟩
    · rw [h1] at k1'
      cases k1'
      obtain ⟨f0, hf0, hfe⟩ := List.mem_map.1 ((j2' f.cell.pt).2 ((k2' f.cell.pt).1 (List.mem_map.2 ⟨f, hf, rfl⟩)))
      obtain ⟨a1, q, rfl, a2⟩ := k3' f hf
      obtain ⟨b1, q', rfl, b2⟩ := j3' f0 hf0
      rw [hfe] at b1 b2
      exact ⟨l, hl, gs', Or.inr j1', f0, hf0, mem_bdryPlaces.2 ⟨i, hi, j, hj, c, comput_sub g.refWF (hSS d hd) a2 b2 c hc, by rw [cellIs_unique g.refWF b1 a1]; exact he⟩⟩

omit [Field K] in
/-- The rows of the places are those of the leaves. -/
theorem FluxPlace.row (g : FVMesh n cells ref dom minL maxL w) (hN : FVNumbers n cells ref) (hsub : constructSubdomain n cells maxL = some sub)
    {S : Nat → List (Nat → Int)} (hS : ∀ d ≤ n, StencilOK n w (unitDir d) (S d)) {e : Int × Int} (h : FluxPlace n L rec cells ref sub maxL S e) :
    ∃ k, LeafNum n cells k ∧ ∃ i < L.outSize, e.1 = L.row k i := by
  have hleaf : ∀ {l q c}, cells.Mem n l q → CellIs n ref l q c → LeafNum n cells c.index := fun h hi => leafNum_of g.leaves.wf g.refWF hN h hi
  obtain ⟨d, hd, h⟩ := h
  rcases h with ⟨fs', h1, f, hf, he⟩ | ⟨l, hl, fs', h1, f, hf, he⟩
  · obtain ⟨gs', j1, j2⟩ := g.interior hd (hS d hd)
    rw [h1] at j1
    cases j1
    obtain ⟨k1, k2, -⟩ := (j2.mem f.ends).1 (List.mem_map.2 ⟨f, hf, rfl⟩)
    obtain ⟨a1, a2, -⟩ := j2.right f hf
    obtain ⟨i, hi, j, hj, c, hc, t, ht, he | he⟩ := mem_facePlaces.1 he
    · exact ⟨_, hleaf k1 a1, i, hi, by rw [he]⟩
    · exact ⟨_, hleaf k2 a2, i, hi, by rw [he]⟩
  · obtain ⟨p, hp⟩ := (mem_usedLevels g.leaves.wf).1 hl
    have hlm := (g.leaves.between _ _ hp).2
    obtain ⟨⟨gs, j1, -, j2, j3⟩, gs', j1', -, j2', j3'⟩ := C41_boundary_calls n cells ref dom sub minL maxL w d l (S d) g hd (hS d hd) hlm hsub
    obtain ⟨i, hi, j, hj, c, hc, he⟩ := mem_bdryPlaces.1 he
    rcases h1 with h1 | h1
    · rw [h1] at j1
      cases j1
      exact ⟨_, hleaf ((j2 _).1 (List.mem_map.2 ⟨f, hf, rfl⟩)).1 (j3 f hf).1, i, hi, by rw [he]⟩
    · rw [h1] at j1'
      cases j1'
      exact ⟨_, hleaf ((j2' _).1 (List.mem_map.2 ⟨f, hf, rfl⟩)).1 (j3' f hf).1, i, hi, by rw [he]⟩

/-! ### the combination of a ghost keeps the leaves -/

theorem subst_keeps {m : GhostMap K} {l : LinComb K} {t : Int × K} (ht : t ∈ l) (hk : t.1 ∉ m.keys) : t ∈ substComb m l := by
  unfold substComb
  refine List.mem_flatMap.2 ⟨t, ht, ?_⟩
  cases hf : m.find t.1 with
  | none => simp
  | some l' => exact absurd (find_key.2 ⟨l', hf⟩) hk

theorem substPass_keeps {m : GhostMap K} : (substPass m).1.keys = m.keys ∧ ∀ k l, m.find k = some l → ∃ l', (substPass m).1.find k = some l' ∧ ∀ t ∈ l, t.1 ∉ m.keys → t ∈ l' := by
  unfold substPass
  have key : ∀ (ks : List Int) (s : GhostMap K × Bool), s.1.keys = m.keys →
      let s' := ks.foldl (fun s k => match s.1.find k with
        | none => s
        | some l => (s.1.set k (substComb s.1 l), s.2 || l.any fun e => (s.1.find e.1).isSome)) s
      s'.1.keys = m.keys ∧ ∀ k l, s.1.find k = some l → ∃ l', s'.1.find k = some l' ∧ ∀ t ∈ l, t.1 ∉ m.keys → t ∈ l' := by
    intro ks
    induction ks with
    | nil => intro s hs; exact ⟨hs, fun k l h => ⟨l, h, fun t ht _ => ht⟩⟩
    | cons k0 ks ih =>
      intro s hs
      rw [List.foldl_cons]
      cases hf : s.1.find k0 with
      | none => exact ih s hs
      | some l0 =>
        simp only []
        have hk0 : k0 ∈ s.1.keys := find_key.2 ⟨l0, hf⟩
        obtain ⟨h1, h2⟩ := ih (s.1.set k0 (substComb s.1 l0), s.2 || l0.any fun e => (s.1.find e.1).isSome) (by rw [set_keys]; exact hs)
        refine ⟨h1, fun k l hl => ?_⟩
        by_cases hk : k = k0
        · subst hk
          rw [hf] at hl
          cases hl
          obtain ⟨l', h3, h4⟩ := h2 k (substComb s.1 l0) (by
            show (s.1.set k _).find k = _
            rw [find_set _ _ _ hk0, if_pos rfl])
          exact ⟨l', h3, fun t ht htk => h4 t (subst_keeps ht (by rw [hs]; exact htk)) htk⟩
        · exact h2 k l (by
            show (s.1.set k0 _).find k = _
            rw [find_set _ _ _ hk0, if_neg hk]; exact hl)
  exact key _ (m, false) rfl

theorem substLoop_keeps : ∀ (fuel : Nat) (m m' : GhostMap K), substLoop fuel m = some m' → ∀ k l, m.find k = some l → ∃ l', m'.find k = some l' ∧ ∀ t ∈ l, t.1 ∉ m.keys → t ∈ l' := by
  intro fuel
  induction fuel with
  | zero => intro m m' h; simp [substLoop] at h
  | succ fuel ih =>
    intro m m' h k l hl
    rw [substLoop] at h
    obtain ⟨p1, p2⟩ := substPass_keeps (m := m)
    obtain ⟨l1, h1, h2⟩ := p2 k l hl
    rcases hs : substPass m with ⟨m1, c⟩
    rw [hs] at h p1 h1
    cases c with
    | false => cases h; exact ⟨l1, h1, h2⟩
    | true =>
      obtain ⟨l', h3, h4⟩ := ih m1 m' h k l1 h1
      exact ⟨l', h3, fun t ht htk => h4 t (h2 t ht htk) (by rw [show m1.keys = m.keys from p1]; exact htk)⟩

variable {order : Nat} {cag : CA}

/-- The combination of a prediction ghost contains the leaf in which it is. -/
theorem ElimMesh.pred_parent (g : ElimMesh n order cells cag ref dom minL maxL w) (ho : order ≤ 5) {fuel : Nat} (hr : ghostRecursion n order ref cag cells fuel = some rec)
    {l : Nat} {q q' : List Int} {k k' : Int} (hq : cells.Mem n l q) (ha : Anc 1 q q') (hc : cag.Mem n (l + 1) q') (hk : (l, q, k) ∈ ref.numbered n)
    (hk' : (l + 1, q', k') ∈ ref.numbered n) : k ∈ terms rec k' := by
  obtain ⟨mp, m1, m2, m3, m4, m5⟩ := g.ghostRelations (K := K) ho
  have hw := g.fv.refWF
  have hP : PredGhost n cells cag (l + 1) q' := ⟨by omega, hc, q, hq, ha⟩
  obtain ⟨e, he, h1, h2, h3⟩ := m4 _ _ hP
  have hlen := mem_length hc.2
  have hpar : parentOf q' = q := (anc_one.1 ha)
  have hmem : ((l, q), interpProduct (K := K) n order (toPt q') fun _ => 0) ∈ predCells K n order (l + 1) q' := by
    unfold predCells
    refine List.mem_map.2 ⟨fun _ => 0, mem_offsetsFrom.2 ⟨fun d _ => by push_cast; omega, fun _ _ => rfl⟩, ?_⟩
    have : (ofPt (n + 1) fun d => parentPt (toPt q') d + 0) = q := by
      rw [← hpar]
      refine toPt_ext (n := n + 1) (ofPt_length _ _) (by unfold parentOf; simpa using hlen) fun d hd => ?_
      rw [toPt_ofPt _ (by omega)]
      have h1 : toPt (parentOf q') d = parentPt (toPt q') d := toPt_map _ (by omega)
      rw [h1, add_zero]
    simp only [this, Nat.add_sub_cancel]
  have hkey : (numOf n ref l q) ∉ mp.keys := by
    intro h
    obtain ⟨e', he', h⟩ := List.mem_map.1 h
    have hnq := numOf_numbered hw (CA.mem_of_numbered hw hk)
    rcases m5 e' he' with ⟨l', p', j1, j2⟩ | ⟨l', p', j1, j2⟩
    · have h3 := numOf_numbered hw (g.cag_ref j1.1)
      rw [show numOf n ref l' p' = e'.1 from j2.1.symm, h] at h3
      obtain ⟨rfl, rfl⟩ := number_inj g.distinct hnq h3
      exact g.leaf_proj hq j1
    · have h3 := numOf_numbered hw (g.cag_ref j1.2.1)
      rw [show numOf n ref l' p' = e'.1 from j2.1.symm, h] at h3
      obtain ⟨rfl, rfl⟩ := number_inj g.distinct hnq h3
      exact g.leaf_pred hq j1
  have ht := h3.symm.subset (List.mem_map.2 ⟨_, hmem, rfl⟩)
  unfold ghostRecursion at hr
  rw [m1] at hr
  obtain ⟨l', j1, j2⟩ := substLoop_keeps fuel mp rec hr e.1 e.2 (mem_find m2 he)
  have e1 : k' = e.1 := by
    rw [h1]
    exact CA.number_unique hw hk' (numOf_numbered hw (CA.mem_of_numbered hw hk'))
  have e2 : k = numOf n ref l q := CA.number_unique hw hk (numOf_numbered hw (CA.mem_of_numbered hw hk))
  unfold terms
  rw [e1, j1]
  exact List.mem_map.2 ⟨_, j2 _ ht hkey, e2.symm⟩

/-- The places of the cell itself are places of the scheme. -/
theorem ElimMesh.self_place (g : ElimMesh n order cells cag ref dom minL maxL w) (hN : FVNumbers n cells ref) (ho : order ≤ 5) {fuel : Nat} (hr : ghostRecursion n order ref cag cells fuel = some rec)
    (hkeys : ∀ k, LeafNum n cells k → rec.find k = none)
    (hsub : constructSubdomain n cells maxL = some sub) {S : Nat → List (Nat → Int)} (hS : ∀ d ≤ n, StencilOK n w (unitDir d) (S d))
    {k : Int} (hk : LeafNum n cells k) {i j : Nat} (hi : i < L.outSize) (hj : j < L.inSize) : FluxPlace n L rec cells ref sub maxL S (L.row k i, L.col k j) := by
  have hself := hkeys k hk
  obtain ⟨l, q, hkn⟩ := hk
  have hq := CA.mem_of_numbered g.fv.leaves.wf hkn
  have hnum := hN.same _ _ _ hkn
  have hw := g.fv.refWF
  refine ⟨0, by omega, ?_⟩
  obtain ⟨s0, hs0, hz⟩ := (hS 0 (by omega)).orig
  rcases g.fv.leaf_face hq with ⟨b', hb⟩ | hb
  · left
    obtain ⟨fs, j1, j2⟩ := g.fv.interior (d := 0) (by omega) (hS 0 (by omega))
    obtain ⟨f, hf, he⟩ := List.mem_map.1 ((j2.mem ((l, q), b')).2 hb)
    obtain ⟨a1, a2, q', a3, a4⟩ := j2.right f hf
    unfold FaceCall.ends at he
    injection he with e1 e2
    have hlk : f.left.index = k := by
      unfold MCell.id at e1
      injection e1 with l1 p1
      rw [l1, p1] at a1
      exact CA.number_unique hw a1.2.2 hnum
    obtain ⟨c, hc, h1⟩ := forall₂_left a4 hs0
    rw [shift_congr q' n (t := fun _ => 0) hz, shift_zero] at h1
    refine ⟨fs, j1, f, hf, mem_facePlaces.2 ⟨i, hi, j, hj, c, hc, k, ?_, Or.inl (by rw [hlk])⟩⟩
    rw [e1, e2] at a3
    have l1 : f.left.level = l := congrArg Prod.fst e1
    have l2 : f.right.level = b'.1 := congrArg Prod.fst e2
    rw [l1, l2] at h1
    obtain ⟨l0, -, hcase⟩ := (g.fv.interface_iff (unitDir_axis n 0).small ((l, q), b')).2 hb
    obtain ⟨a31, a32⟩ := a3
    simp only at a31 a32
    by_cases hle : b'.1 ≤ l
    · rw [Nat.max_eq_left hle] at h1 a31
      rw [Nat.sub_self] at a31
      rw [anc_zero.1 a31] at hnum
      have : c.index = k := CA.number_unique hw h1.2.2 hnum
      rw [this]
      unfold terms
      rw [hself]
      simp
    · have hb1 : b'.1 = l + 1 := by
        rcases hcase with ⟨x, -, -, h⟩ | ⟨x, -, -, h⟩ | ⟨x, -, -, h⟩
        all_goals
          simp only [Prod.mk.injEq] at h
          obtain ⟨⟨h1, -⟩, h2⟩ := h
          rw [h2]
          simp only
          have : b'.1 = _ := congrArg Prod.fst h2
          simp only at this
          omega
      rw [hb1] at h1 a31 a32
      rw [show max l (l + 1) = l + 1 by omega] at h1 a31 a32
      rw [show l + 1 - l = 1 by omega] at a31
      rw [Nat.sub_self] at a32
      refine g.pred_parent ho hr hq a31 ?_ hnum h1.2.2
      refine (g.cag_iff _ _).2 ⟨b'.2, by rw [← hb1]; exact hb.2.1, ?_⟩
      rw [anc_zero.1 a32]
      refine near_mono g.wide (near_symm (near_shift (w := 1) _ n fun k hk => ?_))
      have := unitDir_le 0 k
      constructor <;> push_cast <;> omega
  · right
    have hl : l ∈ cells.usedLevels := (mem_usedLevels g.fv.leaves.wf).2 ⟨_, hq⟩
    obtain ⟨⟨gs, j1, -, j2, j3⟩, -⟩ := C41_boundary_calls n cells ref dom sub minL maxL w 0 l (S 0) g.fv (by omega) (hS 0 (by omega)) (g.fv.leaves.between _ _ hq).2 hsub
    obtain ⟨f, hf, hfe⟩ := List.mem_map.1 ((j2 q).2 ⟨hq, hb⟩)
    obtain ⟨a1, a2⟩ := j3 f hf
    rw [hfe] at a1 a2
    obtain ⟨c, hc, h1⟩ := forall₂_left a2 hs0
    rw [shift_congr q n (t := fun _ => 0) hz, shift_zero] at h1
    exact ⟨l, hl, gs, Or.inl j1, f, hf, mem_bdryPlaces.2 ⟨i, hi, j, hj, c, hc, by
      rw [CA.number_unique hw a1.2.2 hnum, CA.number_unique hw h1.2.2 hnum]⟩⟩

end

end Samurai

/-
The Newton solver in dimension 1: what its function and its matrix depend on.
-/
import Verif.Props.Newton
import Verif.Lemmas.PetscSeg

namespace Samurai

section
variable {K U V : Type} [Field K] [AddCommGroup U] [Module K U] [AddCommGroup V] [Module K V]

/-- A non-linear scheme with a stencil of two cells only uses the leaves and the cells next to the leaves. -/
theorem FVMesh.nonlin_local {n : Nat} {cells ref : CA} {dom sub : LCA} {minL maxL w : Nat} (g : FVMesh n cells ref dom minL maxL w) (hnum : FVNumbers n cells ref)
    (hsub : constructSubdomain n cells maxL = some sub) {h0 : K} {nd : NonlinDef K U V} (hR : nd.ReadsStencil n) (hS : ∀ d ≤ n, StencilOK n w (unitDir d) (nd.stencil d))
    (hS2 : ∀ d ≤ n, TwoPoint n (unitDir d) (nd.stencil d)) {u1 u2 : Int → U}
    (h : ∀ l q k, (l, q, k) ∈ ref.numbered n → (∃ p, cells.Mem n l p ∧ Near 1 q p) → u1 k = u2 k) {bdry : Bool} {o1 o2 : Int → V}
    (e1 : nonlinApply n h0 ref sub cells maxL bdry nd u1 = some o1) (e2 : nonlinApply n h0 ref sub cells maxL bdry nd u2 = some o2) : o1 = o2 := by
  have run : ∀ (u : Int → U) (out : Int → V), nonlinApply n h0 ref sub cells maxL bdry nd u = some out → ∃ fs bs bs', SchemeCalls n ref cells dom maxL nd.stencil fs bs bs' ∧
      (∀ l p v, (l, p, v) ∈ cells.numbered n → out v = ((cellLength h0 l) ^ (n + 1))⁻¹ •
        ((List.range (n + 1)).map fun d => dirShare n h0 ((nd.fluxAt u).flux d) bdry (fs d) (bs d) (bs' d) (l, p)).sum) ∧
      ∀ i, (∀ l p, (l, p, i) ∉ cells.numbered n) → out i = 0 := by
    intro u out0 e
    obtain ⟨fs, bs, bs', out', j1, j2, j3, j4⟩ := C64_apply_scheme n cells ref dom sub minL maxL w h0 (nd.fluxAt u) bdry g hnum hsub hS
    unfold nonlinApply at e
    split at e
    · rw [j2] at e
      cases e
      exact ⟨fs, bs, bs', j1, j3, j4⟩
    · exact absurd e (by simp)
  obtain ⟨fa, ba, ba', a2, a3, a4⟩ := run u1 o1 e1
  obtain ⟨fb, bb, bb', b2, b3, b4⟩ := run u2 o2 e2
  funext i
  by_cases hi : ∃ l p, (l, p, i) ∈ cells.numbered n
  · obtain ⟨l, p, hi⟩ := hi
    rw [a3 l p i hi, b3 l p i hi]
    congr 1
    refine sum_map_congr fun d hd => ?_
    have hd : d ≤ n := by rw [List.mem_range] at hd; omega
    obtain ⟨p1, p2, p3⟩ := a2.perm g.refWF b2 hd
    rw [dirShare_perm p1 p2 p3]
    have hF : ∀ C : List MCell, (∀ c ∈ C, u1 c.index = u2 c.index) → (nd.fluxAt u1).flux d C = (nd.fluxAt u2).flux d C := by
      intro C hC
      cases hf : nd.fluxFunction d with
      | none => simp only [NonlinDef.fluxAt, hf]
      | some F =>
        simp only [NonlinDef.fluxAt, hf]
        exact hR d hd F hf C u1 u2 hC
    have hu : ∀ k, -((1 : Nat) : Int) ≤ unitDir d k ∧ unitDir d k ≤ ((1 : Nat) : Int) := fun k => by unfold unitDir; split_ifs <;> constructor <;> norm_num
    have hnear : ∀ q : List Int, Near 1 (shiftPoint (unitDir d) n q) q := fun q => near_shift q n fun k _ => hu k
    -- the two cells of a face
    have two : ∀ {L : Nat} {q : List Int} {C : List MCell}, (cells.Mem n L q ∨ cells.Mem n L (shiftPoint (unitDir d) n q)) →
        List.Forall₂ (fun s c => CellIs n ref L (shiftPoint s n q) c) (nd.stencil d) C → ∀ c ∈ C, u1 c.index = u2 c.index := by
      intro L q C hq hC c hc
      obtain ⟨s, hs, hcs⟩ := forall₂_mem hC hc
      refine h _ _ _ hcs.2.2 ?_
      rcases hS2 d hd s hs with e | e
      · rw [shift_congr (s := s) (t := fun _ => 0) _ _ e, shift_zero]
        rcases hq with hq | hq
        · exact ⟨_, hq, near_refl _ _⟩
        · exact ⟨_, hq, near_symm (hnear q)⟩
      · rw [shift_congr (s := s) (t := unitDir d) _ _ e]
        rcases hq with hq | hq
        · exact ⟨_, hq, hnear q⟩
        · exact ⟨_, hq, near_refl _ _⟩
    obtain ⟨c1, c2, c3⟩ := b2 d hd
    refine dirShare_congr (fun f hf => hF _ ?_) (fun f hf => hF _ ?_) (fun f hf => hF _ ?_)
    · obtain ⟨-, -, q, ⟨hq1, hq2⟩, hC⟩ := c1.right f hf
      obtain ⟨m1, m2, -⟩ := (c1.mem f.left.id f.right.id).1 (List.mem_map.2 ⟨f, hf, rfl⟩)
      refine two ?_ hC
      rcases le_total f.left.level f.right.level with hle | hle
      · rw [max_eq_right hle]
        right
        have : max f.left.id.1 f.right.id.1 - f.right.id.1 = 0 := by
          show max f.left.level f.right.level - f.right.level = 0
          omega
        rw [this, anc_zero] at hq2
        rw [← hq2]
        exact m2
      · rw [max_eq_left hle]
        left
        have : max f.left.id.1 f.right.id.1 - f.left.id.1 = 0 := by
          show max f.left.level f.right.level - f.left.level = 0
          omega
        rw [this, anc_zero] at hq1
        rw [← hq1]
        exact m1
    · obtain ⟨m1, -⟩ := (c2.mem f.cell.level f.cell.pt).1 (List.mem_map.2 ⟨f, hf, rfl⟩)
      exact two (Or.inl m1) (c2.right f hf).2
    · obtain ⟨m1, -⟩ := (c3.mem f.cell.level f.cell.pt).1 (List.mem_map.2 ⟨f, hf, rfl⟩)
      refine two (Or.inr ?_) (c3.right f hf).2
      rw [shift_shift, show (fun k => - unitDir d k + unitDir d k) = fun _ : Nat => (0 : Int) by funext k; ring, shift_zero]
      exact m1
  · have hi : ∀ l p, (l, p, i) ∉ cells.numbered n := fun l p h => hi ⟨l, p, h⟩
    rw [a4 i hi, b4 i hi]

end

/-! ### `update_bc` -/

section
variable {K : Type} [Field K] {n : Nat} {M : GhostMesh K} {b : Nat → Box} {w : Nat}

theorem updateBcLevels_spec (g : GhostReady n M b w) {bcs : List (BcCond K)} (hbc : ∀ c ∈ bcs, GoodBc n M.dom w c) (u : Int → K) :
    ∃ u', updateBcLevels n M.toBcMesh bcs u = some u' ∧ Alters n M.ref (fun l p => BcFills n (b l) bcs p) u u' ∧
      ∀ l, M.ref.minLevel ≤ l → l ≤ M.ref.maxLevel → AfterBc n M bcs l u' := by
  obtain ⟨u', f1, f2, f3⟩ := foldRange (fun u level => updateBc n M.toBcMesh bcs level u)
    (fun k u' => Alters n M.ref (fun l p => BcFills n (b l) bcs p) u u' ∧ ∀ l, M.ref.minLevel ≤ l → l < k → AfterBc n M bcs l u')
    M.ref.minLevel (M.ref.maxLevel + 1 - M.ref.minLevel) (by
      rintro k v k1 k2 ⟨i1, i2⟩
      obtain ⟨v2, q1, q2⟩ := bcLevel_spec g hbc (level := k) (by omega) (by omega) v
      refine ⟨v2, q1, i1.trans (q2.mono fun l p _ h => h.2), fun l hl hlk => ?_⟩
      by_cases hk : l = k
      · subst hk
        exact ⟨v, v2, q1, fun _ _ => rfl⟩
      · obtain ⟨ua, ub, h1, h2⟩ := i2 l hl (by omega)
        exact ⟨ua, ub, h1, fun p hp => (q2.at g.refWF g.numbers hp fun h => hk h.1).trans (h2 p hp)⟩)
    u ⟨Alters.refl _ _, fun l h1 h2 => by omega⟩
  exact ⟨u', f1, f2, fun l h1 h2 => f3 l h1 (by omega)⟩

end

section
variable {K : Type} [Field K] {m : Nat} {cells cag ref : CA} {dom : LCA} {minL maxL base : Nat} {b : Box} {bcs : List (FieldBc K 0 m)}

omit [Field K] in
theorem ghostFind_mem {rec : GhostMap K} {k : Int} {c : LinComb K} (h : rec.find k = some c) : (k, c) ∈ rec := by
  unfold GhostMap.find at h
  induction rec with
  | nil => simp at h
  | cons e rec ih =>
    obtain ⟨a, l⟩ := e
    rw [List.lookup_cons] at h
    by_cases hk : k = a
    · subst hk
      simp only [beq_self_eq_true, Option.some.injEq] at h
      rw [h]
      exact List.mem_cons_self
    · have : (k == a) = false := by simpa using hk
      rw [this] at h
      exact List.mem_cons_of_mem _ (ih h)

theorem field_entry {n : Nat} {bcs : List (FieldBc K n m)} : ∀ z ∈ fieldEntries bcs, z.1 ∈ bcs ∧ z.2 ∈ z.1.region := by
  intro z hz
  obtain ⟨c, hc, hz⟩ := List.mem_flatMap.1 hz
  obtain ⟨d, hd, rfl⟩ := List.mem_map.1 hz
  exact ⟨hc, hd⟩

/-- The cells next to the leaves of a segment: leaves, eliminated ghosts, ghosts of a condition. -/
theorem ElimMesh.seg_cons {order : Nat} (gE : ElimMesh 0 order cells cag ref dom minL maxL 1) (hdl : dom.level = maxL) (hkind : ∀ c ∈ bcs, c.kind.Implicit)
    (hreg : ∀ x ∈ fieldEntries bcs, UnitVector 0 x.2.1 → OneAxis 0 x.2.1 → BdryRegion 0 dom x.2.1 x.2.2) (hcov : FieldCovers dom bcs) :
    ∀ l q, cag.Mem 0 l q → cells.Mem 0 l q ∨ ProjGhost 0 cells cag l q ∨ PredGhost 0 cells cag l q ∨
      ∃ l1 z l2 p, fieldEntries bcs = l1 ++ z :: l2 ∧ Constrains 0 cells l z p q ∧ ∀ z' ∈ l2, ∀ p', ¬ Constrains 0 cells l z' p' q := by
  have hkz := field_entry (bcs := bcs)
  intro l q hq
  rcases gE.seg_cases hdl hq with h | h | h | ⟨p, mm, v, k1, k2, k3, k4, k5, k6, k7⟩
  · exact .inl h
  · exact .inr (.inl h)
  · exact .inr (.inr (.inl h))
  · refine .inr (.inr (.inr ?_))
    obtain ⟨z, hz, hzv, hzm⟩ := hcov mm v k5 k2 k3 k7
    have hv0 := hzv 0 le_rfl
    have hz1 : UnitVector 0 z.2.1 := ⟨fun k hk => by rw [hzv k hk]; exact k2.1 k hk, by
      obtain ⟨d, hd, h⟩ := k2.2
      exact ⟨d, hd, by rw [hzv d hd]; exact h⟩⟩
    have hz2 : OneAxis 0 z.2.1 := by
      obtain ⟨d, hd, h, h'⟩ := k3
      exact ⟨d, hd, by rw [hzv d hd]; exact h, fun k hk hkd => by rw [hzv k hk]; exact h' k hk hkd⟩
    have hex : ∃ z ∈ fieldEntries bcs, ∃ p, Constrains 0 cells l z p q := by
      refine ⟨z, hz, p, hz1, hz2, hkind _ (hkz z hz).1, k1, ⟨mm, hzm, ?_⟩, ?_⟩
      · rw [(hreg z hz hz1 hz2).level, hdl]
        exact k6
      · rw [k4]
        unfold walk
        exact shift_congr _ _ fun k hk => by rw [hzv k hk]
    obtain ⟨l1, z', l2, hl, ⟨p', hc⟩, hlast⟩ := exists_last _ hex
    exact ⟨l1, z', l2, p', hl, hc, fun z'' hz'' p'' h => hlast z'' hz'' ⟨p'', h⟩⟩

/-- The conditions after an update of the boundary are those of the implicit schemes. -/
theorem ElimMesh.seg_bc {order : Nat} (gE : ElimMesh 0 order cells cag ref dom minL maxL 1) (hdl : dom.level = maxL) (hd : BoxDomain 0 dom base b) (hbase : base ≤ minL)
    (hkind : ∀ c ∈ bcs, c.kind.Implicit) (hcoords : ∀ c ∈ bcs, c.OfCoords)
    (hreg : ∀ x ∈ fieldEntries bcs, UnitVector 0 x.2.1 → OneAxis 0 x.2.1 → BdryRegion 0 dom x.2.1 x.2.2) (origin : Fin 1 → K) (h0 : K) {cfg : MeshConfig}
    {val : Nat → List Int → Fin m → K} (hbnd : ∀ j l p, ref.Mem 0 l p →
      BoundaryHolds 0 ⟨cells, ref, dom, minL, maxL, fun _ => false, h0, cfg⟩ (explicitConds origin h0 bcs j) l (b.refined (l - base)) fun l q => val l q j) :
    ∀ l1 z l2 level p q, fieldEntries bcs = l1 ++ z :: l2 → Constrains 0 cells level z p q → (∀ z' ∈ l2, ∀ p', ¬ Constrains 0 cells level z' p' q) →
      ∀ i, z.1.kind.Satisfied h0 level (fun j => val level (walk 0 p j z.2.1) i) 1 (z.1.value (fun _ => 0) ⟨fun _ => 0, 0, fun _ => 0, 0, 0⟩ (faceAt origin h0 level p z.2.1) i) := by
  have hkz := field_entry (bcs := bcs)
  intro l1 z l2 level p q hl hc hlast i
  have hz : z ∈ fieldEntries bcs := by rw [hl]; simp
  obtain ⟨c1, c2, c3, c4, c5, c6⟩ := hc
  have hb := gE.fv.leaves.between _ _ c4
  have hpm : ref.Mem 0 level p := gE.fv.ghosts level p p c4 (near_refl _ _)
  have hbox := hd.finer (level := level) (by omega) (by omega)
  have hbd := hbnd i level p hpm
  have := hbd.imposed (l1.map fun x => (⟨x.1.kind, fun dir c => x.1.explicitValue origin h0 dir c i, x.1.region⟩, x.2)) _ z.2 (l2.map fun x => (⟨x.1.kind, fun dir c => x.1.explicitValue origin h0 dir c i, x.1.region⟩, x.2))
    (by rw [explicit_entries, hl, List.map_append, List.map_cons]) p 1 (mcell 0 ref level p)
    ⟨c1, c2, fun _ _ _ => rfl, c5, .inl c4, le_rfl, by show 1 ≤ z.1.kind.ghosts; rw [c3.ghosts]⟩ (mcell_is gE.fv.refWF hpm)
    (by
      show WideFor 0 _ z.1.kind.ghosts z.2.1
      rw [c3.ghosts]
      intro d hd' _
      have := hbox.pos d hd'
      push_cast
      omega)
    (by
      intro y' hy' himp
      obtain ⟨z', hz', rfl⟩ := List.mem_map.1 hy'
      obtain ⟨p', i', ⟨a1, a2, -, a4, -, a6, a7⟩, a8⟩ := himp
      have hz'' : z' ∈ fieldEntries bcs := by rw [hl]; simp [hz']
      have hk' := hkind _ (hkz z' hz'').1
      have : z'.1.kind.ghosts = 1 := hk'.ghosts
      have hi : i' = 1 := by
        have a7' : i' ≤ z'.1.kind.ghosts := a7
        omega
      subst hi
      have ow := (hreg z hz c1 c2).outward hbox c1 c2 c5
      have ow' := (hreg z' hz'' a1 a2).outward hbox a1 a2 a4
      have hpp := (ow.unique ow' le_rfl le_rfl a8).2.2
      subst hpp
      exact hlast z' hz' p ⟨a1, a2, hk', c4, a4, c6.trans a8⟩)
  have hv : z.1.explicitValue origin h0 z.2.1 (mcell 0 ref level p) i = z.1.value (fun _ => 0) ⟨fun _ => 0, 0, fun _ => 0, 0, 0⟩ (faceAt origin h0 level p z.2.1) i := by
    unfold FieldBc.explicitValue
    rw [hcoords _ (hkz z hz).1 _ (fun _ => 0) _ ⟨fun _ => 0, 0, fun _ => 0, 0, 0⟩]
    congr 1
    funext k
    show origin k + cellLength h0 level * ((toPt (mcell 0 ref level p).pt k : K) + 1 / 2) + cellLength h0 level / 2 * (z.2.1 k : K) = _
    rw [(mcell_is gE.fv.refWF hpm).2.1]
    unfold faceAt
    ring
  rw [← hv]
  exact this

/-- The leaves and the ghosts of the conditions determine the cells next to the leaves. -/
theorem ElimMesh.seg_unique (gE : ElimMesh 0 1 cells cag ref dom minL maxL 1) (hdl : dom.level = maxL) (hkind : ∀ c ∈ bcs, c.kind.Implicit)
    (hreg : ∀ x ∈ fieldEntries bcs, UnitVector 0 x.2.1 → OneAxis 0 x.2.1 → BdryRegion 0 dom x.2.1 x.2.2) (hcov : FieldCovers dom bcs)
    {U : Type} [AddCommGroup U] [Module K U] (val : Nat → List Int → U) (hleaf : ∀ l q, cells.Mem 0 l q → val l q = 0)
    (hc : ∀ l1 z l2 l p q, fieldEntries bcs = l1 ++ z :: l2 → Constrains 0 cells l z p q → (∀ z' ∈ l2, ∀ p', ¬ Constrains 0 cells l z' p' q) → val l q = 0)
    (hP : ∀ l q, ProjGhost 0 cells cag l q → MeanBelow (K := K) 0 val l q) (hQ : ∀ l q, PredGhost 0 cells cag l q → TensorPredicted (K := K) 0 1 val l q) :
    ∀ l q, cag.Mem 0 l q → val l q = 0 := by
  classical
  obtain ⟨rec, -, r2, r3, r4, r5⟩ := gE.elimination (K := K) (by omega)
  have hcons := gE.seg_cons hdl hkind hreg hcov
  let val0 : Nat → List Int → U := fun l q => if cag.Mem 0 l q then val l q else 0
  let D : Int → U := fun k => if h : ∃ e : Nat × List Int, (e.1, e.2, k) ∈ ref.numbered 0 then val0 h.choose.1 h.choose.2 else 0
  have hD : FieldIs 0 ref D val0 := by
    intro l q k hk
    have h : ∃ e : Nat × List Int, (e.1, e.2, k) ∈ ref.numbered 0 := ⟨(l, q), hk⟩
    have : D k = val0 h.choose.1 h.choose.2 := dif_pos h
    rw [this]
    obtain ⟨e1, e2⟩ := number_inj gE.distinct hk h.choose_spec
    rw [← e1, ← e2]
  have hG : GhostsHold rec D := by
    refine (r5 U D val0 hD).2 ⟨fun l q hq => ?_, fun l q hq => ?_⟩
    · have := hP l q hq
      unfold MeanBelow at this ⊢
      show (if _ then _ else _) = _
      rw [if_pos hq.1, this]
      congr 1
      refine congrArg List.sum (List.map_congr_left fun c hc => ?_)
      show _ = if _ then _ else _
      rw [if_pos (gE.child_proj hq (anc_one.2 (mem_childrenOf.1 hc).symm)).1]
    · have := hQ l q hq
      obtain ⟨x, rfl⟩ : ∃ x, q = [x] := by
        have := mem_length hq.2.1.2
        match q, this with
        | [x], _ => exact ⟨x, rfl⟩
      rw [tensor_dim1] at this ⊢
      obtain ⟨-, q2, c, q3, q4⟩ := hq
      obtain ⟨_, hx, rfl⟩ : ∃ y, [x] = [y] ∧ c = [y / 2] := by
        have := mem_length q3.2
        match c, this with
        | [c], _ =>
          obtain ⟨y, h1, h2⟩ := anc_seg.1 q4
          exact ⟨y, h1, by rw [h2, pow_one]⟩
      cases hx
      have hg : ∀ s : Int, -1 ≤ s → s ≤ 1 → cag.Mem 0 (l - 1) [x / 2 + s] := fun s s1 s2 =>
        gE.near_cag q3 (.cons (by constructor <;> push_cast <;> omega) .nil)
      have g0 := hg 0 (by omega) (by omega)
      have gm := hg (-1) (by omega) (by omega)
      have gp := hg 1 (by omega) (by omega)
      rw [add_zero] at g0
      rw [← sub_eq_add_neg] at gm
      simp only [val0]
      rw [if_pos q2, if_pos g0, if_pos gm, if_pos gp]
      exact this
  have hfree : ∀ l q, ¬ ProjGhost 0 cells cag l q → ¬ PredGhost 0 cells cag l q → val0 l q = 0 := by
    intro l q h1 h2
    show (if _ then _ else _) = _
    split_ifs with h
    · rcases hcons l q h with h' | h' | h' | ⟨l1, z, l2, p, k1, k2, k3⟩
      · exact hleaf l q h'
      · exact absurd h' h1
      · exact absurd h' h2
      · exact hc l1 z l2 l p q k1 k2 k3
    · rfl
  intro l q hq
  by_cases hPQ : ProjGhost 0 cells cag l q ∨ PredGhost 0 cells cag l q
  · have hk := numOf_numbered gE.fv.refWF (gE.cag_ref hq)
    obtain ⟨comb, hcomb⟩ := (r2 _).2 ⟨l, q, hk, hPQ⟩
    have hmem : (numOf 0 ref l q, comb) ∈ rec := ghostFind_mem hcomb
    have h1 := hG _ hmem
    have h2 : D (numOf 0 ref l q) = val l q := by
      rw [hD l q _ hk]
      exact if_pos hq
    rw [← h2, h1]
    refine List.sum_eq_zero ?_
    intro t ht
    obtain ⟨e, he, rfl⟩ := List.mem_map.1 ht
    obtain ⟨l', q', k1, k2, k3⟩ := r3 _ hmem e he
    rw [hD l' q' _ k1, hfree l' q' k2 k3, smul_zero]
  · rw [not_or] at hPQ
    have := hfree l q hPQ.1 hPQ.2
    rwa [show val0 l q = val l q from if_pos hq] at this

end

end Samurai

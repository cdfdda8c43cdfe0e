import Verif.Lemmas.BcExtra

namespace Samurai

/-- The cells at distance less than `k` on the lines are not at distance `k` or more. -/
theorem read_ne_write {n : Nat} {b : Box} {p q : List Int} {v v' : Nat → Int} (hp : Outward n b p v) (hq : Outward n b q v') {k : Nat} {j m : Int}
    (j1 : - (k : Int) < j) (j2 : j < k) (hm : (k : Int) ≤ m) : walk n p j v ≠ walk n q m v' := by
  intro h
  obtain ⟨d, hd, hne⟩ := hq.2.1.2
  have e : toPt (walk n p j v) d = toPt (walk n q m v') d := by rw [h]
  have hpb := (inBox_iff.1 hp.1).2 d hd
  rw [toPt_walk hp.length j v hd, toPt_walk hq.length m v' hd] at e
  have h1 := hp.edge hd
  have h2 := hq.edge hd
  rcases h1 with a | ⟨a, a'⟩ | ⟨a, a'⟩ <;> rcases h2 with c | ⟨c, c'⟩ | ⟨c, c'⟩ <;> first | exact hne c | (rw [a, c] at e; omega)

section
variable {K : Type} [Field K] {n : Nat} {M : BcMesh K} {level : Nat} {b : Box} {w : Nat}

theorem Extrapolates.conv {k : Nat} {dg og : Bool} {dir : Nat → Int} {p : List Int} (h : Extrapolates n M level b k dg og dir p) :
    Outward n b p (convDir n dir) := h.2.2.2.1.conv

theorem Extrapolates.line (g : BcReady n M level b w) {k : Nat} (hk : 1 ≤ k) (hgw : k ≤ Nat.max w M.cfg.ghostWidth) {dg og : Bool} {dir : Nat → Int} {p : List Int}
    (h : Extrapolates n M level b k dg og dir p) : ∀ j : Int, - (k : Int) < j → j ≤ k → M.ref.Mem n level (walk n p j (convDir n dir)) :=
  g.lines p dir k h.2.2.2.1 hk hgw h.2.2.2.2.1 _ fun d _ => convDir_sub n dir d

/-- One layer of the extrapolation: all the directions at once. -/
theorem layer_dirs (g : BcReady n M level b w) {k : Nat} (hk : 1 ≤ k) (h3 : k ≤ 3) (hgw : k ≤ Nat.max w M.cfg.ghostWidth) (dg og : Bool) : ∀ (l : List (Nat → Int)), (∀ dir ∈ l, dir ∈ boxDirections n) →
    ∀ u : Int → K, ∃ u', l.foldlM (applyExtrapolationDir n M (2 * k) level dg og) u = some u' ∧
      Keeps n M.ref level (fun q => ∃ dir ∈ l, ∃ p, Extrapolates n M level b k dg og dir p ∧ q = walk n p k (convDir n dir)) u u' ∧
      ∀ dir ∈ l, ∀ p, Extrapolates n M level b k dg og dir p → u' (numOf n M.ref level (walk n p k (convDir n dir))) =
          extrapolationRow (2 * k) fun j => u (numOf n M.ref level (walk n p ((j : Int) - k + 1) (convDir n dir))) := by
  intro l
  induction l with
  | nil => intro _ u; exact ⟨u, rfl, Keeps.refl _ _, fun dir hd => by simp at hd⟩
  | cons a l ih =>
    intro hl u
    obtain ⟨u1, e1, k1, v1⟩ := applyExtrapolationDir_spec g hk h3 hgw (hl a (by simp)) dg og u
    obtain ⟨u2, e2, k2, v2⟩ := ih (fun dir hd => hl dir (List.mem_cons_of_mem _ hd)) u1
    have rows : ∀ dir p, Extrapolates n M level b k dg og dir p →
        (extrapolationRow (2 * k) fun j => u1 (numOf n M.ref level (walk n p ((j : Int) - k + 1) (convDir n dir)))) =
          extrapolationRow (2 * k) fun j => u (numOf n M.ref level (walk n p ((j : Int) - k + 1) (convDir n dir))) := by
      intro dir p hp
      refine extrapolationRow_congr hk h3 fun j hj => ?_
      refine k1.at g.refWF g.numbers (hp.line g hk hgw _ (by omega) (by omega)) ?_
      rintro ⟨q, hq, he⟩
      exact read_ne_write hp.conv hq.conv (k := k) (by omega) (by omega) le_rfl he
    refine ⟨u2, by rw [List.foldlM_cons, e1]; exact e2, (k1.mono ?_).trans (k2.mono ?_), ?_⟩
    · rintro q ⟨p, hp, rfl⟩; exact ⟨a, by simp, p, hp, rfl⟩
    · rintro q ⟨dir, hd, p, hp, rfl⟩; exact ⟨dir, List.mem_cons_of_mem _ hd, p, hp, rfl⟩
    · intro dir hd p hp
      rcases List.mem_cons.1 hd with rfl | hd
      · by_cases hlater : ∃ dir' ∈ l, ∃ q, Extrapolates n M level b k dg og dir' q ∧ walk n p k (convDir n dir) = walk n q k (convDir n dir')
        · obtain ⟨dir', hd', q, hq, he⟩ := hlater
          obtain ⟨_, hv, rfl⟩ := hp.conv.unique hq.conv (by omega) (by omega) he
          rw [he, v2 dir' hd' p hq, rows dir' p hq]
          simp only [walk_congr hv]
        · rw [← v1 p hp]
          exact k2.at g.refWF g.numbers (hp.line g hk hgw k (by omega) le_rfl) fun ⟨dir', hd', q, hq, he⟩ => hlater ⟨dir', hd', q, hq, he⟩
      · rw [v2 dir hd p hp, rows dir p hp]

/-- Ghosts at distance `k` or more. -/
def Far (n : Nat) (b : Box) (k : Nat) (q : List Int) : Prop := ∃ p v, Outward n b p v ∧ ∃ m : Nat, k ≤ m ∧ q = walk n p m v

/-- The layers `l`, increasing. -/
theorem layers_spec (g : BcReady n M level b w) (layers : Nat) (hlw : layers ≤ M.cfg.ghostWidth) (dg : Nat → Bool) (og : Bool) : ∀ (len s : Nat), 1 ≤ s → ∀ u : Int → K,
    ∃ u', (List.range' s len).foldlM (extrapolationLayer n M level layers dg og) u = some u' ∧
      Keeps n M.ref level (fun q => ∃ k dir p, s ≤ k ∧ k < s + len ∧ k ≤ 3 ∧ k ≤ layers ∧ dir ∈ boxDirections n ∧
        Extrapolates n M level b k (dg k) og dir p ∧ q = walk n p k (convDir n dir)) u u' ∧
      ∀ k dir p, s ≤ k → k < s + len → k ≤ 3 → k ≤ layers → dir ∈ boxDirections n → Extrapolates n M level b k (dg k) og dir p →
        u' (numOf n M.ref level (walk n p k (convDir n dir))) =
          extrapolationRow (2 * k) fun j => u' (numOf n M.ref level (walk n p ((j : Int) - k + 1) (convDir n dir))) := by
  intro len
  induction len with
  | zero =>
    intro s hs u
    exact ⟨u, rfl, Keeps.refl _ _, fun k dir p h1 h2 => by omega⟩
  | succ len ih =>
    intro s hs u
    have step : ∃ u1, extrapolationLayer n M level layers dg og u s = some u1 ∧
        Keeps n M.ref level (fun q => ∃ dir p, s ≤ 3 ∧ s ≤ layers ∧ dir ∈ boxDirections n ∧ Extrapolates n M level b s (dg s) og dir p ∧
          q = walk n p s (convDir n dir)) u u1 ∧
        ∀ dir p, s ≤ 3 → s ≤ layers → dir ∈ boxDirections n → Extrapolates n M level b s (dg s) og dir p →
          u1 (numOf n M.ref level (walk n p s (convDir n dir))) =
            extrapolationRow (2 * s) fun j => u (numOf n M.ref level (walk n p ((j : Int) - s + 1) (convDir n dir))) := by
      unfold extrapolationLayer
      by_cases hc : s ≤ 3 ∧ s ≤ layers
      · rw [if_pos (by omega)]
        unfold applyExtrapolationBc
        rw [if_neg (by have := g.dom.le; omega)]
        obtain ⟨u1, e1, k1, v1⟩ := layer_dirs g hs hc.1 ((hc.2.trans hlw).trans (Nat.le_max_right _ _)) (dg s) og (boxDirections n) (fun _ h => h) u
        refine ⟨u1, e1, k1.mono ?_, fun dir p _ _ hd hp => v1 dir hd p hp⟩
        rintro q ⟨dir, hd, p, hp, rfl⟩
        exact ⟨dir, p, hc.1, hc.2, hd, hp, rfl⟩
      · rw [if_neg (by omega)]
        exact ⟨u, rfl, Keeps.refl _ _, fun dir p h1 h2 => absurd ⟨h1, h2⟩ hc⟩
    obtain ⟨u1, e1, k1, v1⟩ := step
    obtain ⟨u2, e2, k2, v2⟩ := ih (s + 1) (by omega) u1
    refine ⟨u2, by rw [List.range'_succ, List.foldlM_cons, e1]; exact e2, (k1.mono ?_).trans (k2.mono ?_), ?_⟩
    · rintro q ⟨dir, p, h1, h2, h3, h4, rfl⟩
      exact ⟨s, dir, p, le_rfl, by omega, h1, h2, h3, h4, rfl⟩
    · rintro q ⟨k, dir, p, h1, h2, h3, h4, h5, h6, rfl⟩
      exact ⟨k, dir, p, by omega, by omega, h3, h4, h5, h6, rfl⟩
    · intro k dir p h1 h2 h3 h4 h5 h6
      rcases Nat.eq_or_lt_of_le h1 with rfl | h1
      · have kept : ∀ j : Int, - (s : Int) < j → j ≤ s → (j = s → True) → ∀ u0, Keeps n M.ref level (fun q => ∃ k dir p, s + 1 ≤ k ∧ k < s + 1 + len ∧ k ≤ 3 ∧
            k ≤ layers ∧ dir ∈ boxDirections n ∧ Extrapolates n M level b k (dg k) og dir p ∧ q = walk n p k (convDir n dir)) u0 u2 →
            u2 (numOf n M.ref level (walk n p j (convDir n dir))) = u0 (numOf n M.ref level (walk n p j (convDir n dir))) := by
          intro j j1 j2 _ u0 hk
          refine hk.at g.refWF g.numbers (h6.line g hs ((h4.trans hlw).trans (Nat.le_max_right _ _)) j j1 j2) ?_
          rintro ⟨k', dir', q, a1, a2, a3, a4, a5, a6, he⟩
          exact read_ne_write h6.conv a6.conv (k := k') (by omega) (by omega) le_rfl he
        rw [kept s (by omega) le_rfl (fun _ => trivial) u1 k2, v1 dir p h3 h4 h5 h6]
        refine extrapolationRow_congr hs h3 fun j hj => ?_
        rw [kept _ (by omega) (by omega) (fun _ => trivial) u1 k2]
        symm
        refine k1.at g.refWF g.numbers (h6.line g hs ((h4.trans hlw).trans (Nat.le_max_right _ _)) _ (by omega) (by omega)) ?_
        rintro ⟨dir', q, a1, a2, a3, a4, he⟩
        exact read_ne_write h6.conv a4.conv (k := s) (by omega) (by omega) le_rfl he
      · exact v2 k dir p (by omega) (by omega) h3 h4 h5 h6

/-! ### the conditions of the user -/

omit [Field K] in
theorem mem_bcEntries {bcs : List (BcCond K)} {x : BcCond K × ((Nat → Int) × LCA)} : x ∈ bcEntries bcs ↔ x.1 ∈ bcs ∧ x.2 ∈ x.1.region := by
  unfold bcEntries
  simp only [List.mem_flatMap, List.mem_map]
  constructor
  · rintro ⟨c, h1, d, h2, rfl⟩; exact ⟨h1, h2⟩
  · rintro ⟨h1, h2⟩; exact ⟨x.1, h1, x.2, h2, rfl⟩

theorem foldlM_entries (bcs : List (BcCond K)) (hsz : ∀ c ∈ bcs, 1 ≤ c.kind.stencilSize ∧ c.kind.stencilSize ≤ 10) (u : Int → K) :
    updateBcUser n M bcs level u = (bcEntries bcs).foldlM (fun u x => applyBcDir n M x.1 level u x.2) u := by
  unfold updateBcUser bcEntries
  induction bcs generalizing u with
  | nil => rfl
  | cons c bcs ih =>
    rw [List.foldlM_cons, List.flatMap_cons, List.foldlM_append, if_pos (hsz c (by simp))]
    have e : applyBc n M c level u = (c.region.map fun d => (c, d)).foldlM (fun u x => applyBcDir n M x.1 level u x.2) u := by
      unfold applyBc
      rw [List.foldlM_map]
    rw [e]
    congr 1
    funext u'
    exact ih (fun c hc => hsz c (List.mem_cons_of_mem _ hc)) u'

theorem entries_spec (g : BcReady n M level b w) : ∀ (l : List (BcCond K × ((Nat → Int) × LCA))), (∀ x ∈ l, GoodBc n M.dom w x.1 ∧ x.2 ∈ x.1.region) →
    ∀ u : Int → K, ∃ u', l.foldlM (fun u x => applyBcDir n M x.1 level u x.2) u = some u' ∧
      Keeps n M.ref level (fun q => ∃ x ∈ l, ImposesGhost n M level x q) u u' ∧
      ∀ l1 x l2, l = l1 ++ x :: l2 → ∀ p i, Imposes n M level x.1 x.2 p i → WideFor n b x.1.kind.ghosts x.2.1 →
        (∀ y ∈ l2, ¬ ImposesGhost n M level y (walk n p i x.2.1)) →
        u' (numOf n M.ref level (walk n p i x.2.1)) = x.1.kind.row M.h0 level i (x.1.value x.2.1 (mcell n M.ref level p)) fun j =>
          u (numOf n M.ref level (walk n p ((j : Int) - x.1.kind.ghosts + 1) x.2.1)) := by
  intro l
  induction l with
  | nil =>
    intro _ u
    refine ⟨u, rfl, Keeps.refl _ _, fun l1 x l2 h => ?_⟩
    have := congrArg List.length h
    simp at this
  | cons a l ih =>
    intro hl u
    obtain ⟨ga, da⟩ := hl a (by simp)
    obtain ⟨u1, e1, k1, v1⟩ := applyBcDir_spec g ga da u
    obtain ⟨u2, e2, k2, v2⟩ := ih (fun x hx => hl x (List.mem_cons_of_mem _ hx)) u1
    refine ⟨u2, by rw [List.foldlM_cons, e1]; exact e2, (k1.mono ?_).trans (k2.mono ?_), ?_⟩
    · rintro q ⟨p, i, h, rfl⟩; exact ⟨a, by simp, p, i, h, rfl⟩
    · rintro q ⟨x, hx, h⟩; exact ⟨x, List.mem_cons_of_mem _ hx, h⟩
    · intro l1 x l2 hl12 p i hp hwide hlast
      match l1, hl12 with
      | [], h =>
        obtain ⟨rfl, rfl⟩ := List.cons.inj h
        rw [← v1 p i hp]
        refine k2.at g.refWF g.numbers ?_ fun ⟨y, hy, hq⟩ => hlast y hy hq
        obtain ⟨_, _, _, _, _, i1, i2⟩ := id hp
        exact (imposes_line g ga da hp).2 i (by omega) (by omega)
      | c :: l1, h =>
        obtain ⟨rfl, rfl⟩ := List.cons.inj h
        obtain ⟨gx, dx⟩ := hl x (by simp)
        obtain ⟨ho, hline⟩ := imposes_line g gx dx hp
        obtain ⟨_, _, _, _, _, i1, i2⟩ := id hp
        rw [v2 l1 x l2 rfl p i hp hwide hlast]
        refine BcKind.row_congr gx.known _ i1 i2 _ fun j hj => ?_
        refine k1.at g.refWF g.numbers (hline _ (by omega) (by omega)) ?_
        rintro ⟨q, m, hq, he⟩
        obtain ⟨_, _, _, _, _, m1, m2⟩ := id hq
        have hin := ho.inside hwide (j := x.1.kind.ghosts - 1 - j) (by omega)
        rw [show - ((x.1.kind.ghosts - 1 - j : Nat) : Int) = (j : Int) - x.1.kind.ghosts + 1 by omega, he] at hin
        exact (imposes_line g ga da hq).1.out (by omega) hin

/-! ### the whole update -/

/-- The vector of a corner in dimension 3 loses its last component. -/
theorem conv_corner {dir : Nat → Int} (hn : 1 ≤ n) (h0 : dir 0 ≠ 0) :
    convDir n dir 0 = dir 0 ∧ convDir n dir 1 = dir 1 ∧ ∀ d, 2 ≤ d → convDir n dir d = 0 := by
  have e : findDirectionIndex n dir = 0 := by
    unfold findDirectionIndex findDirFrom
    rw [if_pos h0]
  unfold convDir
  simp only [if_neg (by omega : n ≠ 0), e, if_true]
  refine ⟨by simp, by simp, fun d hd => ?_⟩
  rw [if_neg (by omega), if_neg (by omega)]

theorem maxStencil_lt {k : Nat} (hk : 1 ≤ k) (bcs : List (BcCond K)) (h : ∀ c ∈ bcs, c.kind.ghosts < k) : maxStencilSize bcs / 2 < k := by
  have key : ∀ (l : List (BcCond K)) (s : Nat), s < 2 * k → (∀ c ∈ l, c.kind.ghosts < k) → l.foldl (fun s c => Nat.max s c.kind.stencilSize) s < 2 * k := by
    intro l
    induction l with
    | nil => intro s hs _; exact hs
    | cons a l ih =>
      intro s hs hl
      refine ih _ (Nat.max_lt.2 ⟨hs, ?_⟩) fun c hc => hl c (List.mem_cons_of_mem _ hc)
      have := hl a (by simp)
      rw [a.kind.size_eq]; omega
  have := key bcs 0 (by omega) h
  unfold maxStencilSize
  omega

theorem maxStencil_ge (bcs : List (BcCond K)) {c : BcCond K} (hc : c ∈ bcs) : c.kind.ghosts ≤ maxStencilSize bcs / 2 := by
  have mono : ∀ (l : List (BcCond K)) (s : Nat), s ≤ l.foldl (fun s c => Nat.max s c.kind.stencilSize) s := by
    intro l
    induction l with
    | nil => intro s; exact le_rfl
    | cons a l ih => intro s; exact (Nat.le_max_left _ _).trans (ih _)
  have key : ∀ (l : List (BcCond K)) (s : Nat), c ∈ l → c.kind.stencilSize ≤ l.foldl (fun s c => Nat.max s c.kind.stencilSize) s := by
    intro l
    induction l with
    | nil => intro s h; simp at h
    | cons a l ih =>
      intro s h
      rcases List.mem_cons.1 h with rfl | h
      · exact (Nat.le_max_right _ _).trans (mono l _)
      · exact ih _ h
  have := key bcs 0 hc
  rw [c.kind.size_eq] at this
  unfold maxStencilSize
  omega

/-- The lines on which the update works. -/
def BcLine (n : Nat) (v : Nat → Int) : Prop := OneAxis n v ∨ (n = 1 ∨ n = 2) ∧ v 0 ≠ 0 ∧ v 1 ≠ 0 ∧ ∀ d, 2 ≤ d → v d = 0

theorem Extrapolates.bcLine {k : Nat} {dg og : Bool} {dir : Nat → Int} {p : List Int} (h : Extrapolates n M level b k dg og dir p) :
    (OneAxis n dir ∧ OneAxis n (convDir n dir) ∧ dg = false) ∨
      (n = 1 ∨ n = 2) ∧ convDir n dir 0 ≠ 0 ∧ convDir n dir 1 ≠ 0 ∧ ∀ d, 2 ≤ d → convDir n dir d = 0 := by
  rcases h.2.2.1 with h1 | ⟨hn, h1⟩
  · left
    refine ⟨h1, ?_, ?_⟩
    · have hc := convDir_axis h1
      obtain ⟨d, hd, hne, h0⟩ := h1
      exact ⟨d, hd, by rw [hc d hd]; exact hne, fun q hq hqd => by rw [hc q hq]; exact h0 q hq hqd⟩
    · cases dg with
      | false => rfl
      | true => exact absurd h1 (h.2.1 rfl)
  · right
    obtain ⟨a1, a2, a3⟩ := conv_corner (n := n) (dir := dir) (by omega) (h1 0 (by omega))
    exact ⟨hn, by rw [a1]; exact h1 0 (by omega), by rw [a2]; exact h1 1 (by omega), a3⟩

theorem updateBc_spec (g : BcReady n M level b w) {bcs : List (BcCond K)} (hbc : ∀ c ∈ bcs, GoodBc n M.dom w c) (u : Int → K) :
    ∃ u', updateBc n M bcs level u = some u' ∧
      Keeps n M.ref level (fun q => ∃ p v k, Outward n b p v ∧ BcLine n v ∧ 1 ≤ k ∧ (k ≤ 3 ∨ ∃ c ∈ bcs, k ≤ c.kind.ghosts) ∧ q = walk n p (k : Nat) v) u u' ∧
      (∀ l1 x l2, bcEntries bcs = l1 ++ x :: l2 → ∀ p i, Imposes n M level x.1 x.2 p i → WideFor n b x.1.kind.ghosts x.2.1 →
        (∀ y ∈ l2, ¬ ImposesGhost n M level y (walk n p i x.2.1)) →
        u' (numOf n M.ref level (walk n p i x.2.1)) = x.1.kind.row M.h0 level i (x.1.value x.2.1 (mcell n M.ref level p)) fun j =>
          u' (numOf n M.ref level (walk n p ((j : Int) - x.1.kind.ghosts + 1) x.2.1))) ∧
      ∀ k dir p, 1 ≤ k → k ≤ 3 → k ≤ M.cfg.ghostWidth → dir ∈ boxDirections n →
        Extrapolates n M level b k (decide (k ≤ maxStencilSize bcs / 2)) false dir p →
        u' (numOf n M.ref level (walk n p k (convDir n dir))) =
          extrapolationRow (2 * k) fun j => u' (numOf n M.ref level (walk n p ((j : Int) - k + 1) (convDir n dir))) := by
  have fromE : ∀ {k : Nat} {dg og : Bool} {dir p}, Extrapolates n M level b k dg og dir p → 1 ≤ k → k ≤ 3 →
      ∃ p' v k', Outward n b p' v ∧ BcLine n v ∧ 1 ≤ k' ∧ (k' ≤ 3 ∨ ∃ c ∈ bcs, k' ≤ c.kind.ghosts) ∧ walk n p k (convDir n dir) = walk n p' (k' : Nat) v := by
    intro k dg og dir p h h1 h3
    refine ⟨p, convDir n dir, k, h.conv, ?_, h1, .inl h3, rfl⟩
    rcases h.bcLine with h | h
    · exact .inl h.2.1
    · exact .inr h
  have hgood : ∀ x ∈ bcEntries bcs, GoodBc n M.dom w x.1 ∧ x.2 ∈ x.1.region := fun x hx =>
    ⟨hbc x.1 (mem_bcEntries.1 hx).1, (mem_bcEntries.1 hx).2⟩
  -- step 0
  have step0 : ∃ u0, updateBcGhosts n M level u = some u0 ∧
      Keeps n M.ref level (fun q => ∃ p v k, Outward n b p v ∧ BcLine n v ∧ 1 ≤ k ∧ (k ≤ 3 ∨ ∃ c ∈ bcs, k ≤ c.kind.ghosts) ∧ q = walk n p (k : Nat) v) u u0 := by
    unfold updateBcGhosts
    split
    · obtain ⟨u0, e0, k0, _⟩ := layers_spec g M.cfg.predictionOrder (Nat.le_max_right _ _) (fun _ => false) true M.cfg.predictionOrder 1 le_rfl u
      refine ⟨u0, e0, k0.mono ?_⟩
      rintro q ⟨k, dir, p, a1, a2, a3, a4, a5, a6, rfl⟩
      exact fromE a6 a1 a3
    · exact ⟨u, rfl, Keeps.refl _ _⟩
  obtain ⟨u0, e0, k0⟩ := step0
  obtain ⟨u1, e1, k1, v1⟩ := entries_spec g (bcEntries bcs) hgood u0
  obtain ⟨u2, e2, k2, v2⟩ := layers_spec g M.cfg.ghostWidth le_rfl (fun layer => decide (layer ≤ maxStencilSize bcs / 2)) false M.cfg.ghostWidth 1 le_rfl u1
  refine ⟨u2, ?_, ?_, ?_, fun k dir p h1 h3 h4 h5 h6 => v2 k dir p h1 (by omega) h3 h4 h5 h6⟩
  · unfold updateBc
    rw [e0]
    simp only []
    rw [foldlM_entries bcs (fun c hc => ?_), e1]
    · exact e2
    · have := (hbc c hc).known.ghosts_pos
      rw [c.kind.size_eq]; omega
  · refine k0.trans ((k1.mono ?_).trans (k2.mono ?_))
    · rintro q ⟨x, hx, p, i, hi, rfl⟩
      obtain ⟨gx, dx⟩ := hgood x hx
      obtain ⟨ho, _⟩ := imposes_line g gx dx hi
      obtain ⟨_, h2, _, _, _, i1, i2⟩ := hi
      exact ⟨p, x.2.1, i, ho, .inl h2, i1, .inr ⟨x.1, (mem_bcEntries.1 hx).1, i2⟩, rfl⟩
    · rintro q ⟨k, dir, p, a1, a2, a3, a4, a5, a6, rfl⟩
      exact fromE a6 a1 a3
  · intro l1 x l2 hl p i hi hwide hlast
    have hx : x ∈ bcEntries bcs := by rw [hl]; simp
    obtain ⟨gx, dx⟩ := hgood x hx
    obtain ⟨ho, hline⟩ := imposes_line g gx dx hi
    obtain ⟨_, hax, _, _, _, i1, i2⟩ := id hi
    have hmax := maxStencil_ge bcs (mem_bcEntries.1 hx).1
    have kept2 : ∀ q, M.ref.Mem n level q → (∀ k dir p', 1 ≤ k → k ≤ 3 → Extrapolates n M level b k (decide (k ≤ maxStencilSize bcs / 2)) false dir p' →
        q ≠ walk n p' k (convDir n dir)) → u2 (numOf n M.ref level q) = u1 (numOf n M.ref level q) := by
      intro q hq hne
      refine k2.at g.refWF g.numbers hq ?_
      rintro ⟨k, dir, p', a1, a2, a3, a4, a5, a6, he⟩
      exact hne k dir p' a1 a3 a6 he
    have hghost : u2 (numOf n M.ref level (walk n p i x.2.1)) = u1 (numOf n M.ref level (walk n p i x.2.1)) := by
      refine kept2 _ (hline i (by omega) (by omega)) ?_
      intro k dir p' a1 a3 a6 he
      obtain ⟨hik, hv, _⟩ := ho.unique a6.conv (by omega) (by omega) he
      rcases a6.bcLine with ⟨_, _, h⟩ | ⟨hn, h0, h1, _⟩
      · have : ¬ k ≤ maxStencilSize bcs / 2 := by simpa using h
        omega
      · obtain ⟨d, hd, _, hz⟩ := hax
        by_cases hd0 : d = 0
        · exact h1 (by rw [← hv 1 (by omega)]; exact hz 1 (by omega) (by omega))
        · exact h0 (by rw [← hv 0 (by omega)]; exact hz 0 (by omega) (by omega))
    rw [hghost, v1 l1 x l2 hl p i hi hwide hlast]
    refine BcKind.row_congr gx.known _ i1 i2 _ fun j hj => ?_
    have hin := ho.inside hwide (j := x.1.kind.ghosts - 1 - j) (by omega)
    rw [show - ((x.1.kind.ghosts - 1 - j : Nat) : Int) = (j : Int) - x.1.kind.ghosts + 1 by omega] at hin
    have hmem := hline ((j : Int) - x.1.kind.ghosts + 1) (by omega) (by omega)
    rw [kept2 _ hmem fun k dir p' a1 a3 a6 he => a6.conv.out (by omega) (he ▸ hin)]
    symm
    refine k1.at g.refWF g.numbers hmem ?_
    rintro ⟨y, hy, q, m, hq, he⟩
    obtain ⟨gy, dy⟩ := hgood y hy
    obtain ⟨_, _, _, _, _, m1, m2⟩ := id hq
    exact (imposes_line g gy dy hq).1.out (by omega) (he ▸ hin)

end

end Samurai

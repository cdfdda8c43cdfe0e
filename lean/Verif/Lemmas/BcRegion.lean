import Verif.Lemmas.BcFinal

namespace Samurai

/-- The coordinates of the domain, with a margin of four cells, stay below the largest `int`. -/
theorem dom_nodes {n : Nat} {dom : LCA} (hw : dom.WF n) {D : Int} (h0 : 0 ≤ D) (hD : D + 8 < INT_MAX) (hb : dom.BelowAt n dom.level D) {s : Nat → Int}
    (hs : ∀ d ≤ n, s d ≤ 1) : ((Node.mesh dom).Operand n ∧ (Node.mesh dom).InRange n dom.level) ∧
      ((Node.translate (.mesh dom) s).Operand n ∧ (Node.translate (.mesh dom) s).InRange n dom.level) := by
  refine ⟨⟨hw, inRange_mesh' hw h0 hb ?_⟩, hw, inRange_shift (g := 1) hw h0 hb (by exact_mod_cast hs) ?_⟩
  · rw [Nat.sub_self]; omega
  · rw [Nat.sub_self]; push_cast; omega

theorem lcaOfSet_spec {n : Nat} {e : Expr Node} (h : e.Admissible n) :
    ∃ L, lcaOfSet n e = some L ∧ L.WF n ∧ L.level = e.finest ∧ ∀ p, L.Mem n p ↔ e.HoldsAt n e.finest p := by
  obtain ⟨calls, h1, h2, h3⟩ := runDefault_ok h
  obtain ⟨a1, a2, a3⟩ := lcaOfCalls_spec (level := (mkSet e).ref) h2
  refine ⟨_, by unfold lcaOfSet; rw [h1], a1, ?_, fun p => (a3 p).trans (h3 p)⟩
  rw [a2]
  exact (mkSet_isOn e).ref_eq

theorem shift_one_iff {n : Nat} {dom : LCA} {s v : Nat → Int} (h : ∀ d ≤ n, s d = - v d) {p : List Int} :
    dom.Mem n (subPoint s n p) ↔ dom.Mem n (shiftPoint v n p) := by
  have : subPoint s n p = shiftPoint v n p := by
    have e : subPoint s n p = shiftPoint (fun k => - s k) n p := by
      rw [← sub_eq_shift]; simp only [neg_neg]
    rw [e]
    exact shift_congr _ _ fun d hd => by rw [h d hd]; ring
  rw [this]

theorem faceSet_one {n : Nat} {dom : LCA} {dir : Nat → Int} {p : List Int} :
    (faceSet dom 1 dir).HoldsAt n dom.level p ↔ dom.Mem n p ∧ ¬ dom.Mem n (shiftPoint dir n p) := by
  show AtLevel dom.level dom.level (dom.Mem n) p ∧ ¬ AtLevel dom.level dom.level (fun p => dom.Mem n (subPoint (fun k => - 1 * dir k) n p)) p ↔ _
  rw [atLevel_same, atLevel_same, shift_one_iff (v := dir) fun d _ => by ring]

theorem cornerSet_one {n : Nat} {dom : LCA} {dir : Nat → Int} {p : List Int} :
    (cornerSet n dom 1 dir).HoldsAt n dom.level p ↔ dom.Mem n p ∧ ∀ d ≤ n, ¬ dom.Mem n (shiftPoint (only dir d) n p) := by
  show AtLevel dom.level dom.level (dom.Mem n) p ∧ ¬ (unionAll _ _).HoldsAt n dom.level p ↔ _
  rw [atLevel_same, unionAll_holdsAt]
  refine and_congr_right fun _ => ?_
  have key : ∀ d, AtLevel dom.level dom.level (fun p => dom.Mem n (subPoint (axisPart 1 dir d) n p)) p ↔ dom.Mem n (shiftPoint (only dir d) n p) := fun d => by
    rw [atLevel_same]
    refine shift_one_iff fun k _ => ?_
    unfold axisPart only
    split <;> ring
  constructor
  · intro h d hd hm
    exact h ⟨.translate (.mesh dom) (axisPart 1 dir d), cornerNodes.2 ⟨d, hd, rfl⟩, (key d).2 hm⟩
  · rintro h ⟨N, hN, hm⟩
    obtain ⟨d, hd, rfl⟩ := cornerNodes.1 hN
    exact h d hd ((key d).1 hm)

section
variable {n : Nat} {dom : LCA} (hw : dom.WF n) {D : Int} (h0 : 0 ≤ D) (hD : D + 8 < INT_MAX) (hb : dom.BelowAt n dom.level D)
include hw h0 hD hb

theorem faceSet_adm {dir : Nat → Int} (hd : ∀ d ≤ n, dir d = -1 ∨ dir d = 0 ∨ dir d = 1) :
    (faceSet dom 1 dir).Admissible n ∧ (faceSet dom 1 dir).finest = dom.level := by
  have := dom_nodes hw h0 hD hb (s := fun k => - 1 * dir k) fun d hd' => by rcases hd d hd' with h | h | h <;> rw [h] <;> omega
  exact ⟨admissible_of (M := dom.level) (Nat.max_self _).le ⟨this.1, this.2⟩, Nat.max_self _⟩

theorem cornerSet_adm {dir : Nat → Int} (hd : ∀ d ≤ n, dir d = -1 ∨ dir d = 0 ∨ dir d = 1) :
    (cornerSet n dom 1 dir).Admissible n ∧ (cornerSet n dom 1 dir).finest = dom.level := by
  have hf : (cornerSet n dom 1 dir).finest = dom.level := by
    apply le_antisymm
    · refine Nat.max_le.2 ⟨le_rfl, unionAll_finest _ _ fun N hN => ?_⟩
      obtain ⟨d, hd', rfl⟩ := cornerNodes.1 hN
      exact le_rfl
    · exact Nat.le_max_left _ _
  refine ⟨admissible_of (M := dom.level) hf.le ⟨(dom_nodes hw h0 hD hb (s := fun _ => 0) fun _ _ => by omega).1, unionAll_all_nodes _ _ fun N hN => ?_⟩, hf⟩
  obtain ⟨d, hd', rfl⟩ := cornerNodes.1 hN
  refine (dom_nodes hw h0 hD hb (s := axisPart 1 dir d) fun k _ => ?_).2
  unfold axisPart
  split
  · rcases hd d hd' with h | h | h <;> rw [h] <;> omega
  · omega

theorem directionRegion_spec (hn : n ≤ 2) {dir : Nat → Int} (hd : ∀ d ≤ n, dir d = -1 ∨ dir d = 0 ∨ dir d = 1) :
    (¬ UnitVector n dir ∧ directionRegion n dom dir = some []) ∨
      UnitVector n dir ∧ ∃ L, directionRegion n dom dir = some [(dir, L)] ∧ L.WF n ∧ L.level = dom.level ∧
        (OneAxis n dir → ∀ p, L.Mem n p ↔ dom.Mem n p ∧ ¬ dom.Mem n (shiftPoint dir n p)) ∧
        (¬ OneAxis n dir → ∀ p, L.Mem n p ↔ dom.Mem n p ∧ ∀ d ≤ n, ¬ dom.Mem n (shiftPoint (only dir d) n p)) := by
  unfold directionRegion
  by_cases hz : numberOfOne n dir = 0
  · left
    exact ⟨fun h => (numberOfOne_unit hd).2 h hz, by rw [if_pos hz]⟩
  · right
    have hu := (numberOfOne_unit hd).1 hz
    refine ⟨hu, ?_⟩
    rw [if_neg hz]
    have hiff : numberOfOne n dir = 1 ↔ OneAxis n dir := by
      have := isCartesian_iff (n := n) (dir := dir)
      unfold isCartesian at this
      rw [beq_iff_eq] at this
      exact this.trans ⟨fun h => h.2, fun h => ⟨hu, h⟩⟩
    by_cases h1 : numberOfOne n dir = 1
    · rw [if_pos h1]
      obtain ⟨a1, a2⟩ := faceSet_adm hw h0 hD hb hd
      obtain ⟨L, l1, l2, l3, l4⟩ := lcaOfSet_spec a1
      refine ⟨L, by rw [l1]; rfl, l2, l3.trans a2, fun _ p => ?_, fun h => absurd (hiff.1 h1) h⟩
      rw [l4, a2, faceSet_one]
    · rw [if_neg h1]
      have hn' : n = 1 ∨ n = 2 := by
        rcases Nat.eq_zero_or_pos n with hn0 | hn0
        · subst hn0
          exfalso
          obtain ⟨d, hd', hne⟩ := hu.2
          exact h1 (hiff.2 ⟨d, hd', hne, fun k hk hkd => by omega⟩)
        · omega
      rw [if_pos hn']
      obtain ⟨a1, a2⟩ := cornerSet_adm hw h0 hD hb hd
      obtain ⟨L, l1, l2, l3, l4⟩ := lcaOfSet_spec a1
      refine ⟨L, by rw [l1]; rfl, l2, l3.trans a2, fun h => absurd (hiff.2 h) h1, fun _ p => ?_⟩
      rw [l4, a2, cornerSet_one]

theorem onDirectionRegion_spec (hn : n ≤ 2) : ∀ (dirs : List (Nat → Int)), (∀ dir ∈ dirs, ∀ d ≤ n, dir d = -1 ∨ dir d = 0 ∨ dir d = 1) →
    ∃ R, onDirectionRegion n dom dirs = some R ∧ List.Sublist (R.map Prod.fst) dirs ∧ (∀ v ∈ dirs, UnitVector n v → v ∈ R.map Prod.fst) ∧
      ∀ d ∈ R, UnitVector n d.1 ∧ d.2.WF n ∧ d.2.level = dom.level ∧
        (OneAxis n d.1 → ∀ p, d.2.Mem n p ↔ dom.Mem n p ∧ ¬ dom.Mem n (shiftPoint d.1 n p)) ∧
        (¬ OneAxis n d.1 → ∀ p, d.2.Mem n p ↔ dom.Mem n p ∧ ∀ k ≤ n, ¬ dom.Mem n (shiftPoint (only d.1 k) n p)) := by
  intro dirs
  induction dirs with
  | nil => intro _; exact ⟨[], rfl, List.Sublist.refl _, fun v hv => by simp at hv, fun d hd => by simp at hd⟩
  | cons a dirs ih =>
    intro hl
    obtain ⟨R, r1, r2, r3, r4⟩ := ih fun dir h => hl dir (List.mem_cons_of_mem _ h)
    unfold onDirectionRegion
    rcases directionRegion_spec hw h0 hD hb hn (hl a (by simp)) with ⟨hz, e⟩ | ⟨hu, L, e, l⟩
    · rw [e, r1]
      refine ⟨R, rfl, r2.cons _, fun v hv hv' => ?_, r4⟩
      rcases List.mem_cons.1 hv with rfl | hv
      · exact absurd hv' hz
      · exact r3 v hv hv'
    · rw [e, r1]
      refine ⟨(a, L) :: R, rfl, r2.cons_cons _, fun v hv hv' => ?_, fun d hd => ?_⟩
      · rcases List.mem_cons.1 hv with rfl | hv
        · simp
        · exact List.mem_cons_of_mem _ (r3 v hv hv')
      · rcases List.mem_cons.1 hd with rfl | hd
        · exact ⟨hu, l⟩
        · exact r4 d hd

theorem coordsRegion_spec (f : (Nat → Int) → List Int → Bool) : ∀ (dirs : List (Nat → Int)), (∀ dir ∈ dirs, ∀ d ≤ n, dir d = -1 ∨ dir d = 0 ∨ dir d = 1) →
    ∃ R, coordsRegion n dom f dirs = some R ∧ List.Sublist (R.map Prod.fst) dirs ∧
      (∀ v ∈ dirs, OneAxis n v → (∃ p, dom.Mem n p ∧ ¬ dom.Mem n (shiftPoint v n p) ∧ f v p = true) → v ∈ R.map Prod.fst) ∧
      ∀ d ∈ R, UnitVector n d.1 ∧ OneAxis n d.1 ∧ d.2.WF n ∧ d.2.level = dom.level ∧
        ∀ p, d.2.Mem n p ↔ dom.Mem n p ∧ ¬ dom.Mem n (shiftPoint d.1 n p) ∧ f d.1 p = true := by
  intro dirs
  induction dirs with
  | nil => intro _; exact ⟨[], rfl, List.Sublist.refl _, fun v hv => by simp at hv, fun d hd => by simp at hd⟩
  | cons a dirs ih =>
    intro hl
    obtain ⟨R, r1, r2, r3, r4⟩ := ih fun dir h => hl dir (List.mem_cons_of_mem _ h)
    have hiff : numberOfOne n a = 1 ↔ UnitVector n a ∧ OneAxis n a := by
      have := isCartesian_iff (n := n) (dir := a)
      unfold isCartesian at this
      rw [beq_iff_eq] at this
      exact this
    unfold coordsRegion coordsDirection
    by_cases h1 : numberOfOne n a = 1
    · rw [if_pos h1]
      obtain ⟨hu, hax⟩ := hiff.1 h1
      obtain ⟨a1, a2⟩ := faceSet_adm hw h0 hD hb (hl a (by simp))
      obtain ⟨calls, c1, c2, c3⟩ := runDefault_ok a1
      rw [c1]
      simp only []
      have hpick : ∀ p, p ∈ (callCells calls).filter (f a) ↔ dom.Mem n p ∧ ¬ dom.Mem n (shiftPoint a n p) ∧ f a p = true := fun p => by
        rw [List.mem_filter, mem_callCells, c3, a2, faceSet_one, and_assoc]
      by_cases he : ((callCells calls).filter (f a)).isEmpty = true
      · rw [if_pos he, r1]
        refine ⟨R, rfl, r2.cons _, fun v hv hv' hex => ?_, r4⟩
        rcases List.mem_cons.1 hv with rfl | hv
        · obtain ⟨p, hp⟩ := hex
          have := (hpick p).2 hp
          rw [List.isEmpty_iff.1 he] at this
          simp at this
        · exact r3 v hv hv' hex
      · rw [if_neg he, r1]
        have hlen : ∀ p ∈ (callCells calls).filter (f a), p.length = n + 1 := fun p hp => mem_length ((hpick p).1 hp).1
        have hi : ∀ c ∈ ((callCells calls).filter (f a)).map (fun p => CellCall.cell p.dropLast (p.getLastD 0)), c.idx.length = n := by
          intro c hc
          obtain ⟨p, hp, rfl⟩ := List.mem_map.1 hc
          show p.dropLast.length = n
          rw [List.length_dropLast, hlen p hp]; rfl
        have hv : ∀ c ∈ ((callCells calls).filter (f a)).map (fun p => CellCall.cell p.dropLast (p.getLastD 0)), c.Valid := by
          intro c hc
          obtain ⟨p, hp, rfl⟩ := List.mem_map.1 hc
          trivial
        refine ⟨_, rfl, r2.cons_cons _, fun v hv hv' hex => ?_, fun d hd => ?_⟩
        · rcases List.mem_cons.1 hv with rfl | hv
          · simp
          · exact List.mem_cons_of_mem _ (r3 v hv hv' hex)
        · rcases List.mem_cons.1 hd with rfl | hd
          · refine ⟨hu, hax, C06_wellformed n dom.level _ hi hv, ?_, fun p => ?_⟩
            · show (LCA.ofList _).level = _
              rw [ofList_level]
              exact (runCellCalls_spec n dom.level _ hi).2.2.2.2
            · show (LCA.ofList _).Mem n p ↔ _
              rw [C06_content n dom.level _ hi, ← hpick]
              constructor
              · rintro ⟨c, hc, ha⟩
                obtain ⟨q, hq, rfl⟩ := List.mem_map.1 hc
                have : p = q.dropLast ++ [q.getLastD 0] := ha
                obtain ⟨yz, x, rfl, _⟩ := exists_snoc (hlen q hq)
                rw [this]
                simpa using hq
              · intro hp
                refine ⟨_, List.mem_map.2 ⟨p, hp, rfl⟩, ?_⟩
                show p = p.dropLast ++ [p.getLastD 0]
                obtain ⟨yz, x, rfl, _⟩ := exists_snoc (hlen p hp)
                simp
          · exact r4 d hd
    · rw [if_neg h1, r1]
      refine ⟨R, rfl, r2.cons _, fun v hv hv' hex => ?_, r4⟩
      rcases List.mem_cons.1 hv with rfl | hv
      · exact absurd (hiff.2 ⟨⟨hl v (by simp), hv'.imp fun d hd => ⟨hd.1, hd.2.1⟩⟩, hv'⟩) h1
      · exact r3 v hv hv' hex

end

end Samurai

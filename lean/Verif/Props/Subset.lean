/-
Properties C14-C22: set expressions.
-/
import Verif.Lemmas.SetHolds
import Verif.Lemmas.Box
import Verif.Model.SetOps
import Verif.Model.Box
import Verif.Props.LevelCellArray

namespace Samurai

theorem Node.Operand.good {n : Nat} {N : Node} (h : N.Operand n) : N.Good n := by
  induction N with
  | mesh L => exact ⟨trivial, h, fun d _ _ c => by simp [Node.transform, Node.off]⟩
  | translate t s ih =>
    cases t with
    | mesh L => exact ⟨trivial, h, fun d _ _ c => by simp [Node.transform, Node.off]⟩
    | translate t' s' =>
      obtain ⟨h1, h2⟩ := ih h.2
      exact ⟨h1, h2, fun d h3 h4 => by have := h.1; omega⟩
    | projection t' l => exact h.2.elim
  | projection t l ih => exact h.elim

theorem Node.InRange.safe {n m : Nat} {N : Node} (hm : N.level ≤ m) (h : N.InRange n m) :
    N.Safe n ((m : Int) - N.level) := by
  intro d hd i hi
  have := h d hd i hi
  rwa [show ((m : Int) - N.level).toNat = m - N.level by omega]

theorem admissible_good {n : Nat} {e : Expr Node} (h : e.Admissible n) : e.All fun N => N.Good n :=
  h.mono fun _ hN => hN.1.good

theorem admissible_safe {n : Nat} {e : Expr Node} (h : e.Admissible n) :
    e.All fun N => N.Safe n ((e.finest : Int) - N.level) :=
  (Expr.All.and h (le_finest e)).mono fun _ hN => hN.1.2.safe hN.2

theorem setHolds_eq {n : Nat} {e : Expr Node} {ref : Nat} {calls0 : List Call}
    (hc : ∀ p, Covers calls0 p ↔ e.HoldsAt n (Nat.min ref e.finest) p) (p : List Int) :
    Covers (calls0.flatMap fun c => emit ref e.finest c.1 c.2) p ↔ SetHolds n e ref p := by
  unfold SetHolds
  have hmin : Nat.min ref e.finest = min ref e.finest := rfl
  rw [hmin] at hc
  split
  · rename_i h
    rw [emit_self h, hc, min_eq_left h]
  · rename_i h
    rw [covers_emit (by omega)]
    simp only [hc, min_eq_right (show e.finest ≤ ref by omega)]

/-- A single object: evaluation in any state of its cursors. -/
theorem call_isOn {n : Nat} {e : Expr Node} (h : e.Admissible n) {ref : Nat} {o : SetObj} (ho : o.IsOn e ref) :
    ∃ o' calls, o.call n = some (o', calls) ∧ o'.IsOn e ref ∧ runSet n e ref = some calls := by
  obtain ⟨o', calls, h1, h2, calls0, h3, h4, h5, h6⟩ := call_spec (admissible_good h) (admissible_safe h) ho
  have hon : ((mkSet e).on ref).IsOn e ref := init_isOn (isOn_node (mkSet_isOn e)) ref
  obtain ⟨o'', calls', g1, g2, calls0', g3, g4, g5, g6⟩ := call_spec (admissible_good h) (admissible_safe h) hon
  have : calls0 = calls0' := canonicalCalls_unique h4 g4 fun r x => by rw [h6, g6]
  refine ⟨o', calls, h1, h2, ?_⟩
  unfold runSet
  rw [g1, Option.map_some, g3, h3, this]

theorem run_spec {n : Nat} {e : Expr Node} (h : e.Admissible n) (ref : Nat) :
    ∃ calls0 : List Call, runSet n e ref = some (calls0.flatMap fun c => emit ref e.finest c.1 c.2) ∧ CanonicalCalls calls0 ∧
      (∀ c ∈ calls0, c.1.length = n) ∧
      ∀ p, Covers calls0 p ↔ e.HoldsAt n (Nat.min ref e.finest) p := by
  have hon : ((mkSet e).on ref).IsOn e ref := init_isOn (isOn_node (mkSet_isOn e)) ref
  obtain ⟨o', calls, h1, h2, calls0, h3, h4, h5, h6⟩ := call_spec (admissible_good h) (admissible_safe h) hon
  refine ⟨calls0, ?_, h4, h5, h6⟩
  unfold runSet
  rw [h1, Option.map_some, h3]

/-! ### a concrete expression used to show that the hypotheses are met -/

/-- A mesh of level 3 in dimension 2, with three rows. -/
def exampleFine : LCA := LCA.ofList (runCellCalls 1 3 exampleHistory)

/-- A mesh of level 1: a square of four cells. -/
def exampleCoarse : LCA := LCA.ofBox 1 1 ⟨fun _ => 0, fun _ => 2⟩

/-- `difference(fine, translate(coarse, {1, 0}))`. -/
def exampleExpr : Expr Node :=
  .op .diff (.leaf (.mesh exampleFine)) (.leaf (.translate (.mesh exampleCoarse) fun d => if d = 0 then 1 else 0))

theorem exampleFine_wf : exampleFine.WF 1 :=
  C06_wellformed 1 3 exampleHistory (by simp [exampleHistory, CellCall.idx])
    (by simp [exampleHistory, CellCall.Valid, Interval.mk'])

theorem exampleExpr_admissible : exampleExpr.Admissible 1 := by
  refine ⟨⟨exampleFine_wf, ?_⟩, ⟨ofBox_wf 1 fun d _ => by simp, ?_⟩⟩
  · intro d hd
    rcases (by omega : d = 0 ∨ d = 1) with rfl | rfl <;> decide
  · intro d hd
    rcases (by omega : d = 0 ∨ d = 1) with rfl | rfl <;> decide

/-- One cell at the origin. -/
def oneCell (n level : Nat) : LCA := LCA.ofBox n level ⟨fun _ => 0, fun _ => 1⟩

theorem oneCell_wf (n level : Nat) : (oneCell n level).WF n := ofBox_wf level fun _ _ => by simp

/-! ### C15 -/

/-- C15: the cells passed to the functor by `expr.on(ref)` are exactly the cells of the expression at `ref`. -/
theorem C15_on (n : Nat) (e : Expr Node) (h : e.Admissible n) (ref : Nat) :
    ∃ calls, runSet n e ref = some calls ∧ ∀ p, Covers calls p ↔ SetHolds n e ref p := by
  obtain ⟨calls0, h1, _, _, h4⟩ := run_spec h ref
  exact ⟨_, h1, setHolds_eq h4⟩

example : exampleExpr.Admissible 1 ∧ exampleExpr.finest = 3 ∧
    (runSet 1 exampleExpr 3).map (fun c => c.map fun x => (x.1, x.2.start, x.2.stop)) =
      some [([-1], -2, 0), ([0], 1, 4)] ∧
    (runSet 1 exampleExpr 2).map (fun c => c.map fun x => (x.1, x.2.start, x.2.stop)) =
      some [([-1], -1, 0), ([0], 0, 2)] :=
  ⟨exampleExpr_admissible, by decide, by decide +kernel, by decide +kernel⟩

/-- C15: an expression evaluated without `on` is evaluated at the finest level of its operands. -/
theorem C15_default (n : Nat) (e : Expr Node) (h : e.Admissible n) :
    ((mkSet e).call n).map Prod.snd = runSet n e e.finest := by
  obtain ⟨o', calls, h1, _, h2⟩ := call_isOn h (mkSet_isOn e)
  rw [h1, h2, Option.map_some]

/-! ### C14 -/

theorem atLevel_self {lv : Nat} {S : List Int → Prop} {p : List Int} : AtLevel lv lv S p ↔ S p := by
  unfold AtLevel
  rw [if_pos le_rfl]
  simp only [Nat.sub_self, forall₂_ancestor]
  have : ∀ p : List Int, p.map (fun c => shr c 0) = p := by
    intro p
    induction p with
    | nil => rfl
    | cons c p ih => simp [ih, shr]
  simp [this]

theorem Expr.holds_all_congr {α : Type} {f g : α → Prop} {t : Expr α} (h : t.All fun a => f a ↔ g a) : t.Holds f ↔ t.Holds g := by
  induction t with
  | leaf a => exact h
  | op o a b iha ihb => cases o <;> simp only [Expr.Holds, iha h.1, ihb h.2]

theorem finest_same {e : Expr Node} {l : Nat} (h : e.All fun N => N.level = l) : e.finest = l := by
  induction e with
  | leaf N => exact h
  | op o a b iha ihb => simp only [Expr.finest, iha h.1, ihb h.2]; exact Nat.max_self l

/-- C14: on operands of one level, the cells passed to the functor are exactly those of the set expression. -/
theorem C14_set_algebra (n : Nat) (e : Expr Node) (l : Nat) (h : e.Admissible n) (hl : e.All fun N => N.level = l) :
    ∃ calls, runSet n e l = some calls ∧ ∀ p, Covers calls p ↔ e.Holds fun N => N.Holds n p := by
  obtain ⟨calls, h1, h2⟩ := C15_on n e h l
  refine ⟨calls, h1, fun p => ?_⟩
  rw [h2]
  unfold SetHolds
  rw [if_pos (finest_same hl).ge]
  exact Expr.holds_all_congr (hl.mono fun N hN => by rw [hN]; exact atLevel_self)

/-- `union_(intersection(square, translate(square, {1, 1})), difference(square, translate(square, {1, 1})))`, level 1. -/
def exampleSameLevel : Expr Node :=
  .op .union (.op .inter (.leaf (.mesh exampleCoarse)) (.leaf (.translate (.mesh exampleCoarse) fun _ => 1)))
    (.op .diff (.leaf (.mesh exampleCoarse)) (.leaf (.translate (.mesh exampleCoarse) fun _ => 1)))

theorem exampleSameLevel_admissible : exampleSameLevel.Admissible 1 := by
  have hw : exampleCoarse.WF 1 := ofBox_wf 1 fun d _ => by simp
  refine ⟨⟨⟨hw, ?_⟩, ⟨hw, ?_⟩⟩, ⟨⟨hw, ?_⟩, ⟨hw, ?_⟩⟩⟩ <;>
  · intro d hd
    rcases (by omega : d = 0 ∨ d = 1) with rfl | rfl <;> decide

example : exampleSameLevel.Admissible 1 ∧ (exampleSameLevel.All fun N => N.level = 1) ∧
    (runSet 1 exampleSameLevel 1).map (fun c => c.map fun x => (x.1, x.2.start, x.2.stop)) = some [([0], 0, 2), ([1], 0, 2)] :=
  ⟨exampleSameLevel_admissible, ⟨⟨rfl, rfl⟩, ⟨rfl, rfl⟩⟩, by decide +kernel⟩

/-! ### C16 -/

/-- C16: for `ref` at most the finest level, the calls are canonical (each cell once, in order). -/
theorem C16_canonical (n : Nat) (e : Expr Node) (h : e.Admissible n) (ref : Nat) (hr : ref ≤ e.finest) :
    ∃ calls, runSet n e ref = some calls ∧ CanonicalCalls calls ∧ ∀ c ∈ calls, c.1.length = n := by
  obtain ⟨calls0, h1, h2, h3, _⟩ := run_spec h ref
  rw [emit_self hr] at h1
  exact ⟨_, h1, h2, h3⟩

/-- C16: two expressions with the same meaning at `ref` produce the same sequence of calls. -/
theorem C16_same_sequence (n : Nat) (e e' : Expr Node) (h : e.Admissible n) (h' : e'.Admissible n) (ref : Nat)
    (hr : ref ≤ e.finest) (hr' : ref ≤ e'.finest) (hs : ∀ p, SetHolds n e ref p ↔ SetHolds n e' ref p) :
    runSet n e ref = runSet n e' ref := by
  obtain ⟨c, h1, h2⟩ := C15_on n e h ref
  obtain ⟨d, g1, g2⟩ := C15_on n e' h' ref
  obtain ⟨c', h3, h4, _⟩ := C16_canonical n e h ref hr
  obtain ⟨d', g3, g4, _⟩ := C16_canonical n e' h' ref hr'
  rw [h1] at h3
  rw [g1] at g3
  cases h3
  cases g3
  rw [h1, g1, canonicalCalls_unique h4 g4 fun r x => by rw [h2, g2, hs]]

/-- The hypotheses of `C16_same_sequence` are met by the square and the union of its two halves above. -/
example : (Expr.leaf (.mesh exampleCoarse)).Admissible 1 ∧ exampleSameLevel.Admissible 1 ∧
    1 ≤ (Expr.leaf (Node.mesh exampleCoarse)).finest ∧ 1 ≤ exampleSameLevel.finest ∧
    ∀ p, SetHolds 1 (.leaf (.mesh exampleCoarse)) 1 p ↔ SetHolds 1 exampleSameLevel 1 p := by
  refine ⟨exampleSameLevel_admissible.1.1, exampleSameLevel_admissible, by decide, by decide, fun p => ?_⟩
  unfold SetHolds
  rw [if_pos (by decide), if_pos (by decide)]
  show AtLevel 1 1 (fun q => exampleCoarse.Mem 1 q) p ↔
    (AtLevel 1 1 (fun q => exampleCoarse.Mem 1 q) p ∧ _) ∨ (AtLevel 1 1 (fun q => exampleCoarse.Mem 1 q) p ∧ ¬ _)
  tauto

theorem emit_disjoint {ref common : Nat} {yz : List Int} {r : Interval} (h : common < ref) :
    (emit ref common yz r).Pairwise fun a b => a.1 ≠ b.1 := by
  unfold emit
  rw [if_neg (by omega), List.pairwise_map]
  have hn : ∀ (K m : Nat), (nestedIndices K m).Nodup := by
    intro K m
    induction m with
    | zero => simp [nestedIndices]
    | succ m ih =>
      simp only [nestedIndices]
      unfold List.Nodup at ih ⊢
      rw [List.pairwise_flatMap]
      refine ⟨fun i _ => ?_, ?_⟩
      · rw [List.pairwise_map]
        exact ih.imp fun hab hc => hab (by simpa using hc)
      · refine List.Pairwise.imp_of_mem ?_ (List.nodup_range (n := K))
        intro i j _ _ hij a ha b hb
        rw [List.mem_map] at ha hb
        obtain ⟨a', _, rfl⟩ := ha
        obtain ⟨b', _, rfl⟩ := hb
        intro hc
        simp at hc
        omega
  refine (hn _ _).imp_of_mem ?_
  intro a b ha hb hab hz
  refine hab ?_
  have la := (mem_nestedIndices.1 ha).1
  have lb := (mem_nestedIndices.1 hb).1
  simp only at hz
  clear ha hb hab
  revert hz la lb
  induction yz generalizing a b with
  | nil => intro _ la lb; rw [List.length_eq_zero_iff.1 la, List.length_eq_zero_iff.1 lb]
  | cons y yz ih =>
    intro hz la lb
    cases a with
    | nil => simp at la
    | cons x a =>
      cases b with
      | nil => simp at lb
      | cons x' b =>
        simp only [List.zipWith_cons_cons, List.cons.injEq] at hz
        rw [ih (a := a) (b := b) hz.2 (by simpa using la) (by simpa using lb), show x = x' by omega]

/-- C16 above the finest level: the calls are non-empty and no cell is passed twice. -/
theorem C16_refined (n : Nat) (e : Expr Node) (h : e.Admissible n) (ref : Nat) (hr : e.finest < ref) :
    ∃ calls, runSet n e ref = some calls ∧ (∀ c ∈ calls, c.2.start < c.2.stop) ∧
      calls.Pairwise fun a b => ∀ p, ¬ (Covers [a] p ∧ Covers [b] p) := by
  obtain ⟨calls0, h1, h2, h3, _⟩ := run_spec h ref
  refine ⟨_, h1, ?_, ?_⟩
  · intro c hc
    rw [List.mem_flatMap] at hc
    obtain ⟨c0, hc0, hc⟩ := hc
    have := (h2.2 c0 hc0).1
    unfold emit at hc
    rw [if_neg (by omega), List.mem_map] at hc
    obtain ⟨st, _, rfl⟩ := hc
    simp only [Interval.shiftLeft, shl]
    have := pow_two_pos (ref - e.finest)
    nlinarith
  · rw [List.pairwise_flatMap]
    constructor
    · intro c _
      refine (emit_disjoint hr).imp ?_
      rintro a b hab p ⟨⟨_, ha, x, _, rfl⟩, ⟨_, hb, y, _, he⟩⟩
      rw [List.mem_singleton] at ha hb
      subst ha hb
      exact hab (snoc_inj he).1
    · refine List.Pairwise.imp_of_mem ?_ h2.1
      rintro c d hc hd hcd a ha b hb p ⟨hpa, hpb⟩
      have qa : Covers ([c].flatMap fun c => emit ref e.finest c.1 c.2) p := by
        obtain ⟨_, h1, h2⟩ := hpa
        rw [List.mem_singleton.1 h1] at h2
        exact ⟨a, by simpa using ha, h2⟩
      have qb : Covers ([d].flatMap fun c => emit ref e.finest c.1 c.2) p := by
        obtain ⟨_, h1, h2⟩ := hpb
        rw [List.mem_singleton.1 h1] at h2
        exact ⟨b, by simpa using hb, h2⟩
      rw [covers_emit hr] at qa qb
      obtain ⟨q, ⟨_, ha, x, hx, rfl⟩, ha'⟩ := qa
      obtain ⟨q', ⟨_, hb, y, hy, rfl⟩, hb'⟩ := qb
      rw [forall₂_ancestor] at ha' hb'
      rw [← hb'] at ha'
      rw [List.mem_singleton] at ha hb
      subst ha hb
      obtain ⟨e1, rfl⟩ := snoc_inj ha'
      have hx := Interval.mem_def.1 hx
      have hy := Interval.mem_def.1 hy
      rcases hcd with h | ⟨_, h⟩
      · rw [e1] at h; exact list_lt_irrefl _ h
      · omega

example : exampleExpr.Admissible 1 ∧ exampleExpr.finest < 4 ∧
    (runSet 1 exampleExpr 4).map (fun c => c.map fun x => (x.1, x.2.start, x.2.stop)) =
      some [([-2], -4, 0), ([-1], -4, 0), ([0], 2, 8), ([1], 2, 8)] :=
  ⟨exampleExpr_admissible, by decide, by decide +kernel⟩

/-! ### C17 -/

/-- C17: evaluation ends and reads nothing out of bounds, in any state of the cursors left by earlier runs (the model
returns `none` on an out of bounds access and when a loop exceeds its number of boundary values). -/
theorem C17_terminates (n : Nat) (e : Expr Node) (h : e.Admissible n) (ref : Nat) : (runSet n e ref).isSome := by
  obtain ⟨calls, h1, _⟩ := C15_on n e h ref
  rw [h1]; rfl

/-! ### C18 -/

theorem SetStep.run_isOn {n : Nat} {e : Expr Node} (h : e.Admissible n) {ref : Nat} {o : SetObj} (ho : o.IsOn e ref) (s : SetStep) :
    ∃ o' ref', s.run n o = some o' ∧ o'.IsOn e ref' := by
  cases s with
  | on r => exact ⟨_, r, rfl, init_isOn (isOn_node ho) r⟩
  | call =>
    obtain ⟨o', calls, h1, h2, _⟩ := call_isOn h ho
    exact ⟨o', ref, by simp [SetStep.run, h1], h2⟩
  | abandon c =>
    refine ⟨_, ref, rfl, ho.ref_eq, ?_⟩
    refine Expr.Rel.trans
      (R := fun (N : Node) (l : Leaf) => l.node = N ∧ l.shift = (Nat.min ref e.finest : Nat) - (N.level : Int))
      (S := fun (l l' : Leaf) => l'.node = l.node ∧ l'.shift = l.shift)
      (fun a b c hab hbc => ⟨hbc.1.trans hab.1, hbc.2.trans hab.2⟩) ho.tree
      (Expr.rel_map (f := fun l : Leaf => { l with d := (c l).1, dims := (c l).2 }) (P := fun _ => True)
        (R := fun (l l' : Leaf) => l'.node = l.node ∧ l'.shift = l.shift) (fun a _ => ⟨rfl, rfl⟩) (Expr.all_true _ fun _ => trivial))

theorem SetStep.runs_isOn {n : Nat} {e : Expr Node} (h : e.Admissible n) (steps : List SetStep) {ref : Nat} {o : SetObj} (ho : o.IsOn e ref) :
    ∃ o' ref', steps.foldlM (SetStep.run n) o = some o' ∧ o'.IsOn e ref' := by
  induction steps generalizing ref o with
  | nil => exact ⟨o, ref, rfl, ho⟩
  | cons s steps ih =>
    obtain ⟨o1, r1, h1, h2⟩ := SetStep.run_isOn h ho s
    obtain ⟨o2, r2, h3, h4⟩ := ih h2
    exact ⟨o2, r2, by rw [List.foldlM_cons, h1]; exact h3, h4⟩

/-- C18: after any history of evaluations, level changes and abandoned runs on one object, `on(ref)` followed by an
evaluation makes the same calls as a fresh expression; and an evaluation repeated at once makes the same calls again. -/
theorem C18_history (n : Nat) (e : Expr Node) (h : e.Admissible n) (steps : List SetStep) :
    ∃ o, steps.foldlM (SetStep.run n) (mkSet e) = some o ∧
      (∀ ref, ((o.on ref).call n).map Prod.snd = runSet n e ref) ∧
      ∃ o' calls, o.call n = some (o', calls) ∧ (o'.call n).map Prod.snd = some calls := by
  obtain ⟨o, r, h1, h2⟩ := SetStep.runs_isOn h steps (mkSet_isOn e)
  refine ⟨o, h1, fun ref => ?_, ?_⟩
  · obtain ⟨o', calls, h3, _, h5⟩ := call_isOn h (init_isOn (isOn_node h2) ref)
    unfold SetObj.on
    rw [h3, h5, Option.map_some]
  · obtain ⟨o', calls, h3, h4, h5⟩ := call_isOn h h2
    obtain ⟨o'', calls', h6, _, h7⟩ := call_isOn h h4
    refine ⟨o', calls, h3, ?_⟩
    rw [h6, Option.map_some, ← h7, h5]

example : exampleExpr.Admissible 1 ∧
    (([.call, .on 1, .call, .on 4, .call, .on 3] : List SetStep).foldlM (SetStep.run 1) (mkSet exampleExpr)).map (fun o =>
      ((o.call 1).map fun c => c.2.map fun x => (x.1, x.2.start, x.2.stop))) = some (some [([-1], -2, 0), ([0], 1, 4)]) :=
  ⟨exampleExpr_admissible, by decide +kernel⟩

/-- C18 for the `on` history: only the last `on` counts. -/
theorem C18_last_on (n : Nat) (e : Expr Node) (h : e.Admissible n) (steps : List SetStep) (ref : Nat) (cursors : Leaf → Nat × (Nat → LeafDim)) :
    ∃ o, (steps ++ [SetStep.on ref, SetStep.abandon cursors]).foldlM (SetStep.run n) (mkSet e) = some o ∧
      (o.call n).map Prod.snd = runSet n e ref := by
  obtain ⟨o, r, h1, h2⟩ := SetStep.runs_isOn h steps (mkSet_isOn e)
  have h3 : (o.on ref).IsOn e ref := init_isOn (isOn_node h2) ref
  refine ⟨_, by rw [List.foldlM_append, h1]; rfl, ?_⟩
  have h4 : ({ (o.on ref) with tree := (o.on ref).tree.map fun l => { l with d := (cursors l).1, dims := (cursors l).2 } } : SetObj).IsOn e ref := by
    refine ⟨h3.ref_eq, ?_⟩
    refine Expr.Rel.trans
      (R := fun (N : Node) (l : Leaf) => l.node = N ∧ l.shift = (Nat.min ref e.finest : Nat) - (N.level : Int))
      (S := fun (l l' : Leaf) => l'.node = l.node ∧ l'.shift = l.shift)
      (fun a b c hab hbc => ⟨hbc.1.trans hab.1, hbc.2.trans hab.2⟩) h3.tree
      (Expr.rel_map (f := fun l : Leaf => { l with d := (cursors l).1, dims := (cursors l).2 }) (P := fun _ => True)
        (R := fun (l l' : Leaf) => l'.node = l.node ∧ l'.shift = l.shift) (fun a _ => ⟨rfl, rfl⟩) (Expr.all_true _ fun _ => trivial))
  obtain ⟨o', calls, h5, _, h6⟩ := call_isOn h h4
  rw [h5, h6, Option.map_some]

/-! ### C19 -/

/-- C19: at its own level, `translate(mesh, s)` passes to the functor exactly the cells `c` with `c - s` in the mesh. -/
theorem C19_translate (n : Nat) (L : LCA) (s : Nat → Int) (hw : L.WF n) (hr : (Node.translate (.mesh L) s).InRange n L.level) :
    ∃ calls, runSet n (.leaf (.translate (.mesh L) s)) L.level = some calls ∧
      ∀ p, Covers calls p ↔ L.Mem n (subPoint s n p) :=
  C14_set_algebra n (.leaf (.translate (.mesh L) s)) L.level ⟨hw, hr⟩ rfl

/-- C19: at another level, the translated set is seen from that level (the vector is in units of the mesh's level). -/
theorem C19_translate_level (n : Nat) (L : LCA) (s : Nat → Int) (ref : Nat) (hw : L.WF n)
    (hr : (Node.translate (.mesh L) s).InRange n L.level) :
    ∃ calls, runSet n (.leaf (.translate (.mesh L) s)) ref = some calls ∧
      ∀ p, Covers calls p ↔ AtLevel L.level ref (fun q => L.Mem n (subPoint s n q)) p := by
  obtain ⟨calls, h1, h2⟩ := C15_on n (.leaf (.translate (.mesh L) s)) ⟨hw, hr⟩ ref
  refine ⟨calls, h1, fun p => ?_⟩
  rw [h2]
  unfold SetHolds
  by_cases h : ref ≤ L.level
  · rw [if_pos (by exact h)]; exact Iff.rfl
  · rw [if_neg (by exact h)]
    simp only [Expr.HoldsAt, Expr.Holds, Expr.finest, Node.level, atLevel_self, Node.Holds]
    unfold AtLevel
    rw [if_pos (by omega)]

example : exampleFine.WF 1 ∧ (Node.translate (.mesh exampleFine) fun d => if d = 0 then -3 else 5).InRange 1 exampleFine.level ∧
    (runSet 1 (.leaf (.translate (.mesh exampleFine) fun d => if d = 0 then -3 else 5)) 3).map
      (fun c => c.map fun x => (x.1, x.2.start, x.2.stop)) = some [([4], -5, -3), ([5], -2, 3), ([7], 4, 5)] :=
  ⟨exampleFine_wf, by intro d hd; rcases (by omega : d = 0 ∨ d = 1) with rfl | rfl <;> decide, by decide +kernel⟩

/-- C19 in dimension 1: translating twice adds the vectors. -/
theorem C19_twice_dim1_partial (L : LCA) (s t : Nat → Int) (ref : Nat) (hw : L.WF 0)
    (hr : (Node.translate (.mesh L) fun d => s d + t d).InRange 0 L.level) (hl : ref ≤ L.level) :
    runSet 0 (.leaf (.translate (.translate (.mesh L) s) t)) ref = runSet 0 (.leaf (.translate (.mesh L) fun d => s d + t d)) ref := by
  refine C16_same_sequence 0 (.leaf (.translate (.translate (.mesh L) s) t)) (.leaf (.translate (.mesh L) fun d => s d + t d)) ⟨⟨rfl, hw⟩, ?_⟩ ⟨hw, hr⟩ ref hl hl ?_
  · intro d hd i hi
    have := hr d hd i hi
    simpa [Node.off, Node.level, Expr.finest] using this
  · intro p
    unfold SetHolds
    simp only [Expr.HoldsAt, Expr.Holds, Expr.finest, Node.level, Node.Holds, subPoint_subPoint]
    exact Iff.rfl

example : (oneCell 0 2).WF 0 ∧ (Node.translate (.mesh (oneCell 0 2)) fun _ => 3 + 4).InRange 0 (oneCell 0 2).level :=
  ⟨oneCell_wf 0 2, by intro d hd; rcases (by omega : d = 0) with rfl; decide⟩

/-- An L-shaped mesh: row 0 has two cells, row 1 has one. -/
def lShape : LCA :=
  LCA.ofList (runCellCalls 1 0 [.interval [0] (.mk' 0 2), .cell [1] 0])

/-- C19 refuted in dimension 2: translating twice by (0, 1) and (0, 1) is not translating by (0, 2). -/
theorem C19_twice_refuted :
    ∃ s : Nat → Int, runSet 1 (.leaf (.translate (.translate (.mesh lShape) s) s)) 0 ≠
      runSet 1 (.leaf (.translate (.mesh lShape) fun d => s d + s d)) 0 :=
  ⟨fun d => if d = 1 then 1 else 0, by
    intro h
    have : (runSet 1 (.leaf (.translate (.translate (.mesh lShape) fun d => if d = 1 then 1 else 0) fun d => if d = 1 then 1 else 0)) 0).map
        (fun c => c.map fun x => (x.1, x.2.start, x.2.stop)) ≠
        (runSet 1 (.leaf (.translate (.mesh lShape) fun d => (if d = 1 then 1 else 0) + if d = 1 then 1 else 0)) 0).map
        (fun c => c.map fun x => (x.1, x.2.start, x.2.stop)) := by decide +kernel
    exact this (by rw [h])⟩

/-! ### C20 -/

theorem unionAll_all {P : Node → Prop} {N : Node} {l : List Node} (h : ∀ M ∈ N :: l, P M) : (unionAll N l).All P := by
  induction l generalizing N with
  | nil => exact h N (by simp)
  | cons M l ih => exact ⟨h N (by simp), ih fun M' hM => h M' (List.mem_cons_of_mem _ hM)⟩

theorem unionAll_holds {f : Node → Prop} {N : Node} {l : List Node} : (unionAll N l).Holds f ↔ ∃ M ∈ N :: l, f M := by
  induction l generalizing N with
  | nil => simp [unionAll, Expr.Holds]
  | cons M l ih =>
    show f N ∨ (unionAll M l).Holds f ↔ _
    rw [ih]
    simp

theorem subPoint_congr {s t : Nat → Int} {n : Nat} (h : ∀ d ≤ n, s d = t d) (p : List Int) : subPoint s n p = subPoint t n p := by
  induction p generalizing n with
  | nil => rfl
  | cons c p ih => simp only [subPoint]; rw [h n le_rfl, ih fun d hd => h d (by omega)]

/-- C20, what `expand` computes: the union of the diagonal translates (each coordinate of the vector is `size` or
`-size`), without the set itself. Missing: it is not the set grown by `size` (refuted below). -/
theorem C20_expand_partial (n : Nat) (hn : n ≤ 2) (L : LCA) (size : Int) (hw : L.WF n)
    (hr : ∀ s : Nat → Int, (∀ d ≤ n, s d = size ∨ s d = -size) → (Node.translate (.mesh L) s).InRange n L.level) :
    ∃ calls, runSet n (expandSet n (.mesh L) size) L.level = some calls ∧
      ∀ p, Covers calls p ↔ ∃ s : Nat → Int, (∀ d ≤ n, s d = size ∨ s d = -size) ∧ L.Mem n (subPoint s n p) := by
  have hlev : (expandSet n (.mesh L) size).All fun N => N.level = L.level := by
    apply unionAll_all
    intro M hM
    rcases List.mem_cons.1 hM with rfl | hM
    · rfl
    · obtain ⟨s, _, rfl⟩ := List.mem_map.1 hM; rfl
  have hsign : ∀ s ∈ expandSigns n, ∀ d, s d = 1 ∨ s d = -1 := by
    intro s hs d
    match n, hs with
    | 0, hs => simp [expandSigns] at hs; subst hs; simp
    | 1, hs => simp [expandSigns] at hs; rcases hs with rfl | rfl | rfl <;> simp <;> omega
    | n + 2, hs =>
      simp [expandSigns] at hs
      rcases hs with rfl | rfl | rfl | rfl | rfl | rfl | rfl <;> simp <;> omega
  have hsize : ∀ s ∈ expandSigns n, ∀ d ≤ n, size * s d = size ∨ size * s d = -size := by
    intro s hs d _
    rcases hsign s hs d with h | h <;> rw [h] <;> simp
  obtain ⟨calls, h1, h2⟩ := C14_set_algebra n (expandSet n (.mesh L) size) L.level (by
    unfold Expr.Admissible
    rw [finest_same hlev]
    apply unionAll_all
    intro M hM
    rcases List.mem_cons.1 hM with rfl | hM
    · exact ⟨hw, hr _ fun d _ => Or.inl rfl⟩
    · obtain ⟨s, hs, rfl⟩ := List.mem_map.1 hM
      exact ⟨hw, hr _ (hsize s hs)⟩) hlev
  refine ⟨calls, h1, fun p => ?_⟩
  rw [h2, expandSet, unionAll_holds]
  constructor
  · rintro ⟨M, hM, h⟩
    rcases List.mem_cons.1 hM with rfl | hM
    · exact ⟨_, fun d _ => Or.inl rfl, h⟩
    · obtain ⟨s, hs, rfl⟩ := List.mem_map.1 hM
      exact ⟨_, hsize s hs, h⟩
  · rintro ⟨s, hs, h⟩
    have hall : (∀ d ≤ n, s d = size) ∨ ∃ t ∈ expandSigns n, ∀ d ≤ n, s d = size * t d := by
      match n, hn, hs with
      | 0, _, hs =>
        rcases hs 0 le_rfl with h0 | h0
        · left; intro d hd; rw [show d = 0 by omega, h0]
        · right; refine ⟨_, List.mem_singleton.2 rfl, fun d hd => ?_⟩
          rw [show d = 0 by omega, h0]; simp
      | 1, _, hs =>
        have key : ∀ t : Nat → Int, s 0 = size * t 0 → s 1 = size * t 1 → ∀ d ≤ 1, s d = size * t d := by
          intro t h0 h1 d hd
          rcases (by omega : d = 0 ∨ d = 1) with rfl | rfl <;> assumption
        rcases hs 0 (by omega) with h0 | h0 <;> rcases hs 1 (by omega) with h1 | h1
        · left; intro d hd; rcases (by omega : d = 0 ∨ d = 1) with rfl | rfl <;> assumption
        · right; exact ⟨fun d => if d = 0 then 1 else -1, by simp [expandSigns], key _ (by simp [h0]) (by simp [h1])⟩
        · right; exact ⟨fun d => if d = 0 then -1 else 1, by simp [expandSigns], key _ (by simp [h0]) (by simp [h1])⟩
        · right; exact ⟨fun _ => -1, by simp [expandSigns], key _ (by simp [h0]) (by simp [h1])⟩
      | 2, _, hs =>
        have key : ∀ t : Nat → Int, s 0 = size * t 0 → s 1 = size * t 1 → s 2 = size * t 2 → ∀ d ≤ 2, s d = size * t d := by
          intro t h0 h1 h2 d hd
          rcases (by omega : d = 0 ∨ d = 1 ∨ d = 2) with rfl | rfl | rfl <;> assumption
        rcases hs 0 (by omega) with h0 | h0 <;> rcases hs 1 (by omega) with h1 | h1 <;> rcases hs 2 (by omega) with h2 | h2
        · left; intro d hd; rcases (by omega : d = 0 ∨ d = 1 ∨ d = 2) with rfl | rfl | rfl <;> assumption
        · right; exact ⟨fun d => if d = 2 then -1 else 1, by simp [expandSigns], key _ (by simp [h0]) (by simp [h1]) (by simp [h2])⟩
        · right; exact ⟨fun d => if d = 1 then -1 else 1, by simp [expandSigns], key _ (by simp [h0]) (by simp [h1]) (by simp [h2])⟩
        · right; exact ⟨fun d => if d = 0 then 1 else -1, by simp [expandSigns], key _ (by simp [h0]) (by simp [h1]) (by simp [h2])⟩
        · right; exact ⟨fun d => if d = 0 then -1 else 1, by simp [expandSigns], key _ (by simp [h0]) (by simp [h1]) (by simp [h2])⟩
        · right; exact ⟨fun d => if d = 1 then 1 else -1, by simp [expandSigns], key _ (by simp [h0]) (by simp [h1]) (by simp [h2])⟩
        · right; exact ⟨fun d => if d = 2 then 1 else -1, by simp [expandSigns], key _ (by simp [h0]) (by simp [h1]) (by simp [h2])⟩
        · right; exact ⟨fun _ => -1, by simp [expandSigns], key _ (by simp [h0]) (by simp [h1]) (by simp [h2])⟩
    rcases hall with hall | ⟨t, ht, hall⟩
    · exact ⟨_, List.mem_cons_self, by show L.Mem n (subPoint _ n p); rwa [← subPoint_congr hall]⟩
    · refine ⟨_, List.mem_cons_of_mem _ (List.mem_map_of_mem ht), ?_⟩
      show L.Mem n (subPoint _ n p)
      rwa [← subPoint_congr hall]

theorem boxCells_bounds {b : Box} {d size : Nat} {i : Interval} (h : i ∈ boxCells b d size) :
    i.start = b.lo d ∧ i.stop = b.hi d := by
  unfold boxCells at h
  obtain ⟨k, _, rfl⟩ := List.mem_map.1 h
  exact ⟨rfl, rfl⟩

/-- C20 refuted: in dimensions 1, 2 and 3, `expand` of the mesh made of one cell does not contain this cell. -/
theorem C20_expand_refuted : ∀ n ≤ 2, ∃ L : LCA, L.WF n ∧ ∃ p, L.Mem n p ∧
    ∃ calls, runSet n (expandSet n (.mesh L) 1) L.level = some calls ∧ ¬ Covers calls p := by
  intro n hn
  have hr : ∀ s : Nat → Int, (∀ d ≤ n, s d = 1 ∨ s d = -1) → (Node.translate (.mesh (oneCell n 0)) s).InRange n (oneCell n 0).level := by
    intro s hs d hd i hi
    have hi : i ∈ (oneCell n 0).cells d := hi
    have : i.stop = 1 := by
      rw [oneCell, (ofBox_spec _ n 0).1 d hd] at hi
      exact (boxCells_bounds hi).2
    simp only [Node.off, Node.level, Nat.sub_self, pow_zero, this, INT_MAX]
    rcases hs d hd with h | h <;> rw [h] <;> norm_num
  obtain ⟨calls, h1, h2⟩ := C20_expand_partial n hn (oneCell n 0) 1 (oneCell_wf n 0) hr
  have hmem : ∀ p, (oneCell n 0).Mem n p ↔ InBox ⟨fun _ => 0, fun _ => 1⟩ n p :=
    fun p => ofBox_mem _ p
  refine ⟨oneCell n 0, oneCell_wf n 0, List.replicate (n + 1) 0, ?_, calls, h1, ?_⟩
  · rw [hmem]; rcases (by omega : n = 0 ∨ n = 1 ∨ n = 2) with rfl | rfl | rfl <;> simp [InBox, List.replicate]
  · rw [h2]
    rintro ⟨s, hs, h⟩
    rw [hmem] at h
    have h0 := hs n le_rfl
    rcases (by omega : n = 0 ∨ n = 1 ∨ n = 2) with rfl | rfl | rfl <;> simp [InBox, List.replicate, subPoint] at h <;> omega

/-- The contraction of a set, as a set expression: the cells `c` with `c - size` and `c + size` in the mesh. -/
theorem C20_contraction (n : Nat) (L : LCA) (size : Int) (hw : L.WF n)
    (h1 : (Node.translate (.mesh L) fun _ => size).InRange n L.level)
    (h2 : (Node.translate (.mesh L) fun _ => -size).InRange n L.level) :
    ∃ calls, runSet n (contractionSet (.mesh L) size) L.level = some calls ∧
      ∀ p, Covers calls p ↔ L.Mem n (subPoint (fun _ => size) n p) ∧ L.Mem n (subPoint (fun _ => -size) n p) := by
  have hf : (contractionSet (.mesh L) size).finest = L.level := finest_same ⟨rfl, rfl⟩
  exact C14_set_algebra n (contractionSet (.mesh L) size) L.level
    ⟨⟨hw, by rw [hf]; exact h1⟩, ⟨hw, by rw [hf]; exact h2⟩⟩ ⟨rfl, rfl⟩

/-- Two cells with a hole between them, in dimension 1. -/
def twoCells : LCA := LCA.ofList (runCellCalls 0 0 [.cell [] 0, .cell [] 2])

theorem twoCells_wf : twoCells.WF 0 :=
  C06_wellformed 0 0 [.cell [] 0, .cell [] 2] (by simp [CellCall.idx]) (by simp [CellCall.Valid])

/-- C20, second refutation: the contraction is not included in the set. -/
theorem C20_contraction_refuted : ∃ L : LCA, L.WF 0 ∧ ∃ p calls,
    runSet 0 (contractionSet (.mesh L) 1) L.level = some calls ∧ Covers calls p ∧ ¬ L.Mem 0 p := by
  obtain ⟨calls, h1, h2⟩ := C20_contraction 0 twoCells 1 twoCells_wf
    (by intro d hd; rcases (by omega : d = 0) with rfl; decide) (by intro d hd; rcases (by omega : d = 0) with rfl; decide)
  have hm : ∀ x : Int, twoCells.Mem 0 [x] ↔ x = 0 ∨ x = 2 := by
    intro x
    show MemList x (slice (twoCells.cells 0) 0 (twoCells.cells 0).length) ↔ _
    have : slice (twoCells.cells 0) 0 (twoCells.cells 0).length = [.mk' 0 1, .mk' 2 3] := by decide
    rw [this]
    simp [MemList, Interval.mem_def, Interval.mk']
    omega
  refine ⟨twoCells, twoCells_wf, [1], calls, h1, ?_, ?_⟩
  · rw [h2]
    simp only [subPoint]
    rw [hm, hm]
    omega
  · rw [hm]; omega

/-! ### C21 -/

theorem Expr.Rel.op {α β : Type} {R : α → β → Prop} {f : Fn} {a b : Expr α} {a' b' : Expr β} (h : a.Rel R a') (h' : b.Rel R b') :
    (Expr.op f a b).Rel R (Expr.op f a' b') := ⟨rfl, h, h'⟩

/-- C21, what happens: the levels given to the operands are forgotten. An operator applied to operands `a.on(r)` and
`b.on(s)` makes the calls of the operator applied to `a` and `b`. Missing: the operands are not taken at their levels
(refuted below). -/
theorem C21_inner_on_partial (n : Nat) (f : Fn) (a b : Expr Node) (h : (Expr.op f a b).Admissible n) (r s ref : Nat) :
    (((SetObj.combine f ((mkSet a).on r) ((mkSet b).on s)).on ref).call n).map Prod.snd = runSet n (.op f a b) ref := by
  have h1 : ((mkSet a).on r).IsOn a r := init_isOn (isOn_node (mkSet_isOn a)) r
  have h2 : ((mkSet b).on s).IsOn b s := init_isOn (isOn_node (mkSet_isOn b)) s
  have h3 : (Expr.op f a b).Rel (fun N (l : Leaf) => l.node = N) (Expr.op f ((mkSet a).on r).tree ((mkSet b).on s).tree) :=
    Expr.Rel.op (isOn_node h1) (isOn_node h2)
  have h4 : (SetObj.combine f ((mkSet a).on r) ((mkSet b).on s)).IsOn (.op f a b) _ := init_isOn h3 _
  obtain ⟨o', calls, h5, _, h6⟩ := call_isOn h (init_isOn (isOn_node h4) ref)
  unfold SetObj.on at *
  rw [h5, h6, Option.map_some]

example : ((Expr.op .union (.leaf (.mesh (oneCell 0 1))) (.leaf (.mesh (oneCell 0 1)))).Admissible 0) := by
  refine ⟨⟨oneCell_wf 0 1, ?_⟩, ⟨oneCell_wf 0 1, ?_⟩⟩ <;>
  · intro d hd; rcases (by omega : d = 0) with rfl; decide

/-- C21 refuted: a cell of level 1 whose ancestor is in `a.on(0)` is not in `union_(a.on(0), a).on(1)`. -/
theorem C21_inner_on_refuted : ∃ (a : Expr Node) (p q : List Int), a.Admissible 0 ∧
    SetHolds 0 a 0 q ∧ List.Forall₂ (IsAncestor 1) q p ∧
    ∃ calls, (((SetObj.combine .union ((mkSet a).on 0) (mkSet a)).on 1).call 0).map Prod.snd = some calls ∧ ¬ Covers calls p := by
  have hm : ∀ x : Int, (oneCell 0 1).Mem 0 [x] ↔ 0 ≤ x ∧ x < 1 := fun x => ofBox_mem 1 [x]
  have hadm : (Expr.op .union (.leaf (.mesh (oneCell 0 1))) (.leaf (.mesh (oneCell 0 1)))).Admissible 0 := by
    refine ⟨⟨oneCell_wf 0 1, ?_⟩, ⟨oneCell_wf 0 1, ?_⟩⟩ <;>
    · intro d hd; rcases (by omega : d = 0) with rfl; decide
  refine ⟨.leaf (.mesh (oneCell 0 1)), [1], [0], hadm.1, ?_, ?_, ?_⟩
  · unfold SetHolds
    rw [if_pos (by decide)]
    show AtLevel 1 0 (fun q => (oneCell 0 1).Mem 0 q) [0]
    unfold AtLevel
    rw [if_neg (by omega)]
    exact ⟨[0], (hm 0).2 (by omega), List.Forall₂.cons (by unfold IsAncestor; norm_num) List.Forall₂.nil⟩
  · exact List.Forall₂.cons (by unfold IsAncestor; norm_num) List.Forall₂.nil
  · have h1 := C21_inner_on_partial 0 .union (.leaf (.mesh (oneCell 0 1))) (.leaf (.mesh (oneCell 0 1))) hadm 0 1 1
    obtain ⟨calls, h2, h3⟩ := C14_set_algebra 0 _ 1 hadm ⟨rfl, rfl⟩
    refine ⟨calls, ?_, ?_⟩
    · rw [← h2, ← h1]; rfl
    · rw [h3]
      show ¬ ((oneCell 0 1).Mem 0 [1] ∨ (oneCell 0 1).Mem 0 [1])
      rw [hm]; omega

/-! ### C22 -/

/-- C22 refuted: the projection of one cell of level 1 on level 0 is empty, although the ancestor of the cell should be in
it. -/
theorem C22_projection_refuted : ∃ L : LCA, L.WF 0 ∧ L.level = 1 ∧
    (Node.projection (.mesh L) 0).Holds 0 [0] ∧ runSet 0 (.leaf (.projection (.mesh L) 0)) 0 = some [] := by
  refine ⟨oneCell 0 1, oneCell_wf 0 1, rfl, ?_, ?_⟩
  · show AtLevel 1 0 (fun q => (oneCell 0 1).Mem 0 q) [0]
    unfold AtLevel
    rw [if_neg (by omega)]
    exact ⟨[0], (ofBox_mem 1 [0]).2 (by simp [InBox]), List.Forall₂.cons (by unfold IsAncestor; norm_num) List.Forall₂.nil⟩
  · have : (runSet 0 (.leaf (.projection (.mesh (oneCell 0 1)) 0)) 0).map (fun c => c.map fun x => (x.1, x.2.start, x.2.stop)) = some [] := by
      decide +kernel
    revert this
    generalize runSet 0 (.leaf (.projection (.mesh (oneCell 0 1)) 0)) 0 = r
    intro h
    cases r with
    | none => simp at h
    | some c => cases c with
      | nil => rfl
      | cons => simp at h

end Samurai

import Verif.Spec.Flux
import Verif.Lemmas.Parallel
import Verif.Props.Interface
import Mathlib.Algebra.BigOperators.Group.List.Basic
import Mathlib.Tactic.Module
import Mathlib.Tactic.FieldSimp

namespace Samurai

/-! ### tasks and sequential calls -/

theorem rowsOf_flatten {α : Type} (row : Call → Option (List α)) : ∀ calls, (rowsOf row calls).map List.flatten = facesOf row calls := by
  intro calls
  induction calls with
  | nil => rfl
  | cons c cs ih =>
    unfold rowsOf facesOf
    rw [← ih]
    cases row c with
    | none => rfl
    | some a =>
      cases rowsOf row cs with
      | none => rfl
      | some b => rfl

section
variable {n : Nat} {ref cells : CA} {maxL level : Nat} {dir : Nat → Int} {S : List (Nat → Int)} {sub : LCA}

theorem sameLevelTasks_flatten : (sameLevelTasks n ref cells level dir S).map List.flatten = sameLevelFaces n ref cells level dir S := by
  unfold sameLevelTasks sameLevelFaces
  cases runDefault n (.op .inter (.leaf (.mesh (cells.lca level))) (.leaf (.translate (.mesh (cells.lca level)) fun d => - dir d))) with
  | none => rfl
  | some calls => exact rowsOf_flatten _ _

theorem jumpTasks_flatten : (jumpTasks n ref cells maxL level dir S).map List.flatten = jumpFaces n ref cells maxL level dir S := by
  unfold jumpTasks jumpFaces
  by_cases h : level ≥ maxL
  · rw [if_pos h, if_pos h]; rfl
  · rw [if_neg h, if_neg h]
    cases runSet n (.op .inter (.leaf (.mesh (cells.lca level)))
        (.leaf (.translate (.mesh (cells.lca (level + 1))) fun d => - dir d))) (level + 1) with
    | none => rfl
    | some calls => exact rowsOf_flatten _ _

theorem jumpTasksOpp_flatten : (jumpTasksOpp n ref cells maxL level dir S).map List.flatten = jumpFacesOpp n ref cells maxL level dir S := by
  unfold jumpTasksOpp jumpFacesOpp
  by_cases h : level ≥ maxL
  · rw [if_pos h, if_pos h]; rfl
  · rw [if_neg h, if_neg h]
    cases runSet n (.op .inter (.leaf (.mesh (cells.lca level)))
        (.leaf (.translate (.mesh (cells.lca (level + 1))) dir))) (level + 1) with
    | none => rfl
    | some calls => exact rowsOf_flatten _ _

theorem bdryTasks_flatten : (bdryTasks n ref sub cells dir S level).map List.flatten = bdryFaces n ref sub cells dir S level := by
  unfold bdryTasks bdryFaces
  cases boundarySet n sub cells level dir with
  | none => rfl
  | some calls => exact rowsOf_flatten _ _

theorem bdryTasksOpp_flatten : (bdryTasksOpp n ref sub cells dir S level).map List.flatten = bdryFacesOpp n ref sub cells dir S level :=
  bdryTasks_flatten

end

/-! ### the updates of the regions -/

section
variable {K V : Type} [Field K] [AddCommGroup V] [Module K V]

/-- All the updates of a list of regions. -/
def regionUpds (rs : List (Region V)) : List (Upd V) := rs.flatMap fun r => r.tasks.flatten

theorem foldl_run (rs : List (Region V)) : ∀ m : Int → V, rs.foldl Region.run m = (regionUpds rs).foldl addTo m := by
  induction rs with
  | nil => intro m; rfl
  | cons r rs ih =>
    intro m
    unfold regionUpds at ih ⊢
    rw [List.foldl_cons, ih, List.flatMap_cons, List.foldl_append]
    rfl

theorem regionUpds_append (a b : List (Region V)) : regionUpds (a ++ b) = regionUpds a ++ regionUpds b := List.flatMap_append

/-- The two updates of an interface, with the levels of its cells. -/
def stdUpds (n : Nat) (h0 : K) (F : List MCell → V × V) (f : FaceCall) : List (Upd V) :=
  faceUpdates n h0 F (max f.left.level f.right.level) f.left.level f.right.level f

/-- The update of a boundary interface. -/
def stdBdry (n : Nat) (h0 : K) (F : List MCell → V) (f : BdryCall) : Upd V :=
  (f.cell.index, contribution n (F f.comput) (cellLength h0 f.cell.level) (cellLength h0 f.cell.level))

theorem flatten_map_flatMap {α β : Type} (g : α → List β) (ts : List (List α)) : (ts.map fun t => t.flatMap g).flatten = ts.flatten.flatMap g := by
  induction ts with
  | nil => rfl
  | cons t ts ih => rw [List.map_cons, List.flatten_cons, List.flatten_cons, List.flatMap_append, ih]

theorem flatMap_congr_mem {α β : Type} {l : List α} {f g : α → List β} (h : ∀ a ∈ l, f a = g a) : l.flatMap f = l.flatMap g := by
  induction l with
  | nil => rfl
  | cons a l ih =>
    rw [List.flatMap_cons, List.flatMap_cons, h a List.mem_cons_self, ih fun b hb => h b (List.mem_cons_of_mem _ hb)]

theorem faceRegion_upds (n : Nat) (h0 : K) (F : List MCell → V × V) (hf hl hr : Nat) {ts : List (List FaceCall)} {fs : List FaceCall} (h : ts.flatten = fs)
    (hlev : ∀ f ∈ fs, f.left.level = hl ∧ f.right.level = hr) (hm : hf = max hl hr) :
    (faceRegion n h0 F hf hl hr ts).tasks.flatten = fs.flatMap (stdUpds n h0 F) := by
  show (ts.map fun t => t.flatMap (faceUpdates n h0 F hf hl hr)).flatten = _
  rw [flatten_map_flatMap, h]
  refine flatMap_congr_mem fun f hfm => ?_
  obtain ⟨h1, h2⟩ := hlev f hfm
  unfold stdUpds
  rw [h1, h2, hm]

/-- A list of regions that treats the interfaces `fs`, each once. -/
structure RegionsOK (n : Nat) (h0 : K) (ref : CA) (dir : Nat → Int) (S : List (Nat → Int)) (F : List MCell → V × V)
    (P : (Nat × List Int) × (Nat × List Int) → Prop) (rs : List (Region V)) (fs : List FaceCall) : Prop where
  faces : FacesOK n ref dir S P fs
  upds : regionUpds rs = fs.flatMap (stdUpds n h0 F)
  atomic : ∀ r ∈ rs, r.atomic = true

theorem RegionsOK.append {n : Nat} {h0 : K} {ref : CA} {dir : Nat → Int} {S : List (Nat → Int)} {F : List MCell → V × V}
    {P Q : (Nat × List Int) × (Nat × List Int) → Prop} {rs rs' : List (Region V)} {fs fs' : List FaceCall}
    (h : RegionsOK n h0 ref dir S F P rs fs) (h' : RegionsOK n h0 ref dir S F Q rs' fs') (hd : ∀ e, P e → Q e → False) :
    RegionsOK n h0 ref dir S F (fun e => P e ∨ Q e) (rs ++ rs') (fs ++ fs') := by
  refine ⟨h.faces.append h'.faces hd, ?_, fun r hr => ?_⟩
  · rw [regionUpds_append, h.upds, h'.upds, List.flatMap_append]
  · rcases List.mem_append.1 hr with hr | hr
    · exact h.atomic r hr
    · exact h'.atomic r hr

theorem RegionsOK.congr {n : Nat} {h0 : K} {ref : CA} {dir : Nat → Int} {S : List (Nat → Int)} {F : List MCell → V × V}
    {P Q : (Nat × List Int) × (Nat × List Int) → Prop} {rs : List (Region V)} {fs : List FaceCall}
    (h : RegionsOK n h0 ref dir S F P rs fs) (hq : ∀ e, P e ↔ Q e) : RegionsOK n h0 ref dir S F Q rs fs :=
  ⟨⟨h.faces.nodup, fun e => (h.faces.mem e).trans (hq e), h.faces.right⟩, h.upds, h.atomic⟩

theorem overLevels_regions {n : Nat} {h0 : K} {ref : CA} {dir : Nat → Int} {S : List (Nat → Int)} {F : List MCell → V × V}
    {f : Nat → Option (List (Region V))}
    {P : Nat → (Nat × List Int) × (Nat × List Int) → Prop} (hP : ∀ a b e, P a e → P b e → a = b) :
    ∀ ls : List Nat, ls.Nodup → (∀ l ∈ ls, ∃ rs fs, f l = some rs ∧ RegionsOK n h0 ref dir S F (P l) rs fs) →
      ∃ rs fs, overLevels f ls = some rs ∧ RegionsOK n h0 ref dir S F (fun e => ∃ l ∈ ls, P l e) rs fs := by
  intro ls
  induction ls with
  | nil =>
    intro _ _
    exact ⟨[], [], rfl, facesOK_nil (by simp), rfl, by simp⟩
  | cons l ls ih =>
    intro hnd h
    rw [List.nodup_cons] at hnd
    obtain ⟨a, a', a1, a2⟩ := h l (by simp)
    obtain ⟨b, b', b1, b2⟩ := ih hnd.2 fun l' hl' => h l' (List.mem_cons_of_mem _ hl')
    refine ⟨a ++ b, a' ++ b', by unfold overLevels; rw [a1, b1], ?_⟩
    refine (a2.append b2 (by
      rintro e h1 ⟨l', hl', h2⟩
      rw [hP _ _ _ h1 h2] at hnd
      exact hnd.1 hl')).congr fun e => ?_
    simp

section
variable {n : Nat} {cells ref : CA} {dom : LCA} {minL maxL w : Nat}

theorem FVMesh.sameRegion (g : FVMesh n cells ref dom minL maxL w) (h0 : K) {dir : Nat → Int} {S : List (Nat → Int)} (F : List MCell → V × V)
    (hdir : ∀ d, - dir d ≤ 1) (hS : StencilOK n w dir S) {level : Nat} (hl : level ≤ maxL) :
    ∃ rs fs, Samurai.sameRegion n h0 ref cells dir S F level = some rs ∧ RegionsOK n h0 ref dir S F (PSame n cells dir level) rs fs := by
  obtain ⟨fs, h1, h2⟩ := g.sameOK hdir hS hl
  have ht := sameLevelTasks_flatten (n := n) (ref := ref) (cells := cells) (level := level) (dir := dir) (S := S)
  rw [h1] at ht
  cases he : sameLevelTasks n ref cells level dir S with
  | none => rw [he] at ht; cases ht
  | some ts =>
    rw [he] at ht
    refine ⟨_, fs, by unfold Samurai.sameRegion; rw [he]; rfl, h2, ?_, fun r hr => ?_⟩
    · unfold regionUpds
      rw [List.flatMap_cons, List.flatMap_nil, List.append_nil]
      refine faceRegion_upds n h0 F level level level (Option.some.inj ht) (fun f hf => ?_) (by simp)
      obtain ⟨q, _, _, he⟩ := (h2.mem _).1 (List.mem_map.2 ⟨f, hf, rfl⟩)
      unfold FaceCall.ends MCell.id at he
      simp only [Prod.mk.injEq] at he
      exact ⟨he.1.1, he.2.1⟩
    · rw [List.mem_singleton.1 hr]
      rfl

theorem FVMesh.jumpRegions (g : FVMesh n cells ref dom minL maxL w) (h0 : K) {dir : Nat → Int} {S : List (Nat → Int)} (F : List MCell → V × V)
    (hdir : ∀ d, dir d ≤ 1 ∧ - dir d ≤ 1) (hax : AxisDir n dir) (hax' : AxisDir n fun d => - dir d) (hw1 : 1 ≤ w) (hS : StencilOK n w dir S)
    (level : Nat) :
    ∃ rs fs, Samurai.jumpRegions n h0 ref cells maxL dir S F level = some rs ∧
      RegionsOK n h0 ref dir S F (fun e => PJump n cells dir level e ∨ POpp n cells dir level e) rs fs := by
  obtain ⟨a, a1, a2⟩ := g.jumpOK (fun d => (hdir d).2) hax hw1 hS level
  obtain ⟨b, b1, b2⟩ := g.oppOK (fun d => (hdir d).1) hax' hw1 hS level
  have hta := jumpTasks_flatten (n := n) (ref := ref) (cells := cells) (maxL := maxL) (level := level) (dir := dir) (S := S)
  have htb := jumpTasksOpp_flatten (n := n) (ref := ref) (cells := cells) (maxL := maxL) (level := level) (dir := dir) (S := S)
  rw [a1] at hta
  rw [b1] at htb
  cases hea : jumpTasks n ref cells maxL level dir S with
  | none => rw [hea] at hta; cases hta
  | some ta =>
    cases heb : jumpTasksOpp n ref cells maxL level dir S with
    | none => rw [heb] at htb; cases htb
    | some tb =>
      rw [hea] at hta
      rw [heb] at htb
      have ra : RegionsOK n h0 ref dir S F (PJump n cells dir level) [faceRegion n h0 F (level + 1) level (level + 1) ta] a := by
        refine ⟨a2, ?_, fun r hr => by rw [List.mem_singleton.1 hr]; rfl⟩
        unfold regionUpds
        rw [List.flatMap_cons, List.flatMap_nil, List.append_nil]
        refine faceRegion_upds n h0 F (level + 1) level (level + 1) (Option.some.inj hta) (fun f hf => ?_) (by omega)
        obtain ⟨q, _, _, he⟩ := (a2.mem _).1 (List.mem_map.2 ⟨f, hf, rfl⟩)
        unfold FaceCall.ends MCell.id at he
        simp only [Prod.mk.injEq] at he
        exact ⟨he.1.1, he.2.1⟩
      have rb : RegionsOK n h0 ref dir S F (POpp n cells dir level) [faceRegion n h0 F (level + 1) (level + 1) level tb] b := by
        refine ⟨b2, ?_, fun r hr => by rw [List.mem_singleton.1 hr]; rfl⟩
        unfold regionUpds
        rw [List.flatMap_cons, List.flatMap_nil, List.append_nil]
        refine faceRegion_upds n h0 F (level + 1) (level + 1) level (Option.some.inj htb) (fun f hf => ?_) (by omega)
        obtain ⟨q, _, _, he⟩ := (b2.mem _).1 (List.mem_map.2 ⟨f, hf, rfl⟩)
        unfold FaceCall.ends MCell.id at he
        simp only [Prod.mk.injEq] at he
        exact ⟨he.1.1, he.2.1⟩
      refine ⟨_, a ++ b, by unfold Samurai.jumpRegions; rw [hea, heb]; rfl, ra.append rb ?_⟩
      rintro e ⟨q, _, _, rfl⟩ ⟨q', _, _, h⟩
      simp only [Prod.mk.injEq] at h
      omega

/-- The interior interfaces of one direction. -/
theorem FVMesh.interiorRegions (g : FVMesh n cells ref dom minL maxL w) (h0 : K) {d : Nat} (hd : d ≤ n) {S : List (Nat → Int)} (F : List MCell → V × V)
    (hS : StencilOK n w (unitDir d) S) :
    ∃ rs fs, Samurai.interiorRegions n h0 ref cells maxL (unitDir d) S F = some rs ∧
      RegionsOK n h0 ref (unitDir d) S F (fun e => Interface n cells (unitDir d) e.1 e.2) rs fs := by
  have hlev : ∀ l ∈ cells.levels, l ≤ maxL := by
    intro l hl
    unfold CA.levels at hl
    rw [List.mem_range'_1] at hl
    rcases cells.level_cases with ⟨_, h1, h2⟩ | ⟨h1, _, _, h2, _, _⟩
    · omega
    · obtain ⟨p, hp⟩ := (mem_usedLevels g.leaves.wf (l := cells.maxLevel)).1 (List.mem_filter.2 ⟨by
        unfold CA.levels
        rw [List.mem_range'_1]
        omega, by rw [h2]; rfl⟩)
      have := (g.leaves.between _ _ hp).2
      omega
  obtain ⟨ra, fa, a1, a2⟩ := overLevels_regions (P := PSame n cells (unitDir d)) (f := Samurai.sameRegion n h0 ref cells (unitDir d) S F)
    (by rintro a b e ⟨q, _, _, rfl⟩ ⟨q', _, _, h⟩; simp only [Prod.mk.injEq] at h; omega) cells.levels cells.levels_nodup
    (fun l hl => g.sameRegion h0 F (fun k => (unitDir_le d k).2) hS (hlev l hl))
  obtain ⟨rb, fb, b1, b2⟩ := overLevels_regions (P := fun l e => PJump n cells (unitDir d) l e ∨ POpp n cells (unitDir d) l e)
    (f := Samurai.jumpRegions n h0 ref cells maxL (unitDir d) S F)
    (by
      rintro a b e h h'
      rw [← (pair_level (Or.inr h)).1, ← (pair_level (Or.inr h')).1])
    (List.range' cells.minLevel (cells.maxLevel - cells.minLevel)) (List.nodup_range' ..)
    (fun l _ => g.jumpRegions h0 F (unitDir_le d) (unitDir_axis n d) (unitDir_axis_neg n d) (hS.pos hd) hS l)
  refine ⟨ra ++ rb, fa ++ fb, by unfold Samurai.interiorRegions; rw [a1, b1], (a2.append b2 ?_).congr fun e => ?_⟩
  · rintro e ⟨l, _, q, _, _, rfl⟩ ⟨l', _, ⟨q', _, _, h⟩ | ⟨q', _, _, h⟩⟩ <;>
    · simp only [Prod.mk.injEq] at h
      omega
  · rw [← g.interface_iff (dir := unitDir d) (fun k _ => by have := unitDir_le d k; omega) e]
    constructor
    · rintro (⟨l, _, h⟩ | ⟨l, _, h⟩)
      · exact ⟨l, (mem_usedLevels g.leaves.wf).2 (pair_level (Or.inl h)).2, Or.inl h⟩
      · exact ⟨l, (mem_usedLevels g.leaves.wf).2 (pair_level (Or.inr h)).2, Or.inr h⟩
    · rintro ⟨l, hl, h | h⟩
      · exact Or.inl ⟨l, (List.mem_filter.1 hl).1, h⟩
      · refine Or.inr ⟨l, ?_, h⟩
        rw [List.mem_range'_1]
        rcases h with ⟨q, h1, h2, _⟩ | ⟨q, h1, h2, _⟩
        · have k1 := CA.mem_levels g.leaves.wf h1
          have k2 := CA.mem_levels g.leaves.wf h2
          omega
        · have k1 := CA.mem_levels g.leaves.wf h1
          have k2 := CA.mem_levels g.leaves.wf h2
          omega

end

end

end Samurai

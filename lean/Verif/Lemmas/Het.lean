import Verif.Lemmas.LinScheme
import Verif.Spec.Operators

namespace Samurai

section
variable {K U V : Type} [Field K] [AddCommGroup U] [Module K U] [AddCommGroup V] [Module K V]

/-- Two regions with the same effect. -/
def SameRun (r r' : Region V) : Prop := ∀ i, updSum r'.tasks.flatten i = updSum r.tasks.flatten i

theorem sameRun_run {rs rs' : List (Region V)} (h : List.Forall₂ SameRun rs rs') : ∀ m : Int → V, rs'.foldl Region.run m = rs.foldl Region.run m := by
  induction h with
  | nil => intro m; rfl
  | cons h _ ih =>
    intro m
    rw [List.foldl_cons, List.foldl_cons, ih]
    congr 1
    funext j
    unfold Region.run
    rw [foldl_addTo, foldl_addTo, h]

omit [AddCommGroup V] in
theorem overLevels_rel {R : Region V → Region V → Prop} {f f' : Nat → Option (List (Region V))} : ∀ (ls : List Nat) (rs : List (Region V)),
    (∀ l ∈ ls, ∀ rs, f l = some rs → ∃ rs', f' l = some rs' ∧ List.Forall₂ R rs rs') →
    overLevels f ls = some rs → ∃ rs', overLevels f' ls = some rs' ∧ List.Forall₂ R rs rs' := by
  intro ls
  induction ls with
  | nil => intro rs _ h; cases h; exact ⟨[], rfl, List.Forall₂.nil⟩
  | cons l ls ih =>
    intro rs h hrs
    unfold overLevels at hrs
    cases h1 : f l with
    | none => rw [h1] at hrs; cases hrs
    | some a =>
      cases h2 : overLevels f ls with
      | none => rw [h1, h2] at hrs; cases hrs
      | some b =>
        rw [h1, h2] at hrs
        cases hrs
        obtain ⟨a', a1, a2⟩ := h l List.mem_cons_self a h1
        obtain ⟨b', b1, b2⟩ := ih b (fun l' hl' => h l' (List.mem_cons_of_mem _ hl')) h2
        exact ⟨a' ++ b', by unfold overLevels; rw [a1, b1], List.rel_append a2 b2⟩

/-! ### one interface -/

theorem loop_pair (u : Int → U) (i x y : Int) : ∀ (A B : List (U →ₗ[K] V)) (C : List MCell), A.length = B.length →
    updSum (stencilLoop (fun (a b : U →ₗ[K] V) (c : MCell) => [(x, a (u c.index)), (y, b (u c.index))]) A B C) i =
      (if i = x then linValue u A C else 0) + if i = y then linValue u B C else 0 := by
  intro A
  induction A with
  | nil =>
    intro B C h
    obtain rfl : B = [] := List.length_eq_zero_iff.1 h.symm
    simp [stencilLoop, linValue, updSum]
  | cons a A ih =>
    intro B C h
    cases B with
    | nil => simp at h
    | cons b B =>
      cases C with
      | nil => simp [stencilLoop, linValue, updSum]
      | cons c C =>
        have := ih B C (by simpa using h)
        simp only [stencilLoop, linValue]
        rw [updSum_append, this]
        simp only [updSum, List.map_cons, List.map_nil, List.sum_cons, List.sum_nil, add_zero]
        split_ifs <;> abel

theorem loop_one (u : Int → U) (i x : Int) : ∀ (A : List (U →ₗ[K] V)) (C : List MCell),
    updSum (stencilLoop (fun (a _ : U →ₗ[K] V) (c : MCell) => [(x, a (u c.index))]) A A C) i = if i = x then linValue u A C else 0 := by
  intro A
  induction A with
  | nil => intro C; simp [stencilLoop, linValue, updSum]
  | cons a A ih =>
    intro C
    cases C with
    | nil => simp [stencilLoop, linValue, updSum]
    | cons c C =>
      simp only [stencilLoop, linValue]
      rw [updSum_append, ih C]
      simp only [updSum, List.map_cons, List.map_nil, List.sum_cons, List.sum_nil, add_zero]
      by_cases h1 : i = x <;> simp [h1]

theorem linValue_contribution (n : Nat) (u : Int → U) (x y : K) : ∀ (A : List (U →ₗ[K] V)) (C : List MCell),
    linValue u (contributionL n A x y) C = contribution n (linValue u A C) x y := by
  intro A
  induction A with
  | nil => intro C; simp [contributionL, linValue, contribution]
  | cons a A ih =>
    intro C
    cases C with
    | nil => simp [contributionL, linValue, contribution]
    | cons c C =>
      have := ih C
      unfold contributionL contribution at this ⊢
      simp only [List.map_cons, linValue]
      rw [this, smul_add]
      rfl

theorem linValue_neg (u : Int → U) : ∀ (A : List (U →ₗ[K] V)) (C : List MCell), linValue u (negL A) C = - linValue u A C := by
  intro A
  induction A with
  | nil => intro C; simp [negL, linValue]
  | cons a A ih =>
    intro C
    cases C with
    | nil => simp [negL, linValue]
    | cons c C =>
      have := ih C
      unfold negL at this ⊢
      simp only [List.map_cons, linValue]
      rw [this, neg_add]
      rfl

theorem updSum_face (n : Nat) (h0 : K) (F : List MCell → V × V) (hf hl hr : Nat) (f : FaceCall) (i : Int) :
    updSum (faceUpdates n h0 F hf hl hr f) i = (if i = f.left.index then contribution n (F f.comput).1 (cellLength h0 hf) (cellLength h0 hl) else 0) +
      if i = f.right.index then contribution n (F f.comput).2 (cellLength h0 hf) (cellLength h0 hr) else 0 := by
  unfold faceUpdates updSum
  simp

/-! ### the regions -/

variable {n : Nat} {cells ref : CA} {sub : LCA} {maxL : Nat}

theorem faceRegion_same (h0 : K) (u : Int → U) (C : List MCell → List (U →ₗ[K] V)) (hf hl hr : Nat) (L R : List (U →ₗ[K] V) → List (U →ₗ[K] V))
    (hlen : ∀ A, (L A).length = (R A).length)
    (hL : ∀ A c, linValue u (L A) c = contribution n (linValue u A c) (cellLength h0 hf) (cellLength h0 hl))
    (hR : ∀ A c, linValue u (R A) c = contribution n (- linValue u A c) (cellLength h0 hf) (cellLength h0 hr)) (ts : List (List FaceCall)) :
    SameRun (faceRegion n h0 (asConservative fun c => linValue u (C c) c) hf hl hr ts)
      ⟨false, [ts.flatten.flatMap fun f => hetFace u (L (C f.comput)) (R (C f.comput)) f]⟩ := by
  intro i
  unfold faceRegion
  simp only [List.flatten_cons, List.flatten_nil, List.append_nil]
  rw [flatten_map_flatMap, updSum_flatMap, updSum_flatMap]
  refine sum_map_congr fun f _ => ?_
  rw [updSum_face]
  unfold hetFace asConservative
  rw [loop_pair _ _ _ _ _ _ _ (hlen _), hL, hR]

theorem bdryRegion_same (h0 : K) (u : Int → U) (C : List MCell → List (U →ₗ[K] V)) (level : Nat) (L : List (U →ₗ[K] V) → List (U →ₗ[K] V)) (F : List MCell → V)
    (hL : ∀ c, linValue u (L (C c)) c = contribution n (F c) (cellLength h0 level) (cellLength h0 level)) (ts : List (List BdryCall)) :
    SameRun (bdryRegion n h0 F level ts) ⟨false, [ts.flatten.flatMap fun f => hetBdry u (L (C f.comput)) f]⟩ := by
  intro i
  unfold bdryRegion
  simp only [List.flatten_cons, List.flatten_nil, List.append_nil]
  rw [flatten_map_map, updSum_flatMap, updSum_map]
  refine sum_map_congr fun f _ => ?_
  unfold hetBdry
  rw [loop_one, hL]

theorem hetSame_sim (u : Int → U) (h0 : K) {dir : Nat → Int} {S : List (Nat → Int)} (C : List MCell → List (U →ₗ[K] V)) {level : Nat} {rs : List (Region V)}
    (h : sameRegion n h0 ref cells dir S (asConservative fun c => linValue u (C c) c) level = some rs) :
    ∃ rs', hetSameRegion n h0 u ref cells dir S C level = some rs' ∧ List.Forall₂ SameRun rs rs' := by
  unfold sameRegion at h
  unfold hetSameRegion
  rw [← sameLevelTasks_flatten]
  cases ht : sameLevelTasks n ref cells level dir S with
  | none => rw [ht] at h; cases h
  | some ts =>
    rw [ht] at h
    cases h
    refine ⟨_, rfl, List.Forall₂.cons ?_ List.Forall₂.nil⟩
    exact faceRegion_same h0 u C level level level (fun A => contributionL n A _ _) (fun A => negL (contributionL n A _ _)) (fun A => by rw [negL_length])
      (fun A c => linValue_contribution ..) (fun A c => by rw [linValue_neg, linValue_contribution, contribution_neg]) ts

theorem hetJump_sim (u : Int → U) (h0 : K) {dir : Nat → Int} {S : List (Nat → Int)} (C : List MCell → List (U →ₗ[K] V)) {level : Nat} {rs : List (Region V)}
    (h : jumpRegions n h0 ref cells maxL dir S (asConservative fun c => linValue u (C c) c) level = some rs) :
    ∃ rs', hetJumpRegions n h0 u ref cells maxL dir S C level = some rs' ∧ List.Forall₂ SameRun rs rs' := by
  unfold jumpRegions at h
  unfold hetJumpRegions
  rw [← jumpTasks_flatten, ← jumpTasksOpp_flatten]
  cases ht : jumpTasks n ref cells maxL level dir S with
  | none => rw [ht] at h; cases h
  | some ts =>
    cases ht' : jumpTasksOpp n ref cells maxL level dir S with
    | none => rw [ht, ht'] at h; cases h
    | some ts' =>
      rw [ht, ht'] at h
      cases h
      refine ⟨_, rfl, List.Forall₂.cons ?_ (List.Forall₂.cons ?_ List.Forall₂.nil)⟩
      · exact faceRegion_same h0 u C (level + 1) level (level + 1) (fun A => contributionL n A _ _) (fun A => contributionL n (negL A) _ _)
          (fun A => by rw [contributionL_length, contributionL_length, negL_length])
          (fun A c => linValue_contribution ..) (fun A c => by rw [linValue_contribution, linValue_neg]) ts
      · exact faceRegion_same h0 u C (level + 1) (level + 1) level (fun A => contributionL n A _ _) (fun A => contributionL n (negL A) _ _)
          (fun A => by rw [contributionL_length, contributionL_length, negL_length])
          (fun A c => linValue_contribution ..) (fun A c => by rw [linValue_contribution, linValue_neg]) ts'

theorem hetBdry_sim (u : Int → U) (h0 : K) {dir : Nat → Int} {S : List (Nat → Int)} (C : List MCell → List (U →ₗ[K] V)) {level : Nat} {rs : List (Region V)}
    (h : bdryRegions n h0 ref sub cells dir S (asConservative fun c => linValue u (C c) c) level = some rs) :
    ∃ rs', hetBdryRegions n h0 u ref sub cells dir S C level = some rs' ∧ List.Forall₂ SameRun rs rs' := by
  unfold bdryRegions at h
  unfold hetBdryRegions
  rw [← bdryTasks_flatten, ← bdryTasksOpp_flatten]
  cases ht : bdryTasks n ref sub cells dir S level with
  | none => rw [ht] at h; cases h
  | some ts =>
    cases ht' : bdryTasksOpp n ref sub cells dir S level with
    | none => rw [ht, ht'] at h; cases h
    | some ts' =>
      rw [ht, ht'] at h
      cases h
      refine ⟨_, rfl, List.Forall₂.cons ?_ (List.Forall₂.cons ?_ List.Forall₂.nil)⟩
      · exact bdryRegion_same h0 u C level (fun A => contributionL n A _ _) _ (fun c => linValue_contribution ..) ts
      · exact bdryRegion_same h0 u C level (fun A => contributionL n (negL A) _ _) _ (fun c => by rw [linValue_contribution, linValue_neg]; rfl) ts'

theorem hetScheme_sim (u : Int → U) (h0 : K) (hd : HetDef K U V) (bdry : Bool) {rs : List (Region V)}
    (h : schemeRegions n h0 ref sub cells maxL bdry (hetFlux u hd) = some rs) :
    ∃ rs', hetSchemeRegions n h0 u ref sub cells maxL bdry hd = some rs' ∧ List.Forall₂ SameRun rs rs' := by
  refine overLevels_rel _ _ (fun d _ rs hrs => ?_) h
  unfold directionRegions interiorRegions at hrs
  unfold hetDirectionRegions
  split at hrs
  · rename_i a b h1 h2
    cases hrs
    split at h1
    · rename_i a1 a2 g1 g2
      cases h1
      obtain ⟨x, x1, x2⟩ := overLevels_rel _ _ (fun l _ rs hrs => hetSame_sim u h0 (S := hd.stencil d) (hd.coeffs d) hrs) g1
      obtain ⟨y, y1, y2⟩ := overLevels_rel _ _ (fun l _ rs hrs => hetJump_sim u h0 (S := hd.stencil d) (hd.coeffs d) hrs) g2
      rw [x1, y1]
      cases bdry with
      | false =>
        rw [if_neg (by simp)] at h2 ⊢
        cases h2
        exact ⟨_, rfl, List.rel_append (List.rel_append x2 y2) List.Forall₂.nil⟩
      | true =>
        rw [if_pos rfl] at h2 ⊢
        obtain ⟨b', b1, b2⟩ := overLevels_rel _ _ (fun l _ rs hrs => hetBdry_sim u h0 (S := hd.stencil d) (hd.coeffs d) hrs) h2
        rw [b1]
        exact ⟨_, rfl, List.rel_append (List.rel_append x2 y2) b2⟩
    · cases h1
  · cases hrs

end

end Samurai

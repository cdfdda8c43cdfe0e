import Verif.Lemmas.FluxScheme
import Mathlib.Tactic.Abel
import Mathlib.Algebra.BigOperators.Group.List.Basic
import Mathlib.Tactic.FieldSimp

namespace Samurai

/-! ### sums over lists -/

section
variable {V : Type} [AddCommGroup V]

theorem sum_map_add' {α : Type} (l : List α) (f g : α → V) : (l.map fun a => f a + g a).sum = (l.map f).sum + (l.map g).sum := by
  induction l with
  | nil => simp
  | cons a l ih => simp only [List.map_cons, List.sum_cons, ih]; abel

theorem sum_map_zero' {α : Type} (l : List α) : (l.map fun _ => (0 : V)).sum = 0 := by
  induction l with
  | nil => rfl
  | cons a l ih => rw [List.map_cons, List.sum_cons, ih, add_zero]

theorem sum_map_comm {α β : Type} (a : List α) (b : List β) (f : α → β → V) :
    (a.map fun x => (b.map fun y => f x y).sum).sum = (b.map fun y => (a.map fun x => f x y).sum).sum := by
  induction a with
  | nil => simp only [List.map_nil, List.sum_nil, sum_map_zero']
  | cons x a ih => simp only [List.map_cons, List.sum_cons, ih, sum_map_add']

theorem sum_map_smul {K α : Type} [Field K] [Module K V] (c : K) (l : List α) (f : α → V) : (l.map fun a => c • f a).sum = c • (l.map f).sum := by
  induction l with
  | nil => simp
  | cons a l ih => simp only [List.map_cons, List.sum_cons, ih, smul_add]

/-- The sum over a list without repetitions of a value given to one element. -/
theorem sum_pick {α β : Type} [DecidableEq β] (g : α → β) (l : List α) (h : (l.map g).Nodup) (b : β) (hb : b ∈ l.map g) (v : V) :
    (l.map fun a => if b = g a then v else 0).sum = v := by
  induction l with
  | nil => simp at hb
  | cons a l ih =>
    rw [List.map_cons, List.nodup_cons] at h
    rw [List.map_cons, List.sum_cons]
    by_cases hba : b = g a
    · subst hba
      rw [if_pos rfl]
      have : (l.map fun a' => if g a = g a' then v else 0) = l.map fun _ => 0 := by
        refine List.map_congr_left fun a' ha' => if_neg fun he => h.1 ?_
        rw [he]
        exact List.mem_map.2 ⟨a', ha', rfl⟩
      rw [this, sum_map_zero', add_zero]
    · rw [if_neg hba, zero_add]
      refine ih h.2 ?_
      rw [List.map_cons, List.mem_cons] at hb
      exact hb.resolve_left hba

theorem updSum_perm {a b : List (Upd V)} (h : a.Perm b) (i : Int) : updSum a i = updSum b i := (h.map _).sum_eq

theorem updSum_flatMap {α : Type} (l : List α) (f : α → List (Upd V)) (i : Int) : updSum (l.flatMap f) i = (l.map fun a => updSum (f a) i).sum := by
  induction l with
  | nil => rfl
  | cons a l ih => rw [List.flatMap_cons, updSum_append, ih, List.map_cons, List.sum_cons]

theorem updSum_map {α : Type} (l : List α) (f : α → Upd V) (i : Int) : updSum (l.map f) i = (l.map fun a => if i = (f a).1 then (f a).2 else 0).sum := by
  unfold updSum
  rw [List.map_map]
  rfl

theorem updSum_none (us : List (Upd V)) (i : Int) (h : ∀ u ∈ us, u.1 ≠ i) : updSum us i = 0 := by
  unfold updSum
  have : (us.map fun u => if i = u.1 then u.2 else 0) = us.map fun _ => 0 :=
    List.map_congr_left fun u hu => if_neg fun he => h u hu he.symm
  rw [this, sum_map_zero']

theorem sum_map_congr {α : Type} {l : List α} {f g : α → V} (h : ∀ a ∈ l, f a = g a) : (l.map f).sum = (l.map g).sum := by
  rw [List.map_congr_left h]

end

/-! ### the value of a cell -/

section
variable {n : Nat} {cells ref : CA} {dom : LCA} {minL maxL w : Nat}
variable {K V : Type} [Field K] [AddCommGroup V] [Module K V]

theorem contribution_eq (v : V) (hf hc : K) : contribution n v hf hc = (hc ^ (n + 1))⁻¹ • hf ^ n • v := by
  unfold contribution
  rw [smul_smul, div_eq_inv_mul]

theorem cellIs_index (hw : ref.WF n) (hnum : FVNumbers n cells ref) {l : Nat} {p : List Int} {v : Int} (hv : (l, p, v) ∈ cells.numbered n) {c : MCell}
    (hc : CellIs n ref c.level c.pt c) : v = c.index ↔ c.id = (l, p) := by
  have h1 := hnum.same _ _ _ hv
  constructor
  · rintro rfl
    obtain ⟨e1, e2⟩ := number_inj hnum.distinct hc.2.2 h1
    unfold MCell.id
    rw [e1, e2]
  · intro he
    unfold MCell.id at he
    injection he with e1 e2
    have h2 := hc.2.2
    rw [e1, e2] at h2
    exact CA.number_unique hw h1 h2

theorem face_value (hw : ref.WF n) (hnum : FVNumbers n cells ref) (h0 : K) (F : List MCell → V × V) {l : Nat} {p : List Int} {v : Int}
    (hv : (l, p, v) ∈ cells.numbered n) {f : FaceCall} (h1 : CellIs n ref f.left.level f.left.pt f.left)
    (h2 : CellIs n ref f.right.level f.right.pt f.right) :
    updSum (stdUpds n h0 F f) v = ((cellLength h0 l) ^ (n + 1))⁻¹ • faceShare n h0 F (l, p) f := by
  have e1 := cellIs_index hw hnum hv h1
  have e2 := cellIs_index hw hnum hv h2
  unfold stdUpds faceUpdates faceShare
  rw [updSum_cons, updSum_cons, updSum_nil, add_zero, smul_add, contribution_eq, contribution_eq]
  congr 1
  · by_cases hc : f.left.id = (l, p)
    · have : f.left.level = l := congrArg Prod.fst hc
      rw [if_pos (e1.2 hc), if_pos hc, this]
    · rw [if_neg (fun h => hc (e1.1 h)), if_neg hc, smul_zero]
  · by_cases hc : f.right.id = (l, p)
    · have : f.right.level = l := congrArg Prod.fst hc
      rw [if_pos (e2.2 hc), if_pos hc, this]
    · rw [if_neg (fun h => hc (e2.1 h)), if_neg hc, smul_zero]

theorem bdry_value (hw : ref.WF n) (hnum : FVNumbers n cells ref) (h0 : K) (F : List MCell → V) {l : Nat} {p : List Int} {v : Int}
    (hv : (l, p, v) ∈ cells.numbered n) {f : BdryCall} (h1 : CellIs n ref f.cell.level f.cell.pt f.cell) :
    (if v = (stdBdry n h0 F f).1 then (stdBdry n h0 F f).2 else 0) =
      ((cellLength h0 l) ^ (n + 1))⁻¹ • if f.cell.id = (l, p) then bdryShare n h0 F f else 0 := by
  have e1 := cellIs_index hw hnum hv h1
  unfold stdBdry bdryShare
  simp only [contribution_eq]
  by_cases hc : f.cell.id = (l, p)
  · have : f.cell.level = l := congrArg Prod.fst hc
    rw [if_pos (e1.2 hc), if_pos hc, this]
  · rw [if_neg (fun h => hc (e1.1 h)), if_neg hc, smul_zero]

/-- What one direction gives to a leaf. -/
theorem DirOK.value {bdry : Bool} {h0 : K} {dir : Nat → Int} {S : List (Nat → Int)} {F : List MCell → V × V} {rs : List (Region V)}
    {fs : List FaceCall} {bs bs' : List BdryCall} (h : DirOK n h0 ref cells dom maxL bdry dir S F rs fs bs bs')
    (hw : ref.WF n) (hnum : FVNumbers n cells ref) {l : Nat} {p : List Int} {v : Int} (hv : (l, p, v) ∈ cells.numbered n) :
    updSum (regionUpds rs) v = ((cellLength h0 l) ^ (n + 1))⁻¹ • dirShare n h0 F bdry fs bs bs' (l, p) := by
  rw [updSum_perm h.upds, updSum_append, updSum_flatMap]
  unfold dirShare
  rw [smul_add, ← sum_map_smul]
  congr 1
  · exact sum_map_congr fun f hf => face_value hw hnum h0 F hv (h.interior.right f hf).1 (h.interior.right f hf).2.1
  · cases bdry with
    | false => simp [updSum_nil]
    | true =>
      rw [if_pos rfl, if_pos rfl, updSum_append, updSum_map, updSum_map, smul_add, ← sum_map_smul, ← sum_map_smul]
      congr 1
      · exact sum_map_congr fun f hf => bdry_value hw hnum h0 _ hv (h.pos.right f hf).1
      · exact sum_map_congr fun f hf => bdry_value hw hnum h0 _ hv (h.neg.right f hf).1

/-- Only the leaves are written. -/
theorem DirOK.leaves {bdry : Bool} {h0 : K} {dir : Nat → Int} {S : List (Nat → Int)} {F : List MCell → V × V} {rs : List (Region V)}
    {fs : List FaceCall} {bs bs' : List BdryCall} (h : DirOK n h0 ref cells dom maxL bdry dir S F rs fs bs bs') (hwc : cells.WF n)
    (hw : ref.WF n) (hnum : FVNumbers n cells ref) {i : Int} (hi : ∀ l p, (l, p, i) ∉ cells.numbered n) :
    updSum (regionUpds rs) i = 0 := by
  have key : ∀ c : MCell, CellIs n ref c.level c.pt c → cells.Mem n c.level c.pt → c.index ≠ i := by
    rintro c hc hm rfl
    obtain ⟨v, hv⟩ := CA.exists_number hwc hm
    have := CA.number_unique hw (hnum.same _ _ _ hv) hc.2.2
    exact hi _ _ (this ▸ hv)
  rw [updSum_perm h.upds]
  refine updSum_none _ _ fun u hu => ?_
  rcases List.mem_append.1 hu with hu | hu
  · obtain ⟨f, hf, hu⟩ := List.mem_flatMap.1 hu
    have hm := (h.interior.mem f.left.id f.right.id).1 (List.mem_map.2 ⟨f, hf, rfl⟩)
    unfold stdUpds faceUpdates at hu
    simp only [List.mem_cons, List.not_mem_nil, or_false] at hu
    rcases hu with rfl | rfl
    · exact key f.left (h.interior.right f hf).1 hm.1
    · exact key f.right (h.interior.right f hf).2.1 hm.2.1
  · cases bdry with
    | false => simp at hu
    | true =>
      rw [if_pos rfl] at hu
      rcases List.mem_append.1 hu with hu | hu
      · obtain ⟨f, hf, rfl⟩ := List.mem_map.1 hu
        exact key f.cell (h.pos.right f hf).1 ((h.pos.mem f.cell.level f.cell.pt).1 (List.mem_map.2 ⟨f, hf, rfl⟩)).1
      · obtain ⟨f, hf, rfl⟩ := List.mem_map.1 hu
        exact key f.cell (h.neg.right f hf).1 ((h.neg.mem f.cell.level f.cell.pt).1 (List.mem_map.2 ⟨f, hf, rfl⟩)).1

theorem updSum_regions (ls : List Nat) (rs : Nat → List (Region V)) (i : Int) :
    updSum (regionUpds (ls.flatMap rs)) i = (ls.map fun d => updSum (regionUpds (rs d)) i).sum := by
  unfold regionUpds
  rw [List.flatMap_assoc, updSum_flatMap]

/-! ### the sum over the leaves -/

theorem leaf_pick (hwc : cells.WF n) {c : Nat × List Int} (hc : cells.Mem n c.1 c.2) (x : V) :
    ((cells.numbered n).map fun e => if c = (e.1, e.2.1) then x else 0).sum = x := by
  refine sum_pick (fun e : Nat × List Int × Int => (e.1, e.2.1)) _ (leaves_nodup hwc) c ?_ x
  obtain ⟨v, hv⟩ := CA.exists_number hwc hc
  exact List.mem_map.2 ⟨_, hv, rfl⟩

theorem face_sum (hwc : cells.WF n) (h0 : K) (F : List MCell → V × V) {f : FaceCall} (h1 : cells.Mem n f.left.level f.left.pt)
    (h2 : cells.Mem n f.right.level f.right.pt) : ((cells.numbered n).map fun e => faceShare n h0 F (e.1, e.2.1) f).sum =
      (cellLength h0 (max f.left.level f.right.level)) ^ n • ((F f.comput).1 + (F f.comput).2) := by
  unfold faceShare
  rw [sum_map_add', leaf_pick hwc h1, leaf_pick hwc h2, smul_add]

end

end Samurai

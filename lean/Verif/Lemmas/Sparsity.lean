import Verif.Spec.Sparsity
import Verif.Lemmas.PetscSolve
import Verif.Lemmas.CellAssembly
import Verif.Lemmas.LinUnique

/-! Counting the places of a row. -/

namespace Samurai

theorem mem_rowColumns {T : List (Int × Int)} {r c : Int} : c ∈ rowColumns T r ↔ (r, c) ∈ T := by
  unfold rowColumns
  simp only [List.mem_toFinset, List.mem_map, List.mem_filter, decide_eq_true_eq]
  constructor
  · rintro ⟨⟨a, b⟩, ⟨h, rfl⟩, rfl⟩; exact h
  · intro h; exact ⟨(r, c), ⟨h, rfl⟩, rfl⟩

theorem rowColumns_card (T : List (Int × Int)) (r : Int) : (rowColumns T r).card ≤ (T.filter fun e => e.1 = r).length := by
  unfold rowColumns
  exact (List.toFinset_card_le _).trans (by rw [List.length_map])

/-- What the calls `P` add to the count of the row `r`. -/
def weight (P : List (Int × Nat)) (r : Int) : Nat := (P.map fun e => if r = e.1 then e.2 else 0).sum

theorem weight_append (P Q : List (Int × Nat)) (r : Int) : weight (P ++ Q) r = weight P r + weight Q r := by simp [weight]

theorem nnzAdd_foldl (P : List (Int × Nat)) (r : Int) : ∀ z : Int → Nat, P.foldl nnzAdd z r = z r + weight P r := by
  induction P with
  | nil => intro z; simp [weight]
  | cons e P ih =>
    intro z
    rw [List.foldl_cons, ih]
    unfold weight nnzAdd
    rw [List.map_cons, List.sum_cons]
    split <;> omega

/-- The calls `P` count at least as many places in each row as there are in `Q`. -/
def Counts (P : List (Int × Nat)) (Q : List (Int × Int)) : Prop := ∀ r, (Q.filter fun e => e.1 = r).length ≤ weight P r

theorem Counts.nil : Counts [] [] := fun r => by simp [weight]

theorem Counts.append {P P' : List (Int × Nat)} {Q Q' : List (Int × Int)} (h : Counts P Q) (h' : Counts P' Q') : Counts (P ++ P') (Q ++ Q') := by
  intro r
  rw [List.filter_append, List.length_append, weight_append]
  have := h r
  have := h' r
  omega

theorem Counts.flatMap {α : Type} {f : α → List (Int × Nat)} {g : α → List (Int × Int)} : ∀ {l : List α}, (∀ a ∈ l, Counts (f a) (g a)) → Counts (l.flatMap f) (l.flatMap g)
  | [], _ => Counts.nil
  | a :: l, h => by
    rw [List.flatMap_cons, List.flatMap_cons]
    exact (h a List.mem_cons_self).append (Counts.flatMap fun b hb => h b (List.mem_cons_of_mem _ hb))

theorem Counts.perm {P P' : List (Int × Nat)} {Q : List (Int × Int)} (h : Counts P Q) (hp : P.Subperm P') : Counts P' Q := by
  intro r
  refine (h r).trans ?_
  obtain ⟨l, h1, h2⟩ := hp
  unfold weight
  rw [← (h1.map _).sum_eq]
  exact (h2.map _).sum_le_sum fun _ _ => Nat.zero_le _

theorem Counts.card {P : List (Int × Nat)} {Q : List (Int × Int)} (h : Counts P Q) {T : List (Int × Int)} (hT : ∀ e ∈ T, e ∈ Q) (r : Int) : (rowColumns T r).card ≤ weight P r := by
  refine (Finset.card_le_card (t := rowColumns Q r) fun c hc => ?_).trans ((rowColumns_card Q r).trans (h r))
  rw [mem_rowColumns] at hc ⊢
  exact hT _ hc

/-- A loop on the levels or on the directions. -/
theorem overLevels_counts {f : Nat → Option (List (Int × Nat))} {C : Nat → Int × Int → Prop} : ∀ ls : List Nat,
    (∀ l ∈ ls, ∃ P Q, f l = some P ∧ Counts P Q ∧ ∀ e, C l e → e ∈ Q) → ∃ P Q, overLevels f ls = some P ∧ Counts P Q ∧ ∀ l ∈ ls, ∀ e, C l e → e ∈ Q
  | [], _ => ⟨[], [], rfl, Counts.nil, fun l hl => by simp at hl⟩
  | l :: ls, h => by
    obtain ⟨P, Q, h1, h2, h3⟩ := h l List.mem_cons_self
    obtain ⟨P', Q', h1', h2', h3'⟩ := overLevels_counts ls fun l' hl' => h l' (List.mem_cons_of_mem _ hl')
    refine ⟨P ++ P', Q ++ Q', by rw [overLevels, h1, h1'], h2.append h2', fun l' hl' e he => ?_⟩
    rcases List.mem_cons.1 hl' with rfl | hl'
    · exact List.mem_append_left _ (h3 e he)
    · exact List.mem_append_right _ (h3' l' hl' e he)

section
variable {K : Type} [Field K] {n : Nat} {L : MatLayout} {rec : GhostMap K}

/-- The cells that replace a cell of the stencil. -/
def terms (rec : GhostMap K) (k : Int) : List Int :=
  match rec.find k with
  | none => [k]
  | some l => l.map Prod.fst

omit [Field K] in
theorem combSize_terms (rec : GhostMap K) (c : MCell) : combSize rec c = (terms rec c.index).length := by
  unfold combSize terms
  cases rec.find c.index with
  | none => rfl
  | some l => simp

/-- The places of an interior interface. -/
def facePlaces (L : MatLayout) (rec : GhostMap K) (f : FaceCall) : List (Int × Int) :=
  (List.range L.outSize).flatMap fun i => (List.range L.inSize).flatMap fun j => f.comput.flatMap fun c => (terms rec c.index).flatMap fun t =>
    [(L.row f.left.index i, L.col t j), (L.row f.right.index i, L.col t j)]

theorem pair_counts (a b : Int) (col : Int → Int) (s : Nat) (hs : 1 ≤ s) (ts : List Int) : Counts [(a, ts.length * s), (b, ts.length * s)] (ts.flatMap fun t => [(a, col t), (b, col t)]) := by
  intro r
  induction ts with
  | nil => simp
  | cons t ts ih =>
    rw [List.flatMap_cons, List.filter_append, List.length_append]
    have : weight [(a, (t :: ts).length * s), (b, (t :: ts).length * s)] r = weight [(a, s), (b, s)] r + weight [(a, ts.length * s), (b, ts.length * s)] r := by
      unfold weight
      simp only [List.length_cons, List.map_cons, List.map_nil, List.sum_cons, List.sum_nil, add_mul, one_mul]
      split_ifs <;> omega
    rw [this]
    have h2 : (List.filter (fun e : Int × Int => decide (e.1 = r)) [(a, col t), (b, col t)]).length ≤ weight [(a, s), (b, s)] r := by
      unfold weight
      simp only [List.filter_cons, List.filter_nil, List.map_cons, List.map_nil, List.sum_cons, List.sum_nil, decide_eq_true_eq]
      by_cases h1 : a = r <;> by_cases h2 : b = r <;> simp [h1, h2, eq_comm] <;> omega
    omega

omit [Field K] in
theorem face_counts (hin : 1 ≤ L.inSize) (f : FaceCall) : Counts (facePattern L rec f) (facePlaces L rec f) := by
  unfold facePattern facePlaces
  refine Counts.flatMap fun i _ => Counts.flatMap fun j _ => Counts.flatMap fun c _ => ?_
  rw [combSize_terms]
  exact pair_counts _ _ (fun t => L.col t j) _ hin _

theorem row_counts {α : Type} (a : Int) (col : α → Int) (s : Nat) (xs : List α) (h : xs.length ≤ s) : Counts [(a, s)] (xs.map fun x => (a, col x)) := by
  intro r
  unfold weight
  simp only [List.map_cons, List.map_nil, List.sum_cons, List.sum_nil, add_zero]
  by_cases hr : r = a
  · rw [if_pos hr]
    exact (List.length_filter_le _ _).trans (by rw [List.length_map]; exact h)
  · rw [if_neg hr, List.filter_eq_nil_iff.2]
    · rfl
    · intro e he
      obtain ⟨x, -, rfl⟩ := List.mem_map.1 he
      simpa using fun h => hr h.symm

/-- The places of a boundary interface. -/
def bdryPlaces (L : MatLayout) (f : BdryCall) : List (Int × Int) :=
  (List.range L.outSize).flatMap fun i => (List.range L.inSize).flatMap fun j => f.comput.map fun c => (L.row f.cell.index i, L.col c.index j)

theorem bdry_counts (hin : 1 ≤ L.inSize) {size : Nat} {f : BdryCall} (h : f.comput.length = size) : Counts (bdryPattern L size f) (bdryPlaces L f) := by
  unfold bdryPattern bdryPlaces
  refine Counts.flatMap fun i _ => ?_
  rw [List.map_eq_flatMap]
  refine Counts.flatMap fun j _ => ?_
  exact row_counts _ (fun c : MCell => L.col c.index j) _ _ (by rw [h]; exact Nat.le_mul_of_pos_right _ hin)

end

end Samurai

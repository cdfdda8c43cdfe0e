/-
The matrices of the block operators: the sizes, the shifts, the rows and the columns of the blocks.
-/
import Verif.Lemmas.SumMatrix
import Verif.Lemmas.PetscSolve
import Verif.Model.BlockAssembly
import Verif.Spec.Block
import Mathlib.Algebra.BigOperators.Fin

namespace Samurai

/-! ### sizes -/

theorem fitSize_start (l : List (Option Nat)) (v : Nat) (h : ∀ w, some w ∈ l → w = v) : l.foldl (fun b o => match o with
    | some v => if b = 0 then v else b
    | none => b) v = v := by
  induction l with
  | nil => rfl
  | cons o l ih =>
    rw [List.foldl_cons]
    have ih' := ih fun w hw => h w (List.mem_cons_of_mem _ hw)
    cases o with
    | none => exact ih'
    | some w =>
      have := h w List.mem_cons_self
      subst this
      simp only [ite_self]
      exact ih'

theorem fitSize_eq (l : List (Option Nat)) (v : Nat) (h : ∀ w, some w ∈ l → w = v) (hv : some v ∈ l) : fitSize l = v := by
  unfold fitSize
  induction l with
  | nil => simp at hv
  | cons o l ih =>
    rw [List.foldl_cons]
    cases o with
    | none => exact ih (fun w hw => h w (List.mem_cons_of_mem _ hw)) (by simpa using hv)
    | some w =>
      have := h w List.mem_cons_self
      subst this
      exact fitSize_start l w fun x hx => h x (List.mem_cons_of_mem _ hx)

section
variable {K : Type} [Field K] {R C : Nat} {rz : Fin R → Nat} {sz : Fin C → Nat}

theorem blockRows_eq (B : Blocks K rz sz) (N : Nat) (r : Fin R) (h : ∃ c, (B r c).isSome) : blockRows B N r = N * rz r := by
  obtain ⟨c, hc⟩ := h
  obtain ⟨ops, ho⟩ := Option.isSome_iff_exists.1 hc
  refine fitSize_eq _ _ (fun w hw => ?_) (List.mem_map.2 ⟨c, List.mem_finRange c, by rw [ho]; rfl⟩)
  obtain ⟨c', -, h⟩ := List.mem_map.1 hw
  obtain ⟨_, -, rfl⟩ := Option.map_eq_some_iff.1 h
  rfl

theorem blockCols_eq (B : Blocks K rz sz) (N : Nat) (c : Fin C) (h : ∃ r, (B r c).isSome) : blockCols B N c = N * sz c := by
  obtain ⟨r, hr⟩ := h
  obtain ⟨ops, ho⟩ := Option.isSome_iff_exists.1 hr
  refine fitSize_eq _ _ (fun w hw => ?_) (List.mem_map.2 ⟨r, List.mem_finRange r, by rw [ho]; rfl⟩)
  obtain ⟨r', -, h⟩ := List.mem_map.1 hw
  obtain ⟨_, -, rfl⟩ := Option.map_eq_some_iff.1 h
  rfl

end

/-! ### the blocks of a range -/

section
variable {R : Nat} (f : Fin R → Nat)

/-- The sum of the first sizes. -/
def firstSum (k : Nat) : Nat := (((List.finRange R).take k).map f).sum

theorem take_succ_finRange {k : Nat} (h : k < R) : (List.finRange R).take (k + 1) = (List.finRange R).take k ++ [⟨k, h⟩] := by
  rw [← List.take_append_getElem (by simpa using h)]
  simp

theorem firstSum_succ {k : Nat} (h : k < R) : firstSum f (k + 1) = firstSum f k + f ⟨k, h⟩ := by
  unfold firstSum
  rw [take_succ_finRange h, List.map_append, List.sum_append]
  simp

theorem firstSum_mono {k k' : Nat} (h : k ≤ k') (h' : k' ≤ R) : firstSum f k ≤ firstSum f k' := by
  induction k' with
  | zero => rw [Nat.le_zero.1 h]
  | succ j ih =>
    rcases Nat.lt_or_ge k (j + 1) with hk | hk
    · rw [firstSum_succ f (by omega : j < R)]
      have := ih (by omega) (by omega)
      omega
    · rw [show k = j + 1 by omega]

theorem firstSum_all : firstSum f R = ((List.finRange R).map f).sum := by
  unfold firstSum
  rw [List.take_of_length_le (by simp)]

theorem block_end (r : Fin R) : firstSum f r + f r ≤ firstSum f R := by
  rw [← firstSum_succ f r.2]
  exact firstSum_mono f r.2 le_rfl

theorem block_disjoint {r r' : Fin R} {x : Int} (h : (firstSum f r : Int) ≤ x ∧ x < (firstSum f r : Int) + (f r : Nat))
    (h' : (firstSum f r' : Int) ≤ x ∧ x < (firstSum f r' : Int) + (f r' : Nat)) : r = r' := by
  have key : ∀ r r' : Fin R, r < r' → firstSum f r + f r ≤ firstSum f r' := by
    intro r r' hr
    rw [← firstSum_succ f r.2]
    exact firstSum_mono f hr r'.2.le
  rcases lt_trichotomy r r' with hr | hr | hr
  · have := key _ _ hr; omega
  · exact hr
  · have := key _ _ hr; omega

theorem block_cover {x : Int} (h0 : 0 ≤ x) (h1 : x < (firstSum f R : Nat)) : ∃ r : Fin R, (firstSum f r : Int) ≤ x ∧ x < (firstSum f r : Int) + (f r : Nat) := by
  have key : ∀ k ≤ R, x < (firstSum f k : Nat) → ∃ r : Fin R, (firstSum f r : Int) ≤ x ∧ x < (firstSum f r : Int) + (f r : Nat) := by
    intro k
    induction k with
    | zero => intro _ h; simp [firstSum] at h; omega
    | succ j ih =>
      intro hj h
      rcases lt_or_ge x (firstSum f j : Nat) with hx | hx
      · exact ih (by omega) hx
      · rw [firstSum_succ f (by omega : j < R)] at h
        exact ⟨⟨j, by omega⟩, hx, by push_cast at h; exact h⟩
  exact key R le_rfl h1

variable {K : Type} [Field K]

theorem matVec_add (A : Int → Int → K) (shift : Int) (a b : Nat) (y : Int → K) (ρ : Int) :
    matVec A shift (a + b) y ρ = matVec A shift a y ρ + matVec A (shift + a) b y ρ := by
  unfold matVec
  rw [List.range_add, List.map_append, List.sum_append, List.map_map]
  congr 2
  refine List.map_congr_left fun k _ => ?_
  simp only [Function.comp_apply]
  rw [show shift + ((a + k : Nat) : Int) = shift + (a : Int) + (k : Int) by push_cast; ring]

/-- The product with a matrix, block by block. -/
theorem matVec_blocks (A : Int → Int → K) (y : Int → K) (ρ : Int) :
    matVec A 0 (firstSum f R) y ρ = ∑ c : Fin R, matVec A (firstSum f c : Nat) (f c) y ρ := by
  have key : ∀ k ≤ R, matVec A 0 (firstSum f k) y ρ = (((List.finRange R).take k).map fun c : Fin R => matVec A (firstSum f c : Nat) (f c) y ρ).sum := by
    intro k
    induction k with
    | zero => intro _; simp [firstSum, matVec]
    | succ j ih =>
      intro hj
      rw [firstSum_succ f (by omega : j < R), matVec_add, ih (by omega), take_succ_finRange (by omega), List.map_append, List.sum_append]
      simp
  rw [key R le_rfl, List.take_of_length_le (by simp), sum_finRange]

theorem matVec_congr {A A' : Int → Int → K} {shift : Int} {cols : Nat} {y : Int → K} {ρ : Int} (h : ∀ γ, shift ≤ γ → γ < shift + cols → A ρ γ = A' ρ γ) :
    matVec A shift cols y ρ = matVec A' shift cols y ρ := by
  unfold matVec
  refine congrArg List.sum (List.map_congr_left fun k hk => ?_)
  have := List.mem_range.1 hk
  rw [h _ (by omega) (by omega)]

end

/-! ### coefficients and insertions of lists of blocks -/

section
variable {K : Type} [Field K]

theorem schemeMatrix_append (E F : List (MatEntry K)) (ρ γ : Int) : schemeMatrix (E ++ F) ρ γ = schemeMatrix E ρ γ + schemeMatrix F ρ γ := by
  unfold schemeMatrix
  rw [foldl_matAdd, foldl_matAdd, foldl_matAdd, List.map_append, List.sum_append]
  ring

theorem schemeMatrix_flatMap {α : Type} (l : List α) (F : α → List (MatEntry K)) (ρ γ : Int) :
    schemeMatrix (l.flatMap F) ρ γ = (l.map fun a => schemeMatrix (F a) ρ γ).sum := by
  induction l with
  | nil => rfl
  | cons a l ih => rw [List.flatMap_cons, schemeMatrix_append, ih, List.map_cons, List.sum_cons]

theorem schemeMatrix_other {E : List (MatEntry K)} {ρ γ : Int} (h : ∀ e ∈ E, e.1 = ρ → e.2.1 ≠ γ) : schemeMatrix E ρ γ = 0 := by
  unfold schemeMatrix
  rw [foldl_matAdd, zero_add]
  refine List.sum_eq_zero fun x hx => ?_
  obtain ⟨e, he, rfl⟩ := List.mem_map.1 hx
  rw [if_neg fun h1 => h e he h1.1.symm h1.2.symm]

theorem matFold_congr {T : List (MatEntry K)} {A A' : Int → Int → K} {ρ : Int} (h : A ρ = A' ρ) : T.foldl matInsert A ρ = T.foldl matInsert A' ρ := by
  induction T generalizing A A' with
  | nil => exact h
  | cons e T ih =>
    rw [List.foldl_cons, List.foldl_cons]
    refine ih ?_
    funext γ
    unfold matInsert
    rw [h]

theorem vecFold_congr {T : List (Int × K)} {b b' : Int → K} {ρ : Int} (h : b ρ = b' ρ) : T.foldl vecInsert b ρ = T.foldl vecInsert b' ρ := by
  induction T generalizing b b' with
  | nil => exact h
  | cons e T ih =>
    rw [List.foldl_cons, List.foldl_cons]
    refine ih ?_
    unfold vecInsert
    rw [h]

/-- Only the insertions of one block change its rows. -/
theorem matFold_pick {α : Type} {l : List α} (hl : l.Nodup) {a : α} (ha : a ∈ l) (T : α → List (MatEntry K)) (A : Int → Int → K) {ρ : Int}
    (h : ∀ b ∈ l, b ≠ a → ∀ e ∈ T b, e.1 ≠ ρ) : (l.flatMap T).foldl matInsert A ρ = (T a).foldl matInsert A ρ := by
  obtain ⟨l1, l2, rfl⟩ := List.append_of_mem ha
  rw [List.flatMap_append, List.flatMap_cons, List.foldl_append, List.foldl_append, matFold_row]
  · refine matFold_congr (matFold_row fun e he => ?_)
    obtain ⟨b, hb, he⟩ := List.mem_flatMap.1 he
    refine h b (by simp [hb]) ?_ e he
    rintro rfl
    rw [List.nodup_append] at hl
    exact hl.2.2 b hb b List.mem_cons_self rfl
  · intro e he
    obtain ⟨b, hb, he⟩ := List.mem_flatMap.1 he
    refine h b (by simp [hb]) ?_ e he
    rintro rfl
    rw [List.nodup_append, List.nodup_cons] at hl
    exact hl.2.1.1 hb

theorem vecFold_pick {α : Type} {l : List α} (hl : l.Nodup) {a : α} (ha : a ∈ l) (T : α → List (Int × K)) (v : Int → K) {ρ : Int}
    (h : ∀ b ∈ l, b ≠ a → ∀ e ∈ T b, e.1 ≠ ρ) : (l.flatMap T).foldl vecInsert v ρ = (T a).foldl vecInsert v ρ := by
  obtain ⟨l1, l2, rfl⟩ := List.append_of_mem ha
  rw [List.flatMap_append, List.flatMap_cons, List.foldl_append, List.foldl_append, vecFold_other]
  · refine vecFold_congr (vecFold_other fun e he => ?_)
    obtain ⟨b, hb, he⟩ := List.mem_flatMap.1 he
    refine h b (by simp [hb]) ?_ e he
    rintro rfl
    rw [List.nodup_append] at hl
    exact hl.2.2 b hb b List.mem_cons_self rfl
  · intro e he
    obtain ⟨b, hb, he⟩ := List.mem_flatMap.1 he
    refine h b (by simp [hb]) ?_ e he
    rintro rfl
    rw [List.nodup_append, List.nodup_cons] at hl
    exact hl.2.1.1 hb

theorem rowSum_other {E : List (MatEntry K)} {y : Int → K} {ρ : Int} (h : ∀ e ∈ E, e.1 ≠ ρ) : rowSum E y ρ = 0 := by
  unfold rowSum
  refine List.sum_eq_zero fun x hx => ?_
  obtain ⟨e, he, rfl⟩ := List.mem_map.1 hx
  rw [if_neg fun h1 => h e he h1.symm]

/-! ### the blocks of a matrix -/

section
variable {R C : Nat} {fr : Fin R → Nat} {fc : Fin C → Nat} {E : Fin R → Fin C → List (MatEntry K)}

/-- The coefficients of the blocks of a row, and all the coefficients. -/
def rowEntries (E : Fin R → Fin C → List (MatEntry K)) (r : Fin R) : List (MatEntry K) := (List.finRange C).flatMap (E r)

def allEntries (E : Fin R → Fin C → List (MatEntry K)) : List (MatEntry K) := (List.finRange R).flatMap (rowEntries E)

theorem blockPairs_flatMap (E : Fin R → Fin C → List (MatEntry K)) : (blockPairs R C).flatMap (fun x => E x.1 x.2) = allEntries E := by
  unfold blockPairs allEntries rowEntries
  rw [List.flatMap_assoc]
  simp only [List.flatMap_map]

/-- The coefficients are in their blocks. -/
structure InBlocks (fr : Fin R → Nat) (fc : Fin C → Nat) (E : Fin R → Fin C → List (MatEntry K)) : Prop where
  rows : ∀ r c, ∀ e ∈ E r c, (firstSum fr r : Int) ≤ e.1 ∧ e.1 < (firstSum fr r : Int) + (fr r : Nat)
  cols : ∀ r c, ∀ e ∈ E r c, (firstSum fc c : Int) ≤ e.2.1 ∧ e.2.1 < (firstSum fc c : Int) + (fc c : Nat)

theorem InBlocks.mem_row (h : InBlocks fr fc E) {r : Fin R} {e : MatEntry K} (he : e ∈ rowEntries E r) : (firstSum fr r : Int) ≤ e.1 ∧ e.1 < (firstSum fr r : Int) + (fr r : Nat) := by
  obtain ⟨c, -, he⟩ := List.mem_flatMap.1 he
  exact h.rows r c e he

theorem InBlocks.product (h : InBlocks fr fc E) {r : Fin R} {ρ : Int} (hρ : (firstSum fr r : Int) ≤ ρ ∧ ρ < (firstSum fr r : Int) + (fr r : Nat)) (y : Int → K) :
    matVec (schemeMatrix (allEntries E)) 0 (firstSum fc C) y ρ = ∑ c, matVec (schemeMatrix (E r c)) (firstSum fc c : Nat) (fc c) y ρ := by
  have hall : ∀ e ∈ allEntries E, 0 ≤ e.2.1 ∧ e.2.1 < 0 + (firstSum fc C : Nat) := by
    intro e he
    obtain ⟨r', -, he⟩ := List.mem_flatMap.1 he
    obtain ⟨c, -, he⟩ := List.mem_flatMap.1 he
    have h1 := h.cols r' c e he
    have h2 := block_end fc c
    omega
  rw [matVec_schemeMatrix _ _ _ _ _ hall, allEntries, rowSum_flatMap, sum_finRange, Finset.sum_eq_single r]
  · rw [rowEntries, rowSum_flatMap, sum_finRange]
    exact Finset.sum_congr rfl fun c _ => (matVec_schemeMatrix _ _ _ _ _ (h.cols r c)).symm
  · intro r' _ hne
    refine rowSum_other fun e he h1 => hne ?_
    have := h.mem_row he
    rw [h1] at this
    exact block_disjoint fr this hρ
  · intro h1; exact absurd (Finset.mem_univ _) h1

theorem InBlocks.row (h : InBlocks fr fc E) {r : Fin R} {ρ : Int} (hρ : (firstSum fr r : Int) ≤ ρ ∧ ρ < (firstSum fr r : Int) + (fr r : Nat)) :
    schemeMatrix (allEntries E) ρ = schemeMatrix (rowEntries E r) ρ := by
  funext γ
  rw [allEntries, schemeMatrix_flatMap, sum_finRange, Finset.sum_eq_single r]
  · intro r' _ hne
    refine schemeMatrix_other fun e he h1 _ => hne ?_
    have := h.mem_row he
    rw [h1] at this
    exact block_disjoint fr this hρ
  · intro h1; exact absurd (Finset.mem_univ _) h1

theorem InBlocks.block (h : InBlocks fr fc E) (r : Fin R) {c : Fin C} (ρ : Int) {γ : Int} (hγ : (firstSum fc c : Int) ≤ γ ∧ γ < (firstSum fc c : Int) + (fc c : Nat)) :
    schemeMatrix (rowEntries E r) ρ γ = schemeMatrix (E r c) ρ γ := by
  rw [rowEntries, schemeMatrix_flatMap, sum_finRange, Finset.sum_eq_single c]
  · intro c' _ hne
    refine schemeMatrix_other fun e he _ h1 => hne ?_
    have := h.cols r c' e he
    rw [h1] at this
    exact block_disjoint fc this hγ
  · intro h1; exact absurd (Finset.mem_univ _) h1

end

end

/-! ### the layouts -/

section
variable {K : Type} [Field K]

theorem dataIndex_layout {soa soa' : Bool} {N p : Nat} (h : p = 1 ∨ soa = soa') (shift k : Int) (i : Fin p) : dataIndex soa N p shift k i = dataIndex soa' N p shift k i := by
  rcases h with rfl | rfl
  · rw [dataIndex_eq, dataIndex_eq]
    have : i = 0 := Subsingleton.elim _ _
    subst this
    cases soa <;> cases soa' <;> simp
  · rfl

theorem isVector_layout {soa soa' : Bool} {N p : Nat} (h : p = 1 ∨ soa = soa') {shift : Int} {u : Int → Fin p → K} {x : Int → K} (hx : IsVector soa N p shift u x) :
    IsVector soa' N p shift u x := by
  rcases h with rfl | rfl
  · intro k h1 h2 i
    have := hx.at h1 h2 i
    rw [dataIndex_layout (soa' := soa') (.inl rfl), dataIndex_eq] at this
    exact this
  · exact hx

end

/-! ### the offsets -/

section
variable {K : Type} [Field K] {R C : Nat} {rz : Fin R → Nat} {sz : Fin C → Nat}

theorem firstSum_offset (N : Nat) (sz : Fin C → Nat) (c : Fin C) : (firstSum (fun q => N * sz q) c : Int) = fieldOffset N sz c := by
  unfold firstSum fieldOffset
  rw [List.map_take, ← List.ofFn_eq_map, List.sum_take_ofFn]
  rfl

theorem firstSum_size (N : Nat) (sz : Fin C → Nat) : firstSum (fun q => N * sz q) C = fieldsSize N sz := by
  rw [firstSum_all, sum_finRange]
  rfl

theorem rowShift_eq (B : Blocks K rz sz) (N : Nat) (h : ∀ r, ∃ c, (B r c).isSome) (r : Fin R) : rowShift B N r = fieldOffset N rz r := by
  rw [← firstSum_offset]
  unfold rowShift firstSum
  rw [funext fun q => blockRows_eq B N q (h q)]

theorem colShift_eq (B : Blocks K rz sz) (N : Nat) (h : ∀ c, ∃ r, (B r c).isSome) (c : Fin C) : colShift B N c = fieldOffset N sz c := by
  rw [← firstSum_offset]
  unfold colShift firstSum
  rw [funext fun q => blockCols_eq B N q (h q)]

theorem blockLayout_eq (B : Blocks K rz sz) (soa : Fin C → Bool) (N : Nat) (hr : ∀ r, ∃ c, (B r c).isSome) (hc : ∀ c, ∃ r, (B r c).isSome) (r : Fin R) (c : Fin C) :
    blockLayout B soa N r c = ⟨soa c, N, sz c, rz r, fieldOffset N rz r, fieldOffset N sz c⟩ := by
  unfold blockLayout
  rw [rowShift_eq B N hr, colShift_eq B N hc]

theorem assembleBlock_getD {m p : Nat} (n : Nat) (h0 : K) (L : MatLayout) (rec : GhostMap K) (ref : CA) (sub : LCA) (cells : CA) (maxL : Nat) (o : Option (List (LinOp K m p))) :
    assembleBlock n h0 L rec ref sub cells maxL o = overList (LinOp.assemble n h0 L rec ref sub cells maxL) (o.getD []) := by
  cases o <;> rfl

end

section
variable {K : Type} [Field K] {R C : Nat} {rz : Fin R → Nat} {sz : Fin C → Nat} {n : Nat} {cfg : MeshConfig} {cells : CA} {dom sub : LCA} {minL maxL margin : Nat} {M : SubMeshes}
  {x : CA} {rec : GhostMap K}

/-- The matrix of a block operator: the coefficients of the blocks. -/
theorem blocksMatrix (hd : GoodDomain n dom minL maxL margin) (hm : cfg.maxStencilWidth + cfg.predictionOrder + 3 ≤ margin) (g : GoodLeaves n cells dom minL maxL)
    (hw : 1 ≤ cfg.maxStencilWidth) (ho : cfg.predictionOrder ≤ 5) (h0 : K) (hM : mrMesh n cfg cells minL maxL = some (M, x))
    (hsub : constructSubdomain n M.cells maxL = some sub) (hrec : ∀ fuel, 2 * maxL < fuel → ghostRecursion n cfg.predictionOrder M.all M.ghosts M.cells fuel = some rec)
    (hN : ∀ l q k, (l, q, k) ∈ M.all.numbered n → 0 ≤ k ∧ k < M.all.nbCells) (hN' : FVNumbers n M.cells M.all)
    (B : Blocks K rz sz) (hr : ∀ r, ∃ c, (B r c).isSome) (hc : ∀ c, ∃ r, (B r c).isSome) (hops : ∀ r c ops, B r c = some ops → ∀ op ∈ ops, op.OK n cfg.maxStencilWidth)
    (soa : Fin C → Bool) :
    ∃ E : Fin R → Fin C → List (MatEntry K), assembleBlocks n h0 B soa M.all.nbCells rec M.all sub M.cells maxL = some (allEntries E) ∧
      InBlocks (fun r => M.all.nbCells * rz r) (fun c => M.all.nbCells * sz c) E ∧
      (∀ r c, assembleBlock n h0 ⟨soa c, M.all.nbCells, sz c, rz r, fieldOffset M.all.nbCells rz r, fieldOffset M.all.nbCells sz c⟩ rec M.all sub M.cells maxL (B r c) = some (E r c)) ∧
      ∀ r c, OpMatrix n cfg.predictionOrder (soa c) (fieldOffset M.all.nbCells rz r) (fieldOffset M.all.nbCells sz c) M (∀ op ∈ (B r c).getD [], op.Compact n)
        (((B r c).getD []).map fun op par u => op.regions n h0 par u M.all sub M.cells maxL) (E r c) := by
  have hex : ∀ r c, ∃ E : List (MatEntry K),
      assembleBlock n h0 ⟨soa c, M.all.nbCells, sz c, rz r, fieldOffset M.all.nbCells rz r, fieldOffset M.all.nbCells sz c⟩ rec M.all sub M.cells maxL (B r c) = some E ∧
      OpMatrix n cfg.predictionOrder (soa c) (fieldOffset M.all.nbCells rz r) (fieldOffset M.all.nbCells sz c) M (∀ op ∈ (B r c).getD [], op.Compact n)
        (((B r c).getD []).map fun op par u => op.regions n h0 par u M.all sub M.cells maxL) E := by
    intro r c
    rw [assembleBlock_getD]
    refine sumMatrix hd hm g hw ho h0 (soa c) _ _ hM hsub hrec ((B r c).getD []) fun op hop => ?_
    cases hB : B r c with
    | none => rw [hB] at hop; simp at hop
    | some ops => rw [hB] at hop; exact hops r c ops hB op hop
  choose E h1 h2 using hex
  refine ⟨E, ?_, ⟨fun r c e he => ?_, fun r c e he => ?_⟩, h1, h2⟩
  · rw [← blockPairs_flatMap]
    refine overList_ok _ fun a _ => ?_
    rw [blockLayout_eq B soa _ hr hc]
    exact h1 a.1 a.2
  · obtain ⟨k, i, k1, l, q, hk⟩ := (h2 r c).rows e he
    have := hN _ _ _ (hN'.same _ _ _ hk)
    rw [firstSum_offset, k1]
    exact dataIndex_range this.1 this.2 i
  · rw [firstSum_offset]
    exact (h2 r c).cols e he

end

end Samurai

/-
C92: the vectors of the block systems.
-/
import Verif.Lemmas.BlockAssembly

namespace Samurai

section
variable {K : Type} [Field K] {R C : Nat} {rz : Fin R → Nat} {sz : Fin C → Nat}

omit [Field K] in
theorem isVector_shift {soa : Bool} {N size : Nat} {shift : Int} {u : Int → Fin size → K} {x : Int → K} :
    IsVector soa N size shift u x ↔ IsVector soa N size 0 u fun i => x (shift + i) := by
  have key : ∀ (k : Int) (j : Fin size), (if soa then shift + (j : Int) * N + k else shift + k * size + (j : Int)) = shift + (if soa then 0 + (j : Int) * N + k else 0 + k * size + (j : Int)) := by
    intro k j
    split_ifs <;> ring
  constructor
  · intro h k k0 k1 j
    rw [← h k k0 k1 j, key]
  · intro h k k0 k1 j
    rw [key]
    exact h k k0 k1 j

omit [Field K] in
/-- The array of a field, after the copy of the values of a vector. -/
theorem isVector_copy {soa : Bool} {N size : Nat} {shift : Int} {u : Int → Fin size → K} {x old : Int → K} :
    IsVector soa N size 0 u (copyFromVec (N * size) shift x old) ↔ IsVector soa N size shift u x := by
  rw [isVector_shift (shift := shift)]
  have key : ∀ k : Int, 0 ≤ k → k < N → ∀ j : Fin size, copyFromVec (N * size) shift x old (if soa then 0 + (j : Int) * N + k else 0 + k * size + (j : Int)) =
      x (shift + (if soa then 0 + (j : Int) * N + k else 0 + k * size + (j : Int))) := by
    intro k k0 k1 j
    have := dataIndex_range (soa := soa) (shift := 0) k0 k1 j
    rw [dataIndex_eq] at this
    unfold copyFromVec
    rw [if_pos ⟨this.1, by omega⟩]
  constructor
  · intro h k k0 k1 j
    rw [← h k k0 k1 j, key k k0 k1 j]
  · intro h k k0 k1 j
    rw [key k k0 k1 j]
    exact h k k0 k1 j

theorem createVector_at {N : Nat} {shift : Fin C → Int} (hs : ∀ c, shift c = fieldOffset N sz c) (a : Fin C → Int → K) (c : Fin C) {i : Int} (i0 : 0 ≤ i) (i1 : i < (N * sz c : Nat)) :
    ((List.finRange C).flatMap fun c => copyToVec (N * sz c) (shift c) (a c)).foldl vecInsert (fun _ => 0) (fieldOffset N sz c + i) = a c i := by
  have hin : ∀ b, ∀ e ∈ copyToVec (N * sz b) (shift b) (a b), fieldOffset N sz b ≤ e.1 ∧ e.1 < fieldOffset N sz b + (N * sz b : Nat) := by
    intro b e he
    obtain ⟨j, hj, rfl⟩ := List.mem_map.1 he
    have := List.mem_range.1 hj
    rw [hs]
    constructor <;> simp only [] <;> omega
  rw [vecFold_pick (List.nodup_finRange C) (List.mem_finRange c) _ _ (fun b _ hb e he h => hb ?_)]
  · refine vecFold_val ⟨_, List.mem_map.2 ⟨i.toNat, List.mem_range.2 (by omega), rfl⟩, ?_⟩ fun e he h => ?_
    · rw [hs]
      simp only []
      omega
    · obtain ⟨j, hj, rfl⟩ := List.mem_map.1 he
      rw [hs] at h
      simp only [] at h ⊢
      rw [show ((j : Nat) : Int) = i by omega]
  · have k := hin b e he
    rw [h] at k
    have k2 : fieldOffset N sz c ≤ fieldOffset N sz c + i ∧ fieldOffset N sz c + i < fieldOffset N sz c + (N * sz c : Nat) := ⟨by omega, by omega⟩
    rw [← firstSum_offset] at k k2
    rw [← firstSum_offset N sz c] at k
    exact block_disjoint (fun q => N * sz q) k k2

omit [Field K] in
theorem isVector_array {soa : Bool} {N size : Nat} {u : Int → Fin size → K} {x y : Int → K} (h : IsVector soa N size 0 u x)
    (hxy : ∀ i : Int, 0 ≤ i → i < (N * size : Nat) → y i = x i) : IsVector soa N size 0 u y := by
  intro k k0 k1 j
  have := dataIndex_range (soa := soa) (shift := 0) k0 k1 j
  rw [dataIndex_eq] at this
  rw [hxy _ this.1 (by omega)]
  exact h k k0 k1 j

/-- C92. The vectors of a block operator, for every number of rows and of columns, sizes and layouts: the vector of the unknowns and the right-hand side made from the arrays of fields
are these fields put one after the other, the fields that the solution and a product are copied to are the parts of the vector, and the sets of numbers given to the field-split
preconditioner are the numbers of the unknowns of the fields (with at least two rows of blocks). -/
theorem C92_vectors (B : Blocks K rz sz) (hr : ∀ r, ∃ c, (B r c).isSome) (hc : ∀ c, ∃ r, (B r c).isSome) (N : Nat) (soa : Fin C → Bool) (soaOut : Fin R → Bool) :
    (∀ (u : (c : Fin C) → Int → Fin (sz c) → K) (a : Fin C → Int → K), (∀ c, IsVector (soa c) N (sz c) 0 (u c) (a c)) → AreVectors soa N sz u (createApplicableVector B N a)) ∧
    (∀ (f : (r : Fin R) → Int → Fin (rz r) → K) (a : Fin R → Int → K), (∀ r, IsVector (soaOut r) N (rz r) 0 (f r) (a r)) → AreVectors soaOut N rz f (createRhsVector B N a)) ∧
    (∀ (u : (c : Fin C) → Int → Fin (sz c) → K) (x : Int → K) old, (∀ c, IsVector (soa c) N (sz c) 0 (u c) (updateUnknowns B N x old c)) ↔ AreVectors soa N sz u x) ∧
    (∀ (f : (r : Fin R) → Int → Fin (rz r) → K) (b : Int → K) old, (∀ r, IsVector (soaOut r) N (rz r) 0 (f r) (updateResultFields B N b old r)) ↔ AreVectors soaOut N rz f b) ∧
    (1 < R → ∀ c, ∃ l, fieldsIS B N c = some l ∧ l.Nodup ∧ ∀ i : Int, i ∈ l ↔ fieldOffset N sz c ≤ i ∧ i < fieldOffset N sz c + (N * sz c : Nat)) := by
  refine ⟨fun u a h c => ?_, fun f a h r => ?_, fun u x old => forall_congr' fun c => ?_, fun f b old => forall_congr' fun r => ?_, fun hR c => ⟨_, if_pos hR, ?_, fun i => ?_⟩⟩
  · rw [isVector_shift]
    exact isVector_array (h c) fun i i0 i1 => createVector_at (fun c => colShift_eq B N hc c) a c i0 i1
  · rw [isVector_shift]
    exact isVector_array (h r) fun i i0 i1 => createVector_at (fun r => rowShift_eq B N hr r) a r i0 i1
  · unfold updateUnknowns
    rw [isVector_copy, colShift_eq B N hc]
  · unfold updateResultFields
    rw [isVector_copy, rowShift_eq B N hr]
  · refine List.nodup_range.map fun i j h => ?_
    omega
  · rw [colShift_eq B N hc, blockCols_eq B N c (hc c), List.mem_map]
    constructor
    · rintro ⟨j, hj, rfl⟩
      have := List.mem_range.1 hj
      constructor <;> omega
    · rintro ⟨h1, h2⟩
      exact ⟨(i - fieldOffset N sz c).toNat, List.mem_range.2 (by omega), by omega⟩

/-- C92 fails for one row of blocks: the index sets of the field-split preconditioner are not initialised. -/
theorem C92_fieldsplit_refuted {rz : Fin 1 → Nat} (B : Blocks K rz sz) (N : Nat) (c : Fin C) : fieldsIS B N c = none := rfl

/-- C92 fails for a rectangular operator: the matrix with one row and two columns of blocks, and its vector of unknowns, have no place for the second unknown. -/
theorem C92_rect_refuted {rz : Fin 1 → Nat} {sz : Fin 2 → Nat} (B : Blocks K rz sz) (hc : ∀ c, ∃ r, (B r c).isSome) (N : Nat) :
    totalCols B N = N * sz 0 ∧ (0 < N → 0 < sz 1 → totalCols B N < fieldsSize N sz ∧ ∀ i j : Nat, i < N → j < sz 1 → (totalCols B N : Int) ≤ fieldOffset N sz 1 + (i * sz 1 + j : Nat)) := by
  have h1 : totalCols B N = N * sz 0 := by
    unfold totalCols
    rw [show (List.finRange 2).filter (fun c => c.val < 1) = [(0 : Fin 2)] by decide]
    simp [blockCols_eq B N 0 (hc 0)]
  refine ⟨h1, fun hN hs => ⟨?_, fun i j hi hj => ?_⟩⟩
  · rw [h1]
    unfold fieldsSize
    rw [Fin.sum_univ_two]
    have := Nat.mul_pos hN hs
    omega
  · rw [h1, ← firstSum_offset]
    simp [firstSum, List.finRange_succ]
    positivity

end

end Samurai

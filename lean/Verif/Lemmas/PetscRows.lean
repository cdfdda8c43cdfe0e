import Verif.Lemmas.PetscMarks

/-! The rows of the linear system. -/

namespace Samurai

section
variable {K : Type} [Field K]

/-! ### insertions -/

theorem matFold_other {T : List (MatEntry K)} {A : Int → Int → K} {r c : Int} (h : ∀ e ∈ T, e.1 = r → e.2.1 ≠ c) : T.foldl matInsert A r c = A r c := by
  induction T generalizing A with
  | nil => rfl
  | cons e T ih =>
    rw [List.foldl_cons, ih fun e' he' => h e' (List.mem_cons_of_mem _ he')]
    unfold matInsert
    rw [if_neg]
    rintro ⟨h1, h2⟩
    exact h e List.mem_cons_self h1.symm h2.symm

theorem matFold_row {T : List (MatEntry K)} {A : Int → Int → K} {r : Int} (h : ∀ e ∈ T, e.1 ≠ r) : T.foldl matInsert A r = A r := by
  funext c
  exact matFold_other fun e he h1 => absurd h1 (h e he)

theorem matFold_val {T : List (MatEntry K)} {A : Int → Int → K} {r c : Int} {v : K} (h1 : ∃ e ∈ T, e.1 = r ∧ e.2.1 = c)
    (h2 : ∀ e ∈ T, e.1 = r → e.2.1 = c → e.2.2 = v) : T.foldl matInsert A r c = v := by
  induction T generalizing A with
  | nil => obtain ⟨e, he, -⟩ := h1; simp at he
  | cons e T ih =>
    rw [List.foldl_cons]
    by_cases h : ∃ e ∈ T, e.1 = r ∧ e.2.1 = c
    · exact ih h fun e' he' => h2 e' (List.mem_cons_of_mem _ he')
    · rw [matFold_other fun e' he' k1 k2 => h ⟨e', he', k1, k2⟩]
      obtain ⟨e', he', k1, k2⟩ := h1
      rcases List.mem_cons.1 he' with rfl | he'
      · unfold matInsert
        rw [if_pos ⟨k1.symm, k2.symm⟩]
        exact h2 _ List.mem_cons_self k1 k2
      · exact absurd ⟨e', he', k1, k2⟩ h

theorem vecFold_other {T : List (Int × K)} {b : Int → K} {r : Int} (h : ∀ e ∈ T, e.1 ≠ r) : T.foldl vecInsert b r = b r := by
  induction T generalizing b with
  | nil => rfl
  | cons e T ih =>
    rw [List.foldl_cons, ih fun e' he' => h e' (List.mem_cons_of_mem _ he')]
    unfold vecInsert
    rw [if_neg fun h1 => h e List.mem_cons_self h1.symm]

theorem vecFold_val {T : List (Int × K)} {b : Int → K} {r : Int} {v : K} (h1 : ∃ e ∈ T, e.1 = r) (h2 : ∀ e ∈ T, e.1 = r → e.2 = v) : T.foldl vecInsert b r = v := by
  induction T generalizing b with
  | nil => obtain ⟨e, he, -⟩ := h1; simp at he
  | cons e T ih =>
    rw [List.foldl_cons]
    by_cases h : ∃ e ∈ T, e.1 = r
    · exact ih h fun e' he' => h2 e' (List.mem_cons_of_mem _ he')
    · rw [vecFold_other fun e' he' k1 => h ⟨e', he', k1⟩]
      obtain ⟨e', he', k1⟩ := h1
      rcases List.mem_cons.1 he' with rfl | he'
      · unfold vecInsert
        rw [if_pos k1.symm]
        exact h2 _ List.mem_cons_self k1
      · exact absurd ⟨e', he', k1⟩ h

theorem matVec_two {A : Int → Int → K} {shift : Int} {cols : Nat} {x : Int → K} {r a g : Int} {α γ : K} (hA : ∀ c, A r c = if c = a then α else if c = g then γ else 0)
    (hag : a ≠ g) (ha : shift ≤ a ∧ a < shift + cols) (hg : shift ≤ g ∧ g < shift + cols) : matVec A shift cols x r = α * x a + γ * x g := by
  unfold matVec
  have : ∀ c : Nat, A r (shift + (c : Int)) * x (shift + (c : Int)) =
      (if shift + (c : Int) = a then α * x (shift + (c : Int)) else 0) + if shift + (c : Int) = g then γ * x (shift + (c : Int)) else 0 := by
    intro c
    rw [hA]
    by_cases h1 : shift + (c : Int) = a
    · rw [if_pos h1, if_pos h1, if_neg (by rw [h1]; exact hag), add_zero]
    · rw [if_neg h1, if_neg h1, zero_add]
      split_ifs <;> simp
  simp only [this]
  rw [List.sum_map_add, sum_range_pick shift cols a ha (fun c => α * x c), sum_range_pick shift cols g hg (fun c => γ * x c)]

theorem matVec_one {A : Int → Int → K} {shift : Int} {cols : Nat} {x : Int → K} {r : Int} {γ : K} (hA : ∀ c, A r c = if c = r then γ else 0)
    (hg : shift ≤ r ∧ r < shift + cols) : matVec A shift cols x r = γ * x r := by
  unfold matVec
  have : ∀ c : Nat, A r (shift + (c : Int)) * x (shift + (c : Int)) = if shift + (c : Int) = r then γ * x (shift + (c : Int)) else 0 := by
    intro c
    rw [hA]
    split_ifs <;> simp
  simp only [this]
  exact sum_range_pick shift cols r hg (fun c => γ * x c)

theorem dataIndex_surj {soa : Bool} {N size : Nat} {shift r : Int} (h0 : shift ≤ r) (h1 : r < shift + (N * size : Nat)) :
    ∃ (k : Int) (j : Fin size), (0 ≤ k ∧ k < N) ∧ r = dataIndex soa N size shift k j := by
  obtain ⟨t, rfl⟩ : ∃ t : Nat, r = shift + t := ⟨(r - shift).toNat, by omega⟩
  have ht : t < N * size := by omega
  have hs : 0 < size := Nat.pos_of_ne_zero fun h => by subst h; simp at ht
  have hN : 0 < N := Nat.pos_of_ne_zero fun h => by subst h; simp at ht
  cases soa
  · refine ⟨(t / size : Nat), ⟨t % size, Nat.mod_lt _ hs⟩, ⟨Int.natCast_nonneg _, ?_⟩, ?_⟩
    · exact_mod_cast (Nat.div_lt_iff_lt_mul hs).2 ht
    · rw [dataIndex_eq]
      simp only [Bool.false_eq_true, if_false]
      have := Nat.div_add_mod' t size
      have h : ((t / size : Nat) : Int) * (size : Int) + ((t % size : Nat) : Int) = (t : Int) := by exact_mod_cast this
      rw [add_assoc, h]
  · refine ⟨(t % N : Nat), ⟨t / N, (Nat.div_lt_iff_lt_mul hN).2 (by rwa [Nat.mul_comm])⟩, ⟨by omega, by exact_mod_cast Nat.mod_lt _ hN⟩, ?_⟩
    rw [dataIndex_eq]
    simp only [if_true]
    have := Nat.div_add_mod' t N
    have h : ((t / N : Nat) : Int) * (N : Int) + ((t % N : Nat) : Int) = (t : Int) := by exact_mod_cast this
    rw [add_assoc, h]

/-! ### the rows of the boundary conditions -/

/-- The numbers of the cell and of the ghost of a call. -/
def BcCall.cellNum {n m : Nat} (c : BcCall K n m) : Int := (cellAt c.cells 0).index

def BcCall.ghostNum {n m : Nat} (c : BcCall K n m) : Int := (cellAt c.cells 2).index

theorem bcEquation_coeffs (h2 : (2 : K) ≠ 0) {h0 : K} {level : Nat} {kind : BcKind} {eq : (Nat → K) × K} (h : bcEquation h0 level kind = some eq) :
    eq.1 0 ≠ 0 ∧ eq.1 1 = 0 ∧ eq.1 2 ≠ 0 := by
  unfold bcEquation at h
  split at h
  · cases h
    refine ⟨?_, rfl, ?_⟩ <;> simpa using h2
  · cases h
    refine ⟨?_, rfl, ?_⟩ <;> simp
  · cases h

variable [DecidableEq K] {n m : Nat}

theorem mem_bcEntriesOf (h2 : (2 : K) ≠ 0) {h0 : K} {L : MatLayout} {call : BcCall K n m} {e : MatEntry K} :
    e ∈ bcEntriesOf h0 L call ↔ ∃ eq, bcEquation h0 call.level call.bc.kind = some eq ∧ ∃ i : Fin m,
      e = (L.col call.ghostNum i, L.col call.cellNum i, eq.1 0) ∨ e = (L.col call.ghostNum i, L.col call.ghostNum i, eq.1 2) := by
  unfold bcEntriesOf
  cases h : bcEquation h0 call.level call.bc.kind with
  | none => simp
  | some eq =>
    obtain ⟨c0, c1, c2⟩ := bcEquation_coeffs h2 h
    simp only [Option.some.injEq, exists_eq_left', show List.range 3 = [0, 1, 2] from rfl, List.flatMap_cons, List.flatMap_nil, List.append_nil, c1, ne_eq, not_true_eq_false, if_false,
      c0, c2, not_false_eq_true, if_true, List.mem_append, List.mem_flatMap, List.mem_range, List.mem_singleton, List.not_mem_nil, and_false, exists_false, false_or]
    constructor
    · rintro (⟨i, hi, rfl⟩ | ⟨i, hi, rfl⟩)
      · exact ⟨⟨i, hi⟩, Or.inl rfl⟩
      · exact ⟨⟨i, hi⟩, Or.inr rfl⟩
    · rintro ⟨i, rfl | rfl⟩
      · exact Or.inl ⟨i, i.2, rfl⟩
      · exact Or.inr ⟨i, i.2, rfl⟩

/-- What is used of the calls. -/
structure CallsOK (h0 : K) (N : Nat) (B : List (BcCall K n m)) : Prop where
  eq : ∀ c ∈ B, ∃ eq, bcEquation h0 c.level c.bc.kind = some eq
  cell : ∀ c ∈ B, 0 ≤ c.cellNum ∧ c.cellNum < N
  ghost : ∀ c ∈ B, 0 ≤ c.ghostNum ∧ c.ghostNum < N
  ne : ∀ c ∈ B, ∀ c' ∈ B, c.cellNum ≠ c'.ghostNum
  same : ∀ c ∈ B, ∀ c' ∈ B, c.ghostNum = c'.ghostNum → c.cellNum = c'.cellNum

variable {soa : Bool} {N : Nat} {shift : Int}

theorem bcRow (h2 : (2 : K) ≠ 0) {h0 : K} {B1 B2 : List (BcCall K n m)} {call : BcCall K n m} (hB : CallsOK h0 N (B1 ++ call :: B2))
    (hl : ∀ c ∈ B2, c.ghostNum ≠ call.ghostNum) {eq : (Nat → K) × K} (heq : bcEquation h0 call.level call.bc.kind = some eq) (i : Fin m) {A : Int → Int → K}
    (hA : ∀ c, A (dataIndex soa N m shift call.ghostNum i) c = 0) (c : Int) :
    ((B1 ++ call :: B2).flatMap (bcEntriesOf h0 ⟨soa, N, m, m, shift, shift⟩)).foldl matInsert A (dataIndex soa N m shift call.ghostNum i) c =
      if c = dataIndex soa N m shift call.cellNum i then eq.1 0 else if c = dataIndex soa N m shift call.ghostNum i then eq.1 2 else 0 := by
  have hin : ∀ {x}, x ∈ B1 ∨ x = call ∨ x ∈ B2 → x ∈ B1 ++ call :: B2 := by
    intro x h
    rw [List.mem_append, List.mem_cons]
    exact h
  have hc := hin (x := call) (Or.inr (Or.inl rfl))
  have rowG : ∀ x ∈ B1 ++ call :: B2, ∀ j : Fin m, dataIndex soa N m shift x.ghostNum j = dataIndex soa N m shift call.ghostNum i ↔ x.ghostNum = call.ghostNum ∧ j = i := fun x hx j =>
    dataIndex_inj (hB.ghost x hx).1 (hB.ghost x hx).2 (hB.ghost _ hc).1 (hB.ghost _ hc).2
  have hag : dataIndex soa N m shift call.cellNum i ≠ dataIndex soa N m shift call.ghostNum i := by
    intro h
    exact hB.ne _ hc _ hc ((dataIndex_inj (hB.cell _ hc).1 (hB.cell _ hc).2 (hB.ghost _ hc).1 (hB.ghost _ hc).2).1 h).1
  rw [List.flatMap_append, List.flatMap_cons, List.foldl_append, List.foldl_append, matFold_row]
  · -- the call itself
    by_cases h1 : c = dataIndex soa N m shift call.cellNum i
    · rw [if_pos h1]
      refine matFold_val ⟨_, (mem_bcEntriesOf h2).2 ⟨eq, heq, i, Or.inl rfl⟩, rfl, h1.symm⟩ fun e he k1 k2 => ?_
      obtain ⟨eq', heq', j, h⟩ := (mem_bcEntriesOf h2).1 he
      rw [heq] at heq'
      cases heq'
      rcases h with rfl | rfl
      · rfl
      · have hj := ((rowG call hc j).1 k1).2
        subst hj
        exact absurd (k2.trans h1) (Ne.symm hag)
    · rw [if_neg h1]
      by_cases h3 : c = dataIndex soa N m shift call.ghostNum i
      · rw [if_pos h3]
        refine matFold_val ⟨_, (mem_bcEntriesOf h2).2 ⟨eq, heq, i, Or.inr rfl⟩, rfl, h3.symm⟩ fun e he k1 k2 => ?_
        obtain ⟨eq', heq', j, h⟩ := (mem_bcEntriesOf h2).1 he
        rw [heq] at heq'
        cases heq'
        rcases h with rfl | rfl
        · have hj := ((rowG call hc j).1 k1).2
          subst hj
          exact absurd k2.symm h1
        · rfl
      · rw [if_neg h3]
        have key : ∀ x ∈ B1 ++ call :: B2, ∀ e ∈ bcEntriesOf h0 ⟨soa, N, m, m, shift, shift⟩ x, e.1 = dataIndex soa N m shift call.ghostNum i → e.2.1 ≠ c := by
          intro x hx e he k1 k2
          obtain ⟨eq', -, j, h⟩ := (mem_bcEntriesOf h2).1 he
          have hr : dataIndex soa N m shift x.ghostNum j = dataIndex soa N m shift call.ghostNum i := by
            rcases h with rfl | rfl <;> exact k1
          obtain ⟨g1, rfl⟩ := (rowG x hx j).1 hr
          rcases h with rfl | rfl
          · have : dataIndex soa N m shift x.cellNum j = c := k2
            rw [hB.same x hx call hc g1] at this
            exact h1 this.symm
          · have : dataIndex soa N m shift x.ghostNum j = c := k2
            rw [g1] at this
            exact h3 this.symm
        rw [matFold_other fun e he => key call hc e he, matFold_other]
        · exact hA c
        · intro e he
          obtain ⟨x, hx, he⟩ := List.mem_flatMap.1 he
          exact key x (hin (Or.inl hx)) e he
  · intro e he k1
    obtain ⟨x, hx, he⟩ := List.mem_flatMap.1 he
    obtain ⟨eq', -, j, h⟩ := (mem_bcEntriesOf h2).1 he
    have hr : dataIndex soa N m shift x.ghostNum j = dataIndex soa N m shift call.ghostNum i := by
      rcases h with rfl | rfl <;> exact k1
    exact hl x hx ((rowG x (hin (Or.inr (Or.inr hx))) j).1 hr).1

omit [DecidableEq K] in
theorem mem_bcRhsOf {origin : Fin (n + 1) → K} {h0 : K} {L : MatLayout} {call : BcCall K n m} {e : Int × K} :
    e ∈ bcRhsOf origin h0 L call ↔ ∃ eq, bcEquation h0 call.level call.bc.kind = some eq ∧ ∃ i : Fin m,
      e = (L.row call.ghostNum i, eq.2 * call.bc.implicitValue origin h0 call.dir (cellAt call.cells 0) i) := by
  unfold bcRhsOf
  cases h : bcEquation h0 call.level call.bc.kind with
  | none => simp
  | some eq =>
    simp only [Option.some.injEq, exists_eq_left', List.mem_map, List.mem_finRange, true_and]
    exact exists_congr fun i => eq_comm

omit [DecidableEq K] in
theorem bcRhsRow {origin : Fin (n + 1) → K} {h0 : K} {B1 B2 : List (BcCall K n m)} {call : BcCall K n m} (hB : CallsOK h0 N (B1 ++ call :: B2))
    (hl : ∀ c ∈ B2, c.ghostNum ≠ call.ghostNum) {eq : (Nat → K) × K} (heq : bcEquation h0 call.level call.bc.kind = some eq) (i : Fin m) (b : Int → K) :
    ((B1 ++ call :: B2).flatMap (bcRhsOf origin h0 ⟨soa, N, m, m, shift, shift⟩)).foldl vecInsert b (dataIndex soa N m shift call.ghostNum i) =
      eq.2 * call.bc.implicitValue origin h0 call.dir (cellAt call.cells 0) i := by
  have hin : ∀ {x}, x ∈ B1 ∨ x = call ∨ x ∈ B2 → x ∈ B1 ++ call :: B2 := by
    intro x h
    rw [List.mem_append, List.mem_cons]
    exact h
  have hc := hin (x := call) (Or.inr (Or.inl rfl))
  have rowG : ∀ x ∈ B1 ++ call :: B2, ∀ j : Fin m, dataIndex soa N m shift x.ghostNum j = dataIndex soa N m shift call.ghostNum i ↔ x.ghostNum = call.ghostNum ∧ j = i := fun x hx j =>
    dataIndex_inj (hB.ghost x hx).1 (hB.ghost x hx).2 (hB.ghost _ hc).1 (hB.ghost _ hc).2
  rw [List.flatMap_append, List.flatMap_cons, List.foldl_append, List.foldl_append, vecFold_other]
  · refine vecFold_val ⟨_, mem_bcRhsOf.2 ⟨eq, heq, i, rfl⟩, rfl⟩ fun e he k1 => ?_
    obtain ⟨eq', heq', j, rfl⟩ := mem_bcRhsOf.1 he
    rw [heq] at heq'
    cases heq'
    obtain ⟨-, rfl⟩ := (rowG call hc j).1 k1
    rfl
  · intro e he k1
    obtain ⟨x, hx, he⟩ := List.mem_flatMap.1 he
    obtain ⟨eq', -, j, rfl⟩ := mem_bcRhsOf.1 he
    exact hl x hx ((rowG x (hin (Or.inr (Or.inr hx))) j).1 k1).1

/-! ### all the rows -/

theorem mem_uselessRows {L : MatLayout} {marked : List Int} {i : Nat} : i ∈ uselessRows L marked ↔ i < L.nCells * L.outSize ∧ L.rowShift + (i : Int) ∉ marked := by
  unfold uselessRows
  rw [List.mem_filter, List.mem_range]
  simp

theorem schemeMatrix_row {E : List (MatEntry K)} {r : Int} (h : ∀ e ∈ E, e.1 ≠ r) (c : Int) : schemeMatrix E r c = 0 := by
  unfold schemeMatrix
  rw [foldl_matAdd, zero_add]
  refine List.sum_eq_zero fun x hx => ?_
  obtain ⟨e, he, rfl⟩ := List.mem_map.1 hx
  rw [if_neg fun h1 => h e he h1.1.symm]

/-- The rows of the system: those of the leaves, those of the ghosts of the boundary conditions, the others. -/
theorem system_rows (h2 : (2 : K) ≠ 0) {origin : Fin (n + 1) → K} {h0 diag : K} {ref cag cells : CA} {bcs : List (FieldBc K n m)}
    {E : List (MatEntry K)} {R : List Int} {B : List (BcCall K n m)} {G : List Int} {Leaf : Int → Prop}
    (hBc : bcCalls n h0 ref cells bcs = some B)
    (hG : eliminatedGhosts n ref cag cells = some G)
    (hleaf : ∀ k, Leaf k → 0 ≤ k ∧ k < N) (hEr : ∀ e ∈ E, ∃ (k : Int) (i : Fin m), e.1 = dataIndex soa N m shift k i ∧ Leaf k)
    (hRr : ∀ r, r ∈ R ↔ ∃ k, Leaf k ∧ ∃ i < m, r = dataIndex soa N m shift k i) (hB : CallsOK h0 N B) (hBl : ∀ c ∈ B, ¬ Leaf c.ghostNum)
    (hGr : ∀ k ∈ G, (0 ≤ k ∧ k < N) ∧ ¬ Leaf k ∧ ∀ c ∈ B, c.ghostNum ≠ k) :
    ∃ A marked, finishMatrix n h0 diag ⟨soa, N, m, m, shift, shift⟩ ref cells bcs E R = some (A, marked) ∧
      ∀ b, ∃ b', prepareRhs n origin h0 ⟨soa, N, m, m, shift, shift⟩ ref cag cells bcs marked b = some b' ∧
        (∀ k, Leaf k → ∀ i : Fin m, A (dataIndex soa N m shift k i) = schemeMatrix E (dataIndex soa N m shift k i) ∧
          b' (dataIndex soa N m shift k i) = b (dataIndex soa N m shift k i)) ∧
        (∀ B1 call B2, B = B1 ++ call :: B2 → (∀ c ∈ B2, c.ghostNum ≠ call.ghostNum) → ∀ eq, bcEquation h0 call.level call.bc.kind = some eq → ∀ i : Fin m,
          (∀ c, A (dataIndex soa N m shift call.ghostNum i) c =
            if c = dataIndex soa N m shift call.cellNum i then eq.1 0 else if c = dataIndex soa N m shift call.ghostNum i then eq.1 2 else 0) ∧
          b' (dataIndex soa N m shift call.ghostNum i) = eq.2 * call.bc.implicitValue origin h0 call.dir (cellAt call.cells 0) i) ∧
        ∀ k : Int, (0 ≤ k ∧ k < N) → ¬ Leaf k → (∀ c ∈ B, c.ghostNum ≠ k) → ∀ i : Fin m,
          (∀ c, A (dataIndex soa N m shift k i) c = if c = dataIndex soa N m shift k i then diag else 0) ∧ b' (dataIndex soa N m shift k i) = 0 := by
  have inj : ∀ {k k' : Int} {i i' : Fin m}, (0 ≤ k ∧ k < N) → (0 ≤ k' ∧ k' < N) → dataIndex soa N m shift k i = dataIndex soa N m shift k' i' → k = k' ∧ i = i' :=
    fun h h' e => (dataIndex_inj h.1 h.2 h'.1 h'.2).1 e
  have hT : ∀ e ∈ B.flatMap (bcEntriesOf h0 ⟨soa, N, m, m, shift, shift⟩), ∃ c ∈ B, ∃ j : Fin m, e.1 = dataIndex soa N m shift c.ghostNum j := by
    intro e he
    obtain ⟨c, hc, he⟩ := List.mem_flatMap.1 he
    obtain ⟨_, _, j, h⟩ := (mem_bcEntriesOf h2).1 he
    exact ⟨c, hc, j, by rcases h with rfl | rfl <;> rfl⟩
  have hTr : ∀ c ∈ B, ∀ j : Fin m, ∃ e ∈ B.flatMap (bcEntriesOf h0 ⟨soa, N, m, m, shift, shift⟩), e.1 = dataIndex soa N m shift c.ghostNum j := by
    intro c hc j
    obtain ⟨eq, heq⟩ := hB.eq c hc
    exact ⟨_, List.mem_flatMap.2 ⟨c, hc, (mem_bcEntriesOf h2).2 ⟨eq, heq, j, Or.inl rfl⟩⟩, rfl⟩
  have hV : ∀ e ∈ B.flatMap (bcRhsOf origin h0 ⟨soa, N, m, m, shift, shift⟩), ∃ c ∈ B, ∃ j : Fin m, e.1 = dataIndex soa N m shift c.ghostNum j := by
    intro e he
    obtain ⟨c, hc, he⟩ := List.mem_flatMap.1 he
    obtain ⟨_, _, j, rfl⟩ := mem_bcRhsOf.1 he
    exact ⟨c, hc, j, rfl⟩
  have hmarked : ∀ k : Int, (0 ≤ k ∧ k < N) → ∀ i : Fin m, dataIndex soa N m shift k i ∈ R ++ (B.flatMap (bcEntriesOf h0 ⟨soa, N, m, m, shift, shift⟩)).map Prod.fst ↔
      Leaf k ∨ ∃ c ∈ B, c.ghostNum = k := by
    intro k hk i
    rw [List.mem_append, hRr, List.mem_map]
    constructor
    · rintro (⟨k', h1, j, hj, h3⟩ | ⟨e, he, h3⟩)
      · exact Or.inl (by rw [(inj (i' := ⟨j, hj⟩) hk (hleaf _ h1) h3).1]; exact h1)
      · obtain ⟨c, hc, j, h4⟩ := hT e he
        exact Or.inr ⟨c, hc, ((inj hk (hB.ghost c hc) (h3.symm.trans h4)).1).symm⟩
    · rintro (h1 | ⟨c, hc, rfl⟩)
      · exact Or.inl ⟨k, h1, i, i.2, rfl⟩
      · exact Or.inr (hTr c hc i)
  have huse : ∀ k : Int, (0 ≤ k ∧ k < N) → ∀ i : Fin m,
      (∃ t ∈ uselessRows ⟨soa, N, m, m, shift, shift⟩ (R ++ (B.flatMap (bcEntriesOf h0 ⟨soa, N, m, m, shift, shift⟩)).map Prod.fst), shift + (t : Int) = dataIndex soa N m shift k i) ↔
      ¬ Leaf k ∧ ∀ c ∈ B, c.ghostNum ≠ k := by
    intro k hk i
    have := not_congr (hmarked k hk i)
    rw [not_or] at this
    push Not at this
    rw [← this]
    constructor
    · rintro ⟨t, ht, h3⟩
      rw [← h3]
      exact (mem_uselessRows.1 ht).2
    · intro h
      have hr := dataIndex_range (soa := soa) (shift := shift) hk.1 hk.2 i
      exact ⟨(dataIndex soa N m shift k i - shift).toNat, mem_uselessRows.2 ⟨by show _ < N * m; omega, by
        show shift + (((dataIndex soa N m shift k i - shift).toNat : Nat) : Int) ∉ _
        rw [show shift + (((dataIndex soa N m shift k i - shift).toNat : Nat) : Int) = dataIndex soa N m shift k i by omega]
        exact h⟩, by omega⟩
  refine ⟨_, _, by unfold finishMatrix; rw [hBc]; rfl, fun b => ⟨_, by unfold prepareRhs; rw [hBc, hG], ?_, ?_, ?_⟩⟩
  · intro k hk i
    have hk' := hleaf k hk
    have hno : ∀ t ∈ uselessRows ⟨soa, N, m, m, shift, shift⟩ (R ++ (B.flatMap (bcEntriesOf h0 ⟨soa, N, m, m, shift, shift⟩)).map Prod.fst), shift + (t : Int) ≠ dataIndex soa N m shift k i :=
      fun t ht he => ((huse k hk' i).1 ⟨t, ht, he⟩).1 hk
    constructor
    · rw [matFold_row, matFold_row]
      · intro e he h
        obtain ⟨c, hc, j, h4⟩ := hT e he
        exact hBl c hc (by rw [(inj (hB.ghost c hc) hk' (h4.symm.trans h)).1]; exact hk)
      · intro e he h
        obtain ⟨t, ht, rfl⟩ := List.mem_map.1 he
        exact hno t ht h
    · rw [vecFold_other]
      intro e he h
      rw [List.mem_append, List.mem_append] at he
      rcases he with (he | he) | he
      · obtain ⟨c, hc, j, h4⟩ := hV e he
        exact hBl c hc (by rw [(inj (hB.ghost c hc) hk' (h4.symm.trans h)).1]; exact hk)
      · obtain ⟨k', hk1, he⟩ := List.mem_flatMap.1 he
        obtain ⟨j, hj, rfl⟩ := List.mem_map.1 he
        obtain ⟨g1, g2, -⟩ := hGr k' hk1
        have := (inj (i := ⟨j, List.mem_range.1 hj⟩) g1 hk' h).1
        subst this
        exact g2 hk
      · obtain ⟨t, ht, rfl⟩ := List.mem_map.1 he
        exact hno t ht h
  · rintro B1 call B2 rfl hlast eq heq i
    have hc : call ∈ B1 ++ call :: B2 := by simp
    have hk' := hB.ghost call hc
    have hno : ∀ t ∈ uselessRows ⟨soa, N, m, m, shift, shift⟩ (R ++ ((B1 ++ call :: B2).flatMap (bcEntriesOf h0 ⟨soa, N, m, m, shift, shift⟩)).map Prod.fst),
        shift + (t : Int) ≠ dataIndex soa N m shift call.ghostNum i :=
      fun t ht he => ((huse _ hk' i).1 ⟨t, ht, he⟩).2 call hc rfl
    constructor
    · intro c
      rw [matFold_row]
      · refine bcRow h2 hB hlast heq i (fun c => schemeMatrix_row (fun e he h => ?_) c) c
        obtain ⟨k, j, h3, h4⟩ := hEr e he
        have := (inj (hleaf k h4) hk' (h3.symm.trans h)).1
        subst this
        exact hBl call hc h4
      · intro e he h
        obtain ⟨t, ht, rfl⟩ := List.mem_map.1 he
        exact hno t ht h
    · rw [List.foldl_append, List.foldl_append, vecFold_other, vecFold_other]
      · exact bcRhsRow hB hlast heq i b
      · intro e he h
        obtain ⟨k', hk1, he⟩ := List.mem_flatMap.1 he
        obtain ⟨j, hj, rfl⟩ := List.mem_map.1 he
        obtain ⟨g1, -, g3⟩ := hGr k' hk1
        exact g3 call hc (inj (i := ⟨j, List.mem_range.1 hj⟩) g1 hk' h).1.symm
      · intro e he h
        obtain ⟨t, ht, rfl⟩ := List.mem_map.1 he
        exact hno t ht h
  · intro k hk hkl hkB i
    obtain ⟨t, ht, he⟩ := (huse k hk i).2 ⟨hkl, hkB⟩
    have hbase : ∀ c, ((B.flatMap (bcEntriesOf h0 ⟨soa, N, m, m, shift, shift⟩)).foldl matInsert (schemeMatrix E)) (dataIndex soa N m shift k i) c = 0 := by
      intro c
      rw [matFold_row]
      · refine schemeMatrix_row (fun e he h => ?_) c
        obtain ⟨k', j, h3, h4⟩ := hEr e he
        have := (inj (hleaf k' h4) hk (h3.symm.trans h)).1
        subst this
        exact hkl h4
      · intro e he h
        obtain ⟨c, hc, j, h4⟩ := hT e he
        exact hkB c hc (inj (hB.ghost c hc) hk (h4.symm.trans h)).1
    constructor
    · intro c
      by_cases hcr : c = dataIndex soa N m shift k i
      · rw [if_pos hcr]
        refine matFold_val ⟨_, List.mem_map.2 ⟨t, ht, rfl⟩, he, by show shift + (t : Int) = c; rw [he, hcr]⟩ fun e he' _ _ => ?_
        obtain ⟨t', -, rfl⟩ := List.mem_map.1 he'
        rfl
      · rw [if_neg hcr, matFold_other, hbase]
        intro e he' h h'
        obtain ⟨t', -, rfl⟩ := List.mem_map.1 he'
        exact hcr (h'.symm.trans h)
    · rw [List.foldl_append]
      refine vecFold_val ⟨_, List.mem_map.2 ⟨t, ht, rfl⟩, he⟩ fun e he' _ => ?_
      obtain ⟨t', -, rfl⟩ := List.mem_map.1 he'
      rfl

end

end Samurai

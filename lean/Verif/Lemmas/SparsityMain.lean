import Verif.Lemmas.SparsityCell
import Verif.Lemmas.SumMatrix

/-! The places and the counts of a sum of operators. -/

namespace Samurai

section
variable {K : Type} [Field K] [DecidableEq K] {n : Nat} {L : MatLayout} {m p : Nat} {cells cag ref : CA} {dom sub : LCA} {minL maxL w order : Nat} {rec : GhostMap K}

/-- The place is one of the operator. -/
def OpPlace (n : Nat) (L : MatLayout) (rec : GhostMap K) (cells ref : CA) (sub : LCA) (maxL : Nat) (e : Int × Int) : LinOp K m p → Prop
  | .flux ld _ => FluxPlace n L rec cells ref sub maxL ld.stencil e
  | .cell cd => CellPlace n L cells ref cd.stencil e

/-- The places where an operator writes are its places, and all the coefficients that are not 0 are written. -/
theorem PatOp.places_spec (g : FVMesh n cells ref dom minL maxL w) (hN : FVNumbers n cells ref) (hm : L.inSize = m) (hp : L.outSize = p) (h0 : K)
    (o : PatOp K m p) (ho : o.op.OK n w) (hin : o.InStencil) {E : List (MatEntry K)} (hE : o.op.assemble n h0 L rec ref sub cells maxL = some E) :
    ∃ T, o.places n h0 L rec ref sub cells maxL = some T ∧ (∀ e ∈ T, OpPlace n L rec cells ref sub maxL e o.op) ∧ ∀ e ∈ E, e.2.2 ≠ 0 → (e.1, e.2.1) ∈ T := by
  obtain ⟨op, start, size⟩ := o
  cases op with
  | flux ld bdry =>
    have hE' : assembleScheme n h0 L rec ref sub cells maxL bdry ld.stencil (ld.flux h0) = some E := hE
    refine ⟨E.map fun e => (e.1, e.2.1), ?_, fun e he => ?_, fun e he _ => List.mem_map.2 ⟨e, he, rfl⟩⟩
    · unfold PatOp.places
      simp only [hE', Option.map_some]
    · obtain ⟨e', he', rfl⟩ := List.mem_map.1 he
      exact assembleScheme_places g hm hp ho hE' e' he'
  | cell cd =>
    obtain ⟨l, l1, l2⟩ := cellCalls_places (L := L) g hN hm hp h0 ho hin
    refine ⟨l.flatMap (cellPlaces L start size cd.center), ?_, l2, fun e he hv => ?_⟩
    · unfold PatOp.places
      simp only [l1, Option.map_some]
    · have hE' : assembleCell n h0 L ref cells cd = some E := hE
      unfold assembleCell at hE'
      rw [l1] at hE'
      cases hE'
      obtain ⟨c, hc, he⟩ := List.mem_flatMap.1 he
      exact List.mem_flatMap.2 ⟨c, hc, cellEntries_place he hv⟩

theorem places_sum (g : FVMesh n cells ref dom minL maxL w) (hN : FVNumbers n cells ref) (hm : L.inSize = m) (hp : L.outSize = p) (h0 : K) :
    ∀ (ops : List (PatOp K m p)) (E : List (MatEntry K)), (∀ o ∈ ops, o.op.OK n w ∧ o.InStencil) →
      overList (LinOp.assemble n h0 L rec ref sub cells maxL) (ops.map PatOp.op) = some E →
      ∃ T, overList (PatOp.places n h0 L rec ref sub cells maxL) ops = some T ∧ (∀ e ∈ T, ∃ o ∈ ops, OpPlace n L rec cells ref sub maxL e o.op) ∧
        ∀ e ∈ E, e.2.2 ≠ 0 → (e.1, e.2.1) ∈ T := by
  intro ops
  induction ops with
  | nil => intro E _ hE; cases hE; exact ⟨[], rfl, by simp, by simp⟩
  | cons o ops ih =>
    intro E h hE
    rw [List.map_cons, overList] at hE
    cases h1 : o.op.assemble n h0 L rec ref sub cells maxL with
    | none => rw [h1] at hE; simp at hE
    | some A =>
      cases h2 : overList (LinOp.assemble n h0 L rec ref sub cells maxL) (ops.map PatOp.op) with
      | none => rw [h1, h2] at hE; simp at hE
      | some B =>
        rw [h1, h2] at hE
        cases hE
        obtain ⟨T, t1, t2, t3⟩ := o.places_spec g hN hm hp h0 (h o List.mem_cons_self).1 (h o List.mem_cons_self).2 h1
        obtain ⟨T', t1', t2', t3'⟩ := ih B (fun o' ho' => h o' (List.mem_cons_of_mem _ ho')) h2
        refine ⟨T ++ T', by rw [overList, t1, t1'], fun e he => ?_, fun e he hv => ?_⟩
        · rcases List.mem_append.1 he with he | he
          · exact ⟨o, List.mem_cons_self, t2 e he⟩
          · obtain ⟨o', h1, h2⟩ := t2' e he
            exact ⟨o', List.mem_cons_of_mem _ h1, h2⟩
        · rcases List.mem_append.1 he with he | he
          · exact List.mem_append_left _ (t3 e he hv)
          · exact List.mem_append_right _ (t3' e he hv)

/-- The operator announces all its places. -/
theorem PatOp.pattern_spec (g : FVMesh n cells ref dom minL maxL w) (hN : FVNumbers n cells ref) (hsub : constructSubdomain n cells maxL = some sub) (hm : L.inSize = m)
    (hp : L.outSize = p) (h1 : 1 ≤ m) (o : PatOp K m p) (ho : o.op.OK n w) (hb : o.op.WithBoundary) (hf : o.Full L.soa) :
    ∃ P Q, o.pattern n L rec ref sub cells maxL = some P ∧ Counts P Q ∧ ∀ e, OpPlace n L rec cells ref sub maxL e o.op → e ∈ Q := by
  obtain ⟨op, start, size⟩ := o
  cases op with
  | flux ld bdry =>
    obtain rfl : bdry = true := hb
    exact fluxPattern_spec g hsub (by omega) ho
  | cell cd => exact cellPattern_spec g hN hm hp ho hf

/-- The places of an operator within another. -/
theorem OpPlace.within (g : ElimMesh n order cells cag ref dom minL maxL w) (hN : FVNumbers n cells ref) (ho : order ≤ 5) {fuel : Nat}
    (hr : ghostRecursion n order ref cag cells fuel = some rec) (hkeys : ∀ k, LeafNum n cells k → rec.find k = none) (hsub : constructSubdomain n cells maxL = some sub)
    {a b : LinOp K m p} (ha : a.OK n w) (hb : b.OK n w) (hab : a.Within n b) {e : Int × Int} (h : OpPlace n L rec cells ref sub maxL e a) : OpPlace n L rec cells ref sub maxL e b := by
  cases a with
  | flux la ba =>
    cases b with
    | flux lb bb => exact FluxPlace.mono g.fv hsub hb ha hab.2 h
    | cell cb => exact hab.elim
  | cell ca =>
    cases b with
    | cell cb => exact CellPlace.mono hab h
    | flux lb bb =>
      obtain ⟨i, hi, j, hj, l, q, k, hk, s, hs, x, hx, rfl⟩ := h
      have h0 : shiftPoint s n q = q := by
        rw [shift_congr q n (t := fun _ => 0) (hab.2 s hs)]
        exact shift_zero q n
      rw [h0] at hx
      have : x.index = k := CA.number_unique g.fv.refWF hx.2.2 (hN.same _ _ _ hk)
      rw [this]
      exact g.self_place hN ho hr hkeys hsub hb ⟨l, q, hk⟩ hi hj

omit [DecidableEq K] in
/-- The rows of an operator. -/
theorem OpPlace.row (g : FVMesh n cells ref dom minL maxL w) (hN : FVNumbers n cells ref) (hsub : constructSubdomain n cells maxL = some sub) {a : LinOp K m p} (ha : a.OK n w)
    {e : Int × Int} (h : OpPlace n L rec cells ref sub maxL e a) : ∃ k, LeafNum n cells k ∧ ∃ i < L.outSize, e.1 = L.row k i := by
  cases a with
  | flux la ba => exact FluxPlace.row g hN hsub ha h
  | cell ca => exact CellPlace.row h

omit [DecidableEq K] in
theorem matAdd_zero {r c : Int} : ∀ {E : List (MatEntry K)}, (∀ e ∈ E, e.1 = r → e.2.1 = c → e.2.2 = 0) → ∀ {A : Int → Int → K}, A r c = 0 → E.foldl matAdd A r c = 0 := by
  intro E
  induction E with
  | nil => intro _ A hA; exact hA
  | cons e E ih =>
    intro hno A hA
    rw [List.foldl_cons]
    refine ih (fun e' he' => hno e' (List.mem_cons_of_mem _ he')) ?_
    unfold matAdd
    split
    · next h => rw [hA, hno e List.mem_cons_self h.1.symm h.2.symm, add_zero]
    · exact hA

omit [DecidableEq K] in
/-- What is not 0 was written. -/
theorem schemeMatrix_place {E : List (MatEntry K)} {r c : Int} (h : schemeMatrix E r c ≠ 0) : ∃ e ∈ E, e.1 = r ∧ e.2.1 = c ∧ e.2.2 ≠ 0 := by
  by_contra hno
  push Not at hno
  apply h
  unfold schemeMatrix
  exact matAdd_zero hno rfl

omit [DecidableEq K] in
theorem matInsert_place {T : List (MatEntry K)} {r c : Int} : ∀ {A : Int → Int → K}, T.foldl matInsert A r c ≠ 0 → A r c ≠ 0 ∨ ∃ e ∈ T, e.1 = r ∧ e.2.1 = c := by
  induction T with
  | nil => intro A h; exact Or.inl h
  | cons e T ih =>
    intro A h
    rw [List.foldl_cons] at h
    rcases ih h with h | ⟨e', he', h⟩
    · unfold matInsert at h
      split at h
      · next h' => exact Or.inr ⟨e, List.mem_cons_self, h'.1.symm, h'.2.symm⟩
      · exact Or.inl h
    · exact Or.inr ⟨e', List.mem_cons_of_mem _ he', h⟩

theorem nnzSet_foldl (P : List (Int × Nat)) (r : Int) : ∀ z : Int → Nat, (P.foldl nnzSet z r = z r ∧ ∀ e ∈ P, e.1 ≠ r) ∨ ∃ e ∈ P, e.1 = r ∧ P.foldl nnzSet z r = e.2 := by
  induction P with
  | nil => intro z; exact Or.inl ⟨rfl, by simp⟩
  | cons e P ih =>
    intro z
    rw [List.foldl_cons]
    rcases ih (nnzSet z e) with ⟨h1, h2⟩ | ⟨e', he', h1, h2⟩
    · by_cases hr : e.1 = r
      · exact Or.inr ⟨e, List.mem_cons_self, hr, by rw [h1]; unfold nnzSet; rw [if_pos hr.symm]⟩
      · refine Or.inl ⟨by rw [h1]; unfold nnzSet; rw [if_neg fun h => hr h.symm], fun e' he' => ?_⟩
        rcases List.mem_cons.1 he' with rfl | he'
        · exact hr
        · exact h2 e' he'
    · exact Or.inr ⟨e', List.mem_cons_of_mem _ he', h1, h2⟩

end

end Samurai

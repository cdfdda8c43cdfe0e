/-
The matrices of the cell-based schemes and of the sums of schemes.
-/
import Verif.Lemmas.CellScheme
import Verif.Lemmas.PetscSolve
import Verif.Lemmas.PetscMarks
import Verif.Props.Algebra

namespace Samurai

section
variable {K : Type} [Field K] {n : Nat} {m p : Nat} {cells ref : CA} {dom : LCA} {minL maxL w : Nat} {L : MatLayout}

theorem stencilLoop_pairs {α γ δ : Type} (f : α → γ → δ) : ∀ (A : List α) (C : List γ), stencilLoop (fun a _ c => [f a c]) A A C = (A.zip C).map fun e => f e.1 e.2 := by
  intro A
  induction A with
  | nil => intro C; cases C <;> rfl
  | cons a A ih =>
    intro C
    cases C with
    | nil => rfl
    | cons c C =>
      show f a c :: stencilLoop _ A A C = _
      rw [ih, List.zip_cons_cons, List.map_cons]

/-- The coefficients of a cell are those of a boundary interface of this cell. -/
theorem cellEntries_eq (center : Nat) (c : List MCell × List ((Fin m → K) →ₗ[K] (Fin p → K))) (f : BdryCall) (h1 : f.cell = cellAt c.1 center) (h2 : f.comput = c.1) :
    cellEntries L center c = bdryEntries L c.2 f := by
  unfold cellEntries bdryEntries
  congr 1
  funext i
  congr 1
  funext j
  rw [stencilLoop_pairs, h1, h2]

/-- The assembly of a cell-based scheme. -/
theorem FVMesh.assembleCell (g : FVMesh n cells ref dom minL maxL w) (hN : AsmNums n cells ref L.nCells) (hm : L.inSize = m) (hp : L.outSize = p) (h0 : K)
    {cd : CellDef K (Fin m → K) (Fin p → K)} (hS : CellStencilOK n w cd.stencil cd.center) :
    ∃ E, Samurai.assembleCell n h0 L ref cells cd = some E ∧
      (∀ e ∈ E, ∃ (k : Int) (i : Fin p), e.1 = L.row k i ∧ LeafNum n cells k) ∧
      (∀ u x, IsVector L.soa L.nCells m L.colShift u x → ∃ rs, Samurai.cellRegions n h0 u ref cells cd = some rs ∧ AsmOK n cells L x rs E) ∧
      ((∀ s ∈ cd.stencil, ∀ k ≤ n, s k = 0) → ∀ e ∈ E, ∃ (k : Int) (j : Fin m), e.2.1 = L.col k j ∧ LeafNum n cells k) ∧
      ∃ R, cellMarks n h0 L ref cells cd = some R ∧ ∀ r, r ∈ R ↔ ∃ k, LeafNum n cells k ∧ ∃ i < L.outSize, r = L.row k i := by
  obtain ⟨ps, l, h1, h2, h3, h4⟩ := g.cellCalls hN.num h0 hS
  have hin : ∀ c ∈ l, LeafNum n cells (cellAt c.1 cd.center).index ∧ (∀ x ∈ c.1, 0 ≤ x.index ∧ x.index < L.nCells) ∧
      ((∀ s ∈ cd.stencil, ∀ k ≤ n, s k = 0) → ∀ x ∈ c.1, LeafNum n cells x.index) := by
    intro c hc
    obtain ⟨e, he, k1, k2, k3, k4⟩ := forall₂_mem h2 hc
    refine ⟨⟨e.1, e.2.1, by rw [k3]; exact k1⟩, fun x hx => ?_, fun hz x hx => ?_⟩
    · obtain ⟨s, -, hs⟩ := forall₂_mem k4 hx
      exact hN.range _ _ _ hs.2.2
    · obtain ⟨s, hs', hs⟩ := forall₂_mem k4 hx
      rw [shift_congr (t := fun _ => 0) _ n (hz s hs'), shift_zero] at hs
      rw [CA.number_unique g.refWF hs.2.2 (hN.num.same _ _ _ k1)]
      exact ⟨_, _, k1⟩
  have hrange : ∀ k, LeafNum n cells k → 0 ≤ k ∧ k < L.nCells := fun k ⟨l, q, hk⟩ => hN.range _ _ _ (hN.num.same _ _ _ hk)
  have hmem : ∀ e ∈ l.flatMap (cellEntries L cd.center), ∃ c ∈ l, e ∈ bdryEntries L c.2 ⟨cellAt c.1 cd.center, c.1⟩ := by
    intro e he
    obtain ⟨c, hc, he⟩ := List.mem_flatMap.1 he
    rw [cellEntries_eq cd.center c ⟨cellAt c.1 cd.center, c.1⟩ rfl rfl] at he
    exact ⟨c, hc, he⟩
  have hrows : ∀ e ∈ l.flatMap (cellEntries L cd.center), ∃ (k : Int) (i : Fin p), e.1 = L.row k i ∧ LeafNum n cells k := by
    intro e he
    obtain ⟨c, hc, he⟩ := hmem e he
    obtain ⟨i, hi⟩ := (bdryEntries_mem hm (hin c hc).2.1 he).1
    exact ⟨_, i, hi, (hin c hc).1⟩
  refine ⟨_, by unfold Samurai.assembleCell; rw [h1]; rfl, hrows, fun u x hx => ⟨_, by unfold Samurai.cellRegions; rw [h1]; rfl, fun e he => ?_, hrows, fun v v0 v1 i => ?_⟩,
    fun hz e he => ?_, _, by unfold cellMarks; rw [h1]; rfl, fun r => ?_⟩
  · obtain ⟨c, hc, he⟩ := hmem e he
    exact (bdryEntries_mem hm (hin c hc).2.1 he).2
  · have : regionUpds [(⟨false, [l.flatMap (cellUpdates u cd.center)]⟩ : Region (Fin p → K))] = l.flatMap (cellUpdates u cd.center) := by
      unfold regionUpds
      simp
    rw [this, updSum_flatMap, rowSum_flatMap, list_sum_at]
    refine sum_map_congr fun c hc => ?_
    rw [cellEntries_eq cd.center c ⟨cellAt c.1 cd.center, c.1⟩ rfl rfl, bdry_rowSum hm hp u hx (hin c hc).2.1 (hrange _ (hin c hc).1) v0 v1 i, updSum_cell]
    split_ifs <;> rfl
  · obtain ⟨c, hc, he⟩ := hmem e he
    unfold bdryEntries at he
    obtain ⟨i, -, he⟩ := List.mem_flatMap.1 he
    obtain ⟨j, -, he⟩ := List.mem_flatMap.1 he
    obtain ⟨a, b, x, hx, he⟩ := stencilLoop_mem he
    rw [List.mem_singleton] at he
    subst he
    exact ⟨x.index, j, rfl, (hin c hc).2.2 hz x hx⟩
  · simp only [List.mem_flatMap, List.mem_map, List.mem_range]
    constructor
    · rintro ⟨c, hc, i, hi, rfl⟩
      exact ⟨_, (hin c hc).1, i, hi, rfl⟩
    · rintro ⟨k, ⟨l', q, hk⟩, i, hi, rfl⟩
      obtain ⟨c, hc, k1, k2, k3, k4⟩ := exists_forall₂ h2 ((h4 (l', q, k)).2 hk)
      exact ⟨c, hc, i, hi, by rw [k3]⟩

/-! ### the sums -/

theorem matVec_append (E F : List (MatEntry K)) (shift : Int) (cols : Nat) (y : Int → K) (r : Int) :
    matVec (schemeMatrix (E ++ F)) shift cols y r = matVec (schemeMatrix E) shift cols y r + matVec (schemeMatrix F) shift cols y r := by
  have h : ∀ (l : List (MatEntry K)) (A : Int → Int → K) r c, l.foldl matAdd A r c = A r c + l.foldl matAdd (fun _ _ => 0) r c := by
    intro l
    induction l with
    | nil => intro A r c; simp
    | cons e l ih =>
      intro A r c
      rw [List.foldl_cons, ih, List.foldl_cons, ih (matAdd (fun _ _ => 0) e)]
      unfold matAdd
      split_ifs <;> ring
  unfold matVec schemeMatrix
  rw [← List.sum_map_add]
  refine sum_map_congr fun j _ => ?_
  rw [List.foldl_append, h F]
  ring

end

end Samurai

import Verif.Spec.Petsc
import Verif.Lemmas.Het
import Mathlib.Algebra.BigOperators.Pi
import Mathlib.Algebra.BigOperators.Fin
import Mathlib.LinearAlgebra.Pi

namespace Samurai

section
variable {K : Type} [Field K]

/-! ### positions in the vectors -/

theorem dataIndex_eq {soa : Bool} {N size : Nat} {shift k : Int} (j : Fin size) :
    dataIndex soa N size shift k j = if soa then shift + (j : Int) * N + k else shift + k * size + (j : Int) := by
  unfold dataIndex
  by_cases h : size = 1
  · have hj : ((j : Nat) : Int) = 0 := by have := j.2; omega
    rw [if_pos h, hj, h]
    cases soa <;> simp
  · rw [if_neg h]

theorem IsVector.at {soa : Bool} {N size : Nat} {shift : Int} {u : Int → Fin size → K} {x : Int → K} (h : IsVector soa N size shift u x) {k : Int}
    (h0 : 0 ≤ k) (h1 : k < N) (j : Fin size) : x (dataIndex soa N size shift k j) = u k j := by
  rw [dataIndex_eq]; exact h k h0 h1 j

theorem dataIndex_range {soa : Bool} {N size : Nat} {shift k : Int} (h0 : 0 ≤ k) (h1 : k < N) (j : Fin size) :
    shift ≤ dataIndex soa N size shift k j ∧ dataIndex soa N size shift k j < shift + (N * size : Nat) := by
  rw [dataIndex_eq]
  have hj := j.2
  have hj' : ((j : Nat) : Int) + 1 ≤ size := by omega
  push_cast
  have a := Int.mul_le_mul_of_nonneg_right hj' (show (0 : Int) ≤ N by omega)
  have b := Int.mul_le_mul_of_nonneg_right (show k + 1 ≤ (N : Int) by omega) (show (0 : Int) ≤ size by omega)
  have c := mul_nonneg (show (0 : Int) ≤ (j : Nat) by omega) (show (0 : Int) ≤ N by omega)
  have d := mul_nonneg h0 (show (0 : Int) ≤ size by omega)
  cases soa
  · simp only [Bool.false_eq_true, if_false]
    constructor
    · linarith
    · linarith [add_mul k 1 (size : Int)]
  · simp only [if_true]
    constructor
    · linarith
    · linarith [add_mul ((j : Nat) : Int) 1 (N : Int), mul_comm (size : Int) (N : Int)]

theorem dataIndex_inj {soa : Bool} {N size : Nat} {shift k k' : Int} (h0 : 0 ≤ k) (h1 : k < N) (h0' : 0 ≤ k') (h1' : k' < N) {j j' : Fin size} :
    dataIndex soa N size shift k j = dataIndex soa N size shift k' j' ↔ k = k' ∧ j = j' := by
  constructor
  · intro h
    rw [dataIndex_eq, dataIndex_eq] at h
    have hj := j.2
    have hj' := j'.2
    cases soa
    · simp only [Bool.false_eq_true, if_false] at h
      have e1 : (k * size + (j : Int)) / size = k := by
        rw [Int.add_comm, Int.add_mul_ediv_right _ _ (by omega), Int.ediv_eq_zero_of_lt (by omega) (by omega), zero_add]
      have e2 : (k' * size + (j' : Int)) / size = k' := by
        rw [Int.add_comm, Int.add_mul_ediv_right _ _ (by omega), Int.ediv_eq_zero_of_lt (by omega) (by omega), zero_add]
      have e : k * size + (j : Int) = k' * size + (j' : Int) := by linarith
      have hk : k = k' := by rw [← e1, e, e2]
      subst hk
      exact ⟨rfl, Fin.ext (by omega)⟩
    · simp only [if_true] at h
      have e1 : (k + (j : Int) * N) / N = j := by
        rw [Int.add_mul_ediv_right _ _ (by omega), Int.ediv_eq_zero_of_lt (by omega) (by omega), zero_add]
      have e2 : (k' + (j' : Int) * N) / N = j' := by
        rw [Int.add_mul_ediv_right _ _ (by omega), Int.ediv_eq_zero_of_lt (by omega) (by omega), zero_add]
      have e : k + (j : Int) * N = k' + (j' : Int) * N := by linarith
      have hk : ((j : Nat) : Int) = (j' : Nat) := by rw [← e1, e, e2]
      have hjj : j = j' := Fin.ext (by omega)
      subst hjj
      exact ⟨by omega, rfl⟩
  · rintro ⟨rfl, rfl⟩; rfl

/-! ### the product by a matrix -/

/-- The sum of the calls of `MatSetValue` for the row `r`, applied to `x`. -/
def rowSum (E : List (MatEntry K)) (x : Int → K) (r : Int) : K := (E.map fun e => if r = e.1 then e.2.2 * x e.2.1 else 0).sum

theorem rowSum_append (a b : List (MatEntry K)) (x : Int → K) (r : Int) : rowSum (a ++ b) x r = rowSum a x r + rowSum b x r := by
  unfold rowSum
  rw [List.map_append, List.sum_append]

theorem rowSum_flatMap {α : Type} (l : List α) (f : α → List (MatEntry K)) (x : Int → K) (r : Int) :
    rowSum (l.flatMap f) x r = (l.map fun a => rowSum (f a) x r).sum := by
  induction l with
  | nil => rfl
  | cons a l ih => rw [List.flatMap_cons, rowSum_append, ih, List.map_cons, List.sum_cons]

theorem foldl_matAdd (E : List (MatEntry K)) : ∀ (A : Int → Int → K) (r c : Int),
    E.foldl matAdd A r c = A r c + (E.map fun e => if r = e.1 ∧ c = e.2.1 then e.2.2 else 0).sum := by
  induction E with
  | nil => intro A r c; simp
  | cons e E ih =>
    intro A r c
    rw [List.foldl_cons, ih, List.map_cons, List.sum_cons]
    unfold matAdd
    split_ifs <;> ring

theorem sum_range_pick (shift : Int) (cols : Nat) (c : Int) (h : shift ≤ c ∧ c < shift + cols) (f : Int → K) :
    ((List.range cols).map fun (k : Nat) => if shift + (k : Int) = c then f (shift + (k : Int)) else 0).sum = f c := by
  have := sum_pick (V := K) (fun k : Nat => shift + (k : Int)) (List.range cols) (List.nodup_range.map (fun a b h => by simpa using h)) c
    (List.mem_map.2 ⟨(c - shift).toNat, List.mem_range.2 (by omega), by omega⟩) (f c)
  rw [← this]
  refine sum_map_congr fun k _ => ?_
  by_cases hk : shift + (k : Int) = c
  · rw [if_pos hk, if_pos hk.symm, hk]
  · rw [if_neg hk, if_neg fun h => hk h.symm]

theorem matVec_schemeMatrix (E : List (MatEntry K)) (shift : Int) (cols : Nat) (x : Int → K) (r : Int)
    (h : ∀ e ∈ E, shift ≤ e.2.1 ∧ e.2.1 < shift + cols) : matVec (schemeMatrix E) shift cols x r = rowSum E x r := by
  unfold matVec schemeMatrix rowSum
  have : ∀ c : Nat, (E.foldl matAdd (fun _ _ => 0) r (shift + (c : Int)) * x (shift + (c : Int)) : K) =
      (E.map fun e => if r = e.1 ∧ shift + (c : Int) = e.2.1 then e.2.2 * x (shift + (c : Int)) else 0).sum := by
    intro c
    rw [foldl_matAdd, zero_add]
    clear h
    induction E with
    | nil => simp
    | cons e E ih =>
      rw [List.map_cons, List.map_cons, List.sum_cons, List.sum_cons, add_mul, ih]
      split_ifs <;> simp
  simp only [this]
  rw [sum_map_comm]
  refine sum_map_congr fun e he => ?_
  by_cases hr : r = e.1
  · rw [if_pos hr]
    have := sum_range_pick shift cols e.2.1 (h e he) fun c => e.2.2 * x c
    rw [← this]
    refine sum_map_congr fun c _ => ?_
    simp only [hr, true_and]
  · rw [if_neg hr]
    rw [show (fun c : Nat => if r = e.1 ∧ shift + (c : Int) = e.2.1 then e.2.2 * x (shift + (c : Int)) else 0) = fun _ => (0 : K) by
      funext c; rw [if_neg fun h => hr h.1]]
    exact sum_map_zero' _

/-! ### one interface -/

theorem sum_finRange {V : Type} [AddCommMonoid V] {m : Nat} (f : Fin m → V) : ((List.finRange m).map f).sum = ∑ j, f j := by
  rw [← List.ofFn_eq_map, List.sum_ofFn]

theorem apply_eq_sum {m p : Nat} (a : (Fin m → K) →ₗ[K] (Fin p → K)) (w : Fin m → K) (i : Fin p) : ∑ j, cellCoeff a i j * w j = a w i := by
  have hw : w = ∑ j, w j • (Pi.single j (1 : K) : Fin m → K) := by
    funext k
    rw [Finset.sum_apply, Finset.sum_eq_single k]
    · simp
    · intro b _ hb
      simp [Ne.symm hb]
    · intro h
      exact absurd (Finset.mem_univ k) h
  conv_rhs => rw [hw]
  rw [map_sum, Finset.sum_apply]
  refine Finset.sum_congr rfl fun j _ => ?_
  rw [map_smul]
  show cellCoeff a i j * w j = w j * a (Pi.single j 1) i
  rw [mul_comm]; rfl

/-- The part of the component `j` of the input in the flux. -/
def compValue {m p : Nat} (u : Int → Fin m → K) (i : Fin p) (j : Fin m) : List ((Fin m → K) →ₗ[K] (Fin p → K)) → List MCell → K
  | a :: A, c :: C => cellCoeff a i j * u c.index j + compValue u i j A C
  | _, _ => 0

theorem compValue_sum {m p : Nat} (u : Int → Fin m → K) (i : Fin p) : ∀ (A : List ((Fin m → K) →ₗ[K] (Fin p → K))) (C : List MCell),
    ((List.finRange m).map fun j => compValue u i j A C).sum = linValue u A C i := by
  intro A
  induction A with
  | nil => intro C; simp only [compValue, sum_map_zero']; rfl
  | cons a A ih =>
    intro C
    cases C with
    | nil => simp only [compValue, sum_map_zero']; rfl
    | cons c C =>
      simp only [compValue]
      rw [sum_map_add', ih, sum_finRange, apply_eq_sum]
      rfl

/-- The numbers of the map are those of cells. -/
def MapRange (N : Nat) (rec : GhostMap K) : Prop := ∀ e ∈ rec, ∀ t ∈ e.2, 0 ≤ t.1 ∧ t.1 < N

omit [Field K] in
theorem find_mem {rec : GhostMap K} {k : Int} {l : LinComb K} (h : rec.find k = some l) : (k, l) ∈ rec := by
  unfold GhostMap.find at h
  induction rec with
  | nil => simp at h
  | cons e rec ih =>
    obtain ⟨k', l'⟩ := e
    rw [List.lookup_cons] at h
    by_cases hk : (k == k') = true
    · rw [hk] at h
      obtain rfl := eq_of_beq hk
      cases h
      exact List.mem_cons_self
    · rw [Bool.not_eq_true] at hk
      rw [hk] at h
      exact List.mem_cons_of_mem _ (ih h)

variable {L : MatLayout} {rec : GhostMap K}

theorem row_inj {p : Nat} (hp : L.outSize = p) {k k' : Int} (h0 : 0 ≤ k) (h1 : k < L.nCells) (h0' : 0 ≤ k') (h1' : k' < L.nCells)
    {i i' : Fin p} : L.row k i = L.row k' i' ↔ k = k' ∧ i = i' := by
  subst hp
  exact dataIndex_inj h0 h1 h0' h1'

theorem rowSum_cons (e : MatEntry K) (E : List (MatEntry K)) (x : Int → K) (r : Int) :
    rowSum (e :: E) x r = (if r = e.1 then e.2.2 * x e.2.1 else 0) + rowSum E x r := by
  unfold rowSum
  rw [List.map_cons, List.sum_cons]

theorem rowSum_nil (x : Int → K) (r : Int) : rowSum ([] : List (MatEntry K)) x r = 0 := rfl

theorem face_loop {m p : Nat} (hm : L.inSize = m) (u : Int → Fin m → K) {x : Int → K} (hx : IsVector L.soa L.nCells m L.colShift u x)
    (hr : MapRange L.nCells rec) (hg : GhostsHold rec u) (i : Fin p) (j : Fin m) (r a b : Int) :
    ∀ (A B : List ((Fin m → K) →ₗ[K] (Fin p → K))) (C : List MCell), A.length = B.length → (∀ c ∈ C, 0 ≤ c.index ∧ c.index < L.nCells) →
    rowSum (stencilLoop (fun s t (c : MCell) =>
      match rec.find c.index with
      | none => [(a, L.col c.index j, cellCoeff s i j), (b, L.col c.index j, cellCoeff t i j)]
      | some l => l.flatMap fun e => [(a, L.col e.1 j, cellCoeff s i j * e.2), (b, L.col e.1 j, cellCoeff t i j * e.2)]) A B C) x r =
    (if r = a then compValue u i j A C else 0) + if r = b then compValue u i j B C else 0 := by
  subst hm
  have hcol : ∀ k : Int, 0 ≤ k → k < L.nCells → x (L.col k j) = u k j := fun k h0 h1 => hx.at h0 h1 j
  intro A
  induction A with
  | nil =>
    intro B C h _
    obtain rfl : B = [] := List.length_eq_zero_iff.1 h.symm
    simp [stencilLoop, compValue, rowSum]
  | cons s A ih =>
    intro B C h hC
    cases B with
    | nil => simp at h
    | cons t B =>
      cases C with
      | nil => simp [stencilLoop, compValue, rowSum]
      | cons c C =>
        simp only [stencilLoop, compValue]
        rw [rowSum_append, ih B C (by simpa using h) fun c hc => hC c (List.mem_cons_of_mem _ hc)]
        have hc := hC c List.mem_cons_self
        have key : rowSum (match rec.find c.index with
            | none => [(a, L.col c.index j, cellCoeff s i j), (b, L.col c.index j, cellCoeff t i j)]
            | some l => l.flatMap fun e => [(a, L.col e.1 j, cellCoeff s i j * e.2), (b, L.col e.1 j, cellCoeff t i j * e.2)]) x r =
            (if r = a then cellCoeff s i j * u c.index j else 0) + if r = b then cellCoeff t i j * u c.index j else 0 := by
          cases hf : rec.find c.index with
          | none =>
            simp only []
            rw [rowSum_cons, rowSum_cons, rowSum_nil, add_zero, hcol _ hc.1 hc.2]
          | some l =>
            have hl := find_mem hf
            have hu : u c.index j = (l.map fun t => t.2 * u t.1 j).sum := by
              have := congrFun (hg _ hl) j
              rw [this]
              show (l.map fun t => t.2 • u t.1).sum j = _
              clear hl hf this
              induction l with
              | nil => rfl
              | cons t l ih => rw [List.map_cons, List.map_cons, List.sum_cons, List.sum_cons, Pi.add_apply, ih]; rfl
            simp only []
            rw [rowSum_flatMap, hu]
            have hrl : ∀ t ∈ l, 0 ≤ t.1 ∧ t.1 < L.nCells := hr _ hl
            clear hl hf hu
            induction l with
            | nil => simp
            | cons e l ih =>
              simp only [List.map_cons, List.sum_cons]
              rw [ih fun t ht => hrl t (List.mem_cons_of_mem _ ht), rowSum_cons, rowSum_cons, rowSum_nil,
                hcol _ (hrl e List.mem_cons_self).1 (hrl e List.mem_cons_self).2]
              split_ifs <;> ring
        rw [key]
        split_ifs <;> ring

theorem bdry_loop {m p : Nat} (hm : L.inSize = m) (u : Int → Fin m → K) {x : Int → K} (hx : IsVector L.soa L.nCells m L.colShift u x)
    (i : Fin p) (j : Fin m) (r a : Int) :
    ∀ (A : List ((Fin m → K) →ₗ[K] (Fin p → K))) (C : List MCell), (∀ c ∈ C, 0 ≤ c.index ∧ c.index < L.nCells) →
    rowSum (stencilLoop (fun s _ (c : MCell) => [(a, L.col c.index j, cellCoeff s i j)]) A A C) x r = if r = a then compValue u i j A C else 0 := by
  subst hm
  intro A
  induction A with
  | nil => intro C _; simp [stencilLoop, compValue, rowSum]
  | cons s A ih =>
    intro C hC
    cases C with
    | nil => simp [stencilLoop, compValue, rowSum]
    | cons c C =>
      have hc := hC c List.mem_cons_self
      simp only [stencilLoop, compValue]
      rw [rowSum_append, ih C fun c hc => hC c (List.mem_cons_of_mem _ hc), rowSum_cons, rowSum_nil]
      have : x (L.col c.index j) = u c.index j := hx.at hc.1 hc.2 j
      simp only [this]
      split_ifs <;> ring

theorem sum_pick_fin {p : Nat} (i : Fin p) (f : Fin p → K) : ((List.finRange p).map fun k => if i = k then f k else 0).sum = f i := by
  rw [sum_finRange]
  simp

/-- The row of a component of a cell, for one interior interface. -/
theorem face_rowSum {m p : Nat} (hm : L.inSize = m) (hp : L.outSize = p) (u : Int → Fin m → K) {x : Int → K}
    (hx : IsVector L.soa L.nCells m L.colShift u x) (hr : MapRange L.nCells rec) (hg : GhostsHold rec u) {A B : List ((Fin m → K) →ₗ[K] (Fin p → K))}
    {f : FaceCall} (hl : A.length = B.length) (hC : ∀ c ∈ f.comput, 0 ≤ c.index ∧ c.index < L.nCells)
    (hL : 0 ≤ f.left.index ∧ f.left.index < L.nCells) (hR : 0 ≤ f.right.index ∧ f.right.index < L.nCells) {v : Int} (h0 : 0 ≤ v) (h1 : v < L.nCells) (i : Fin p) :
    rowSum (faceEntries L rec A B f) x (L.row v i) =
      (if v = f.left.index then linValue u A f.comput i else 0) + if v = f.right.index then linValue u B f.comput i else 0 := by
  unfold faceEntries
  rw [rowSum_flatMap]
  simp only [rowSum_flatMap]
  have step : ∀ k : Fin p, ((List.finRange m).map fun (j : Fin m) => rowSum (stencilLoop (fun s t (c : MCell) =>
      match rec.find c.index with
      | none => [(L.row f.left.index k, L.col c.index j, cellCoeff s k j), (L.row f.right.index k, L.col c.index j, cellCoeff t k j)]
      | some l => l.flatMap fun e => [(L.row f.left.index k, L.col e.1 j, cellCoeff s k j * e.2), (L.row f.right.index k, L.col e.1 j, cellCoeff t k j * e.2)])
      A B f.comput) x (L.row v i)).sum =
      if i = k then (if v = f.left.index then linValue u A f.comput k else 0) + if v = f.right.index then linValue u B f.comput k else 0 else 0 := by
    intro k
    have := fun j => face_loop (p := p) hm u hx hr hg k j (L.row v i) (L.row f.left.index k) (L.row f.right.index k) A B f.comput hl hC
    simp only [this]
    rw [sum_map_add']
    have e1 := row_inj (L := L) hp h0 h1 hL.1 hL.2 (i := i) (i' := k)
    have e2 := row_inj (L := L) hp h0 h1 hR.1 hR.2 (i := i) (i' := k)
    simp only [e1, e2]
    by_cases hk : i = k
    · simp only [hk, and_true, if_true]
      congr 1
      · by_cases hv : v = f.left.index
        · simp only [if_pos hv, compValue_sum]
        · simp only [if_neg hv, sum_map_zero']
      · by_cases hv : v = f.right.index
        · simp only [if_pos hv, compValue_sum]
        · simp only [if_neg hv, sum_map_zero']
    · simp only [hk, and_false, if_false, sum_map_zero', add_zero]
  refine (sum_map_congr fun k _ => step k).trans ?_
  exact sum_pick_fin i fun k => (if v = f.left.index then linValue u A f.comput k else 0) + if v = f.right.index then linValue u B f.comput k else 0

theorem bdry_rowSum {m p : Nat} (hm : L.inSize = m) (hp : L.outSize = p) (u : Int → Fin m → K) {x : Int → K}
    (hx : IsVector L.soa L.nCells m L.colShift u x) {A : List ((Fin m → K) →ₗ[K] (Fin p → K))}
    {f : BdryCall} (hC : ∀ c ∈ f.comput, 0 ≤ c.index ∧ c.index < L.nCells)
    (hL : 0 ≤ f.cell.index ∧ f.cell.index < L.nCells) {v : Int} (h0 : 0 ≤ v) (h1 : v < L.nCells) (i : Fin p) :
    rowSum (bdryEntries L A f) x (L.row v i) = if v = f.cell.index then linValue u A f.comput i else 0 := by
  unfold bdryEntries
  rw [rowSum_flatMap]
  simp only [rowSum_flatMap]
  have step : ∀ k : Fin p, ((List.finRange m).map fun (j : Fin m) => rowSum (stencilLoop (fun s _ (c : MCell) =>
      [(L.row f.cell.index k, L.col c.index j, cellCoeff s k j)]) A A f.comput) x (L.row v i)).sum =
      if i = k then (if v = f.cell.index then linValue u A f.comput k else 0) else 0 := by
    intro k
    have := fun j => bdry_loop (p := p) hm u hx k j (L.row v i) (L.row f.cell.index k) A f.comput hC
    simp only [this]
    have e1 := row_inj (L := L) hp h0 h1 hL.1 hL.2 (i := i) (i' := k)
    simp only [e1]
    by_cases hk : i = k
    · simp only [hk, and_true, if_true]
      by_cases hv : v = f.cell.index
      · simp only [if_pos hv, compValue_sum]
      · simp only [if_neg hv, sum_map_zero']
    · simp only [hk, and_false, if_false, sum_map_zero']
  refine (sum_map_congr fun k _ => step k).trans ?_
  exact sum_pick_fin i fun k => if v = f.cell.index then linValue u A f.comput k else 0

theorem stencilLoop_mem {α β γ δ : Type} {f : α → β → γ → List δ} : ∀ {A : List α} {B : List β} {C : List γ} {e : δ}, e ∈ stencilLoop f A B C →
    ∃ a b, ∃ c ∈ C, e ∈ f a b c := by
  intro A
  induction A with
  | nil => intro B C e h; simp [stencilLoop] at h
  | cons a A ih =>
    intro B C e h
    cases B with
    | nil => simp [stencilLoop] at h
    | cons b B =>
      cases C with
      | nil => simp [stencilLoop] at h
      | cons c C =>
        rw [stencilLoop, List.mem_append] at h
        rcases h with h | h
        · exact ⟨a, b, c, List.mem_cons_self, h⟩
        · obtain ⟨a', b', c', hc, h⟩ := ih h
          exact ⟨a', b', c', List.mem_cons_of_mem _ hc, h⟩

/-- The calls of an interior interface: the rows of its two cells, columns of the matrix. -/
theorem faceEntries_mem {m p : Nat} (hm : L.inSize = m) (hr : MapRange L.nCells rec) {A B : List ((Fin m → K) →ₗ[K] (Fin p → K))}
    {f : FaceCall} (hC : ∀ c ∈ f.comput, 0 ≤ c.index ∧ c.index < L.nCells) {e : MatEntry K} (he : e ∈ faceEntries L rec A B f) :
    (∃ i : Fin p, e.1 = L.row f.left.index i ∨ e.1 = L.row f.right.index i) ∧ L.colShift ≤ e.2.1 ∧ e.2.1 < L.colShift + (L.nCells * L.inSize : Nat) := by
  subst hm
  unfold faceEntries at he
  obtain ⟨i, -, he⟩ := List.mem_flatMap.1 he
  obtain ⟨j, -, he⟩ := List.mem_flatMap.1 he
  obtain ⟨a, b, c, hc, he⟩ := stencilLoop_mem he
  have rng : ∀ k : Int, 0 ≤ k → k < L.nCells → L.colShift ≤ L.col k j ∧ L.col k j < L.colShift + (L.nCells * L.inSize : Nat) :=
    fun k h0 h1 => dataIndex_range h0 h1 j
  cases hf : rec.find c.index with
  | none =>
    rw [hf] at he
    simp only [List.mem_cons, List.not_mem_nil, or_false] at he
    rcases he with rfl | rfl
    · exact ⟨⟨i, Or.inl rfl⟩, rng _ (hC c hc).1 (hC c hc).2⟩
    · exact ⟨⟨i, Or.inr rfl⟩, rng _ (hC c hc).1 (hC c hc).2⟩
  | some l =>
    rw [hf] at he
    obtain ⟨t, ht, he⟩ := List.mem_flatMap.1 he
    have := hr _ (find_mem hf) t ht
    simp only [List.mem_cons, List.not_mem_nil, or_false] at he
    rcases he with rfl | rfl
    · exact ⟨⟨i, Or.inl rfl⟩, rng _ this.1 this.2⟩
    · exact ⟨⟨i, Or.inr rfl⟩, rng _ this.1 this.2⟩

theorem bdryEntries_mem {m p : Nat} (hm : L.inSize = m) {A : List ((Fin m → K) →ₗ[K] (Fin p → K))}
    {f : BdryCall} (hC : ∀ c ∈ f.comput, 0 ≤ c.index ∧ c.index < L.nCells) {e : MatEntry K} (he : e ∈ bdryEntries L A f) :
    (∃ i : Fin p, e.1 = L.row f.cell.index i) ∧ L.colShift ≤ e.2.1 ∧ e.2.1 < L.colShift + (L.nCells * L.inSize : Nat) := by
  subst hm
  unfold bdryEntries at he
  obtain ⟨i, -, he⟩ := List.mem_flatMap.1 he
  obtain ⟨j, -, he⟩ := List.mem_flatMap.1 he
  obtain ⟨a, b, c, hc, he⟩ := stencilLoop_mem he
  simp only [List.mem_cons, List.not_mem_nil, or_false] at he
  subst he
  exact ⟨⟨i, rfl⟩, dataIndex_range (hC c hc).1 (hC c hc).2 j⟩

end

end Samurai

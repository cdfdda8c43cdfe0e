/-
The finite volume expressions of fields: `unp1 = u - dt * upwind(a, u)`, `unp1 = u - dt * upwind_scalar_burgers(a, u)`.
-/
import Verif.Lemmas.StencilField
import Verif.Props.GhostExample
import Verif.Lemmas.Side
import Mathlib.Tactic.Linarith
import Mathlib.Tactic.Positivity
import Mathlib.Algebra.Order.BigOperators.Group.Finset

namespace Samurai

section
variable {K : Type} [Field K] {n : Nat} {cells ref : CA}

/-- C107, first part: `unp1 = u - dt * op(a, u)` succeeds if the neighbours of the leaves are cells of the mesh, gives to each leaf
`u_p - dt / h Σ_d (F_d(u_p, u_{p + e_d}) - F_d(u_{p - e_d}, u_p))`, `h` being the length of this leaf, from the values of `u` before the assignment, and changes nothing else. -/
theorem C107_fv_step (hm : StencilMesh n cells ref) (F : Nat → K → K → K) (scaling dt : K) {s t : Nat} (hst : s ≠ t) (env : Nat → Int → K) (val : Nat → List Int → K)
    (hval : FieldIs n ref (env s) val) :
    ∃ env', fvStep n F scaling dt cells ref s t env = some env' ∧ (∀ k, k ≠ t → env' k = env k) ∧
      (∀ l p v, cells.Mem n l p → (l, p, v) ∈ ref.numbered n → env' t v = fvUpdate n F (scaling / 2 ^ l) dt (val l) p) ∧
      ∀ v, (∀ l p, cells.Mem n l p → (l, p, v) ∉ ref.numbered n) → env' t v = env t v := by
  obtain ⟨c', h0⟩ := forEachCA_const hm.cellsWF (fun (st : Option (Nat → Int → K)) l yz i => st.bind fun env => fvRow n F scaling dt ref s t env l yz i) (some env)
  have hmem : ∀ r ∈ cells.rows n, ∀ x ∈ r.2.2, cells.Mem n r.1 (r.2.1 ++ [x]) := fun r hr x hx => (CA.mem_iff_rows hm.cellsWF).2 ⟨r.2.1, r.2.2, x, hr, hx, rfl⟩
  obtain ⟨env', h1, h2, h3, h4⟩ := fvRows_ok F hm.refWF hm.numbers scaling dt hst (cells.rows n) env (CA.rows_disjoint hm.cellsWF)
    (fun r hr => by
      have hr' := rows_valid (hm.cellsWF r.1 (CA.mem_rows.1 hr).1) (CA.mem_rows.1 hr).2
      exact ⟨hr'.1, hr'.2, hm.steps r hr⟩)
    (fun r hr x hx => hm.leaves _ _ (hmem r hr x hx)) (fun r hr d hd x hx => hm.nextCells _ _ (hmem r hr x hx) d hd)
  have hread : ∀ l p, ref.Mem n l p → env s (numOf n ref l p) = val l p := fun l p h => hval l p _ (numOf_numbered hm.refWF h)
  refine ⟨env', ?_, h2, fun l p v hp hv => ?_, fun v h => h4 v fun r hr x hx hh => ?_⟩
  · unfold fvStep
    rw [h0, h1]
    rfl
  · obtain ⟨yz, i, x, hr, hx, rfl⟩ := (CA.mem_iff_rows hm.cellsWF).1 hp
    rw [(numbered_numOf hm.refWF hv).2, h3 _ hr x hx]
    unfold fvUpdate cellLength
    simp only [hread _ _ (hm.leaves _ _ hp)]
    congr 2
    refine Finset.sum_congr rfl fun d hd => ?_
    have hd : d ≤ n := by have := Finset.mem_range.1 hd; omega
    rw [hread _ _ (hm.nextCells _ _ hp d hd).1, hread _ _ (hm.nextCells _ _ hp d hd).2]
  · exact h _ _ (hmem r hr x hx) (by rw [hh]; exact numOf_numbered hm.refWF (hm.leaves _ _ (hmem r hr x hx)))

/-- What a set of cells of one level loses through the fluxes is what crosses its boundary. -/
theorem sum_fluxes (F : K → K → K) (d : Nat) (f : List Int → K) (S : Finset (List Int)) :
    ∑ p ∈ S, (F (f p) (f (after n d p)) - F (f (before n d p)) (f p)) =
      ∑ p ∈ S with after n d p ∉ S, F (f p) (f (after n d p)) - ∑ p ∈ S with before n d p ∉ S, F (f (before n d p)) (f p) := by
  have hb : ∀ p, before n d (after n d p) = p := fun p => shift_back _ p
  have ha : ∀ p, after n d (before n d p) = p := fun p => shift_forth _ p
  have h : ∑ p ∈ S with after n d p ∈ S, F (f p) (f (after n d p)) = ∑ p ∈ S with before n d p ∈ S, F (f (before n d p)) (f p) := by
    refine Finset.sum_nbij' (fun p => after n d p) (fun p => before n d p) ?_ ?_ ?_ ?_ ?_
    · intro p hp
      have := Finset.mem_filter.1 hp
      exact Finset.mem_filter.2 ⟨this.2, by rw [hb]; exact this.1⟩
    · intro p hp
      have := Finset.mem_filter.1 hp
      exact Finset.mem_filter.2 ⟨this.2, by rw [ha]; exact this.1⟩
    · intro p _; exact hb p
    · intro p _; exact ha p
    · intro p _; rw [hb]
  rw [Finset.sum_sub_distrib, ← Finset.sum_filter_add_sum_filter_not S (fun p => after n d p ∈ S), ← Finset.sum_filter_add_sum_filter_not S (fun p => before n d p ∈ S) (fun p => F (f (before n d p)) (f p)), h]
  ring

/-- C107, second part: the sum of the values over any set of leaves of one level changes only by the fluxes through the faces of its boundary: what leaves a cell enters the next one. -/
theorem C107_balance (hm : StencilMesh n cells ref) (F : Nat → K → K → K) (scaling dt : K) {s t : Nat} (hst : s ≠ t) (env : Nat → Int → K) (val : Nat → List Int → K)
    (hval : FieldIs n ref (env s) val) (l : Nat) (S : Finset (List Int)) (hS : ∀ p ∈ S, cells.Mem n l p) :
    ∃ env', fvStep n F scaling dt cells ref s t env = some env' ∧ ∀ val', FieldIs n ref (env' t) val' →
      ∑ p ∈ S, val' l p = ∑ p ∈ S, val l p - dt / (scaling / 2 ^ l) * ∑ d ∈ Finset.range (n + 1),
        (∑ p ∈ S with after n d p ∉ S, F d (val l p) (val l (after n d p)) - ∑ p ∈ S with before n d p ∉ S, F d (val l (before n d p)) (val l p)) := by
  obtain ⟨env', h1, -, h3, -⟩ := C107_fv_step hm F scaling dt hst env val hval
  refine ⟨env', h1, fun val' hval' => ?_⟩
  have e : ∀ p ∈ S, val' l p = fvUpdate n F (scaling / 2 ^ l) dt (val l) p := fun p hp => by
    have hn := numOf_numbered hm.refWF (hm.leaves _ _ (hS p hp))
    rw [← hval' l p _ hn, h3 l p _ (hS p hp) hn]
  rw [Finset.sum_congr rfl e]
  unfold fvUpdate
  rw [Finset.sum_sub_distrib, ← Finset.mul_sum, Finset.sum_comm]
  simp only [sum_fluxes]

end

section
variable {K : Type} [Field K] [LinearOrder K] [IsStrictOrderedRing K] {n : Nat} {cells ref : CA}

/-- The difference of the fluxes of a cell is a combination of the differences with its neighbours. -/
theorem upwind_difference (a b c e : K) :
    upwindSideFlux a c e - upwindSideFlux a b c = (|a| + a) / 2 * (c - b) + (|a| - a) / 2 * (c - e) := by
  unfold upwindSideFlux; ring

/-- The flux is the one of the cell where the velocity comes from. -/
theorem C107_upwind_side (a ul ur : K) : (0 ≤ a → upwindSideFlux a ul ur = a * ul) ∧ (a ≤ 0 → upwindSideFlux a ul ur = a * ur) := by
  refine ⟨fun h => ?_, fun h => ?_⟩ <;> unfold upwindSideFlux
  · rw [abs_of_nonneg h]; ring
  · rw [abs_of_nonpos h]; ring

/-- C107, third part: if `dt Σ_d |a_d| ≤ h` for the leaf, its new value lies between the least and the greatest of the old values of this leaf and its neighbours. -/
theorem C107_upwind_bounds (hm : StencilMesh n cells ref) (a : Nat → K) (scaling dt : K) (hsc : 0 < scaling) (hdt : 0 ≤ dt) {s t : Nat} (hst : s ≠ t) (env : Nat → Int → K)
    (val : Nat → List Int → K) (hval : FieldIs n ref (env s) val) :
    ∃ env', fvStep n (upwindSideFluxes a) scaling dt cells ref s t env = some env' ∧
      ∀ l p v, cells.Mem n l p → (l, p, v) ∈ ref.numbered n → dt * ∑ d ∈ Finset.range (n + 1), |a d| ≤ scaling / 2 ^ l → ∀ lo hi : K,
        (lo ≤ val l p ∧ val l p ≤ hi) →
        (∀ d ≤ n, lo ≤ val l (after n d p) ∧ val l (after n d p) ≤ hi ∧ lo ≤ val l (before n d p) ∧ val l (before n d p) ≤ hi) → lo ≤ env' t v ∧ env' t v ≤ hi := by
  obtain ⟨env', h1, -, h3, -⟩ := C107_fv_step hm (upwindSideFluxes a) scaling dt hst env val hval
  refine ⟨env', h1, fun l p v hp hv hcfl lo hi h0 hnb => ?_⟩
  rw [h3 l p v hp hv]
  have hh : 0 < scaling / 2 ^ l := by positivity
  generalize scaling / 2 ^ l = h at hcfl hh
  set A := ∑ d ∈ Finset.range (n + 1), |a d| with hA
  have hl : 0 ≤ dt / h := by positivity
  have hl1 : dt / h * A ≤ 1 := by rw [div_mul_eq_mul_div, div_le_one hh]; exact hcfl
  have hterm : ∀ d ∈ Finset.range (n + 1), |a d| * (val l p - hi) ≤ upwindSideFluxes a d (val l p) (val l (after n d p)) - upwindSideFluxes a d (val l (before n d p)) (val l p) ∧
      upwindSideFluxes a d (val l p) (val l (after n d p)) - upwindSideFluxes a d (val l (before n d p)) (val l p) ≤ |a d| * (val l p - lo) := by
    intro d hd
    obtain ⟨b1, b2, b3, b4⟩ := hnb d (by have := Finset.mem_range.1 hd; omega)
    have p1 : 0 ≤ (|a d| + a d) / 2 := by have := neg_abs_le (a d); linarith
    have p2 : 0 ≤ (|a d| - a d) / 2 := by have := le_abs_self (a d); linarith
    unfold upwindSideFluxes
    rw [upwind_difference]
    constructor <;> nlinarith
  have hlo : (∑ d ∈ Finset.range (n + 1), (upwindSideFluxes a d (val l p) (val l (after n d p)) - upwindSideFluxes a d (val l (before n d p)) (val l p))) ≤ A * (val l p - lo) := by
    rw [hA, Finset.sum_mul]; exact Finset.sum_le_sum fun d hd => (hterm d hd).2
  have hhi : A * (val l p - hi) ≤ ∑ d ∈ Finset.range (n + 1), (upwindSideFluxes a d (val l p) (val l (after n d p)) - upwindSideFluxes a d (val l (before n d p)) (val l p)) := by
    rw [hA, Finset.sum_mul]; exact Finset.sum_le_sum fun d hd => (hterm d hd).1
  unfold fvUpdate
  constructor
  · have q1 := mul_le_mul_of_nonneg_left hlo hl
    have q2 : dt / h * A * (val l p - lo) ≤ 1 * (val l p - lo) := mul_le_mul_of_nonneg_right hl1 (by linarith)
    nlinarith
  · have q1 := mul_le_mul_of_nonneg_left hhi hl
    have q2 : dt / h * A * (hi - val l p) ≤ 1 * (hi - val l p) := mul_le_mul_of_nonneg_right hl1 (by linarith)
    nlinarith

/-! ### the scalar Burgers equation -/

/-- C108, partial: with a positive velocity, the flux of `upwind_scalar_burgers` is the flux of Godunov of `u² / 2`; with a negative velocity, the one of the reversed direction.
Missing: the flux does not depend on the size of the velocity, see `C108_velocity_refuted`. -/
theorem C108_godunov_partial (a ul ur : K) :
    (0 < a → IsGodunov (fun u => u ^ 2 / 2) ul ur (scalarBurgersFlux a ul ur)) ∧ (a < 0 → IsGodunov (fun u => u ^ 2 / 2) ur ul (scalarBurgersFlux a ul ur)) := by
  have key : ∀ x y : K, IsGodunov (fun u => u ^ 2 / 2) x y
      (if ¬ x < y then 1 / 2 * max |x| |y| * max |x| |y| else if x < y ∧ x * y > 0 then 1 / 2 * min |x| |y| * min |x| |y| else 0) := by
    intro x y
    refine ⟨fun h => ?_, fun h => ?_⟩
    · rcases lt_or_eq_of_le h with h' | rfl
      · rw [if_neg (not_not.2 h')]
        by_cases hp : x * y > 0
        · rw [if_pos ⟨h', hp⟩]
          rcases pos_and_pos_or_neg_and_neg_of_mul_pos hp with ⟨hx, hy⟩ | ⟨hx, hy⟩
          · rw [abs_of_pos hx, abs_of_pos hy, min_eq_left h]
            refine ⟨⟨x, ⟨le_rfl, h⟩, by ring⟩, ?_⟩
            rintro _ ⟨z, ⟨z1, z2⟩, rfl⟩
            show 1 / 2 * x * x ≤ z ^ 2 / 2
            nlinarith
          · rw [abs_of_neg hx, abs_of_neg hy, min_eq_right (neg_le_neg h)]
            refine ⟨⟨y, ⟨h, le_rfl⟩, by ring⟩, ?_⟩
            rintro _ ⟨z, ⟨z1, z2⟩, rfl⟩
            show 1 / 2 * -y * -y ≤ z ^ 2 / 2
            nlinarith
        · rw [if_neg fun hh => hp hh.2]
          have hx : x ≤ 0 := by
            by_contra hx
            exact hp (mul_pos (not_le.1 hx) (lt_trans (not_le.1 hx) h'))
          have hy : 0 ≤ y := by
            by_contra hy
            exact hp (mul_pos_of_neg_of_neg (lt_trans h' (not_le.1 hy)) (not_le.1 hy))
          refine ⟨⟨0, ⟨hx, hy⟩, by simp⟩, ?_⟩
          rintro _ ⟨z, -, rfl⟩
          show 0 ≤ z ^ 2 / 2
          positivity
      · rw [if_pos (lt_irrefl _), max_self]
        have e : 1 / 2 * |x| * |x| = x ^ 2 / 2 := by rw [← sq_abs]; ring
        rw [e]
        refine ⟨⟨x, ⟨le_rfl, le_rfl⟩, rfl⟩, ?_⟩
        rintro _ ⟨z, ⟨z1, z2⟩, rfl⟩
        rw [le_antisymm z1 z2]
    · rw [if_pos (not_lt.2 h)]
      have e : ∀ m : K, 1 / 2 * |m| * |m| = m ^ 2 / 2 := fun m => by rw [← sq_abs]; ring
      have hz : ∀ z m : K, |z| ≤ |m| → z ^ 2 / 2 ≤ 1 / 2 * |m| * |m| := fun z m h => by
        have := sq_le_sq.2 h
        rw [e]; linarith
      rcases le_total |x| |y| with hxy | hxy
      · rw [max_eq_right hxy]
        refine ⟨⟨y, ⟨le_rfl, h⟩, (e y).symm⟩, ?_⟩
        rintro _ ⟨z, ⟨z1, z2⟩, rfl⟩
        exact hz z y ((abs_le_max_abs_abs z1 z2).trans (by rw [max_eq_left hxy]))
      · rw [max_eq_left hxy]
        refine ⟨⟨x, ⟨h, le_rfl⟩, (e x).symm⟩, ?_⟩
        rintro _ ⟨z, ⟨z1, z2⟩, rfl⟩
        exact hz z x ((abs_le_max_abs_abs z1 z2).trans (by rw [max_eq_right hxy]))
  refine ⟨fun h => ?_, fun h => ?_⟩
  · have := key ul ur
    unfold scalarBurgersFlux
    simpa only [mul_lt_mul_iff_right₀ h] using this
  · have := key ur ul
    unfold scalarBurgersFlux
    rw [mul_comm ur ul, max_comm, min_comm] at this
    simpa only [mul_lt_mul_left_of_neg h] using this

/-- The size of the velocity has no effect, and the velocity 0 does not stop the flow: the flux of the uniform state `c` is `c² / 2` for every velocity, where `a c² / 2` is expected. -/
theorem C108_velocity_refuted (a c : K) : scalarBurgersFlux a c c = c ^ 2 / 2 ∧ ¬ ∀ a c : K, scalarBurgersFlux a c c = a * (c ^ 2 / 2) := by
  have e : ∀ a c : K, scalarBurgersFlux a c c = c ^ 2 / 2 := fun a c => by
    unfold scalarBurgersFlux
    simp only [lt_irrefl, not_false_eq_true, if_true, max_self]
    rw [← sq_abs]; ring
  refine ⟨e a c, fun h => ?_⟩
  have := h 0 1
  rw [e] at this
  norm_num at this

end

/-! ### concrete cases -/

/-- The cells of `cornerMesh` and their neighbours, with their numbers. -/
def haloCalls : List (Nat × CellCall) :=
  [(1, .interval [-1] (.mk' (-1) 3)), (1, .interval [0] (.mk' (-1) 3)), (1, .interval [1] (.mk' (-1) 3)), (1, .interval [2] (.mk' (-1) 3)),
   (2, .interval [1] (.mk' 1 5)), (2, .interval [2] (.mk' 1 5)), (2, .interval [3] (.mk' 1 5)), (2, .interval [4] (.mk' 1 5))]

def haloMesh : CA := match runLevelCalls 1 3 haloCalls with
  | some cl => CA.ofCL cl
  | none => CA.empty 1 3

def haloRef : CA := (updateIndexCA 1 haloMesh).getD haloMesh

theorem haloMesh_spec : haloMesh.WF 1 ∧ ∀ l (y x : Int), (l = 1 ∧ -1 ≤ y ∧ y < 3 ∧ -1 ≤ x ∧ x < 3) ∨ (l = 2 ∧ 1 ≤ y ∧ y < 5 ∧ 1 ≤ x ∧ x < 5) → haloMesh.Mem 1 l [y, x] := by
  obtain ⟨cl, h1, h2⟩ := (hist_new 1 3).calls (k := haloCalls) (by
    simp [haloCalls, CellCall.idx, CellCall.Valid, Interval.mk'])
  have he : haloMesh = CA.ofCL cl := by
    unfold haloMesh runLevelCalls
    rw [h1]
  obtain ⟨-, a2, -, -, a5⟩ := h2.array
  rw [he]
  refine ⟨a2, fun l y x => ?_⟩
  rw [a5]
  simp only [haloCalls, List.mem_cons, Prod.mk.injEq, List.not_mem_nil, or_false, false_or]
  rintro (⟨rfl, y1, y2, x1, x2⟩ | ⟨rfl, y1, y2, x1, x2⟩)
  · obtain rfl | rfl | rfl | rfl : y = -1 ∨ y = 0 ∨ y = 1 ∨ y = 2 := by omega
    · exact ⟨_, .inl ⟨rfl, rfl⟩, x, x1, x2, rfl⟩
    · exact ⟨_, .inr (.inl ⟨rfl, rfl⟩), x, x1, x2, rfl⟩
    · exact ⟨_, .inr (.inr (.inl ⟨rfl, rfl⟩)), x, x1, x2, rfl⟩
    · exact ⟨_, .inr (.inr (.inr (.inl ⟨rfl, rfl⟩))), x, x1, x2, rfl⟩
  · obtain rfl | rfl | rfl | rfl : y = 1 ∨ y = 2 ∨ y = 3 ∨ y = 4 := by omega
    · exact ⟨_, .inr (.inr (.inr (.inr (.inl ⟨rfl, rfl⟩)))), x, x1, x2, rfl⟩
    · exact ⟨_, .inr (.inr (.inr (.inr (.inr (.inl ⟨rfl, rfl⟩))))), x, x1, x2, rfl⟩
    · exact ⟨_, .inr (.inr (.inr (.inr (.inr (.inr (.inl ⟨rfl, rfl⟩)))))), x, x1, x2, rfl⟩
    · exact ⟨_, .inr (.inr (.inr (.inr (.inr (.inr (.inr ⟨rfl, rfl⟩)))))), x, x1, x2, rfl⟩

theorem cornerStencil : StencilMesh 1 cornerMesh haloRef := by
  obtain ⟨c, g1, g2, g3, g4, g5, g6⟩ := C08_levels 1 _ haloMesh_spec.1
  have he : haloRef = c := by unfold haloRef; rw [g1]; rfl
  have hmem : ∀ l (y x : Int), (l = 1 ∧ -1 ≤ y ∧ y < 3 ∧ -1 ≤ x ∧ x < 3) ∨ (l = 2 ∧ 1 ≤ y ∧ y < 5 ∧ 1 ≤ x ∧ x < 5) → c.Mem 1 l [y, x] := fun l y x h => (g4 _ _).2 (haloMesh_spec.2 l y x h)
  rw [he]
  refine ⟨cornerMesh_spec.2.1, by decide +kernel, g3, ?_, fun l p h => ?_, fun l p h d hd => ?_⟩
  · unfold CA.NumbersDiffer
    rw [g6]
    exact (List.nodup_map_iff fun a b hab => by simpa using hab).2 List.nodup_range
  · rcases (cornerMesh_mem l p).1 h with ⟨rfl, y, x, y1, y2, x1, x2, -, rfl⟩ | ⟨rfl, y, x, y1, y2, x1, x2, rfl⟩
    · exact hmem _ _ _ (.inl ⟨rfl, by omega, by omega, by omega, by omega⟩)
    · exact hmem _ _ _ (.inr ⟨rfl, by omega, by omega, by omega, by omega⟩)
  · obtain rfl | rfl : d = 0 ∨ d = 1 := by omega
    all_goals
      rcases (cornerMesh_mem l p).1 h with ⟨rfl, y, x, y1, y2, x1, x2, -, rfl⟩ | ⟨rfl, y, x, y1, y2, x1, x2, rfl⟩
      · simp only [after, before, shiftPoint, unitDir]
        exact ⟨hmem _ _ _ (.inl ⟨rfl, by simp <;> omega, by simp <;> omega, by simp <;> omega, by simp <;> omega⟩),
          hmem _ _ _ (.inl ⟨rfl, by simp <;> omega, by simp <;> omega, by simp <;> omega, by simp <;> omega⟩)⟩
      · simp only [after, before, shiftPoint, unitDir]
        exact ⟨hmem _ _ _ (.inr ⟨rfl, by simp <;> omega, by simp <;> omega, by simp <;> omega, by simp <;> omega⟩),
          hmem _ _ _ (.inr ⟨rfl, by simp <;> omega, by simp <;> omega, by simp <;> omega, by simp <;> omega⟩)⟩

/-- C107 on `cornerMesh`, on two levels: the velocity (1, -1/2) satisfies the condition on the step for `dt = 1 / 6` in the leaf (2, 2) of level 2, and the new value of the leaf is bounded. -/
example (env : Nat → Int → Rat) : ∃ env', fvStep 1 (upwindSideFluxes fun d => if d = 0 then 1 else -1 / 2) 1 (1 / 6) cornerMesh haloRef 0 1 env = some env' ∧ env' 0 = env 0 ∧
    ∃ v, (2, [2, 2], v) ∈ haloRef.numbered 1 ∧ ∀ hi, (∀ k, env 0 k ≤ hi) → env' 1 v ≤ hi := by
  have hval : FieldIs 1 haloRef (env 0) (fun l p => env 0 (numOf 1 haloRef l p)) := fun l p i h => by rw [(numbered_numOf cornerStencil.refWF h).2]
  obtain ⟨env', h1, h2, -⟩ := C107_fv_step cornerStencil (upwindSideFluxes fun d => if d = 0 then 1 else -1 / 2) 1 (1 / 6) (s := 0) (t := 1) (by omega) env _ hval
  obtain ⟨env2, k1, k2⟩ := C107_upwind_bounds cornerStencil (fun d => if d = 0 then 1 else -1 / 2) 1 (1 / 6) (by norm_num) (by norm_num) (s := 0) (t := 1) (by omega) env _ hval
  obtain rfl : env' = env2 := by rw [h1] at k1; exact Option.some.inj k1
  have hm : cornerMesh.Mem 1 2 [2, 2] := (cornerMesh_mem _ _).2 (.inr ⟨rfl, 2, 2, by omega, by omega, by omega, by omega, rfl⟩)
  have hn := numOf_numbered cornerStencil.refWF (cornerStencil.leaves _ _ hm)
  refine ⟨env', h1, h2 0 (by omega), _, hn, fun hi hb => ?_⟩
  set f := fun p => env 0 (numOf 1 haloRef 2 p) with hf
  refine (k2 2 [2, 2] _ hm hn (by norm_num [Finset.sum_range_succ, abs_of_neg]) (min (f [2, 2]) (min (min (f (after 1 0 [2, 2])) (f (before 1 0 [2, 2]))) (min (f (after 1 1 [2, 2])) (f (before 1 1 [2, 2]))))) hi
    ⟨min_le_left _ _, hb _⟩ fun d hd => ?_).2
  have hm2 := min_le_right (f [2, 2]) (min (min (f (after 1 0 [2, 2])) (f (before 1 0 [2, 2]))) (min (f (after 1 1 [2, 2])) (f (before 1 1 [2, 2]))))
  obtain rfl | rfl : d = 0 ∨ d = 1 := by omega
  · exact ⟨hm2.trans ((min_le_left _ _).trans (min_le_left _ _)), hb _, hm2.trans ((min_le_left _ _).trans (min_le_right _ _)), hb _⟩
  · exact ⟨hm2.trans ((min_le_right _ _).trans (min_le_left _ _)), hb _, hm2.trans ((min_le_right _ _).trans (min_le_right _ _)), hb _⟩

/-- C107_balance on the two leaves of the first row of `cornerMesh` with the scheme of Burgers. -/
example (env : Nat → Int → Rat) : ∃ env', fvStep 1 (scalarBurgersFluxes fun _ => 1) 1 (1 / 6) cornerMesh haloRef 0 1 env = some env' :=
  (C107_balance cornerStencil (scalarBurgersFluxes fun _ => 1) 1 (1 / 6) (s := 0) (t := 1) (by omega) env (fun l p => env 0 (numOf 1 haloRef l p))
    (fun l p i h => by rw [(numbered_numOf cornerStencil.refWF h).2]) 1 {[0, 0], [0, 1]} (fun p hp => by
      rcases Finset.mem_insert.1 hp with rfl | hp
      · exact (cornerMesh_mem _ _).2 (.inl ⟨rfl, 0, 0, by omega, by omega, by omega, by omega, by omega, rfl⟩)
      · rw [Finset.mem_singleton.1 hp]
        exact (cornerMesh_mem _ _).2 (.inl ⟨rfl, 0, 1, by omega, by omega, by omega, by omega, by omega, rfl⟩))).imp fun _ h => h.1

/-- C107 does not hold for an assignment in place, `u = u - dt * upwind(a, u)`: the rows are written one after the other, and the second row of `cornerMesh` reads the new value of the
first one. Expressions without neighbours can be assigned in place (C96). -/
theorem C107_in_place_refuted : StencilMesh 1 cornerMesh haloRef ∧ ∃ (env env' : Nat → Int → Rat) (v w : Int),
    fvStep 1 (upwindSideFluxes fun d => if d = 1 then 1 else 0) 2 (1 / 2) cornerMesh haloRef 0 0 env = some env' ∧
    cornerMesh.Mem 1 1 [1, 0] ∧ (1, [1, 0], v) ∈ haloRef.numbered 1 ∧ (1, [0, 0], w) ∈ haloRef.numbered 1 ∧
    env' 0 v ≠ env 0 v - 1 / 2 * (env 0 v - env 0 w) := by
  refine ⟨cornerStencil, fun _ k => (k : Rat) ^ 2, ?_⟩
  have h : ((fvStep 1 (upwindSideFluxes fun d => if d = 1 then (1 : Rat) else 0) 2 (1 / 2) cornerMesh haloRef 0 0 fun _ k => (k : Rat) ^ 2).map fun env' => decide ((1, [1, 0], 9) ∈ haloRef.numbered 1 ∧
      (1, [0, 0], 5) ∈ haloRef.numbered 1 ∧ env' 0 9 ≠ (9 : Rat) ^ 2 - 1 / 2 * ((9 : Rat) ^ 2 - (5 : Rat) ^ 2))) = some true := by decide +kernel
  obtain ⟨env', h1, h2⟩ := Option.map_eq_some_iff.1 h
  obtain ⟨h2, h3, h4⟩ := of_decide_eq_true h2
  exact ⟨env', 9, 5, h1, (cornerMesh_mem _ _).2 (.inl ⟨rfl, 1, 0, by omega, by omega, by omega, by omega, by omega, rfl⟩), h2, h3, by simpa using h4⟩

end Samurai

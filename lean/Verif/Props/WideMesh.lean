/-
A mesh with leaves that lie between leaves of their level: it meets the hypotheses of the theorems on the operators.
-/
import Verif.Lemmas.Operators

namespace Samurai

/-- In 2D, a square: three leaves of level 1 (y = 0) and the leaves of level 2 above. -/
def wideCalls : List (Nat × CellCall) :=
  [(1, .interval [0] (.mk' 0 3)), (2, .interval [2] (.mk' 0 6)), (2, .interval [3] (.mk' 0 6)), (2, .interval [4] (.mk' 0 6)), (2, .interval [5] (.mk' 0 6))]

def wideMesh : CA := match runLevelCalls 1 3 wideCalls with
  | some cl => CA.ofCL cl
  | none => CA.empty 1 3

theorem wideMesh_hist : ∃ cl : CL 1, wideMesh = CA.ofCL cl ∧ (CA.ofCL cl).maxSize = 3 ∧ (CA.ofCL cl).WF 1 ∧ (CA.ofCL cl).Leveled ∧
    ∀ l p, (CA.ofCL cl).Mem 1 l p ↔ (l = 1 ∧ ∃ x : Int, 0 ≤ x ∧ x < 3 ∧ p = [0, x]) ∨ l = 2 ∧ ∃ y x : Int, 2 ≤ y ∧ y < 6 ∧ 0 ≤ x ∧ x < 6 ∧ p = [y, x] := by
  obtain ⟨cl, h1, h2⟩ := (hist_new 1 3).calls (k := wideCalls) (by
    simp [wideCalls, CellCall.idx, CellCall.Valid, Interval.mk'])
  obtain ⟨a1, a2, a3, -, a5⟩ := h2.array
  refine ⟨cl, by unfold wideMesh runLevelCalls; rw [h1], a1, a2, a3, fun l p => ?_⟩
  rw [a5]
  simp only [wideCalls, List.mem_cons, Prod.mk.injEq, List.not_mem_nil, or_false, false_or]
  constructor
  · rintro ⟨c, hc, ha⟩
    rcases hc with ⟨rfl, rfl⟩ | ⟨rfl, rfl⟩ | ⟨rfl, rfl⟩ | ⟨rfl, rfl⟩ | ⟨rfl, rfl⟩ <;> obtain ⟨x, x1, x2, rfl⟩ := ha <;> simp only [Interval.mk'] at x1 x2
    · exact Or.inl ⟨rfl, x, x1, x2, rfl⟩
    all_goals exact Or.inr ⟨rfl, _, x, by omega, by omega, x1, x2, rfl⟩
  · rintro (⟨rfl, x, x1, x2, rfl⟩ | ⟨rfl, y, x, y1, y2, x1, x2, rfl⟩)
    · exact ⟨_, Or.inl ⟨rfl, rfl⟩, x, x1, x2, rfl⟩
    · obtain rfl | rfl | rfl | rfl : y = 2 ∨ y = 3 ∨ y = 4 ∨ y = 5 := by omega
      · exact ⟨_, Or.inr (Or.inl ⟨rfl, rfl⟩), x, x1, x2, rfl⟩
      · exact ⟨_, Or.inr (Or.inr (Or.inl ⟨rfl, rfl⟩)), x, x1, x2, rfl⟩
      · exact ⟨_, Or.inr (Or.inr (Or.inr (Or.inl ⟨rfl, rfl⟩))), x, x1, x2, rfl⟩
      · exact ⟨_, Or.inr (Or.inr (Or.inr (Or.inr ⟨rfl, rfl⟩))), x, x1, x2, rfl⟩

theorem wideMesh_mem (l : Nat) (p : List Int) : wideMesh.Mem 1 l p ↔
    (l = 1 ∧ ∃ x : Int, 0 ≤ x ∧ x < 3 ∧ p = [0, x]) ∨ l = 2 ∧ ∃ y x : Int, 2 ≤ y ∧ y < 6 ∧ 0 ≤ x ∧ x < 6 ∧ p = [y, x] := by
  obtain ⟨cl, h1, -, -, -, h2⟩ := wideMesh_hist
  rw [h1, h2]

theorem wideMesh_wf : wideMesh.WF 1 := by
  obtain ⟨cl, h1, -, h2, -⟩ := wideMesh_hist
  rw [h1]; exact h2

theorem wideMesh_between : wideMesh.Between 1 1 2 := by
  intro l p h
  rcases (wideMesh_mem l p).1 h with ⟨rfl, -⟩ | ⟨rfl, -⟩ <;> omega

def wideDomain : LCA := match constructSubdomain 1 wideMesh 2 with
  | some S => S
  | none => exampleArray

theorem wideDomain_spec : wideDomain.WF 1 ∧ wideDomain.level = 2 ∧ ∀ p, wideDomain.Mem 1 p ↔ ∃ l q, wideMesh.Mem 1 l q ∧ Anc (2 - l) q p := by
  obtain ⟨S, h1, h2, h3, h4⟩ := C56_subdomain 1 wideMesh 1 2 wideMesh_wf wideMesh_between
  have : wideDomain = S := by unfold wideDomain; rw [h1]
  rw [this]
  exact ⟨h2, h3, h4⟩

theorem wideInDomain (m : List Int) : InDomain 1 wideDomain 2 m ↔ ∃ y x : Int, 0 ≤ y ∧ y < 6 ∧ 0 ≤ x ∧ x < 6 ∧ m = [y, x] := by
  obtain ⟨-, d2, d3⟩ := wideDomain_spec
  unfold InDomain
  rw [d2]
  constructor
  · rintro ⟨p, h1, h2⟩
    obtain rfl := anc_zero.1 h2
    obtain ⟨l, q, h3, h4⟩ := (d3 _).1 h1
    rcases (wideMesh_mem l q).1 h3 with ⟨rfl, x, x1, x2, rfl⟩ | ⟨rfl, y, x, y1, y2, x1, x2, rfl⟩
    · obtain ⟨y', x', rfl, h5, h6⟩ := anc_pair.1 h4
      norm_num at h5 h6
      exact ⟨y', x', by omega, by omega, by omega, by omega, rfl⟩
    · rw [anc_zero] at h4
      exact ⟨y, x, by omega, y2, x1, x2, h4.symm⟩
  · rintro ⟨y, x, y1, y2, x1, x2, rfl⟩
    refine ⟨_, (d3 _).2 ?_, anc_zero.2 rfl⟩
    by_cases hy : y < 2
    · exact ⟨1, [0, x / 2], (wideMesh_mem _ _).2 (Or.inl ⟨rfl, x / 2, by omega, by omega, rfl⟩), anc_pair.2 ⟨y, x, rfl, by norm_num; omega, by norm_num⟩⟩
    · exact ⟨2, [y, x], (wideMesh_mem _ _).2 (Or.inr ⟨rfl, y, x, by omega, y2, x1, x2, rfl⟩), anc_zero.2 rfl⟩

theorem wideDomain_good (margin : Nat) (h : margin ≤ 100) : GoodDomain 1 wideDomain 1 2 margin := by
  obtain ⟨d1, d2, -⟩ := wideDomain_spec
  refine ⟨d1, by omega, fun p m m' h1 h2 h3 => ?_, 6, by omega, by unfold INT_MAX; omega, fun m hm x hx => ?_⟩
  · rw [wideInDomain] at h3 ⊢
    obtain ⟨y, x, y1, y2, x1, x2, rfl⟩ := h3
    rw [anc_iff] at h1
    simp only [List.map_cons, List.map_nil] at h1
    subst h1
    obtain ⟨y', x', rfl, h5, h6⟩ := anc_pair.1 h2
    norm_num [shr] at h5 h6
    exact ⟨y', x', by omega, by omega, by omega, by omega, rfl⟩
  · obtain ⟨y, z, y1, y2, x1, x2, rfl⟩ := (wideInDomain m).1 hm
    simp only [List.mem_cons, List.not_mem_nil, or_false] at hx
    omega

theorem wideLeaves_good : GoodLeaves 1 wideMesh wideDomain 1 2 := by
  obtain ⟨-, d2, d3⟩ := wideDomain_spec
  obtain ⟨cl, e1, e2, -, e3, -⟩ := wideMesh_hist
  refine ⟨wideMesh_wf, by rw [e1]; exact e3, by rw [e1, e2]; omega, wideMesh_between, fun l p l' p' h h' hl ha => ?_, fun l p l' p' q h h' _ _ _ => ?_, fun m => ?_⟩
  · rw [wideMesh_mem] at h h'
    rcases h with ⟨rfl, x, x1, x2, rfl⟩ | ⟨rfl, y, x, y1, y2, x1, x2, rfl⟩ <;> rcases h' with ⟨rfl, z, z1, z2, rfl⟩ | ⟨rfl, t, z, t1, t2, z1, z2, rfl⟩
    · exact ⟨rfl, anc_zero.1 ha⟩
    · exfalso
      obtain ⟨a, b, he, h3, h4⟩ := anc_pair.1 ha
      simp only [List.cons.injEq, and_true] at he
      norm_num at h3 h4
      omega
    · omega
    · exact ⟨rfl, anc_zero.1 ha⟩
  · have h1 := wideMesh_between _ _ h
    have h2 := wideMesh_between _ _ h'
    omega
  · unfold InDomain
    rw [d2]
    constructor
    · rintro ⟨l, p, -, h1, h2⟩
      exact ⟨m, (d3 m).2 ⟨l, p, h1, h2⟩, anc_zero.2 rfl⟩
    · rintro ⟨d, h1, h2⟩
      obtain rfl := anc_zero.1 h2
      obtain ⟨l, q, h3, h4⟩ := (d3 _).1 h1
      exact ⟨l, q, (wideMesh_between _ _ h3).2, h3, h4⟩

/-- The multiresolution mesh on these leaves meets the hypotheses of the theorems on the operators; the leaf (x, y) = (2, 3) of level 2 lies between leaves of its level. -/
theorem wideFV : ∃ m x sub, mrMesh 1 ⟨2, 1⟩ wideMesh 1 2 = some (m, x) ∧ FVMesh 1 m.cells m.all wideDomain 1 2 2 ∧
    FVNumbers 1 m.cells m.all ∧ constructSubdomain 1 m.cells 2 = some sub ∧ ∃ v, (2, [3, 2], v) ∈ m.cells.numbered 1 ∧ Regular 1 m.cells 2 [3, 2] := by
  obtain ⟨m, x, h1, h2, h3⟩ := adaptInv_init' (cfg := ⟨2, 1⟩) (wideDomain_good (2 + 1 + 4) (by omega)) (by decide) wideLeaves_good
  have hf := h2.fv (wideDomain_good (2 + 1 + 4) (by omega)) (by decide)
  obtain ⟨sub, hs⟩ := hf.subdomain
  have hm : ∀ y x : Int, 2 ≤ y → y < 6 → 0 ≤ x → x < 6 → m.cells.Mem 1 2 [y, x] := fun y x y1 y2 x1 x2 =>
    (h3 _ _).2 ((wideMesh_mem _ _).2 (Or.inr ⟨rfl, y, x, y1, y2, x1, x2, rfl⟩))
  refine ⟨m, x, sub, h1, hf, h2.fvNumbers, hs, ?_⟩
  have h32 := hm 3 2 (by omega) (by omega) (by omega) (by omega)
  obtain ⟨v, -, hv⟩ := num_of_mem (yz := [3]) (x := 2) (hf.leaves.wf 2 h32.1) h32.2
  refine ⟨v, num_numbered h32.1 hv, h32, fun d hd => ?_⟩
  obtain rfl | rfl : d = 0 ∨ d = 1 := by omega
  · exact ⟨hm 3 3 (by omega) (by omega) (by omega) (by omega), hm 3 1 (by omega) (by omega) (by omega) (by omega)⟩
  · exact ⟨hm 4 2 (by omega) (by omega) (by omega) (by omega), hm 2 2 (by omega) (by omega) (by omega) (by omega)⟩

end Samurai

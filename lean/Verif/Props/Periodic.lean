/-
Periodic directions: the ghosts outside the domain get the values of the cells one period away.
-/
import Verif.Spec.Periodic
import Verif.Lemmas.PeriodicMeshFull
import Verif.Props.GhostExample

namespace Samurai

section
variable {n : Nat} {cfg : MeshConfig} {cells : CA} {dom : LCA} {minL maxL base : Nat} {b : Box} {P : Nat → Bool}

/-- On every multiresolution mesh with the periodic directions `P` built on a box, whatever the leaves in the box, the mesh can be built and, on
every level where the domain has at least `ghost_width` cells in the periodic directions, `update_ghost_periodic` succeeds on every field:
- the cell that periodicity identifies with a cell of the mesh around the domain (at most `ghost_width` cells away) is in the mesh;
- each cell of the mesh around the domain has, after the update, the value of that cell before the update;
- the value of a cell changes only if it is around the domain and outside in a periodic direction. -/
theorem C51_periodic {K : Type} [Field K] (h : LeavesInBox n cells minL maxL base b (cfg.maxStencilWidth + cfg.predictionOrder + 1))
    (hdom : BoxDomain n dom base b) (hdl : maxL ≤ dom.level) (hgw : 1 ≤ cfg.ghostWidth)
    (hflat : minL = maxL → ∀ p, InBox (b.refined (minL - base)) n p → cells.Mem n minL p) :
    ∃ m u, mrMeshPeriodic n cfg dom P cells minL maxL = some (m, u) ∧ ∀ l, base ≤ l → l ≤ maxL →
      (∀ d ≤ n, P d = true → (cfg.ghostWidth : Int) ≤ (b.refined (l - base)).hi d - (b.refined (l - base)).lo d) → ∀ (h0 : K) (f : Int → K),
      ∃ f', updateGhostPeriodic n ⟨m.cells, m.all, dom, minL, maxL, P, h0, cfg⟩ l f = some f' ∧
        (∀ p, m.all.Mem n l p → AroundBox n cfg.ghostWidth (b.refined (l - base)) p →
          ∃ q, PeriodicImage n P (b.refined (l - base)) p q ∧ m.all.Mem n l q ∧ f' (numOf n m.all l p) = f (numOf n m.all l q)) ∧
        ∀ l' p, m.all.Mem n l' p →
          (l' ≠ l ∨ ¬ AroundBox n cfg.ghostWidth (b.refined (l - base)) p ∨ ¬ OutsideAlong n P (b.refined (l - base)) p) →
          f' (numOf n m.all l' p) = f (numOf n m.all l' p) := by
  obtain ⟨m, u, h1, h2⟩ := mrMeshPeriodic_spec (P := P) h hdom hdl hgw
  refine ⟨m, u, h1, fun l hl1 hl2 hw h0 f => ?_⟩
  have hr := h2.ready h hdom.pos hgw hflat hl1 hl2 hw
  obtain ⟨f', f1, f2, f3⟩ := updateGhostPeriodic_spec (M := ⟨m.cells, m.all, dom, minL, maxL, P, h0, cfg⟩) (hdom.finer hl1 (by omega)) hr f
  refine ⟨f', f1, f3, fun l' p hp hout => f2 _ fun g hg ⟨t1, t2⟩ he => ?_⟩
  obtain ⟨rfl, rfl⟩ := numOf_level hr.wf hr.numbers hp hg he
  rcases hout with h | h | h
  · exact h rfl
  · exact h t1
  · exact h t2

/-- Which cells the mesh has: the leaves, the ghosts around them, and their periodic copies around the domain. -/
theorem C51_mesh (h : LeavesInBox n cells minL maxL base b (cfg.maxStencilWidth + cfg.predictionOrder + 1))
    (hdom : BoxDomain n dom base b) (hdl : maxL ≤ dom.level) (hgw : 1 ≤ cfg.ghostWidth)
    (hflat : minL = maxL → ∀ p, InBox (b.refined (minL - base)) n p → cells.Mem n minL p) :
    ∃ m u, mrMeshPeriodic n cfg dom P cells minL maxL = some (m, u) ∧
      (∀ l p, m.cells.Mem n l p ↔ cells.Mem n l p) ∧
      (∀ l p q, cells.Mem n l q → Near cfg.maxStencilWidth p q → m.all.Mem n l p) ∧
      (∀ l, base ≤ l → (∀ d ≤ n, P d = true → (cfg.ghostWidth : Int) ≤ (b.refined (l - base)).hi d - (b.refined (l - base)).lo d) →
        HasImages n P cfg.ghostWidth (b.refined (l - base)) (m.all.Mem n l)) ∧
      ((m.all.numbered n).map fun e => e.2.2) = (List.range m.all.nbCells).map (fun (k : Nat) => (k : Int)) := by
  obtain ⟨m, u, h1, h2⟩ := mrMeshPeriodic_spec (P := P) h hdom hdl hgw
  obtain ⟨m0, m1, m2⟩ := h2.content
  refine ⟨m, u, h1, fun l p => (m2.mem.1 l p).trans (by rw [m1.cells_eq]), fun l p q hq hn => ?_, fun l hl hw => h2.hasImages h hdom.pos hflat hl hw, m2.numbers⟩
  exact (m2.mem.2.2.2 l p).2 (m1.ghosts_all ((m1.ghosts l p).2 ⟨q, hq, hn⟩))

/-- Without periodic direction the construction is the one of the other meshes. -/
theorem C51_none (hdom : BoxDomain n dom base b) :
    mrMeshPeriodic n cfg dom (fun _ => false) cells minL maxL = mrMesh n cfg cells minL maxL := by
  obtain ⟨I, hI, _⟩ := level_box hdom
  have hdirs : (List.range (n + 1)).filter (fun _ => false) = [] := by simp
  have h1 : ∀ (s : CL n × CA), mrPeriodicGhosts n cfg dom (fun _ => false) s = some s := by
    intro s
    unfold mrPeriodicGhosts
    rw [hI]
    simp only []
    generalize List.range' s.2.minLevel (s.2.maxLevel + 1 - s.2.minLevel) = ls
    induction ls with
    | nil => rfl
    | cons l ls ih =>
      rw [List.foldlM_cons]
      have : mrPeriodicLevel n cfg dom.level I (fun _ => false) s l = some s := by
        unfold mrPeriodicLevel
        simp only [hdirs]
        rw [if_neg (by simp)]
        rfl
      rw [this]
      exact ih
  have h2 : ∀ u, mrUpdateSubMeshPeriodic n cfg dom (fun _ => false) cells u minL maxL = mrUpdateSubMesh n cfg cells u minL maxL := by
    intro u
    unfold mrUpdateSubMeshPeriodic mrUpdateSubMesh
    cases mrGhostList n cfg cells with
    | none => rfl
    | some cl0 =>
      simp only []
      split
      · cases List.foldlM (mrParentStep n cfg cells u (CA.ofCL cl0)) cl0 (downFrom cells.maxLevel (if cells.minLevel = 0 then 1 else cells.minLevel)) with
        | none => rfl
        | some cl1 =>
          simp only []
          rw [h1]
          rfl
      · rfl
  unfold mrMeshPeriodic mrMesh
  simp only [h2]
  rfl

end

/-! ### a square with three leaves of level 1 and four of level 2 -/

theorem cornerMesh_inBox : LeavesInBox 1 cornerMesh 1 2 0 ⟨fun _ => 0, fun _ => 1⟩ 3 := by
  refine ⟨cornerMesh_spec.2.1, cornerMesh_spec.2.2.1, fun l p hp => ?_, by rw [cornerMesh_spec.1]; omega, by omega, fun l p hp => ?_, 8, by omega, ?_,
    fun _ _ => by norm_num⟩
  · rcases (cornerMesh_mem l p).1 hp with h | h <;> omega
  · rcases (cornerMesh_mem l p).1 hp with ⟨rfl, y, x, h1, h2, h3, h4, _, rfl⟩ | ⟨rfl, y, x, h1, h2, h3, h4, rfl⟩ <;>
      simp only [InBox, Box.refined] <;> norm_num <;> omega
  · norm_num [INT_MAX]

/-- The hypotheses are met by the adapted square, periodic in both directions. -/
example : ∃ m u, mrMeshPeriodic 1 ⟨1, 1⟩ squareDomain (fun _ => true) cornerMesh 1 2 = some (m, u) ∧ ∀ (f : Int → Rat),
    ∃ f', updateGhostPeriodic 1 ⟨m.cells, m.all, squareDomain, 1, 2, fun _ => true, 1, ⟨1, 1⟩⟩ 1 f = some f' ∧
      f' (numOf 1 m.all 1 [-1, -1]) = f (numOf 1 m.all 1 [1, 1]) := by
  obtain ⟨m, u, h1, h2⟩ := C51_periodic (K := Rat) (cfg := ⟨1, 1⟩) (P := fun _ => true) cornerMesh_inBox cornerDomain_box (by decide) (by decide)
    (fun h => absurd h (by decide))
  obtain ⟨m', u', g1, -, g2, -⟩ := C51_mesh (cfg := ⟨1, 1⟩) (P := fun _ => true) cornerMesh_inBox cornerDomain_box (by decide) (by decide)
    (fun h => absurd h (by decide))
  rw [h1] at g1
  obtain ⟨rfl, rfl⟩ : m = m' ∧ u = u' := by simpa using g1
  refine ⟨m, u, h1, fun f => ?_⟩
  obtain ⟨f', f1, f2, -⟩ := h2 1 (by omega) (by omega) (fun d _ _ => by simp [Box.refined]; decide) 1 f
  refine ⟨f', f1, ?_⟩
  have hmem : m.all.Mem 1 1 [-1, -1] := g2 1 _ [0, 0] ((cornerMesh_mem 1 _).2 (.inl ⟨rfl, 0, 0, by simp⟩)) (by simp [Near])
  obtain ⟨q, q1, -, q3⟩ := f2 _ hmem ⟨rfl, fun d hd => by
    interval_cases d <;> simp [toPt, Box.refined] <;> decide⟩
  rw [q3]
  suffices q = [1, 1] by rw [this]
  obtain ⟨e1, e2⟩ := q1
  match q, e1 with
  | [y, x], _ =>
    have a0 := e2 0 (by omega)
    have a1 := e2 1 (by omega)
    simp [toPt, Box.refined] at a0 a1
    have : x = 1 := by omega
    have : y = 1 := by omega
    simp [*]

/-! ### a domain narrower than the ghosts -/

/-- Three leaves of level 2 and two of level 3, on a domain of one cell of level 0. -/
def narrowMesh : CA := match runLevelCalls 0 3 [(2, .interval [] (.mk' 0 3)), (3, .interval [] (.mk' 6 8))] with
  | some cl => CA.ofCL cl
  | none => CA.empty 0 3

def narrowDomain : LCA := LCA.ofBox 0 3 ⟨fun _ => 0, fun _ => 8⟩

/-- The value of the cell `x` of level 0 after `update_ghost_periodic` on the level 0, with two ghosts; the field contains the numbers of the cells. -/
def narrowValue (x : Int) : Option (Rat × Int × Int) :=
  match mrMeshPeriodic 0 ⟨2, 2⟩ narrowDomain (fun _ => true) narrowMesh 2 3 with
  | none => none
  | some (m, _) =>
    match updateGhostPeriodic 0 (⟨m.cells, m.all, narrowDomain, 2, 3, fun _ => true, 1, ⟨2, 2⟩⟩ : BcMesh Rat) 0 fun i => i with
    | none => none
    | some f =>
      match getIndex (m.all.lca 0) 0 [] x, getIndex (m.all.lca 0) 0 [] 0 with
      | some i, some j => some (f i, i, j)
      | _, _ => none

/-- The hypothesis on the width is necessary: on a level where the domain has one cell and the mesh has two layers of ghosts, the outer ghost gets the
value (number 1) that the other ghost had before the update, not the value of the cell of the domain (number 2). -/
theorem C51_narrow_refuted : narrowValue (-2) = some (1, 0, 2) := by decide +kernel

end Samurai

/-
C111: the solvers of local equations solve the equation of each cell, whatever the order and the threads, and change nothing else.
C112: the scheme made by an expression of schemes of stencil 1 is the expression, and its Jacobian is the derivative.
-/
import Verif.Lemmas.LocalSolver

namespace Samurai

section
variable {K κ S : Type} [Sub K] {n : Nat}

/-- C111: for every Newton method, schedule and layout of the fields, when `solve` succeeds, in each cell of the schedule the test of convergence holds of the equation of this cell with the new values of
the unknown and the old values of the right-hand side; the other fields do not change, nor the unknown outside these cells. The right-hand side is another field, or the fields have several components, stored first. -/
theorem C111_local_equations (a : LocalSolvers K κ n) (nm : NewtonMethod K S n) (fresh : S) (index : κ → Nat) (soa : Bool) (N rhs : Nat) (sched : List (κ × Nat)) (m m' : FieldMem K)
    (hg : GoodSchedule index N sched) {u : Nat} (hu : a.unknown = some u) (hne : rhs ≠ u ∨ (1 < n ∧ soa = true))
    (h : a.solve nm fresh index soa N rhs sched m = some m') :
    ∃ F, a.scheme.fn = some F ∧
      (∀ ct ∈ sched, nm.converged (F ct.1 (readLocal soa N m u (index ct.1)) - readLocal soa N m rhs (index ct.1))
        (F ct.1 (readLocal soa N m' u (index ct.1)) - readLocal soa N m rhs (index ct.1)) = true) ∧
      (∀ f, f ≠ u → m' f = m f) ∧
      ∀ p, (∀ ct ∈ sched, ∀ i : Fin n, fieldPos soa N (index ct.1) i ≠ p) → m' u p = m u p := by
  unfold LocalSolvers.solve at h
  rw [hu] at h
  match hF : a.scheme.fn, hJ : a.scheme.jac with
  | none, _ => rw [hF] at h; exact absurd h (by simp)
  | some _, none => rw [hF, hJ] at h; exact absurd h (by simp)
  | some F, some J =>
    rw [hF, hJ] at h
    obtain ⟨st, e1, e2⟩ := Option.map_eq_some_iff.1 h
    obtain ⟨h1, h2, h3⟩ := solveLoop_ok hne sched _ st hg e1
    subst e2
    refine ⟨F, rfl, fun ct hct => ?_, h1, h2⟩
    obtain ⟨s, s', e⟩ := h3 ct hct
    exact localNewton_converged e

/-- C111: with a method without memory, the result (also the failure) depends neither on the order of the cells nor on the threads. -/
theorem C111_schedule_independent (a : LocalSolvers K κ n) (nm : NewtonMethod K S n) (hm : nm.Memoryless) (fresh fresh' : S) (index : κ → Nat) (soa : Bool) (N rhs : Nat) (sched sched' : List (κ × Nat))
    (hcells : ∀ c, c ∈ sched.map Prod.fst ↔ c ∈ sched'.map Prod.fst) (m : FieldMem K) (hg : GoodSchedule index N sched) (hg' : GoodSchedule index N sched')
    (hne : a.unknown ≠ some rhs ∨ (1 < n ∧ soa = true)) :
    a.solve nm fresh index soa N rhs sched m = a.solve nm fresh' index soa N rhs sched' m := by
  unfold LocalSolvers.solve
  match hu : a.unknown, hF : a.scheme.fn, hJ : a.scheme.jac with
  | none, _, _ => rfl
  | some _, none, _ => rfl
  | some _, some _, none => rfl
  | some u, some F, some J =>
    rw [hu] at hne
    have hne' : rhs ≠ u ∨ (1 < n ∧ soa = true) := hne.imp_left fun h e => h (by rw [e])
    have hmem : ∀ {s1 s2 : List (κ × Nat)}, (∀ c, c ∈ s1.map Prod.fst ↔ c ∈ s2.map Prod.fst) → ∀ ct ∈ s1, ∃ ct' ∈ s2, ct'.1 = ct.1 := fun {s1 s2} hc ct hct => by
      obtain ⟨ct', h1, h2⟩ := List.mem_map.1 ((hc ct.1).1 (List.mem_map_of_mem hct))
      exact ⟨ct', h1, h2⟩
    -- if one succeeds the other one does
    have key : ∀ (s1 s2 : List (κ × Nat)) (f1 f2 : S) (st : (Nat → S) × FieldMem K), (∀ c, c ∈ s1.map Prod.fst ↔ c ∈ s2.map Prod.fst) → GoodSchedule index N s1 → GoodSchedule index N s2 →
        solveLoop nm F J index soa N u rhs s1 (fun _ => f1, m) = some st → ∃ st', solveLoop nm F J index soa N u rhs s2 (fun _ => f2, m) = some st' ∧ st'.2 = st.2 :=
      fun s1 s2 f1 f2 st hc g1 g2 e => by
        obtain ⟨h1, h2, h3⟩ := solveLoop_ok hne' s1 _ st g1 e
        obtain ⟨st', e'⟩ := solveLoop_some hm hne' s2 (fun _ => f2, m) g2 (F := F) (J := J) fun ct hct => by
          obtain ⟨ct', hct', e1⟩ := hmem (fun c => (hc c).symm) ct hct
          obtain ⟨s, s', e2⟩ := h3 ct' hct'
          rw [← e1]
          exact ⟨s, by rw [e2]; rfl⟩
        obtain ⟨k1, k2, k3⟩ := solveLoop_ok hne' s2 _ st' g2 e'
        refine ⟨st', e', ?_⟩
        funext f p
        by_cases hf : f = u
        · subst hf
          by_cases hp : ∃ ct ∈ s1, ∃ i : Fin n, fieldPos soa N (index ct.1) i = p
          · obtain ⟨ct, hct, i, rfl⟩ := hp
            obtain ⟨ct', hct', e1⟩ := hmem hc ct hct
            obtain ⟨s, s', e2⟩ := h3 ct hct
            obtain ⟨t, t', e3⟩ := k3 ct' hct'
            rw [e1] at e3
            have := localNewton_memoryless hm (F ct.1) (J ct.1) (readLocal soa N m rhs (index ct.1)) s t (readLocal soa N m f (index ct.1))
            rw [show localNewton nm (F ct.1) (J ct.1) (readLocal soa N m rhs (index ct.1)) s (readLocal soa N m f (index ct.1)) = _ from e2,
              show localNewton nm (F ct.1) (J ct.1) (readLocal soa N m rhs (index ct.1)) t (readLocal soa N m f (index ct.1)) = _ from e3] at this
            have := congrFun (Option.some.inj this) i
            exact this.symm
          · have hp1 : ∀ ct ∈ s1, ∀ i : Fin n, fieldPos soa N (index ct.1) i ≠ p := fun ct hct i e => hp ⟨ct, hct, i, e⟩
            have hp2 : ∀ ct ∈ s2, ∀ i : Fin n, fieldPos soa N (index ct.1) i ≠ p := fun ct hct i e => by
              obtain ⟨ct', hct', e1⟩ := hmem (fun c => (hc c).symm) ct hct
              exact hp ⟨ct', hct', i, by rw [e1]; exact e⟩
            rw [h2 p hp1, k2 p hp2]
        · rw [h1 f hf, k1 f hf]
    show (solveLoop nm F J index soa N u rhs sched (fun _ => fresh, m)).map Prod.snd = (solveLoop nm F J index soa N u rhs sched' (fun _ => fresh', m)).map Prod.snd
    match h1 : solveLoop nm F J index soa N u rhs sched (fun _ => fresh, m) with
    | some st =>
      obtain ⟨st', e1, e2⟩ := key sched sched' fresh fresh' st hcells hg hg' h1
      rw [e1, Option.map_some, Option.map_some, e2]
    | none =>
      match h2 : solveLoop nm F J index soa N u rhs sched' (fun _ => fresh', m) with
      | none => rfl
      | some st =>
        obtain ⟨st', e1, -⟩ := key sched' sched fresh' fresh st (fun c => (hcells c).symm) hg' hg h2
        rw [h1] at e1
        exact absurd e1 (by simp)

end

/-! ### C112 -/

section
variable {K κ : Type} {n : Nat}

/-- C112: the function of the scheme made by an expression is the value of the expression. -/
theorem C112_value [Field K] (length : κ → K) (e : LocalExpr K κ n) : ∃ f, (e.scheme length).fn = some f ∧ ∀ c x, f c x = e.value length c x := by
  induction e with
  | user f J => exact ⟨f, rfl, fun _ _ => rfl⟩
  | scale a e ih =>
    obtain ⟨f, h1, h2⟩ := ih
    refine ⟨fun c x => a • f c x, by simp [LocalExpr.scheme, LocalNonlin.scale, h1], fun c x => ?_⟩
    funext i
    simp [LocalExpr.value, h2]
  | add l e ih =>
    obtain ⟨f, h1, h2⟩ := ih
    refine ⟨fun c x => f c x + blockVec (l (length c)) x, by simp [LocalExpr.scheme, LocalNonlin.addLin, h1], fun c x => ?_⟩
    funext i
    simp only [LocalExpr.value, Pi.add_apply, h2, blockVec_eq]
    ring
  | sub l e ih =>
    obtain ⟨f, h1, h2⟩ := ih
    refine ⟨fun c x => (-1 : K) • f c x + blockVec (l (length c)) x, by simp [LocalExpr.scheme, LocalNonlin.linSub, LocalNonlin.scale, LocalNonlin.addLin, h1], fun c x => ?_⟩
    funext i
    simp only [LocalExpr.value, Pi.add_apply, Pi.smul_apply, smul_eq_mul, h2, blockVec_eq]
    ring

/-- C112: the Jacobian of the scheme made by an expression is the derivative of the value of the expression, if those of the user are. -/
theorem C112_jacobian [NontriviallyNormedField K] (length : κ → K) (e : LocalExpr K κ n) (h : e.UserJacobians) :
    ∃ J, (e.scheme length).jac = some J ∧ ∀ c x, IsJacobian (fun x => e.value length c x) (J c x) x := by
  have hlin : ∀ (A : Matrix (Fin n) (Fin n) K) (x : Fin n → K) (i j : Fin n), HasDerivAt (fun t => ∑ k, A i k * Function.update x j t k) (A i j) (x j) := fun A x i j => by
    have h1 : ∀ t, ∑ k, A i k * Function.update x j t k = A i j * t + ∑ k, if k = j then 0 else A i k * x k := fun t => by
      have : A i j * t = ∑ k, if k = j then A i j * t else 0 := by simp
      rw [this, ← Finset.sum_add_distrib]
      refine Finset.sum_congr rfl fun k _ => ?_
      by_cases hk : k = j
      · subst hk; simp
      · simp [hk]
    simp only [h1]
    have := ((hasDerivAt_id (x j)).const_mul (A i j)).add_const (∑ k, if k = j then 0 else A i k * x k)
    simpa using this
  induction e with
  | user f J => exact ⟨J, rfl, fun c x => h c x⟩
  | scale a e ih =>
    obtain ⟨J, h1, h2⟩ := ih h
    refine ⟨fun c x => a • J c x, by simp [LocalExpr.scheme, LocalNonlin.scale, h1], fun c x i j => ?_⟩
    exact (h2 c x i j).const_mul a
  | add l e ih =>
    obtain ⟨J, h1, h2⟩ := ih h
    refine ⟨fun c x => J c x + l (length c), by simp [LocalExpr.scheme, LocalNonlin.addLin, h1], fun c x i j => ?_⟩
    have := (h2 c x i j).add (hlin (l (length c)) x i j)
    have e : (fun t => (LocalExpr.add l e).value length c (Function.update x j t) i) = (fun t => e.value length c (Function.update x j t) i) + fun t => ∑ k, l (length c) i k * Function.update x j t k := by
      funext t
      simp only [LocalExpr.value, Pi.add_apply]
      ring
    show HasDerivAt (fun t => (LocalExpr.add l _).value length c (Function.update x j t) i) (J c x i j + l (length c) i j) (x j)
    rw [e]
    exact this
  | sub l e ih =>
    obtain ⟨J, h1, h2⟩ := ih h
    refine ⟨fun c x => (-1 : K) • J c x + l (length c), by simp [LocalExpr.scheme, LocalNonlin.linSub, LocalNonlin.scale, LocalNonlin.addLin, h1], fun c x i j => ?_⟩
    have := (hlin (l (length c)) x i j).sub (h2 c x i j)
    have e : ((-1 : K) • J c x + l (length c)) i j = l (length c) i j - J c x i j := by
      simp only [Matrix.add_apply, Matrix.smul_apply, smul_eq_mul]; ring
    show HasDerivAt _ (((-1 : K) • J c x + l (length c)) i j) (x j)
    rw [e]
    exact this

end

/-! ### concrete cases and refutations -/

/-- The Newton method with exact solves, which stops when the components of the residual are at most 1/2. -/
def exactNewton (n : Nat) : NewtonMethod Rat Unit n where
  next _ _ J r x := ((), fun i => x i - r i / J x i i)
  converged _ r := (List.finRange n).all fun i => decide (-1 / 2 ≤ r i ∧ r i ≤ 1 / 2)
  maxIt := 50

theorem exactNewton_memoryless (n : Nat) : (exactNewton n).Memoryless := fun _ _ _ _ _ _ => rfl

/-- The equations `x² = b`. -/
def squares (n : Nat) : LocalNonlin Rat Nat n := LocalNonlin.make (fun _ x i => x i * x i) (fun _ x => Matrix.diagonal fun i => 2 * x i)

/-- Two cells, the unknown (field 0) is 4 and 9, the right-hand side (field 1) too. -/
def squareData : FieldMem Rat := fun _ p => if p = 0 then 4 else if p = 1 then 9 else 7

/-- The values of the unknown after a solve. -/
def valuesAfter (r : Option (FieldMem Rat)) : Option (Rat × Rat × Rat) := r.map fun m => (m 0 0, m 0 1, m 0 2)

-- the hypotheses are met, in two orders, and the solve succeeds
example : GoodSchedule (fun c : Nat => c) 3 [(0, 0), (1, 1)] ∧ GoodSchedule (fun c : Nat => c) 3 [(1, 0), (0, 0)] :=
  ⟨⟨by decide, by decide⟩, ⟨by decide, by decide⟩⟩

example : (valuesAfter ((⟨some 0, squares 1⟩ : LocalSolvers Rat Nat 1).solve (exactNewton 1) () id false 3 1 [(0, 0), (1, 1)] squareData)).isSome = true := by decide +kernel

example : valuesAfter ((⟨some 0, squares 1⟩ : LocalSolvers Rat Nat 1).solve (exactNewton 1) () id false 3 1 [(0, 0), (1, 1)] squareData) =
    valuesAfter ((⟨some 0, squares 1⟩ : LocalSolvers Rat Nat 1).solve (exactNewton 1) () id false 3 1 [(1, 0), (0, 0)] squareData) := by
  rw [C111_schedule_independent _ (exactNewton 1) (exactNewton_memoryless 1) () () id false 3 1 [(0, 0), (1, 1)] [(1, 0), (0, 0)] (by simp [or_comm]) squareData ⟨by decide, by decide⟩ ⟨by decide, by decide⟩
    (.inl (by simp))]

theorem exists_of_map_true {α : Type} {o : Option α} {p : α → Bool} (h : o.map p = some true) : ∃ m, o = some m ∧ p m = true := by
  obtain ⟨m, h1, h2⟩ := Option.map_eq_some_iff.1 h
  exact ⟨m, h1, h2⟩

/-- C111 refuted for `solve(u, u)` with fields of one component (or stored by cells): the vectors of the unknown and of the right-hand side are the same memory, the solve succeeds and its result does not
solve the equation; with a right-hand side of the same values in another field it does. -/
theorem C111_alias_refuted : ∃ m m', (⟨some 0, squares 1⟩ : LocalSolvers Rat Nat 1).solve (exactNewton 1) () id false 3 0 [(0, 0)] squareData = some m ∧
    (⟨some 0, squares 1⟩ : LocalSolvers Rat Nat 1).solve (exactNewton 1) () id false 3 1 [(0, 0)] squareData = some m' ∧
    m 0 0 * m 0 0 - 4 < -1 / 2 ∧ -1 / 2 ≤ m' 0 0 * m' 0 0 - 4 ∧ m' 0 0 * m' 0 0 - 4 ≤ 1 / 2 := by
  obtain ⟨m, h1, h2⟩ := exists_of_map_true (o := (⟨some 0, squares 1⟩ : LocalSolvers Rat Nat 1).solve (exactNewton 1) () id false 3 0 [(0, 0)] squareData)
    (p := fun m => decide (m 0 0 * m 0 0 - 4 < -1 / 2)) (by decide +kernel)
  obtain ⟨m', h3, h4⟩ := exists_of_map_true (o := (⟨some 0, squares 1⟩ : LocalSolvers Rat Nat 1).solve (exactNewton 1) () id false 3 1 [(0, 0)] squareData)
    (p := fun m => decide (-1 / 2 ≤ m 0 0 * m 0 0 - 4 ∧ m 0 0 * m 0 0 - 4 ≤ 1 / 2)) (by decide +kernel)
  exact ⟨m, m', h1, h3, of_decide_eq_true h2, of_decide_eq_true h4⟩

/-- C111 refuted for assigned solvers: `a = b` keeps the scheme of `a`, it does not solve the equations of `b`. -/
theorem C111_assign_refuted : ∃ (a b : LocalSolvers Rat Nat 1) (m m' : FieldMem Rat), (a.assign b).unknown = b.unknown ∧
    (a.assign b).solve (exactNewton 1) () id false 3 1 [(0, 0)] squareData = some m ∧ b.solve (exactNewton 1) () id false 3 1 [(0, 0)] squareData = some m' ∧ m 0 0 = 4 ∧ m' 0 0 = 2 := by
  obtain ⟨m, h1, h2⟩ := exists_of_map_true (o := ((⟨none, LocalNonlin.make (fun _ x => x) (fun _ _ => 1)⟩ : LocalSolvers Rat Nat 1).assign
    ⟨some 0, LocalNonlin.make (fun _ x i => 2 * x i) (fun _ _ => Matrix.diagonal fun _ => 2)⟩).solve (exactNewton 1) () id false 3 1 [(0, 0)] squareData)
    (p := fun m => decide (m 0 0 = 4)) (by decide +kernel)
  obtain ⟨m', h3, h4⟩ := exists_of_map_true (o := (⟨some 0, LocalNonlin.make (fun _ x i => 2 * x i) (fun _ _ => Matrix.diagonal fun _ => 2)⟩ : LocalSolvers Rat Nat 1).solve (exactNewton 1) () id false 3 1
    [(0, 0)] squareData) (p := fun m => decide (m 0 0 = 2)) (by decide +kernel)
  exact ⟨_, _, m, m', rfl, h1, h3, of_decide_eq_true h2, of_decide_eq_true h4⟩

/-- The implicit Euler step of a reaction: `id - dt * reaction`. -/
def implicitReaction (dt : ℝ) : LocalExpr ℝ Nat 1 := .sub (fun _ => 1) (.scale dt (.user (fun _ x i => x i * x i * (1 - x i)) (fun _ x => Matrix.diagonal fun i => 2 * x i - 3 * (x i * x i))))

example (dt : ℝ) : (implicitReaction dt).UserJacobians := by
  intro _ x i j
  obtain rfl : i = j := Subsingleton.elim _ _
  have h := (((hasDerivAt_id (x i)).mul (hasDerivAt_id (x i))).mul ((hasDerivAt_const (x i) (1 : ℝ)).sub (hasDerivAt_id (x i))))
  show HasDerivAt (fun t => Function.update x i t i * Function.update x i t i * (1 - Function.update x i t i)) (Matrix.diagonal (fun i => 2 * x i - 3 * (x i * x i)) i i) (x i)
  simp only [Function.update_self, Matrix.diagonal_apply_eq]
  have e : 2 * x i - 3 * (x i * x i) = (1 * x i + x i * 1) * (1 - x i) + (x i * x i) * (0 - 1) := by ring
  rw [e]
  exact h

example (dt : ℝ) (x : Fin 1 → ℝ) : (implicitReaction dt).value (fun _ => 1) 0 x 0 = x 0 - dt * (x 0 * x 0 * (1 - x 0)) := by
  simp [implicitReaction, LocalExpr.value]

end Samurai
